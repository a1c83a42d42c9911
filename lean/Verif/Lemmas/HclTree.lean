import Verif.Lemmas.Refs
import Verif.Spec.HclTree
import Verif.Lemmas.HclDecode
/-!
# Lemmas about generic decoding with the tree of variables
-/
set_option linter.unusedSimpArgs false

namespace Verif.HclS
open Verif.Tree (Heap Le Walk Stored Named Child CV Edge)
open Hcl (Cty Expr GV ctyToNative keyE mkList)
open Det (insertK ltB)

/-! ## Growing trees -/

/-- The tree has grown; what is stored in nodes before `b` is still stored, and nodes have no new children but new nodes. -/
structure GrowB (b : Nat) (h h' : Heap Cty) : Prop extends Grow b h h' where
  back : ∀ i n c, c < h.length → Child h' i n c → Child h i n c

theorem GrowB.refl (b h) : GrowB b h h := ⟨.refl b h, fun _ _ _ _ h => h⟩

theorem GrowB.trans {b h h' h''} (x : GrowB b h h') (y : GrowB b h' h'') : GrowB b h h'' :=
  ⟨x.toGrow.trans y.toGrow, fun i n c hc hh => x.back i n c hc (y.back i n c (by have := x.le.length; omega) hh)⟩

theorem GrowB.mono {b b' h h'} (x : GrowB b h h') (hb : b' ≤ b) : GrowB b' h h' := ⟨x.toGrow.mono hb, x.back⟩

theorem GrowB.walk {b h h'} (g : GrowB b h h') (hi : Tree.Inv h') {i q j} (hw : Walk h' i q j) (hj : j < h.length) : Walk h i q j := by
  induction hw with
  | nil => exact .nil _
  | cons hc hw ih =>
    have := (walk_le hi hw).1
    exact .cons (g.back _ _ _ (by omega) hc) (ih hj)

/-- A tree in which nothing is stored under the name of a block, below the root. -/
structure SaneR (N : Bytes → Prop) (root : Nat) (h : Heap Cty) : Prop where
  inv : Tree.Inv h
  free : FreeFrom N h root

/-- A node that is not on the paths of blocks. -/
def Off (N : Bytes → Prop) (root : Nat) (h : Heap Cty) (j : Nat) : Prop := root < j ∧ ∀ q, (∀ x ∈ q, N x) → ¬ Walk h root q j

theorem Off.grow {N root b h h' j} (ho : Off N root h j) (g : GrowB b h h') (hi : Tree.Inv h') (hj : j < h.length) : Off N root h' j :=
  ⟨ho.1, fun q hq hw => ho.2 q hq (g.walk hi hw hj)⟩

theorem walk_last {h : Heap Cty} : ∀ {q i j}, Walk h i q j → q = [] ∧ i = j ∨ ∃ q' n p, q = q' ++ [n] ∧ Walk h i q' p ∧ Child h p n j
  | [], i, j, hw => by cases hw; exact Or.inl ⟨rfl, rfl⟩
  | n :: q, i, j, hw => by
    cases hw with
    | @cons _ _ c _ _ hc hw =>
      rcases walk_last hw with ⟨rfl, rfl⟩ | ⟨q', m, p, rfl, h1, h2⟩
      · exact Or.inr ⟨[], n, i, rfl, .nil _, hc⟩
      · exact Or.inr ⟨n :: q', m, p, rfl, .cons hc h1, h2⟩

theorem edge_up {h : Heap Cty} (hi : Tree.Inv h) {i j c} (h1 : Edge h i c) (h2 : Edge h j c) : i = j := by
  obtain ⟨a, a1, a2⟩ := h1
  obtain ⟨d, d1, d2⟩ := h2
  obtain ⟨_, e, e1, e2⟩ := hi.down i a a1 c a2
  obtain ⟨_, f, f1, f2⟩ := hi.down j d d1 c d2
  rw [e1] at f1; cases f1
  rw [e2] at f2; cases f2
  rfl

theorem Off.child {N root h j k c} (hi : Tree.Inv h) (ho : Off N root h j) (hc : Child h j k c) : Off N root h c := by
  have hlt := (Tree.Edge.lt hi hc.1).1
  refine ⟨by have := ho.1; omega, ?_⟩
  intro q hq hw
  rcases walk_last hw with ⟨rfl, rfl⟩ | ⟨q', m, p, rfl, h1, h2⟩
  · have := ho.1; omega
  · rw [edge_up hi h2.1 hc.1] at h1
    exact ho.2 q' (fun x hx => hq x (by simp [hx])) h1

theorem off_child {N : Bytes → Prop} {root h j k c} (hi : Tree.Inv h) (hr : root ≤ j) (hk : ¬ N k) (hc : Child h j k c) : Off N root h c := by
  have hlt := (Tree.Edge.lt hi hc.1).1
  refine ⟨by omega, ?_⟩
  intro q hq hw
  rcases walk_last hw with ⟨rfl, rfl⟩ | ⟨q', m, p, rfl, h1, h2⟩
  · omega
  · obtain ⟨a, a1, a2⟩ := h2.2
    obtain ⟨d, d1, d2⟩ := hc.2
    rw [a1] at d1; cases d1
    exact hk (by rw [← d2, a2]; exact hq m (by simp))

theorem addItem_child {h h' : Heap Cty} {i k v} (he : Tree.addItem h i k v = some h') {x n c} (hc : Child h' x n c) : Child h x n c := by
  obtain ⟨nd, hnd, rfl⟩ := addItem_get he
  have hlt := Tree.lt_of_get hnd
  obtain ⟨⟨a, a1, a2⟩, d, d1, d2⟩ := hc
  rw [Tree.get_set hlt] at a1 d1
  refine ⟨?_, ?_⟩
  · split at a1
    · rename_i hx; cases a1; exact ⟨nd, by rw [hx]; exact hnd, a2⟩
    · exact ⟨a, a1, a2⟩
  · split at d1
    · rename_i hx; cases d1; exact ⟨nd, by rw [hx]; exact hnd, d2⟩
    · exact ⟨d, d1, d2⟩

theorem addItem_growB {N : Bytes → Prop} {root : Nat} {h h' : Heap Cty} {i k v} (hs : SaneR N root h) (he : Tree.addItem h i k v = some h')
    (hk : ¬ N k ∨ Off N root h i) : SaneR N root h' ∧ GrowB i h h' := by
  obtain ⟨hi, hl⟩ := addItem_step he hs.inv
  have hg : GrowB i h h' := ⟨⟨hl, fun j x => addItem_named he, fun j hj x w hw => (addItem_other he (fun hh => by omega)).1 hw⟩,
    fun _ _ _ _ hc => addItem_child he hc⟩
  have hwb : ∀ {a q j}, Walk h' a q j → Walk h a q j := by
    intro a q j hw
    induction hw with
    | nil => exact .nil _
    | cons hc _ ih => exact .cons (addItem_child he hc) ih
  refine ⟨⟨hi, ?_⟩, hg⟩
  intro q j hw hq x w hst
  by_cases hj : j = i ∧ x = k
  · obtain ⟨rfl, rfl⟩ := hj
    rcases hk with hk | hk
    · exact hk
    · exact absurd (hwb hw) (hk.2 q hq)
  · exact hs.free q j (hwb hw) hq x w ((addItem_other he hj).2 hst)

theorem addNode_growB {N : Bytes → Prop} {root : Nat} {h h' : Heap Cty} {i k c} (hs : SaneR N root h) (he : Tree.addNode h i k = some (h', c)) (b : Nat) :
    SaneR N root h' ∧ GrowB b h h' ∧ Child h' i k c := by
  have hinv := hs.inv
  obtain ⟨hi, hl⟩ := addNode_step he hs.inv
  have hlt : ∃ nd, h[i]? = some nd := by
    simp only [Tree.addNode] at he
    split at he
    · cases he
    · rename_i nd hx; exact ⟨nd, hx⟩
  obtain ⟨nd, hnd⟩ := hlt
  have hlt := Tree.lt_of_get hnd
  rcases Tree.addNode_cases hs.inv hnd k with ⟨c', h1, h2⟩ | ⟨_, h2⟩
  · rw [h2] at he; cases he
    exact ⟨hs, .refl b _, h1⟩
  · rw [h2] at he; cases he
    have hst : ∀ j x w, Stored (h.set i { nd with downs := nd.downs ++ [h.length] } ++
          [{ name := k, data := [], up := some i, downs := [] }]) j x w → Stored h j x w := by
      rintro j x w ⟨n2, h3, h4⟩
      rw [Tree.get_set_append hlt] at h3
      split at h3
      · cases h3; cases h4
      split at h3
      · rename_i hji
        cases h3
        rw [hji]
        exact ⟨nd, hnd, h4⟩
      · exact ⟨n2, h3, h4⟩
    have hsane : Sane (fun _ => False) h := ⟨hs.inv, fun _ _ _ _ h => h⟩
    have hback : ∀ x n c, c < h.length → Child (h.set i { nd with downs := nd.downs ++ [h.length] } ++
          [{ name := k, data := [], up := some i, downs := [] }]) x n c → Child h x n c := by
      rintro x n c hc ⟨⟨a, a1, a2⟩, d, d1, d2⟩
      rw [Tree.get_set_append hlt] at a1 d1
      refine ⟨?_, ?_⟩
      · split at a1
        · cases a1; cases a2
        split at a1
        · rename_i hx
          cases a1
          rcases List.mem_append.1 a2 with a2 | a2
          · exact ⟨nd, by rw [hx]; exact hnd, a2⟩
          · rw [List.mem_singleton.1 a2] at hc; omega
        · exact ⟨a, a1, a2⟩
      · split at d1
        · omega
        split at d1
        · rename_i hx
          cases d1
          exact ⟨nd, by rw [hx]; exact hnd, d2⟩
        · exact ⟨d, d1, d2⟩
    have hg : GrowB b h (h.set i { nd with downs := nd.downs ++ [h.length] } ++ [{ name := k, data := [], up := some i, downs := [] }]) :=
      ⟨(addNode_grow hsane h2 b).2, hback⟩
    refine ⟨⟨hi, ?_⟩, hg, ?_⟩
    · intro q j hw hq x w hstj
      have hold := hst j x w hstj
      have hj : j < h.length := by
        obtain ⟨n2, h3, _⟩ := hold
        exact Tree.lt_of_get h3
      exact hs.free q j (hg.walk hi hw hj) hq x w hold
    · refine ⟨⟨{ nd with downs := nd.downs ++ [h.length] }, ?_, by simp⟩, ⟨{ name := k, data := [], up := some i, downs := [] }, ?_, rfl⟩⟩
      · rw [Tree.get_set_append hlt, if_neg (by omega), if_pos rfl]
      · rw [Tree.get_set_append hlt, if_pos rfl]

/-! ## Expressions -/

/-- What is needed to evaluate at a node. -/
structure Base (ext : Ext) (N : Bytes → Prop) (σ : Scope) (root bd node : Nat) (h : Heap Cty) : Prop where
  sane : SaneR N root h
  var : Named h root Tree.VAR
  valid : node < h.length
  above : root ≤ node
  bound : bd ≤ node
  known : Known ext N σ root bd h

theorem Base.grow {ext N σ root bd node h h'} (hb : Base ext N σ root bd node h) (hs : SaneR N root h') (g : GrowB node h h') :
    Base ext N σ root bd node h' :=
  ⟨hs, g.named _ _ hb.var, by have := g.le.length; have := hb.valid; omega, hb.above, hb.bound, hb.known.grow (g.toGrow.mono hb.bound)⟩

theorem Base.eval {ext N σ root bd node h} (hb : Base ext N σ root bd node h) {vars : Vars} (hvars : Tree.variables h root = some vars) :
    ∀ n e, σ n e → evalE ext vars (.ident n) = evalE ext vars e := by
  intro n e hn
  obtain ⟨q, k, v, j, h1, h2, h3, _, h5, h6⟩ := hb.known n e hn
  rw [evalE_stored hb.sane.inv hb.sane.free hb.var h3 h2 h5 h1 hvars, h6]

/-- The same outcome; afterwards the tree has grown and other items at the node are kept. -/
def SameAt (N : Bytes → Prop) (root node : Nat) (key : Option Bytes) (h : Heap Cty) {α : Type} (x x' : Act α) : Prop :=
  x h = x' h ∧ ∀ v h', x' h = .ok (v, h') → SaneR N root h' ∧ GrowB node h h' ∧
    ∀ k w, key ≠ some k → key ≠ none → Stored h node k w → Stored h' node k w

theorem scalarT_in {ext : Ext} {N : Bytes → Prop} {σ : Scope} {root bd node : Nat} {h : Heap Cty} {key : Bytes} {e e' : Expr}
    (hb : Base ext N σ root bd node h) (hk : ¬ N key ∨ Off N root h node) (hr : Repl σ e e') :
    SameAt N root node (some key) h (scalarT ext root node key e) (scalarT ext root node key e') := by
  unfold SameAt scalarT
  cases hv : Tree.variables h root with
  | none => exact ⟨rfl, fun v h' he => by cases he⟩
  | some vars =>
    dsimp only
    rw [evalE_repl (hb.eval hv) hr]
    refine ⟨rfl, ?_⟩
    intro v h' he
    split at he
    · cases he
    split at he
    · cases he
    rename_i hi
    split at he
    · cases he
    cases he
    obtain ⟨a1, a2⟩ := addItem_growB hb.sane hi hk
    exact ⟨a1, a2, fun k w hkk _ hs => (addItem_other hi (fun hh => hkk (by rw [hh.2]))).1 hs⟩

/-- An expression and one with references replaced. -/
def ExprIn (ext : Ext) (N : Bytes → Prop) (σ : Scope) (root : Nat) (e e' : Expr) : Prop :=
  ∀ bd node h key, Base ext N σ root bd node h → (¬ N key ∨ Off N root h node) →
    SameAt N root node (some key) h (nativeT ext root node key e) (nativeT ext root node key e')

theorem sub_in {ext : Ext} {N : Bytes → Prop} {σ : Scope} {root bd node : Nat} {h : Heap Cty} {key : Bytes} {α : Type}
    (hb : Base ext N σ root bd node h) (hk : ¬ N key ∨ Off N root h node) {f f' : Nat → Act α}
    (hf : ∀ sub h1, Base ext N σ root bd sub h1 → Off N root h1 sub → SameAt N root sub none h1 (f sub) (f' sub)) :
    SameAt N root node (some key) h ((nodeAt node key).bind f) ((nodeAt node key).bind f') := by
  unfold SameAt Act.bind nodeAt
  cases hn : Tree.addNode h node key with
  | none => exact ⟨rfl, fun v h' he => by cases he⟩
  | some r =>
    obtain ⟨h1, sub⟩ := r
    dsimp only
    obtain ⟨s1, g1, c1⟩ := addNode_growB hb.sane hn (node + 1)
    have hlt := Tree.Edge.lt s1.inv c1.1
    have hoff : Off N root h1 sub := by
      rcases hk with hk | hk
      · exact off_child s1.inv hb.above hk c1
      · exact (hk.grow g1 s1.inv hb.valid).child s1.inv c1
    have hb1 : Base ext N σ root bd sub h1 :=
      ⟨s1, g1.named _ _ hb.var, hlt.2, by have := hb.above; omega, by have := hb.bound; omega, hb.known.grow (g1.toGrow.mono (by have := hb.bound; omega))⟩
    obtain ⟨e1, e2⟩ := hf sub h1 hb1 hoff
    refine ⟨e1, ?_⟩
    intro v h' he
    obtain ⟨s2, g2, _⟩ := e2 v h' he
    refine ⟨s2, (g1.mono (by omega)).trans (g2.mono (by omega)), ?_⟩
    intro k w _ _ hst
    exact g2.kept node hlt.1 k w (g1.kept node (by omega) k w hst)

theorem SameAt.map {N : Bytes → Prop} {root node : Nat} {key : Option Bytes} {h : Heap Cty} {α β : Type} {x x' : Act α} {g : α → β}
    (hx : SameAt N root node key h x x') : SameAt N root node key h (x.map g) (x'.map g) := by
  unfold SameAt Act.map Act.bind
  rw [hx.1]
  refine ⟨rfl, ?_⟩
  intro v h' he
  cases hr : x' h with
  | error e => rw [hr] at he; cases he
  | ok r =>
    obtain ⟨a, h1⟩ := r
    rw [hr] at he
    cases he
    exact hx.2 a _ hr

/-- One after the other at an off node. -/
theorem SameAt.bind {ext : Ext} {N : Bytes → Prop} {σ : Scope} {root bd node : Nat} {key : Option Bytes} {h : Heap Cty} {α β : Type} {x x' : Act α} {f f' : α → Act β}
    (hb : Base ext N σ root bd node h) (ho : Off N root h node) (hx : SameAt N root node key h x x')
    (hf : ∀ a h1, Base ext N σ root bd node h1 → Off N root h1 node → SameAt N root node none h1 (f a) (f' a)) :
    SameAt N root node none h (x.bind f) (x'.bind f') := by
  unfold SameAt Act.bind
  rw [hx.1]
  cases hr : x' h with
  | error e => exact ⟨rfl, fun v h' he => by cases he⟩
  | ok r =>
    obtain ⟨a, h1⟩ := r
    dsimp only
    obtain ⟨s1, g1, _⟩ := hx.2 a h1 hr
    obtain ⟨e1, e2⟩ := hf a h1 (hb.grow s1 g1) (ho.grow g1 s1.inv hb.valid)
    refine ⟨e1, ?_⟩
    intro v h' he
    obtain ⟨s2, g2, _⟩ := e2 v h' he
    exact ⟨s2, g1.trans g2, fun _ _ _ hn => absurd rfl hn⟩

theorem SameAt.pure {N : Bytes → Prop} {root node : Nat} {key : Option Bytes} {h : Heap Cty} {α : Type} (hs : SaneR N root h) (a : α) :
    SameAt N root node key h (Act.pure a) (Act.pure a) :=
  ⟨rfl, fun v h' he => by cases he; exact ⟨hs, .refl _ _, fun _ _ _ _ h => h⟩⟩

theorem SameAt.ofOut {N : Bytes → Prop} {root node : Nat} {key : Option Bytes} {h : Heap Cty} {α : Type} (hs : SaneR N root h) (o : Hcl.Out α) :
    SameAt N root node key h (Act.ofOut o) (Act.ofOut o) := by
  refine ⟨rfl, fun v h' he => ?_⟩
  cases o with
  | ok a => cases he; exact ⟨hs, .refl _ _, fun _ _ _ _ h => h⟩
  | err => cases he
  | panic => cases he
  | unsupported => cases he

theorem nativeTL_in {ext : Ext} {N : Bytes → Prop} {σ : Scope} {root : Nat} : ∀ {l l' : List Expr}, l.length = l'.length →
    (∀ (i : Nat) e e', l[i]? = some e → l'[i]? = some e' → ExprIn ext N σ root e e') → ∀ (i : Nat) {bd node h}, Base ext N σ root bd node h →
    Off N root h node → SameAt N root node none h (nativeTL ext root node i l) (nativeTL ext root node i l')
  | [], [], _, _, i, bd, node, h, hb, _ => by
    simp only [nativeTL]
    exact .pure hb.sane _
  | e :: l, e' :: l', hl, hr, i, bd, node, h, hb, ho => by
    have ih := nativeTL_in (l := l) (l' := l') (by simpa using hl) fun j x x' hx hx' => hr (j + 1) x x' (by simpa using hx) (by simpa using hx')
    simp only [nativeTL]
    refine SameAt.bind hb ho (hr 0 e e' rfl rfl _ _ _ _ hb (Or.inr ho)) fun v h1 hb1 ho1 => ?_
    exact (ih (i + 1) hb1 ho1).map
  | [], _ :: _, hl, _, _, _, _, _, _, _ => by simp at hl
  | _ :: _, [], hl, _, _, _, _, _, _, _ => by simp at hl

theorem nativeTO_in {ext : Ext} {N : Bytes → Prop} {σ : Scope} {root : Nat} : ∀ {m m' : List (Expr × Expr)}, m.map Prod.fst = m'.map Prod.fst →
    (∀ (i : Nat) x x', m[i]? = some x → m'[i]? = some x' → ExprIn ext N σ root x.2 x'.2) → ∀ obj {bd node h}, Base ext N σ root bd node h →
    Off N root h node → SameAt N root node none h (nativeTO ext root node m obj) (nativeTO ext root node m' obj)
  | [], [], _, _, obj, bd, node, h, hb, _ => by
    simp only [nativeTO]
    exact .pure hb.sane _
  | (k, e) :: m, (k', e') :: m', hl, hr, obj, bd, node, h, hb, ho => by
    simp only [List.map_cons, List.cons.injEq] at hl
    have ih := nativeTO_in (m := m) (m' := m') hl.2 fun j x x' hx hx' => hr (j + 1) x x' (by simpa using hx) (by simpa using hx')
    have hk : k = k' := hl.1
    subst hk
    simp only [nativeTO]
    refine SameAt.bind (key := none) hb ho (.ofOut hb.sane _) fun key h1 hb1 ho1 => ?_
    refine SameAt.bind hb1 ho1 (hr 0 (k, e) (k, e') rfl rfl _ _ _ _ hb1 (Or.inr ho1)) fun v h2 hb2 ho2 => ?_
    exact ih _ hb2 ho2
  | [], _ :: _, hl, _, _, _, _, _, _, _ => by simp at hl
  | _ :: _, [], hl, _, _, _, _, _, _, _ => by simp at hl

mutual
theorem nativeT_same {ext : Ext} {N : Bytes → Prop} {σ : Scope} {root : Nat} : ∀ e : Expr, ExprIn ext N σ root e e
  | .str s => by intro bd node h key hb hk; simp only [nativeT]; exact scalarT_in hb hk .same
  | .num q => by intro bd node h key hb hk; simp only [nativeT]; exact scalarT_in hb hk .same
  | .ident n => by intro bd node h key hb hk; simp only [nativeT]; exact scalarT_in hb hk .same
  | .neg e => by intro bd node h key hb hk; simp only [nativeT]; exact scalarT_in hb hk .same
  | .call n => by
    intro bd node h key hb hk
    simp only [nativeT]
    split
    · exact .pure hb.sane _
    · exact scalarT_in hb hk .same
  | .tuple l => by
    intro bd node h key hb hk
    simp only [nativeT]
    refine sub_in hb hk fun sub h1 hb1 ho1 => SameAt.map ?_
    refine nativeTL_in rfl (fun i e e' he he' => ?_) 0 hb1 ho1
    rw [he] at he'; cases he'
    exact nativeT_sameL l i e he
  | .object m => by
    intro bd node h key hb hk
    simp only [nativeT]
    refine sub_in hb hk fun sub h1 hb1 ho1 => SameAt.map ?_
    refine nativeTO_in rfl (fun i e e' he he' => ?_) [] hb1 ho1
    rw [he] at he'; cases he'
    exact nativeT_sameO m i e he
theorem nativeT_sameL {ext : Ext} {N : Bytes → Prop} {σ : Scope} {root : Nat} : ∀ (l : List Expr) (i : Nat) (e : Expr), l[i]? = some e → ExprIn ext N σ root e e
  | e :: _, 0, x, h => by cases h; exact nativeT_same e
  | _ :: l, i + 1, x, h => nativeT_sameL l i x (by simpa using h)
  | [], i, x, h => by cases h
theorem nativeT_sameO {ext : Ext} {N : Bytes → Prop} {σ : Scope} {root : Nat} : ∀ (m : List (Expr × Expr)) (i : Nat) (x : Expr × Expr), m[i]? = some x →
    ExprIn ext N σ root x.2 x.2
  | (_, e) :: _, 0, x, h => by cases h; exact nativeT_same e
  | _ :: m, i + 1, x, h => nativeT_sameO m i x (by simpa using h)
  | [], i, x, h => by cases h
end

theorem nativeT_scalar {ext : Ext} {root node : Nat} {key : Bytes} {e : Expr} (h : Scalar e) : nativeT ext root node key e = scalarT ext root node key e := by
  cases h <;> simp only [nativeT]

theorem nativeT_in {ext : Ext} {N : Bytes → Prop} {σ : Scope} {root : Nat} (hσ : ∀ n e, σ n e → Scalar e) {e e' : Expr} (hr : Repl σ e e') :
    ExprIn ext N σ root e e' := by
  induction hr with
  | same => exact nativeT_same _
  | ref h =>
    intro bd node h0 key hb hk
    rw [nativeT_scalar (hσ _ _ h), nativeT]
    exact scalarT_in hb hk (.ref h)
  | neg h =>
    intro bd node h0 key hb hk
    simp only [nativeT]
    exact scalarT_in hb hk (.neg h)
  | tuple hl _ ih =>
    intro bd node h0 key hb hk
    simp only [nativeT]
    exact sub_in hb hk fun sub h1 hb1 ho1 => SameAt.map (nativeTL_in hl ih 0 hb1 ho1)
  | object hl _ ih =>
    intro bd node h0 key hb hk
    simp only [nativeT]
    exact sub_in hb hk fun sub h1 hb1 ho1 => SameAt.map (nativeTO_in hl ih [] hb1 ho1)

theorem Scalar.lit {e : Expr} (h : Scalar e) : Lit e := by
  cases h <;> constructor

theorem scalar_eval {ext : Ext} {e : Expr} (h : Scalar e) : ∃ v, ∀ vars, evalE ext vars e = .ok v := by
  obtain ⟨v, hv⟩ := evalE_lit (ext := ext) h.lit
  exact ⟨v, fun vars => hv ext.ord vars⟩

theorem scalarT_stored {ext : Ext} {root node : Nat} {key : Bytes} {e : Expr} {h h' : Heap Cty} {v : GV} {w : Cty} (hw : ∀ vars, evalE ext vars e = .ok w)
    (he : scalarT ext root node key e h = .ok (v, h')) : Stored h' node key w := by
  unfold scalarT at he
  cases hv : Tree.variables h root with
  | none => rw [hv] at he; cases he
  | some vars =>
    rw [hv] at he
    dsimp only at he
    rw [hw] at he
    dsimp only at he
    split at he
    · cases he
    rename_i hi
    split at he
    · cases he
    cases he
    exact addItem_stored hi

/-! ## Attributes -/

theorem forall_get {σ : Scope} {attrs attrs' : List (Bytes × Expr)} (h : List.Forall₂ (fun a a' => a.1 = a'.1 ∧ Repl σ a.2 a'.2) attrs attrs') (k : Bytes) :
    (GoMap.get? attrs k = none ∧ GoMap.get? attrs' k = none) ∨
      ∃ a a', GoMap.get? attrs k = some a ∧ GoMap.get? attrs' k = some a' ∧ Repl σ a a' := by
  induction h with
  | nil => exact Or.inl ⟨rfl, rfl⟩
  | @cons x y xs ys hx _ ih =>
    obtain ⟨k1, e1⟩ := x
    obtain ⟨k2, e2⟩ := y
    obtain ⟨rfl, hr⟩ := hx
    simp only [GoMap.get?]
    split
    · exact Or.inr ⟨_, _, rfl, rfl, hr⟩
    · exact ih

theorem forall_keys {σ : Scope} {attrs attrs' : List (Bytes × Expr)} (h : List.Forall₂ (fun a a' => a.1 = a'.1 ∧ Repl σ a.2 a'.2) attrs attrs') :
    GoMap.keys attrs = GoMap.keys attrs' := by
  induction h with
  | nil => rfl
  | cons hx _ ih => simp only [GoMap.keys, List.map_cons] at ih ⊢; rw [hx.1, ih]

theorem attrsT_in {ext : Ext} {N : Bytes → Prop} {σ : Scope} {root : Nat} (hσ : ∀ n e, σ n e → Scalar e) {attrs attrs' : List (Bytes × Expr)}
    (ha : List.Forall₂ (fun a a' => a.1 = a'.1 ∧ Repl σ a.2 a'.2) attrs attrs') (hn : ∀ a ∈ attrs, ¬ N a.1) : ∀ {ks : List Bytes} {bd node h obj},
    Base ext N σ root bd node h →
    assignT (attrT ext root node attrs) ks obj h = assignT (attrT ext root node attrs') ks obj h ∧
    ∀ v h', assignT (attrT ext root node attrs') ks obj h = .ok (v, h') → SaneR N root h' ∧ GrowB node h h' ∧
      (∀ k w, k ∉ ks → Stored h node k w → Stored h' node k w) ∧
      ∀ k ∈ ks, ∀ e, GoMap.get? attrs' k = some e → Scalar e → ∀ w, (∀ vars, evalE ext vars e = .ok w) → Stored h' node k w
  | [], bd, node, h, obj, hb => by
    refine ⟨rfl, fun v h' he => ?_⟩
    cases he
    exact ⟨hb.sane, .refl _ _, fun _ _ _ h => h, fun k hk => by cases hk⟩
  | k :: ks, bd, node, h, obj, hb => by
    have hstep : SameAt N root node (some k) h (attrT ext root node attrs k) (attrT ext root node attrs' k) := by
      unfold attrT
      rcases forall_get ha k with ⟨h1, h2⟩ | ⟨e, e', h1, h2, hr⟩
      · rw [h1, h2]
        exact ⟨rfl, fun v h' he => by cases he⟩
      · rw [h1, h2]
        exact nativeT_in hσ hr _ _ _ _ hb (Or.inl (hn (k, e) (GoMap.get?_mem h1)))
    simp only [assignT, Act.bind]
    rw [hstep.1]
    cases hx : attrT ext root node attrs' k h with
    | error e => exact ⟨rfl, fun v h' he => by cases he⟩
    | ok r =>
      obtain ⟨a, h1⟩ := r
      dsimp only
      obtain ⟨s1, g1, o1⟩ := hstep.2 a h1 hx
      obtain ⟨e1, e2⟩ := attrsT_in hσ ha hn (ks := ks) (obj := insertK ltB k a obj) (hb.grow s1 g1)
      refine ⟨e1, fun v h' he => ?_⟩
      obtain ⟨s2, g2, o2, t2⟩ := e2 v h' he
      refine ⟨s2, g1.trans g2, ?_, ?_⟩
      · intro x w hxk hs
        simp only [List.mem_cons, not_or] at hxk
        exact o2 x w hxk.2 (o1 x w (by simp; exact fun h => hxk.1 h.symm) (by simp) hs)
      · intro x hxk e hge hsc w hw
        by_cases hin : x ∈ ks
        · exact t2 x hin e hge hsc w hw
        · have : x = k := by
            rcases List.mem_cons.1 hxk with h | h
            · exact h
            · exact absurd h hin
          subst this
          refine o2 x w hin ?_
          simp only [attrT, hge, nativeT_scalar hsc] at hx
          exact scalarT_stored hw hx

/-! ## Blocks -/

/-- What holds while the blocks of a body are decoded: `kn` is at the end of the path `q`. -/
structure Ctx (ext : Ext) (N : Bytes → Prop) (σ : Scope) (root bd : Nat) (q : List Bytes) (kn : Nat) (h : Heap Cty) : Prop where
  sane : SaneR N root h
  var : Named h root Tree.VAR
  walk : Walk h root q kn
  names : ∀ x ∈ q, N x
  known : Known ext N σ root bd h

theorem Ctx.grow {ext N σ root bd q kn h h'} (c : Ctx ext N σ root bd q kn h) (hs : SaneR N root h') (g : GrowB bd h h') :
    Ctx ext N σ root bd q kn h' :=
  ⟨hs, g.named _ _ c.var, g.le.walk c.walk, c.names, c.known.grow g.toGrow⟩

/-- The same outcome at every such node, and the tree grows. -/
def Run (ext : Ext) (N : Bytes → Prop) (σ : Scope) (root bd lo : Nat) (q : List Bytes) {α : Type} (f f' : Nat → Act α) : Prop :=
  ∀ kn h, Ctx ext N σ root bd q kn h → lo ≤ kn → f kn h = f' kn h ∧ ∀ v h', f' kn h = .ok (v, h') → SaneR N root h' ∧ GrowB bd h h'

section
variable {ext : Ext} {N : Bytes → Prop} {σ : Scope} {root bd lo : Nat} {q : List Bytes} {α β : Type}

theorem Run.pure (a : α) : Run ext N σ root bd lo q (fun _ => Act.pure a) (fun _ => Act.pure a) :=
  fun _ _ c _ => ⟨rfl, fun _ _ he => by cases he; exact ⟨c.sane, .refl _ _⟩⟩

theorem Run.bind {f f' : Nat → Act α} {g g' : Nat → α → Act β} (h1 : Run ext N σ root bd lo q f f')
    (h2 : ∀ a, Run ext N σ root bd lo q (fun kn => g kn a) (fun kn => g' kn a)) :
    Run ext N σ root bd lo q (fun kn => (f kn).bind (g kn)) (fun kn => (f' kn).bind (g' kn)) := by
  intro kn h c hlo
  obtain ⟨e1, p1⟩ := h1 kn h c hlo
  simp only [Act.bind]
  rw [e1]
  cases hx : f' kn h with
  | error e => exact ⟨rfl, fun v h' he => by cases he⟩
  | ok r =>
    obtain ⟨a, h1⟩ := r
    dsimp only
    obtain ⟨s1, g1⟩ := p1 a h1 hx
    obtain ⟨e2, p2⟩ := h2 a kn h1 (c.grow s1 g1) hlo
    refine ⟨e2, fun v h' he => ?_⟩
    obtain ⟨s2, g2⟩ := p2 v h' he
    exact ⟨s2, g1.trans g2⟩

theorem Run.map {f f' : Nat → Act α} (h1 : Run ext N σ root bd lo q f f') (g : α → β) :
    Run ext N σ root bd lo q (fun kn => (f kn).map g) (fun kn => (f' kn).map g) := by
  simp only [Act.map]
  exact h1.bind fun a => .pure _

theorem Run.node {f f' : Nat → Act α} {k : Bytes} (hk : N k) (hlo : bd ≤ lo + 1) (h1 : Run ext N σ root bd bd (q ++ [k]) f f') :
    Run ext N σ root bd lo q (fun kn => (nodeAt kn k).bind f) (fun kn => (nodeAt kn k).bind f') := by
  intro kn h c hle
  simp only [Act.bind, nodeAt]
  cases hn : Tree.addNode h kn k with
  | none => exact ⟨rfl, fun v h' he => by cases he⟩
  | some r =>
    obtain ⟨h1', sub⟩ := r
    dsimp only
    obtain ⟨s1, g1, c1⟩ := addNode_growB c.sane hn bd
    have hlt := Tree.Edge.lt s1.inv c1.1
    have c2 := c.grow s1 g1
    have c3 : Ctx ext N σ root bd (q ++ [k]) sub h1' := by
      refine ⟨s1, c2.var, walk_append c2.walk (.cons c1 (.nil _)), ?_, c2.known⟩
      intro x hx
      rcases List.mem_append.1 hx with hx | hx
      · exact c.names x hx
      · rw [List.mem_singleton.1 hx]; exact hk
    obtain ⟨e1, p1⟩ := h1 sub h1' c3 (by omega)
    refine ⟨e1, fun v h' he => ?_⟩
    obtain ⟨s2, g2⟩ := p1 v h' he
    exact ⟨s2, g1.trans g2⟩

theorem Run.assign {val val' : Nat → Bytes → Act GV} : ∀ {ks : List Bytes}, (∀ k ∈ ks, Run ext N σ root bd lo q (fun kn => val kn k) (fun kn => val' kn k)) →
    ∀ obj, Run ext N σ root bd lo q (fun kn => assignT (val kn) ks obj) (fun kn => assignT (val' kn) ks obj)
  | [], _, obj => by
    simp only [assignT]
    exact .pure _
  | k :: ks, hv, obj => by
    simp only [assignT]
    exact Run.bind (hv k (by simp)) fun a => Run.assign (fun k hk => hv k (by simp [hk])) _

theorem Run.seq (hlo : bd ≤ lo + 1) : ∀ {l l' : List (Nat → Act GV)} {i : Nat}, l.length = l'.length →
    (∀ (m : Nat) f f', l[m]? = some f → l'[m]? = some f' → N (decimal (i + m)) ∧ Run ext N σ root bd bd (q ++ [decimal (i + m)]) f f') →
    Run ext N σ root bd lo q (fun kn => seqT kn i l) (fun kn => seqT kn i l')
  | [], [], i, _, _ => by
    simp only [seqT]
    exact .pure _
  | f :: l, f' :: l', i, hl, hf => by
    simp only [seqT]
    obtain ⟨hN, hr⟩ := hf 0 f f' rfl rfl
    refine Run.bind (Run.node hN hlo hr) fun v => Run.map (Run.seq hlo (by simpa using hl) fun m x x' hx hx' => ?_) _
    have := hf (m + 1) x x' (by simpa using hx) (by simpa using hx')
    rwa [show i + (m + 1) = i + 1 + m by omega] at this
  | [], _ :: _, _, hl, _ => by simp at hl
  | _ :: _, [], _, hl, _ => by simp at hl

theorem forall₂_filter {γ : Type} {R : γ → γ → Prop} {P : γ → Bool} (hP : ∀ x y, R x y → P x = P y) {l l' : List γ} (h : List.Forall₂ R l l') :
    List.Forall₂ R (l.filter P) (l'.filter P) := by
  induction h with
  | nil => exact .nil
  | @cons x y xs ys hxy _ ih =>
    simp only [List.filter_cons, ← hP x y hxy]
    split
    · exact .cons hxy ih
    · exact ih

theorem forall₂_last {γ δ : Type} {R : γ → δ → Prop} {l : List γ} {l' : List δ} (h : List.Forall₂ R l l') :
    (l.getLast? = none ∧ l'.getLast? = none) ∨ ∃ x y, l.getLast? = some x ∧ l'.getLast? = some y ∧ R x y := by
  induction h with
  | nil => exact Or.inl ⟨rfl, rfl⟩
  | @cons x y xs ys hxy ht ih =>
    cases ht with
    | nil => exact Or.inr ⟨x, y, rfl, rfl, hxy⟩
    | cons h1 h2 =>
      rcases ih with ⟨h3, _⟩ | ⟨a, c, h3, h4, h5⟩
      · simp at h3
      · exact Or.inr ⟨a, c, by rw [List.getLast?_cons_cons]; exact h3, by rw [List.getLast?_cons_cons]; exact h4, h5⟩

theorem forall₂_map_eq {γ δ : Type} {f : γ → δ} {l l' : List γ} {R : γ → γ → Prop} (hR : ∀ x y, R x y → f x = f y) (h : List.Forall₂ R l l') :
    l.map f = l'.map f := by
  induction h with
  | nil => rfl
  | cons hx _ ih => rw [List.map_cons, List.map_cons, hR _ _ hx, ih]

theorem Run.labels (hord : ∀ p l, (ext.ord p l).Perm l) (hlo : bd ≤ lo + 1) {path : List Bytes} {l l' : List (Bytes × (Nat → Act GV))}
    (h : List.Forall₂ (fun x y => x.1 = y.1 ∧ N x.1 ∧ Run ext N σ root bd bd (q ++ [x.1]) x.2 y.2) l l') :
    Run ext N σ root bd lo q (fun kn => labelsT ext path kn l) (fun kn => labelsT ext path kn l') := by
  simp only [labelsT]
  rw [← forall₂_map_eq (f := Prod.fst) (fun x y hxy => hxy.1) h]
  refine Run.map (Run.assign (fun k hk => ?_) _) _
  have hk' : k ∈ l.map Prod.fst := by
    have := (hord _ _).mem_iff.1 hk
    exact Hcl.mem_dedupB.1 this
  have hlast := forall₂_last (forall₂_filter (P := fun e => decide (e.1 = k)) (fun x y hxy => by simp [hxy.1]) h)
  have hNk : N k := by
    have : ∀ {a b : List (Bytes × (Nat → Act GV))}, List.Forall₂ (fun x y => x.1 = y.1 ∧ N x.1 ∧ Run ext N σ root bd bd (q ++ [x.1]) x.2 y.2) a b →
        k ∈ a.map Prod.fst → N k := by
      intro a b hab
      induction hab with
      | nil => intro h; cases h
      | cons hx _ ih =>
        intro hm
        simp only [List.map_cons, List.mem_cons] at hm
        rcases hm with rfl | hm
        · exact hx.2.1
        · exact ih hm
    exact this h hk'
  refine Run.node hNk hlo ?_
  rcases hlast with ⟨h1, h2⟩ | ⟨x, y, h1, h2, h3, _, h5⟩
  · intro kn h c _
    simp only [lastT, h1, h2]
    exact ⟨trivial, fun v h' he => by cases he⟩
  · intro kn h c hle
    have hx : x.1 = k := by
      have := List.mem_of_getLast? h1
      simpa using (List.mem_filter.1 this).2
    simp only [lastT, h1, h2]
    rw [hx] at h5
    exact h5 kn h c hle

/-- Blocks that do the same, each in its place. -/
structure ActsIn (ext : Ext) (N : Bytes → Prop) (σ : Scope) (root bd : Nat) (q : List Bytes) (bs bs' : Acts) : Prop where
  heads : bs.map (fun x => (x.1, x.2.1)) = bs'.map fun x => (x.1, x.2.1)
  names : ∀ (i : Nat) (x : Bytes × List Bytes × (Nat → Act GV)), bs[i]? = some x → ∀ n ∈ placeOf bs i x, N n
  run : ∀ (i : Nat) (x x' : Bytes × List Bytes × (Nat → Act GV)), bs[i]? = some x → bs'[i]? = some x' →
    Run ext N σ root bd bd (q ++ placeOf bs i x) x.2.2 x'.2.2

theorem placeOf_labels {γ : Type} {bs : List (Bytes × List Bytes × γ)} {i : Nat} {x : Bytes × List Bytes × γ} (h : x.2.1 ≠ []) :
    placeOf bs i x = x.1 :: x.2.1 := by
  unfold placeOf
  split
  · rename_i h'; exact absurd h' h
  · rfl

theorem decimalN_digits : ∀ (f n : Nat), n < f → decimalN f n = (Nat.toDigits 10 n).map fun c => UInt8.ofNat c.toNat
  | 0, n, h => by omega
  | f + 1, n, h => by
    have hd : ∀ m, m < 10 → UInt8.ofNat (48 + m) = UInt8.ofNat (Nat.digitChar m).toNat := by
      intro m hm
      have : m = 0 ∨ m = 1 ∨ m = 2 ∨ m = 3 ∨ m = 4 ∨ m = 5 ∨ m = 6 ∨ m = 7 ∨ m = 8 ∨ m = 9 := by omega
      rcases this with rfl | rfl | rfl | rfl | rfl | rfl | rfl | rfl | rfl | rfl <;> rfl
    unfold decimalN
    split
    · rename_i hlt
      rw [Nat.toDigits_of_lt_base hlt, hd n hlt]; rfl
    · rename_i hge
      rw [decimalN_digits f (n / 10) (by omega), Nat.toDigits_of_base_le (n := n) (by omega) (by omega), hd _ (Nat.mod_lt _ (by omega))]
      simp

/-- `decimal` writes numbers in decimal. -/
theorem decimal_eq (n : Nat) : decimal n = numeral n := decimalN_digits (n + 1) n (by omega)

theorem placeOf_none {γ : Type} {bs : List (Bytes × List Bytes × γ)} {i : Nat} {x : Bytes × List Bytes × γ} (h : x.2.1 = []) :
    placeOf bs i x = [x.1, decimal ((bs.take i).countP fun y => decide (y.1 = x.1) && decide (y.2.1.length = 0))] := by
  unfold placeOf
  rw [h, decimal_eq]

theorem heads_get {γ δ : Type} {bs : List (Bytes × List Bytes × γ)} {bs' : List (Bytes × List Bytes × δ)}
    (h : bs.map (fun x => (x.1, x.2.1)) = bs'.map fun x => (x.1, x.2.1)) {i : Nat} {x x'} (hx : bs[i]? = some x) (hx' : bs'[i]? = some x') :
    x.1 = x'.1 ∧ x.2.1 = x'.2.1 := by
  have := congrArg (fun l => l[i]?) h
  simp only [List.getElem?_map, hx, hx', Option.map_some, Option.some.injEq, Prod.mk.injEq] at this
  exact this

theorem forall₂_index {γ δ : Type} {R : γ → δ → Prop} : ∀ {l : List γ} {l' : List δ}, l.length = l'.length →
    (∀ (i : Nat) x y, l[i]? = some x → l'[i]? = some y → R x y) → List.Forall₂ R l l'
  | [], [], _, _ => .nil
  | x :: l, y :: l', hl, h => .cons (h 0 x y rfl rfl) (forall₂_index (by simpa using hl) fun i x y hx hy => h (i + 1) x y (by simpa using hx) (by simpa using hy))
  | [], _ :: _, hl, _ => by simp at hl
  | _ :: _, [], hl, _ => by simp at hl

theorem ActsIn.forall₂ {bs bs' : Acts} (h : ActsIn ext N σ root bd q bs bs') :
    List.Forall₂ (fun x x' => x.1 = x'.1 ∧ x.2.1 = x'.2.1 ∧ N x.1 ∧ (∀ l ∈ x.2.1, N l) ∧
      (x.2.1 ≠ [] → Run ext N σ root bd bd (q ++ x.1 :: x.2.1) x.2.2 x'.2.2)) bs bs' := by
  refine forall₂_index (by simpa using congrArg List.length h.heads) fun i x x' hx hx' => ?_
  obtain ⟨h1, h2⟩ := heads_get h.heads hx hx'
  have hn := h.names i x hx
  refine ⟨h1, h2, ?_, ?_, ?_⟩
  · by_cases hl : x.2.1 = []
    · rw [placeOf_none hl] at hn; exact hn _ (by simp)
    · rw [placeOf_labels hl] at hn; exact hn _ (by simp)
  · intro l hl
    rw [placeOf_labels (fun h => by rw [h] at hl; cases hl)] at hn
    exact hn l (by simp [hl])
  · intro hl
    have := h.run i x x' hx hx'
    rwa [placeOf_labels hl] at this

theorem zeros_in (key : Bytes) : ∀ {bs bs' : Acts} {c : Nat}, bs.map (fun x => (x.1, x.2.1)) = bs'.map (fun x => (x.1, x.2.1)) →
    (∀ (i : Nat) x x', bs[i]? = some x → bs'[i]? = some x' → x.1 = key → x.2.1 = [] →
      N (decimal (c + (bs.take i).countP fun y => decide (y.1 = key) && decide (y.2.1.length = 0))) ∧
      Run ext N σ root bd bd (q ++ [decimal (c + (bs.take i).countP fun y => decide (y.1 = key) && decide (y.2.1.length = 0))]) x.2.2 x'.2.2) →
    (zerosT bs key).length = (zerosT bs' key).length ∧
    ∀ (m : Nat) f f', (zerosT bs key)[m]? = some f → (zerosT bs' key)[m]? = some f' →
      N (decimal (c + m)) ∧ Run ext N σ root bd bd (q ++ [decimal (c + m)]) f f'
  | [], [], c, _, _ => ⟨rfl, fun m f f' h => by cases h⟩
  | [], _ :: _, c, hh, _ => by simp at hh
  | _ :: _, [], c, hh, _ => by simp at hh
  | x :: bs, x' :: bs', c, hh, hr => by
    simp only [List.map_cons, List.cons.injEq, Prod.mk.injEq] at hh
    obtain ⟨⟨h1, h2⟩, h3⟩ := hh
    by_cases hx : x.1 = key ∧ x.2.1 = []
    · have hb : (decide (x.1 = key) && decide (x.2.1.length = 0)) = true := by simp [hx.1, hx.2]
      have hb' : (decide (x'.1 = key) && decide (x'.2.1.length = 0)) = true := by rw [← h1, ← h2]; exact hb
      obtain ⟨i1, i2⟩ := zeros_in key (bs := bs) (bs' := bs') (c := c + 1) h3 fun i y y' hy hy' hk hl => by
        have := hr (i + 1) y y' (by simpa using hy) (by simpa using hy') hk hl
        simp only [List.take_succ_cons, List.countP_cons, hb, if_true] at this
        rwa [show c + (List.countP (fun y => decide (y.1 = key) && decide (y.2.1.length = 0)) (bs.take i) + 1) =
          c + 1 + List.countP (fun y => decide (y.1 = key) && decide (y.2.1.length = 0)) (bs.take i) by omega] at this
      simp only [zerosT] at i1 i2
      simp only [zerosT, List.filter_cons, hb, hb', if_true, List.map_cons, List.length_cons, i1, true_and]
      intro m f f' hf hf'
      cases m with
      | zero =>
        cases hf; cases hf'
        exact hr 0 x x' rfl rfl hx.1 hx.2
      | succ m =>
        have := i2 m f f' (by simpa using hf) (by simpa using hf')
        rwa [show c + 1 + m = c + (m + 1) by omega] at this
    · have hb : (decide (x.1 = key) && decide (x.2.1.length = 0)) = false := by
        rw [Bool.eq_false_iff]
        intro h
        simp only [Bool.and_eq_true, decide_eq_true_eq, List.length_eq_zero_iff] at h
        exact hx h
      have hb' : (decide (x'.1 = key) && decide (x'.2.1.length = 0)) = false := by rw [← h1, ← h2]; exact hb
      obtain ⟨i1, i2⟩ := zeros_in key (bs := bs) (bs' := bs') (c := c) h3 fun i y y' hy hy' hk hl => by
        have := hr (i + 1) y y' (by simpa using hy) (by simpa using hy') hk hl
        simpa only [List.take_succ_cons, List.countP_cons, hb, Bool.false_eq_true, if_false, Nat.add_zero] using this
      simp only [zerosT] at i1 i2
      simp only [zerosT, List.filter_cons, hb, hb', Bool.false_eq_true, if_false]
      exact ⟨i1, i2⟩

theorem typesOfT_in {bs bs' : Acts} (h : ActsIn ext N σ root bd q bs bs') (n : Nat) : typesOfT bs n = typesOfT bs' n := by
  unfold typesOfT
  rw [forall₂_map_eq (f := Prod.fst) (fun x y hxy => hxy.1) (forall₂_filter (P := fun x => decide (x.2.1.length = n)) (fun x y hxy => by simp [hxy.2.1]) h.forall₂)]

theorem ActsIn.name {bs bs' : Acts} (h : ActsIn ext N σ root bd q bs bs') {x} (hx : x ∈ bs) : N x.1 := by
  obtain ⟨i, hi⟩ := List.getElem?_of_mem hx
  have hn := h.names i x hi
  by_cases hl : x.2.1 = []
  · rw [placeOf_none hl] at hn; exact hn _ (by simp)
  · rw [placeOf_labels hl] at hn; exact hn _ (by simp)

theorem mem_typesOfT {bs : Acts} {n : Nat} {k : Bytes} (h : k ∈ typesOfT bs n) : ∃ x ∈ bs, x.1 = k ∧ x.2.1.length = n := by
  have := Hcl.mem_dedupB.1 h
  obtain ⟨x, hx, rfl⟩ := List.mem_map.1 this
  obtain ⟨h1, h2⟩ := List.mem_filter.1 hx
  exact ⟨x, h1, rfl, by simpa using h2⟩

theorem forall₂_map2 {γ δ : Type} {R : γ → γ → Prop} {S : δ → δ → Prop} {f : γ → δ} {l l' : List γ} (hf : ∀ x y, x ∈ l → R x y → S (f x) (f y))
    (h : List.Forall₂ R l l') : List.Forall₂ S (l.map f) (l'.map f) := by
  induction h with
  | nil => exact .nil
  | cons hx _ ih => exact .cons (hf _ _ (by simp) hx) (ih fun x y hx => hf x y (by simp [hx]))

theorem zeroT_in (hlo : bd ≤ lo + 1) {bs bs' : Acts} (h : ActsIn ext N σ root bd q bs bs') {k : Bytes} (hk : N k) :
    Run ext N σ root bd lo q (fun kn => zeroT kn bs k) (fun kn => zeroT kn bs' k) := by
  simp only [zeroT]
  obtain ⟨h1, h2⟩ := zeros_in (ext := ext) (N := N) (σ := σ) (root := root) (bd := bd) (q := q ++ [k]) k (c := 0) h.heads fun i x x' hx hx' hxk hl => by
    have hn := h.names i x hx
    have hr := h.run i x x' hx hx'
    rw [placeOf_none hl] at hn hr
    subst hxk
    rw [Nat.zero_add]
    exact ⟨hn _ (by simp), by simpa using hr⟩
  refine Run.node hk hlo (Run.map (Run.seq (by omega) h1 fun m f f' hf hf' => ?_) _)
  exact h2 m f f' hf hf'

theorem oneT_in (hord : ∀ p l, (ext.ord p l).Perm l) (hlo : bd ≤ lo + 1) {path : List Bytes} {bs bs' : Acts} (h : ActsIn ext N σ root bd q bs bs') {k : Bytes} (hk : N k) :
    Run ext N σ root bd lo q (fun kn => oneT ext path kn bs k) (fun kn => oneT ext path kn bs' k) := by
  simp only [oneT]
  refine Run.node hk hlo (Run.labels hord (by omega) ?_)
  unfold onesT
  refine forall₂_map2 (fun x y hx hxy => ?_) (forall₂_filter (fun x y hxy => by rw [hxy.1, hxy.2.1]) h.forall₂)
  obtain ⟨_, hc⟩ := List.mem_filter.1 hx
  simp only [Bool.and_eq_true, decide_eq_true_eq] at hc
  obtain ⟨e1, e2, _, e4, e5⟩ := hxy
  obtain ⟨t, ls, f⟩ := x
  obtain ⟨t', ls', f'⟩ := y
  dsimp only at *
  subst e1 e2
  obtain ⟨rfl, hc2⟩ := hc
  obtain ⟨l, rfl⟩ := List.length_eq_one_iff.1 hc2
  refine ⟨rfl, e4 l (by simp), ?_⟩
  simpa using e5 (by simp)

theorem twoT_in (hord : ∀ p l, (ext.ord p l).Perm l) (hlo : bd ≤ lo + 1) {path : List Bytes} {bs bs' : Acts} (h : ActsIn ext N σ root bd q bs bs') {k : Bytes} (hk : N k) :
    Run ext N σ root bd lo q (fun kn => twoT ext path kn bs k) (fun kn => twoT ext path kn bs' k) := by
  simp only [twoT]
  have h2 : List.Forall₂ (fun x y => x.1 = y.1 ∧ x.2.1 = y.2.1 ∧ N x.1 ∧ N x.2.1 ∧ Run ext N σ root bd bd (q ++ [k, x.1, x.2.1]) x.2.2 y.2.2)
      (twosT bs k) (twosT bs' k) := by
    unfold twosT
    refine forall₂_map2 (fun x y hx hxy => ?_) (forall₂_filter (fun x y hxy => by rw [hxy.1, hxy.2.1]) h.forall₂)
    obtain ⟨_, hc⟩ := List.mem_filter.1 hx
    simp only [Bool.and_eq_true, decide_eq_true_eq] at hc
    obtain ⟨e1, e2, _, e4, e5⟩ := hxy
    obtain ⟨t, ls, f⟩ := x
    obtain ⟨t', ls', f'⟩ := y
    dsimp only at *
    subst e1 e2
    obtain ⟨rfl, hc2⟩ := hc
    obtain ⟨l, l2, rfl⟩ := List.length_eq_two.1 hc2
    exact ⟨rfl, rfl, e4 l (by simp), e4 l2 (by simp), e5 (by simp)⟩
  rw [← forall₂_map_eq (f := Prod.fst) (fun x y hxy => hxy.1) h2]
  refine Run.node hk hlo (Run.map (Run.assign (fun l hl => ?_) _) _)
  have hl' : l ∈ (twosT bs k).map Prod.fst := Hcl.mem_dedupB.1 ((hord _ _).mem_iff.1 hl)
  have hNl : N l := by
    have : ∀ {a c : List (Bytes × Bytes × (Nat → Act GV))}, List.Forall₂ (fun x y => x.1 = y.1 ∧ x.2.1 = y.2.1 ∧ N x.1 ∧ N x.2.1 ∧
        Run ext N σ root bd bd (q ++ [k, x.1, x.2.1]) x.2.2 y.2.2) a c → l ∈ a.map Prod.fst → N l := by
      intro a c hab
      induction hab with
      | nil => intro h; cases h
      | cons hx _ ih =>
        intro hm
        simp only [List.map_cons, List.mem_cons] at hm
        rcases hm with rfl | hm
        · exact hx.2.2.1
        · exact ih hm
    exact this h2 hl'
  refine Run.node hNl (by omega) (Run.labels hord (by omega) ?_)
  unfold twosOfT
  refine forall₂_map2 (fun x y hx hxy => ?_) (forall₂_filter (fun x y hxy => by rw [hxy.1]) h2)
  have hx1 : x.1 = l := by simpa using (List.mem_filter.1 hx).2
  obtain ⟨e1, e2, _, e4, e5⟩ := hxy
  subst hx1
  exact ⟨e2, e4, by simpa using e5⟩

theorem blocksT_in (hord : ∀ p l, (ext.ord p l).Perm l) (hlo : bd ≤ lo + 1) {path : List Bytes} {bs bs' : Acts} (h : ActsIn ext N σ root bd q bs bs')
    (obj : List (Bytes × GV)) : Run ext N σ root bd lo q (fun kn => blocksT ext path kn bs obj) (fun kn => blocksT ext path kn bs' obj) := by
  have hany : bs.any (fun x => decide (2 < x.2.1.length)) = bs'.any (fun x => decide (2 < x.2.1.length)) := by
    have h1 : ∀ l : Acts, l.any (fun x => decide (2 < x.2.1.length)) = (l.map fun x => (x.1, x.2.1)).any fun y => decide (2 < y.2.length) := by
      intro l
      rw [List.any_map]
      rfl
    rw [h1, h1, h.heads]
  have hN : ∀ {n k p}, k ∈ ext.ord p (typesOfT bs n) → N k := by
    intro n k p hk
    obtain ⟨x, hx, rfl, _⟩ := mem_typesOfT ((hord _ _).mem_iff.1 hk)
    exact h.name hx
  simp only [blocksT, ← hany, ← typesOfT_in h]
  split
  · intro kn h' c _
    exact ⟨rfl, fun v h' he => by cases he⟩
  · refine Run.bind (Run.assign (fun k hk => zeroT_in hlo h (hN hk)) _) fun obj => ?_
    refine Run.bind (Run.assign (fun k hk => oneT_in hord hlo h (hN hk)) _) fun obj => ?_
    exact Run.assign (fun k hk => twoT_in hord hlo h (hN hk)) _

end

/-! ## Documents -/

theorem actsT_get {ext : Ext} {root : Nat} {path : List Bytes} : ∀ {blocks : List (Bytes × List Bytes × Hcl.Body)} {i m : Nat},
    (actsT ext root path i blocks)[m]? = (blocks[m]?).map fun x =>
      (x.1, x.2.1, fun node => (bodyT ext root (path ++ List.replicate (i + m) 0 :: x.1 :: x.2.1) x.2.2 node).map GV.map)
  | [], i, m => by simp [actsT]
  | (t, ls, body) :: r, i, m => by
    cases m with
    | zero => simp [actsT]
    | succ m =>
      simp only [actsT, List.getElem?_cons_succ]
      rw [actsT_get (blocks := r), show i + 1 + m = i + (m + 1) by omega]

theorem actsT_heads {ext : Ext} {root : Nat} {path : List Bytes} : ∀ {blocks : List (Bytes × List Bytes × Hcl.Body)} {i : Nat},
    (actsT ext root path i blocks).map (fun x => (x.1, x.2.1)) = blocks.map fun x => (x.1, x.2.1)
  | [], i => by simp [actsT]
  | (t, ls, body) :: r, i => by
    simp only [actsT, List.map_cons]
    rw [actsT_heads]

theorem placeOf_heads {γ δ : Type} {bs : List (Bytes × List Bytes × γ)} {bs' : List (Bytes × List Bytes × δ)}
    (h : bs.map (fun x => (x.1, x.2.1)) = bs'.map fun x => (x.1, x.2.1)) {i : Nat} {x : Bytes × List Bytes × γ} {x' : Bytes × List Bytes × δ}
    (h1 : x.1 = x'.1) (h2 : x.2.1 = x'.2.1) : placeOf bs i x = placeOf bs' i x' := by
  by_cases hl : x.2.1 = []
  · rw [placeOf_none hl, placeOf_none (h2 ▸ hl), h1]
    have : ∀ {ε : Type} (l : List (Bytes × List Bytes × ε)), l.countP (fun y => decide (y.1 = x'.1) && decide (y.2.1.length = 0)) =
        (l.map fun x => (x.1, x.2.1)).countP fun y => decide (y.1 = x'.1) && decide (y.2.length = 0) := by
      intro ε l
      rw [List.countP_map]
      rfl
    rw [this, this, List.map_take, List.map_take, h]
  · rw [placeOf_labels hl, placeOf_labels (h2 ▸ hl), h1, h2]

/-- The document with references and the one without do the same at a node. -/
theorem bodyT_in {ext : Ext} {N : Bytes → Prop} {root : Nat} (hord : ∀ p l, (ext.ord p l).Perm l) {σ : Scope} {p : List Bytes} {body body' : Hcl.Body}
    (hdoc : InnerG N σ p body body') : (∀ n e, σ n e → Scalar e) → ∀ (bd : Nat) (path : List Bytes),
    Run ext N σ root bd bd p (fun node => bodyT ext root path body node) (fun node => bodyT ext root path body' node) := by
  induction hdoc with
  | @mk σ p attrs attrs' blocks blocks' attr names heads types block ih =>
    intro hσ bd path node h c hle
    have hrl : root < h.length := by
      obtain ⟨nd, hnd, _⟩ := c.var
      exact Tree.lt_of_get hnd
    have hb : Base ext N σ root bd node h := ⟨c.sane, c.var, Tree.Walk.valid c.walk hrl, (walk_le c.sane.inv c.walk).1, hle, c.known⟩
    obtain ⟨e1, e2⟩ := attrsT_in hσ attr names (ks := ext.ord path (GoMap.keys attrs)) (obj := []) hb
    simp only [bodyT, Act.bind]
    rw [← forall_keys attr, e1]
    cases hx : assignT (attrT ext root node attrs') (ext.ord path (GoMap.keys attrs)) [] h with
    | error e => exact ⟨rfl, fun v h' he => by cases he⟩
    | ok r =>
      obtain ⟨obj, h1⟩ := r
      dsimp only
      obtain ⟨s1, g1, _, t1⟩ := e2 obj h1 hx
      have hσ' : ∀ n e, enterG σ p attrs' n e → Scalar e := by
        rintro n e (hn | ⟨k, _, hs, _⟩)
        · exact hσ n e hn
        · exact hs
      have hknown : Known ext N (enterG σ p attrs') root (node + 1) h1 := by
        rintro n e (hn | ⟨k, hk, hs, href⟩)
        · exact ((c.known.grow (g1.toGrow.mono hle)).mono (by omega)) n e hn
        · obtain ⟨v, hv⟩ := scalar_eval (ext := ext) hs
          refine ⟨p, k, v, node, href, c.names, g1.le.walk c.walk, by omega, ?_, hv⟩
          refine t1 k ((hord _ _).mem_iff.2 ?_) e hk hs v hv
          rw [forall_keys attr]
          exact List.mem_map.2 ⟨(k, e), GoMap.get?_mem hk, rfl⟩
      have c1 : Ctx ext N (enterG σ p attrs') root (node + 1) p node h1 :=
        ⟨s1, g1.named _ _ c.var, g1.le.walk c.walk, c.names, hknown⟩
      have hacts : ActsIn ext N (enterG σ p attrs') root (node + 1) p (actsT ext root path 0 blocks) (actsT ext root path 0 blocks') := by
        refine ⟨by rw [actsT_heads, actsT_heads, heads], ?_, ?_⟩
        · intro i x hx
          rw [actsT_get] at hx
          cases hbx : blocks[i]? with
          | none => rw [hbx] at hx; cases hx
          | some y =>
            rw [hbx] at hx
            cases hx
            have := types i y hbx
            rwa [placeOf_heads (bs := actsT ext root path 0 blocks) (bs' := blocks) actsT_heads (x' := y) rfl rfl]
        · intro i x x' hx hx'
          rw [actsT_get] at hx hx'
          cases hbx : blocks[i]? with
          | none => rw [hbx] at hx; cases hx
          | some y =>
            cases hbx' : blocks'[i]? with
            | none => rw [hbx'] at hx'; cases hx'
            | some y' =>
              rw [hbx] at hx
              rw [hbx'] at hx'
              cases hx; cases hx'
              rw [placeOf_heads (bs := actsT ext root path 0 blocks) (bs' := blocks) actsT_heads (x' := y) rfl rfl]
              obtain ⟨h1, h2⟩ := heads_get heads hbx hbx'
              dsimp only
              rw [← h1, ← h2]
              exact Run.map (ih i y y' hbx hbx' hσ' (node + 1) _) _
      obtain ⟨e3, p3⟩ := blocksT_in hord (lo := node) (Nat.le_refl _) (path := path) hacts obj node h1 c1 (Nat.le_refl _)
      refine ⟨e3, fun v h' he => ?_⟩
      obtain ⟨s2, g2⟩ := p3 v h' he
      exact ⟨s2, (g1.mono hle).trans (g2.mono (by omega))⟩

end Verif.HclS
