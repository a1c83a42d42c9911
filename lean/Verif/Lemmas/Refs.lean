import Verif.Lemmas.HclStructState
import Verif.Spec.Refs
/-!
# Lemmas about references
-/
set_option linter.unusedSimpArgs false

namespace Verif.HclS
open Verif.Tree (Heap Le Walk Stored Named Child CV)
open Hcl (Cty Expr)
open Det (Cls CVal KeyTy insertK ltB)

/-! ## The text of a reference -/

theorem splitDots_word {k : Bytes} (h : 46 ∉ k) : splitDots k = (k, []) := by
  induction k with
  | nil => rfl
  | cons c r ih =>
    rw [List.mem_cons] at h
    have hc : c ≠ 46 := fun e => h (Or.inl e.symm)
    simp [splitDots, hc, ih fun hh => h (Or.inr hh)]

theorem splitDots_dot {k : Bytes} (h : 46 ∉ k) (r : Bytes) : splitDots (k ++ 46 :: r) = (k, (splitDots r).1 :: (splitDots r).2) := by
  induction k with
  | nil => simp [splitDots]
  | cons c k ih =>
    rw [List.mem_cons] at h
    have hc : c ≠ 46 := fun e => h (Or.inl e.symm)
    simp [splitDots, hc, ih fun hh => h (Or.inr hh)]

theorem splitDots_dotted : ∀ {k : Bytes} {ks : List Bytes}, (∀ x ∈ k :: ks, 46 ∉ x) → splitDots (dotted (k :: ks)) = (k, ks)
  | k, [], h => splitDots_word (h k (by simp))
  | k, k' :: ks, h => by
    have := splitDots_dotted (k := k') (ks := ks) fun x hx => h x (by simp only [List.mem_cons] at hx ⊢; exact Or.inr hx)
    rw [show dotted (k :: k' :: ks) = k ++ 46 :: dotted (k' :: ks) from rfl, splitDots_dot (h k (by simp)), this]

/-! ## The value of a reference -/

theorem get?_toCtys : ∀ (m : List (Bytes × CV Cty)) (k : Bytes), GoMap.get? (toCtys m) k = (GoMap.get? m k).map toCty
  | [], _ => rfl
  | (a, v) :: r, k => by
    simp only [toCtys, GoMap.get?]
    split
    · rfl
    · exact get?_toCtys r k

/-- A reference is the path through the object of all variables. -/
theorem evalE_ref {ext : Ext} {vars : Vars} {k : Bytes} {ks : List Bytes} (h : ∀ x ∈ k :: ks, 46 ∉ x)
    (hk : k ∉ [b "true", b "false", b "null"]) :
    evalE ext vars (.ident (dotted (k :: ks))) = follow (k :: ks) (.object (toCtys vars)) := by
  simp only [List.mem_cons, List.not_mem_nil, not_or, or_false] at hk
  simp only [evalE, splitDots_dotted h, rootOf, if_neg hk.1, if_neg hk.2.1, if_neg hk.2.2, follow, memberOf, get?_toCtys]
  cases GoMap.get? vars k <;> rfl

theorem Free.from {N : Bytes → Prop} {h : Heap Cty} (hf : Free N h) (i : Nat) : FreeFrom N h i := fun _ j _ _ k v hs => hf j k v hs

/-- An item stored at the end of a path, if nothing is stored on the way. -/
theorem follow_walk {h : Heap Cty} {f : Nat → List (Bytes × CV Cty)} (hv : ∀ i, Tree.VarsAt h f i) {N : Bytes → Prop} {i ns j} (hf : FreeFrom N h i)
    (hw : Walk h i ns j) (hN : ∀ x ∈ ns, N x ∧ x ≠ Tree.VAR) {k v} (hk : k ≠ Tree.VAR) (hs : Stored h j k v) :
    ∀ m, (∀ x, x ≠ Tree.VAR → GoMap.get? m x = GoMap.get? (f i) x) → follow (ns ++ [k]) (.object (toCtys m)) = .ok v := by
  induction hw with
  | nil i =>
    intro m hm
    obtain ⟨nd, hnd, hg⟩ := hs
    obtain ⟨base, h1, _, h3⟩ := hv i nd hnd
    have : GoMap.get? m k = some (.item v) := by rw [hm k hk, h3, if_neg (fun hh => hk hh.1)]; exact h1 k hk v hg
    simp [follow, memberOf, get?_toCtys, this, toCty]
  | @cons i n c ns j hc hw ih =>
    intro m hm
    have hn := hN n (by simp)
    obtain ⟨nd, hnd, _⟩ := hc.1
    obtain ⟨base, _, h2, h3⟩ := hv i nd hnd
    have hnone : GoMap.get? nd.data n = none := by
      cases hg : GoMap.get? nd.data n with
      | none => rfl
      | some w => exact absurd hn.1 (hf [] i (.nil i) (fun _ hx => by cases hx) n w ⟨nd, hnd, hg⟩)
    have : GoMap.get? m n = some (.obj (f c)) := by
      rw [hm n hn.2, h3, if_neg (fun hh => hn.2 hh.1)]; exact (h2 n (Or.inr hnone)).1 c hc
    simp only [List.cons_append, follow, memberOf, get?_toCtys, this, Option.map_some, toCty]
    refine ih (fun q j hw hq => hf (n :: q) j (.cons hc hw) ?_) (fun x hx => hN x (by simp [hx])) hs (f c) (fun _ _ => rfl)
    intro x hx
    rcases List.mem_cons.1 hx with rfl | hx
    · exact hn.1
    · exact hq x hx

/-- What a reference to a stored item gives. -/
theorem evalE_stored {ext : Ext} {h : Heap Cty} (hi : Tree.Inv h) {N : Bytes → Prop} {root : Nat} (hf : FreeFrom N h root) (hr : Named h root Tree.VAR)
    {q : List Bytes} {j : Nat} (hw : Walk h root q j) (hN : ∀ x ∈ q, N x) {k : Bytes} {v : Cty} (hs : Stored h j k v) {n : Bytes}
    (href : RefTo (q ++ [k]) n) {vars : Vars} (hvars : Tree.variables h root = some vars) : evalE ext vars (.ident n) = .ok v := by
  obtain ⟨nd, hnd, hname⟩ := hr
  obtain ⟨f, hfv, hv⟩ := Tree.variablesN_spec hi
  have hlt := Tree.lt_of_get hnd
  have h1 : Tree.variables h root = some (f root) := hfv root hlt _ (by omega)
  rw [hvars] at h1; cases h1
  generalize hks : q ++ [k] = ks at href
  have hw' : ∀ x ∈ q ++ [k], Word x := by
    rw [hks]; cases href <;> assumption
  have hq : ∀ x ∈ q, N x ∧ x ≠ Tree.VAR := fun x hx => ⟨hN x hx, (hw' x (by simp [hx])).notVar⟩
  have hk : k ≠ Tree.VAR := (hw' k (by simp)).notVar
  cases href with
  | @plain a as ha hkw =>
    rw [evalE_ref (fun x hx => (ha x hx).dot) hkw, ← hks]
    exact follow_walk hv hf hw hq hk hs _ (fun _ _ => rfl)
  | @var a as ha =>
    have hd : ∀ x ∈ Tree.VAR :: a :: as, 46 ∉ x := by
      intro x hx
      rcases List.mem_cons.1 hx with rfl | hx
      · decide
      · exact (ha x hx).dot
    rw [evalE_ref hd (by decide)]
    obtain ⟨base, _, _, h3⟩ := hv root nd hnd
    have hg : GoMap.get? (f root) Tree.VAR = some (.obj base) := by rw [h3, if_pos ⟨rfl, hname⟩]
    rw [follow]
    simp only [memberOf, get?_toCtys, hg, Option.map_some, toCty]
    rw [← hks]
    refine follow_walk hv hf hw hq hk hs base fun x hx => ?_
    rw [h3, if_neg (fun hh => hx hh.1)]

/-! ## Replacing -/

theorem evalL_same {ext : Ext} {vars : Vars} : ∀ {l l' : List Expr}, l.length = l'.length →
    (∀ (i : Nat) e e', l[i]? = some e → l'[i]? = some e' → evalE ext vars e = evalE ext vars e') → evalL ext vars l = evalL ext vars l'
  | [], [], _, _ => rfl
  | e :: l, e' :: l', hl, h => by
    have h0 := h 0 e e' rfl rfl
    have ih := evalL_same (l := l) (l' := l') (by simpa using hl) fun i x x' hx hx' => h (i + 1) x x' (by simpa using hx) (by simpa using hx')
    simp only [evalL, h0, ih]
  | [], _ :: _, hl, _ => by simp at hl
  | _ :: _, [], hl, _ => by simp at hl

theorem evalO_same {ext : Ext} {vars : Vars} : ∀ {m m' : List (Expr × Expr)}, m.map Prod.fst = m'.map Prod.fst →
    (∀ (i : Nat) x x', m[i]? = some x → m'[i]? = some x' → evalE ext vars x.2 = evalE ext vars x'.2) → ∀ acc,
    evalO ext vars m acc = evalO ext vars m' acc
  | [], [], _, _, _ => rfl
  | (k, e) :: m, (k', e') :: m', hl, h, acc => by
    have h0 := h 0 (k, e) (k', e') rfl rfl
    simp only [List.map_cons, List.cons.injEq] at hl
    have ih := evalO_same (m := m) (m' := m') hl.2 fun i x x' hx hx' => h (i + 1) x x' (by simpa using hx) (by simpa using hx')
    have hk : k = k' := hl.1
    subst hk
    simp only at h0
    simp only [evalO, h0, ih]
  | [], _ :: _, hl, _, _ => by simp at hl
  | _ :: _, [], hl, _, _ => by simp at hl

theorem evalE_repl {ext : Ext} {vars : Vars} {σ : Scope} (hσ : ∀ n e, σ n e → evalE ext vars (.ident n) = evalE ext vars e) {e e' : Expr}
    (h : Repl σ e e') : evalE ext vars e = evalE ext vars e' := by
  induction h with
  | same => rfl
  | ref h => exact hσ _ _ h
  | @neg n q h =>
    have := hσ _ _ h
    rw [evalE, this, evalE, evalE]
    rfl
  | tuple hl _ ih => rw [evalE, evalE, evalL_same hl ih]
  | object hl _ ih => rw [evalE, evalE, evalO_same hl ih]

/-! ## Growing trees -/

/-- A tree in which nothing is stored under the name of a block. -/
structure Sane (N : Bytes → Prop) (h : Heap Cty) : Prop where
  inv : Tree.Inv h
  free : Free N h

/-- The tree has grown; what is stored in nodes before `b` is still stored. -/
structure Grow (b : Nat) (h h' : Heap Cty) : Prop where
  le : Le h h'
  named : ∀ i n, Named h i n → Named h' i n
  kept : ∀ i, i < b → ∀ k v, Stored h i k v → Stored h' i k v

theorem Grow.refl (b h) : Grow b h h := ⟨.refl h, fun _ _ h => h, fun _ _ _ _ h => h⟩

theorem Grow.trans {b h h' h''} (x : Grow b h h') (y : Grow b h' h'') : Grow b h h'' :=
  ⟨x.le.trans y.le, fun i n hn => y.named i n (x.named i n hn), fun i hi k v hs => y.kept i hi k v (x.kept i hi k v hs)⟩

theorem Grow.mono {b b' h h'} (x : Grow b h h') (hb : b' ≤ b) : Grow b' h h' :=
  ⟨x.le, x.named, fun i hi => x.kept i (by omega)⟩

theorem addItem_get {h h' : Heap Cty} {i k v} (he : Tree.addItem h i k v = some h') :
    ∃ nd, h[i]? = some nd ∧ h' = h.set i { nd with data := GoMap.set nd.data k v } := by
  simp only [Tree.addItem] at he
  split at he
  · cases he
  · rename_i nd hx; cases he; exact ⟨nd, hx, rfl⟩

theorem addItem_stored {h h' : Heap Cty} {i k v} (he : Tree.addItem h i k v = some h') : Stored h' i k v := by
  obtain ⟨nd, hnd, rfl⟩ := addItem_get he
  refine ⟨_, by rw [Tree.get_set (Tree.lt_of_get hnd), if_pos rfl], ?_⟩
  exact GoMap.get?_set_self _ _ _

theorem addItem_other {h h' : Heap Cty} {i k v} (he : Tree.addItem h i k v = some h') {j x w} (hne : ¬ (j = i ∧ x = k)) :
    Stored h j x w ↔ Stored h' j x w := by
  obtain ⟨nd, hnd, rfl⟩ := addItem_get he
  have hlt := Tree.lt_of_get hnd
  by_cases hj : j = i
  · subst hj
    have hx : k ≠ x := fun e => hne ⟨rfl, e.symm⟩
    constructor
    · rintro ⟨n2, h2, h3⟩
      rw [hnd] at h2; cases h2
      exact ⟨_, by rw [Tree.get_set hlt, if_pos rfl], by dsimp only; rw [GoMap.get?_set_ne hx]; exact h3⟩
    · rintro ⟨n2, h2, h3⟩
      rw [Tree.get_set hlt, if_pos rfl] at h2; cases h2
      dsimp only at h3
      rw [GoMap.get?_set_ne hx] at h3
      exact ⟨nd, hnd, h3⟩
  · constructor
    · rintro ⟨n2, h2, h3⟩
      exact ⟨n2, by rw [Tree.get_set hlt, if_neg hj]; exact h2, h3⟩
    · rintro ⟨n2, h2, h3⟩
      rw [Tree.get_set hlt, if_neg hj] at h2
      exact ⟨n2, h2, h3⟩

theorem addItem_named {h h' : Heap Cty} {i k v} (he : Tree.addItem h i k v = some h') {j x} (hn : Named h j x) : Named h' j x := by
  obtain ⟨nd, hnd, rfl⟩ := addItem_get he
  obtain ⟨n2, h2, h3⟩ := hn
  by_cases hj : j = i
  · subst hj
    rw [hnd] at h2; cases h2
    exact ⟨{ nd with data := GoMap.set nd.data k v }, by rw [Tree.get_set (Tree.lt_of_get hnd), if_pos rfl], h3⟩
  · exact ⟨n2, by rw [Tree.get_set (Tree.lt_of_get hnd), if_neg hj]; exact h2, h3⟩

theorem addItem_grow {N : Bytes → Prop} {h h' : Heap Cty} {i k v} (hs : Sane N h) (he : Tree.addItem h i k v = some h') (hk : ¬ N k) :
    Sane N h' ∧ Grow i h h' := by
  obtain ⟨hi, hl⟩ := addItem_step he hs.inv
  refine ⟨⟨hi, ?_⟩, hl, fun j x => addItem_named he, ?_⟩
  · intro j x w hw
    by_cases hj : j = i ∧ x = k
    · rw [hj.2]; exact hk
    · exact hs.free j x w ((addItem_other he hj).2 hw)
  · intro j hj x w hw
    exact (addItem_other he (fun hh => by omega)).1 hw

theorem addNode_grow {N : Bytes → Prop} {h h' : Heap Cty} {i k c} (hs : Sane N h) (he : Tree.addNode h i k = some (h', c)) (b : Nat) :
    Sane N h' ∧ Grow b h h' := by
  obtain ⟨hi, hl⟩ := addNode_step he hs.inv
  have hlt : ∃ nd, h[i]? = some nd := by
    simp only [Tree.addNode] at he
    split at he
    · cases he
    · rename_i nd hx; exact ⟨nd, hx⟩
  obtain ⟨nd, hnd⟩ := hlt
  have hlt := Tree.lt_of_get hnd
  rcases Tree.addNode_cases hs.inv hnd k with ⟨c', _, h2⟩ | ⟨_, h2⟩
  · rw [h2] at he; cases he
    exact ⟨hs, .refl b _⟩
  · rw [h2] at he; cases he
    have hst : ∀ j x w, Stored h j x w ↔ Stored (h.set i { nd with downs := nd.downs ++ [h.length] } ++
          [{ name := k, data := [], up := some i, downs := [] }]) j x w := by
      intro j x w
      constructor
      · rintro ⟨n2, h3, h4⟩
        have hj := Tree.lt_of_get h3
        by_cases hji : j = i
        · subst hji
          rw [hnd] at h3; cases h3
          exact ⟨{ nd with downs := nd.downs ++ [h.length] }, by rw [Tree.get_set_append hlt, if_neg (by omega), if_pos rfl], h4⟩
        · exact ⟨n2, by rw [Tree.get_set_append hlt, if_neg (by omega), if_neg hji]; exact h3, h4⟩
      · rintro ⟨n2, h3, h4⟩
        rw [Tree.get_set_append hlt] at h3
        split at h3
        · cases h3; cases h4
        split at h3
        · rename_i hji
          cases h3
          rw [hji]
          exact ⟨nd, hnd, h4⟩
        · exact ⟨n2, h3, h4⟩
    refine ⟨⟨hi, fun j x w hw => hs.free j x w ((hst j x w).2 hw)⟩, hl, ?_, fun j _ x w hw => (hst j x w).1 hw⟩
    rintro j x ⟨n2, h3, h4⟩
    have hj := Tree.lt_of_get h3
    by_cases hji : j = i
    · subst hji
      rw [hnd] at h3; cases h3
      exact ⟨{ nd with downs := nd.downs ++ [h.length] }, by rw [Tree.get_set_append hlt, if_neg (by omega), if_pos rfl], h4⟩
    · exact ⟨n2, by rw [Tree.get_set_append hlt, if_neg (by omega), if_neg hji]; exact h3, h4⟩

theorem addNodesLoop_grow {N : Bytes → Prop} (b : Nat) : ∀ {ns : List Bytes} {h h' : Heap Cty} {i c}, Sane N h →
    Tree.addNodesLoop h i ns = some (h', c) → Sane N h' ∧ Grow b h h'
  | [], h, h', i, c, hs, he => by cases he; exact ⟨hs, .refl b _⟩
  | n :: ns, h, h', i, c, hs, he => by
    simp only [Tree.addNodesLoop] at he
    split at he
    · cases he
    rename_i h1
    obtain ⟨a1, a2⟩ := addNode_grow hs h1 b
    obtain ⟨b1, b2⟩ := addNodesLoop_grow b a1 he
    exact ⟨b1, a2.trans b2⟩

theorem addBlockNodes_grow {N : Bytes → Prop} (b node : Nat) : ∀ {blocks : List (Bytes × List Bytes × Body)} {h h' : Heap Cty}, Sane N h →
    addBlockNodes node blocks h = .ok h' → Sane N h' ∧ Grow b h h'
  | [], h, h', hs, he => by cases he; exact ⟨hs, .refl b _⟩
  | x :: r, h, h', hs, he => by
    simp only [addBlockNodes] at he
    split at he
    · cases he
    rename_i h1
    obtain ⟨a1, a2⟩ := addNodesLoop_grow (ns := x.1 :: x.2.1) b hs (by simpa [Tree.addNodes, Tree.addNodesLoop] using h1)
    obtain ⟨b1, b2⟩ := addBlockNodes_grow b node a1 he
    exact ⟨b1, a2.trans b2⟩

theorem oriAttrs_grow {N : Bytes → Prop} (b : Nat) {nulls lf vals node} : ∀ {ks h h'}, Sane N h → oriAttrs nulls lf vals node ks h = .ok h' →
    Sane N h' ∧ Grow b h h'
  | [], h, h', hs, he => by cases he; exact ⟨hs, .refl b _⟩
  | k :: ks, h, h', hs, he => by
    simp only [oriAttrs] at he
    split at he
    · exact oriAttrs_grow b hs he
    split at he
    · split at he
      · cases he
      rename_i h1
      obtain ⟨a1, a2⟩ := addNode_grow hs h1 b
      obtain ⟨b1, b2⟩ := oriAttrs_grow b a1 he
      exact ⟨b1, a2.trans b2⟩
    · cases he

/-! ## Attributes -/

/-- The scope is right: every reference names an item with the value of its literal, in a node before `b`. -/
def Known (ext : Ext) (N : Bytes → Prop) (σ : Scope) (root b : Nat) (h : Heap Cty) : Prop :=
  ∀ n e, σ n e → ∃ q k v j, RefTo (q ++ [k]) n ∧ (∀ x ∈ q, N x) ∧ Walk h root q j ∧ j < b ∧ Stored h j k v ∧
    ∀ vars, evalE ext vars e = .ok v

theorem Known.grow {ext N σ root b h h'} (hk : Known ext N σ root b h) (hg : Grow b h h') : Known ext N σ root b h' := by
  intro n e hn
  obtain ⟨q, k, v, j, h1, h2, h3, h4, h5, h6⟩ := hk n e hn
  exact ⟨q, k, v, j, h1, h2, hg.le.walk h3, h4, hg.kept j h4 k v h5, h6⟩

theorem Known.mono {ext N σ root b b' h} (hk : Known ext N σ root b h) (hb : b ≤ b') : Known ext N σ root b' h := by
  intro n e hn
  obtain ⟨q, k, v, j, h1, h2, h3, h4, h5, h6⟩ := hk n e hn
  exact ⟨q, k, v, j, h1, h2, h3, by omega, h5, h6⟩

theorem Known.eval {ext N σ root b h} (hk : Known ext N σ root b h) (hs : Sane N h) (hr : Named h root Tree.VAR) {vars : Vars}
    (hvars : Tree.variables h root = some vars) : ∀ n e, σ n e → evalE ext vars (.ident n) = evalE ext vars e := by
  intro n e hn
  obtain ⟨q, k, v, j, h1, h2, h3, _, h5, h6⟩ := hk n e hn
  rw [evalE_stored hs.inv (hs.free.from root) hr h3 h2 h5 h1 hvars, h6]

theorem attrIn_get {σ : Scope} {attrs attrs' : List (Bytes × Attr)} (h : List.Forall₂ (AttrIn σ) attrs attrs') (k : Bytes) :
    (GoMap.get? attrs k = none ∧ GoMap.get? attrs' k = none) ∨
      ∃ a a', GoMap.get? attrs k = some a ∧ GoMap.get? attrs' k = some a' ∧ a.src = a'.src ∧ Repl σ a.expr a'.expr := by
  induction h with
  | nil => exact Or.inl ⟨rfl, rfl⟩
  | @cons x x' l l' hx _ ih =>
    obtain ⟨n, a⟩ := x
    obtain ⟨n', a'⟩ := x'
    have hn : n = n' := hx.name
    subst hn
    simp only [GoMap.get?]
    by_cases hk : n = k
    · rw [if_pos hk, if_pos hk]
      exact Or.inr ⟨a, a', rfl, rfl, hx.src, hx.expr⟩
    · rw [if_neg hk, if_neg hk]
      exact ih

theorem attrIn_keys {σ : Scope} {attrs attrs' : List (Bytes × Attr)} (h : List.Forall₂ (AttrIn σ) attrs attrs') :
    GoMap.keys attrs = GoMap.keys attrs' := by
  induction h with
  | nil => rfl
  | cons hx _ ih => simp only [GoMap.keys, List.map_cons] at ih ⊢; rw [hx.name, ih]

/-- What is stored elsewhere stays. -/
theorem evalAttrs_kept {ext root node attrs} {i k v} : ∀ {ks : List Bytes} {h vals h'}, ¬ (i = node ∧ k ∈ ks) →
    evalAttrs ext root node attrs ks h = .ok (vals, h') → Stored h i k v → Stored h' i k v
  | [], h, vals, h', _, he, hs => by cases he; exact hs
  | x :: ks, h, vals, h', hn, he, hs => by
    simp only [evalAttrs] at he
    split at he
    · split at he
      · cases he
      split at he
      · cases he
      rename_i h1 ha
      split at he
      · cases he
      rename_i hr
      cases he
      refine evalAttrs_kept (fun hh => hn ⟨hh.1, by simp [hh.2]⟩) hr ((addItem_other ha ?_).1 hs)
      rintro ⟨h1, h2⟩
      exact hn ⟨h1, by simp [h2]⟩
    · cases he

theorem evalAttrs_in {ext : Ext} {N : Bytes → Prop} {σ : Scope} {root node : Nat} {attrs attrs' : List (Bytes × Attr)}
    (ha : List.Forall₂ (AttrIn σ) attrs attrs') (hn : ∀ a ∈ attrs, ¬ N a.1) : ∀ {ks : List Bytes} {h : Heap Cty}, Sane N h →
    Named h root Tree.VAR → Known ext N σ root node h →
    evalAttrs ext root node attrs ks h = evalAttrs ext root node attrs' ks h ∧
    ∀ vals h', evalAttrs ext root node attrs' ks h = .ok (vals, h') → Sane N h' ∧ Grow node h h' ∧
      ∀ k ∈ ks, ∀ a', GoMap.get? attrs' k = some a' → Lit a'.expr →
        ∃ v, (∀ vars, evalE ext vars a'.expr = .ok v) ∧ Stored h' node k v
  | [], h, hs, hr, hk => by
    refine ⟨rfl, ?_⟩
    intro vals h' he
    cases he
    exact ⟨hs, .refl _ _, fun k hk => by cases hk⟩
  | k :: ks, h, hs, hr, hk => by
    simp only [evalAttrs]
    rcases attrIn_get ha k with ⟨h1, h2⟩ | ⟨a, a', h1, h2, _, hrep⟩
    · rw [h1, h2]
      exact ⟨rfl, fun vals h' he => by cases he⟩
    · rw [h1, h2]
      have hNk : ¬ N k := hn (k, a) (GoMap.get?_mem h1)
      cases hv : Tree.variables h root with
      | none => exact ⟨rfl, fun vals h' he => by cases he⟩
      | some vars =>
        dsimp only
        rw [evalE_repl (hk.eval hs hr hv) hrep]
        cases hx : evalE ext vars a'.expr with
        | error x => exact ⟨rfl, fun vals h' he => by cases he⟩
        | ok cv =>
          dsimp only
          cases hi : Tree.addItem h node k cv with
          | none => exact ⟨rfl, fun vals h' he => by cases he⟩
          | some h1' =>
            dsimp only
            obtain ⟨hs1, hg1⟩ := addItem_grow hs hi hNk
            obtain ⟨e1, e2⟩ := evalAttrs_in ha hn (ks := ks) (h := h1') hs1 (hg1.named _ _ hr) (hk.grow hg1)
            rw [e1]
            refine ⟨rfl, ?_⟩
            intro vals h' he
            cases hres : evalAttrs ext root node attrs' ks h1' with
            | error x => rw [hres] at he; cases he
            | ok r =>
              obtain ⟨vs, h2'⟩ := r
              rw [hres] at he
              cases he
              obtain ⟨f1, f2, f3⟩ := e2 _ _ hres
              refine ⟨f1, hg1.trans f2, ?_⟩
              intro x hxm b hb hl
              by_cases hxk : x ∈ ks
              · exact f3 x hxk b hb hl
              · rcases List.mem_cons.1 hxm with rfl | hc
                · rw [h2] at hb; cases hb
                  obtain ⟨v, hlv⟩ := evalE_lit (ext := ext) hl
                  replace hlv : ∀ vars, evalE ext vars a'.expr = .ok v := fun vars => hlv ext.ord vars
                  rw [hlv] at hx; cases hx
                  exact ⟨_, hlv, evalAttrs_kept (fun hh => hxk hh.2) hres (addItem_stored hi)⟩
                · exact absurd hc hxk

/-! ## Blocks -/

/-- The same result, and a state with the property. -/
def SimE {α : Type} (Q : St → Prop) (x x' : Except Fail (α × St)) : Prop := x = x' ∧ ∀ a st, x' = .ok (a, st) → Q st

theorem SimE.map {α β : Type} {Q : St → Prop} {x x' : Except Fail (α × St)} (h : SimE Q x x') (g : α → β) :
    SimE Q (x.map fun r => (g r.1, r.2)) (x'.map fun r => (g r.1, r.2)) := by
  refine ⟨by rw [h.1], ?_⟩
  intro a st he
  obtain ⟨r, h1, h2⟩ := map_ok' he
  cases h2
  exact h.2 r.1 r.2 h1

theorem SimE.error {α : Type} {Q : St → Prop} (e : Fail) : SimE Q (.error e : Except Fail (α × St)) (.error e) :=
  ⟨rfl, fun _ _ h => by cases h⟩

section
variable {env : Env} {rec : Rec} {node : Nat} {tag : Bytes} {Q : St → Prop} {R : Blk → Blk → Prop}
  (hlab : ∀ x y, R x y → x.labels = y.labels)
  (hdec : ∀ path st x y cls ml, R x y → Q st → SimE Q (decodeBlock rec path st node tag x cls ml) (decodeBlock rec path st node tag y cls ml))
include hlab hdec

theorem mapLoop_in {path kt ety m first} : ∀ {x y : List Blk}, List.Forall₂ R x y → ∀ st acc, Q st →
    SimE Q (mapLoop env rec path node tag kt ety m first x st acc) (mapLoop env rec path node tag kt ety m first y st acc)
  | _, _, .nil, st, acc, hq => ⟨rfl, fun _ _ h => by cases h; exact hq⟩
  | x :: xs, y :: ys, .cons hb ht, st, acc, hq => by
    unfold mapLoop
    rw [hlab x y hb]
    have hp : place path tag ys = place path tag xs := by simp only [place, ht.length_eq]
    rw [hp]
    cases hl : y.labels with
    | nil => exact .error _
    | cons key ls =>
      dsimp only
      cases h1 : orPanic ((GoMap.get? m key).or first) with
      | error e => exact .error _
      | ok cls =>
        dsimp only
        obtain ⟨h2, h3⟩ := hdec (place path tag xs) st x y cls (some 1) hb hq
        rw [h2]
        cases h4 : decodeBlock rec (place path tag xs) st node tag y cls (some 1) with
        | error e => exact .error _
        | ok z =>
          dsimp only
          split
          · cases h5 : store env ety z.1.1 z.1.2 with
            | error e => exact .error _
            | ok v => exact mapLoop_in ht _ _ (h3 _ _ h4)
          · exact .error _

theorem map2Loop_in {path kt ety m first ff} : ∀ {x y : List Blk}, List.Forall₂ R x y → ∀ st acc, Q st →
    SimE Q (map2Loop env rec path node tag kt ety m first ff x st acc) (map2Loop env rec path node tag kt ety m first ff y st acc)
  | _, _, .nil, st, acc, hq => ⟨rfl, fun _ _ h => by cases h; exact hq⟩
  | x :: xs, y :: ys, .cons hb ht, st, acc, hq => by
    unfold map2Loop
    rw [hlab x y hb]
    have hp : place path tag ys = place path tag xs := by simp only [place, ht.length_eq]
    rw [hp]
    generalize orPanic _ = o
    cases o with
    | error e => exact .error _
    | ok cls =>
      dsimp only
      obtain ⟨h2, h3⟩ := hdec (place path tag xs) st x y cls (some 2) hb hq
      rw [h2]
      cases h4 : decodeBlock rec (place path tag xs) st node tag y cls (some 2) with
      | error e => exact .error _
      | ok z =>
        dsimp only
        split
        · cases h5 : store env ety z.1.1 z.1.2 with
          | error e => exact .error _
          | ok v => exact map2Loop_in ht _ _ (h3 _ _ h4)
        · exact .error _

omit hlab in
theorem listLoop_in {path ety first} : ∀ {x y : List Blk}, List.Forall₂ R x y → ∀ cs st, Q st →
    SimE Q (listLoop env rec path node tag ety first cs x st) (listLoop env rec path node tag ety first cs y st)
  | _, _, .nil, cs, st, hq => by
    unfold listLoop
    exact ⟨rfl, fun _ _ h => by cases h; exact hq⟩
  | x :: xs, y :: ys, .cons hb ht, cs, st, hq => by
    unfold listLoop
    have hp : place path tag ys = place path tag xs := by simp only [place, ht.length_eq]
    rw [hp]
    obtain ⟨h2, h3⟩ := hdec (place path tag xs) st x y (cs.headD first) none hb hq
    rw [h2]
    cases h4 : decodeBlock rec (place path tag xs) st node tag y (cs.headD first) none with
    | error e => exact .error _
    | ok z =>
      dsimp only
      cases h5 : store env ety z.1.1 z.1.2 with
      | error e => exact .error _
      | ok v =>
        dsimp only
        obtain ⟨h6, h7⟩ := listLoop_in (path := path) (ety := ety) (first := first) ht cs.tail z.2 (h3 _ _ h4)
        rw [h6]
        refine ⟨rfl, ?_⟩
        intro a st' he
        cases h8 : listLoop env rec path node tag ety first cs.tail ys z.2 with
        | error e => rw [h8] at he; cases he
        | ok w => rw [h8] at he; cases he; exact h7 _ _ h8

theorem listMapLoop_in {path kt ety first} : ∀ {x y : List Blk}, List.Forall₂ R x y → ∀ st acc, Q st →
    SimE Q (listMapLoop env rec path node tag kt ety first x st acc) (listMapLoop env rec path node tag kt ety first y st acc)
  | _, _, .nil, st, acc, hq => ⟨rfl, fun _ _ h => by cases h; exact hq⟩
  | x :: xs, y :: ys, .cons hb ht, st, acc, hq => by
    unfold listMapLoop
    have hp : place path tag ys = place path tag xs := by simp only [place, ht.length_eq]
    rw [hp, hlab x y hb]
    obtain ⟨h2, h3⟩ := hdec (place path tag xs) st x y first none hb hq
    rw [h2]
    cases h4 : decodeBlock rec (place path tag xs) st node tag y first none with
    | error e => exact .error _
    | ok z =>
      dsimp only
      cases hl : y.labels with
      | nil => exact .error _
      | cons key ls =>
        dsimp only
        split
        · cases h5 : store env ety z.1.1 z.1.2 with
          | error e => exact .error _
          | ok v => exact listMapLoop_in ht _ _ (h3 _ _ h4)
        · exact .error _

theorem oriValue_in {ext : Ext} {x y : List Blk} (hb : List.Forall₂ R x y) (path ty spec st) (hq : Q st) :
    SimE Q (oriValue env ext rec path node tag ty spec x st) (oriValue env ext rec path node tag ty spec y st) := by
  unfold oriValue
  cases spec with
  | map2 m =>
    cases ty with
    | map kt ety => exact (map2Loop_in hlab hdec hb _ _ hq).map fun r => some (Val.map2 r)
    | _ => exact .error _
  | map m =>
    cases ty with
    | map kt ety => exact (mapLoop_in hlab hdec hb _ _ hq).map fun r => some (Val.map r)
    | _ => exact .error _
  | list l =>
    cases l with
    | nil => exact .error _
    | cons first cs =>
      cases ty with
      | map kt ety => exact (listMapLoop_in hlab hdec hb _ _ hq).map fun r => some (Val.map r)
      | slice ety => exact (listLoop_in hdec hb _ _ hq).map fun r => some (Val.slice r)
      | _ => exact .error _
  | single cls =>
    cases hb with
    | nil => exact .error _
    | @cons a c xs ys hb ht =>
      dsimp only
      have hp : place path tag ys = place path tag xs := by simp only [place, ht.length_eq]
      rw [hp]
      obtain ⟨h2, h3⟩ := hdec (place path tag xs) st a c cls none hb hq
      rw [h2]
      cases h4 : decodeBlock rec (place path tag xs) st node tag c cls none with
      | error e => exact .error _
      | ok z =>
        dsimp only
        refine ⟨rfl, ?_⟩
        intro v st' he
        obtain ⟨r, _, h6⟩ := map_ok' he
        cases h6
        exact h3 _ _ h4
  | none => exact ⟨rfl, fun _ _ h => by cases h; exact hq⟩

theorem oriStep_in {ext : Ext} {nulls lf vals path f} {body body' : Body} (hf : f.tag = tag)
    (hb : List.Forall₂ R (oriBlocks ext nulls lf body vals tag) (oriBlocks ext nulls lf body' vals tag)) (fs st) (hq : Q st) :
    SimE Q (oriStep env ext rec nulls lf body vals path node f fs st) (oriStep env ext rec nulls lf body' vals path node f fs st) := by
  unfold oriStep
  rw [hf]
  revert hb
  generalize oriBlocks ext nulls lf body vals tag = x
  generalize oriBlocks ext nulls lf body' vals tag = y
  intro hb
  cases hb with
  | nil => exact ⟨rfl, fun _ _ h => by cases h; exact hq⟩
  | @cons a c xs ys hb ht =>
    dsimp only
    obtain ⟨h1, h2⟩ := oriValue_in hlab hdec (env := env) (ext := ext) (.cons hb ht) path f.ty ((GoMap.get? lf.obj f.name).getD .none) st hq
    rw [h1]
    refine ⟨rfl, ?_⟩
    intro fs' st' he
    cases h3 : oriValue env ext rec path node tag f.ty ((GoMap.get? lf.obj f.name).getD .none) (c :: ys) st with
    | error e => rw [h3] at he; cases he
    | ok z =>
      rw [h3] at he
      obtain ⟨o, st1⟩ := z
      have := h2 _ _ h3
      cases o with
      | none => cases he; exact this
      | some v =>
        obtain ⟨r, _, h6⟩ := map_ok' he
        cases h6
        exact this

end

/-- Steps with the same results that keep the property. -/
def StepIn (Q : St → Prop) (s s' : Step) : Prop := ∀ fs st, Q st → SimE Q (s fs st) (s' fs st)

theorem runSteps_in {Q : St → Prop} : ∀ {l l' : List Step}, List.Forall₂ (StepIn Q) l l' → ∀ fs st, Q st →
    runSteps l fs st = runSteps l' fs st ∧ ∀ fs' st', runSteps l' fs st = (fs', .ok st') → Q st'
  | _, _, .nil, fs, st, hq => ⟨rfl, fun _ _ h => by cases h; exact hq⟩
  | s :: l, s' :: l', .cons hs ht, fs, st, hq => by
    obtain ⟨h1, h2⟩ := hs fs st hq
    simp only [runSteps]
    rw [h1]
    cases h3 : s' fs st with
    | error e => exact ⟨rfl, fun _ _ h => by cases h⟩
    | ok z =>
      obtain ⟨fs1, st1⟩ := z
      exact runSteps_in ht fs1 st1 (h2 _ _ h3)

theorem stateless_in {Q : St → Prop} {s : Step} (hs : Stateless s) : StepIn Q s s := by
  intro fs st hq
  refine ⟨rfl, ?_⟩
  intro fs' st' he
  obtain ⟨g, hg⟩ := hs
  rw [hg] at he
  obtain ⟨w, _, h⟩ := map_ok' he
  cases h
  exact hq

/-! ## Generic fields -/

theorem addElem_decs {lf : LF} {f : Fld} {k : ElemKind} {v} {G : Bytes → Prop} (h : ∀ g ∈ lf.decs, G g.tag) (hk : k = .dyn → G f.tag) :
    ∀ g ∈ (lf.addElem f k v).decs, G g.tag := by
  cases k with
  | cls => exact h
  | plain => exact h
  | dyn =>
    intro g hg
    rcases List.mem_append.1 hg with hg | hg
    · exact h g hg
    · rw [List.mem_singleton.1 hg]; exact hk rfl

theorem addTagged_decs {env : Env} {ext : Ext} {lf : LF} {f : Fld} {G : Bytes → Prop} (h : ∀ g ∈ lf.decs, G g.tag)
    (hf : ∀ e, (f.ty.deref = .slice e ∨ ∃ k, f.ty.deref = .map k e) → elemKind env ext e = .dyn → G f.tag) :
    ∀ g ∈ (lf.addTagged env ext f).decs, G g.tag := by
  unfold LF.addTagged
  split
  · exact h
  · rename_i hd; exact addElem_decs h fun hk => hf _ (Or.inr ⟨_, hd⟩) hk
  · rename_i hd; exact addElem_decs h fun hk => hf _ (Or.inl hd) hk
  · rename_i hd; exact addElem_decs h fun hk => hf _ (Or.inr ⟨_, hd⟩) hk
  · exact h

theorem loopList_decs {env : Env} {ext : Ext} {nulls deep} {G : Bytes → Prop} (hG : GenericTags env ext G)
    (hd : ∀ c lf lf', (∀ g ∈ lf.decs, G g.tag) → deep (env.struct c).fields lf = .ok lf' → ∀ g ∈ lf'.decs, G g.tag) {c : Nat} :
    ∀ {fs lf lf'}, (∀ f ∈ fs, f ∈ (env.struct c).fields) → (∀ g ∈ lf.decs, G g.tag) → loopList env ext nulls deep fs lf = .ok lf' →
      ∀ g ∈ lf'.decs, G g.tag
  | [], lf, lf', _, hl, h => by cases h; exact hl
  | f :: fs, lf, lf', hfs, hl, h => by
    have ih := fun lf lf' => loopList_decs hG hd (c := c) (nulls := nulls) (fs := fs) (lf := lf) (lf' := lf') fun f hf => hfs f (by simp [hf])
    simp only [loopList] at h
    split at h
    · exact ih _ _ hl h
    split at h
    · exact ih _ _ hl h
    split at h
    · exact ih { lf with labels := lf.labels ++ [f] } _ hl h
    split at h
    · exact ih _ _ hl h
    split at h
    · split at h
      · cases h
      · exact ih { lf with oris := lf.oris ++ [f] } _ hl h
    split at h
    · split at h
      · split at h
        · cases h
        rename_i lf1 hd1
        exact ih _ _ (hd _ _ _ hl hd1) h
      · exact ih _ _ hl h
    · exact ih _ _ (addTagged_decs hl (hG c f (hfs f (by simp)))) h

theorem loopFields_decs {env : Env} {ext : Ext} {nulls} {G : Bytes → Prop} (hG : GenericTags env ext G) : ∀ n c lf lf', (∀ g ∈ lf.decs, G g.tag) →
    loopFields env ext nulls n (env.struct c).fields lf = .ok lf' → ∀ g ∈ lf'.decs, G g.tag
  | 0, c, _, _, hl, h => loopList_decs hG (fun _ _ _ _ h => by cases h) (c := c) (fun _ h => h) hl h
  | n + 1, c, _, _, hl, h => loopList_decs hG (loopFields_decs hG n) (c := c) (fun _ h => h) hl h

theorem decStep_none {ext : Ext} {nulls lf vals node} {f : Fld} {body : Body} (ha : ∀ a ∈ body.attrs, a.1 ≠ f.tag)
    (hb : ∀ x ∈ body.blocks, x.1 ≠ f.tag) : decStep ext nulls lf body vals node f = fun fs st => .ok (fs, st) := by
  have h1 : GoMap.get? body.attrs f.tag = none := by
    cases h : GoMap.get? body.attrs f.tag with
    | none => rfl
    | some a => exact absurd rfl (ha _ (GoMap.get?_mem h))
  have h2 : (body.blocks.filter fun x => x.1 = f.tag && !hasTag lf.oris x.1) = [] := by
    rw [List.filter_eq_nil_iff]
    intro x hx
    simp [hb x hx]
  funext fs st
  simp only [decStep, h1, h2]
  cases routed nulls lf vals .dec f.tag <;> rfl

/-! ## A body -/

/-- Blocks with the same heads and related contents. -/
theorem blocks_in {P : Bytes × List Bytes × Body → Bytes × List Bytes × Body → Prop} : ∀ {l l' : List (Bytes × List Bytes × Body)},
    l.map (fun x => (x.1, x.2.1)) = l'.map (fun x => (x.1, x.2.1)) →
    (∀ (i : Nat) x x', l[i]? = some x → l'[i]? = some x' → P x x') →
    List.Forall₂ (fun x x' => x.1 = x'.1 ∧ x.2.1 = x'.2.1 ∧ P x x') l l'
  | [], [], _, _ => .nil
  | x :: l, x' :: l', hh, hp => by
    simp only [List.map_cons, List.cons.injEq, Prod.mk.injEq] at hh
    exact .cons ⟨hh.1.1, hh.1.2, hp 0 x x' rfl rfl⟩ (blocks_in hh.2 fun i y y' hy hy' => hp (i + 1) y y' (by simpa using hy) (by simpa using hy'))
  | [], _ :: _, hh, _ => by simp at hh
  | _ :: _, [], hh, _ => by simp at hh

theorem addBlockNodes_heads {node} : ∀ {l l' : List (Bytes × List Bytes × Body)},
    l.map (fun x => (x.1, x.2.1)) = l'.map (fun x => (x.1, x.2.1)) → ∀ h, addBlockNodes node l h = addBlockNodes node l' h
  | [], [], _, _ => rfl
  | x :: l, x' :: l', hh, h => by
    simp only [List.map_cons, List.cons.injEq, Prod.mk.injEq] at hh
    simp only [addBlockNodes, hh.1.1, hh.1.2]
    cases Tree.addNodes h node x'.1 x'.2.1 with
    | none => rfl
    | some r => exact addBlockNodes_heads hh.2 _
  | [], _ :: _, hh, _ => by simp at hh
  | _ :: _, [], hh, _ => by simp at hh

theorem gohclDecode_heads {ext lf val} {body body' : Body} (ha : GoMap.keys body.attrs = GoMap.keys body'.attrs)
    (hb : body.blocks.map (fun x => (x.1, x.2.1)) = body'.blocks.map fun x => (x.1, x.2.1)) :
    gohclDecode ext lf body val = gohclDecode ext lf body' val := by
  have h1 : (body.attrs.any fun a => (val a.1).isSome && !hasTag lf.news a.1) = body'.attrs.any fun a => (val a.1).isSome && !hasTag lf.news a.1 := by
    have := congrArg (fun l => l.any fun k => (val k).isSome && !hasTag lf.news k) ha
    simp only [GoMap.keys, List.any_map] at this; exact this
  have h2 : (body.blocks.any fun x => !hasTag lf.oris x.1 && !hasTag lf.decs x.1) = body'.blocks.any fun x => !hasTag lf.oris x.1 && !hasTag lf.decs x.1 := by
    have := congrArg (fun l => l.any fun (k : Bytes × List Bytes) => !hasTag lf.oris k.1 && !hasTag lf.decs k.1) hb
    simp only [List.any_map] at this; exact this
  simp only [gohclDecode, h1, h2]

theorem prelude_in {env : Env} {ext : Ext} {N G : Bytes → Prop} {σ : Scope} {p : Option (List Bytes)} {root node : Nat} {st : St} {body body' : Body}
    (hord : ∀ p l, (ext.ord p l).Perm l) (hG : GenericTags env ext G)
    (hin : Inner ext N G σ p body body') (hs : Sane N st.heap) (hr : Named st.heap root Tree.VAR) (hk : Known ext N σ root node st.heap)
    (hw : ∀ q, p = some q → Walk st.heap root q node ∧ ∀ x ∈ q, N x) (n cls obj path) :
    prelude env ext n root st node cls obj path body = prelude env ext n root st node cls obj path body' ∧
    ∀ vals lf h, prelude env ext n root st node cls obj path body' = .ok (vals, lf, h) → Sane N h ∧ Grow node st.heap h ∧
      Known ext N (enter σ p body'.attrs) root (node + 1) h ∧ ∀ f ∈ lf.decs, G f.tag := by
  cases hin with
  | @mk _ _ attrs attrs' blocks blocks' attr names heads types block object =>
    obtain ⟨h1, h2⟩ := evalAttrs_in (ks := ext.ord (path ++ [b "attributes"]) (GoMap.keys attrs')) attr (fun a ha => (names a ha).1) hs hr hk
    refine ⟨?_, ?_⟩
    · simp only [prelude, Body.attrs, Body.blocks, attrIn_keys attr, h1, addBlockNodes_heads heads]
    · intro vals lf h he
      obtain ⟨g1, e1, e2, e3⟩ := prelude_ok he
      obtain ⟨s1, w1, l1⟩ := h2 _ _ e1
      obtain ⟨s2, w2⟩ := addBlockNodes_grow (node + 1) node s1 e2
      refine ⟨s2, w1.trans (w2.mono (by omega)), ?_, loopFields_decs hG _ _ _ _ (fun _ hg => by cases hg) e3⟩
      intro m e hm
      rcases hm with hm | ⟨q, k, a, hp, hg, hl, rfl, href⟩
      · exact (((hk.grow w1).mono (by omega)).grow w2) m e hm
      · obtain ⟨hwalk, hN⟩ := hw q hp
        obtain ⟨v, hv, hst⟩ := l1 k ((hord _ _).mem_iff.2 (by
          have := GoMap.get?_mem hg
          exact List.mem_map_of_mem (f := Prod.fst) this)) a hg hl
        exact ⟨q, k, v, node, href, hN, w2.le.walk (w1.le.walk hwalk), by omega, w2.kept node (by omega) k v hst, hv⟩

theorem prepare_in {env : Env} {ext : Ext} {N G : Bytes → Prop} {σ : Scope} {p : Option (List Bytes)} {root node : Nat} {st : St} {body body' : Body}
    (hord : ∀ p l, (ext.ord p l).Perm l) (hG : GenericTags env ext G)
    (hin : Inner ext N G σ p body body') (hs : Sane N st.heap) (hr : Named st.heap root Tree.VAR) (hk : Known ext N σ root node st.heap)
    (hw : ∀ q, p = some q → Walk st.heap root q node ∧ ∀ x ∈ q, N x) (n cls obj path) :
    prepare env ext n root st node cls obj path body = prepare env ext n root st node cls obj path body' ∧
    ∀ pr, prepare env ext n root st node cls obj path body' = .ok pr → Sane N pr.heap ∧ Grow node st.heap pr.heap ∧
      Known ext N (enter σ p body'.attrs) root (node + 1) pr.heap ∧ ∀ f ∈ pr.lf.decs, G f.tag := by
  obtain ⟨h1, h2⟩ := prelude_in hord hG hin hs hr hk hw n cls obj path
  refine ⟨?_, ?_⟩
  · cases hin with
    | @mk _ _ attrs attrs' blocks blocks' attr names heads types block object =>
      unfold prepare
      rw [h1]
      have hgo := fun lf val => gohclDecode_heads (ext := ext) (lf := lf) (val := val) (body := .mk attrs blocks) (body' := .mk attrs' blocks')
        (attrIn_keys attr) heads
      simp only [hgo]
      simp only [Body.attrs, attrIn_keys attr]
  · intro pr he
    obtain ⟨g1, g2, e1, e2, e3, _⟩ := prepare_ok he
    obtain ⟨s1, w1, k1, d1⟩ := h2 _ _ _ e1
    obtain ⟨s2, w2⟩ := oriAttrs_grow (node + 1) s1 e2
    rw [e3]
    exact ⟨s2, w1.trans (w2.mono (by omega)), k1.grow w2, d1⟩

/-! ## The whole -/

theorem walk_append {h : Heap Cty} {i ns j ms k} (h1 : Walk h i ns j) (h2 : Walk h j ms k) : Walk h i (ns ++ ms) k := by
  induction h1 with
  | nil => exact h2
  | cons hc _ ih => exact .cons hc (ih h2)

theorem walk_le {h : Heap Cty} (hi : Tree.Inv h) {i ns j} (hw : Walk h i ns j) : i ≤ j ∧ (ns ≠ [] → i < j) := by
  induction hw with
  | nil => exact ⟨Nat.le_refl _, fun h => absurd rfl h⟩
  | cons hc _ ih =>
    have := Tree.Edge.lt hi hc.1
    exact ⟨by omega, fun _ => by omega⟩

/-- What a call gives with related documents. -/
def RecIn (ext : Ext) (N G : Bytes → Prop) (root : Nat) (rec : Rec) : Prop :=
  ∀ σ p body body', Inner ext N G σ p body body' → ∀ (st : St) (node : Nat), Sane N st.heap → Named st.heap root Tree.VAR →
    node < st.heap.length → Known ext N σ root node st.heap → (∀ q, p = some q → Walk st.heap root q node ∧ ∀ x ∈ q, N x) →
    ∀ path cls fs obj labels, rec path st node cls fs obj labels body = rec path st node cls fs obj labels body' ∧
      ∀ fs' st', rec path st node cls fs obj labels body' = (fs', .ok st') → Sane N st'.heap ∧ Grow node st.heap st'.heap

/-- Two blocks for a tag that are the same, or related. -/
def BlkIn (ext : Ext) (N G : Bytes → Prop) (σ : Scope) (p : Option (List Bytes)) (tag : Bytes) (x y : Blk) : Prop :=
  tag ≠ [] ∧ ((x = y ∧ ∀ body, x.body = some body → Inner ext N G (fun _ _ => False) none body body) ∨
    ∃ labels body body', x = ⟨labels, some body⟩ ∧ y = ⟨labels, some body'⟩ ∧ N tag ∧ (∀ l ∈ labels, N l) ∧
      Inner ext N G σ (p.map fun q => q ++ tag :: labels) body body')

theorem BlkIn.labels {ext N G σ p tag x y} (h : BlkIn ext N G σ p tag x y) : x.labels = y.labels := by
  rcases h.2 with ⟨rfl, _⟩ | ⟨l, _, _, rfl, rfl, _⟩ <;> rfl

theorem decodeBlock_in {ext : Ext} {N G : Bytes → Prop} {σ : Scope} {p : Option (List Bytes)} {root node : Nat} {rec : Rec} {tag : Bytes} {h0 : Heap Cty}
    (hrec : RecIn ext N G root rec) (hr : Named h0 root Tree.VAR) (hlt : node < h0.length) (hk : Known ext N σ root (node + 1) h0)
    (hw : ∀ q, p = some q → Walk h0 root q node ∧ ∀ x ∈ q, N x) :
    ∀ path st x y cls ml, BlkIn ext N G σ p tag x y → (Sane N st.heap ∧ Grow (node + 1) h0 st.heap) →
      SimE (fun st => Sane N st.heap ∧ Grow (node + 1) h0 st.heap) (decodeBlock rec path st node tag x cls ml) (decodeBlock rec path st node tag y cls ml) := by
  intro path st x y cls ml hxy ⟨hs, hg⟩
  have hlt' : node < st.heap.length := by have := hg.le.length; omega
  obtain ⟨r, hr1, hr2⟩ := Tree.getNode_iff hs.inv hlt' tag hxy.1 y.labels
  unfold decodeBlock
  rw [hxy.labels, hr1]
  dsimp only
  cases hc : GoMap.get? st.ref cls.name with
  | none => exact .error _
  | some t =>
    cases t with
    | nil => exact .error _
    | bad => exact .error _
    | ptr c content =>
      dsimp only
      split
      · exact .error _
      cases r with
      | none =>
        have : (x.body = none ↔ y.body = none) := by
          rcases hxy.2 with ⟨rfl, _⟩ | ⟨l, _, _, rfl, rfl, _⟩ <;> simp
        cases hx : x.body with
        | none => rw [this.1 hx]; exact .error _
        | some bx =>
          cases hy : y.body with
          | none => rw [this.2 hy] at hx; cases hx
          | some bx => exact .error _
      | some sub =>
        have hwalk := (hr2 sub).1 rfl
        have hsub := (walk_le hs.inv hwalk).2 (by simp)
        have hsubl : sub < st.heap.length := Tree.Walk.valid hwalk hlt'
        have fin : ∀ {σ p} {bx bx' : Body}, Inner ext N G σ p bx bx' → Known ext N σ root sub st.heap →
            (∀ q, p = some q → Walk st.heap root q sub ∧ ∀ x ∈ q, N x) →
            SimE (fun st => Sane N st.heap ∧ Grow (node + 1) h0 st.heap)
              (match rec path st sub c content cls.fields y.labels bx with
                | (_, .error e) => .error e
                | (fs, .ok st') => .ok ((c, fs), st') : Except Fail ((Nat × Fields) × St))
              (match rec path st sub c content cls.fields y.labels bx' with
                | (_, .error e) => .error e
                | (fs, .ok st') => .ok ((c, fs), st')) := by
          intro σ p bx bx' hin hkn hwn
          obtain ⟨e1, e2⟩ := hrec _ _ _ _ hin _ _ hs (hg.named _ _ hr) hsubl hkn hwn path c content cls.fields y.labels
          rw [e1]
          refine ⟨rfl, ?_⟩
          intro a st1 he
          cases hres : rec path st sub c content cls.fields y.labels bx' with
          | mk fs1 o =>
            rw [hres] at he
            cases o with
            | error e => cases he
            | ok st2 =>
              cases he
              obtain ⟨f1, f2⟩ := e2 _ _ hres
              exact ⟨f1, hg.trans (f2.mono (by omega))⟩
        rcases hxy.2 with ⟨rfl, hb⟩ | ⟨l, bx, bx', rfl, rfl, hN, hNl, hin⟩
        · cases hx : x.body with
          | none => exact .error _
          | some bx => exact fin (hb bx hx) (fun _ _ h => h.elim) (fun q hq => by cases hq)
        · refine fin hin ((hk.grow hg).mono (by omega)) ?_
          intro q hq
          cases p with
          | none => cases hq
          | some q' =>
            cases hq
            obtain ⟨w1, w2⟩ := hw q' rfl
            refine ⟨walk_append (hg.le.walk w1) hwalk, ?_⟩
            intro z hz
            rcases List.mem_append.1 hz with hz | hz
            · exact w2 z hz
            · rcases List.mem_cons.1 hz with rfl | hz
              · exact hN
              · exact hNl z hz

theorem oriBlocks_in {ext : Ext} {N G : Bytes → Prop} {σ : Scope} {p : Option (List Bytes)} {body body' : Body} {nulls lf vals tag}
    (hin : Inner ext N G σ p body body') :
    List.Forall₂ (BlkIn ext N G (enter σ p body'.attrs) p tag) (oriBlocks ext nulls lf body vals tag) (oriBlocks ext nulls lf body' vals tag) := by
  cases hin with
  | @mk _ _ attrs attrs' blocks blocks' attr names heads types block object =>
    unfold oriBlocks
    refine List.rel_append ?_ ?_
    · simp only [Body.attrs]
      rcases attrIn_get attr tag with ⟨h1, h2⟩ | ⟨a, a', h1, h2, hsrc, _⟩
      · rw [h1, h2]
        cases routed nulls lf vals .ori tag <;> exact .nil
      · rw [h1, h2]
        cases routed nulls lf vals .ori tag with
        | none => exact .nil
        | some cv =>
          dsimp only
          rw [hsrc]
          have hm := GoMap.get?_mem h1
          refine List.forall₂_same.2 fun blk hb => ⟨(names _ hm).2.2, Or.inl ⟨rfl, ?_⟩⟩
          intro bd hbd
          exact object _ hm blk (by rw [hsrc]; exact hb) bd hbd
    · simp only [Body.blocks]
      have hf := blocks_in heads block
      have htypes : ∀ x ∈ blocks, x.1 ≠ [] ∧ ¬ G x.1 ∧ N x.1 ∧ ∀ l ∈ x.2.1, N l := types
      clear heads block types object names
      induction hf with
      | nil => exact .nil
      | @cons x x' l l' hx _ ih =>
        obtain ⟨a1, a2, a3⟩ := hx
        have ih := ih fun y hy => htypes y (by simp [hy])
        have ht := htypes x (by simp)
        by_cases hx1 : x.1 = tag
        · have hx2 : x'.1 = tag := a1 ▸ hx1
          rw [List.filter_cons_of_pos (by simpa using hx1), List.filter_cons_of_pos (by simpa using hx2)]
          refine .cons ⟨hx1 ▸ ht.1, Or.inr ⟨x.2.1, x.2.2, x'.2.2, rfl, by rw [a2], hx1 ▸ ht.2.2.1, ht.2.2.2, ?_⟩⟩ ih
          rw [← hx1]
          exact a3
        · have hx2 : x'.1 ≠ tag := a1 ▸ hx1
          rw [List.filter_cons_of_neg (by simpa using hx1), List.filter_cons_of_neg (by simpa using hx2)]
          exact ih

theorem inner_free {ext : Ext} {N G : Bytes → Prop} {σ : Scope} {p : Option (List Bytes)} {body body' : Body} (hin : Inner ext N G σ p body body') {t}
    (ht : G t) : (∀ a ∈ body.attrs, a.1 ≠ t) ∧ (∀ x ∈ body.blocks, x.1 ≠ t) ∧ (∀ a ∈ body'.attrs, a.1 ≠ t) ∧ ∀ x ∈ body'.blocks, x.1 ≠ t := by
  cases hin with
  | @mk _ _ attrs attrs' blocks blocks' attr names heads types block object =>
    refine ⟨fun a ha h => (names a ha).2.1 (h ▸ ht), fun x hx h => (types x hx).2.1 (h ▸ ht), ?_, ?_⟩
    · intro a ha h
      have : a.1 ∈ GoMap.keys attrs := by rw [attrIn_keys attr]; exact List.mem_map_of_mem (f := Prod.fst) ha
      obtain ⟨a0, h0, h1⟩ := List.mem_map.1 this
      exact (names a0 h0).2.1 (by rw [h1, h]; exact ht)
    · intro x hx h
      have : (x.1, x.2.1) ∈ blocks'.map fun x => (x.1, x.2.1) := List.mem_map_of_mem (f := fun x : Bytes × List Bytes × Body => (x.1, x.2.1)) hx
      rw [← heads] at this
      obtain ⟨x0, h0, h1⟩ := List.mem_map.1 this
      simp only [Prod.mk.injEq] at h1
      exact (types x0 h0).2.1 (by rw [h1.1, h]; exact ht)

theorem decode_in {env : Env} {ext : Ext} {N G : Bytes → Prop} {root : Nat} (hord : ∀ p l, (ext.ord p l).Perm l) (hG : GenericTags env ext G) :
    ∀ n, RecIn ext N G root (decode env ext root n)
  | 0 => by
    intro σ p body body' hin st node hs hr hlt hk hw path cls fs obj labels
    exact ⟨rfl, fun _ _ h => by simp [decode] at h⟩
  | n + 1 => by
    intro σ p body body' hin st node hs hr hlt hk hw path cls fs obj labels
    obtain ⟨h1, h2⟩ := prepare_in hord hG hin hs hr hk hw n cls obj path
    simp only [decode, decodeStruct]
    rw [h1]
    cases hp : prepare env ext n root st node cls obj path body' with
    | error e => exact ⟨rfl, fun _ _ h => by simp at h⟩
    | ok pr =>
      dsimp only
      obtain ⟨s1, w1, k1, d1⟩ := h2 _ hp
      have hdec := fun tag => decodeBlock_in (p := p) (σ := enter σ p body'.attrs) (node := node) (tag := tag) (decode_in hord hG n) (w1.named _ _ hr)
        (by have := w1.le.length; omega) k1 (fun q hq => ⟨w1.le.walk (hw q hq).1, (hw q hq).2⟩)
      have hst : List.Forall₂ (StepIn fun st => Sane N st.heap ∧ Grow (node + 1) pr.heap st.heap)
          (steps env ext (decode env ext root n) pr node labels path body) (steps env ext (decode env ext root n) pr node labels path body') := by
        unfold steps
        refine List.rel_append (List.rel_append (List.rel_append (List.rel_append ?_ ?_) ?_) ?_) ?_
        · refine List.forall₂_same.2 fun s hs => ?_
          obtain ⟨f, _, rfl⟩ := List.mem_map.1 hs
          exact stateless_in (labelAttrStep_stateless _ _)
        · refine List.forall₂_same.2 fun s hs => ?_
          unfold labelSteps at hs
          split at hs
          · obtain ⟨f, _, rfl⟩ := List.mem_map.1 hs
            exact stateless_in (labelStep_stateless _)
          · cases hs
        · refine List.forall₂_same.2 fun s hs => ?_
          obtain ⟨f, _, rfl⟩ := List.mem_map.1 hs
          exact stateless_in (newStep_stateless _ _)
        · rw [List.forall₂_map_left_iff, List.forall₂_map_right_iff]
          refine List.forall₂_same.2 fun f hf => ?_
          obtain ⟨a1, a2, a3, a4⟩ := inner_free hin (d1 f hf)
          rw [decStep_none a1 a2, decStep_none a3 a4]
          intro fs st hq
          exact ⟨rfl, fun _ _ h => by cases h; exact hq⟩
        · rw [List.forall₂_map_left_iff, List.forall₂_map_right_iff]
          refine List.forall₂_same.2 fun f hf => ?_
          intro fs st hq
          exact oriStep_in (fun _ _ h => h.labels) (hdec f.tag) rfl (oriBlocks_in hin) fs st hq
      obtain ⟨e1, e2⟩ := runSteps_in hst fs ⟨pr.heap, pr.lf.ref⟩ ⟨s1, .refl _ _⟩
      refine ⟨e1, ?_⟩
      intro fs' st' he
      obtain ⟨f1, f2⟩ := e2 _ _ he
      exact ⟨f1, w1.trans (f2.mono (by omega))⟩

end Verif.HclS
