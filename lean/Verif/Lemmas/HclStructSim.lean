import Verif.Lemmas.HclStruct
import Verif.Lemmas.TreeFind
/-!
# Decoding literal documents does not depend on map order, on the variables, or on further classes in `ref`
-/
set_option linter.unusedSimpArgs false

namespace Verif.Tree
variable {V : Type}

theorem Le.refl (h : Heap V) : Le h h := ⟨Nat.le_refl _, fun _ _ _ h => h⟩

theorem Le.trans {a c d : Heap V} (h : Le a c) (h' : Le c d) : Le a d :=
  ⟨Nat.le_trans h.length h'.length, fun i n x hc => h'.child i n x (h.child i n x hc)⟩

theorem Le.walk {h h' : Heap V} (hl : Le h h') {i ns j} (hw : Walk h i ns j) : Walk h' i ns j := by
  induction hw with
  | nil i => exact .nil i
  | cons hc _ ih => exact .cons (hl.child _ _ _ hc) ih

theorem Walk.valid {h : Heap V} {i ns j} (hw : Walk h i ns j) (hi : i < h.length) : j < h.length := by
  induction hw with
  | nil i => exact hi
  | cons hc _ ih =>
    obtain ⟨nd, hnd, _⟩ := hc.2
    exact ih (lt_of_get hnd)

theorem le_addItem {h : Heap V} (hi : Inv h) {i} (hlt : i < h.length) (k v) :
    ∃ h', addItem h i k v = some h' ∧ Inv h' ∧ Le h h' := by
  obtain ⟨h', h1, h2, h3⟩ := hi.run (o := .addItem i k v) hlt
  refine ⟨h', h1, h2, h3, ?_⟩
  intro j n c hc
  exact child_runAll hi (ops := [.addItem i k v]) (by simp [runAll, h1]) (by simp) hc

theorem le_addNode {h : Heap V} (hi : Inv h) {i} (hlt : i < h.length) (n) :
    ∃ h' c, addNode h i n = some (h', c) ∧ Inv h' ∧ Le h h' ∧ Child h' i n c := by
  obtain ⟨nd, hnd⟩ := get_of_lt hlt
  obtain ⟨h', c, h1, h2, h3, h4⟩ := hi.addNode hnd n
  refine ⟨h', c, h1, h2, ⟨h4, ?_⟩, h3⟩
  intro j m x hc
  exact child_runAll hi (ops := [.addNode i n]) (by simp [runAll, Op.run, h1]) (by simp) hc

theorem le_addNodesLoop {h : Heap V} (hi : Inv h) (ns : List Bytes) : ∀ {i}, i < h.length →
    ∃ h' c, addNodesLoop h i ns = some (h', c) ∧ Inv h' ∧ Le h h' ∧ Walk h' i ns c := by
  induction ns generalizing h with
  | nil => intro i _; exact ⟨h, i, rfl, hi, .refl h, .nil i⟩
  | cons n ns ih =>
    intro i hlt
    obtain ⟨h1, c, h2, h3, h4, h5⟩ := le_addNode hi hlt n
    obtain ⟨nd, hnd, _⟩ := h5.2
    obtain ⟨h', c', h6, h7, h8, h9⟩ := ih h3 (lt_of_get hnd)
    refine ⟨h', c', by simp [addNodesLoop, h2, h6], h7, h4.trans h8, .cons (h8.child _ _ _ h5) h9⟩

theorem le_addNodes {h : Heap V} (hi : Inv h) (t) (ns : List Bytes) {i} (hlt : i < h.length) :
    ∃ h' c, addNodes h i t ns = some (h', c) ∧ Inv h' ∧ Le h h' ∧ Walk h' i (t :: ns) c := by
  obtain ⟨h', c, h1, h2⟩ := le_addNodesLoop hi (t :: ns) hlt
  exact ⟨h', c, by simpa [addNodesLoop, addNodes] using h1, h2⟩

theorem variables_total {h : Heap V} (hi : Inv h) {i} (hlt : i < h.length) : ∃ vs, Tree.variables h i = some vs := by
  obtain ⟨f, hf, _⟩ := variablesN_spec hi
  exact ⟨f i, hf i hlt _ (by omega)⟩

end Verif.Tree

namespace Verif.HclS
open Tree (Heap Le Walk)
open Hcl (Cty Expr)
open Det (Cls CVal KeyTy insertK ltB)

/-! ## Expressions -/

/-- The same with another iteration order. -/
def _root_.Verif.HclS.Ext.reorder (ext : Ext) (o : List Bytes → List Bytes → List Bytes) : Ext := { ext with ord := o }

theorem evalL_lit {ext : Ext} : ∀ {l : List Expr}, (∀ e ∈ l, ∃ v, ∀ o vars, evalE (ext.reorder o) vars e = .ok v) →
    ∃ vs, ∀ o vars, evalL (ext.reorder o) vars l = .ok vs
  | [], _ => ⟨[], fun _ _ => rfl⟩
  | e :: l, h => by
    obtain ⟨v, hv⟩ := h e (by simp)
    obtain ⟨vs, hvs⟩ := evalL_lit (l := l) fun e he => h e (by simp [he])
    exact ⟨v :: vs, fun o vars => by simp [evalL, hv, hvs, Except.map]⟩

theorem evalK_lit {ext : Ext} {e : Expr} (h : LitKey e) : ∃ s, ∀ o vars, evalK (ext.reorder o) vars e = .ok (.str s) := by
  cases h with
  | @ident n => exact ⟨n, fun _ _ => rfl⟩
  | @str s => exact ⟨ext.nfc s, fun _ _ => by simp only [evalK, evalE, Ext.reorder]⟩

theorem evalO_lit {ext : Ext} : ∀ {m : List (Expr × Expr)}, (∀ e ∈ m, LitKey e.1) →
    (∀ e ∈ m, ∃ v, ∀ o vars, evalE (ext.reorder o) vars e.2 = .ok v) → ∀ acc, ∃ r, ∀ o vars, evalO (ext.reorder o) vars m acc = .ok r
  | [], _, _, acc => ⟨acc, fun _ _ => rfl⟩
  | (k, e) :: m, hk, h, acc => by
    obtain ⟨v, hv⟩ := h (k, e) (by simp)
    obtain ⟨s, hs⟩ := evalK_lit (ext := ext) (hk (k, e) (by simp))
    obtain ⟨r, hr⟩ := evalO_lit (m := m) (fun e he => hk e (by simp [he])) (fun e he => h e (by simp [he])) (insertK ltB s v acc)
    exact ⟨r, fun o vars => by simp only at hs hv; simp [evalO, hs, hv, hr]⟩

/-- A literal has a value, whatever the variables and the order are. -/
theorem evalE_lit {ext : Ext} {e : Expr} (h : Lit e) : ∃ v, ∀ o vars, evalE (ext.reorder o) vars e = .ok v := by
  induction h with
  | @str s => exact ⟨.str (ext.nfc s), fun _ _ => by simp only [evalE, Ext.reorder]⟩
  | @num q => exact ⟨.num q, fun _ _ => by simp only [evalE]⟩
  | @neg q => exact ⟨.num (-q), fun _ _ => by simp only [evalE, negOf]⟩
  | tru => exact ⟨.bool true, fun _ _ => rfl⟩
  | fls => exact ⟨.bool false, fun _ _ => rfl⟩
  | null => exact ⟨.null, fun _ _ => rfl⟩
  | nullCall => exact ⟨.null, fun _ _ => rfl⟩
  | tuple _ ih =>
    obtain ⟨vs, h⟩ := evalL_lit ih
    exact ⟨.tuple vs, fun o vars => by simp [evalE, h, Except.map]⟩
  | object hk _ ih =>
    obtain ⟨r, h⟩ := evalO_lit hk ih []
    exact ⟨.object r, fun o vars => by simp [evalE, h, Except.map]⟩

/-- The value of a literal attribute. -/
def litVal (ext : Ext) (attrs : List (Bytes × Attr)) (k : Bytes) : Cty :=
  match GoMap.get? attrs k with
  | some a => match evalE ext [] a.expr with | .ok v => v | .error _ => .null
  | none => .null

theorem litVal_ext {ext : Ext} {o} {attrs : List (Bytes × Attr)} (hl : ∀ a ∈ attrs, Lit a.2.expr) :
    litVal (ext.reorder o) attrs = litVal ext attrs := by
  funext k
  simp only [litVal]
  cases hg : GoMap.get? attrs k with
  | none => rfl
  | some a =>
    obtain ⟨v, hv⟩ := evalE_lit (ext := ext) (hl (k, a) (GoMap.get?_mem hg))
    have h0 : evalE ext [] a.expr = .ok v := hv ext.ord []
    simp only at hv
    simp only [hv, h0]

theorem evalAttrs_lit {ext : Ext} {root node : Nat} {attrs : List (Bytes × Attr)} (hl : ∀ a ∈ attrs, Lit a.2.expr) :
    ∀ {ks h}, (∀ k ∈ ks, k ∈ GoMap.keys attrs) → Tree.Inv h → root < h.length → node < h.length →
    ∃ h', evalAttrs ext root node attrs ks h = .ok (ks.map fun k => (k, litVal ext attrs k), h') ∧ Tree.Inv h' ∧ Le h h'
  | [], h, _, hi, _, _ => ⟨h, rfl, hi, .refl h⟩
  | k :: ks, h, hks, hi, hr, hn => by
    obtain ⟨a, ha⟩ : ∃ a, GoMap.get? attrs k = some a := by
      cases hg : GoMap.get? attrs k with
      | none => exact absurd (hks k (by simp)) (GoMap.get?_eq_none.1 hg)
      | some a => exact ⟨a, rfl⟩
    obtain ⟨vs, hvs⟩ := Tree.variables_total hi hr
    obtain ⟨v, hv⟩ := evalE_lit (ext := ext) (hl (k, a) (GoMap.get?_mem ha))
    replace hv : ∀ vars, evalE ext vars a.expr = .ok v := fun vars => hv ext.ord vars
    obtain ⟨h1, ha1, hi1, hl1⟩ := Tree.le_addItem hi hn k v
    obtain ⟨h2, he2, hi2, hl2⟩ := evalAttrs_lit (ext := ext) (root := root) (node := node) (ks := ks) hl (fun k hk => hks k (by simp [hk])) hi1
      (Nat.lt_of_lt_of_le hr hl1.length) (Nat.lt_of_lt_of_le hn hl1.length)
    have hlv : litVal ext attrs k = v := by simp only [litVal, ha]; simp only [hv]
    refine ⟨h2, ?_, hi2, hl1.trans hl2⟩
    simp only [evalAttrs, ha, hvs, hv, ha1, he2, List.map_cons, hlv]

theorem evalAttrs_vals {ext : Ext} {root node : Nat} {attrs : List (Bytes × Attr)} (hl : ∀ a ∈ attrs, Lit a.2.expr) :
    ∀ {ks h vals h'}, evalAttrs ext root node attrs ks h = .ok (vals, h') → vals = ks.map fun k => (k, litVal ext attrs k)
  | [], h, vals, h', he => by cases he; rfl
  | k :: ks, h, vals, h', he => by
    simp only [evalAttrs] at he
    split at he
    · rename_i a vars ha _
      obtain ⟨v, hv⟩ := evalE_lit (ext := ext) (hl (k, a) (GoMap.get?_mem ha))
      replace hv : ∀ vars, evalE ext vars a.expr = .ok v := fun vars => hv ext.ord vars
      rw [hv] at he
      simp only at he
      split at he
      · cases he
      split at he
      · cases he
      rename_i vs h2 hr
      cases he
      have hlv : litVal ext attrs k = v := by simp only [litVal, ha]; rw [hv]
      simp [hlv, evalAttrs_vals hl hr]
    · cases he

theorem get?_map_self {ks : List Bytes} {α : Type} (g : Bytes → α) (k : Bytes) :
    GoMap.get? (ks.map fun k => (k, g k)) k = if k ∈ ks then some (g k) else none := by
  induction ks with
  | nil => simp [GoMap.get?]
  | cons a ks ih =>
    simp only [List.map_cons, GoMap.get?, ih, List.mem_cons]
    by_cases h : a = k
    · subst h; simp
    · have h' : k ≠ a := fun e => h e.symm
      simp [h, h']

/-! ## Fields -/

theorem loopList_nulls {env ext nulls nulls'} {deep deep' : List Fld → LF → Except Fail LF}
    (hn : ∀ k, k ∈ nulls ↔ k ∈ nulls') (hd : ∀ fs lf, deep fs lf = deep' fs lf) :
    ∀ fs lf, loopList env ext nulls deep fs lf = loopList env ext nulls' deep' fs lf := by
  intro fs
  induction fs with
  | nil => intro lf; rfl
  | cons f fs ih =>
    intro lf
    simp only [loopList, ih, hn, hd]

theorem loopFields_nulls {env ext nulls nulls'} (hn : ∀ k, k ∈ nulls ↔ k ∈ nulls') :
    ∀ n fs lf, loopFields env ext nulls n fs lf = loopFields env ext nulls' n fs lf
  | 0 => loopList_nulls hn fun _ _ => rfl
  | n + 1 => loopList_nulls hn (loopFields_nulls hn n)

/-- The same with another `ref`. -/
def LF.withRef (lf : LF) (r : GoMap Bytes Tmpl) : LF := { lf with ref := r }

theorem RefLe.refl (r : GoMap Bytes Tmpl) : RefLe r r := fun _ _ h => h

theorem RefLe.set {r r' : GoMap Bytes Tmpl} (h : RefLe r r') (k v) : RefLe (GoMap.set r k v) (GoMap.set r' k v) := by
  intro x t hx
  rw [GoMap.get?_set] at hx ⊢
  split
  · rename_i he; rwa [if_pos he] at hx
  · rename_i he; rw [if_neg he] at hx; exact h _ _ hx

/-- With more classes in `ref` the same fields are found. -/
def RefSim (deep : List Fld → LF → Except Fail LF) : Prop :=
  ∀ fs lf lf' r, deep fs lf = .ok lf' → RefLe lf.ref r → ∃ r', deep fs (lf.withRef r) = .ok (lf'.withRef r') ∧ RefLe lf'.ref r'

theorem addElem_ref (lf : LF) (f k v r) (h : RefLe lf.ref r) :
    ∃ r', (lf.withRef r).addElem f k v = (lf.addElem f k v).withRef r' ∧ RefLe (lf.addElem f k v).ref r' := by
  cases k with
  | cls name tmpl => exact ⟨GoMap.set r name tmpl, rfl, h.set name tmpl⟩
  | dyn => exact ⟨r, rfl, h⟩
  | plain => exact ⟨r, rfl, h⟩

theorem addTagged_ref (env ext) (lf : LF) (f r) (h : RefLe lf.ref r) :
    ∃ r', (lf.withRef r).addTagged env ext f = (lf.addTagged env ext f).withRef r' ∧ RefLe (lf.addTagged env ext f).ref r' := by
  simp only [LF.addTagged]
  split
  · exact ⟨GoMap.set r _ _, rfl, h.set _ _⟩
  · exact addElem_ref _ _ _ _ _ h
  · exact addElem_ref _ _ _ _ _ h
  · exact addElem_ref _ _ _ _ _ h
  · exact ⟨r, rfl, h⟩

theorem loopList_ref {env ext nulls deep} (hd : RefSim deep) : RefSim (loopList env ext nulls deep) := by
  intro fs
  induction fs with
  | nil => intro lf lf' r h hr; cases h; exact ⟨r, rfl, hr⟩
  | cons f fs ih =>
    intro lf lf' r h hr
    simp only [loopList] at h ⊢
    split at h
    · rename_i hc; rw [if_pos hc]; exact ih _ _ _ h hr
    rename_i hc; rw [if_neg hc]
    split at h
    · rename_i hc; rw [if_pos hc]; exact ih _ _ _ h hr
    rename_i hc; rw [if_neg hc]
    split at h
    · rename_i hc; rw [if_pos hc]; exact ih { lf with labels := lf.labels ++ [f] } _ _ h hr
    rename_i hc; rw [if_neg hc]
    split at h
    · rename_i hc; rw [if_pos hc]; exact ih _ _ _ h hr
    rename_i hc; rw [if_neg hc]
    split at h
    · rename_i hc
      rw [if_pos (show (GoMap.get? (lf.withRef r).obj f.name).isSome = true from hc)]
      split at h
      · cases h
      · rename_i hc; rw [if_neg hc]; exact ih { lf with oris := lf.oris ++ [f] } _ _ h hr
    rename_i hc
    rw [if_neg (show ¬ (GoMap.get? (lf.withRef r).obj f.name).isSome = true from hc)]
    split at h
    · rename_i hc
      rw [if_pos hc]
      split at h
      · rename_i c hc
        split at h
        · cases h
        rename_i lf1 hd1
        obtain ⟨r1, h1, h2⟩ := hd _ _ _ _ hd1 hr
        simp only [h1]
        exact ih _ _ _ h h2
      · exact ih _ _ _ h hr
    · rename_i hc
      rw [if_neg hc]
      obtain ⟨r1, h1, h2⟩ := addTagged_ref env ext lf f r hr
      rw [h1]
      exact ih _ _ _ h h2

theorem loopFields_ref {env ext nulls} : ∀ n, RefSim (loopFields env ext nulls n)
  | 0 => loopList_ref (fun _ _ _ _ h => by cases h)
  | n + 1 => loopList_ref (loopFields_ref n)

/-! The specifications made by `loopFields` leave no choice. -/

theorem UniSpec.set {obj : List (Bytes × CVal)} (h : UniSpec obj) (k : Bytes) {v} (hv : UniV v) : UniSpec (GoMap.set obj k v) := by
  intro x w hx
  rw [GoMap.get?_set] at hx
  split at hx
  · cases hx; exact hv
  · exact h _ _ hx

theorem uniC_plain (s : Bytes) : UniC (.mk s []) := .mk (fun e he => by cases he)

def UniSim (deep : List Fld → LF → Except Fail LF) : Prop :=
  ∀ fs lf lf', deep fs lf = .ok lf' → UniSpec lf.obj → UniSpec lf'.obj

theorem addElem_uni {lf : LF} {f k} {v : Bytes → CVal} (h : UniSpec lf.obj) (hv : ∀ s, UniV (v s)) : UniSpec (lf.addElem f k v).obj := by
  cases k with
  | cls name tmpl => exact h.set _ (hv name)
  | dyn => exact h
  | plain => exact h

theorem addTagged_uni (env ext) {lf : LF} (f) (h : UniSpec lf.obj) : UniSpec (lf.addTagged env ext f).obj := by
  have hl : ∀ s, UniV (.list [.mk s []]) := fun s => .list (fun c hc => by
    rw [List.mem_singleton.1 hc]; exact uniC_plain s)
  simp only [LF.addTagged]
  split
  · exact h.set _ (.single (uniC_plain _))
  · refine addElem_uni h fun s => .map2 ?_ ?_ ?_
    · intro e he a ha
      rw [List.mem_singleton.1 he] at ha
      rw [List.mem_singleton.1 ha]
      exact uniC_plain s
    · intro e he e' he'
      rw [List.mem_singleton.1 he, List.mem_singleton.1 he']
    · intro e he a ha a' ha'
      rw [List.mem_singleton.1 he] at ha ha'
      rw [List.mem_singleton.1 ha, List.mem_singleton.1 ha']
  · exact addElem_uni h hl
  · exact addElem_uni h hl
  · exact h

theorem loopList_uni {env ext nulls deep} (hd : UniSim deep) : UniSim (loopList env ext nulls deep) := by
  intro fs
  induction fs with
  | nil => intro lf lf' h hr; cases h; exact hr
  | cons f fs ih =>
    intro lf lf' h hr
    simp only [loopList] at h
    split at h
    · exact ih _ _ h hr
    split at h
    · exact ih _ _ h hr
    split at h
    · exact ih _ _ h hr
    split at h
    · exact ih _ _ h hr
    split at h
    · split at h
      · cases h
      · exact ih _ _ h hr
    split at h
    · split at h
      · split at h
        · cases h
        rename_i lf1 hd1
        exact ih _ _ h (hd _ _ _ hd1 hr)
      · exact ih _ _ h hr
    · exact ih _ _ h (addTagged_uni env ext f hr)

theorem loopFields_uni {env ext nulls} : ∀ n, UniSim (loopFields env ext nulls n)
  | 0 => loopList_uni (fun _ _ _ h => by cases h)
  | n + 1 => loopList_uni (loopFields_uni n)

/-! ## Preparation -/

/-- The node that a block is decoded at. -/
def NodeFor (h : Heap Cty) (node : Nat) (tag : Bytes) (labels : List Bytes) : Prop :=
  tag = [] ∨ ∃ c, Walk h node (tag :: labels) c

theorem NodeFor.mono {h h' : Heap Cty} {node tag labels} (hn : NodeFor h node tag labels) (hl : Le h h') :
    NodeFor h' node tag labels := by
  rcases hn with hn | ⟨c, hn⟩
  · exact Or.inl hn
  · exact Or.inr ⟨c, hl.walk hn⟩

theorem NodeFor.get {h : Heap Cty} {node tag labels} (hn : NodeFor h node tag labels) (hi : Tree.Inv h) (hlt : node < h.length) :
    ∃ c, c < h.length ∧ Tree.getNode h node tag labels = some (some c) := by
  by_cases ht : tag = []
  · exact ⟨node, hlt, by simp [Tree.getNode, ht]⟩
  · rcases hn with hn | ⟨c, hn⟩
    · exact absurd hn ht
    · obtain ⟨r, h1, h2⟩ := Tree.getNode_iff hi hlt tag ht labels
      rw [(h2 c).2 hn] at h1
      exact ⟨c, hn.valid hlt, h1⟩

theorem addBlockNodes_sim {node : Nat} : ∀ {blocks : List (Bytes × List Bytes × Body)} {h : Heap Cty}, Tree.Inv h → node < h.length →
    ∃ h', addBlockNodes node blocks h = .ok h' ∧ Tree.Inv h' ∧ Le h h' ∧ ∀ x ∈ blocks, NodeFor h' node x.1 x.2.1
  | [], h, hi, _ => ⟨h, rfl, hi, .refl h, fun x hx => by cases hx⟩
  | x :: r, h, hi, hlt => by
    obtain ⟨h1, c, ha, hi1, hl1, hw⟩ := Tree.le_addNodes hi x.1 x.2.1 hlt
    obtain ⟨h2, hb, hi2, hl2, hn⟩ := addBlockNodes_sim (blocks := r) hi1 (Nat.lt_of_lt_of_le hlt hl1.length)
    refine ⟨h2, by simp [addBlockNodes, ha, hb], hi2, hl1.trans hl2, ?_⟩
    intro y hy
    rcases List.mem_cons.1 hy with rfl | hy
    · exact Or.inr ⟨c, hl2.walk hw⟩
    · exact hn y hy

theorem oriAttrs_iter {nulls lf vals node} : ∀ {ks h h'}, oriAttrs nulls lf vals node ks h = .ok h' →
    ∀ k ∈ ks, ∀ cv, routed nulls lf vals .ori k = some cv → canIterate cv = true
  | [], _, _, _, _, hk => by cases hk
  | k :: ks, h, h', ho, x, hx => by
    intro cv hcv
    simp only [oriAttrs] at ho
    rcases List.mem_cons.1 hx with rfl | hx
    · rw [hcv] at ho
      simp only at ho
      split at ho
      · assumption
      · cases ho
    · split at ho
      · exact oriAttrs_iter ho x hx cv hcv
      · split at ho
        · split at ho
          · cases ho
          · exact oriAttrs_iter ho x hx cv hcv
        · cases ho

theorem oriAttrs_sim {nulls lf vals node} : ∀ {ks h}, Tree.Inv h → node < h.length →
    (∀ k ∈ ks, ∀ cv, routed nulls lf vals .ori k = some cv → canIterate cv = true) →
    ∃ h', oriAttrs nulls lf vals node ks h = .ok h' ∧ Tree.Inv h' ∧ Le h h' ∧
      ∀ k ∈ ks, (routed nulls lf vals .ori k).isSome → NodeFor h' node k []
  | [], h, hi, _, _ => ⟨h, rfl, hi, .refl h, fun x hx => by cases hx⟩
  | k :: ks, h, hi, hlt, hc => by
    simp only [oriAttrs]
    cases hr : routed nulls lf vals .ori k with
    | none =>
      obtain ⟨h', h1, h2, h3, h4⟩ := oriAttrs_sim (ks := ks) hi hlt fun k hk => hc k (by simp [hk])
      refine ⟨h', h1, h2, h3, ?_⟩
      intro x hx hs
      rcases List.mem_cons.1 hx with rfl | hx
      · rw [hr] at hs; cases hs
      · exact h4 x hx hs
    | some cv =>
      simp only [hc k (by simp) cv hr, if_true]
      obtain ⟨h1, c, ha, hi1, hl1, hch⟩ := Tree.le_addNode hi hlt k
      obtain ⟨h', h2, h3, h4, h5⟩ := oriAttrs_sim (ks := ks) hi1 (Nat.lt_of_lt_of_le hlt hl1.length) fun k hk => hc k (by simp [hk])
      refine ⟨h', by rw [ha]; exact h2, h3, hl1.trans h4, ?_⟩
      intro x hx hs
      rcases List.mem_cons.1 hx with rfl | hx
      · exact Or.inr ⟨c, h4.walk (.cons hch (.nil c))⟩
      · exact h5 x hx hs

theorem loopList_reorder {env ext o nulls} {deep deep' : List Fld → LF → Except Fail LF} (hd : ∀ fs lf, deep fs lf = deep' fs lf) :
    ∀ fs lf, loopList env (Ext.reorder ext o) nulls deep fs lf = loopList env ext nulls deep' fs lf := by
  intro fs
  induction fs with
  | nil => intro lf; rfl
  | cons f fs ih =>
    intro lf
    simp only [loopList, ih, hd]
    rfl

theorem loopFields_reorder {env ext o nulls} :
    ∀ n fs lf, loopFields env (Ext.reorder ext o) nulls n fs lf = loopFields env ext nulls n fs lf
  | 0 => loopList_reorder fun _ _ => rfl
  | n + 1 => loopList_reorder (loopFields_reorder n)

theorem decodeLeaves_reorder {ext o val} : ∀ fs, decodeLeaves (Ext.reorder ext o) val fs = decodeLeaves ext val fs := by
  intro fs
  induction fs with
  | nil => rfl
  | cons f fs ih =>
    simp only [decodeLeaves, ih]
    rfl

theorem gohclDecode_reorder (ext o) (lf : LF) (ref body val) :
    gohclDecode (Ext.reorder ext o) (lf.withRef ref) body val = gohclDecode ext lf body val := by
  simp only [gohclDecode, decodeLeaves_reorder]
  rfl

theorem routed_congr {nulls nulls' : List Bytes} {lf : LF} {vals vals' : List (Bytes × Cty)} (hn : ∀ k, k ∈ nulls ↔ k ∈ nulls')
    (hv : ∀ k, GoMap.get? vals k = GoMap.get? vals' k) (r ref) :
    routed nulls' (lf.withRef ref) vals' r = routed nulls lf vals r := by
  funext k
  have hr : route nulls' (lf.withRef ref) k = route nulls lf k := by
    by_cases hk : k ∈ nulls
    · rw [route, route, if_pos hk, if_pos ((hn k).1 hk)]
    · rw [route, route, if_neg hk, if_neg (fun h => hk ((hn k).2 h))]; rfl
  simp only [routed, hr, hv]

/-- What two preparations have in common. -/
structure PreSim (ext : Ext) (node : Nat) (body : Body) (h0 : Heap Cty) (p p' : Pre) : Prop where
  nulls : ∀ k, k ∈ nullKeys p.vals ↔ k ∈ nullKeys p'.vals
  vals : ∀ k, GoMap.get? p.vals k = GoMap.get? p'.vals k
  lf : p'.lf = p.lf.withRef p'.lf.ref
  ref : RefLe p.lf.ref p'.lf.ref
  raw : p'.raw = p.raw
  inv : Tree.Inv p'.heap
  le : Le h0 p'.heap
  blocks : ∀ x ∈ body.blocks, NodeFor p'.heap node x.1 x.2.1
  attrs : ∀ k, (routed (nullKeys p.vals) p.lf p.vals .ori k).isSome → NodeFor p'.heap node k []
  uni : UniSpec p.lf.obj

theorem prepare_sim {env ext o n root root' st st' node node' cls obj path path' body p}
    (ho1 : ∀ p l, (ext.ord p l).Perm l) (ho2 : ∀ p l, (o p l).Perm l)
    (hlit : ∀ a ∈ body.attrs, Lit a.2.expr) (huni : UniSpec obj) (href : RefLe st.ref st'.ref)
    (hi : Tree.Inv st'.heap) (hroot : root' < st'.heap.length) (hnode : node' < st'.heap.length)
    (h : prepare env ext n root st node cls obj path body = .ok p) :
    ∃ p', prepare env (ext.reorder o) n root' st' node' cls obj path' body = .ok p' ∧ PreSim ext node' body st'.heap p p' := by
  obtain ⟨h1, h2, hpre, hori, hheap, hraw⟩ := prepare_ok h
  obtain ⟨h3, he, hb, hl⟩ := prelude_ok hpre
  have hv1 := evalAttrs_vals hlit he
  obtain ⟨g1, he', hi1, hl1⟩ := evalAttrs_lit (ext := ext.reorder o) (root := root') (node := node') hlit
    (ks := o (path' ++ [b "attributes"]) (GoMap.keys body.attrs)) (fun k hk => (ho2 _ _).mem_iff.1 hk) hi hroot hnode
  have hlv : litVal (ext.reorder o) body.attrs = litVal ext body.attrs := litVal_ext hlit
  have hvals : ∀ k, GoMap.get? p.vals k =
      GoMap.get? ((o (path' ++ [b "attributes"]) (GoMap.keys body.attrs)).map fun k => (k, litVal (ext.reorder o) body.attrs k)) k := by
    intro k
    rw [hv1, get?_map_self, get?_map_self, hlv]
    simp only [(ho1 _ _).mem_iff, (ho2 _ _).mem_iff]
  have hnulls : ∀ k, k ∈ nullKeys p.vals ↔
      k ∈ nullKeys ((o (path' ++ [b "attributes"]) (GoMap.keys body.attrs)).map fun k => (k, litVal (ext.reorder o) body.attrs k)) := by
    intro k
    rw [hv1, hlv]
    simp only [nullKeys, List.mem_map, List.mem_filter]
    constructor
    · rintro ⟨e, ⟨⟨x, hx, rfl⟩, hn⟩, rfl⟩
      exact ⟨_, ⟨⟨x, (ho2 _ _).mem_iff.2 ((ho1 _ _).mem_iff.1 hx), rfl⟩, hn⟩, rfl⟩
    · rintro ⟨e, ⟨⟨x, hx, rfl⟩, hn⟩, rfl⟩
      exact ⟨_, ⟨⟨x, (ho1 _ _).mem_iff.2 ((ho2 _ _).mem_iff.1 hx), rfl⟩, hn⟩, rfl⟩
  generalize (o (path' ++ [b "attributes"]) (GoMap.keys body.attrs)).map (fun k => (k, litVal (ext.reorder o) body.attrs k)) = vals' at he' hvals hnulls
  obtain ⟨g2, hb', hi2, hl2, hnb⟩ := addBlockNodes_sim (node := node') (blocks := body.blocks) hi1 (Nat.lt_of_lt_of_le hnode hl1.length)
  obtain ⟨r, hlf, hr⟩ := loopFields_ref n _ _ _ st'.ref hl href
  rw [loopFields_nulls hnulls, ← loopFields_reorder (o := o)] at hlf
  have hlf' : loopFields env (ext.reorder o) (nullKeys vals') n (env.struct cls).fields ⟨[], [], [], [], obj, st'.ref⟩ =
      .ok (p.lf.withRef r) := hlf
  have hiter := oriAttrs_iter hori
  have hrt := fun x => routed_congr (lf := p.lf) hnulls hvals x r
  obtain ⟨g3, hori', hi3, hl3, hna⟩ := oriAttrs_sim (nulls := nullKeys vals') (lf := p.lf.withRef r) (vals := vals')
    (ks := o (path' ++ [b "refresh"]) (GoMap.keys body.attrs)) hi2
    (Nat.lt_of_lt_of_le hnode (hl1.trans hl2).length) (by
      intro k hk cv hcv
      rw [hrt] at hcv
      exact hiter k ((ho1 _ _).mem_iff.2 ((ho2 _ _).mem_iff.1 hk)) cv hcv)
  refine ⟨⟨vals', p.lf.withRef r, p.raw, g3⟩, ?_, ?_⟩
  · have hp : prelude env (ext.reorder o) n root' st' node' cls obj path' body = .ok (vals', p.lf.withRef r, g2) := by
      have he'' : evalAttrs (ext.reorder o) root' node' body.attrs
          ((ext.reorder o).ord (path' ++ [b "attributes"]) (GoMap.keys body.attrs)) st'.heap = .ok (vals', g1) := he'
      simp only [prelude, he'', hb', hlf']
    have hg : gohclDecode (ext.reorder o) (p.lf.withRef r) body (routed (nullKeys vals') (p.lf.withRef r) vals' .plain) = .ok p.raw := by
      rw [hrt, gohclDecode_reorder]; exact hraw
    have hori'' : oriAttrs (nullKeys vals') (p.lf.withRef r) vals' node'
        ((ext.reorder o).ord (path' ++ [b "refresh"]) (GoMap.keys body.attrs)) g2 = .ok g3 := hori'
    simp only [prepare, hp, hori'', hg]
  · refine ⟨hnulls, hvals, rfl, hr, rfl, hi3, (hl1.trans hl2).trans hl3, fun x hx => (hnb x hx).mono hl3, ?_,
      loopFields_uni n _ _ _ hl huni⟩
    intro k hk
    have hk' : k ∈ o (path' ++ [b "refresh"]) (GoMap.keys body.attrs) := by
      refine (ho2 _ _).mem_iff.2 ?_
      by_contra hno
      have hg : GoMap.get? p.vals k = none := by
        rw [hv1, get?_map_self, if_neg]
        exact fun hx => hno ((ho1 _ _).mem_iff.1 hx)
      simp only [routed, hg, ite_self] at hk
      cases hk
    exact hna k hk' (by rw [hrt]; exact hk)

/-! ## Blocks -/

/-- The second state has all classes of the first, and a valid tree. -/
structure Good (root : Nat) (st st' : St) : Prop where
  ref : RefLe st.ref st'.ref
  inv : Tree.Inv st'.heap
  root : root < st'.heap.length

/-- What succeeds with the first succeeds with the second, and gives the same. -/
def RecSim (ext : Ext) (root : Nat) (rec rec' : Rec) : Prop :=
  ∀ path path' st st' node node' c fs obj labels body out st1, Literal ext body → UniSpec obj → Good root st st' →
    node' < st'.heap.length → rec path st node c fs obj labels body = (out, .ok st1) →
    ∃ st1', rec' path' st' node' c fs obj labels body = (out, .ok st1') ∧ Good root st1 st1' ∧ Le st'.heap st1'.heap

def BlkOk (ext : Ext) (h : Heap Cty) (node : Nat) (tag : Bytes) (blk : Blk) : Prop :=
  (∀ body, blk.body = some body → Literal ext body) ∧ NodeFor h node tag blk.labels

theorem BlkOk.mono {ext h h' node tag blk} (hb : BlkOk ext h node tag blk) (hl : Le h h') : BlkOk ext h' node tag blk :=
  ⟨hb.1, hb.2.mono hl⟩

theorem UniC.spec {c : Cls} (h : UniC c) : UniSpec c.fields := by
  cases h with
  | mk h => intro k v hv; exact h (k, v) (GoMap.get?_mem hv)

section loops
variable {ext : Ext} {root : Nat} {rec rec' : Rec} {env : Env} {node node' : Nat} {path : List Bytes} {tag : Bytes}

theorem decodeBlock_sim {p p' : List Bytes} {st st' : St} {blk : Blk} {cls : Cls} {ml c fs st1} (hrec : RecSim ext root rec rec')
    (hc : UniC cls) (hb : BlkOk ext st'.heap node' tag blk) (hg : Good root st st') (hn : node' < st'.heap.length)
    (h : decodeBlock rec p st node tag blk cls ml = .ok ((c, fs), st1)) :
    ∃ st1', decodeBlock rec' p' st' node' tag blk cls ml = .ok ((c, fs), st1') ∧ Good root st1 st1' ∧ Le st'.heap st1'.heap := by
  obtain ⟨body, content, sub, h1, h2, _, h4, h5⟩ := decodeBlock_ok h
  obtain ⟨sub', hs, hsub⟩ := hb.2.get hg.inv hn
  obtain ⟨st1', hr, hg1, hl1⟩ := hrec p p' st st' sub sub' c content cls.fields blk.labels body fs st1 (hb.1 body h1) hc.spec hg hs h5
  refine ⟨st1', ?_, hg1, hl1⟩
  have hml : (ml.any fun m => decide (m < blk.labels.length)) = false := by
    cases ml with
    | none => rfl
    | some m => simpa using h4 m rfl
  simp only [decodeBlock, hsub, hg.ref _ _ h2, hml, h1, hr]
  rfl

theorem listLoop_sim {path' : List Bytes} {ety first} (hrec : RecSim ext root rec rec') (hfirst : UniC first) : ∀ {blks cs st st' vs st1},
    (∀ c ∈ cs, UniC c) → (∀ blk ∈ blks, BlkOk ext st'.heap node' tag blk) → Good root st st' → node' < st'.heap.length →
    listLoop env rec path node tag ety first cs blks st = .ok (vs, st1) →
    ∃ st1', listLoop env rec' path' node' tag ety first cs blks st' = .ok (vs, st1') ∧ Good root st1 st1' ∧ Le st'.heap st1'.heap
  | [], cs, st, st', vs, st1, _, _, hg, _, h => by
    simp only [listLoop] at h ⊢
    cases h
    exact ⟨st', rfl, hg, .refl _⟩
  | blk :: blks, cs, st, st', vs, st1, hcs, hb, hg, hn, h => by
    simp only [listLoop] at h ⊢
    split at h
    · cases h
    rename_i c fs s1 hd
    split at h
    · cases h
    rename_i v hv
    split at h
    · cases h
    rename_i vs' s2 hl
    cases h
    have hcls : UniC (cs.headD first) := by
      cases cs with
      | nil => exact hfirst
      | cons a cs => exact hcs a (by simp)
    obtain ⟨s1', hd', hg1, hl1⟩ := decodeBlock_sim (p' := place path' tag blks) hrec hcls (hb blk (by simp)) hg hn hd
    obtain ⟨s2', hl', hg2, hl2⟩ := listLoop_sim (path' := path') hrec hfirst (fun c hc => hcs c (List.mem_of_mem_tail hc))
      (fun b hb' => (hb b (by simp [hb'])).mono hl1) hg1 (Nat.lt_of_lt_of_le hn hl1.length) hl
    exact ⟨s2', by simp only [hd', hv, hl'], hg2, hl1.trans hl2⟩

theorem listMapLoop_sim {path' : List Bytes} {kt ety first} (hrec : RecSim ext root rec rec') (hfirst : UniC first) : ∀ {blks st st' acc r st1},
    (∀ blk ∈ blks, BlkOk ext st'.heap node' tag blk) → Good root st st' → node' < st'.heap.length →
    listMapLoop env rec path node tag kt ety first blks st acc = .ok (r, st1) →
    ∃ st1', listMapLoop env rec' path' node' tag kt ety first blks st' acc = .ok (r, st1') ∧ Good root st1 st1' ∧
      Le st'.heap st1'.heap
  | [], st, st', acc, r, st1, _, hg, _, h => by
    cases h
    exact ⟨st', rfl, hg, .refl _⟩
  | blk :: blks, st, st', acc, r, st1, hb, hg, hn, h => by
    simp only [listMapLoop] at h ⊢
    split at h
    · cases h
    rename_i c fs s1 hd
    obtain ⟨s1', hd', hg1, hl1⟩ := decodeBlock_sim (p' := place path' tag blks) hrec hfirst (hb blk (by simp)) hg hn hd
    simp only [hd']
    split at h
    · cases h
    rename_i key ks hlab
    split at h
    · rename_i hkt
      simp only [if_pos hkt]
      split at h
      · cases h
      rename_i v hv
      obtain ⟨s2', hl', hg2, hl2⟩ := listMapLoop_sim (path' := path') hrec hfirst
        (fun b hb' => (hb b (by simp [hb'])).mono hl1) hg1 (Nat.lt_of_lt_of_le hn hl1.length) h
      exact ⟨s2', by simp only [hv, hl'], hg2, hl1.trans hl2⟩
    · cases h

theorem mapLoop_sim {path' : List Bytes} {kt ety m first} (hrec : RecSim ext root rec rec') (hm : ∀ e ∈ m, UniC e.2) (hfirst : ∀ c, first = some c → UniC c) :
    ∀ {blks st st' acc r st1},
    (∀ blk ∈ blks, BlkOk ext st'.heap node' tag blk) → Good root st st' → node' < st'.heap.length →
    mapLoop env rec path node tag kt ety m first blks st acc = .ok (r, st1) →
    ∃ st1', mapLoop env rec' path' node' tag kt ety m first blks st' acc = .ok (r, st1') ∧ Good root st1 st1' ∧
      Le st'.heap st1'.heap
  | [], st, st', acc, r, st1, _, hg, _, h => by
    cases h
    exact ⟨st', rfl, hg, .refl _⟩
  | blk :: blks, st, st', acc, r, st1, hb, hg, hn, h => by
    simp only [mapLoop] at h ⊢
    split at h
    · cases h
    rename_i key ks hlab
    split at h
    · cases h
    rename_i cls hcls
    have hc : UniC cls := by
      have := orPanic_ok hcls
      cases hx : GoMap.get? m key with
      | none => rw [hx] at this; exact hfirst _ (by simpa using this)
      | some c =>
        rw [hx] at this
        have : c = cls := by simpa using this
        exact this ▸ hm _ (GoMap.get?_mem hx)
    split at h
    · cases h
    rename_i c fs s1 hd
    obtain ⟨s1', hd', hg1, hl1⟩ := decodeBlock_sim (p' := place path' tag blks) hrec hc (hb blk (by simp)) hg hn hd
    simp only [hcls, hd']
    split at h
    · rename_i hkt
      simp only [if_pos hkt]
      split at h
      · cases h
      rename_i v hv
      obtain ⟨s2', hl', hg2, hl2⟩ := mapLoop_sim (path' := path') hrec hm hfirst
        (fun b hb' => (hb b (by simp [hb'])).mono hl1) hg1 (Nat.lt_of_lt_of_le hn hl1.length) h
      exact ⟨s2', by simp only [hv, hl'], hg2, hl1.trans hl2⟩
    · cases h

theorem map2Loop_sim {path' : List Bytes} {kt ety m first firstFirst} (hrec : RecSim ext root rec rec') (hm : ∀ e ∈ m, ∀ a ∈ e.2, UniC a.2)
    (hf : ∀ x, first = some x → ∀ a ∈ x, UniC a.2) (hfirst : ∀ c, firstFirst = some c → UniC c) :
    ∀ {blks st st' acc r st1},
    (∀ blk ∈ blks, BlkOk ext st'.heap node' tag blk) → Good root st st' → node' < st'.heap.length →
    map2Loop env rec path node tag kt ety m first firstFirst blks st acc = .ok (r, st1) →
    ∃ st1', map2Loop env rec' path' node' tag kt ety m first firstFirst blks st' acc = .ok (r, st1') ∧ Good root st1 st1' ∧
      Le st'.heap st1'.heap
  | [], st, st', acc, r, st1, _, hg, _, h => by
    cases h
    exact ⟨st', rfl, hg, .refl _⟩
  | blk :: blks, st, st', acc, r, st1, hb, hg, hn, h => by
    simp only [map2Loop] at h ⊢
    split at h
    · cases h
    rename_i cls hcls
    have hc : UniC cls := by
      have := orPanic_ok hcls
      have hin : ∀ a ∈ (GoMap.get? m (blk.labels.getD 0 [])).getD (first.getD []), UniC a.2 := by
        intro a ha
        cases hx : GoMap.get? m (blk.labels.getD 0 []) with
        | none =>
          rw [hx] at ha
          cases hy : first with
          | none => rw [hy] at ha; cases ha
          | some y => rw [hy] at ha; exact hf y hy a ha
        | some x => rw [hx] at ha; exact hm _ (GoMap.get?_mem hx) a ha
      generalize hz : (GoMap.get? m (blk.labels.getD 0 [])).getD (first.getD []) = z at this hin
      cases hx : GoMap.get? z (blk.labels.getD 1 []) with
      | none => rw [hx] at this; exact hfirst _ (by simpa using this)
      | some c =>
        rw [hx] at this
        have : c = cls := by simpa using this
        exact this ▸ hin _ (GoMap.get?_mem hx)
    split at h
    · cases h
    rename_i c fs s1 hd
    obtain ⟨s1', hd', hg1, hl1⟩ := decodeBlock_sim (p' := place path' tag blks) hrec hc (hb blk (by simp)) hg hn hd
    simp only [hcls, hd']
    split at h
    · rename_i hkt
      simp only [if_pos hkt]
      split at h
      · cases h
      rename_i v hv
      obtain ⟨s2', hl', hg2, hl2⟩ := map2Loop_sim (path' := path') hrec hm hf hfirst
        (fun b hb' => (hb b (by simp [hb'])).mono hl1) hg1 (Nat.lt_of_lt_of_le hn hl1.length) h
      exact ⟨s2', by simp only [hv, hl'], hg2, hl1.trans hl2⟩
    · cases h

end loops

theorem pick_eq {α : Type} {m : List (Bytes × α)} (hall : ∀ e ∈ m, ∀ e' ∈ m, e.2 = e'.2) {o1 o2 : List Bytes}
    (h1 : o1.Perm (GoMap.keys m)) (h2 : o2.Perm (GoMap.keys m)) : o1.head?.bind (GoMap.get? m) = o2.head?.bind (GoMap.get? m) := by
  have key : ∀ {o : List Bytes} {a}, o.Perm (GoMap.keys m) → a ∈ o → ∃ v, GoMap.get? m a = some v ∧ (a, v) ∈ m := by
    intro o a hp ha
    cases hg : GoMap.get? m a with
    | none => exact absurd (hp.mem_iff.1 ha) (GoMap.get?_eq_none.1 hg)
    | some v => exact ⟨v, rfl, GoMap.get?_mem hg⟩
  have hlen : o1.length = o2.length := h1.length_eq.trans h2.length_eq.symm
  cases o1 with
  | nil =>
    cases o2 with
    | nil => rfl
    | cons a o2 => cases hlen
  | cons a o1 =>
    cases o2 with
    | nil => cases hlen
    | cons a' o2 =>
      obtain ⟨v, hv, hm⟩ := key h1 (List.mem_cons_self)
      obtain ⟨v', hv', hm'⟩ := key h2 (List.mem_cons_self)
      simp only [List.head?_cons, Option.bind_some, hv, hv']
      exact congrArg some (hall _ hm _ hm')

theorem firstOf_class {o : List Bytes} {m : List (Bytes × Cls)} {c} (h : firstOf o m = some c) : ∃ k, (k, c) ∈ m := by
  simp only [firstOf, Option.bind_eq_some_iff] at h
  obtain ⟨k, _, hk⟩ := h
  exact ⟨k, GoMap.get?_mem hk⟩

theorem map_ok' {α β : Type} {x : Except Fail α} {g : α → β} {y} (h : x.map g = .ok y) : ∃ a, x = .ok a ∧ y = g a := by
  cases x with
  | error e => cases h
  | ok a => cases h; exact ⟨a, rfl, rfl⟩

theorem oriValue_sim {env ext o root rec rec' path path' node node' tag ty spec blks st st' v st1}
    (ho1 : ∀ p l, (ext.ord p l).Perm l) (ho2 : ∀ p l, (o p l).Perm l)
    (hrec : RecSim ext root rec rec') (hs : UniV spec)
    (hb : ∀ blk ∈ blks, BlkOk ext st'.heap node' tag blk) (hg : Good root st st') (hn : node' < st'.heap.length)
    (h : oriValue env ext rec path node tag ty spec blks st = .ok (v, st1)) :
    ∃ st1', oriValue env (ext.reorder o) rec' path' node' tag ty spec blks st' = .ok (v, st1') ∧ Good root st1 st1' ∧
      Le st'.heap st1'.heap := by
  cases hs with
  | none => cases h; exact ⟨st', rfl, hg, .refl _⟩
  | single hc =>
    cases blks with
    | nil => cases h
    | cons blk blks =>
      simp only [oriValue] at h ⊢
      split at h
      · cases h
      rename_i c fs s1 hd
      obtain ⟨s1', hd', hg1, hl1⟩ := decodeBlock_sim (p' := place path' tag blks) hrec hc (hb blk (by simp)) hg hn hd
      obtain ⟨w, hw, he⟩ := map_ok' h
      cases he
      exact ⟨s1', by simp only [hd', hw]; rfl, hg1, hl1⟩
  | @list l hl =>
    cases l with
    | nil => cases h
    | cons first cs =>
      cases ty <;> simp only [oriValue] at h ⊢ <;> try cases h
      · obtain ⟨w, hw, he⟩ := map_ok' h
        cases he
        obtain ⟨s1', h1, h2, h3⟩ := listLoop_sim (path' := path') hrec (hl first (by simp)) hl hb hg hn hw
        exact ⟨s1', by rw [h1]; rfl, h2, h3⟩
      · obtain ⟨w, hw, he⟩ := map_ok' h
        cases he
        obtain ⟨s1', h1, h2, h3⟩ := listMapLoop_sim (path' := path') hrec (hl first (by simp)) hb hg hn hw
        exact ⟨s1', by rw [h1]; rfl, h2, h3⟩
  | @map m hm hall =>
    cases ty <;> simp only [oriValue] at h ⊢ <;> try cases h
    obtain ⟨w, hw, he⟩ := map_ok' h
    cases he
    have hf : firstOf ((ext.reorder o).ord (path' ++ [tag]) (GoMap.keys m)) m = firstOf (ext.ord (path ++ [tag]) (GoMap.keys m)) m :=
      pick_eq hall (ho2 _ _) (ho1 _ _)
    obtain ⟨s1', h1, h2, h3⟩ := mapLoop_sim (path' := path') hrec hm (fun c hc => by
      obtain ⟨k, hk⟩ := firstOf_class hc
      exact hm _ hk) hb hg hn hw
    exact ⟨s1', by rw [hf, h1]; rfl, h2, h3⟩
  | @map2 m hm hall hall2 =>
    cases ty <;> simp only [oriValue] at h ⊢ <;> try cases h
    obtain ⟨w, hw, he⟩ := map_ok' h
    cases he
    have hf : ((ext.reorder o).ord (path' ++ [tag]) (GoMap.keys m)).head?.bind (GoMap.get? m) =
        (ext.ord (path ++ [tag]) (GoMap.keys m)).head?.bind (GoMap.get? m) :=
      pick_eq hall (ho2 _ _) (ho1 _ _)
    have hx : ∀ x, (ext.ord (path ++ [tag]) (GoMap.keys m)).head?.bind (GoMap.get? m) = some x → ∃ k, (k, x) ∈ m := by
      intro x hx
      simp only [Option.bind_eq_some_iff] at hx
      obtain ⟨k, _, hk⟩ := hx
      exact ⟨k, GoMap.get?_mem hk⟩
    have hff : (((ext.ord (path ++ [tag]) (GoMap.keys m)).head?.bind (GoMap.get? m)).bind fun x =>
          firstOf ((ext.reorder o).ord (path' ++ [tag, tag]) (GoMap.keys x)) x) =
        (((ext.ord (path ++ [tag]) (GoMap.keys m)).head?.bind (GoMap.get? m)).bind fun x =>
          firstOf (ext.ord (path ++ [tag, tag]) (GoMap.keys x)) x) := by
      cases hp : (ext.ord (path ++ [tag]) (GoMap.keys m)).head?.bind (GoMap.get? m) with
      | none => rfl
      | some x =>
        obtain ⟨k, hk⟩ := hx x hp
        exact pick_eq (hall2 _ hk) (ho2 _ _) (ho1 _ _)
    obtain ⟨s1', h1, h2, h3⟩ := map2Loop_sim (path' := path') hrec hm
      (fun x hp => by
        obtain ⟨k, hk⟩ := hx x hp
        exact hm _ hk)
      (fun c hc => by
        simp only [Option.bind_eq_some_iff] at hc
        obtain ⟨x, ⟨k, _, hk⟩, hc⟩ := hc
        obtain ⟨k', hk'⟩ := firstOf_class hc
        exact hm _ (GoMap.get?_mem hk) _ hk') hb hg hn hw
    exact ⟨s1', by rw [hf, hff, h1]; rfl, h2, h3⟩

/-! ## Steps -/

/-- What succeeds in the one succeeds in the other. -/
def StepSim (root : Nat) (h0 : Heap Cty) (s s' : Step) : Prop :=
  ∀ fs st st' fs1 st1, s fs st = .ok (fs1, st1) → Good root st st' → Le h0 st'.heap →
    ∃ st1', s' fs st' = .ok (fs1, st1') ∧ Good root st1 st1' ∧ Le st'.heap st1'.heap

theorem runSteps_sim {root h0} {l l' : List Step} (hl : List.Forall₂ (StepSim root h0) l l') :
    ∀ {fs st st' fs1 st1}, runSteps l fs st = (fs1, .ok st1) → Good root st st' → Le h0 st'.heap →
    ∃ st1', runSteps l' fs st' = (fs1, .ok st1') ∧ Good root st1 st1' ∧ Le st'.heap st1'.heap := by
  induction hl with
  | nil => intro fs st st' fs1 st1 h hg _; cases h; exact ⟨st', rfl, hg, .refl _⟩
  | cons hs _ ih =>
    intro fs st st' fs1 st1 h hg h0
    simp only [runSteps] at h ⊢
    split at h
    · rename_i fs2 s2 h2
      obtain ⟨s2', h3, h4, h5⟩ := hs _ _ _ _ _ h2 hg h0
      obtain ⟨s1', h6, h7, h8⟩ := ih h h4 (h0.trans h5)
      exact ⟨s1', by simp only [h3, h6], h7, h5.trans h8⟩
    · cases h

/-- A step that does not look at the state. -/
def Stateless (s : Step) : Prop := ∃ g : Fields → Except Fail Fields, ∀ fs st, s fs st = (g fs).map fun fs => (fs, st)

theorem Stateless.sim {root h0 s} (h : Stateless s) : StepSim root h0 s s := by
  obtain ⟨g, h⟩ := h
  intro fs st st' fs1 st1 hs hg _
  rw [h] at hs
  obtain ⟨a, ha, he⟩ := map_ok' hs
  cases he
  exact ⟨st', by rw [h, ha]; rfl, hg, .refl _⟩

theorem labelAttrStep_stateless (val f) : Stateless (labelAttrStep val f) := by
  refine ⟨fun fs => match val f.tag with
    | none => .ok fs
    | some (.str s) => if f.ty = .str then setF f.name (.str s) fs else .error .panic
    | some _ => .error .panic, fun fs st => ?_⟩
  simp only [labelAttrStep]
  cases val f.tag with
  | none => rfl
  | some c =>
    cases c <;> try rfl
    simp only
    split <;> rfl

theorem labelStep_stateless (x) : Stateless (labelStep x) := by
  refine ⟨fun fs => match getF x.1.name fs with
    | .error e => .error e
    | .ok (.str []) => if x.1.ty = .str then setF x.1.name (.str x.2) fs else .error .panic
    | .ok _ => .ok fs, fun fs st => ?_⟩
  simp only [labelStep]
  split
  · rename_i h; rw [h]; rfl
  · rename_i h; rw [h]; simp only; split <;> rfl
  · rename_i v hno h
    rw [h]
    cases v <;> try rfl
    rename_i s
    cases s with
    | nil => exact absurd rfl hno
    | cons => rfl

theorem newStep_stateless (val x) : Stateless (newStep val x) := by
  refine ⟨fun fs => if (val x.1.tag).isSome then setF x.1.name x.2 fs else .ok fs, fun fs st => ?_⟩
  simp only [newStep]
  split <;> rfl

theorem decStep_sim {ext o root h0 nulls nulls' lf ref body vals vals' node node'} (f : Fld)
    (hn : ∀ k, k ∈ nulls ↔ k ∈ nulls') (hv : ∀ k, GoMap.get? vals k = GoMap.get? vals' k)
    (hlit : Literal ext body) (hnode : node' < h0.length) :
    StepSim root h0 (decStep ext nulls lf body vals node f) (decStep (Ext.reorder ext o) nulls' (lf.withRef ref) body vals' node' f) := by
  intro fs st st' fs1 st1 h hg hle
  have hlt : node' < st'.heap.length := Nat.lt_of_lt_of_le hnode hle.length
  cases hlit with
  | @mk attrs blocks hl1 hl2 hl3 hl4 hl5 =>
    simp only [decStep, routed_congr hn hv] at h ⊢
    have fin : ∀ {r : Except Fail (Val × Heap Cty)} {r' : Except Fail (Val × Heap Cty)}, (∀ v g, r = .ok (v, g) → ∃ g', r' = .ok (v, g') ∧ Tree.Inv g' ∧ Le st'.heap g') →
        (match some r with
          | none => .ok (fs, st)
          | some (.error e) => .error e
          | some (.ok (v, h)) =>
            if f.ty = .slice .any ∨ f.ty = .map .str .any then (setF f.name v fs).map fun fs => (fs, { st with heap := h })
            else .error .panic : Except Fail (Fields × St)) = .ok (fs1, st1) →
        ∃ st1', (match some r' with
          | none => .ok (fs, st')
          | some (.error e) => .error e
          | some (.ok (v, h)) =>
            if f.ty = .slice .any ∨ f.ty = .map .str .any then (setF f.name v fs).map fun fs => (fs, { st' with heap := h })
            else .error .panic : Except Fail (Fields × St)) = .ok (fs1, st1') ∧ Good root st1 st1' ∧ Le st'.heap st1'.heap := by
      intro r r' hr he
      cases r with
      | error e => cases he
      | ok w =>
        obtain ⟨g', h1, h2, h3⟩ := hr w.1 w.2 rfl
        subst h1
        simp only at he ⊢
        by_cases ht : f.ty = .slice .any ∨ f.ty = .map .str .any
        · rw [if_pos ht] at he ⊢
          obtain ⟨a, ha, hb⟩ := map_ok' he
          cases hb
          exact ⟨{ st' with heap := g' }, by rw [ha]; rfl, ⟨hg.ref, h2, Nat.lt_of_lt_of_le hg.root h3.length⟩, h3⟩
        · rw [if_neg ht] at he; cases he
    have blk : ∀ {x : Bytes × List Bytes × Body} {r}, (blocks.filter fun x => x.1 = f.tag && !hasTag lf.oris x.1) = x :: r → x ∈ blocks := by
      intro x r hx
      have : x ∈ blocks.filter fun x => x.1 = f.tag && !hasTag lf.oris x.1 := by rw [hx]; simp
      exact (List.mem_filter.1 this).1
    have viaBlocks : (match (match blocks.filter fun x => x.1 = f.tag && !hasTag lf.oris x.1 with
            | x :: _ => some (ext.dynBlock (match f.ty with | .slice _ => true | _ => false) st.heap node x.2.2)
            | [] => none) with
          | none => .ok (fs, st)
          | some (.error e) => .error e
          | some (.ok (v, h)) =>
            if f.ty = .slice .any ∨ f.ty = .map .str .any then (setF f.name v fs).map fun fs => (fs, { st with heap := h })
            else .error .panic : Except Fail (Fields × St)) = .ok (fs1, st1) →
        ∃ st1', (match (match blocks.filter fun x => x.1 = f.tag && !hasTag lf.oris x.1 with
            | x :: _ => some (ext.dynBlock (match f.ty with | .slice _ => true | _ => false) st'.heap node' x.2.2)
            | [] => none) with
          | none => .ok (fs, st')
          | some (.error e) => .error e
          | some (.ok (v, h)) =>
            if f.ty = .slice .any ∨ f.ty = .map .str .any then (setF f.name v fs).map fun fs => (fs, { st' with heap := h })
            else .error .panic : Except Fail (Fields × St)) = .ok (fs1, st1') ∧ Good root st1 st1' ∧ Le st'.heap st1'.heap := by
      intro he
      cases hx : blocks.filter fun x => x.1 = f.tag && !hasTag lf.oris x.1 with
      | nil => rw [hx] at he; cases he; exact ⟨st', rfl, hg, .refl _⟩
      | cons x r =>
        rw [hx] at he
        exact fin (fun v g hd => hl3 x (blk hx) _ _ _ _ _ hd _ _ hg.inv hlt) he
    cases hr : routed nulls lf vals .dec f.tag with
    | none => rw [hr] at h; exact viaBlocks h
    | some cv =>
      rw [hr] at h
      cases ha : GoMap.get? attrs f.tag with
      | none => simp only [Body.attrs, ha] at h ⊢; exact viaBlocks h
      | some a =>
        simp only [Body.attrs, ha] at h ⊢
        exact fin (fun v g hd => hl2 (f.tag, a) (GoMap.get?_mem ha) _ _ _ _ _ hd _ _ hg.inv hlt) h

theorem oriBlocks_reorder {ext o nulls nulls' lf ref body vals vals'} (hn : ∀ k, k ∈ nulls ↔ k ∈ nulls')
    (hv : ∀ k, GoMap.get? vals k = GoMap.get? vals' k) (tag) :
    oriBlocks (Ext.reorder ext o) nulls' (LF.withRef lf ref) body vals' tag = oriBlocks ext nulls lf body vals tag := by
  simp only [oriBlocks, routed_congr hn hv]
  rfl

theorem oriBlocks_ok {ext lf body node p p' h0} (hp : PreSim ext node body h0 p p') (hlf : lf = p.lf) (hlit : Literal ext body) (tag) :
    ∀ blk ∈ oriBlocks ext (nullKeys p.vals) lf body p.vals tag, BlkOk ext p'.heap node tag blk := by
  subst hlf
  intro blk hblk
  cases hlit with
  | @mk attrs blocks hl1 hl2 hl3 hl4 hl5 =>
    simp only [oriBlocks, Body.attrs, Body.blocks, List.mem_append, List.mem_map, List.mem_filter] at hblk
    rcases hblk with hblk | ⟨x, ⟨hx, ht⟩, rfl⟩
    · cases hr : routed (nullKeys p.vals) p.lf p.vals .ori tag with
      | none => rw [hr] at hblk; cases hblk
      | some cv =>
        cases ha : GoMap.get? attrs tag with
        | none => rw [hr, ha] at hblk; cases hblk
        | some a =>
          rw [hr, ha] at hblk
          refine ⟨hl4 _ (GoMap.get?_mem ha) blk hblk, ?_⟩
          have hlab : blk.labels = [] := by
            simp only [attrBlocks, List.mem_map] at hblk
            obtain ⟨s, _, rfl⟩ := hblk
            rfl
          rw [hlab]
          exact hp.attrs tag (by rw [hr]; rfl)
    · refine ⟨fun body hb => ?_, ?_⟩
      · cases hb; exact hl5 x hx
      · have ht : x.1 = tag := by simpa using ht
        rw [← ht]
        exact hp.blocks x hx

theorem oriStep_sim {env ext o root rec rec' body path path' node node' p p' h0} (f : Fld)
    (ho1 : ∀ p l, (ext.ord p l).Perm l) (ho2 : ∀ p l, (o p l).Perm l)
    (hrec : RecSim ext root rec rec') (hp : PreSim ext node' body h0 p p') (hlit : Literal ext body) (hnode : node' < h0.length) :
    StepSim root p'.heap (oriStep env ext rec (nullKeys p.vals) p.lf body p.vals path node f)
      (oriStep env (ext.reorder o) rec' (nullKeys p'.vals) p'.lf body p'.vals path' node' f) := by
  intro fs st st' fs1 st1 h hg hle
  have hlt : node' < st'.heap.length := Nat.lt_of_lt_of_le hnode (hp.le.trans hle).length
  simp only [oriStep] at h ⊢
  rw [hp.lf, oriBlocks_reorder hp.nulls hp.vals]
  have hob := oriBlocks_ok hp rfl hlit f.tag
  generalize oriBlocks ext (nullKeys p.vals) p.lf body p.vals f.tag = blks at h hob
  cases blks with
  | nil => cases h; exact ⟨st', rfl, hg, .refl _⟩
  | cons blk blks =>
    simp only at h ⊢
    have hspec : UniV ((GoMap.get? p.lf.obj f.name).getD .none) := by
      cases hq : GoMap.get? p.lf.obj f.name with
      | none => exact .none
      | some v => exact hp.uni _ _ hq
    have hobj : (p.lf.withRef p'.lf.ref).obj = p.lf.obj := rfl
    rw [hobj]
    split at h
    · cases h
    · rename_i s1 ho
      cases h
      obtain ⟨s1', h1, h2, h3⟩ := oriValue_sim (path' := path') ho1 ho2 hrec hspec (fun b hb => (hob b hb).mono hle) hg hlt ho
      exact ⟨s1', by simp only [h1], h2, h3⟩
    · rename_i v s1 ho
      obtain ⟨a, ha, he⟩ := map_ok' h
      cases he
      obtain ⟨s1', h1, h2, h3⟩ := oriValue_sim (path' := path') ho1 ho2 hrec hspec (fun b hb => (hob b hb).mono hle) hg hlt ho
      exact ⟨s1', by simp only [h1, ha]; rfl, h2, h3⟩

theorem forall₂_map {α : Type} {R : Step → Step → Prop} {g g' : α → Step} (h : ∀ a, R (g a) (g' a)) (l : List α) :
    List.Forall₂ R (l.map g) (l.map g') := by
  induction l with
  | nil => exact .nil
  | cons a l ih => exact .cons (h a) ih

theorem forall₂_append {R : Step → Step → Prop} {a a' c c' : List Step} (h : List.Forall₂ R a a') (h' : List.Forall₂ R c c') :
    List.Forall₂ R (a ++ c) (a' ++ c') := by
  induction h with
  | nil => exact h'
  | cons h _ ih => exact .cons h ih

theorem steps_sim {env ext o root rec rec' body path path' node node' p p' h0 labels}
    (ho1 : ∀ p l, (ext.ord p l).Perm l) (ho2 : ∀ p l, (o p l).Perm l)
    (hrec : RecSim ext root rec rec') (hp : PreSim ext node' body h0 p p') (hlit : Literal ext body) (hnode : node' < h0.length) :
    List.Forall₂ (StepSim root p'.heap) (steps env ext rec p node labels path body)
      (steps env (ext.reorder o) rec' p' node' labels path' body) := by
  have hr := fun r => (routed_congr (lf := p.lf) hp.nulls hp.vals r p'.lf.ref)
  have hls : labelSteps p'.lf labels = labelSteps p.lf labels := by rw [hp.lf]; rfl
  have e1 : p'.lf.labels = p.lf.labels := by rw [hp.lf]; rfl
  have e2 : p'.lf.news = p.lf.news := by rw [hp.lf]; rfl
  have e3 : p'.lf.decs = p.lf.decs := by rw [hp.lf]; rfl
  have e4 : p'.lf.oris = p.lf.oris := by rw [hp.lf]; rfl
  have hr' : ∀ r, routed (nullKeys p'.vals) p'.lf p'.vals r = routed (nullKeys p.vals) p.lf p.vals r := by
    intro r; rw [hp.lf]; exact hr r
  refine forall₂_append (forall₂_append (forall₂_append (forall₂_append ?_ ?_) ?_) ?_) ?_
  · rw [e1, hr']; exact forall₂_map (fun f => (labelAttrStep_stateless _ f).sim) _
  · rw [hls]
    simp only [labelSteps]
    split
    · exact forall₂_map (fun f => (labelStep_stateless f).sim) _
    · exact .nil
  · rw [e2, hp.raw, hr']; exact forall₂_map (fun f => (newStep_stateless _ f).sim) _
  · rw [e3, hp.lf]
    exact forall₂_map (fun f => decStep_sim f hp.nulls hp.vals hlit (Nat.lt_of_lt_of_le hnode hp.le.length)) _
  · rw [e4]
    exact forall₂_map (fun f => oriStep_sim f ho1 ho2 hrec hp hlit hnode) _

/-- What succeeds with one order, one `ref` and one tree succeeds with every other order, with a larger `ref` and with every
other tree, and gives the same. -/
theorem decode_sim {env ext o root root'} (ho1 : ∀ p l, (ext.ord p l).Perm l) (ho2 : ∀ p l, (o p l).Perm l) :
    ∀ n, RecSim ext root' (decode env ext root n) (decode env (ext.reorder o) root' n)
  | 0 => by
    intro path path' st st' node node' c fs obj labels body out st1 _ _ _ _ h
    cases h
  | n + 1 => by
    intro path path' st st' node node' c fs obj labels body out st1 hlit hu hg hn h
    simp only [decode, decodeStruct] at h ⊢
    split at h
    · cases h
    rename_i p hp
    have hl : ∀ a ∈ body.attrs, Lit a.2.expr := by cases hlit with | mk h0 => exact h0
    obtain ⟨p', hp', hps⟩ := prepare_sim (path' := path') (o := o) ho1 ho2 hl hu hg.ref hg.inv hg.root hn hp
    simp only [hp']
    obtain ⟨s1', h1, h2, h3⟩ := runSteps_sim (steps_sim (o := o) (labels := labels) (path' := path') ho1 ho2 (decode_sim ho1 ho2 n) hps hlit hn) h
      (st' := ⟨p'.heap, p'.lf.ref⟩) ⟨hps.ref, hps.inv, Nat.lt_of_lt_of_le hg.root hps.le.length⟩ (.refl _)
    exact ⟨s1', h1, h2, hps.le.trans h3⟩

end Verif.HclS
