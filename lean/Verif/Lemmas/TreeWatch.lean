import Verif.Spec.TreeWatch
import Verif.Lemmas.TreeAllRead
import Verif.Lemmas.GoMap
/-!
# Invariants of `Variables` while nodes are added and deleted
-/
set_option linter.unusedSimpArgs false

namespace Verif.TreeWatch
open Tree (CV VAR evalPath)
open TreeAll (upd upd_same upd_other Grows Call Content Kid HeadOk Deletes Shifting Spared Pending)

variable {V : Type}

theorem run_cons {s s' : St V} {e : Ev V} {es : List (Ev V)} (h : s.run (e :: es) = some s') : ∃ s1, s.step e = some s1 ∧ s1.run es = some s' := by
  simp only [St.run] at h
  cases hs : s.step e with
  | none => rw [hs] at h; cases h
  | some s1 => rw [hs] at h; exact ⟨s1, rfl, h⟩

theorem run_snoc {s s1 s2 : St V} {es : List (Ev V)} {e : Ev V} (h : s.run es = some s1) (h1 : s1.step e = some s2) : s.run (es ++ [e]) = some s2 := by
  induction es generalizing s with
  | nil => cases h; simp only [List.nil_append, St.run, h1]; rfl
  | cons e' es ih =>
    obtain ⟨s3, h3, h4⟩ := run_cons h
    simp only [List.cons_append, St.run, h3]
    exact ih h4

/-! ## What a step of a call does to the tree -/

theorem tree_child {s : TreeAll.St} (i : TreeAll.Inv s) {p c : Nat} (h : c ∈ (s.node p).downs) : Kid s p c :=
  i.kid p _ c (List.mem_of_mem_take h)

theorem tree_adding {s : TreeAll.St} {p c : Nat} (h : Adding s p c) : Pending (s.pc h.choose) p c := by
  obtain ⟨_, _, ⟨_, h1⟩ | h1⟩ := h.choose_spec <;> rw [h1] <;> exact ⟨rfl, rfl⟩

/-- A cell holds what it held, or a child, or a node that is being added. -/
theorem tree_cells {s s' : TreeAll.St} (i : TreeAll.Inv s) {t a : Nat} {c : Call} {f : Bool} (h : s.step t c f = some s') (ha : a < s.next) {k j d : Nat}
    (hd : ((s'.node a).cells k)[j]? = some d) :
    ((s.node a).cells k)[j]? = some d ∨ d ∈ (s.node a).downs ∨ Adding s' a d := by
  rcases TreeAll.step_cells h ha with e | ⟨q, n, rest, hpc, e⟩ | ⟨q, j', v, hpc, e⟩
  · rw [e] at hd; exact .inl hd
  · have hadd : (s'.node a).cells = (s.node a).cells ∨ Adding s' a s.next := by
      unfold TreeAll.St.step at h
      rw [hpc] at h
      cases q <;> dsimp only at h
      case del => split at h <;> cases h <;> exact .inl rfl
      all_goals
        cases h
        exact .inr ⟨t, _, rest, .inl ⟨_, upd_same ..⟩⟩
    rcases hadd with e' | hadd
    · rw [e'] at hd; exact .inl hd
    rw [e] at hd
    unfold TreeAll.Node.append at hd
    cases f
    · by_cases hka : k = (s.node a).arr
      · subst hka
        change (upd _ _ _ _)[j]? = some d at hd
        rw [upd_same] at hd
        by_cases h1 : j < (s.node a).downs.length
        · rw [List.getElem?_append_left h1] at hd
          exact .inr (.inl (List.mem_of_getElem? hd))
        · rw [List.getElem?_append_right (by omega)] at hd
          by_cases h2 : j = (s.node a).downs.length
          · subst h2
            rw [Nat.sub_self] at hd
            cases hd
            exact .inr (.inr hadd)
          · left
            have hlen := TreeAll.Node.downs_length (i.len a)
            obtain ⟨m, hm⟩ : ∃ m, j - (s.node a).downs.length = m + 1 := ⟨j - (s.node a).downs.length - 1, by omega⟩
            rw [hm, List.getElem?_cons_succ, List.getElem?_drop] at hd
            rw [show (s.node a).len + 1 + m = j by omega] at hd
            exact hd
      · change (upd _ _ _ _)[j]? = some d at hd
        rw [upd_other _ _ hka] at hd
        exact .inl hd
    · by_cases hka : k = (s.node a).made
      · subst hka
        change (upd _ _ _ _)[j]? = some d at hd
        rw [upd_same] at hd
        rcases List.mem_append.1 (List.mem_of_getElem? hd) with h1 | h1
        · exact .inr (.inl h1)
        · cases List.mem_singleton.1 h1
          exact .inr (.inr hadd)
      · change (upd _ _ _ _)[j]? = some d at hd
        rw [upd_other _ _ hka] at hd
        exact .inl hd
  · unfold TreeAll.St.step at h
    rw [hpc] at h
    cases h
    unfold TreeAll.St.shift at hd
    dsimp only at hd
    split at hd
    · rename_i hlt
      by_cases hka : k = (s.node a).arr
      · subst hka
        have hd : (((s.node a).cells (s.node a).arr).set j' (((s.node a).cells (s.node a).arr).getD (j' + 1) 0))[j]? = some d := by
          have := hd
          simp only [TreeAll.St.goto, TreeAll.St.set, upd_same] at this
          exact this
        rw [List.getElem?_set] at hd
        split at hd
        · split at hd
          · cases hd
            right; left
            have hl := i.len a
            unfold TreeAll.Node.downs
            rw [List.getD_eq_getElem?_getD, List.getElem?_eq_getElem (by omega)]
            exact List.mem_iff_getElem.2 ⟨j' + 1, by rw [List.length_take]; omega, by rw [List.getElem_take]; rfl⟩
          · cases hd
        · exact .inl hd
      · have hd : ((s.node a).cells k)[j]? = some d := by
          have := hd
          simp only [TreeAll.St.goto, TreeAll.St.set, upd_same, upd_other _ _ hka] at this
          exact this
        exact .inl hd
    · have hd : ((s.node a).cells k)[j]? = some d := by
        have := hd
        simp only [TreeAll.St.goto, TreeAll.St.set, upd_same] at this
        exact this
      exact .inl hd

/-! ## What a step does -/

/-- What a step does to goroutine `t`. -/
inductive Move (s : St V) (t : Nat) (e : Ev V) (s' : St V) : Prop
  | same : s'.vars t = s.vars t → s'.log t = s.log t → Move s t e s'
  | begin (self : Nat) : e = .begin t self → s.vars t = .out → s' = s.goto t [s.enter self] → self < s.tree.next → Move s t e s'
  | go (key : Option Bytes) (fs : List (Frame V)) : e = .go t key → s.vars t = .inside fs → s.varStep t key fs = some s' → Move s t e s'

theorem goto_other {s : St V} {t u : Nat} {fs : List (Frame V)} (h : t ≠ u) : (s.goto u fs).vars t = s.vars t := upd_other _ _ h

theorem varStep_other {s s' : St V} {t u : Nat} {key : Option Bytes} {fs : List (Frame V)} (h : s.varStep u key fs = some s') (ht : t ≠ u) :
    s'.vars t = s.vars t ∧ s'.log t = s.log t := by
  unfold St.varStep at h
  split at h
  · cases h
  · rename_i f fs
    split at h
    · split at h
      · split at h <;> cases h
        · exact ⟨upd_other _ _ ht, rfl⟩
        · exact ⟨goto_other ht, rfl⟩
      · cases h; exact ⟨goto_other ht, rfl⟩
    · split at h
      · split at h
        · cases h
        · cases h; exact ⟨goto_other ht, rfl⟩
      · split at h
        · cases h
          cases fs with
          | nil => exact ⟨upd_other _ _ ht, upd_other _ _ ht⟩
          | cons p fs => exact ⟨goto_other ht, rfl⟩
        · cases h

theorem varStep_mem {s s' : St V} {u : Nat} {key : Option Bytes} {fs : List (Frame V)} (h : s.varStep u key fs = some s') :
    s'.tree = s.tree ∧ s'.data = s.data := by
  unfold St.varStep at h
  split at h
  · cases h
  · rename_i f fs
    split at h
    · split at h
      · split at h <;> (cases h; exact ⟨rfl, rfl⟩)
      · cases h; exact ⟨rfl, rfl⟩
    · split at h
      · split at h
        · cases h
        · cases h; exact ⟨rfl, rfl⟩
      · split at h
        · cases h
          cases fs <;> exact ⟨rfl, rfl⟩
        · cases h

theorem step_move {s s' : St V} {e : Ev V} (h : s.step e = some s') (t : Nat) : Move s t e s' := by
  cases e with
  | tree u c f =>
    simp only [St.step] at h
    split at h
    · cases hs : s.tree.step u c f with
      | none => rw [hs] at h; cases h
      | some tr => rw [hs] at h; cases h; exact .same rfl rfl
    · cases h
  | store u self k v =>
    simp only [St.step] at h
    split at h
    · split at h
      · cases h; exact .same rfl rfl
      · cases h
    · cases h
  | delete u self k =>
    simp only [St.step] at h
    split at h
    · split at h
      · cases h; exact .same rfl rfl
      · cases h
    · cases h
  | begin u self =>
    simp only [St.step] at h
    split at h
    · rename_i hv _
      split at h
      · rename_i hlt
        cases h
        by_cases ht : t = u
        · subst ht
          exact .begin self rfl hv rfl hlt
        · exact .same (goto_other ht) rfl
      · cases h
    · cases h
  | go u key =>
    simp only [St.step] at h
    split at h
    · rename_i fs hv
      by_cases ht : t = u
      · subst ht
        exact .go key fs rfl hv h
      · exact .same (varStep_other h ht).1 (varStep_other h ht).2
    · cases h

/-- What a step does to the tree: nothing, or a step of one of the other calls. -/
theorem step_tree {s s' : St V} {e : Ev V} (h : s.step e = some s') :
    (s'.tree = s.tree ∧ ∀ es, treeSteps (e :: es) = treeSteps es) ∨
    ∃ t c f, s.tree.step t c f = some s'.tree ∧ ∀ es : List (Ev V), treeSteps (e :: es) = (t, c, f) :: treeSteps es := by
  cases e with
  | tree u c f =>
    simp only [St.step] at h
    split at h
    · cases hs : s.tree.step u c f with
      | none => rw [hs] at h; cases h
      | some tr => rw [hs] at h; cases h; exact .inr ⟨u, c, f, hs, fun _ => rfl⟩
    · cases h
  | store u self k v =>
    simp only [St.step] at h
    split at h
    · split at h
      · cases h; exact .inl ⟨rfl, fun _ => rfl⟩
      · cases h
    · cases h
  | delete u self k =>
    simp only [St.step] at h
    split at h
    · split at h
      · cases h; exact .inl ⟨rfl, fun _ => rfl⟩
      · cases h
    · cases h
  | begin u self =>
    simp only [St.step] at h
    split at h
    · split at h
      · cases h; exact .inl ⟨rfl, fun _ => rfl⟩
      · cases h
    · cases h
  | go u key =>
    simp only [St.step] at h
    split at h
    · exact .inl ⟨(varStep_mem h).1, fun _ => rfl⟩
    · cases h

theorem step_inv {s s' : St V} {e : Ev V} (h : s.step e = some s') (hi : TreeAll.Inv s.tree) : TreeAll.Inv s'.tree ∧ Grows s.tree s'.tree := by
  rcases step_tree h with ⟨h1, _⟩ | ⟨t, c, f, h1, _⟩
  · rw [h1]; exact ⟨hi, .refl _⟩
  · exact ⟨(hi.step h1).1, (hi.step h1).2.1⟩

theorem run_inv {s s' : St V} {es : List (Ev V)} (h : s.run es = some s') (hi : TreeAll.Inv s.tree) : TreeAll.Inv s'.tree ∧ Grows s.tree s'.tree := by
  induction es generalizing s with
  | nil => cases h; exact ⟨hi, .refl _⟩
  | cons e es ih =>
    obtain ⟨s1, h1, h2⟩ := run_cons h
    obtain ⟨i1, g1⟩ := step_inv h1 hi
    obtain ⟨i2, g2⟩ := ih h2 i1
    exact ⟨i2, g1.trans g2⟩

theorem get?_del_ne {κ α : Type} [DecidableEq κ] {m : GoMap κ α} {k k' : κ} (h : k ≠ k') : GoMap.get? (GoMap.del m k) k' = GoMap.get? m k' := by
  induction m with
  | nil => rfl
  | cons e m ih =>
    simp only [GoMap.del, List.filter_cons, GoMap.get?] at ih ⊢
    by_cases h1 : e.1 = k
    · rw [if_neg (by simpa using h1), ih, if_neg (by rw [h1]; exact h)]
    · rw [if_pos (by simpa using h1), GoMap.get?, ih]

theorem step_data {s s' : St V} {e : Ev V} (h : s.step e = some s') {a : Nat} {k : Bytes} (ht : ¬ e.touches a k) :
    GoMap.get? (s'.data a) k = GoMap.get? (s.data a) k := by
  cases e with
  | tree u c f =>
    simp only [St.step] at h
    split at h
    · cases hs : s.tree.step u c f with
      | none => rw [hs] at h; cases h
      | some tr => rw [hs] at h; cases h; rfl
    · cases h
  | store u self k' v =>
    simp only [St.step] at h
    split at h
    · split at h
      · cases h
        simp only [Ev.touches, not_and] at ht
        by_cases ha : self = a
        · subst ha
          show GoMap.get? (upd s.data self _ self) k = _
          rw [upd_same, GoMap.get?_set_ne (ht rfl)]
        · show GoMap.get? (upd s.data self _ a) k = _
          rw [upd_other _ _ (Ne.symm ha)]
      · cases h
    · cases h
  | delete u self k' =>
    simp only [St.step] at h
    split at h
    · split at h
      · cases h
        simp only [Ev.touches, not_and] at ht
        by_cases ha : self = a
        · subst ha
          show GoMap.get? (upd s.data self _ self) k = _
          rw [upd_same, get?_del_ne (ht rfl)]
        · show GoMap.get? (upd s.data self _ a) k = _
          rw [upd_other _ _ (Ne.symm ha)]
      · cases h
    · cases h
  | begin u self =>
    simp only [St.step] at h
    split at h
    · split at h
      · cases h; rfl
      · cases h
    · cases h
  | go u key =>
    simp only [St.step] at h
    split at h
    · rw [(varStep_mem h).2]
    · cases h

/-- The log of `Variables` only grows. -/
theorem varStep_log {s s' : St V} {t : Nat} {key : Option Bytes} {fs : List (Frame V)} (h : s.varStep t key fs = some s') :
    ∃ pre, s'.log t = pre ++ s.log t := by
  unfold St.varStep at h
  split at h
  · cases h
  · rename_i f fs
    split at h
    · split at h
      · split at h <;> (cases h; exact ⟨[], rfl⟩)
      · cases h; exact ⟨[], rfl⟩
    · split at h
      · split at h
        · cases h
        · cases h; exact ⟨[], rfl⟩
      · split at h
        · cases h
          cases fs with
          | nil => exact ⟨[_], upd_same ..⟩
          | cons p fs => exact ⟨[], rfl⟩
        · cases h

/-! ## Following one call -/

/-- The call of goroutine `t` has returned something that satisfies `R`. -/
def Finished (t a : Nat) (log0 : List (Nat × List (Bytes × CV V))) (R : List (Bytes × CV V) → Prop) (s : St V) : Prop :=
  ∃ later r, s.log t = later ++ (a, r) :: log0 ∧ R r

theorem Finished.next {t a : Nat} {log0 : List (Nat × List (Bytes × CV V))} {R : List (Bytes × CV V) → Prop} {s s' : St V} {e : Ev V}
    (h : Finished t a log0 R s) (hs : s.step e = some s') : Finished t a log0 R s' := by
  obtain ⟨later, r, h1, h2⟩ := h
  cases step_move hs t with
  | same _ hl => exact ⟨later, r, hl.trans h1, h2⟩
  | begin self _ _ e => subst e; exact ⟨later, r, h1, h2⟩
  | go key fs _ _ hv =>
    obtain ⟨pre, hp⟩ := varStep_log hv
    exact ⟨pre ++ later, r, by rw [hp, h1, List.append_assoc], h2⟩

theorem Finished.result {t a : Nat} {log0 : List (Nat × List (Bytes × CV V))} {R : List (Bytes × CV V) → Prop} {s : St V}
    (h : Finished t a log0 R s) {later : List (Nat × List (Bytes × CV V))} {r : List (Bytes × CV V)} (hr : s.log t = later ++ (a, r) :: log0) : R r := by
  obtain ⟨later', r', h1, h2⟩ := h
  rw [hr] at h1
  have h3 : later ++ [(a, r)] ++ log0 = later' ++ [(a, r')] ++ log0 := by simpa using h1
  have := List.append_cancel_right h3
  have := (List.append_inj_right' this rfl)
  cases this
  exact h2


/-- What the events do to the tree is an execution of the tree. -/
theorem run_tree {s s' : St V} {es : List (Ev V)} (h : s.run es = some s') : s.tree.run (treeSteps es) = some s'.tree := by
  induction es generalizing s with
  | nil => cases h; rfl
  | cons e es ih =>
    obtain ⟨s1, h1, h2⟩ := run_cons h
    rcases step_tree h1 with ⟨e1, e2⟩ | ⟨t, c, f, e1, e2⟩
    · rw [e2, ← e1]; exact ih h2
    · rw [e2]
      simp only [TreeAll.St.run, e1]
      exact ih h2

theorem mem_treeSteps {es : List (Ev V)} {e : Nat × Call × Bool} (h : e ∈ treeSteps es) : .tree e.1 e.2.1 e.2.2 ∈ es := by
  induction es with
  | nil => cases h
  | cons x es ih =>
    cases x with
    | tree t c f =>
      rcases List.mem_cons.1 h with rfl | h
      · exact List.mem_cons_self ..
      · exact List.mem_cons_of_mem _ (ih h)
    | _ => exact List.mem_cons_of_mem _ (ih h)

/-! ## In between -/

/-- State `s` is in between: the events from `s0` to `s2` are `full`, those from `s` on are `rest`. -/
structure Mid (s0 s2 : St V) (full : List (Ev V)) (s : St V) (rest : List (Ev V)) : Prop where
  split : ∃ pre, full = pre ++ rest ∧ s0.run pre = some s
  inv0 : TreeAll.Inv s0.tree
  inv : TreeAll.Inv s.tree
  before : Grows s0.tree s.tree
  after : Grows s.tree s2.tree
  stays : ∀ a k v, Stays s0 full a k v → GoMap.get? (s.data a) k = v
  keeps : ∀ a M L, a < s0.tree.next → ¬ Shifting s0.tree a → (s0.tree.node a).downs = M ++ L →
    (∀ e ∈ M, ¬ Deletes s0.tree (treeSteps full) a (s0.tree.node e).name) →
    (∃ L2, Content s.tree a (M ++ L2)) ∧ ∀ e ∈ M, ¬ Deletes s.tree (treeSteps rest) a (s.tree.node e).name

theorem Mid.start {s0 s2 : St V} {full : List (Ev V)} (hi : TreeAll.Inv s0.tree) (h : s0.run full = some s2) : Mid s0 s2 full s0 full where
  split := ⟨[], rfl, rfl⟩
  inv0 := hi
  inv := hi
  before := .refl _
  after := (run_inv h hi).2
  stays _ _ _ h := h.1
  keeps _ _ L _ h1 h2 h3 := ⟨⟨L, .inl ⟨fun t c j h => h1 ⟨t, c, j, h⟩, h2⟩⟩, h3⟩

theorem Mid.step {s0 s2 s s' : St V} {full rest : List (Ev V)} {e : Ev V} (m : Mid s0 s2 full s (e :: rest)) (h : s.step e = some s')
    (hr : s'.run rest = some s2) : Mid s0 s2 full s' rest := by
  obtain ⟨pre, h1, h2⟩ := m.split
  obtain ⟨i1, g1⟩ := step_inv h m.inv
  refine ⟨⟨pre ++ [e], by rw [h1, List.append_assoc]; rfl, run_snoc h2 h⟩, m.inv0, i1, m.before.trans g1, (run_inv hr i1).2, fun a k v hs => ?_, ?_⟩
  · rw [step_data h (hs.2 e (by rw [h1]; simp))]; exact m.stays a k v hs
  · intro a M L ha q1 q2 q3
    obtain ⟨⟨L2, k1⟩, k2⟩ := m.keeps a M L ha q1 q2 q3
    rcases step_tree h with ⟨e1, e2⟩ | ⟨t, c, f, e1, e2⟩
    · rw [e1, ← e2 rest]; exact ⟨⟨L2, k1⟩, k2⟩
    · rw [e2 rest] at k2
      obtain ⟨w1, _⟩ := m.inv.spared e1 (Nat.lt_of_lt_of_le ha m.before.next) k1 (TreeAll.spared_of k2)
      refine ⟨w1, fun x hx hdel => ?_⟩
      rw [TreeAll.kept_names m.inv g1 k1 x (List.mem_append_left _ hx)] at hdel
      exact k2 x hx (hdel.back m.inv e1)

theorem Mid.was {s0 s2 s : St V} {full rest : List (Ev V)} (m : Mid s0 s2 full s rest) {x : Nat} {k : Bytes} {v : V}
    (h : GoMap.get? (s.data x) k = some v) : Was s0 full x k v := by
  obtain ⟨pre, h1, h2⟩ := m.split
  exact ⟨pre, rest, s, h1, h2, h⟩

theorem Mid.child {s0 s2 s : St V} {full rest : List (Ev V)} (m : Mid s0 s2 full s rest) {a d : Nat} (h : d ∈ (s.tree.node a).downs ∨ Adding s.tree a d) :
    WasChild s0 full a d := by
  obtain ⟨pre, h1, h2⟩ := m.split
  exact ⟨pre, rest, s, h1, h2, h⟩

/-- Frames of one call, innermost first: each is the call for a child of the next, outermost that for `a`; only the innermost is in `Range`. -/
def Chain (s0 : St V) (full : List (Ev V)) (a : Nat) : List (Frame V) → Prop
  | [] => False
  | [f] => f.self = a
  | f :: p :: fs => WasChild s0 full p.self f.self ∧ p.range = none ∧ Chain s0 full a (p :: fs)

/-- Only the receivers and the outer calls matter. -/
theorem Chain.head {s0 : St V} {full : List (Ev V)} {a : Nat} {f f' : Frame V} {fs : List (Frame V)} (h : Chain s0 full a (f :: fs)) (hf : f'.self = f.self) :
    Chain s0 full a (f' :: fs) := by
  cases fs with
  | nil => exact hf.trans h
  | cons p fs => exact ⟨hf ▸ h.1, h.2⟩

/-! ## Nothing else is shown -/

/-- All that a map shows was stored there at some time. -/
def HashOk (s0 s2 : St V) (full : List (Ev V)) (a : Nat) (hash : List (Bytes × CV V)) : Prop :=
  ∀ names k v, evalPath hash names k = some (.item v) → ∃ x, Reach s0 s2 full a names x ∧ Was s0 full x k v

theorem HashOk.nil {s0 s2 : St V} {full : List (Ev V)} {a : Nat} : HashOk s0 s2 full a [] := fun names k v hv => by
  cases names <;> simp [evalPath, GoMap.get?] at hv

theorem HashOk.set_obj {s0 s2 : St V} {full : List (Ev V)} {a d : Nat} {n : Bytes} {hash vs : List (Bytes × CV V)} (h : HashOk s0 s2 full a hash)
    (hd : WasChild s0 full a d) (hn : n = (s2.tree.node d).name) (hv : HashOk s0 s2 full d vs) : HashOk s0 s2 full a (GoMap.set hash n (.obj vs)) := by
  subst hn
  intro names k v hk
  cases names with
  | nil =>
    simp only [evalPath, GoMap.get?_set] at hk
    split at hk
    · cases hk
    · exact h [] k v hk
  | cons n ns =>
    simp only [evalPath, GoMap.get?_set] at hk
    by_cases he : (s2.tree.node d).name = n
    · simp only [he, if_true] at hk
      obtain ⟨x, h1, h2⟩ := hv ns k v hk
      exact ⟨x, he ▸ .down hd h1, h2⟩
    · simp only [he, if_false] at hk
      exact h (n :: ns) k v hk

theorem HashOk.set_item {s0 s2 : St V} {full : List (Ev V)} {a : Nat} {hash : List (Bytes × CV V)} (h : HashOk s0 s2 full a hash) {k : Bytes} {v : V}
    (hw : Was s0 full a k v) : HashOk s0 s2 full a (GoMap.set hash k (.item v)) := by
  intro names k' v' hk
  cases names with
  | nil =>
    simp only [evalPath, GoMap.get?_set] at hk
    split at hk
    · rename_i e
      cases hk
      cases e
      exact ⟨a, .here a, hw⟩
    · exact h [] k' v' hk
  | cons n ns =>
    simp only [evalPath, GoMap.get?_set] at hk
    by_cases he : k = n
    · simp only [he, if_true] at hk
      cases hk
    · simp only [he, if_false] at hk
      exact h (n :: ns) k' v' hk

theorem HashOk.result {s0 s2 s : St V} {full : List (Ev V)} {f : Frame V} (h : HashOk s0 s2 full f.self f.hash)
    (hn : (s2.tree.node f.self).name = (s.tree.node f.self).name) : HashOk s0 s2 full f.self (s.result f) := by
  unfold St.result
  split
  · rename_i hvar
    intro names k v hk
    cases names with
    | nil =>
      simp only [evalPath, GoMap.get?_set] at hk
      split at hk
      · cases hk
      · exact h [] k v hk
    | cons n ns =>
      simp only [evalPath, GoMap.get?_set] at hk
      by_cases he : VAR = n
      · simp only [he, if_true] at hk
        obtain ⟨x, h1, h2⟩ := h ns k v hk
        exact ⟨x, he ▸ .self (hn.trans hvar) h1, h2⟩
      · simp only [he, if_false] at hk
        exact h (n :: ns) k v hk
  · exact h

/-- A frame. -/
structure FrameOk (s0 s2 : St V) (full : List (Ev V)) (s : St V) (f : Frame V) : Prop where
  head : HeadOk s.tree f.self f.arr f.len
  cells : ∀ j d, j < f.len → ((s.tree.node f.self).cells f.arr)[j]? = some d → WasChild s0 full f.self d
  hash : HashOk s0 s2 full f.self f.hash

theorem FrameOk.step {s0 s2 s s' : St V} {full rest : List (Ev V)} {e : Ev V} (m : Mid s0 s2 full s (e :: rest)) (m' : Mid s0 s2 full s' rest)
    (h : s.step e = some s') {f : Frame V} (hf : FrameOk s0 s2 full s f) : FrameOk s0 s2 full s' f := by
  refine ⟨hf.head.grows (step_inv h m.inv).2, fun j d hj hd => ?_, hf.hash⟩
  rcases step_tree h with ⟨e1, _⟩ | ⟨t, c, fr, e1, _⟩
  · rw [e1] at hd
    exact hf.cells j d hj hd
  · rcases tree_cells m.inv e1 hf.head.1 hd with h1 | h1 | h1
    · exact hf.cells j d hj h1
    · exact m.child (.inl h1)
    · exact m'.child (.inr h1)

theorem FrameOk.enter {s0 s2 s : St V} {full rest : List (Ev V)} (m : Mid s0 s2 full s rest) {d : Nat} (hd : d < s.tree.next) :
    FrameOk s0 s2 full s (s.enter d) := by
  refine ⟨⟨hd, m.inv.arr d, m.inv.len d⟩, fun j c hj hc => m.child (.inl ?_), .nil⟩
  have hj : j < (s.tree.node d).len := hj
  have hc : ((s.tree.node d).cells (s.tree.node d).arr)[j]? = some c := hc
  refine List.mem_of_getElem? (i := j) ?_
  show (s.tree.node d).downs[j]? = some c
  unfold TreeAll.Node.downs
  rw [List.getElem?_take, if_pos hj, hc]

/-- Goroutine `t` is in its call, and all is well; or it has returned. -/
def Showing (s0 s2 : St V) (full : List (Ev V)) (t a : Nat) (log0 : List (Nat × List (Bytes × CV V))) (s : St V) : Prop :=
  (∃ fs, s.vars t = .inside fs ∧ s.log t = log0 ∧ Chain s0 full a fs ∧ ∀ f ∈ fs, FrameOk s0 s2 full s f) ∨
  Finished t a log0 (HashOk s0 s2 full a) s

/-- A frame in another state with the same tree. -/
theorem FrameOk.same {s0 s2 s s' : St V} {full : List (Ev V)} (h : s'.tree = s.tree) {f : Frame V} (hf : FrameOk s0 s2 full s f) : FrameOk s0 s2 full s' f :=
  ⟨by rw [h]; exact hf.head, by rw [h]; exact hf.cells, hf.hash⟩

/-- The cell that is read. -/
theorem FrameOk.read {s0 s2 s : St V} {full : List (Ev V)} {f : Frame V} (hf : FrameOk s0 s2 full s f) (h : f.idx < f.len) :
    ∃ d, ((s.tree.node f.self).cells f.arr)[f.idx]? = some d := ⟨_, List.getElem?_eq_getElem (Nat.lt_of_lt_of_le h hf.head.2.2)⟩

theorem showing_var {s0 s2 s s' : St V} {full rest : List (Ev V)} {t a : Nat} {log0 : List (Nat × List (Bytes × CV V))} {key : Option Bytes} {fs : List (Frame V)}
    (m : Mid s0 s2 full s rest) (hlog : s.log t = log0) (hc : Chain s0 full a fs)
    (hf : ∀ f ∈ fs, FrameOk s0 s2 full s f) (h : s.varStep t key fs = some s') : Showing s0 s2 full t a log0 s' := by
  have htree := (varStep_mem h).1
  suffices hs : (∃ fs, s'.vars t = .inside fs ∧ s'.log t = log0 ∧ Chain s0 full a fs ∧ ∀ f ∈ fs, FrameOk s0 s2 full s f) ∨
      Finished t a log0 (HashOk s0 s2 full a) s' by
    rcases hs with ⟨fs, h1, h2, h3, h4⟩ | hs
    · exact .inl ⟨fs, h1, h2, h3, fun f hf => (h4 f hf).same htree⟩
    · exact .inr hs
  unfold St.varStep at h
  split at h
  · cases h
  · rename_i f fs
    have hf0 := hf f (List.mem_cons_self ..)
    have hfs : ∀ g ∈ fs, FrameOk s0 s2 full s g := fun g hg => hf g (List.mem_cons_of_mem _ hg)
    have hname : (s2.tree.node f.self).name = (s.tree.node f.self).name := m.after.name _ hf0.head.1
    split at h
    · rename_i hrange
      split at h
      · rename_i hidx
        obtain ⟨d, hd⟩ := hf0.read hidx
        rw [hd] at h
        cases h
        refine .inl ⟨_, upd_same .., hlog, ⟨hf0.cells _ d hidx hd, hrange, hc.head rfl⟩, ?_⟩
        intro g hg
        rcases List.mem_cons.1 hg with rfl | hg
        · exact .enter m (m.inv.kid _ _ _ (List.mem_of_getElem? hd)).2.1
        rcases List.mem_cons.1 hg with rfl | hg
        · exact ⟨hf0.head, hf0.cells, hf0.hash⟩
        · exact hfs g hg
      · cases h
        refine .inl ⟨_, upd_same .., hlog, hc.head rfl, ?_⟩
        intro g hg
        rcases List.mem_cons.1 hg with rfl | hg
        · exact ⟨hf0.head, hf0.cells, hf0.hash⟩
        · exact hfs g hg
    · split at h
      · rename_i k
        split at h
        · cases h
        · cases h
          refine .inl ⟨_, upd_same .., hlog, hc.head rfl, ?_⟩
          intro g hg
          rcases List.mem_cons.1 hg with rfl | hg
          · refine ⟨hf0.head, hf0.cells, ?_⟩
            show HashOk s0 s2 full f.self (St.visit s f _ _ k).hash
            unfold St.visit
            dsimp only
            split
            · rename_i v hv
              split
              · exact hf0.hash.set_item (m.was hv)
              · exact hf0.hash
            · exact hf0.hash
          · exact hfs g hg
      · split at h
        · cases h
          cases fs with
          | nil =>
            cases hc
            exact .inr ⟨[], s.result f, by rw [← hlog]; exact upd_same .., HashOk.result (s := s) hf0.hash hname⟩
          | cons p fs =>
            refine .inl ⟨_, upd_same .., hlog, Chain.head hc.2.2 rfl, ?_⟩
            intro g hg
            have hp := hfs p (List.mem_cons_self ..)
            rcases List.mem_cons.1 hg with rfl | hg
            · exact ⟨hp.head, hp.cells, HashOk.set_obj hp.hash hc.1 hname.symm (HashOk.result hf0.hash hname)⟩
            · exact hfs g (List.mem_cons_of_mem _ hg)
        · cases h

theorem showing_step {s0 s2 s s' : St V} {full rest : List (Ev V)} {t a : Nat} {log0 : List (Nat × List (Bytes × CV V))} {e : Ev V}
    (m : Mid s0 s2 full s (e :: rest)) (m' : Mid s0 s2 full s' rest) (h : Showing s0 s2 full t a log0 s) (hs : s.step e = some s') :
    Showing s0 s2 full t a log0 s' := by
  rcases h with ⟨fs, hv, hlog, hc, hf⟩ | hfin
  · cases step_move hs t with
    | same h1 h2 => exact .inl ⟨fs, h1.trans hv, h2.trans hlog, hc, fun f hx => (hf f hx).step m m' hs⟩
    | begin self _ hn => rw [hn] at hv; cases hv
    | go key fs' _ hv' hstep =>
      rw [hv] at hv'
      cases hv'
      exact showing_var m hlog hc hf hstep
  · exact .inr (hfin.next hs)

theorem showing_run {s0 s2 s : St V} {full rest : List (Ev V)} {t a : Nat} {log0 : List (Nat × List (Bytes × CV V))}
    (m : Mid s0 s2 full s rest) (h : Showing s0 s2 full t a log0 s) (hr : s.run rest = some s2) : Showing s0 s2 full t a log0 s2 := by
  induction rest generalizing s with
  | nil => cases hr; exact h
  | cons e es ih =>
    obtain ⟨s1, h1, h2⟩ := run_cons hr
    have m1 := m.step h1 h2
    exact ih m1 (showing_step m m1 h h1) h2

/-- The state after the beginning. -/
theorem begins {s s1 : St V} {t a : Nat} (h : s.step (.begin t a) = some s1) : s1 = s.goto t [s.enter a] ∧ a < s.tree.next := by
  simp only [St.step] at h
  split at h
  · split at h
    · rename_i hlt; cases h; exact ⟨rfl, hlt⟩
    · cases h
  · cases h

theorem showing_begin {s0 s2 s1 : St V} {t a : Nat} {es : List (Ev V)} (m : Mid s0 s2 (.begin t a :: es) s0 (.begin t a :: es)) (h : s0.step (.begin t a) = some s1) :
    Showing s0 s2 (.begin t a :: es) t a (s0.log t) s1 := by
  obtain ⟨rfl, hlt⟩ := begins h
  refine .inl ⟨_, upd_same .., rfl, rfl, fun f hf => ?_⟩
  rcases List.mem_cons.1 hf with rfl | hf
  · exact FrameOk.same (s := s0) (s' := s0.goto t [s0.enter a]) rfl (FrameOk.enter m hlt)
  · cases hf

/-- What `Variables` shows was there. -/
theorem returns_sound {s s' : St V} (hi : TreeAll.Inv s.tree) {t a : Nat} {es : List (Ev V)} {r : List (Bytes × CV V)} (h : Returns s t a es s' r)
    {names : List Bytes} {k : Bytes} {v : V} (hk : evalPath r names k = some (.item v)) :
    ∃ x, Reach s s' (.begin t a :: es) a names x ∧ Was s (.begin t a :: es) x k v := by
  obtain ⟨hr, later, hlog⟩ := h
  obtain ⟨s1, h1, h2⟩ := run_cons hr
  have m := Mid.start hi hr
  rcases showing_run (m.step h1 h2) (showing_begin m h1) h2 with ⟨fs, _, hl, _, _⟩ | hfin
  · rw [hl] at hlog
    have := congrArg List.length hlog
    simp at this
    omega
  · exact hfin.result hlog names k v hk

/-! ## All that stays is shown -/

/-- The child `d` of the receiver is still to be read by the loop. -/
def Ahead (s0 : St V) (full : List (Ev V)) (s : St V) (f : Frame V) (d : Nat) : Prop :=
  ∃ before L, f.self < s0.tree.next ∧ ¬ Shifting s0.tree f.self ∧ (s0.tree.node f.self).downs = (before ++ [d]) ++ L ∧
    (∀ e ∈ before ++ [d], ¬ Deletes s0.tree (treeSteps full) f.self (s0.tree.node e).name) ∧
    ((s.tree.node f.self).cells f.arr).take (before ++ [d]).length = before ++ [d] ∧ before.length < f.len ∧ f.idx ≤ before.length

theorem Ahead.step {s0 s2 s s' : St V} {full rest : List (Ev V)} {e : Ev V} (m : Mid s0 s2 full s (e :: rest)) (h : s.step e = some s') {f : Frame V} {d : Nat}
    (ha : Ahead s0 full s f d) : Ahead s0 full s' f d := by
  obtain ⟨before, L, h1, h2, h3, h4, h5, h6⟩ := ha
  refine ⟨before, L, h1, h2, h3, h4, ?_, h6⟩
  rcases step_tree h with ⟨e1, _⟩ | ⟨t, c, fr, e1, e2⟩
  · rw [e1]; exact h5
  · obtain ⟨⟨L2, k1⟩, k2⟩ := m.keeps _ _ _ h1 h2 h3 h4
    exact (m.inv.spared e1 (Nat.lt_of_lt_of_le h1 m.before.next) k1 (TreeAll.spared_of k2)).2 _ h5

theorem Ahead.enter {s0 s2 s : St V} {full rest : List (Ev V)} (m : Mid s0 s2 full s rest) {a d : Nat} {before L : List Nat} (h1 : a < s0.tree.next)
    (h2 : ¬ Shifting s0.tree a) (h3 : (s0.tree.node a).downs = before ++ d :: L)
    (h4 : ∀ e ∈ before ++ [d], ¬ Deletes s0.tree (treeSteps full) a (s0.tree.node e).name) : Ahead s0 full s (s.enter a) d := by
  have h3 : (s0.tree.node a).downs = (before ++ [d]) ++ L := by rw [h3]; simp
  obtain ⟨⟨L2, k1⟩, k2⟩ := m.keeps _ _ _ h1 h2 h3 h4
  obtain ⟨w1, w2⟩ := m.inv.spared_head k1 (TreeAll.spared_of k2)
  refine ⟨before, L, h1, h2, h3, h4, w1, ?_, Nat.zero_le _⟩
  rw [List.length_append, List.length_singleton] at w2
  exact w2

theorem Ahead.same {s0 s s' : St V} {full : List (Ev V)} (h : s'.tree = s.tree) {f f' : Frame V} {d : Nat} (ha : Ahead s0 full s f d) (hf : f'.self = f.self)
    (h1 : f'.arr = f.arr) (h2 : f'.len = f.len) (h3 : f'.idx = f.idx) : Ahead s0 full s' f' d := by
  obtain ⟨before, L, q1, q2, q3, q4, q5, q6, q7⟩ := ha
  refine ⟨before, L, ?_, ?_, ?_, ?_, ?_, ?_, ?_⟩
  all_goals simp only [h, hf, h1, h2, h3]; assumption

/-- The loop reads this child or another one before it. -/
theorem Ahead.read {s0 s : St V} {full : List (Ev V)} {f : Frame V} {d c : Nat} (ha : Ahead s0 full s f d)
    (hc : ((s.tree.node f.self).cells f.arr)[f.idx]? = some c) : c = d ∨ Ahead s0 full s { f with idx := f.idx + 1 } d := by
  obtain ⟨before, L, q1, q2, q3, q4, q5, q6, q7⟩ := ha
  by_cases hi : f.idx = before.length
  · left
    have : (((s.tree.node f.self).cells f.arr).take (before ++ [d]).length)[f.idx]? = (before ++ [d])[f.idx]? := by rw [q5]
    rw [List.getElem?_take, if_pos (by rw [List.length_append, List.length_singleton]; omega), hc, hi, List.getElem?_append_right (Nat.le_refl _),
      Nat.sub_self] at this
    cases this
    rfl
  · exact .inr ⟨before, L, q1, q2, q3, q4, q5, q6, by show f.idx + 1 ≤ _; omega⟩

theorem Ahead.lt {s0 s : St V} {full : List (Ev V)} {f : Frame V} {d : Nat} (ha : Ahead s0 full s f d) : f.idx < f.len := by
  obtain ⟨before, L, q1, q2, q3, q4, q5, q6, q7⟩ := ha
  omega

/-- What the frame `f` has of the item: `names` leads from its receiver to `x`. -/
def Prog (s0 s2 : St V) (full : List (Ev V)) (x : Nat) (k : Bytes) (v : V) (s : St V) (f : Frame V) : List Bytes → Prop
  | [] => ∀ todo seen, f.range = some (todo, seen) → k ∈ todo ∨ GoMap.get? f.hash k = some (.item v)
  | n :: ns => evalPath f.hash (n :: ns) k = some (.item v) ∨
      (f.range = none ∧ ∃ d, Ahead s0 full s f d ∧ d < s0.tree.next ∧ (s0.tree.node d).name = n ∧ Clear s0 s2 full d ns x)

/-- The same for all frames, `above` is the receiver of the call inside of the first. -/
def Comp (s0 s2 : St V) (full : List (Ev V)) (x : Nat) (k : Bytes) (v : V) (s : St V) : Option Nat → List (Frame V) → Prop
  | _, [] => True
  | above, f :: fs =>
    (∀ names, Clear s0 s2 full f.self names x → Prog s0 s2 full x k v s f names ∨
      ∃ g ns, above = some g ∧ g < s0.tree.next ∧ f.range = none ∧ names = (s0.tree.node g).name :: ns ∧ Clear s0 s2 full g ns x) ∧
    Comp s0 s2 full x k v s (some f.self) fs

theorem Comp.mono {s0 s2 s s' : St V} {full : List (Ev V)} {x : Nat} {k : Bytes} {v : V}
    (h : ∀ f d, Ahead s0 full s f d → Ahead s0 full s' f d) : ∀ {fs : List (Frame V)} {above : Option Nat}, Comp s0 s2 full x k v s above fs →
      Comp s0 s2 full x k v s' above fs
  | [], _, _ => trivial
  | f :: fs, _, hc => by
    refine ⟨fun names hn => ?_, Comp.mono h hc.2⟩
    rcases hc.1 names hn with h1 | h1
    · left
      cases names with
      | nil => exact h1
      | cons n ns =>
        rcases h1 with h1 | ⟨h1, d, h2, h3⟩
        · exact .inl h1
        · exact .inr ⟨h1, d, h f d h2, h3⟩
    · exact .inr h1

theorem Clear.uncons {s0 s2 : St V} {es : List (Ev V)} {a x : Nat} {n : Bytes} {ns : List Bytes} (h : Clear s0 s2 es a (n :: ns) x) :
    ∃ d before after, n = (s0.tree.node d).name ∧ (s0.tree.node a).downs = before ++ d :: after ∧
      (∀ e ∈ before, ¬ Deletes s0.tree (treeSteps es) a (s0.tree.node e).name) ∧ Plain s0 s2 es a d ∧ Clear s0 s2 es d ns x := by
  cases h with
  | down h1 h2 h3 h4 => exact ⟨_, _, _, rfl, h1, h2, h3, h4⟩

theorem Clear.unnil {s0 s2 : St V} {es : List (Ev V)} {a x : Nat} (h : Clear s0 s2 es a [] x) : a = x := by
  cases h; rfl

theorem evalPath_set_ne {hash : List (Bytes × CV V)} {n m : Bytes} {ns : List Bytes} {k : Bytes} {w : CV V} (h : m ≠ n) :
    evalPath (GoMap.set hash m w) (n :: ns) k = evalPath hash (n :: ns) k := by
  simp only [evalPath, GoMap.get?_set_ne h]

/-- The frame of a call that has just begun. -/
theorem prog_enter {s0 s2 s : St V} {full rest : List (Ev V)} {x : Nat} {k : Bytes} {v : V} (m : Mid s0 s2 full s rest) {d : Nat} {names : List Bytes}
    (h : Clear s0 s2 full d names x) : Prog s0 s2 full x k v s (s.enter d) names := by
  cases names with
  | nil => intro todo seen h; cases h
  | cons n ns =>
    obtain ⟨c, before, after, rfl, h1, h2, h3, h4⟩ := h.uncons
    have hk := tree_child m.inv0 (p := d) (c := c) (by rw [h1]; simp)
    refine .inr ⟨rfl, c, .enter m (Nat.lt_trans hk.1 hk.2.1) h3.still h1 ?_, hk.2.1, rfl, h4⟩
    intro e he
    rcases List.mem_append.1 he with he | he
    · exact h2 e he
    · cases List.mem_singleton.1 he; exact h3.kept

/-- A finished call has the item. -/
theorem prog_result {s0 s2 s : St V} {full rest : List (Ev V)} {x : Nat} {k : Bytes} {v : V} (m : Mid s0 s2 full s rest) (hk : k ≠ VAR) {f : Frame V} {seen : List Bytes}
    (hr : f.range = some ([], seen)) {names : List Bytes} (hc : Clear s0 s2 full f.self names x) (h : Prog s0 s2 full x k v s f names) :
    evalPath (s.result f) names k = some (.item v) := by
  cases names with
  | nil =>
    rcases h [] seen hr with h | h
    · cases h
    · simp only [St.result, evalPath]
      split
      · rw [GoMap.get?_set_ne (Ne.symm hk), h]
      · exact h
  | cons n ns =>
    rcases h with h | ⟨h, _⟩
    · obtain ⟨c, before, after, rfl, h1, _, h4, _⟩ := hc.uncons
      simp only [St.result]
      split
      · rename_i hn
        have hlow := tree_child m.inv0 (p := f.self) (c := c) (by rw [h1]; simp)
        rw [m.before.name _ (Nat.lt_trans hlow.1 hlow.2.1)] at hn
        rw [evalPath_set_ne (fun e => h4.noVar ⟨hn, e.symm⟩), h]
      · exact h
    · rw [hr] at h; cases h

/-- The result of a call on `a` shows the item; if `a` is called `var`, also under this name. -/
def Shows (s0 s2 : St V) (full : List (Ev V)) (x : Nat) (k : Bytes) (v : V) (a : Nat) (r : List (Bytes × CV V)) : Prop :=
  ∀ names, Clear s0 s2 full a names x → evalPath r names k = some (.item v) ∧
    (a < s0.tree.next → (s0.tree.node a).name = VAR → evalPath r (VAR :: names) k = some (.item v))

theorem prog_var {s0 s2 s : St V} {full rest : List (Ev V)} {x : Nat} {k : Bytes} {v : V} (m : Mid s0 s2 full s rest) {f : Frame V} {seen : List Bytes}
    (hr : f.range = some ([], seen)) {names : List Bytes} (h : Prog s0 s2 full x k v s f names)
    (ha : f.self < s0.tree.next) (hn : (s0.tree.node f.self).name = VAR) : evalPath (s.result f) (VAR :: names) k = some (.item v) := by
  have hn' : (s.tree.node f.self).name = VAR := (m.before.name _ ha).trans hn
  simp only [St.result, hn', if_true, evalPath, GoMap.get?_set_self]
  cases names with
  | nil =>
    rcases h [] seen hr with h | h
    · cases h
    · exact h
  | cons n ns =>
    rcases h with h | ⟨h, _⟩
    · exact h
    · rw [hr] at h; cases h

theorem comp_var {s0 s2 s s' : St V} {full rest : List (Ev V)} {x : Nat} {k : Bytes} {v : V} {t a : Nat} {log0 : List (Nat × List (Bytes × CV V))}
    {key : Option Bytes} {fs : List (Frame V)} (m : Mid s0 s2 full s rest) (hk : k ≠ VAR) (hx : Stays s0 full x k (some v)) (hlog : s.log t = log0)
    (hch : Chain s0 full a fs) (hok : ∀ f ∈ fs, FrameOk s0 s2 full s f) (hc : Comp s0 s2 full x k v s none fs) (h : s.varStep t key fs = some s') :
    (∃ fs', s'.vars t = .inside fs' ∧ s'.log t = log0 ∧ Comp s0 s2 full x k v s' none fs') ∨
    Finished t a log0 (Shows s0 s2 full x k v a) s' := by
  have htree := (varStep_mem h).1
  suffices hs : (∃ fs', s'.vars t = .inside fs' ∧ s'.log t = log0 ∧ Comp s0 s2 full x k v s none fs') ∨
      Finished t a log0 (Shows s0 s2 full x k v a) s' by
    rcases hs with ⟨fs, h1, h2, h3⟩ | hs
    · exact .inl ⟨fs, h1, h2, h3.mono fun f d ha => ha.same htree rfl rfl rfl rfl⟩
    · exact .inr hs
  unfold St.varStep at h
  split at h
  · cases h
  · rename_i f fs
    obtain ⟨hf, hfs⟩ := hc
    have hf0 := hok f (List.mem_cons_self ..)
    have hf : ∀ names, Clear s0 s2 full f.self names x → Prog s0 s2 full x k v s f names := fun names hn => by
      rcases hf names hn with h | ⟨g, ns, h, _⟩
      · exact h
      · cases h
    split at h
    · rename_i hrange
      split at h
      · rename_i hidx
        obtain ⟨d, hd⟩ := hf0.read hidx
        rw [hd] at h
        cases h
        refine .inl ⟨_, upd_same .., hlog, fun names hn => .inl (prog_enter m hn), fun names hn => ?_, hfs⟩
        have := hf names hn
        cases names with
        | nil =>
          refine .inl ?_
          intro todo seen h
          rw [show f.range = some (todo, seen) from h] at hrange
          cases hrange
        | cons n ns =>
          rcases this with h | ⟨h1, c, h2, h0, h3, h4⟩
          · exact .inl (.inl h)
          · rcases h2.read hd with rfl | h2
            · exact .inr ⟨d, ns, rfl, h0, h1, by rw [h3], h4⟩
            · exact .inl (.inr ⟨h1, c, h2, h0, h3, h4⟩)
      · rename_i hidx
        cases h
        refine .inl ⟨_, upd_same .., hlog, fun names hn => .inl ?_, hfs⟩
        have := hf names hn
        cases names with
        | nil =>
          intro todo seen h
          cases h
          have := hn.unnil
          subst this
          exact .inl (GoMap.get?_isSome.1 (by rw [m.stays _ _ _ hx]; rfl))
        | cons n ns =>
          rcases this with h | ⟨_, c, h2, _⟩
          · exact .inl h
          · exact absurd h2.lt hidx
    · rename_i todo seen hrange
      split at h
      · rename_i k'
        split at h
        · cases h
        · cases h
          refine .inl ⟨_, upd_same .., hlog, fun names hn => .inl ?_, hfs⟩
          have := hf names hn
          cases names with
          | nil =>
            intro todo' seen' he
            have hx' := hn.unnil
            cases he
            by_cases hkk : k' = k
            · subst hkk
              right
              have hx' : f.self = x := hx'
              simp only [St.visit, hx', m.stays _ _ _ hx]
              rw [if_pos hk, GoMap.get?_set_self]
            · rcases this todo seen hrange with h | h
              · exact .inl (List.mem_filter.2 ⟨h, by simpa using Ne.symm hkk⟩)
              · right
                simp only [St.visit]
                split
                · split
                  · rw [GoMap.get?_set_ne hkk, h]
                  · exact h
                · exact h
          | cons n ns =>
            rcases this with h | ⟨h1, _⟩
            · left
              simp only [St.visit]
              split
              · rename_i w hw
                split
                · rw [evalPath_set_ne, h]
                  intro e
                  obtain ⟨c, _, _, rfl, _, _, h3, _⟩ := hn.uncons
                  rw [e, show GoMap.get? (s.data f.self) _ = none from m.stays _ _ _ h3.noItem] at hw
                  cases hw
                · exact h
              · exact h
            · rw [hrange] at h1; cases h1
      · split at h
        · rename_i htodo
          subst htodo
          cases h
          have hres : ∀ names, Clear s0 s2 full f.self names x → evalPath (s.result f) names k = some (.item v) := fun names hn =>
            prog_result m hk hrange hn (hf names hn)
          cases fs with
          | nil =>
            cases hch
            exact .inr ⟨[], s.result f, by rw [← hlog]; exact upd_same .., fun names hn => ⟨hres names hn, prog_var m hrange (hf names hn)⟩⟩
          | cons p fs =>
            obtain ⟨hp, hfs⟩ := hfs
            obtain ⟨hmem, hprange, _⟩ := hch
            refine .inl ⟨_, upd_same .., hlog, fun names hn => .inl ?_, hfs⟩
            have hthis := hp names hn
            cases names with
            | nil =>
              intro todo seen h
              rw [show p.range = some (todo, seen) from h] at hprange
              cases hprange
            | cons n ns =>
              obtain ⟨c, _, _, hcn, _, _, h2, h5⟩ := hn.uncons
              by_cases he : (s.tree.node f.self).name = n
              · left
                have hfc : f.self = c := h2.only f.self hmem (by rw [m.after.name _ hf0.head.1, he, hcn])
                simp only [evalPath, he, GoMap.get?_set_self]
                exact hres ns (hfc ▸ h5)
              · rcases hthis with h | ⟨g, ns', hg, hg0, _, hnames, _⟩
                · rcases h with h | h
                  · exact .inl ((evalPath_set_ne he).trans h)
                  · exact .inr h
                · cases hg
                  cases hnames
                  exact absurd (m.before.name _ hg0) he
        · cases h

/-- Goroutine `t` is in its call and does not miss the item, or it has returned it. -/
def Having (s0 s2 : St V) (full : List (Ev V)) (x : Nat) (k : Bytes) (v : V) (t a : Nat) (log0 : List (Nat × List (Bytes × CV V))) (s : St V) : Prop :=
  (∃ fs, s.vars t = .inside fs ∧ s.log t = log0 ∧ Comp s0 s2 full x k v s none fs) ∨
  Finished t a log0 (Shows s0 s2 full x k v a) s

theorem having_run {s0 s2 s : St V} {full rest : List (Ev V)} {x : Nat} {k : Bytes} {v : V} {t a : Nat} {log0 : List (Nat × List (Bytes × CV V))}
    (m : Mid s0 s2 full s rest) (hk : k ≠ VAR) (hx : Stays s0 full x k (some v)) (hsh : Showing s0 s2 full t a log0 s)
    (h : Having s0 s2 full x k v t a log0 s) (hr : s.run rest = some s2) : Having s0 s2 full x k v t a log0 s2 := by
  induction rest generalizing s with
  | nil => cases hr; exact h
  | cons e rest ih =>
    obtain ⟨s1, h1, h2⟩ := run_cons hr
    have m1 := m.step h1 h2
    refine ih m1 (showing_step m m1 hsh h1) ?_ h2
    rcases h with ⟨fs, hv, hlog, hc⟩ | hfin
    · rcases hsh with ⟨fs', hv', _, hch, hok⟩ | hfin
      · rw [hv] at hv'
        cases hv'
        cases step_move h1 t with
        | same e1 e2 => exact .inl ⟨fs, e1.trans hv, e2.trans hlog, hc.mono fun f d ha => ha.step m h1⟩
        | begin self _ hn => rw [hn] at hv; cases hv
        | go key fs' _ hv' hstep =>
          rw [hv] at hv'
          cases hv'
          exact comp_var m hk hx hlog hch hok hc hstep
      · obtain ⟨later, r, hl, _⟩ := hfin
        rw [hlog] at hl
        have := congrArg List.length hl
        simp at this
        omega
    · exact .inr (hfin.next h1)

/-- `Variables` shows what stays. -/
theorem returns_complete {s s' : St V} (hi : TreeAll.Inv s.tree) {t a : Nat} {es : List (Ev V)} {r : List (Bytes × CV V)} (h : Returns s t a es s' r)
    {x : Nat} {k : Bytes} {v : V} (hk : k ≠ VAR) (hx : Stays s (.begin t a :: es) x k (some v)) {names : List Bytes}
    (hc : Clear s s' (.begin t a :: es) a names x) : evalPath r names k = some (.item v) ∧ ((s.tree.node a).name = VAR → evalPath r (VAR :: names) k = some (.item v)) := by
  obtain ⟨hr, later, hlog⟩ := h
  obtain ⟨s1, h1, h2⟩ := run_cons hr
  have m := Mid.start hi hr
  have m1 := m.step h1 h2
  have hsh := showing_begin m h1
  obtain ⟨rfl, hlt⟩ := begins h1
  have hh : Having s s' (.begin t a :: es) x k v t a (s.log t) (s.goto t [s.enter a]) :=
    .inl ⟨_, upd_same .., rfl, fun names hn => .inl (prog_enter m1 hn), trivial⟩
  rcases having_run m1 hk hx hsh hh h2 with ⟨fs, _, hl, _⟩ | hfin
  · rw [hl] at hlog
    have := congrArg List.length hlog
    simp at this
    omega
  · obtain ⟨h1, h2⟩ := hfin.result hlog names hc
    exact ⟨h1, h2 (by assumption)⟩

/-! ## `Variables` can always go on -/

/-- No key is visited that is still to be visited, and the cells of the loop exist. -/
def Fresh (s : St V) (f : Frame V) : Prop := HeadOk s.tree f.self f.arr f.len ∧ ∀ todo seen, f.range = some (todo, seen) → ∀ k ∈ todo, k ∉ seen

def Alive (s : St V) : At V → Prop
  | .out => True
  | .inside fs => fs ≠ [] ∧ ∀ f ∈ fs, Fresh s f
  | .panic => False

theorem Fresh.grows {s s' : St V} (g : Grows s.tree s'.tree) {f : Frame V} (h : Fresh s f) : Fresh s' f := ⟨h.1.grows g, h.2⟩

theorem Alive.grows {s s' : St V} (g : Grows s.tree s'.tree) {p : At V} (h : Alive s p) : Alive s' p := by
  cases p with
  | inside fs => exact ⟨h.1, fun f hf => (h.2 f hf).grows g⟩
  | out => trivial
  | panic => exact h

theorem alive_cons {s : St V} {f : Frame V} {fs : List (Frame V)} (h : Fresh s f) (hs : ∀ f ∈ fs, Fresh s f) : Alive s (.inside (f :: fs)) := by
  refine ⟨by simp, fun g hg => ?_⟩
  rcases List.mem_cons.1 hg with rfl | hg
  · exact h
  · exact hs g hg

theorem fresh_enter {s : St V} (i : TreeAll.Inv s.tree) {d : Nat} (hd : d < s.tree.next) : Fresh s (s.enter d) :=
  ⟨⟨hd, i.arr d, i.len d⟩, fun _ _ hr => by cases hr⟩

theorem run_alive {s s' : St V} {es : List (Ev V)} (hi : TreeAll.Inv s.tree) (hr : s.run es = some s') (h : ∀ u, Alive s (s.vars u)) : ∀ u, Alive s' (s'.vars u) := by
  induction es generalizing s with
  | nil => cases hr; exact h
  | cons e es ih =>
    obtain ⟨s1, h1, h2⟩ := run_cons hr
    obtain ⟨i1, g⟩ := step_inv h1 hi
    refine ih i1 h2 fun u => ?_
    cases step_move h1 u with
    | same h3 _ => rw [h3]; exact (h u).grows g
    | begin self _ _ e hlt =>
      subst e
      rw [show (s.goto u [s.enter self]).vars u = .inside [s.enter self] from upd_same ..]
      exact Alive.grows (s := s) g (alive_cons (fresh_enter hi hlt) (fun f hf => by cases hf))
    | go key fs _ hv hstep =>
      have hall : ∀ f ∈ fs, Fresh s f := by
        have := h u
        rw [hv] at this
        exact this.2
      clear hv
      refine Alive.grows (s := s) g ?_
      unfold St.varStep at hstep
      split at hstep
      · cases hstep
      · rename_i f fs
        have hfs : ∀ g ∈ fs, Fresh s g := fun g hg => hall g (List.mem_cons_of_mem _ hg)
        have hf := hall f (List.mem_cons_self ..)
        split at hstep
        · rename_i hrange
          split at hstep
          · rename_i hidx
            have hd := List.getElem?_eq_getElem (Nat.lt_of_lt_of_le hidx hf.1.2.2)
            rw [hd] at hstep
            cases hstep
            rw [show (s.goto u _).vars u = .inside _ from upd_same ..]
            refine alive_cons (fresh_enter hi (hi.kid _ _ _ (List.mem_of_getElem? hd)).2.1) fun g hg => ?_
            rcases List.mem_cons.1 hg with rfl | hg
            · exact ⟨hf.1, hf.2⟩
            · exact hfs g hg
          · cases hstep
            rw [show (s.goto u _).vars u = .inside _ from upd_same ..]
            exact alive_cons ⟨hf.1, fun _ _ hr => by cases hr; intro k _; simp⟩ hfs
        · rename_i todo seen hrange
          split at hstep
          · split at hstep
            · cases hstep
            · cases hstep
              rw [show (s.goto u _).vars u = .inside _ from upd_same ..]
              refine alive_cons ⟨hf.1, fun _ _ hr => ?_⟩ hfs
              cases hr
              intro k hk
              obtain ⟨h4, h5⟩ := List.mem_filter.1 hk
              simp only [List.mem_cons, not_or]
              exact ⟨by simpa using h5, hf.2 todo seen hrange k h4⟩
          · split at hstep
            · cases hstep
              cases fs with
              | nil =>
                rw [show (s.leave u f []).vars u = .out from upd_same ..]
                trivial
              | cons p fs =>
                rw [show (s.leave u f (p :: fs)).vars u = .inside _ from upd_same ..]
                have hp := hfs p (List.mem_cons_self ..)
                exact alive_cons (fs := fs) ⟨hp.1, hp.2⟩ fun g hg => hfs g (List.mem_cons_of_mem _ hg)
            · cases hstep

theorem alive_step {s : St V} {u : Nat} {fs : List (Frame V)} (hv : s.vars u = .inside fs) (h : Alive s (.inside fs)) : ∃ key s2, s.step (.go u key) = some s2 := by
  obtain ⟨hne, hf⟩ := h
  cases fs with
  | nil => exact absurd rfl hne
  | cons f fs =>
    cases hrange : f.range with
    | none =>
      by_cases hidx : f.idx < f.len
      · refine ⟨none, Option.isSome_iff_exists.1 ?_⟩
        simp only [St.step, hv, St.varStep, hrange, if_pos hidx]
        split <;> rfl
      · exact ⟨none, Option.isSome_iff_exists.1 (by simp [St.step, hv, St.varStep, hrange, hidx])⟩
    | some p =>
      obtain ⟨todo, seen⟩ := p
      cases todo with
      | nil => exact ⟨none, Option.isSome_iff_exists.1 (by simp [St.step, hv, St.varStep, hrange])⟩
      | cons k todo =>
        have := (hf f (List.mem_cons_self ..)).2 _ _ hrange k (List.mem_cons_self ..)
        exact ⟨some k, Option.isSome_iff_exists.1 (by simp [St.step, hv, St.varStep, hrange, this])⟩

end Verif.TreeWatch
