import Verif.Spec.TreeVars
import Verif.Lemmas.TreeMany
import Verif.Lemmas.GoMap
/-!
# Invariants of `Variables` while other goroutines run
-/
set_option linter.unusedSimpArgs false

namespace Verif.TreeVars
open Tree (CV VAR evalPath)
open TreeMany (upd upd_same upd_other Grows)

variable {V : Type}

theorem run_cons {s s' : St V} {e : Ev V} {es : List (Ev V)} (h : s.run (e :: es) = some s') : ∃ s1, s.step e = some s1 ∧ s1.run es = some s' := by
  simp only [St.run] at h
  cases hs : s.step e with
  | none => rw [hs] at h; cases h
  | some s1 => rw [hs] at h; exact ⟨s1, rfl, h⟩

/-! ## What a step does -/

/-- What a step does to goroutine `t`. -/
inductive Move (s : St V) (t : Nat) (e : Ev V) (s' : St V) : Prop
  | same : s'.vars t = s.vars t → s'.log t = s.log t → Move s t e s'
  | begin (self : Nat) : e = .begin t self → s.vars t = none → s' = s.goto t [s.enter self] → self < s.tree.next → Move s t e s'
  | go (key : Option Bytes) (fs : List (Frame V)) : e = .go t key → s.vars t = some fs → s.varStep t key fs = some s' → Move s t e s'

theorem goto_other {s : St V} {t u : Nat} {fs : List (Frame V)} (h : t ≠ u) : (s.goto u fs).vars t = s.vars t := upd_other _ _ h

theorem varStep_other {s s' : St V} {t u : Nat} {key : Option Bytes} {fs : List (Frame V)} (h : s.varStep u key fs = some s') (ht : t ≠ u) :
    s'.vars t = s.vars t ∧ s'.log t = s.log t := by
  unfold St.varStep at h
  split at h
  · cases h
  · rename_i f fs
    split at h
    · split at h <;> (cases h; exact ⟨goto_other ht, rfl⟩)
    · split at h
      · split at h
        · cases h
        · cases h; exact ⟨goto_other ht, rfl⟩
      · split at h
        · cases h
          cases fs with
          | nil => exact ⟨upd_other _ _ ht, upd_other _ _ ht⟩
          | cons p fs => exact ⟨goto_other ht, rfl⟩
        · cases h

theorem varStep_mem {s s' : St V} {u : Nat} {key : Option Bytes} {fs : List (Frame V)} (h : s.varStep u key fs = some s') :
    s'.tree = s.tree ∧ s'.data = s.data := by
  unfold St.varStep at h
  split at h
  · cases h
  · rename_i f fs
    split at h
    · split at h <;> (cases h; exact ⟨rfl, rfl⟩)
    · split at h
      · split at h
        · cases h
        · cases h; exact ⟨rfl, rfl⟩
      · split at h
        · cases h
          cases fs <;> exact ⟨rfl, rfl⟩
        · cases h

theorem step_move {s s' : St V} {e : Ev V} (h : s.step e = some s') (t : Nat) : Move s t e s' := by
  cases e with
  | tree u c =>
    simp only [St.step] at h
    split at h
    · cases h
    · cases hs : s.tree.step u c with
      | none => rw [hs] at h; cases h
      | some tr => rw [hs] at h; cases h; exact .same rfl rfl
  | store u self k v =>
    simp only [St.step] at h
    split at h
    · split at h
      · cases h; exact .same rfl rfl
      · cases h
    · cases h
  | delete u self k =>
    simp only [St.step] at h
    split at h
    · split at h
      · cases h; exact .same rfl rfl
      · cases h
    · cases h
  | begin u self =>
    simp only [St.step] at h
    split at h
    · rename_i hv _
      split at h
      · rename_i hlt
        cases h
        by_cases ht : t = u
        · subst ht
          exact .begin self rfl hv rfl hlt
        · exact .same (goto_other ht) rfl
      · cases h
    · cases h
  | go u key =>
    simp only [St.step] at h
    split at h
    · cases h
    · rename_i fs hv
      by_cases ht : t = u
      · subst ht
        exact .go key fs rfl hv h
      · exact .same (varStep_other h ht).1 (varStep_other h ht).2

theorem step_tree {s s' : St V} {e : Ev V} (h : s.step e = some s') (hi : TreeMany.Inv s.tree) : TreeMany.Inv s'.tree ∧ Grows s.tree s'.tree := by
  cases e with
  | tree u c =>
    simp only [St.step] at h
    split at h
    · cases h
    · cases hs : s.tree.step u c with
      | none => rw [hs] at h; cases h
      | some tr => rw [hs] at h; cases h; exact TreeMany.Inv.next hi hs
  | store u self k v =>
    simp only [St.step] at h
    split at h
    · split at h
      · cases h; exact ⟨hi, .refl _⟩
      · cases h
    · cases h
  | delete u self k =>
    simp only [St.step] at h
    split at h
    · split at h
      · cases h; exact ⟨hi, .refl _⟩
      · cases h
    · cases h
  | begin u self =>
    simp only [St.step] at h
    split at h
    · split at h
      · cases h; exact ⟨hi, .refl _⟩
      · cases h
    · cases h
  | go u key =>
    simp only [St.step] at h
    split at h
    · cases h
    · rw [(varStep_mem h).1]; exact ⟨hi, .refl _⟩

theorem get?_del_ne {κ α : Type} [DecidableEq κ] {m : GoMap κ α} {k k' : κ} (h : k ≠ k') : GoMap.get? (GoMap.del m k) k' = GoMap.get? m k' := by
  induction m with
  | nil => rfl
  | cons e m ih =>
    simp only [GoMap.del, List.filter_cons, GoMap.get?] at ih ⊢
    by_cases h1 : e.1 = k
    · rw [if_neg (by simpa using h1), ih, if_neg (by rw [h1]; exact h)]
    · rw [if_pos (by simpa using h1), GoMap.get?, ih]

theorem step_data {s s' : St V} {e : Ev V} (h : s.step e = some s') {a : Nat} {k : Bytes} (ht : ¬ e.touches a k) :
    GoMap.get? (s'.data a) k = GoMap.get? (s.data a) k := by
  cases e with
  | tree u c =>
    simp only [St.step] at h
    split at h
    · cases h
    · cases hs : s.tree.step u c with
      | none => rw [hs] at h; cases h
      | some tr => rw [hs] at h; cases h; rfl
  | store u self k' v =>
    simp only [St.step] at h
    split at h
    · split at h
      · cases h
        simp only [Ev.touches, not_and] at ht
        by_cases ha : self = a
        · subst ha
          show GoMap.get? (upd s.data self _ self) k = _
          rw [upd_same, GoMap.get?_set_ne (ht rfl)]
        · show GoMap.get? (upd s.data self _ a) k = _
          rw [upd_other _ _ (Ne.symm ha)]
      · cases h
    · cases h
  | delete u self k' =>
    simp only [St.step] at h
    split at h
    · split at h
      · cases h
        simp only [Ev.touches, not_and] at ht
        by_cases ha : self = a
        · subst ha
          show GoMap.get? (upd s.data self _ self) k = _
          rw [upd_same, get?_del_ne (ht rfl)]
        · show GoMap.get? (upd s.data self _ a) k = _
          rw [upd_other _ _ (Ne.symm ha)]
      · cases h
    · cases h
  | begin u self =>
    simp only [St.step] at h
    split at h
    · split at h
      · cases h; rfl
      · cases h
    · cases h
  | go u key =>
    simp only [St.step] at h
    split at h
    · cases h
    · rw [(varStep_mem h).2]

theorem run_tree {s s' : St V} {es : List (Ev V)} (h : s.run es = some s') (hi : TreeMany.Inv s.tree) : TreeMany.Inv s'.tree ∧ Grows s.tree s'.tree := by
  induction es generalizing s with
  | nil => cases h; exact ⟨hi, .refl _⟩
  | cons e es ih =>
    obtain ⟨s1, h1, h2⟩ := run_cons h
    obtain ⟨i1, g1⟩ := step_tree h1 hi
    obtain ⟨i2, g2⟩ := ih h2 i1
    exact ⟨i2, g1.trans g2⟩

/-- The log of `Variables` only grows. -/
theorem varStep_log {s s' : St V} {t : Nat} {key : Option Bytes} {fs : List (Frame V)} (h : s.varStep t key fs = some s') :
    ∃ pre, s'.log t = pre ++ s.log t := by
  unfold St.varStep at h
  split at h
  · cases h
  · rename_i f fs
    split at h
    · split at h <;> (cases h; exact ⟨[], rfl⟩)
    · split at h
      · split at h
        · cases h
        · cases h; exact ⟨[], rfl⟩
      · split at h
        · cases h
          cases fs with
          | nil => exact ⟨[_], upd_same ..⟩
          | cons p fs => exact ⟨[], rfl⟩
        · cases h

/-! ## Following one call -/

/-- The call of goroutine `t` has returned something that satisfies `R`. -/
def Finished (t a : Nat) (log0 : List (Nat × List (Bytes × CV V))) (R : List (Bytes × CV V) → Prop) (s : St V) : Prop :=
  ∃ later r, s.log t = later ++ (a, r) :: log0 ∧ R r

theorem Finished.next {t a : Nat} {log0 : List (Nat × List (Bytes × CV V))} {R : List (Bytes × CV V) → Prop} {s s' : St V} {e : Ev V}
    (h : Finished t a log0 R s) (hs : s.step e = some s') : Finished t a log0 R s' := by
  obtain ⟨later, r, h1, h2⟩ := h
  cases step_move hs t with
  | same _ hl => exact ⟨later, r, hl.trans h1, h2⟩
  | begin self _ _ e => subst e; exact ⟨later, r, h1, h2⟩
  | go key fs _ _ hv =>
    obtain ⟨pre, hp⟩ := varStep_log hv
    exact ⟨pre ++ later, r, by rw [hp, h1, List.append_assoc], h2⟩

theorem Finished.result {t a : Nat} {log0 : List (Nat × List (Bytes × CV V))} {R : List (Bytes × CV V) → Prop} {s : St V}
    (h : Finished t a log0 R s) {later : List (Nat × List (Bytes × CV V))} {r : List (Bytes × CV V)} (hr : s.log t = later ++ (a, r) :: log0) : R r := by
  obtain ⟨later', r', h1, h2⟩ := h
  rw [hr] at h1
  have h3 : later ++ [(a, r)] ++ log0 = later' ++ [(a, r')] ++ log0 := by simpa using h1
  have := List.append_cancel_right h3
  have := (List.append_inj_right' this rfl)
  cases this
  exact h2

/-- Frames of one call, innermost first: each is the call for a child of the next, outermost that for `a`; only the innermost
is in `Range`. -/
def Chain (s : TreeMany.St) (a : Nat) : List (Frame V) → Prop
  | [] => False
  | [f] => f.self = a
  | f :: p :: fs => f.self ∈ (s.node p.self).downs ∧ p.range = none ∧ Chain s a (p :: fs)

theorem Chain.grows {s s' : TreeMany.St} (hg : Grows s s') {a : Nat} : ∀ {fs : List (Frame V)}, Chain s a fs → Chain s' a fs
  | [], h => h
  | [_], h => h
  | _ :: _ :: _, h => ⟨(hg.downs _).subset h.1, h.2.1, Chain.grows hg h.2.2⟩

/-- Only the receivers and the outer calls matter. -/
theorem Chain.head {s : TreeMany.St} {a : Nat} {f f' : Frame V} {fs : List (Frame V)} (h : Chain s a (f :: fs)) (hf : f'.self = f.self) : Chain s a (f' :: fs) := by
  cases fs with
  | nil => exact hf.trans h
  | cons p fs => exact ⟨hf ▸ h.1, h.2⟩

/-! ## Nothing else is shown -/

/-- All that a map shows was stored there at some time. -/
def HashOk (W : Nat → Bytes → V → Prop) (s : TreeMany.St) (a : Nat) (hash : List (Bytes × CV V)) : Prop :=
  ∀ names k v, evalPath hash names k = some (.item v) → ∃ x, Reach s a names x ∧ W x k v

theorem Reach.grows {s s' : TreeMany.St} (hg : Grows s s') (hl : TreeMany.Low s) {a x : Nat} {l : List Bytes} (ha : a < s.next)
    (h : Reach s a l x) : Reach s' a l x := by
  induction h with
  | here a => exact .here a
  | down hd _ ih =>
    rw [← hg.name _ (hl _ _ hd).2]
    exact .down ((hg.downs _).subset hd) (ih (hl _ _ hd).2)
  | self hn _ ih => exact .self ((hg.name _ ha).trans hn) (ih ha)

theorem HashOk.grows {W : Nat → Bytes → V → Prop} {s s' : TreeMany.St} (hg : Grows s s') (hl : TreeMany.Low s) {a : Nat} (ha : a < s.next)
    {hash : List (Bytes × CV V)} (h : HashOk W s a hash) : HashOk W s' a hash := fun names k v hv => by
  obtain ⟨x, h1, h2⟩ := h names k v hv
  exact ⟨x, h1.grows hg hl ha, h2⟩

theorem HashOk.nil {W : Nat → Bytes → V → Prop} {s : TreeMany.St} {a : Nat} : HashOk W s a [] := fun names k v hv => by
  cases names <;> simp [evalPath, GoMap.get?] at hv

theorem HashOk.set_obj {W : Nat → Bytes → V → Prop} {s : TreeMany.St} {a d : Nat} {hash vs : List (Bytes × CV V)} (h : HashOk W s a hash)
    (hd : d ∈ (s.node a).downs) (hv : HashOk W s d vs) : HashOk W s a (GoMap.set hash (s.node d).name (.obj vs)) := by
  intro names k v hk
  cases names with
  | nil =>
    simp only [evalPath, GoMap.get?_set] at hk
    split at hk
    · cases hk
    · exact h [] k v hk
  | cons n ns =>
    simp only [evalPath, GoMap.get?_set] at hk
    by_cases he : (s.node d).name = n
    · simp only [he, if_true] at hk
      obtain ⟨x, h1, h2⟩ := hv ns k v hk
      exact ⟨x, he ▸ .down hd h1, h2⟩
    · simp only [he, if_false] at hk
      exact h (n :: ns) k v hk

theorem HashOk.set_item {W : Nat → Bytes → V → Prop} {s : TreeMany.St} {a : Nat} {hash : List (Bytes × CV V)} (h : HashOk W s a hash) {k : Bytes} {v : V}
    (hw : W a k v) : HashOk W s a (GoMap.set hash k (.item v)) := by
  intro names k' v' hk
  cases names with
  | nil =>
    simp only [evalPath, GoMap.get?_set] at hk
    split at hk
    · rename_i e
      cases hk
      cases e
      exact ⟨a, .here a, hw⟩
    · exact h [] k' v' hk
  | cons n ns =>
    simp only [evalPath, GoMap.get?_set] at hk
    by_cases he : k = n
    · simp only [he, if_true] at hk
      cases hk
    · simp only [he, if_false] at hk
      exact h (n :: ns) k' v' hk

theorem HashOk.result {W : Nat → Bytes → V → Prop} {s : St V} {f : Frame V} (h : HashOk W s.tree f.self f.hash) : HashOk W s.tree f.self (s.result f) := by
  unfold St.result
  split
  · rename_i hn
    intro names k v hk
    cases names with
    | nil =>
      simp only [evalPath, GoMap.get?_set] at hk
      split at hk
      · cases hk
      · exact h [] k v hk
    | cons n ns =>
      simp only [evalPath, GoMap.get?_set] at hk
      by_cases he : VAR = n
      · simp only [he, if_true] at hk
        obtain ⟨x, h1, h2⟩ := h ns k v hk
        exact ⟨x, he ▸ .self hn h1, h2⟩
      · simp only [he, if_false] at hk
        exact h (n :: ns) k v hk
  · exact h

/-- A frame. -/
structure FrameOk (W : Nat → Bytes → V → Prop) (s : TreeMany.St) (f : Frame V) : Prop where
  old : f.self < s.next
  downs : ∀ d ∈ f.downs, d ∈ (s.node f.self).downs
  hash : HashOk W s f.self f.hash

theorem FrameOk.grows {W : Nat → Bytes → V → Prop} {s s' : TreeMany.St} (hg : Grows s s') (hl : TreeMany.Low s) {f : Frame V} (h : FrameOk W s f) :
    FrameOk W s' f :=
  ⟨Nat.lt_of_lt_of_le h.old hg.next, fun d hd => (hg.downs _).subset (h.downs d hd), h.hash.grows hg hl h.old⟩

theorem FrameOk.enter {W : Nat → Bytes → V → Prop} {s : St V} {d : Nat} (hd : d < s.tree.next) : FrameOk W s.tree (s.enter d) :=
  ⟨hd, fun _ h => h, .nil⟩

/-- Goroutine `t` is in its call, and all is well; or it has returned. -/
def Showing (W : Nat → Bytes → V → Prop) (t a : Nat) (log0 : List (Nat × List (Bytes × CV V))) (s : St V) : Prop :=
  (∃ fs, s.vars t = some fs ∧ s.log t = log0 ∧ Chain s.tree a fs ∧ ∀ f ∈ fs, FrameOk W s.tree f) ∨
  (a < s.tree.next ∧ Finished t a log0 (HashOk W s.tree a) s)

theorem showing_var {W : Nat → Bytes → V → Prop} {t a : Nat} {log0 : List (Nat × List (Bytes × CV V))} {s s' : St V} {key : Option Bytes} {fs : List (Frame V)}
    (hi : TreeMany.Inv s.tree) (hw : ∀ x k v, GoMap.get? (s.data x) k = some v → W x k v) (hlog : s.log t = log0) (hc : Chain s.tree a fs)
    (hf : ∀ f ∈ fs, FrameOk W s.tree f) (h : s.varStep t key fs = some s') : Showing W t a log0 s' := by
  unfold St.varStep at h
  split at h
  · cases h
  · rename_i f fs
    have hf0 := hf f (List.mem_cons_self ..)
    have hfs : ∀ g ∈ fs, FrameOk W s.tree g := fun g hg => hf g (List.mem_cons_of_mem _ hg)
    split at h
    · rename_i hrange
      split at h
      · rename_i d ds hds
        cases h
        refine .inl ⟨_, upd_same .., hlog, ⟨hf0.downs d (hds ▸ List.mem_cons_self ..), hrange, hc.head rfl⟩, ?_⟩
        intro g hg
        rcases List.mem_cons.1 hg with rfl | hg
        · exact FrameOk.enter (s := s) (hi.low _ _ (hf0.downs d (hds ▸ List.mem_cons_self ..))).2
        rcases List.mem_cons.1 hg with rfl | hg
        · exact ⟨hf0.old, fun d' hd' => hf0.downs d' (hds ▸ List.mem_cons_of_mem _ hd'), hf0.hash⟩
        · exact hfs g hg
      · cases h
        refine .inl ⟨_, upd_same .., hlog, hc.head rfl, ?_⟩
        intro g hg
        rcases List.mem_cons.1 hg with rfl | hg
        · exact ⟨hf0.old, hf0.downs, hf0.hash⟩
        · exact hfs g hg
    · split at h
      · rename_i k
        split at h
        · cases h
        · cases h
          refine .inl ⟨_, upd_same .., hlog, hc.head rfl, ?_⟩
          intro g hg
          rcases List.mem_cons.1 hg with rfl | hg
          · refine ⟨hf0.old, hf0.downs, ?_⟩
            show HashOk W s.tree f.self (St.visit s f _ _ k).hash
            unfold St.visit
            dsimp only
            split
            · rename_i v hv
              split
              · exact hf0.hash.set_item (hw _ _ _ hv)
              · exact hf0.hash
            · exact hf0.hash
          · exact hfs g hg
      · split at h
        · cases h
          cases fs with
          | nil =>
            cases hc
            exact .inr ⟨hf0.old, [], s.result f, by rw [← hlog]; exact upd_same .., HashOk.result (s := s) hf0.hash⟩
          | cons p fs =>
            refine .inl ⟨_, upd_same .., hlog, Chain.head hc.2.2 rfl, ?_⟩
            intro g hg
            have hp := hfs p (List.mem_cons_self ..)
            rcases List.mem_cons.1 hg with rfl | hg
            · exact ⟨hp.old, hp.downs, HashOk.set_obj hp.hash hc.1 (HashOk.result hf0.hash)⟩
            · exact hfs g (List.mem_cons_of_mem _ hg)
        · cases h

theorem showing_step {W : Nat → Bytes → V → Prop} {t a : Nat} {log0 : List (Nat × List (Bytes × CV V))} {s s' : St V} {e : Ev V}
    (hi : TreeMany.Inv s.tree) (hw : ∀ x k v, GoMap.get? (s.data x) k = some v → W x k v) (h : Showing W t a log0 s) (hs : s.step e = some s') :
    Showing W t a log0 s' := by
  obtain ⟨_, hg⟩ := step_tree hs hi
  rcases h with ⟨fs, hv, hlog, hc, hf⟩ | ⟨ha, hfin⟩
  · cases step_move hs t with
    | same h1 h2 => exact .inl ⟨fs, h1.trans hv, h2.trans hlog, hc.grows hg, fun f hx => (hf f hx).grows hg hi.low⟩
    | begin self _ hn => rw [hn] at hv; cases hv
    | go key fs' _ hv' hstep =>
      rw [hv] at hv'
      cases hv'
      exact showing_var hi hw hlog hc hf hstep
  · obtain ⟨later, r, h1, h2⟩ := hfin.next hs
    exact .inr ⟨Nat.lt_of_lt_of_le ha hg.next, later, r, h1, h2.grows hg hi.low ha⟩

theorem showing_run {W : Nat → Bytes → V → Prop} {t a : Nat} {log0 : List (Nat × List (Bytes × CV V))} {s s' : St V} {es : List (Ev V)}
    (hi : TreeMany.Inv s.tree) (hw : ∀ es1 es2 s1, es = es1 ++ es2 → s.run es1 = some s1 → ∀ x k v, GoMap.get? (s1.data x) k = some v → W x k v)
    (h : Showing W t a log0 s) (hr : s.run es = some s') : Showing W t a log0 s' := by
  induction es generalizing s with
  | nil => cases hr; exact h
  | cons e es ih =>
    obtain ⟨s1, h1, h2⟩ := run_cons hr
    refine ih (step_tree h1 hi).1 (fun es1 es2 s2 he hr2 => hw (e :: es1) es2 s2 (by rw [he]; rfl) ?_) (showing_step hi (hw [] _ s rfl rfl) h h1) h2
    simp only [St.run, h1]
    exact hr2

/-- What `Variables` shows was there. -/
theorem returns_sound {s s' : St V} (hi : TreeMany.Inv s.tree) {t a : Nat} {es : List (Ev V)} {r : List (Bytes × CV V)} (h : Returns s t a es s' r)
    {names : List Bytes} {k : Bytes} {v : V} (hk : evalPath r names k = some (.item v)) :
    ∃ x, Reach s'.tree a names x ∧ Was s (.begin t a :: es) x k v := by
  obtain ⟨hr, later, hlog⟩ := h
  have hr0 := hr
  obtain ⟨s1, h1, h2⟩ := run_cons hr
  have hs : Showing (Was s (.begin t a :: es)) t a (s.log t) s1 := by
    simp only [St.step] at h1
    split at h1
    · split at h1
      · rename_i hlt
        cases h1
        refine .inl ⟨_, upd_same .., rfl, rfl, fun f hf => ?_⟩
        rcases List.mem_cons.1 hf with rfl | hf
        · exact FrameOk.enter (s := s) hlt
        · cases hf
      · cases h1
    · cases h1
  have hfin := showing_run (step_tree h1 hi).1 (W := Was s (.begin t a :: es)) (fun es1 es2 s2 he hr2 x k v hv =>
    ⟨.begin t a :: es1, es2, s2, by rw [he]; rfl, by simp only [St.run, h1]; exact hr2, hv⟩) hs h2
  rcases hfin with ⟨fs, _, hl, _, _⟩ | ⟨_, hfin⟩
  · rw [hl] at hlog
    have := congrArg List.length hlog
    simp at this
    omega
  · exact hfin.result hlog names k v hk

/-! ## All that stays is shown -/

/-- What the frame `f` has of the item: `names` leads from its receiver to `x`. -/
def Prog (s0 s2 : St V) (es : List (Ev V)) (x : Nat) (k : Bytes) (v : V) (f : Frame V) : List Bytes → Prop
  | [] => ∀ todo seen, f.range = some (todo, seen) → k ∈ todo ∨ GoMap.get? f.hash k = some (.item v)
  | n :: ns => evalPath f.hash (n :: ns) k = some (.item v) ∨
      (f.range = none ∧ ∃ d ∈ f.downs, d < s0.tree.next ∧ (s0.tree.node d).name = n ∧ Clear s0 s2 es d ns x)

/-- The same for all frames, `above` is the receiver of the call inside of the first. -/
def Comp (s0 s2 : St V) (es : List (Ev V)) (x : Nat) (k : Bytes) (v : V) : Option Nat → List (Frame V) → Prop
  | _, [] => True
  | above, f :: fs =>
    (∀ names, Clear s0 s2 es f.self names x → Prog s0 s2 es x k v f names ∨
      ∃ g ns, above = some g ∧ g < s0.tree.next ∧ f.range = none ∧ names = (s0.tree.node g).name :: ns ∧ Clear s0 s2 es g ns x) ∧
    Comp s0 s2 es x k v (some f.self) fs

theorem Clear.uncons {s0 s2 : St V} {es : List (Ev V)} {a x : Nat} {n : Bytes} {ns : List Bytes} (h : Clear s0 s2 es a (n :: ns) x) :
    ∃ d, n = (s0.tree.node d).name ∧ d ∈ (s0.tree.node a).downs ∧ (∀ e ∈ (s2.tree.node a).downs, (s2.tree.node e).name = (s0.tree.node d).name → e = d) ∧
      Stays s0 es a (s0.tree.node d).name none ∧ ¬ ((s0.tree.node a).name = VAR ∧ (s0.tree.node d).name = VAR) ∧ Clear s0 s2 es d ns x := by
  cases h with
  | down h1 h2 h3 h4 h5 => exact ⟨_, rfl, h1, h2, h3, h4, h5⟩

theorem Clear.unnil {s0 s2 : St V} {es : List (Ev V)} {a x : Nat} (h : Clear s0 s2 es a [] x) : a = x := by
  cases h; rfl

theorem evalPath_set_ne {hash : List (Bytes × CV V)} {n m : Bytes} {ns : List Bytes} {k : Bytes} {w : CV V} (h : m ≠ n) :
    evalPath (GoMap.set hash m w) (n :: ns) k = evalPath hash (n :: ns) k := by
  simp only [evalPath, GoMap.get?_set_ne h]

/-- What holds in between. -/
structure Mid (s0 s2 : St V) (es : List (Ev V)) (s : St V) : Prop where
  inv0 : TreeMany.Inv s0.tree
  inv : TreeMany.Inv s.tree
  before : Grows s0.tree s.tree
  after : Grows s.tree s2.tree
  stays : ∀ a k v, Stays s0 es a k v → GoMap.get? (s.data a) k = v

/-- The frame of a call that has just begun. -/
theorem prog_enter {s0 s2 s : St V} {es : List (Ev V)} {x : Nat} {k : Bytes} {v : V} (m : Mid s0 s2 es s) {d : Nat} {names : List Bytes}
    (h : Clear s0 s2 es d names x) : Prog s0 s2 es x k v (s.enter d) names := by
  cases names with
  | nil => intro todo seen h; cases h
  | cons n ns =>
    obtain ⟨c, rfl, h1, _, _, _, h5⟩ := h.uncons
    exact .inr ⟨rfl, c, (m.before.downs d).subset h1, (m.inv0.low _ _ h1).2, rfl, h5⟩

/-- A finished call has the item. -/
theorem prog_result {s0 s2 s : St V} {es : List (Ev V)} {x : Nat} {k : Bytes} {v : V} (m : Mid s0 s2 es s) (hk : k ≠ VAR) {f : Frame V} {seen : List Bytes}
    (hr : f.range = some ([], seen)) {names : List Bytes} (hc : Clear s0 s2 es f.self names x) (h : Prog s0 s2 es x k v f names) :
    evalPath (s.result f) names k = some (.item v) := by
  cases names with
  | nil =>
    rcases h [] seen hr with h | h
    · cases h
    · simp only [St.result, evalPath]
      split
      · rw [GoMap.get?_set_ne (Ne.symm hk), h]
      · exact h
  | cons n ns =>
    rcases h with h | ⟨h, _⟩
    · obtain ⟨c, rfl, h1, _, _, h4, _⟩ := hc.uncons
      simp only [St.result]
      split
      · rename_i hn
        have hlow := m.inv0.low _ _ h1
        rw [m.before.name _ (Nat.lt_trans hlow.1 hlow.2)] at hn
        rw [evalPath_set_ne (fun e => h4 ⟨hn, e.symm⟩), h]
      · exact h
    · rw [hr] at h; cases h

/-- The result of a call on `a` shows the item; if `a` is called `var`, also under this name. -/
def Shows (s0 s2 : St V) (es : List (Ev V)) (x : Nat) (k : Bytes) (v : V) (a : Nat) (r : List (Bytes × CV V)) : Prop :=
  ∀ names, Clear s0 s2 es a names x → evalPath r names k = some (.item v) ∧
    (a < s0.tree.next → (s0.tree.node a).name = VAR → evalPath r (VAR :: names) k = some (.item v))

theorem prog_var {s0 s2 s : St V} {es : List (Ev V)} {x : Nat} {k : Bytes} {v : V} (m : Mid s0 s2 es s) {f : Frame V} {seen : List Bytes}
    (hr : f.range = some ([], seen)) {names : List Bytes} (h : Prog s0 s2 es x k v f names)
    (ha : f.self < s0.tree.next) (hn : (s0.tree.node f.self).name = VAR) : evalPath (s.result f) (VAR :: names) k = some (.item v) := by
  have hn' : (s.tree.node f.self).name = VAR := (m.before.name _ ha).trans hn
  simp only [St.result, hn', if_true, evalPath, GoMap.get?_set_self]
  cases names with
  | nil =>
    rcases h [] seen hr with h | h
    · cases h
    · exact h
  | cons n ns =>
    rcases h with h | ⟨h, _⟩
    · exact h
    · rw [hr] at h; cases h

theorem comp_var {s0 s2 s s' : St V} {es : List (Ev V)} {x : Nat} {k : Bytes} {v : V} {t a : Nat} {log0 : List (Nat × List (Bytes × CV V))}
    {key : Option Bytes} {fs : List (Frame V)} (m : Mid s0 s2 es s) (hk : k ≠ VAR) (hx : Stays s0 es x k (some v)) (hlog : s.log t = log0)
    (hch : Chain s.tree a fs) (hc : Comp s0 s2 es x k v none fs) (h : s.varStep t key fs = some s') :
    (∃ fs', s'.vars t = some fs' ∧ s'.log t = log0 ∧ Comp s0 s2 es x k v none fs') ∨
    Finished t a log0 (Shows s0 s2 es x k v a) s' := by
  unfold St.varStep at h
  split at h
  · cases h
  · rename_i f fs
    obtain ⟨hf, hfs⟩ := hc
    have hf : ∀ names, Clear s0 s2 es f.self names x → Prog s0 s2 es x k v f names := fun names hn => by
      rcases hf names hn with h | ⟨g, ns, h, _⟩
      · exact h
      · cases h
    split at h
    · rename_i hrange
      split at h
      · rename_i d ds hds
        cases h
        refine .inl ⟨_, upd_same .., hlog, fun names hn => .inl (prog_enter m hn), fun names hn => ?_, hfs⟩
        have := hf names hn
        cases names with
        | nil =>
          refine .inl ?_
          intro todo seen h
          rw [show f.range = some (todo, seen) from h] at hrange
          cases hrange
        | cons n ns =>
          rcases this with h | ⟨h1, c, h2, h0, h3, h4⟩
          · exact .inl (.inl h)
          · rw [hds] at h2
            rcases List.mem_cons.1 h2 with rfl | h2
            · exact .inr ⟨c, ns, rfl, h0, h1, by rw [h3], h4⟩
            · exact .inl (.inr ⟨h1, c, h2, h0, h3, h4⟩)
      · rename_i hds
        cases h
        refine .inl ⟨_, upd_same .., hlog, fun names hn => .inl ?_, hfs⟩
        have := hf names hn
        cases names with
        | nil =>
          intro todo seen h
          cases h
          have := hn.unnil
          subst this
          exact .inl (GoMap.get?_isSome.1 (by rw [m.stays _ _ _ hx]; rfl))
        | cons n ns =>
          rcases this with h | ⟨_, c, h2, _⟩
          · exact .inl h
          · rw [hds] at h2; cases h2
    · rename_i todo seen hrange
      split at h
      · rename_i k'
        split at h
        · cases h
        · cases h
          refine .inl ⟨_, upd_same .., hlog, fun names hn => .inl ?_, hfs⟩
          have := hf names hn
          cases names with
          | nil =>
            intro todo' seen' he
            have hx' := hn.unnil
            cases he
            by_cases hkk : k' = k
            · subst hkk
              right
              have hx' : f.self = x := hx'
              simp only [St.visit, hx', m.stays _ _ _ hx]
              rw [if_pos hk, GoMap.get?_set_self]
            · rcases this todo seen hrange with h | h
              · exact .inl (List.mem_filter.2 ⟨h, by simpa using Ne.symm hkk⟩)
              · right
                simp only [St.visit]
                split
                · split
                  · rw [GoMap.get?_set_ne hkk, h]
                  · exact h
                · exact h
          | cons n ns =>
            rcases this with h | ⟨h1, _⟩
            · left
              simp only [St.visit]
              split
              · rename_i w hw
                split
                · rw [evalPath_set_ne, h]
                  intro e
                  obtain ⟨c, rfl, _, _, h3, _⟩ := hn.uncons
                  rw [e, show GoMap.get? (s.data f.self) _ = none from m.stays _ _ _ h3] at hw
                  cases hw
                · exact h
              · exact h
            · rw [hrange] at h1; cases h1
      · split at h
        · rename_i htodo
          subst htodo
          cases h
          have hres : ∀ names, Clear s0 s2 es f.self names x → evalPath (s.result f) names k = some (.item v) := fun names hn =>
            prog_result m hk hrange hn (hf names hn)
          cases fs with
          | nil =>
            cases hch
            exact .inr ⟨[], s.result f, by rw [← hlog]; exact upd_same .., fun names hn => ⟨hres names hn, prog_var m hrange (hf names hn)⟩⟩
          | cons p fs =>
            obtain ⟨hp, hfs⟩ := hfs
            obtain ⟨hmem, hprange, _⟩ := hch
            refine .inl ⟨_, upd_same .., hlog, fun names hn => .inl ?_, hfs⟩
            have hthis := hp names hn
            cases names with
            | nil =>
              intro todo seen h
              rw [show p.range = some (todo, seen) from h] at hprange
              cases hprange
            | cons n ns =>
              have hfold : f.self < s.tree.next := (m.inv.low _ _ hmem).2
              obtain ⟨c, hcn, hc0, h2, _, _, h5⟩ := hn.uncons
              by_cases he : (s.tree.node f.self).name = n
              · left
                have hfc : f.self = c := h2 f.self ((m.after.downs _).subset hmem) (by rw [m.after.name _ hfold, he, hcn])
                simp only [evalPath, he, GoMap.get?_set_self]
                exact hres ns (hfc ▸ h5)
              · rcases hthis with h | ⟨g, ns', hg, hg0, _, hnames, _⟩
                · rcases h with h | h
                  · exact .inl ((evalPath_set_ne he).trans h)
                  · exact .inr h
                · cases hg
                  cases hnames
                  exact absurd (m.before.name _ hg0) he
        · cases h

/-- Goroutine `t` is in its call and does not miss the item, or it has returned it. -/
def Having (s0 s2 : St V) (es : List (Ev V)) (x : Nat) (k : Bytes) (v : V) (t a : Nat) (log0 : List (Nat × List (Bytes × CV V))) (s : St V) : Prop :=
  (∃ fs, s.vars t = some fs ∧ s.log t = log0 ∧ Comp s0 s2 es x k v none fs) ∨
  Finished t a log0 (Shows s0 s2 es x k v a) s

theorem having_run {s0 s2 s : St V} {es rest : List (Ev V)} {x : Nat} {k : Bytes} {v : V} {t a : Nat} {log0 : List (Nat × List (Bytes × CV V))}
    (m : Mid s0 s2 es s) (hk : k ≠ VAR) (hx : Stays s0 es x k (some v)) (hsub : ∀ e ∈ rest, e ∈ es) (hsh : Showing (fun _ _ _ => True) t a log0 s)
    (h : Having s0 s2 es x k v t a log0 s) (hr : s.run rest = some s2) : Having s0 s2 es x k v t a log0 s2 := by
  induction rest generalizing s with
  | nil => cases hr; exact h
  | cons e rest ih =>
    obtain ⟨s1, h1, h2⟩ := run_cons hr
    obtain ⟨i1, g1⟩ := step_tree h1 m.inv
    have m1 : Mid s0 s2 es s1 :=
      ⟨m.inv0, i1, m.before.trans g1, (run_tree h2 i1).2, fun a k v hs => by
        rw [step_data h1 (hs.2 e (hsub e (List.mem_cons_self ..)))]; exact m.stays a k v hs⟩
    refine ih m1 (fun e he => hsub e (List.mem_cons_of_mem _ he)) (showing_step m.inv (fun _ _ _ _ => trivial) hsh h1) ?_ h2
    rcases h with ⟨fs, hv, hlog, hc⟩ | hfin
    · rcases hsh with ⟨fs', hv', _, hch, _⟩ | ⟨_, hfin⟩
      · rw [hv] at hv'
        cases hv'
        cases step_move h1 t with
        | same e1 e2 => exact .inl ⟨fs, e1.trans hv, e2.trans hlog, hc⟩
        | begin self _ hn => rw [hn] at hv; cases hv
        | go key fs' _ hv' hstep =>
          rw [hv] at hv'
          cases hv'
          exact comp_var m hk hx hlog hch hc hstep
      · obtain ⟨later, r, hl, _⟩ := hfin
        rw [hlog] at hl
        have := congrArg List.length hl
        simp at this
        omega
    · exact .inr (hfin.next h1)

/-- `Variables` shows what stays. -/
theorem returns_complete {s s' : St V} (hi : TreeMany.Inv s.tree) {t a : Nat} {es : List (Ev V)} {r : List (Bytes × CV V)} (h : Returns s t a es s' r)
    {x : Nat} {k : Bytes} {v : V} (hk : k ≠ VAR) (hx : Stays s es x k (some v)) {names : List Bytes} (hc : Clear s s' es a names x) :
    evalPath r names k = some (.item v) ∧ ((s.tree.node a).name = VAR → evalPath r (VAR :: names) k = some (.item v)) := by
  obtain ⟨hr, later, hlog⟩ := h
  obtain ⟨s1, h1, h2⟩ := run_cons hr
  obtain ⟨i1, g1⟩ := step_tree h1 hi
  have m1 : Mid s s' es s1 := ⟨hi, i1, g1, (run_tree h2 i1).2, fun a k v hs => by rw [step_data h1 (fun h => h)]; exact hs.1⟩
  have hb : s1 = s.goto t [s.enter a] ∧ a < s.tree.next := by
    simp only [St.step] at h1
    split at h1
    · split at h1
      · rename_i hlt; cases h1; exact ⟨rfl, hlt⟩
      · cases h1
    · cases h1
  obtain ⟨rfl, hlt⟩ := hb
  have hsh : Showing (fun _ _ _ => True) t a (s.log t) (s.goto t [s.enter a]) := by
    refine .inl ⟨_, upd_same .., rfl, rfl, fun f hf => ?_⟩
    rcases List.mem_cons.1 hf with rfl | hf
    · exact FrameOk.enter (s := s) hlt
    · cases hf
  have hh : Having s s' es x k v t a (s.log t) (s.goto t [s.enter a]) :=
    .inl ⟨_, upd_same .., rfl, fun names hn => .inl (prog_enter m1 hn), trivial⟩
  rcases having_run m1 hk hx (fun e he => he) hsh hh h2 with ⟨fs, _, hl, _⟩ | hfin
  · rw [hl] at hlog
    have := congrArg List.length hlog
    simp at this
    omega
  · obtain ⟨h1, h2⟩ := hfin.result hlog names hc
    exact ⟨h1, h2 (by assumption)⟩

/-! ## `Variables` can always go on -/

/-- No key is visited that is still to be visited. -/
def Fresh (f : Frame V) : Prop := ∀ todo seen, f.range = some (todo, seen) → ∀ k ∈ todo, k ∉ seen

def Alive (s : St V) (u : Nat) : Prop := ∀ fs, s.vars u = some fs → fs ≠ [] ∧ ∀ f ∈ fs, Fresh f

theorem alive_goto {s : St V} {u : Nat} {f : Frame V} {fs : List (Frame V)} (h : Fresh f) (hs : ∀ f ∈ fs, Fresh f) : Alive (s.goto u (f :: fs)) u := by
  intro fs' hf
  have he : (s.goto u (f :: fs)).vars u = some (f :: fs) := upd_same ..
  rw [he] at hf
  cases hf
  refine ⟨by simp, fun g hg => ?_⟩
  rcases List.mem_cons.1 hg with rfl | hg
  · exact h
  · exact hs g hg

theorem run_alive {s s' : St V} {es : List (Ev V)} (hr : s.run es = some s') (h : ∀ u, Alive s u) : ∀ u, Alive s' u := by
  induction es generalizing s with
  | nil => cases hr; exact h
  | cons e es ih =>
    obtain ⟨s1, h1, h2⟩ := run_cons hr
    refine ih h2 fun u => ?_
    cases step_move h1 u with
    | same h3 _ => intro fs hf; rw [h3] at hf; exact h u fs hf
    | begin self _ _ e =>
      subst e
      exact alive_goto (fun _ _ hr => by cases hr) (fun f hf => by cases hf)
    | go key fs _ hv hstep =>
      have hall := (h u fs hv).2
      unfold St.varStep at hstep
      split at hstep
      · cases hstep
      · rename_i f fs
        have hfs : ∀ g ∈ fs, Fresh g := fun g hg => hall g (List.mem_cons_of_mem _ hg)
        have hf := hall f (List.mem_cons_self ..)
        split at hstep
        · split at hstep
          · cases hstep
            refine alive_goto (fun _ _ hr => by cases hr) fun g hg => ?_
            rcases List.mem_cons.1 hg with rfl | hg
            · exact hf
            · exact hfs g hg
          · cases hstep
            exact alive_goto (fun _ _ hr => by cases hr; intro k _; simp) hfs
        · rename_i todo seen hrange
          split at hstep
          · split at hstep
            · cases hstep
            · cases hstep
              refine alive_goto (fun _ _ hr => ?_) hfs
              cases hr
              intro k hk
              obtain ⟨h4, h5⟩ := List.mem_filter.1 hk
              simp only [List.mem_cons, not_or]
              exact ⟨by simpa using h5, hf todo seen hrange k h4⟩
          · split at hstep
            · cases hstep
              cases fs with
              | nil =>
                intro fs hf
                rw [show (s.leave u f []).vars u = none from upd_same ..] at hf
                cases hf
              | cons p fs =>
                exact alive_goto (hfs p (List.mem_cons_self ..)) fun g hg => hfs g (List.mem_cons_of_mem _ hg)
            · cases hstep

theorem alive_step {s : St V} {u : Nat} (h : Alive s u) {fs : List (Frame V)} (hv : s.vars u = some fs) : ∃ key s2, s.step (.go u key) = some s2 := by
  obtain ⟨hne, hf⟩ := h fs hv
  cases fs with
  | nil => exact absurd rfl hne
  | cons f fs =>
    cases hrange : f.range with
    | none =>
      cases hd : f.downs with
      | nil => exact ⟨none, Option.isSome_iff_exists.1 (by simp [St.step, hv, St.varStep, hrange, hd])⟩
      | cons d ds => exact ⟨none, Option.isSome_iff_exists.1 (by simp [St.step, hv, St.varStep, hrange, hd])⟩
    | some p =>
      obtain ⟨todo, seen⟩ := p
      cases todo with
      | nil => exact ⟨none, Option.isSome_iff_exists.1 (by simp [St.step, hv, St.varStep, hrange])⟩
      | cons k todo =>
        have := hf f (List.mem_cons_self ..) _ _ hrange k (List.mem_cons_self ..)
        exact ⟨some k, Option.isSome_iff_exists.1 (by simp [St.step, hv, St.varStep, hrange, this])⟩

end Verif.TreeVars
