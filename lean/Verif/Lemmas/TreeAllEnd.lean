import Verif.Lemmas.TreeAllRead
/-!
# Calls of `Model/TreeAll` come to an end
-/
namespace Verif.TreeAll

/-- Goroutine `t` alone goes from `s` to `s'`. -/
def Solo (t : Nat) (s s' : St) : Prop := ∃ l, (∀ e ∈ l, e.1 = t) ∧ s.run l = some s'

theorem Solo.refl (t : Nat) (s : St) : Solo t s s := ⟨[], fun _ h => (by cases h), rfl⟩

theorem Solo.step {t : Nat} {s s1 s' : St} {c : Call} {f : Bool} (h : s.step t c f = some s1) (h' : Solo t s1 s') : Solo t s s' := by
  obtain ⟨l, h1, h2⟩ := h'
  refine ⟨(t, c, f) :: l, fun e he => ?_, ?_⟩
  · rcases List.mem_cons.1 he with rfl | he
    · rfl
    · exact h1 e he
  · rw [St.run, h]
    exact h2

theorem run_append {l l' : List (Nat × Call × Bool)} : ∀ {s s1 s' : St}, s.run l = some s1 → s1.run l' = some s' → s.run (l ++ l') = some s' := by
  induction l with
  | nil => intro s s1 s' h h'; cases h; exact h'
  | cons e l ih =>
    intro s s1 s' h h'
    obtain ⟨s2, h1, h2⟩ := run_cons h
    obtain ⟨t, c, f⟩ := e
    rw [List.cons_append, St.run, h1]
    exact ih h2 h'

theorem Solo.trans {t : Nat} {s s1 s' : St} (h : Solo t s s1) (h' : Solo t s1 s') : Solo t s s' := by
  obtain ⟨l, h1, h2⟩ := h
  obtain ⟨l', h1', h2'⟩ := h'
  refine ⟨l ++ l', fun e he => ?_, run_append h2 h2'⟩
  rcases List.mem_append.1 he with he | he
  · exact h1 e he
  · exact h1' e he

theorem run_other {l : List (Nat × Call × Bool)} {u : Nat} : ∀ {s s' : St}, s.run l = some s' → (∀ e ∈ l, u ≠ e.1) → s'.pc u = s.pc u ∧ s'.log u = s.log u := by
  induction l with
  | nil => intro s s' h _; cases h; exact ⟨rfl, rfl⟩
  | cons e l ih =>
    intro s s' h hu
    obtain ⟨s1, h1, h2⟩ := run_cons h
    obtain ⟨a, b⟩ := step_other h1 (hu e (List.mem_cons_self ..))
    obtain ⟨c, d⟩ := ih h2 fun e he => hu e (List.mem_cons_of_mem _ he)
    exact ⟨c.trans a, d.trans b⟩

theorem Solo.other {t u : Nat} {s s' : St} (h : Solo t s s') (hu : u ≠ t) : s'.pc u = s.pc u ∧ s'.log u = s.log u := by
  obtain ⟨l, h1, h2⟩ := h
  exact run_other h2 fun e he => by rw [h1 e he]; exact hu

theorem Solo.inv {t : Nat} {s s' : St} (h : Solo t s s') (i : Inv s) : Inv s' := by
  obtain ⟨l, _, h⟩ := h
  exact (i.run h).1

/-! ## The lock is released -/

/-- The names that the call goes on with after the lock. -/
def PC.rest : PC → Nat
  | .locked _ _ _ rest | .appended _ _ _ _ rest | .linked _ _ _ rest | .unlock _ _ _ rest => rest.length
  | _ => 0

/-- Steps to the release of the lock. -/
def rank (s : St) : PC → Nat
  | .locked _ p _ _ => (s.node p).len + 5
  | .appended _ _ _ _ _ => 4
  | .linked _ _ _ _ => 3
  | .shift _ p j => 2 + ((s.node p).len - j)
  | .unlock _ _ _ _ => 1
  | _ => 0

/-- Where the call `c` of goroutine `t` goes on after the lock. -/
def Free (t : Nat) (c : Call) (s s' : St) : Prop :=
  (s'.pc t = .idle ∧ ∃ r, s'.log t = (c, r) :: s.log t) ∨
  ∃ d n rest, s'.pc t = .look c d n rest ∧ rest.length < (s.pc t).rest ∧ s'.log t = s.log t

theorem hit_free {s s' : St} {t : Nat} {c : Call} (d : Nat) {rest : List Bytes} (hl : s'.log t = s.log t) (hr : (s.pc t).rest = rest.length) :
    Free t c s (s'.hit t c d rest) := by
  cases rest with
  | nil => exact .inl ⟨upd_same .., some d, by show upd _ _ _ _ = _; rw [upd_same, hl]⟩
  | cons n rest => exact .inr ⟨d, n, rest, upd_same .., by rw [hr]; exact Nat.lt_succ_self _, hl⟩

theorem hold_step {s : St} {t a : Nat} {c : Call} (h : Holds (s.pc t) a) (hc : (s.pc t).call = some c) :
    ∃ s', s.step t c false = some s' ∧ ((Holds (s'.pc t) a ∧ (s'.pc t).call = some c ∧ rank s' (s'.pc t) < rank s (s.pc t) ∧
      (s'.pc t).rest ≤ (s.pc t).rest ∧ s'.log t = s.log t) ∨ Free t c s s') := by
  cases hpc : s.pc t with
  | locked k p n rest =>
    rw [hpc] at h hc
    have h : p = a := h
    subst h
    cases hc
    cases c with
    | del self name =>
      cases hx : s.index p n with
      | none =>
        refine ⟨s.goto t (.unlock (.del self name) p none rest), by simp only [St.step, hpc, hx], .inl ?_⟩
        have e : (s.goto t (.unlock (.del self name) p none rest)).pc t = .unlock (.del self name) p none rest := upd_same ..
        rw [e]
        exact ⟨rfl, rfl, by simp [rank], Nat.le_refl _, rfl⟩
      | some j =>
        refine ⟨s.goto t (.shift (.del self name) p j), by simp only [St.step, hpc, hx], .inl ?_⟩
        have e : (s.goto t (.shift (.del self name) p j)).pc t = .shift (.del self name) p j := upd_same ..
        rw [e]
        refine ⟨rfl, rfl, ?_, Nat.zero_le _, rfl⟩
        show 2 + ((s.node p).len - j) < (s.node p).len + 5
        omega
    | _ =>
      refine ⟨s.append t _ p n rest false, (by unfold St.step; rw [hpc]), .inl ?_⟩
      have e : ∀ k : Call, (s.append t k p n rest false).pc t = .appended k p s.next ((s.node p).target false) rest := fun k => upd_same ..
      rw [e]
      exact ⟨rfl, rfl, by simp [rank], Nat.le_refl _, rfl⟩
  | appended k p child arr rest =>
    rw [hpc] at h hc
    have h : p = a := h
    subst h
    cases hc
    refine ⟨(s.set p { s.node p with arr := arr, len := (s.node p).len + 1 }).goto t (.linked c p child rest), by simp only [St.step, hpc], .inl ?_⟩
    have e : ((s.set p { s.node p with arr := arr, len := (s.node p).len + 1 }).goto t (.linked c p child rest)).pc t = .linked c p child rest := upd_same ..
    rw [e]
    exact ⟨rfl, rfl, by simp [rank], Nat.le_refl _, rfl⟩
  | linked k p child rest =>
    rw [hpc] at h hc
    have h : p = a := h
    subst h
    cases hc
    refine ⟨(s.set child { s.node child with up := some p }).goto t (.unlock c p (some child) rest), by simp only [St.step, hpc], .inl ?_⟩
    have e : ((s.set child { s.node child with up := some p }).goto t (.unlock c p (some child) rest)).pc t = .unlock c p (some child) rest := upd_same ..
    rw [e]
    exact ⟨rfl, rfl, by simp [rank], Nat.le_refl _, rfl⟩
  | shift k p j =>
    rw [hpc] at h hc
    have h : p = a := h
    subst h
    cases hc
    refine ⟨s.shift t c p j, by simp only [St.step, hpc], .inl ?_⟩
    unfold St.shift
    dsimp only
    split
    · rename_i hj
      generalize hn : ({ s.node p with cells := upd (s.node p).cells (s.node p).arr (((s.node p).cells (s.node p).arr).set j (((s.node p).cells (s.node p).arr).getD (j + 1) 0)) } : Node) = n'
      have e : ((s.set p n').goto t (.shift c p (j + 1))).pc t = .shift c p (j + 1) := upd_same ..
      rw [e]
      refine ⟨rfl, rfl, ?_, Nat.le_refl _, rfl⟩
      show 2 + ((upd s.node p n' p).len - (j + 1)) < 2 + ((s.node p).len - j)
      rw [upd_same, ← hn]
      show 2 + ((s.node p).len - (j + 1)) < 2 + ((s.node p).len - j)
      omega
    · have e : ((s.set p { s.node p with len := (s.node p).len - 1 }).goto t (.unlock c p none [])).pc t = .unlock c p none [] := upd_same ..
      rw [e]
      refine ⟨rfl, rfl, ?_, Nat.le_refl _, rfl⟩
      show 1 < 2 + _
      omega
  | unlock k p r rest =>
    rw [hpc] at h hc
    have h : p = a := h
    subst h
    cases hc
    cases r with
    | none =>
      refine ⟨(s.set p { s.node p with lock := none }).ret t c none, by simp only [St.step, hpc], .inr (.inl ⟨upd_same .., none, ?_⟩)⟩
      show upd s.log t ((c, none) :: s.log t) t = _
      rw [upd_same]
    | some d =>
      exact ⟨(s.set p { s.node p with lock := none }).hit t c d rest, by simp only [St.step, hpc], .inr (hit_free d rfl (by rw [hpc]; rfl))⟩
  | _ => rw [hpc] at h; exact h.elim

theorem release {t a : Nat} {c : Call} : ∀ (m : Nat) {s : St}, Inv s → rank s (s.pc t) ≤ m → Holds (s.pc t) a → (s.pc t).call = some c →
    ∃ s', Solo t s s' ∧ Free t c s s' := by
  intro m
  induction m with
  | zero =>
    intro s i hm h hc
    have : 0 < rank s (s.pc t) := by
      cases hpc : s.pc t <;> rw [hpc] at h <;> first | exact h.elim | (simp [rank]; try omega)
    omega
  | succ m ih =>
    intro s i hm h hc
    obtain ⟨s1, h1, h2 | h2⟩ := hold_step h hc
    · obtain ⟨s', h3, h4⟩ := ih (i.step h1).1 (by omega) h2.1 h2.2.1
      refine ⟨s', .step h1 h3, ?_⟩
      rcases h4 with ⟨e1, r, e2⟩ | ⟨d, n, rest, e1, e2, e3⟩
      · exact .inl ⟨e1, r, by rw [e2, h2.2.2.2.2]⟩
      · exact .inr ⟨d, n, rest, e1, Nat.lt_of_lt_of_le e2 h2.2.2.2.1, by rw [e3, h2.2.2.2.2]⟩
    · exact ⟨s1, .step h1 (.refl ..), h2⟩

/-! ## `AddNodes` and `GetNode` end -/

/-- The call `c` of goroutine `t` ends. -/
def Ends (t : Nat) (c : Call) (s : St) : Prop := ∃ s', Solo t s s' ∧ s'.pc t = .idle ∧ ∃ r, s'.log t = (c, r) :: s.log t

/-- Nobody else holds a lock. -/
def Others (t : Nat) (s : St) : Prop := ∀ u a, u ≠ t → ¬ Holds (s.pc u) a

theorem Others.solo {t : Nat} {s s' : St} (h : Others t s) (hs : Solo t s s') : Others t s' :=
  fun u a hu => by rw [(hs.other hu).1]; exact h u a hu

theorem Ends.step {t : Nat} {c k : Call} {f : Bool} {s s1 : St} (h : s.step t k f = some s1) (hl : s1.log t = s.log t) (he : Ends t c s1) : Ends t c s := by
  obtain ⟨s', h1, h2, r, h3⟩ := he
  exact ⟨s', .step h h1, h2, r, by rw [h3, hl]⟩

theorem way_ends {t : Nat} {c : Call} : ∀ (m : Nat) {s : St}, Inv s → Others t s → ∀ {cur n rest}, s.pc t = .look c cur n rest → rest.length ≤ m → Ends t c s := by
  intro m
  -- after the lock
  have after : ∀ m, (∀ {s : St}, Inv s → Others t s → ∀ {cur n rest}, s.pc t = .look c cur n rest → rest.length < m → Ends t c s) →
      ∀ {s : St}, Inv s → Others t s → ∀ {a}, Holds (s.pc t) a → (s.pc t).call = some c → (s.pc t).rest ≤ m → Ends t c s := by
    intro m ih s i ho a h hc hm
    obtain ⟨s', h1, h2 | ⟨d, n, rest, h2, h3, h4⟩⟩ := release (rank s (s.pc t)) i (Nat.le_refl _) h hc
    · exact ⟨s', h1, h2⟩
    · obtain ⟨s'', e1, e2, r, e3⟩ := ih (h1.inv i) (ho.solo h1) h2 (Nat.lt_of_lt_of_le h3 hm)
      exact ⟨s'', h1.trans e1, e2, r, by rw [e3, h4]⟩
  induction m using Nat.strongRecOn with
  | ind m ih =>
    have ih' : ∀ {s : St}, Inv s → Others t s → ∀ {cur n rest}, s.pc t = .look c cur n rest → rest.length < m → Ends t c s :=
      fun i ho _ _ _ h hm => ih _ hm i ho h (Nat.le_refl _)
    -- nothing found
    have missed : ∀ {s : St}, Inv s → Others t s → ∀ {cur n rest arr len idx}, s.pc t = .scan c cur n rest arr len idx → rest.length ≤ m → ¬ idx < len → Ends t c s := by
      intro s i ho cur n rest arr len idx hpc hm hk
      have hs : s.step t c false = some (s.miss t c cur n rest) := by
        simp only [St.step, hpc]
        rw [if_neg hk]
      by_cases hadd : ∃ self tag names, c = .add self tag names
      · obtain ⟨self, tag, names, e⟩ := hadd
        have hs' : s.step t c false = some (s.goto t (.want c cur n rest)) := by rw [hs, e]; rfl
        have ho1 : Others t (s.goto t (.want c cur n rest)) := ho.solo (.step hs' (.refl ..))
        have i1 := (i.step hs').1
        refine .step hs' rfl ?_
        generalize hs1 : s.goto t (.want c cur n rest) = s1 at i1 ho1
        have hpc1 : s1.pc t = .want c cur n rest := by rw [← hs1]; exact upd_same ..
        have hfree : (s1.node cur).lock = none := by
          cases hl : (s1.node cur).lock with
          | none => rfl
          | some u =>
            have hh := (i1.locks cur u).1 hl
            by_cases hu : u = t
            · rw [hu, hpc1] at hh
              exact hh.elim
            · exact absurd hh (ho1 u cur hu)
        have hs2 : s1.step t c false = some ((s1.set cur { s1.node cur with lock := some t }).goto t (.locked c cur n rest)) := by
          simp only [St.step, hpc1, hfree]
        refine .step hs2 rfl (after m ih' (i1.step hs2).1 (ho1.solo (.step hs2 (.refl ..))) (a := cur) ?_ ?_ ?_)
        all_goals
          have e : ((s1.set cur { s1.node cur with lock := some t }).goto t (.locked c cur n rest)).pc t = .locked c cur n rest := upd_same ..
          rw [e]
        · rfl
        · rfl
        · exact hm
      · have : s.miss t c cur n rest = s.ret t c none := by
          cases c with
          | add self tag names => exact absurd ⟨_, _, _, rfl⟩ hadd
          | _ => rfl
        rw [this] at hs
        exact ⟨_, .step hs (.refl ..), upd_same .., none, upd_same ..⟩
    -- in the loop
    have loop : ∀ (k : Nat) {s : St}, Inv s → Others t s → ∀ {cur n rest arr len idx}, s.pc t = .scan c cur n rest arr len idx → rest.length ≤ m → len - idx ≤ k →
        Ends t c s := by
      intro k
      induction k with
      | zero => exact fun i ho _ _ _ _ _ _ hpc hm hk => missed i ho hpc hm (by omega)
      | succ k ihk =>
        intro s i ho cur n rest arr len idx hpc hm hk
        by_cases hlt : idx < len
        · have hp := i.pcs t
          rw [hpc] at hp
          cases hd : ((s.node cur).cells arr)[idx]? with
          | none =>
            rw [List.getElem?_eq_none_iff] at hd
            exact absurd (Nat.lt_of_lt_of_le hlt hp.2.2.2) (Nat.not_lt.2 hd)
          | some d =>
            by_cases hn : (s.node d).name = n
            · have hs : s.step t c false = some (s.hit t c d rest) := by
                simp only [St.step, hpc, if_pos hlt, hd, if_pos hn]
              cases rest with
              | nil => exact ⟨_, .step hs (.refl ..), upd_same .., some d, upd_same ..⟩
              | cons n' rest =>
                refine .step hs rfl (ih' (i.step hs).1 (ho.solo (.step hs (.refl ..))) (cur := d) (n := n') (rest := rest) (upd_same ..) ?_)
                rw [List.length_cons] at hm
                omega
            · have hs : s.step t c false = some (s.goto t (.scan c cur n rest arr len (idx + 1))) := by
                simp only [St.step, hpc, if_pos hlt, hd, if_neg hn]
              exact .step hs rfl (ihk (i.step hs).1 (ho.solo (.step hs (.refl ..))) (upd_same ..) hm (by omega))
        · exact missed i ho hpc hm hlt
    intro s i ho cur n rest hpc hm
    have hs : s.step t c false = some (s.goto t (.scan c cur n rest (s.node cur).arr (s.node cur).len 0)) := by
      simp only [St.step, hpc]
    exact .step hs rfl (loop _ (i.step hs).1 (ho.solo (.step hs (.refl ..))) (upd_same ..) hm (Nat.le_refl _))

theorem want_ends {t : Nat} {c : Call} (held : ∀ {s : St}, Inv s → Others t s → ∀ {a}, Holds (s.pc t) a → (s.pc t).call = some c → Ends t c s)
    {s1 : St} (i1 : Inv s1) (ho1 : Others t s1) {cur : Nat} {n : Bytes} {rest : List Bytes} (hpc1 : s1.pc t = .want c cur n rest) : Ends t c s1 := by
  have hfree : (s1.node cur).lock = none := by
    cases hl : (s1.node cur).lock with
    | none => rfl
    | some u =>
      have hh := (i1.locks cur u).1 hl
      by_cases hu : u = t
      · rw [hu, hpc1] at hh
        exact hh.elim
      · exact absurd hh (ho1 u cur hu)
  have hs2 : s1.step t c false = some ((s1.set cur { s1.node cur with lock := some t }).goto t (.locked c cur n rest)) := by
    simp only [St.step, hpc1, hfree]
  refine .step hs2 rfl (held (i1.step hs2).1 (ho1.solo (.step hs2 (.refl ..))) (a := cur) ?_ ?_)
  all_goals
    have e : ((s1.set cur { s1.node cur with lock := some t }).goto t (.locked c cur n rest)).pc t = .locked c cur n rest := upd_same ..
    rw [e]
  · rfl
  · rfl

theorem scan_ends {t : Nat} {c : Call} {s : St} (i : Inv s) (ho : Others t s) {cur : Nat} {n : Bytes} {rest : List Bytes} {arr len idx : Nat}
    (hpc : s.pc t = .scan c cur n rest arr len idx) : Ends t c s := by
  generalize hk : len - idx = k
  induction k generalizing s idx with
  | zero =>
    have hs : s.step t c false = some (s.miss t c cur n rest) := by
      simp only [St.step, hpc]
      rw [if_neg (by omega)]
    by_cases hadd : ∃ self tag names, c = .add self tag names
    · obtain ⟨self, tag, names, e⟩ := hadd
      have hs' : s.step t c false = some (s.goto t (.want c cur n rest)) := by rw [hs, e]; rfl
      refine .step hs' rfl (want_ends (fun {s} i ho {a} h hc => ?_) (i.step hs').1 (ho.solo (.step hs' (.refl ..))) (upd_same ..))
      obtain ⟨s', h1, h2 | ⟨d, n, rest, h2, h3, h4⟩⟩ := release (rank s (s.pc t)) i (Nat.le_refl _) h hc
      · exact ⟨s', h1, h2⟩
      · obtain ⟨s'', e1, e2, r, e3⟩ := way_ends _ (h1.inv i) (ho.solo h1) h2 (Nat.le_refl _)
        exact ⟨s'', h1.trans e1, e2, r, by rw [e3, h4]⟩
    · have : s.miss t c cur n rest = s.ret t c none := by
        cases c with
        | add self tag names => exact absurd ⟨_, _, _, rfl⟩ hadd
        | _ => rfl
      rw [this] at hs
      exact ⟨_, .step hs (.refl ..), upd_same .., none, upd_same ..⟩
  | succ k ih =>
    have hlt : idx < len := by omega
    have hp := i.pcs t
    rw [hpc] at hp
    cases hd : ((s.node cur).cells arr)[idx]? with
    | none =>
      rw [List.getElem?_eq_none_iff] at hd
      exact absurd (Nat.lt_of_lt_of_le hlt hp.2.2.2) (Nat.not_lt.2 hd)
    | some d =>
      by_cases hn : (s.node d).name = n
      · have hs : s.step t c false = some (s.hit t c d rest) := by
          simp only [St.step, hpc, if_pos hlt, hd, if_pos hn]
        cases rest with
        | nil => exact ⟨_, .step hs (.refl ..), upd_same .., some d, upd_same ..⟩
        | cons n' rest =>
          exact .step hs rfl (way_ends _ (i.step hs).1 (ho.solo (.step hs (.refl ..))) (cur := d) (n := n') (rest := rest) (upd_same ..) (Nat.le_refl _))
      · have hs : s.step t c false = some (s.goto t (.scan c cur n rest arr len (idx + 1))) := by
          simp only [St.step, hpc, if_pos hlt, hd, if_neg hn]
        exact .step hs rfl (ih (i.step hs).1 (ho.solo (.step hs (.refl ..))) (upd_same ..) (by omega))

/-! ## `FindNode` ends -/

/-- Steps left in the loops of `FindNode`, in a tree with `nx` nodes. -/
def frames (C nx : Nat) : List Frame → Nat
  | [] => 0
  | f :: fs => (f.len - f.idx) * (C ^ (nx - f.node - 1) + 1) + 1 + frames C nx fs

def left (C nx : Nat) : PC → Nat
  | .enter _ d _ fs => C ^ (nx - d) + frames C nx fs
  | .find _ fs => frames C nx fs
  | _ => 0

theorem enter_less {B nx d len : Nat} (hd : d < nx) (hl : len ≤ B) :
    len * ((2 * B + 2) ^ (nx - d - 1) + 1) + 1 < (2 * B + 2) ^ (nx - d) := by
  obtain ⟨k, hk⟩ : ∃ k, nx - d = k + 1 := ⟨nx - d - 1, by omega⟩
  rw [hk, Nat.add_sub_cancel, Nat.pow_succ]
  have hP : 1 ≤ (2 * B + 2) ^ k := Nat.pow_pos (by omega)
  generalize (2 * B + 2) ^ k = P at hP
  have h1 : len * (P + 1) ≤ B * (P + 1) := Nat.mul_le_mul_right _ hl
  have h2 : B * (P + 1) = B * P + B := Nat.mul_succ ..
  have h3 : P * (2 * B + 2) = B * P + B * P + 2 * P := by
    rw [Nat.mul_add, Nat.mul_comm P 2, Nat.mul_left_comm, Nat.mul_comm P B, Nat.two_mul]
  have h4 : B ≤ B * P := Nat.le_mul_of_pos_right _ hP
  omega

theorem pow_le_node {C nx a d : Nat} (hC : 0 < C) (h : a < d) : C ^ (nx - d) ≤ C ^ (nx - a - 1) := Nat.pow_le_pow_right hC (by omega)

theorem find_ends {t : Nat} {c : Call} {B nx : Nat} {nd : Nat → Node} (hB : ∀ a, a < nx → (nd a).len ≤ B) :
    ∀ (m : Nat) {s : St}, Inv s → s.node = nd → s.next = nx → (s.pc t).call = some c → (∃ fs, s.pc t = .find c fs) ∨ (∃ d ns fs, s.pc t = .enter c d ns fs) →
      left (2 * B + 2) nx (s.pc t) ≤ m → Ends t c s := by
  intro m
  induction m with
  | zero =>
    intro s i hn hx hc hpc hm
    rcases hpc with ⟨fs, hpc⟩ | ⟨d, ns, fs, hpc⟩
    · rw [hpc] at hm
      cases fs with
      | nil =>
        have hs : s.step t c false = some (s.ret t c none) := by simp only [St.step, hpc]; rfl
        exact ⟨_, .step hs (.refl ..), upd_same .., none, upd_same ..⟩
      | cons f fs =>
        simp only [left, frames] at hm
        omega
    · rw [hpc] at hm
      simp only [left] at hm
      have : 0 < (2 * B + 2) ^ (nx - d) := Nat.pow_pos (by omega)
      omega
  | succ m ih =>
    intro s i hn hx hc hpc hm
    have hp := i.pcs t
    rcases hpc with ⟨fs, hpc⟩ | ⟨d, ns, fs, hpc⟩
    · rw [hpc] at hm hp
      have hs : s.step t c false = some (s.findStep t c fs) := by simp only [St.step, hpc]
      have next : ∀ q, s.findStep t c fs = s.goto t q → q.call = some c → ((∃ fs, q = .find c fs) ∨ ∃ d ns fs, q = .enter c d ns fs) →
          left (2 * B + 2) nx q ≤ m → Ends t c s := by
        intro q h1 h2 h3 h4
        rw [h1] at hs
        have e : (s.goto t q).pc t = q := upd_same ..
        exact .step hs rfl (ih (i.step hs).1 hn hx (by rw [e]; exact h2) (by rw [e]; exact h3) (by rw [e]; exact h4))
      have done : ∀ r, s.findStep t c fs = s.ret t c r → Ends t c s := by
        intro r h1
        rw [h1] at hs
        exact ⟨_, .step hs (.refl ..), upd_same .., r, upd_same ..⟩
      cases fs with
      | nil => exact done none rfl
      | cons f fs =>
        obtain ⟨self, names, h1, h2, h3⟩ := hp
        have hf := h3 f (List.mem_cons_self ..)
        simp only [left, frames] at hm
        by_cases hlt : f.idx < f.len
        · cases hd : ((s.node f.node).cells f.arr)[f.idx]? with
          | none =>
            rw [List.getElem?_eq_none_iff] at hd
            exact absurd (Nat.lt_of_lt_of_le hlt hf.2.2.2) (Nat.not_lt.2 hd)
          | some d =>
            have hk := i.kid _ _ _ (getElem?_lt hd)
            have hE : (2 * B + 2) ^ (nx - d) ≤ (2 * B + 2) ^ (nx - f.node - 1) := pow_le_node (by omega) hk.1
            obtain ⟨k, hk'⟩ : ∃ k, f.len - f.idx = k + 1 := ⟨f.len - f.idx - 1, by omega⟩
            have hk2 : f.len - (f.idx + 1) = k := by omega
            rw [hk', Nat.succ_mul] at hm
            cases hns : f.names with
            | nil =>
              refine next (.find c fs) (by unfold St.findStep; simp only [if_pos hlt, hd, hns]) rfl (.inl ⟨fs, rfl⟩) ?_
              show frames _ _ fs ≤ m
              omega
            | cons n ns =>
              by_cases hnm : (s.node d).name = n
              · by_cases hlast : ns = []
                · exact done (some d) (by unfold St.findStep; simp only [if_pos hlt, hd, hns, if_pos hnm, if_pos hlast])
                · refine next (.enter c d ns fs) (by unfold St.findStep; simp only [if_pos hlt, hd, hns, if_pos hnm, if_neg hlast]) rfl (.inr ⟨d, ns, fs, rfl⟩) ?_
                  show _ + frames _ _ fs ≤ m
                  omega
              · refine next (.enter c d (n :: ns) ({ f with idx := f.idx + 1 } :: fs))
                  (by unfold St.findStep; simp only [if_pos hlt, hd, hns, if_neg hnm]) rfl (.inr ⟨d, n :: ns, _, rfl⟩) ?_
                show _ + ((f.len - (f.idx + 1)) * _ + 1 + frames _ _ fs) ≤ m
                rw [hk2]
                show _ + (k * ((2 * B + 2) ^ (nx - f.node - 1) + 1) + 1 + frames _ _ fs) ≤ m
                omega
        · refine next (.find c fs) (by unfold St.findStep; simp only [if_neg hlt]) rfl (.inl ⟨fs, rfl⟩) ?_
          show frames _ _ fs ≤ m
          omega
    · rw [hpc] at hm hp
      obtain ⟨self, names, h1, h2, h3, h4⟩ := hp
      obtain ⟨_, _, _, _, h5, _⟩ := h3
      have hd := h5.old h2
      have hs : s.step t c false = some (s.goto t (.find c (⟨d, (s.node d).arr, (s.node d).len, 0, ns⟩ :: fs))) := by simp only [St.step, hpc]
      have e : (s.goto t (.find c (⟨d, (s.node d).arr, (s.node d).len, 0, ns⟩ :: fs))).pc t = .find c (⟨d, (s.node d).arr, (s.node d).len, 0, ns⟩ :: fs) := upd_same ..
      refine .step hs rfl (ih (i.step hs).1 hn hx (by rw [e]; rfl) (by rw [e]; exact .inl ⟨_, rfl⟩) ?_)
      rw [e]
      have hl : (s.node d).len ≤ B := by rw [hn]; exact hB d (hx ▸ hd)
      have := enter_less (nx := nx) (hx ▸ hd) hl
      simp only [left, frames, Nat.sub_zero] at hm ⊢
      omega

/-- Without others holding locks, every call ends. -/
theorem call_ends {s : St} (i : Inv s) {t : Nat} (ho : Others t s) {c : Call} (hc : (s.pc t).call = some c) : Ends t c s := by
  have hB : ∃ B, ∀ a, a < s.next → (s.node a).len ≤ B := by
    generalize s.next = k
    induction k with
    | zero => exact ⟨0, fun a ha => absurd ha (Nat.not_lt_zero _)⟩
    | succ k ih =>
      obtain ⟨B, hB⟩ := ih
      refine ⟨max B (s.node k).len, fun a ha => ?_⟩
      by_cases hk : a = k
      · rw [hk]; exact Nat.le_max_right ..
      · exact Nat.le_trans (hB a (by omega)) (Nat.le_max_left ..)
  obtain ⟨B, hB⟩ := hB
  -- with the lock
  have held : ∀ {s : St}, Inv s → Others t s → ∀ {a}, Holds (s.pc t) a → (s.pc t).call = some c → Ends t c s := by
    intro s i ho a h hc
    obtain ⟨s', h1, h2 | ⟨d, n, rest, h2, h3, h4⟩⟩ := release (rank s (s.pc t)) i (Nat.le_refl _) h hc
    · exact ⟨s', h1, h2⟩
    · obtain ⟨s'', e1, e2, r, e3⟩ := way_ends _ (h1.inv i) (ho.solo h1) h2 (Nat.le_refl _)
      exact ⟨s'', h1.trans e1, e2, r, by rw [e3, h4]⟩
  cases hpc : s.pc t with
  | idle => rw [hpc] at hc; cases hc
  | look k cur n rest => rw [hpc] at hc; cases hc; exact way_ends _ i ho hpc (Nat.le_refl _)
  | scan k cur n rest arr len idx => rw [hpc] at hc; cases hc; exact scan_ends i ho hpc
  | want k cur n rest => rw [hpc] at hc; cases hc; exact want_ends held i ho hpc
  | locked k cur n rest => exact held i ho (a := cur) (by rw [hpc]; rfl) hc
  | appended k cur child arr rest => exact held i ho (a := cur) (by rw [hpc]; rfl) hc
  | linked k cur child rest => exact held i ho (a := cur) (by rw [hpc]; rfl) hc
  | shift k cur j => exact held i ho (a := cur) (by rw [hpc]; rfl) hc
  | unlock k cur r rest => exact held i ho (a := cur) (by rw [hpc]; rfl) hc
  | enter k d ns fs =>
    have hc' := hc
    rw [hpc] at hc
    cases hc
    exact find_ends hB _ i rfl rfl hc' (.inr ⟨d, ns, fs, hpc⟩) (Nat.le_refl _)
  | find k fs =>
    have hc' := hc
    rw [hpc] at hc
    cases hc
    exact find_ends hB _ i rfl rfl hc' (.inl ⟨fs, hpc⟩) (Nat.le_refl _)
  | panic k =>
    have := i.pcs t
    rw [hpc] at this
    exact this.elim

/-! ## All calls end -/

/-- What one goroutine has done since `s0`: nothing, or it has ended its call. -/
def Meanwhile (s0 s : St) (u : Nat) : Prop :=
  ((s.pc u).call = (s0.pc u).call ∧ s.log u = s0.log u) ∨ ((s0.pc u).call ≠ none ∧ Ended s0 s u)

theorem call_none {q : PC} (h : q.call = none) : q = .idle := by
  cases q <;> first | rfl | cases h

theorem all_released {s0 : St} : ∀ (T : List Nat) {s : St}, Inv s → (∀ u, Meanwhile s0 s u) → (∀ u a, Holds (s.pc u) a → u ∈ T) →
    ∃ l s', (∀ e ∈ l, e.1 ∈ T) ∧ s.run l = some s' ∧ Inv s' ∧ (∀ u, Meanwhile s0 s' u) ∧ ∀ u a, ¬ Holds (s'.pc u) a := by
  intro T
  induction T with
  | nil => exact fun {s} i hm hh => ⟨[], s, fun _ h => (by cases h), rfl, i, hm, fun u a h => (by cases hh u a h)⟩
  | cons t T ih =>
    intro s i hm hh
    by_cases ht : ∃ a, Holds (s.pc t) a
    · obtain ⟨a, ht⟩ := ht
      obtain ⟨c, hc⟩ : ∃ c, (s.pc t).call = some c := by
        cases hpc : s.pc t <;> rw [hpc] at ht <;> first | exact ht.elim | exact ⟨_, rfl⟩
      obtain ⟨s1, h1, h2⟩ := release (rank s (s.pc t)) i (Nat.le_refl _) ht hc
      have hm0 : (s.pc t).call = (s0.pc t).call ∧ s.log t = s0.log t := by
        rcases hm t with h | ⟨_, h, _⟩
        · exact h
        · rw [h] at hc; cases hc
      have hm1 : ∀ u, Meanwhile s0 s1 u := by
        intro u
        by_cases hu : u = t
        · subst hu
          rcases h2 with ⟨e1, r, e2⟩ | ⟨d, n, rest, e1, _, e3⟩
          · refine .inr ⟨by rw [← hm0.1, hc]; exact fun h => (by cases h), e1, ?_⟩
            rw [← hm0.1, hc]
            exact ⟨r, by rw [e2, hm0.2]⟩
          · refine .inl ⟨?_, e3.trans hm0.2⟩
            rw [← hm0.1, hc, e1]
            rfl
        · obtain ⟨o1, o2⟩ := h1.other hu
          unfold Meanwhile Ended
          rw [o1, o2]
          exact hm u
      have hh1 : ∀ u b, Holds (s1.pc u) b → u ∈ T := by
        intro u b h
        by_cases hu : u = t
        · subst hu
          rcases h2 with ⟨e1, _⟩ | ⟨d, n, rest, e1, _⟩ <;> rw [e1] at h <;> exact h.elim
        · rw [(h1.other hu).1] at h
          rcases List.mem_cons.1 (hh u b h) with h | h
          · exact absurd h hu
          · exact h
      obtain ⟨l, s', e1, e2, e3⟩ := ih (h1.inv i) hm1 hh1
      obtain ⟨l0, q1, q2⟩ := h1
      refine ⟨l0 ++ l, s', fun e he => ?_, run_append q2 e2, e3⟩
      rcases List.mem_append.1 he with he | he
      · rw [q1 e he]; exact List.mem_cons_self ..
      · exact List.mem_cons_of_mem _ (e1 e he)
    · obtain ⟨l, s', e1, e2⟩ := ih i hm fun u a h => by
        rcases List.mem_cons.1 (hh u a h) with rfl | h'
        · exact absurd ⟨a, h⟩ ht
        · exact h'
      exact ⟨l, s', fun e he => List.mem_cons_of_mem _ (e1 e he), e2⟩

theorem all_ended {s0 : St} : ∀ (T : List Nat) {s : St}, Inv s → (∀ u, Meanwhile s0 s u) → (∀ u a, ¬ Holds (s.pc u) a) → (∀ u, s.pc u ≠ .idle → u ∈ T) →
    ∃ l s', (∀ e ∈ l, e.1 ∈ T) ∧ s.run l = some s' ∧ ∀ u, Ended s0 s' u := by
  intro T
  induction T with
  | nil =>
    intro s i hm hh hb
    refine ⟨[], s, fun _ h => (by cases h), rfl, fun u => ?_⟩
    have hidle : s.pc u = .idle := by
      apply Classical.byContradiction
      intro h
      cases hb u h
    rcases hm u with ⟨h1, h2⟩ | ⟨_, h⟩
    · refine ⟨hidle, ?_⟩
      rw [← h1, hidle]
      exact h2
    · exact h
  | cons t T ih =>
    intro s i hm hh hb
    cases hc : (s.pc t).call with
    | none =>
      obtain ⟨l, s', e1, e2⟩ := ih i hm hh fun u hu => by
        rcases List.mem_cons.1 (hb u hu) with rfl | h
        · exact absurd (call_none hc) hu
        · exact h
      exact ⟨l, s', fun e he => List.mem_cons_of_mem _ (e1 e he), e2⟩
    | some c =>
      obtain ⟨s1, h1, h2, r, h3⟩ := call_ends i (fun u a _ => hh u a) hc
      have hm0 : (s.pc t).call = (s0.pc t).call ∧ s.log t = s0.log t := by
        rcases hm t with h | ⟨_, h, _⟩
        · exact h
        · rw [h] at hc; cases hc
      have hm1 : ∀ u, Meanwhile s0 s1 u := by
        intro u
        by_cases hu : u = t
        · subst hu
          refine .inr ⟨by rw [← hm0.1, hc]; exact fun h => (by cases h), h2, ?_⟩
          rw [← hm0.1, hc]
          exact ⟨r, by rw [h3, hm0.2]⟩
        · obtain ⟨o1, o2⟩ := h1.other hu
          unfold Meanwhile Ended
          rw [o1, o2]
          exact hm u
      obtain ⟨l, s', e1, e2, e3⟩ := ih (h1.inv i) hm1 (fun u a h => by
        by_cases hu : u = t
        · subst hu
          rw [h2] at h
          exact h.elim
        · rw [(h1.other hu).1] at h
          exact hh u a h) (fun u hu => by
        by_cases hut : u = t
        · subst hut
          exact absurd h2 hu
        · rw [(h1.other hut).1] at hu
          rcases List.mem_cons.1 (hb u hu) with h | h
          · exact absurd h hut
          · exact h)
      obtain ⟨l0, q1, q2⟩ := h1
      refine ⟨l0 ++ l, s', fun e he => ?_, run_append q2 e2, e3⟩
      rcases List.mem_append.1 he with he | he
      · rw [q1 e he]; exact List.mem_cons_self ..
      · exact List.mem_cons_of_mem _ (e1 e he)

end Verif.TreeAll
