import Verif.Spec.TreeAll
import Verif.Lemmas.TreeAll
/-!
# Executions of `Model/TreeAll`
-/
namespace Verif.TreeAll

/-! ## One goroutine at a time -/

theorem hit_other {s : St} {t u : Nat} (hu : u ≠ t) (c : Call) (d : Nat) (rest : List Bytes) :
    (s.hit t c d rest).pc u = s.pc u ∧ (s.hit t c d rest).log u = s.log u := by
  cases rest <;> simp [St.hit, St.ret, St.goto, upd, hu]

theorem miss_other {s : St} {t u : Nat} (hu : u ≠ t) (c : Call) (d : Nat) (n : Bytes) (rest : List Bytes) :
    (s.miss t c d n rest).pc u = s.pc u ∧ (s.miss t c d n rest).log u = s.log u := by
  cases c <;> simp [St.miss, St.ret, St.goto, upd, hu]

theorem begin_other {s : St} {t u : Nat} (hu : u ≠ t) (c : Call) :
    (s.begin t c).pc u = s.pc u ∧ (s.begin t c).log u = s.log u := by
  cases c <;> simp only [St.begin] <;> (try split) <;> simp [St.ret, St.goto, upd, hu]

theorem findStep_other {s : St} {t u : Nat} (hu : u ≠ t) (c : Call) (fs : List Frame) :
    (s.findStep t c fs).pc u = s.pc u ∧ (s.findStep t c fs).log u = s.log u := by
  unfold St.findStep
  repeat' split
  all_goals simp [St.ret, St.goto, upd, hu]

/-- A step of goroutine `t` leaves the others where they are. -/
theorem step_other {s s' : St} {t u : Nat} {c : Call} {f : Bool} (h : s.step t c f = some s') (hu : u ≠ t) :
    s'.pc u = s.pc u ∧ s'.log u = s.log u := by
  unfold St.step at h
  cases hpc : s.pc t with
  | idle =>
    rw [hpc] at h
    dsimp only at h
    split at h <;> cases h
    exact begin_other hu c
  | look c cur n rest => rw [hpc] at h; cases h; simp [St.goto, upd, hu]
  | scan c cur n rest arr len idx =>
    rw [hpc] at h
    dsimp only at h
    repeat' split at h
    all_goals cases h
    · simp [St.goto, upd, hu]
    · exact hit_other hu ..
    · simp [St.goto, upd, hu]
    · exact miss_other hu ..
  | want c cur n rest =>
    rw [hpc] at h
    dsimp only at h
    split at h <;> cases h
    simp [St.goto, St.set, upd, hu]
  | locked c cur n rest =>
    rw [hpc] at h
    cases c <;> dsimp only at h
    case del =>
      split at h <;> cases h <;> simp [St.goto, upd, hu]
    all_goals
      cases h
      simp [St.append, upd, hu]
  | appended c cur child arr rest => rw [hpc] at h; cases h; simp [St.goto, St.set, upd, hu]
  | linked c cur child rest => rw [hpc] at h; cases h; simp [St.goto, St.set, upd, hu]
  | shift c cur j =>
    rw [hpc] at h
    cases h
    unfold St.shift
    dsimp only
    split <;> simp [St.goto, St.set, upd, hu]
  | unlock c cur r rest =>
    rw [hpc] at h
    cases r <;> cases h
    · simp [St.ret, St.set, upd, hu]
    · exact hit_other hu ..
  | enter c d ns fs => rw [hpc] at h; cases h; simp [St.goto, upd, hu]
  | find c fs => rw [hpc] at h; cases h; exact findStep_other hu ..
  | panic c => rw [hpc] at h; cases h

/-- Where a goroutine with nothing to do with deletions and additions cannot come to. -/
def Plain : PC → Prop
  | .locked _ _ _ _ | .appended _ _ _ _ _ | .linked _ _ _ _ | .shift _ _ _ | .unlock _ _ _ _ => False
  | .want c _ _ _ => ∃ self tag names, c = .add self tag names
  | _ => True

theorem hit_plain {s : St} {t : Nat} (c : Call) (d : Nat) (rest : List Bytes) : Plain ((s.hit t c d rest).pc t) := by
  cases rest <;> simp [St.hit, St.ret, St.goto, upd, Plain]

theorem miss_plain {s : St} {t : Nat} (c : Call) (d : Nat) (n : Bytes) (rest : List Bytes) : Plain ((s.miss t c d n rest).pc t) := by
  cases c <;> simp [St.miss, St.ret, St.goto, upd, Plain]

theorem findStep_plain {s : St} {t : Nat} (c : Call) (fs : List Frame) : Plain ((s.findStep t c fs).pc t) := by
  unfold St.findStep
  repeat' split
  all_goals simp [St.ret, St.goto, upd, Plain]

/-- Where the step of a goroutine leads. -/
theorem step_self {s s' : St} {t : Nat} {c : Call} {f : Bool} (h : s.step t c f = some s') :
    (s.pc t = .idle ∧ ∃ self name, c = .del self name ∧ s'.pc t = .want c self name []) ∨
    (∃ k cur n rest, s.pc t = .want k cur n rest ∧ s'.pc t = .locked k cur n rest) ∨
    (∃ self name cur n rest, s.pc t = .locked (.del self name) cur n rest ∧
      ((∃ j, s'.pc t = .shift (.del self name) cur j) ∨ s'.pc t = .unlock (.del self name) cur none rest)) ∨
    (∃ k cur n rest arr, s.pc t = .locked k cur n rest ∧ s'.pc t = .appended k cur s.next arr rest) ∨
    (∃ k cur child arr rest, s.pc t = .appended k cur child arr rest ∧ s'.pc t = .linked k cur child rest) ∨
    (∃ k cur child rest, s.pc t = .linked k cur child rest ∧ s'.pc t = .unlock k cur (some child) rest) ∨
    (∃ k cur j, s.pc t = .shift k cur j ∧ (s'.pc t = .shift k cur (j + 1) ∨ s'.pc t = .unlock k cur none [])) ∨
    (Plain (s'.pc t) ∧ (s.pc t = .idle → ∀ p n, c ≠ .del p n) ∧ (∀ k cur n rest, s.pc t ≠ .want k cur n rest) ∧
      (∀ k cur n rest, s.pc t ≠ .locked k cur n rest) ∧
      (∀ k cur child arr rest, s.pc t ≠ .appended k cur child arr rest) ∧ ∀ k cur j, s.pc t ≠ .shift k cur j) := by
  unfold St.step at h
  cases hpc : s.pc t with
  | idle =>
    rw [hpc] at h
    dsimp only at h
    split at h <;> cases h
    cases c <;> simp only [St.begin] <;> (try split) <;> simp [St.ret, St.goto, upd, Plain]
  | look c cur n rest => rw [hpc] at h; cases h; simp [St.goto, upd, Plain]
  | scan c cur n rest arr len idx =>
    rw [hpc] at h
    dsimp only at h
    repeat' split at h
    all_goals cases h
    · simp [St.goto, upd, Plain]
    · simp [hit_plain]
    · simp [St.goto, upd, Plain]
    · simp [miss_plain]
  | want c cur n rest =>
    rw [hpc] at h
    dsimp only at h
    split at h <;> cases h
    exact .inr (.inl ⟨c, cur, n, rest, rfl, upd_same ..⟩)
  | locked c cur n rest =>
    rw [hpc] at h
    cases c <;> dsimp only at h
    case del =>
      split at h <;> cases h
      · exact .inr (.inr (.inl ⟨_, _, cur, n, rest, rfl, .inr (upd_same ..)⟩))
      · exact .inr (.inr (.inl ⟨_, _, cur, n, rest, rfl, .inl ⟨_, upd_same ..⟩⟩))
    all_goals
      cases h
      exact .inr (.inr (.inr (.inl ⟨_, cur, n, rest, _, rfl, upd_same ..⟩)))
  | appended c cur child arr rest =>
    rw [hpc] at h
    cases h
    exact .inr (.inr (.inr (.inr (.inl ⟨c, cur, child, arr, rest, rfl, upd_same ..⟩))))
  | linked c cur child rest =>
    rw [hpc] at h
    cases h
    exact .inr (.inr (.inr (.inr (.inr (.inl ⟨c, cur, child, rest, rfl, upd_same ..⟩)))))
  | shift c cur j =>
    rw [hpc] at h
    cases h
    unfold St.shift
    dsimp only
    split
    · exact .inr (.inr (.inr (.inr (.inr (.inr (.inl ⟨c, cur, j, rfl, .inl (upd_same ..)⟩))))))
    · exact .inr (.inr (.inr (.inr (.inr (.inr (.inl ⟨c, cur, j, rfl, .inr (upd_same ..)⟩))))))
  | unlock c cur r rest =>
    rw [hpc] at h
    cases r <;> cases h
    · simp [St.ret, St.set, upd, Plain]
    · simp [hit_plain]
  | enter c d ns fs => rw [hpc] at h; cases h; simp [St.goto, upd, Plain]
  | find c fs => rw [hpc] at h; cases h; simp [findStep_plain]
  | panic c => rw [hpc] at h; cases h

/-- A `DeleteNode` that runs after a step ran before it, or begins with it. -/
theorem Deleting.back {s s' : St} (i : Inv s) {t u p : Nat} {c : Call} {f : Bool} {n : Bytes} (h : s.step t c f = some s') (hd : Deleting s' u p n) :
    Deleting s u p n ∨ u = t ∧ s.pc t = .idle ∧ c = .del p n := by
  by_cases hu : u = t
  · subst hu
    have hp := i.pcs u
    obtain ⟨rest, j, hd⟩ := hd
    rcases step_self h with ⟨h1, self, name, h2, h3⟩ | ⟨k, cur, m, r, h1, h2⟩ | ⟨self, name, cur, m, r, h1, ⟨j', h2⟩ | h2⟩ | ⟨k, cur, m, r, arr, h1, h2⟩ |
      ⟨k, cur, ch, arr, r, h1, h2⟩ | ⟨k, cur, ch, r, h1, h2⟩ | ⟨k, cur, j', h1, h2 | h2⟩ | ⟨h1, _⟩
    · subst h2
      rw [h3] at hd
      rcases hd with hd | hd | hd <;> cases hd
      exact .inr ⟨rfl, h1, rfl⟩
    · rw [h2] at hd
      rcases hd with hd | hd | hd <;> cases hd
      exact .inl ⟨rest, j, .inl h1⟩
    · rw [h2] at hd
      rw [h1] at hp
      rcases hp with ⟨_, _, _, _, hp, _⟩ | ⟨hp, _, _⟩
      · cases hp
      · cases hp
        rcases hd with hd | hd | hd <;> cases hd
        exact .inl ⟨_, j, .inr (.inl h1)⟩
    · rw [h2] at hd
      rcases hd with hd | hd | hd <;> cases hd
    · rw [h2] at hd
      rcases hd with hd | hd | hd <;> cases hd
    · rw [h2] at hd
      rcases hd with hd | hd | hd <;> cases hd
    · rw [h2] at hd
      rcases hd with hd | hd | hd <;> cases hd
    · rw [h2] at hd
      rcases hd with hd | hd | hd <;> cases hd
      exact .inl ⟨[], j', .inr (.inr h1)⟩
    · rw [h2] at hd
      rcases hd with hd | hd | hd <;> cases hd
    · rcases hd with hd | hd | hd <;> rw [hd] at h1
      · obtain ⟨_, _, _, h1⟩ := h1
        cases h1
      · exact h1.elim
      · exact h1.elim
  · obtain ⟨rest, j, hd⟩ := hd
    rw [(step_other h hu).1] at hd
    exact .inl ⟨rest, j, hd⟩

theorem begun_cons {s s' : St} {t : Nat} {c : Call} {f : Bool} (h : s.step t c f = some s') (l : List (Nat × Call × Bool)) (p : Nat) (n : Bytes) :
    begun p n s' l ≤ begun p n s ((t, c, f) :: l) ∧ (s.pc t = .idle → c = .del p n → begun p n s ((t, c, f) :: l) = begun p n s' l + 1) := by
  conv => rhs; rw [begun.eq_2]
  rw [begun.eq_2, h]
  dsimp only
  refine ⟨Nat.le_add_left _ _, fun h1 h2 => ?_⟩
  rw [h1]
  dsimp only
  rw [if_pos h2, Nat.add_comm]

theorem Deletes.back {s s' : St} (i : Inv s) {t p : Nat} {c : Call} {f : Bool} {n : Bytes} (h : s.step t c f = some s') {l : List (Nat × Call × Bool)}
    (hd : Deletes s' l p n) : Deletes s ((t, c, f) :: l) p n := by
  rcases hd with ⟨u, hd⟩ | hd
  · rcases hd.back i h with hd | ⟨_, h1, h2⟩
    · exact .inl ⟨u, hd⟩
    · exact .inr (by rw [(begun_cons h l p n).2 h1 h2]; omega)
  · exact .inr (Nat.lt_of_lt_of_le hd (begun_cons h l p n).1)

/-- A node of which only the cell is written was so before the step, or is new. -/
theorem appended_back {s s' : St} {t u p child arr : Nat} {c k : Call} {f : Bool} {rest : List Bytes} (h : s.step t c f = some s')
    (ha : s'.pc u = .appended k p child arr rest) : s.pc u = .appended k p child arr rest ∨ child = s.next := by
  by_cases hu : u = t
  · subst hu
    rcases step_self h with ⟨h1, self, name, h2, h3⟩ | ⟨k, cur, m, r, h1, h2⟩ | ⟨self, name, cur, m, r, h1, ⟨j', h2⟩ | h2⟩ | ⟨k, cur, m, r, arr, h1, h2⟩ |
      ⟨k, cur, ch, arr, r, h1, h2⟩ | ⟨k, cur, ch, r, h1, h2⟩ | ⟨k, cur, j', h1, h2 | h2⟩ | ⟨h1, _⟩
    · rw [h3] at ha; cases ha
    · rw [h2] at ha; cases ha
    · rw [h2] at ha; cases ha
    · rw [h2] at ha; cases ha
    · rw [h2] at ha; cases ha; exact .inr rfl
    · rw [h2] at ha; cases ha
    · rw [h2] at ha; cases ha
    · rw [h2] at ha; cases ha
    · rw [h2] at ha; cases ha
    · rw [ha] at h1; exact h1.elim
  · rw [(step_other h hu).1] at ha
    exact .inl ha

/-! ## The children of a node in an execution -/

theorem Inv.content_old {s : St} (i : Inv s) {p : Nat} {L : List Nat} (h : Content s p L) {d : Nat} (hd : d ∈ L) : d < s.next := by
  rcases h with ⟨_, h⟩ | ⟨_, _, _, _, _, _, _, _, _, _, _, h⟩
  · subst h
    exact (i.kid p _ d (List.mem_of_mem_take hd)).2.1
  · exact h d hd

/-- The number of children of the name that are not kept. -/
def lost (s : St) (n : Bytes) (L kept : List Nat) : Nat := (L.filter fun d => decide ((s.node d).name = n ∧ d ∉ kept)).length

theorem lost_names {s s' : St} {n : Bytes} {L kept : List Nat} (h : ∀ d ∈ L, (s'.node d).name = (s.node d).name) : lost s' n L kept = lost s n L kept := by
  unfold lost
  congr 1
  exact List.filter_congr fun d hd => by rw [h d hd]

theorem filter_length_le {p : Nat → Bool} : ∀ {L : List Nat} (M : List Nat), (L.filter p).length ≤ ((L ++ M).filter p).length := by
  intro L M
  rw [List.filter_append, List.length_append]
  omega

theorem filter_length_imp {p q : Nat → Bool} {L : List Nat} (h : ∀ d ∈ L, p d = true → q d = true) : (L.filter p).length ≤ (L.filter q).length := by
  induction L with
  | nil => exact Nat.le_refl _
  | cons a L ih =>
    have ih := ih fun d hd => h d (List.mem_cons_of_mem _ hd)
    have ha := h a (List.mem_cons_self ..)
    rw [List.filter_cons, List.filter_cons]
    cases hp : p a
    · cases hq : q a
      · simpa using ih
      · simp; omega
    · rw [ha hp]
      simpa using ih

/-- What an execution does to the children of a node. -/
theorem Inv.content_run {s s' : St} (i : Inv s) {l : List (Nat × Call × Bool)} (h : s.run l = some s') {p : Nat} {L : List Nat} (hL : Content s p L) :
    ∃ kept added, Content s' p (kept ++ added) ∧ kept.Sublist L ∧
      (∀ x ∈ added, s.next ≤ x ∨ ∃ u c arr rest, s.pc u = .appended c p x arr rest) ∧
      ∀ (n : Bytes) (W : List Nat), (∀ u, Deleting s u p n → u ∈ W) → lost s n L kept ≤ W.length + begun p n s l := by
  induction l generalizing s L with
  | nil =>
    cases h
    refine ⟨L, [], by rwa [List.append_nil], List.Sublist.refl _, fun _ h => (by cases h), fun n W _ => ?_⟩
    have : lost s' n L L = 0 := by
      unfold lost
      rw [List.length_eq_zero_iff, List.filter_eq_nil_iff]
      intro d hd
      simp [hd]
    rw [this]
    exact Nat.zero_le _
  | cons e l ih =>
    obtain ⟨t, c, f⟩ := e
    obtain ⟨s1, h1, h2⟩ := run_cons h
    dsimp only at h1
    obtain ⟨i1, g1, hc⟩ := i.step h1
    obtain ⟨L1, hL1, he⟩ := hc p L hL
    obtain ⟨kept, added, k1, k2, k3, k4⟩ := ih i1 h2 hL1
    have hadd : ∀ x ∈ added, s.next ≤ x ∨ ∃ u c arr rest, s.pc u = .appended c p x arr rest := by
      intro x hx
      rcases k3 x hx with h | ⟨u, k, arr, rest, h⟩
      · exact .inl (Nat.le_trans g1.next h)
      · rcases appended_back h1 h with h | h
        · exact .inr ⟨u, k, arr, rest, h⟩
        · exact .inl (Nat.le_of_eq h.symm)
    have hnames : ∀ d ∈ L, (s1.node d).name = (s.node d).name := fun d hd => g1.name d (i.content_old hL hd)
    -- the goroutines that are deleting after the step
    have hW : ∀ (n : Bytes) (W : List Nat), (∀ u, Deleting s u p n → u ∈ W) → lost s1 n L1 kept ≤ W.length + begun p n s ((t, c, f) :: l) := by
      intro n W hW
      by_cases hb : s.pc t = .idle ∧ c = .del p n
      · have := k4 n (t :: W) (fun u hu => by
          rcases hu.back i h1 with hu | ⟨hu, _⟩
          · exact List.mem_cons_of_mem _ (hW u hu)
          · exact hu ▸ List.mem_cons_self ..)
        rw [(begun_cons h1 l p n).2 hb.1 hb.2]
        rw [List.length_cons] at this
        omega
      · have := k4 n W (fun u hu => by
          rcases hu.back i h1 with hu | ⟨_, hu⟩
          · exact hW u hu
          · exact absurd hu hb)
        have := (begun_cons h1 l p n).1
        omega
    rcases he with he | ⟨u, k, child, arr, rest, he, he2⟩ | ⟨u, A, x, B, j, he, he', e1, e2, e3⟩
    · subst he
      refine ⟨kept, added, k1, k2, hadd, fun n W hw => ?_⟩
      rw [← lost_names hnames]
      exact hW n W hw
    · subst he2
      obtain ⟨q1, q2, hq, hq1, hq2⟩ := List.sublist_append_iff.1 k2
      subst hq
      refine ⟨q1, q2 ++ added, by rwa [← List.append_assoc], hq1, fun x hx => ?_, fun n W hw => ?_⟩
      · rcases List.mem_append.1 hx with hx | hx
        · have := hq2.subset hx
          rw [List.mem_singleton] at this
          subst this
          exact .inr ⟨u, k, arr, rest, he⟩
        · exact hadd x hx
      · refine Nat.le_trans ?_ (hW n W hw)
        unfold lost
        refine Nat.le_trans (filter_length_imp (q := fun d => decide ((s1.node d).name = n ∧ d ∉ q1 ++ q2)) fun d hd hp => ?_) (filter_length_le [child])
        rw [decide_eq_true_eq] at hp ⊢
        refine ⟨by rw [hnames d hd]; exact hp.1, fun hm => ?_⟩
        rcases List.mem_append.1 hm with hm | hm
        · exact hp.2 hm
        · have := hq2.subset hm
          rw [List.mem_singleton] at this
          subst this
          have := i.content_seen (t := u) (p := p) (by rw [he]; rfl) (fun c j h => by rw [he] at h; cases h) hL
          exact (i.app u _ _ _ _ _ he).2.1 (this.2 ▸ hd)
    · subst e1 e2
      refine ⟨kept, added, k1, k2.trans (List.Sublist.append (List.Sublist.refl _) (List.sublist_cons_self _ _)), hadd, fun n W hw => ?_⟩
      rw [← lost_names hnames]
      have hsplit : lost s1 n (A ++ x :: B) kept ≤ lost s1 n (A ++ B) kept + if (s.node x).name = n then 1 else 0 := by
        unfold lost
        rw [List.filter_append, List.filter_append, List.filter_cons, List.length_append, List.length_append]
        have hx : (s1.node x).name = (s.node x).name := hnames x (List.mem_append_right _ (List.mem_cons_self ..))
        split
        · rename_i h
          rw [decide_eq_true_eq, hx] at h
          rw [if_pos h.1, List.length_cons]
          omega
        · omega
      by_cases hx : (s.node x).name = n
      · rw [if_pos hx] at hsplit
        have hdel : Deleting s u p n := ⟨[], j, .inr (.inr (hx ▸ he))⟩
        have hmem := hw u hdel
        -- this step is one of goroutine `u`, which is then done
        have hnot : ¬ Deleting s1 u p n := by
          rintro ⟨_, _, h | h | h⟩ <;> rw [he'] at h <;> cases h
        have hut : u = t := by
          apply Classical.byContradiction
          intro hut
          rw [(step_other h1 hut).1, he] at he'
          cases he'
        have := k4 n (W.erase u) (fun v hv => by
          have hvu : v ≠ u := fun e => hnot (e ▸ hv)
          rcases hv.back i h1 with h | ⟨h3, h4, h5⟩
          · rw [List.mem_erase_of_ne hvu]
            exact hw v h
          · subst hut
            rw [he] at h4
            cases h4)
        rw [List.length_erase_of_mem hmem] at this
        have := (begun_cons h1 l p n).1
        have : 0 < W.length := List.length_pos_of_mem hmem
        omega
      · rw [if_neg hx] at hsplit
        exact Nat.le_trans hsplit (hW n W hw)

/-! ## A child that is deleted -/

/-- `d` is not about to become a child of `p`. -/
def NotComing (s : St) (p d : Nat) : Prop := d < s.next ∧ ∀ u c arr rest, s.pc u ≠ .appended c p d arr rest

theorem NotComing.step {s s' : St} {p d t : Nat} {c : Call} {f : Bool} (hn : NotComing s p d) (g : Grows s s') (h : s.step t c f = some s') :
    NotComing s' p d := by
  refine ⟨Nat.lt_of_lt_of_le hn.1 g.next, fun u k arr rest ha => ?_⟩
  rcases appended_back h ha with h | h
  · exact hn.2 u k arr rest h
  · exact Nat.lt_irrefl _ (h ▸ hn.1)

theorem Evo.gone {s s' : St} {p d : Nat} {L L' : List Nat} (he : Evo s s' p L L') (hn : NotComing s p d) (hd : d ∉ L) : d ∉ L' := by
  rcases he with rfl | ⟨u, k, child, arr, rest, h, rfl⟩ | ⟨u, A, x, B, j, _, _, rfl, rfl, _⟩
  · exact hd
  · intro hm
    rcases List.mem_append.1 hm with hm | hm
    · exact hd hm
    · rw [List.mem_singleton] at hm
      subst hm
      exact hn.2 _ _ _ _ h
  · intro hm
    refine hd ?_
    rcases List.mem_append.1 hm with hm | hm
    · exact List.mem_append_left _ hm
    · exact List.mem_append_right _ (List.mem_cons_of_mem _ hm)

/-- `d` is the first of its name in the list, and only once there. -/
def FirstIn (s : St) (L : List Nat) (d : Nat) : Prop := ∃ A B, L = A ++ d :: B ∧ (∀ a ∈ A, (s.node a).name ≠ (s.node d).name) ∧ d ∉ B

/-- `d` is gone or still the first of its name. -/
theorem Evo.first {s s' : St} (i : Inv s) (g : Grows s s') {p d : Nat} {L L' : List Nat} (hL : Content s p L) (he : Evo s s' p L L') (hn : NotComing s p d)
    (hd : FirstIn s L d) : FirstIn s' L' d ∨ d ∉ L' := by
  obtain ⟨A, B, e1, e2, e3⟩ := hd
  have hnm : ∀ a ∈ L, (s'.node a).name = (s.node a).name := fun a ha => g.name a (i.content_old hL ha)
  have hdL : d ∈ L := e1 ▸ List.mem_append_right _ (List.mem_cons_self ..)
  have hA : ∀ a ∈ A, (s'.node a).name ≠ (s'.node d).name := by
    intro a ha
    rw [hnm d hdL, hnm a (e1 ▸ List.mem_append_left _ ha)]
    exact e2 a ha
  rcases he with rfl | ⟨u, k, child, arr, rest, h, rfl⟩ | ⟨u, A', x, B', j, _, _, h1, rfl, h2⟩
  · exact .inl ⟨A, B, e1, hA, e3⟩
  · refine .inl ⟨A, B ++ [child], by rw [e1, List.append_assoc, List.cons_append], hA, fun hm => ?_⟩
    rcases List.mem_append.1 hm with hm | hm
    · exact e3 hm
    · rw [List.mem_singleton] at hm
      subst hm
      exact hn.2 _ _ _ _ h
  · rw [e1] at h1
    rcases List.append_eq_append_iff.1 h1 with ⟨M, q1, q2⟩ | ⟨M, q1, q2⟩
    · -- `x` is `d` or behind it
      cases M with
      | nil =>
        rw [List.append_nil] at q1
        rw [List.nil_append] at q2
        cases q2
        refine .inr fun hm => ?_
        rw [q1] at hm
        rcases List.mem_append.1 hm with hm | hm
        · exact e2 d hm rfl
        · exact e3 hm
      | cons y M =>
        rw [List.cons_append] at q2
        cases q2
        refine .inl ⟨A, M ++ B', by rw [q1, List.append_assoc, List.cons_append], hA, fun hm => e3 ?_⟩
        rcases List.mem_append.1 hm with hm | hm
        · exact List.mem_append_left _ hm
        · exact List.mem_append_right _ (List.mem_cons_of_mem _ hm)
    · -- `x` is before `d`
      cases M with
      | nil =>
        rw [List.append_nil] at q1
        rw [List.nil_append] at q2
        cases q2
        refine .inr fun hm => ?_
        rw [← q1] at hm
        rcases List.mem_append.1 hm with hm | hm
        · exact e2 d hm rfl
        · exact e3 hm
      | cons y M =>
        rw [List.cons_append] at q2
        cases q2
        refine .inl ⟨A' ++ M, B, by rw [List.append_assoc], fun a ha => hA a ?_, e3⟩
        rw [q1]
        rcases List.mem_append.1 ha with ha | ha
        · exact List.mem_append_left _ ha
        · exact List.mem_append_right _ (List.mem_cons_of_mem _ ha)

/-- The `DeleteNode(n)` on `p` of goroutine `t` is running, or done: then `d` is gone. -/
def DelOk (p : Nat) (n : Bytes) (d t : Nat) (log : List (Call × Option Nat)) (s : St) : Prop :=
  NotComing s p d ∧ (s.node d).name = n ∧ ∃ L, Content s p L ∧
    ((s.log t = log ∧ Deleting s t p n ∧ (FirstIn s L d ∨ d ∉ L)) ∨
      (d ∉ L ∧ ((s.log t = log ∧ ∃ rest, s.pc t = .unlock (.del p n) p none rest) ∨ ∃ later, s.log t = later ++ (.del p n, none) :: log)))

/-- Logs grow. -/
theorem step_log {s s' : St} {t : Nat} {c : Call} {f : Bool} (h : s.step t c f = some s') (u : Nat) : ∃ more, s'.log u = more ++ s.log u := by
  by_cases hu : u = t
  · subst hu
    unfold St.step at h
    have hret : ∀ (s : St) (k : Call) (r : Option Nat), ∃ more, (s.ret u k r).log u = more ++ s.log u :=
      fun s k r => ⟨[(k, r)], by simp [St.ret, upd]⟩
    have hhit : ∀ (s : St) (k : Call) (d : Nat) (rest : List Bytes), ∃ more, (s.hit u k d rest).log u = more ++ s.log u := by
      intro s k d rest
      cases rest
      · exact hret ..
      · exact ⟨[], rfl⟩
    cases hpc : s.pc u with
    | idle =>
      rw [hpc] at h
      dsimp only at h
      split at h <;> cases h
      cases c <;> simp only [St.begin] <;> (try split) <;> first | exact hret .. | exact ⟨[], rfl⟩
    | look c cur n rest => rw [hpc] at h; cases h; exact ⟨[], rfl⟩
    | scan c cur n rest arr len idx =>
      rw [hpc] at h
      dsimp only at h
      repeat' split at h
      all_goals cases h
      · exact ⟨[], rfl⟩
      · exact hhit ..
      · exact ⟨[], rfl⟩
      · cases c <;> first | exact hret .. | exact ⟨[], rfl⟩
    | want c cur n rest =>
      rw [hpc] at h
      dsimp only at h
      split at h <;> cases h
      exact ⟨[], rfl⟩
    | locked c cur n rest =>
      rw [hpc] at h
      cases c <;> dsimp only at h
      case del => split at h <;> cases h <;> exact ⟨[], rfl⟩
      all_goals
        cases h
        exact ⟨[], rfl⟩
    | appended c cur child arr rest => rw [hpc] at h; cases h; exact ⟨[], rfl⟩
    | linked c cur child rest => rw [hpc] at h; cases h; exact ⟨[], rfl⟩
    | shift c cur j =>
      rw [hpc] at h
      cases h
      unfold St.shift
      dsimp only
      split <;> exact ⟨[], rfl⟩
    | unlock c cur r rest =>
      rw [hpc] at h
      cases r <;> cases h
      · exact hret (s.set cur _) c none
      · exact hhit (s.set cur _) ..
    | enter c d ns fs => rw [hpc] at h; cases h; exact ⟨[], rfl⟩
    | find c fs =>
      rw [hpc] at h
      cases h
      unfold St.findStep
      repeat' split
      all_goals first | exact hret .. | exact ⟨[], rfl⟩
    | panic c => rw [hpc] at h; cases h
  · exact ⟨[], (step_other h hu).2⟩

theorem DelOk.step {s s' : St} (i : Inv s) {p d t u : Nat} {n : Bytes} {log : List (Call × Option Nat)} {c : Call} {f : Bool}
    (hj : DelOk p n d t log s) (h : s.step u c f = some s') : DelOk p n d t log s' := by
  obtain ⟨hn, hname, L, hL, hj⟩ := hj
  obtain ⟨i', g, hc⟩ := i.step h
  obtain ⟨L', hL', he⟩ := hc p L hL
  have hname' : (s'.node d).name = n := (g.name d hn.1).trans hname
  have hn' := hn.step g h
  rcases hj with ⟨j1, j2, j3⟩ | ⟨j1, j2⟩
  · have j3' : FirstIn s' L' d ∨ d ∉ L' := by
      rcases j3 with j3 | j3
      · exact he.first i g hL hn j3
      · exact .inr (he.gone hn j3)
    by_cases hu : t = u
    · subst hu
      have hpc := i.pcs t
      obtain ⟨rest, j, j2⟩ := j2
      unfold St.step at h
      rcases j2 with j2 | j2 | j2
      · rw [j2] at h
        dsimp only at h
        split at h <;> cases h
        exact ⟨hn', hname', L', hL', .inl ⟨j1, ⟨rest, j, .inr (.inl (upd_same ..))⟩, j3'⟩⟩
      · rw [j2] at h
        dsimp only at h
        cases hx : s.index p n with
        | none =>
          rw [hx] at h
          cases h
          refine ⟨hn', hname', L', hL', .inr ⟨he.gone hn fun hm => ?_, .inl ⟨j1, rest, upd_same ..⟩⟩⟩
          have := i.content_seen (t := t) (p := p) (by rw [j2]; rfl) (fun c j h => by rw [j2] at h; cases h) hL
          unfold St.index at hx
          rw [List.findIdx?_eq_none_iff] at hx
          have := hx d (this.2 ▸ hm)
          simp [hname] at this
        | some k =>
          rw [hx] at h
          cases h
          exact ⟨hn', hname', L', hL', .inl ⟨j1, ⟨[], k, .inr (.inr (upd_same ..))⟩, j3'⟩⟩
      · rw [j2] at h
        cases h
        by_cases hlast : j + 1 < (s.node p).len
        · refine ⟨hn', hname', L', hL', .inl ⟨?_, ⟨[], j + 1, .inr (.inr ?_)⟩, j3'⟩⟩ <;> unfold St.shift <;> dsimp only <;> rw [if_pos hlast]
          · exact j1
          · exact upd_same ..
        · obtain ⟨A, x, B, k, q1, q2, q3, q4, q5, q6, q7, q8⟩ := i.shifting j2 hL
          have hlen' : ((s.shift t (.del p n) p j).node p).len = (s.node p).len - 1 := by
            unfold St.shift
            dsimp only
            rw [if_neg hlast]
            show (upd s.node p _ p).len = _
            rw [upd_same]
          have hpc' : (s.shift t (.del p n) p j).pc t = .unlock (.del p n) p none [] := by
            unfold St.shift
            dsimp only
            rw [if_neg hlast]
            exact upd_same ..
          have hlog' : (s.shift t (.del p n) p j).log t = s.log t := by
            unfold St.shift
            dsimp only
            rw [if_neg hlast]
            rfl
          have hseen := i'.content_seen (t := t) (p := p) (by rw [hpc']; rfl) (fun c j h => by rw [hpc'] at h; cases h) hL'
          have hlenL : L'.length + 1 = L.length := by
            rw [← hseen.2, Node.downs_length (i'.len p), hlen', q6, q3, List.length_append, List.length_cons]
            omega
          refine ⟨hn', hname', L', hL', .inr ⟨?_, .inl ⟨hlog'.trans j1, [], hpc'⟩⟩⟩
          rcases j3 with j3 | j3
          · rcases he with rfl | ⟨_, _, ch, _, _, _, rfl⟩ | ⟨v, A', y, B', j', w1, _, w2, w3, w4⟩
            · omega
            · rw [List.length_append, List.length_singleton] at hlenL
              omega
            · have := i.holds_unique (t := t) (u := v) (a := p) (by rw [j2]; rfl) (by rw [w1]; rfl)
              subst this
              rw [j2] at w1
              cases w1
              obtain ⟨A0, B0, z1, z2, z3⟩ := j3
              rw [z1] at w2
              have hm : d ∈ A' ++ y :: B' := w2 ▸ List.mem_append_right _ (List.mem_cons_self ..)
              rcases List.append_eq_append_iff.1 w2 with ⟨M, r1, r2⟩ | ⟨M, r1, r2⟩
              · cases M with
                | nil =>
                  rw [List.append_nil] at r1
                  rw [List.nil_append] at r2
                  cases r2
                  subst r1 w3
                  intro hm
                  rcases List.mem_append.1 hm with hm | hm
                  · exact z2 d hm rfl
                  · exact z3 hm
                | cons y' M =>
                  rw [List.cons_append] at r2
                  cases r2
                  exact absurd hname (w4 d (r1 ▸ List.mem_append_right _ (List.mem_cons_self ..)))
              · cases M with
                | nil =>
                  rw [List.append_nil] at r1
                  rw [List.nil_append] at r2
                  cases r2
                  subst r1 w3
                  intro hm
                  rcases List.mem_append.1 hm with hm | hm
                  · exact z2 d hm rfl
                  · exact z3 hm
                | cons y' M =>
                  rw [List.cons_append] at r2
                  cases r2
                  exact absurd hname.symm (z2 y (r1 ▸ List.mem_append_right _ (List.mem_cons_self ..)))
          · exact he.gone hn j3
    · obtain ⟨o1, o2⟩ := step_other h hu
      refine ⟨hn', hname', L', hL', .inl ⟨o2.trans j1, ?_, j3'⟩⟩
      unfold Deleting
      rw [o1]
      exact j2
  · refine ⟨hn', hname', L', hL', .inr ⟨he.gone hn j1, ?_⟩⟩
    rcases j2 with ⟨j2, rest, j3⟩ | ⟨later, j2⟩
    · by_cases hu : t = u
      · subst hu
        unfold St.step at h
        rw [j3] at h
        cases h
        refine .inr ⟨[], ?_⟩
        show upd s.log t ((.del p n, none) :: s.log t) t = _
        rw [upd_same, j2]
        rfl
      · obtain ⟨o1, o2⟩ := step_other h hu
        exact .inl ⟨o2.trans j2, rest, o1.trans j3⟩
    · obtain ⟨more, hm⟩ := step_log h t
      exact .inr ⟨more ++ later, by rw [hm, j2, List.append_assoc]⟩

theorem DelOk.run {s s' : St} (i : Inv s) {p d t : Nat} {n : Bytes} {log : List (Call × Option Nat)} {l : List (Nat × Call × Bool)}
    (hj : DelOk p n d t log s) (h : s.run l = some s') : DelOk p n d t log s' := by
  induction l generalizing s with
  | nil => cases h; exact hj
  | cons e l ih =>
    obtain ⟨s1, h1, h2⟩ := run_cons h
    exact ih (i.step h1).1 (hj.step i h1) h2

end Verif.TreeAll
