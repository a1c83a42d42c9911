import Verif.Spec.TreeRace
import Verif.Lemmas.TreeAllEnd
/-!
# Lemmas on data races
-/
set_option linter.unusedSimpArgs false
set_option linter.unusedVariables false

namespace Verif.TreeAll

/-! ## Locks -/

theorem step_pc {s s' : St} {v : Nat} {c : Call} {f : Bool} (h : s.step v c f = some s') {w : Nat} (hw : w ≠ v) : s'.pc w = s.pc w :=
  (run_other (l := [(v, c, f)]) (by simp [St.run, h]) (by intro e he; simp at he; subst he; exact hw)).1

theorem hit_pc (s : St) (t : Nat) (c : Call) (d : Nat) (l : List Bytes) (p : Nat) : ¬ Holds ((s.hit t c d l).pc t) p := by
  cases l <;> simp [St.hit, St.ret, St.goto, upd_same, Holds]

theorem miss_pc (s : St) (t : Nat) (c : Call) (cur : Nat) (n : Bytes) (l : List Bytes) (p : Nat) : ¬ Holds ((s.miss t c cur n l).pc t) p := by
  cases c <;> simp [St.miss, St.ret, St.goto, upd_same, Holds]

theorem begin_pc (s : St) (t : Nat) (c : Call) (p : Nat) : ¬ Holds ((s.begin t c).pc t) p := by
  cases c <;> simp only [St.begin] <;> repeat' split
  all_goals simp [St.ret, St.goto, upd_same, Holds]

theorem findStep_pc (s : St) (t : Nat) (c : Call) (fs : List Frame) (p : Nat) : ¬ Holds ((s.findStep t c fs).pc t) p := by
  cases fs <;> simp only [St.findStep] <;> repeat' split
  all_goals simp [St.ret, St.goto, upd_same, Holds]

/-- A goroutine gets a lock only by `Lock`. -/
theorem step_gets {s s' : St} {v : Nat} {c : Call} {f : Bool} (h : s.step v c f = some s') {p : Nat} (h0 : ¬ Holds (s.pc v) p)
    (h1 : Holds (s'.pc v) p) : Locks s v p := by
  unfold St.step at h
  cases hpc : s.pc v with
  | idle =>
    rw [hpc] at h
    dsimp only at h
    split at h <;> cases h
    exact (begin_pc _ _ _ _ h1).elim
  | look c cur n rest => rw [hpc] at h; cases h; simp [St.goto, upd_same, Holds] at h1
  | scan c cur n rest arr len idx =>
    rw [hpc] at h
    dsimp only at h
    repeat' split at h
    all_goals cases h
    · simp [St.goto, upd_same, Holds] at h1
    · exact (hit_pc _ _ _ _ _ _ h1).elim
    · simp [St.goto, upd_same, Holds] at h1
    · exact (miss_pc _ _ _ _ _ _ _ h1).elim
  | want c cur n rest =>
    rw [hpc] at h
    dsimp only at h
    split at h <;> cases h
    simp only [St.goto, upd_same, Holds] at h1
    exact ⟨c, n, rest, h1 ▸ hpc⟩
  | locked c cur n rest =>
    rw [hpc] at h h0
    cases c with
    | del self name =>
      dsimp only at h
      split at h <;> cases h <;> simp only [St.goto, upd_same, Holds] at h1 <;> exact absurd h1 h0
    | _ => dsimp only at h; cases h; simp only [St.append, upd_same, Holds] at h1; exact absurd h1 h0
  | appended c cur child arr rest => rw [hpc] at h h0; cases h; simp only [St.goto, upd_same, Holds] at h1; exact absurd h1 h0
  | linked c cur child rest => rw [hpc] at h h0; cases h; simp only [St.goto, upd_same, Holds] at h1; exact absurd h1 h0
  | shift c cur j =>
    rw [hpc] at h h0
    dsimp only [St.shift] at h
    split at h <;> cases h <;> simp only [St.goto, upd_same, Holds] at h1 <;> exact absurd h1 h0
  | unlock c cur r rest =>
    rw [hpc] at h
    dsimp only at h
    split at h <;> cases h
    · simp [St.ret, upd_same, Holds] at h1
    · exact (hit_pc _ _ _ _ _ _ h1).elim
  | enter c d names fs => rw [hpc] at h; cases h; simp [St.goto, upd_same, Holds] at h1
  | find c fs => rw [hpc] at h; cases h; exact (findStep_pc _ _ _ _ _ h1).elim
  | panic c => rw [hpc] at h; cases h

/-- A goroutine gives a lock back only by `Unlock`. -/
theorem step_gives {s s' : St} {v : Nat} {c : Call} {f : Bool} (h : s.step v c f = some s') {p : Nat} (h0 : Holds (s.pc v) p)
    (h1 : ¬ Holds (s'.pc v) p) : Unlocks s v p := by
  unfold St.step at h
  cases hpc : s.pc v with
  | locked c cur n rest =>
    rw [hpc] at h h0
    cases c with
    | del self name =>
      dsimp only at h
      split at h <;> cases h <;> simp only [St.goto, upd_same, Holds] at h1 <;> exact absurd h0 h1
    | _ => dsimp only at h; cases h; simp only [St.append, upd_same, Holds] at h1; exact absurd h0 h1
  | appended c cur child arr rest => rw [hpc] at h h0; cases h; simp only [St.goto, upd_same, Holds] at h1; exact absurd h0 h1
  | linked c cur child rest => rw [hpc] at h h0; cases h; simp only [St.goto, upd_same, Holds] at h1; exact absurd h0 h1
  | shift c cur j =>
    rw [hpc] at h h0
    dsimp only [St.shift] at h
    split at h <;> cases h <;> simp only [St.goto, upd_same, Holds] at h1 <;> exact absurd h0 h1
  | unlock c cur r rest => rw [hpc] at h0; exact ⟨c, r, rest, h0 ▸ hpc⟩
  | _ => rw [hpc] at h0; exact h0.elim

/-! ## Indices -/

theorem Ev.zero {s : St} {e : Nat × Call × Bool} {l : List (Nat × Call × Bool)} : Ev s (e :: l) 0 s e.1 e.2.2 := ⟨rfl, e.2.1, rfl⟩

theorem Ev.succ {s s1 : St} {e : Nat × Call × Bool} {l : List (Nat × Call × Bool)} (h : s.step e.1 e.2.1 e.2.2 = some s1) {i : Nat} {si : St} {t : Nat}
    {f : Bool} (hi : Ev s1 l i si t f) : Ev s (e :: l) (i + 1) si t f := by
  obtain ⟨h1, c, h2⟩ := hi
  refine ⟨?_, c, by simpa using h2⟩
  simp only [List.take_succ_cons, St.run, h]
  exact h1

/-- A goroutine that has a lock in the end, but not in the beginning, has called `Lock`. -/
theorem run_gets {l : List (Nat × Call × Bool)} {u p : Nat} : ∀ {s s' : St}, s.run l = some s' → ¬ Holds (s.pc u) p → Holds (s'.pc u) p →
    ∃ m sm f, m < l.length ∧ Ev s l m sm u f ∧ Locks sm u p := by
  induction l with
  | nil => intro s s' h h0 h1; cases h; exact absurd h1 h0
  | cons e l ih =>
    intro s s' h h0 h1
    obtain ⟨s1, q1, q2⟩ := run_cons h
    by_cases hs : Holds (s1.pc u) p
    · have hu : u = e.1 := by
        apply Classical.byContradiction
        intro hne
        rw [step_pc q1 hne] at hs
        exact h0 hs
      subst hu
      exact ⟨0, s, e.2.2, Nat.zero_lt_succ _, Ev.zero, step_gets q1 h0 hs⟩
    · obtain ⟨m, sm, f, e1, e2, e3⟩ := ih q2 hs h1
      exact ⟨m + 1, sm, f, Nat.succ_lt_succ e1, e2.succ q1, e3⟩

/-- Between a moment in which one goroutine has the lock and a later one in which another has it, the first has called `Unlock` and then the second `Lock`. -/
theorem run_passes {l : List (Nat × Call × Bool)} {t u p : Nat} (hne : t ≠ u) : ∀ {s s' : St}, Inv s → s.run l = some s' → Holds (s.pc t) p →
    Holds (s'.pc u) p → ∃ k m sk sm f g, k < m ∧ m < l.length ∧ Ev s l k sk t f ∧ Unlocks sk t p ∧ Ev s l m sm u g ∧ Locks sm u p := by
  induction l with
  | nil => intro s s' i h h0 h1; cases h; exact absurd (i.holds_unique h0 h1) hne
  | cons e l ih =>
    intro s s' i h h0 h1
    obtain ⟨s1, q1, q2⟩ := run_cons h
    obtain ⟨i1, _, _⟩ := i.step q1
    by_cases hs : Holds (s1.pc t) p
    · obtain ⟨k, m, sk, sm, f, g, e1, e2, e3, e4, e5, e6⟩ := ih i1 q2 hs h1
      exact ⟨k + 1, m + 1, sk, sm, f, g, Nat.succ_lt_succ e1, Nat.succ_lt_succ e2, e3.succ q1, e4, e5.succ q1, e6⟩
    · have ht : t = e.1 := by
        apply Classical.byContradiction
        intro hne
        rw [step_pc q1 hne] at hs
        exact hs h0
      subst ht
      have hu : ¬ Holds (s1.pc u) p := by
        rw [step_pc q1 (Ne.symm hne)]
        exact fun hu => hne (i.holds_unique h0 hu)
      obtain ⟨m, sm, g, e1, e2, e3⟩ := run_gets q2 hu h1
      exact ⟨0, m + 1, s, sm, e.2.2, g, Nat.zero_lt_succ _, Nat.succ_lt_succ e1, Ev.zero, step_gives q1 h0 hs, e2.succ q1, e3⟩

theorem run_split {l l' : List (Nat × Call × Bool)} : ∀ {s s' : St}, s.run (l ++ l') = some s' → ∃ s1, s.run l = some s1 ∧ s1.run l' = some s' := by
  induction l with
  | nil => intro s s' h; exact ⟨s, rfl, h⟩
  | cons e l ih =>
    intro s s' h
    obtain ⟨s1, q1, q2⟩ := run_cons h
    obtain ⟨s2, q3, q4⟩ := ih q2
    refine ⟨s2, ?_, q4⟩
    obtain ⟨t, c, f⟩ := e
    simp only [St.run]
    rw [q1]
    exact q3

/-- The states of two steps. -/
theorem Ev.between {s : St} {l : List (Nat × Call × Bool)} {i j t u : Nat} {si sj : St} {f g : Bool} (hi : Ev s l i si t f) (hj : Ev s l j sj u g)
    (h : i ≤ j) : si.run ((l.drop i).take (j - i)) = some sj := by
  have : l.take j = l.take i ++ (l.drop i).take (j - i) := by
    conv => lhs; rw [show j = i + (j - i) by omega]
    rw [List.take_add]
  obtain ⟨h1, _⟩ := hj
  rw [this] at h1
  obtain ⟨s1, q1, q2⟩ := run_split h1
  rw [hi.1] at q1
  cases q1
  exact q2

theorem Ev.lift {s : St} {l : List (Nat × Call × Bool)} {i n : Nat} {si : St} (hi : s.run (l.take i) = some si) {k t : Nat} {sk : St} {f : Bool}
    (hk : Ev si ((l.drop i).take n) k sk t f) (hn : k < n) : Ev s l (i + k) sk t f := by
  obtain ⟨h1, c, h2⟩ := hk
  refine ⟨?_, c, ?_⟩
  · rw [List.take_add]
    refine run_append hi ?_
    rw [List.take_take, Nat.min_eq_left (Nat.le_of_lt hn)] at h1
    exact h1
  · rw [List.getElem?_take_of_lt hn, List.getElem?_drop] at h2
    exact h2

/-- Steps under the same lock are ordered. -/
theorem locked_hb {s : St} {l : List (Nat × Call × Bool)} (i0 : Inv s) {i j t u p : Nat} {si sj : St} {f g : Bool} (hi : Ev s l i si t f)
    (hj : Ev s l j sj u g) (h : i < j) (h1 : Holds (si.pc t) p) (h2 : Holds (sj.pc u) p) : HB s l i j := by
  by_cases hne : t = u
  · subst hne
    exact .po h hi hj
  · obtain ⟨ii, _⟩ := i0.run hi.1
    obtain ⟨k, m, sk, sm, f', g', e1, e2, e3, e4, e5, e6⟩ := run_passes hne ii (hi.between hj (Nat.le_of_lt h)) h1 h2
    have hm : m < j - i := by
      have := e2
      rw [List.length_take] at this
      omega
    have a1 := Ev.lift hi.1 e3 (Nat.lt_trans e1 hm)
    have a2 := Ev.lift hi.1 e5 hm
    have s1 : HB s l (i + k) (i + m) := .sync (by omega) a1 e4 a2 e6
    have s2 : HB s l (i + m) j := .po (by omega) a2 hj
    by_cases hk : k = 0
    · subst hk
      exact .trans s1 s2
    · exact .trans (.po (by omega) hi a1) (.trans s1 s2)

/-! ## Accesses -/

/-- Accesses outside of the new node: the lock that is held is that of the node, or of its parent. -/
def Guarded (s : St) (p : Nat) : Loc → Prop
  | .head q => q = p
  | .cell q _ _ => q = p
  | .name d => Kid s p d
  | .up d => Kid s p d

theorem Guarded.grows {s s' : St} (g : Grows s s') {p : Nat} {a : Loc} (h : Guarded s p a) : Guarded s' p a := by
  cases a with
  | head | cell => exact h
  | name d => exact g.kid _ _ h
  | up d => exact g.kid _ _ h

theorem Guarded.one {s : St} (i : Inv s) {p q : Nat} {a : Loc} (h : Guarded s p a) (h' : Guarded s q a) : p = q := by
  cases a with
  | head | cell => exact h.symm.trans h'
  | name d => exact i.kid_one h h'
  | up d => exact i.kid_one h h'

/-- What writes: it has the lock, and writes the new node or what the lock protects (but no name). -/
theorem writes_guarded {s : St} (i : Inv s) {t : Nat} {f : Bool} {a : Loc} (h : s.writes t f a) :
    ∃ p, Holds (s.pc t) p ∧ (s.makes t ∧ a.node = s.next ∨ Guarded s p a ∧ ∀ d, a ≠ .name d) := by
  have hp := i.pcs t
  unfold St.writes at h
  unfold St.makes
  cases hpc : s.pc t with
  | locked c cur n rest =>
    rw [hpc] at h
    cases c with
    | del self name => exact h.elim
    | _ =>
      refine ⟨cur, rfl, ?_⟩
      rcases h with h | h
      · exact .inl ⟨trivial, h⟩
      · refine .inr ?_
        split at h
        · obtain ⟨k, rfl⟩ := h
          exact ⟨rfl, fun d hd => by cases hd⟩
        · subst h
          exact ⟨rfl, fun d hd => by cases hd⟩
  | appended c cur child arr rest => rw [hpc] at h; subst h; exact ⟨cur, rfl, .inr ⟨rfl, fun d hd => by cases hd⟩⟩
  | linked c cur child rest =>
    rw [hpc] at h hp
    subst h
    exact ⟨cur, rfl, .inr ⟨hp.1, fun d hd => by cases hd⟩⟩
  | shift c cur j =>
    rw [hpc] at h
    refine ⟨cur, rfl, .inr ?_⟩
    dsimp only at h
    split at h <;> subst h <;> exact ⟨rfl, fun d hd => by cases hd⟩
  | _ => rw [hpc] at h; exact h.elim

/-- What reads with a lock reads what this lock protects. -/
theorem reads_guarded {s : St} (i : Inv s) {t : Nat} {f : Bool} {a : Loc} (h : s.reads t f a) {p : Nat} (hp : Holds (s.pc t) p) : Guarded s p a := by
  unfold St.reads at h
  cases hpc : s.pc t with
  | locked c cur n rest =>
    rw [hpc] at h hp
    have hc : cur = p := hp
    subst hc
    cases c with
    | del self name =>
      rcases h with rfl | ⟨k, _, rfl⟩ | ⟨d, hd, rfl⟩
      · exact rfl
      · exact rfl
      · exact i.kid _ _ _ (List.mem_of_mem_take hd)
    | _ =>
      rcases h with rfl | ⟨_, k, _, rfl⟩ <;> exact rfl
  | appended c cur child arr rest => rw [hpc] at h hp; subst h; exact hp
  | shift c cur j => rw [hpc] at h hp; rcases h with rfl | ⟨_, rfl⟩ <;> exact hp
  | linked c cur child rest => rw [hpc] at h; exact h.elim
  | unlock c cur r rest => rw [hpc] at h; exact h.elim
  | _ => rw [hpc] at hp; exact hp.elim

/-- Only existing nodes are read. -/
theorem reads_old {s : St} (i : Inv s) {t : Nat} {f : Bool} {a : Loc} (h : s.reads t f a) : a.node < s.next := by
  have hp := i.pcs t
  unfold St.reads at h
  cases hpc : s.pc t with
  | look c cur n rest => rw [hpc] at h hp; subst h; exact WayOk.old hp
  | scan c cur n rest arr len idx =>
    rw [hpc] at h hp
    rcases h with ⟨_, rfl | ⟨d, hd, rfl⟩⟩
    · exact hp.2.1
    · exact (i.kid _ _ _ (List.mem_of_getElem? hd)).2.1
  | locked c cur n rest =>
    rw [hpc] at h hp
    have hc : cur < s.next := PCok.holds_old hp rfl
    cases c with
    | del self name =>
      rcases h with rfl | ⟨k, _, rfl⟩ | ⟨d, hd, rfl⟩
      · exact hc
      · exact hc
      · exact (i.kid _ _ _ (List.mem_of_mem_take hd)).2.1
    | _ => rcases h with rfl | ⟨_, k, _, rfl⟩ <;> exact hc
  | appended c cur child arr rest => rw [hpc] at h hp; subst h; exact hp.2.old
  | shift c cur j => rw [hpc] at h hp; rcases h with rfl | ⟨_, rfl⟩ <;> exact hp.2
  | enter c d names fs =>
    rw [hpc] at h hp
    subst h
    obtain ⟨self, ns, _, h2, ⟨_, _, _, _, h3, _⟩, _⟩ := hp
    exact h3.old h2
  | find c fs =>
    rw [hpc] at h hp
    cases fs with
    | nil => exact h.elim
    | cons f' fs =>
      obtain ⟨self, ns, _, h2, h3⟩ := hp
      rcases h with ⟨_, rfl | ⟨d, hd, rfl⟩⟩
      · exact (h3 f' (List.mem_cons_self ..)).2.1
      · exact (i.kid _ _ _ (List.mem_of_getElem? hd)).2.1
  | _ => rw [hpc] at h; exact h.elim

theorem guarded_old {s : St} {p : Nat} {a : Loc} (h : Guarded s p a) (hp : p < s.next) : a.node < s.next := by
  cases a with
  | head | cell => exact h ▸ hp
  | name d => exact h.2.1
  | up d => exact h.2.1

/-- A new node has the number of the nodes before it, and is one of the nodes afterwards. -/
theorem makes_next {s s' : St} {t : Nat} {c : Call} {f : Bool} (h : s.step t c f = some s') (hm : s.makes t) : s'.next = s.next + 1 := by
  unfold St.makes at hm
  unfold St.step at h
  cases hpc : s.pc t with
  | locked c cur n rest =>
    rw [hpc] at h hm
    cases c with
    | del => exact hm.elim
    | _ => cases h; rfl
  | _ => rw [hpc] at hm; exact hm.elim

/-- `Up` is not read. -/
theorem reads_up {s : St} {t : Nat} {f : Bool} {d : Nat} : ¬ s.reads t f (.up d) := by
  intro h
  unfold St.reads at h
  cases hpc : s.pc t with
  | locked c cur n rest =>
    rw [hpc] at h
    cases c with
    | del self name => rcases h with h | ⟨k, _, h⟩ | ⟨d, hd, h⟩ <;> cases h
    | _ => rcases h with h | ⟨_, k, _, h⟩ <;> cases h
  | scan => rw [hpc] at h; rcases h with ⟨_, h | ⟨_, _, h⟩⟩ <;> cases h
  | shift => rw [hpc] at h; rcases h with h | ⟨_, h⟩ <;> cases h
  | find c fs =>
    rw [hpc] at h
    cases fs with
    | nil => exact h
    | cons f fs => rcases h with ⟨_, h | ⟨_, _, h⟩⟩ <;> cases h
  | look => rw [hpc] at h; cases h
  | appended => rw [hpc] at h; cases h
  | enter => rw [hpc] at h; cases h
  | _ => rw [hpc] at h; exact h

theorem Ev.next {s : St} {l : List (Nat × Call × Bool)} {i j t u : Nat} {si sj : St} {f g : Bool} (hi : Ev s l i si t f) (hj : Ev s l j sj u g)
    (h : i < j) : ∃ c s1, si.step t c f = some s1 ∧ ∃ l', s1.run l' = some sj := by
  have h1 := hi.between hj (Nat.le_of_lt h)
  obtain ⟨_, c, hc⟩ := hi
  obtain ⟨hlt, hc⟩ := List.getElem?_eq_some_iff.1 hc
  obtain ⟨m, hm⟩ : ∃ m, j - i = m + 1 := ⟨j - i - 1, by omega⟩
  rw [List.drop_eq_getElem_cons hlt, hc, hm, List.take_succ_cons] at h1
  obtain ⟨s1, q1, q2⟩ := run_cons h1
  exact ⟨c, s1, q1, _, q2⟩

/-! ## Calls -/

/-- A goroutine is in the call it was in, or in the one that it begins. -/
theorem step_call {s s' : St} {t : Nat} {c : Call} {f : Bool} (h : s.step t c f = some s') {k : Call} (hk : (s'.pc t).call = some k) :
    (s.pc t).call = some k ∨ k = c := by
  have hit : ∀ (s : St) (k' : Call) d l, ((s.hit t k' d l).pc t).call = some k → k' = k := by
    intro s k' d l h
    cases l <;> simp [St.hit, St.ret, St.goto, upd_same, PC.call] at h
    exact h
  have miss : ∀ (s : St) (k' : Call) d n l, ((s.miss t k' d n l).pc t).call = some k → k' = k := by
    intro s k' d n l h
    cases k' <;> simp [St.miss, St.ret, St.goto, upd_same, PC.call] at h
    exact h
  unfold St.step at h
  cases hpc : s.pc t with
  | idle =>
    rw [hpc] at h
    dsimp only at h
    split at h <;> cases h
    refine .inr ?_
    cases c <;> simp only [St.begin] at hk <;> (try split at hk) <;> simp [St.ret, St.goto, upd_same, PC.call] at hk <;> exact hk.symm
  | look c cur n rest => rw [hpc] at h; cases h; simp [St.goto, upd_same, PC.call] at hk; exact .inl (by rw [← hk]; rfl)
  | scan c cur n rest arr len idx =>
    rw [hpc] at h
    dsimp only at h
    refine .inl ?_
    show some c = some k
    repeat' split at h
    all_goals cases h
    · simp [St.goto, upd_same, PC.call] at hk; rw [hk]
    · rw [hit _ _ _ _ hk]
    · simp [St.goto, upd_same, PC.call] at hk; rw [hk]
    · rw [miss _ _ _ _ _ hk]
  | want c cur n rest =>
    rw [hpc] at h
    dsimp only at h
    split at h <;> cases h
    simp [St.goto, upd_same, PC.call] at hk
    exact .inl (by rw [← hk]; rfl)
  | locked c cur n rest =>
    rw [hpc] at h
    cases c <;> dsimp only at h
    case del =>
      split at h <;> cases h <;> simp [St.goto, upd_same, PC.call] at hk <;> exact .inl (by rw [← hk]; rfl)
    all_goals
      cases h
      simp [St.append, upd_same, PC.call] at hk
      exact .inl (by rw [← hk]; rfl)
  | appended c cur child arr rest => rw [hpc] at h; cases h; simp [St.goto, upd_same, PC.call] at hk; exact .inl (by rw [← hk]; rfl)
  | linked c cur child rest => rw [hpc] at h; cases h; simp [St.goto, upd_same, PC.call] at hk; exact .inl (by rw [← hk]; rfl)
  | shift c cur j =>
    rw [hpc] at h
    cases h
    unfold St.shift at hk
    dsimp only at hk
    split at hk <;> simp [St.goto, upd_same, PC.call] at hk <;> exact .inl (by rw [← hk]; rfl)
  | unlock c cur r rest =>
    rw [hpc] at h
    cases r <;> cases h
    · simp [St.ret, upd_same, PC.call] at hk
    · exact .inl (by rw [← hit _ _ _ _ hk]; rfl)
  | enter c d ns fs => rw [hpc] at h; cases h; simp [St.goto, upd_same, PC.call] at hk; exact .inl (by rw [← hk]; rfl)
  | find c fs =>
    rw [hpc] at h
    cases h
    refine .inl ?_
    show some c = some k
    unfold St.findStep at hk
    repeat' split at hk
    all_goals simp [St.goto, St.ret, upd_same, PC.call] at hk
    all_goals rw [hk]
  | panic c => rw [hpc] at h; cases h

/-- All calls that run are calls of the execution. -/
theorem run_call {P : Call → Prop} {l : List (Nat × Call × Bool)} : ∀ {s s' : St}, s.run l = some s' → (∀ e ∈ l, P e.2.1) →
    (∀ t k, (s.pc t).call = some k → P k) → ∀ t k, (s'.pc t).call = some k → P k := by
  induction l with
  | nil => intro s s' h _ h0; cases h; exact h0
  | cons e l ih =>
    intro s s' h hP h0
    obtain ⟨s1, q1, q2⟩ := run_cons h
    refine ih q2 (fun e he => hP e (List.mem_cons_of_mem _ he)) fun t k hk => ?_
    by_cases ht : t = e.1
    · subst ht
      rcases step_call q1 hk with h | h
      · exact h0 _ _ h
      · exact h ▸ hP e (List.mem_cons_self ..)
    · rw [step_pc q1 ht] at hk
      exact h0 _ _ hk

/-- Without `Unlock` only steps of one goroutine are ordered. -/
theorem hb_quiet {s : St} {l : List (Nat × Call × Bool)} {J : Nat} (hq : ∀ k sk t f p, k < J → Ev s l k sk t f → ¬ Unlocks sk t p) {i j : Nat}
    (h : HB s l i j) (hj : j ≤ J) : i < j ∧ l[i]?.map (·.1) = l[j]?.map (·.1) := by
  induction h with
  | po h1 h2 h3 =>
    obtain ⟨_, _, e1⟩ := h2
    obtain ⟨_, _, e2⟩ := h3
    rw [e1, e2]
    exact ⟨h1, rfl⟩
  | sync h1 h2 h3 h4 h5 => exact absurd h3 (hq _ _ _ _ _ (Nat.lt_of_lt_of_le h1 hj) h2)
  | trans _ _ ih1 ih2 =>
    obtain ⟨a1, a2⟩ := ih2 hj
    obtain ⟨b1, b2⟩ := ih1 (by omega)
    exact ⟨by omega, b2.trans a2⟩

/-! ## The accesses are all -/

theorem word_nodes {s s' : St} {a : Loc} (h : s'.node a.node = s.node a.node) : s'.word a = s.word a := by
  cases a <;> (simp only [Loc.node] at h; simp only [St.word, h])

theorem relock_word {s s' : St} {cur : Nat} {lk : Option Nat} (h : s'.node = upd s.node cur { s.node cur with lock := lk }) (a : Loc) : s'.word a = s.word a := by
  by_cases ha : a.node = cur
  · cases a <;> (simp only [Loc.node] at ha; subst ha; simp only [St.word, h, upd_same])
  · exact word_nodes (by rw [h, upd_other _ _ ha])

/-- A step changes no memory but what it writes. -/
theorem writes_all {s s' : St} (i : Inv s) {t : Nat} {c : Call} {f : Bool} (h : s.step t c f = some s') {a : Loc} (ha : ¬ s.writes t f a) :
    s'.word a = s.word a := by
  have hp := i.pcs t
  unfold St.writes at ha
  unfold St.step at h
  cases hpc : s.pc t with
  | idle => rw [hpc] at h; dsimp only at h; split at h <;> cases h; exact word_nodes (by rw [begin_node])
  | look c cur n rest => rw [hpc] at h; cases h; rfl
  | scan c cur n rest arr len idx =>
    rw [hpc] at h
    dsimp only at h
    repeat' split at h
    all_goals cases h
    · rfl
    · exact word_nodes (by rw [hit_node])
    · rfl
    · exact word_nodes (by rw [miss_node])
  | want c cur n rest =>
    rw [hpc] at h
    dsimp only at h
    split at h <;> cases h
    exact relock_word rfl a
  | locked c cur n rest =>
    rw [hpc] at h ha hp
    have hcur : cur < s.next := PCok.holds_old hp rfl
    cases c with
    | del self name => dsimp only at h; split at h <;> cases h <;> rfl
    | _ =>
      dsimp only at h ha
      cases h
      rw [not_or] at ha
      obtain ⟨ha1, ha2⟩ := ha
      by_cases hc : a.node = cur
      · cases a with
        | head q => simp only [Loc.node] at hc; subst hc; simp only [St.word, St.append, upd_same, Node.append]; split <;> rfl
        | name q => simp only [Loc.node] at hc; subst hc; simp only [St.word, St.append, upd_same, Node.append]; split <;> rfl
        | up q => simp only [Loc.node] at hc; subst hc; simp only [St.word, St.append, upd_same, Node.append]; split <;> rfl
        | cell q arr k =>
          simp only [Loc.node] at hc
          subst hc
          simp only [St.word, St.append, upd_same, Node.append]
          split
          · rename_i hf
            rw [if_pos hf] at ha2
            have : arr ≠ (s.node q).made := fun e => ha2 ⟨k, by rw [e]⟩
            simp only [upd_other _ _ this]
          · rename_i hf
            rw [if_neg hf] at ha2
            by_cases he : arr = (s.node q).arr
            · subst he
              have hk : k ≠ (s.node q).len := fun e => ha2 (by rw [e])
              have hl := Node.downs_length (i.len q)
              simp only [upd_same]
              congr 1
              rw [List.getElem?_append]
              split
              · rename_i hlt
                rw [hl] at hlt
                simp only [Node.downs, List.getElem?_take_of_lt hlt]
              · rename_i hge
                rw [hl] at hge ⊢
                obtain ⟨m, rfl⟩ : ∃ m, k = (s.node q).len + 1 + m := ⟨k - (s.node q).len - 1, by omega⟩
                rw [show (s.node q).len + 1 + m - (s.node q).len = m + 1 by omega, List.getElem?_cons_succ, List.getElem?_drop]
            · simp only [upd_other _ _ he]
      · refine word_nodes ?_
        simp only [St.append, upd_other _ _ hc, upd_other _ _ ha1]
  | appended c cur child arr rest =>
    rw [hpc] at h ha
    cases h
    by_cases hc : a.node = cur
    · cases a with
      | head q => simp only [Loc.node] at hc; subst hc; exact absurd rfl ha
      | _ => simp only [Loc.node] at hc; subst hc; simp only [St.word, St.set, St.goto, upd_same]
    · exact word_nodes (by simp only [St.set, St.goto, upd_other _ _ hc])
  | linked c cur child rest =>
    rw [hpc] at h ha
    cases h
    by_cases hc : a.node = child
    · cases a with
      | up q => simp only [Loc.node] at hc; subst hc; exact absurd rfl ha
      | _ => simp only [Loc.node] at hc; subst hc; simp only [St.word, St.set, St.goto, upd_same]
    · exact word_nodes (by simp only [St.set, St.goto, upd_other _ _ hc])
  | shift c cur j =>
    rw [hpc] at h ha
    dsimp only [St.shift] at h ha
    split at h
    · rename_i hj
      rw [if_pos hj] at ha
      cases h
      by_cases hc : a.node = cur
      · cases a with
        | cell q arr k =>
          simp only [Loc.node] at hc
          subst hc
          simp only [St.word, St.set, St.goto, upd_same]
          by_cases he : arr = (s.node q).arr
          · subst he
            have hk : j ≠ k := fun e => ha (by rw [e])
            simp only [upd_same, List.getElem?_set_ne hk]
          · simp only [upd_other _ _ he]
        | _ => simp only [Loc.node] at hc; subst hc; simp only [St.word, St.set, St.goto, upd_same]
      · exact word_nodes (by simp only [St.set, St.goto, upd_other _ _ hc])
    · rename_i hj
      rw [if_neg hj] at ha
      cases h
      by_cases hc : a.node = cur
      · cases a with
        | head q => simp only [Loc.node] at hc; subst hc; exact absurd rfl ha
        | _ => simp only [Loc.node] at hc; subst hc; simp only [St.word, St.set, St.goto, upd_same]
      · exact word_nodes (by simp only [St.set, St.goto, upd_other _ _ hc])
  | unlock c cur r rest =>
    rw [hpc] at h
    dsimp only at h
    split at h <;> cases h
    · exact relock_word rfl a
    · exact relock_word (by rw [hit_node]; rfl) a
  | enter c d names fs => rw [hpc] at h; cases h; rfl
  | find c fs => rw [hpc] at h; cases h; exact word_nodes (by rw [findStep_node])
  | panic c => rw [hpc] at h; cases h

theorem downs_eq {s s' : St} {cur : Nat} (hh : s'.word (.head cur) = s.word (.head cur))
    (hc : ∀ k, k < (s.node cur).len → s'.word (.cell cur (s.node cur).arr k) = s.word (.cell cur (s.node cur).arr k)) :
    (s'.node cur).downs = (s.node cur).downs := by
  simp only [St.word, Word.head.injEq] at hh
  unfold Node.downs
  rw [hh.1, hh.2]
  apply List.ext_getElem?
  intro k
  by_cases hk : k < (s.node cur).len
  · rw [List.getElem?_take_of_lt hk, List.getElem?_take_of_lt hk]
    have := hc k hk
    simp only [St.word, Word.cell.injEq] at this
    exact this
  · rw [List.getElem?_eq_none (by rw [List.length_take]; omega), List.getElem?_eq_none (by rw [List.length_take]; omega)]

theorem findIdx?_congr {l : List Nat} {p q : Nat → Bool} (h : ∀ x ∈ l, p x = q x) : l.findIdx? p = l.findIdx? q := by
  induction l with
  | nil => rfl
  | cons x l ih =>
    rw [List.findIdx?_cons, List.findIdx?_cons, h x (List.mem_cons_self ..), ih fun y hy => h y (List.mem_cons_of_mem _ hy)]

theorem Alike.goto {s s' : St} {t : Nat} (h : Alike s s' t) (q : PC) : Alike (s.goto t q) (s'.goto t q) t :=
  ⟨by simp [St.goto, upd_same], h.log, h.next, h.made, h.lock⟩

theorem Alike.ret {s s' : St} {t : Nat} (h : Alike s s' t) (c : Call) (r : Option Nat) : Alike (s.ret t c r) (s'.ret t c r) t :=
  ⟨by simp [St.ret, upd_same], by simp [St.ret, upd_same, h.log], h.next, h.made, h.lock⟩

theorem Alike.hit {s s' : St} {t : Nat} (h : Alike s s' t) (c : Call) (d : Nat) (l : List Bytes) : Alike (s.hit t c d l) (s'.hit t c d l) t := by
  cases l
  · exact h.ret _ _
  · exact h.goto _

theorem Alike.miss {s s' : St} {t : Nat} (h : Alike s s' t) (c : Call) (d : Nat) (n : Bytes) (l : List Bytes) :
    Alike (s.miss t c d n l) (s'.miss t c d n l) t := by
  cases c
  · exact h.goto _
  · exact h.ret _ _
  · exact h.ret _ _
  · exact h.ret _ _

theorem Alike.begin {s s' : St} {t : Nat} (h : Alike s s' t) (c : Call) : Alike (s.begin t c) (s'.begin t c) t := by
  cases c <;> simp only [St.begin] <;> (try split)
  all_goals first | exact h.goto _ | exact h.ret _ _

theorem Alike.set {s s' : St} {t : Nat} (h : Alike s s' t) {cur : Nat} {n n' : Node} (h1 : n'.made = n.made) (h2 : n'.lock = n.lock) :
    Alike (s.set cur n) (s'.set cur n') t := by
  refine ⟨h.pc, h.log, h.next, fun a => ?_, fun a => ?_⟩
  · by_cases ha : a = cur
    · subst ha; simp only [St.set, upd_same, h1]
    · simp only [St.set, upd_other _ _ ha, h.made]
  · by_cases ha : a = cur
    · subst ha; simp only [St.set, upd_same, h2]
    · simp only [St.set, upd_other _ _ ha, h.lock]

/-- What a step does depends on no shared memory but what it reads. -/
theorem reads_all {s s' s1 : St} (i : Inv s) (i' : Inv s') {t : Nat} {c : Call} {f : Bool} (hs : Alike s s' t)
    (hr : ∀ a, s.reads t f a → s'.word a = s.word a) (h : s.step t c f = some s1) :
    ∃ s1', s'.step t c f = some s1' ∧ Alike s1 s1' t ∧ ∀ a, s.writes t f a → s1'.word a = s1.word a := by
  have hp := i.pcs t
  unfold St.reads at hr
  unfold St.writes
  unfold St.step at h ⊢
  rw [hs.pc]
  cases hpc : s.pc t with
  | idle =>
    rw [hpc] at h
    dsimp only at h ⊢
    rw [hs.next]
    split at h <;> cases h
    rename_i hc
    exact ⟨_, if_pos hc, hs.begin c, fun _ h => h.elim⟩
  | look c cur n rest =>
    rw [hpc] at h hr
    cases h
    have := hr _ rfl
    simp only [St.word, Word.head.injEq] at this
    refine ⟨_, rfl, ?_, fun _ h => h.elim⟩
    rw [this.1, this.2]
    exact hs.goto _
  | scan c cur n rest arr len idx =>
    rw [hpc] at h hr
    dsimp only at h hr ⊢
    by_cases hlt : idx < len
    · rw [if_pos hlt] at h ⊢
      have h1 := hr _ ⟨hlt, .inl rfl⟩
      simp only [St.word, Word.cell.injEq] at h1
      rw [h1]
      cases hd : ((s.node cur).cells arr)[idx]? with
      | none => rw [hd] at h; cases h; exact ⟨_, rfl, hs.goto _, fun _ h => h.elim⟩
      | some d =>
        rw [hd] at h
        have h2 := hr _ ⟨hlt, .inr ⟨d, hd, rfl⟩⟩
        simp only [St.word, Word.name.injEq] at h2
        dsimp only at h ⊢
        rw [h2]
        split at h
        · rename_i hn
          cases h
          exact ⟨_, if_pos hn, hs.hit _ _ _, fun _ h => h.elim⟩
        · rename_i hn
          cases h
          exact ⟨_, if_neg hn, hs.goto _, fun _ h => h.elim⟩
    · rw [if_neg hlt] at h ⊢
      cases h
      exact ⟨_, rfl, hs.miss _ _ _ _, fun _ h => h.elim⟩
  | want c cur n rest =>
    rw [hpc] at h
    dsimp only at h ⊢
    rw [hs.lock]
    split at h <;> cases h
    exact ⟨_, rfl, (hs.set (by exact hs.made _) (by rfl)).goto _, fun _ h => h.elim⟩
  | locked c cur n rest =>
    rw [hpc] at h hr hp
    have hcur : cur < s.next := PCok.holds_old hp rfl
    cases c with
    | del self name =>
      dsimp only at h hr ⊢
      have hd := downs_eq (hr _ (.inl rfl)) (fun k hk => hr _ (.inr (.inl ⟨k, hk, rfl⟩)))
      have hx : s'.index cur n = s.index cur n := by
        unfold St.index
        rw [hd]
        refine findIdx?_congr fun d hd' => ?_
        have := hr _ (.inr (.inr ⟨d, hd', rfl⟩))
        simp only [St.word, Word.name.injEq] at this
        rw [this]
      rw [hx]
      split at h <;> cases h
      · exact ⟨_, rfl, hs.goto _, fun _ h => h.elim⟩
      · exact ⟨_, rfl, hs.goto _, fun _ h => h.elim⟩
    | _ =>
      dsimp only at h hr ⊢
      cases h
      have hh := hr _ (.inl rfl)
      have hh' := hh
      simp only [St.word, Word.head.injEq] at hh'
      refine ⟨_, rfl, ⟨?_, hs.log, ?_, fun a => ?_, fun a => ?_⟩, fun a ha => ?_⟩
      · simp only [St.append, upd_same, hs.next, Node.target, hs.made, hh'.1]
      · simp only [St.append, hs.next]
      · simp only [St.append, upd, hs.next]
        split
        · unfold Node.append; split <;> simp [hs.made]
        · split
          · rfl
          · exact hs.made a
      · simp only [St.append, upd, hs.next]
        split
        · rw [append_lock, append_lock, hs.lock]
        · split
          · rfl
          · exact hs.lock a
      · rcases ha with ha | ha
        · have hne : a.node ≠ cur := by omega
          refine word_nodes ?_
          simp only [St.append, upd_other _ _ hne, hs.next]
          rw [ha, upd_same, upd_same]
        · split at ha
          · rename_i hf
            obtain ⟨k, rfl⟩ := ha
            have hd := downs_eq hh (fun k hk => hr _ (.inr ⟨hf, k, hk, rfl⟩))
            simp only [St.word, St.append, upd_same, Node.append, if_pos hf, hs.made, hd, hs.next]
          · rename_i hf
            subst ha
            have l1 := Node.downs_length (i.len cur)
            have l2 := Node.downs_length (i'.len cur)
            simp only [St.word, St.append, upd_same, Node.append, if_neg hf, hs.next, hh'.1, Word.cell.injEq]
            rw [List.getElem?_append_right (by rw [l2, hh'.2]; exact Nat.le_refl _), List.getElem?_append_right (by rw [l1]; exact Nat.le_refl _), l1, l2, hh'.2]
            simp
  | appended c cur child arr rest =>
    rw [hpc] at h hr
    cases h
    have := hr _ rfl
    simp only [St.word, Word.head.injEq] at this
    refine ⟨_, rfl, (hs.set (by exact hs.made _) (by exact hs.lock _)).goto _, fun a ha => ?_⟩
    subst ha
    simp only [St.word, St.set, St.goto, upd_same, this.2]
  | linked c cur child rest =>
    rw [hpc] at h
    cases h
    refine ⟨_, rfl, (hs.set (by exact hs.made _) (by exact hs.lock _)).goto _, fun a ha => ?_⟩
    subst ha
    simp only [St.word, St.set, St.goto, upd_same]
  | shift c cur j =>
    rw [hpc] at h hr
    dsimp only [St.shift] at h hr ⊢
    have hh := hr _ (.inl rfl)
    simp only [St.word, Word.head.injEq] at hh
    rw [hh.2]
    split at h
    · rename_i hj
      cases h
      have hc := hr _ (.inr ⟨hj, rfl⟩)
      simp only [St.word, Word.cell.injEq] at hc
      rw [if_pos hj]
      refine ⟨_, rfl, (hs.set (by exact hs.made _) (by exact hs.lock _)).goto _, fun a ha => ?_⟩
      rw [if_pos hj] at ha
      subst ha
      have l1 := i.len cur
      have l2 := i'.len cur
      simp only [St.word, St.set, St.goto, upd_same, hh.1, Word.cell.injEq]
      rw [hh.1, hh.2] at l2
      rw [List.getElem?_set_self (by omega), List.getElem?_set_self (by omega)]
      rw [List.getD_eq_getElem?_getD, List.getD_eq_getElem?_getD, hc]
    · rename_i hj
      cases h
      rw [if_neg hj]
      refine ⟨_, rfl, (hs.set (by exact hs.made _) (by exact hs.lock _)).goto _, fun a ha => ?_⟩
      rw [if_neg hj] at ha
      subst ha
      simp only [St.word, St.set, St.goto, upd_same, hh.1]
  | unlock c cur r rest =>
    rw [hpc] at h
    dsimp only at h ⊢
    cases r with
    | none => cases h; exact ⟨_, rfl, (hs.set (by exact hs.made _) (by rfl)).ret _ _, fun _ h => h.elim⟩
    | some d => cases h; exact ⟨_, rfl, (hs.set (by exact hs.made _) (by rfl)).hit _ _ _, fun _ h => h.elim⟩
  | enter c d names fs =>
    rw [hpc] at h hr
    cases h
    have := hr _ rfl
    simp only [St.word, Word.head.injEq] at this
    refine ⟨_, rfl, ?_, fun _ h => h.elim⟩
    rw [this.1, this.2]
    exact hs.goto _
  | find c fs =>
    rw [hpc] at h hr
    cases h
    refine ⟨_, rfl, ?_, fun _ h => h.elim⟩
    cases fs with
    | nil => exact hs.ret _ _
    | cons f' fs =>
      dsimp only at hr
      simp only [St.findStep]
      by_cases hlt : f'.idx < f'.len
      · rw [if_pos hlt, if_pos hlt]
        have h1 := hr _ ⟨hlt, .inl rfl⟩
        simp only [St.word, Word.cell.injEq] at h1
        rw [h1]
        cases hd : ((s.node f'.node).cells f'.arr)[f'.idx]? with
        | none => exact hs.goto _
        | some d =>
          have h2 := hr _ ⟨hlt, .inr ⟨d, hd, rfl⟩⟩
          simp only [St.word, Word.name.injEq] at h2
          dsimp only
          rw [h2]
          repeat' split
          all_goals first | exact hs.goto _ | exact hs.ret _ _
      · rw [if_neg hlt, if_neg hlt]
        exact hs.goto _
  | panic c => rw [hpc] at h; cases h

end Verif.TreeAll
