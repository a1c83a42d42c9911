import Verif.Lemmas.TreeAllRun
/-!
# Readers of `Model/TreeAll`
-/
namespace Verif.TreeAll

theorem hit_node {s : St} (t : Nat) (c : Call) (d : Nat) (rest : List Bytes) : (s.hit t c d rest).node = s.node := by
  cases rest <;> rfl

theorem miss_node {s : St} (t : Nat) (c : Call) (d : Nat) (n : Bytes) (rest : List Bytes) : (s.miss t c d n rest).node = s.node := by
  cases c <;> rfl

theorem begin_node {s : St} (t : Nat) (c : Call) : (s.begin t c).node = s.node := by
  cases c <;> simp only [St.begin] <;> (try split) <;> rfl

theorem findStep_node {s : St} (t : Nat) (c : Call) (fs : List Frame) : (s.findStep t c fs).node = s.node := by
  unfold St.findStep
  repeat' split
  all_goals rfl

/-- What a step does to the cells of a node. -/
theorem step_cells {s s' : St} {t a : Nat} {c : Call} {f : Bool} (h : s.step t c f = some s') (ha : a < s.next) :
    (s'.node a).cells = (s.node a).cells ∨
    (∃ k n rest, s.pc t = .locked k a n rest ∧ (s'.node a).cells = ((s.node a).append s.next f).cells) ∨
    ∃ k j v, s.pc t = .shift k a j ∧ (s'.node a).cells = upd (s.node a).cells (s.node a).arr (((s.node a).cells (s.node a).arr).set j v) := by
  have hset : ∀ (p : Nat) (n : Node), n.cells = (s.node p).cells → (upd s.node p n a).cells = (s.node a).cells := by
    intro p n hn
    by_cases hp : a = p
    · subst hp; rw [upd_same, hn]
    · rw [upd_other _ _ hp]
  unfold St.step at h
  cases hpc : s.pc t with
  | idle =>
    rw [hpc] at h
    dsimp only at h
    split at h <;> cases h
    rw [begin_node]
    exact .inl rfl
  | look c cur n rest => rw [hpc] at h; cases h; exact .inl rfl
  | scan c cur n rest arr len idx =>
    rw [hpc] at h
    dsimp only at h
    repeat' split at h
    all_goals cases h
    · exact .inl rfl
    · rw [hit_node]; exact .inl rfl
    · exact .inl rfl
    · rw [miss_node]; exact .inl rfl
  | want c cur n rest =>
    rw [hpc] at h
    dsimp only at h
    split at h <;> cases h
    exact .inl (hset cur _ rfl)
  | locked c cur n rest =>
    have happ : ∀ k : Call, ((s.append t k cur n rest f).node a).cells = (s.node a).cells ∨
        a = cur ∧ ((s.append t k cur n rest f).node a).cells = ((s.node a).append s.next f).cells := by
      intro k
      have e : (s.append t k cur n rest f).node a = upd (upd s.node s.next (newNode n)) cur ((s.node cur).append s.next f) a := rfl
      rw [e]
      by_cases hc : a = cur
      · subst hc
        rw [upd_same]
        exact .inr ⟨rfl, rfl⟩
      · rw [upd_other _ _ hc, upd_other _ _ (Nat.ne_of_lt ha)]
        exact .inl rfl
    rw [hpc] at h
    cases c <;> dsimp only at h
    case del => split at h <;> cases h <;> exact .inl rfl
    all_goals
      cases h
      rename_i k
      rcases happ _ with h | ⟨rfl, h⟩
      · exact .inl h
      · exact .inr (.inl ⟨_, n, rest, rfl, h⟩)
  | appended c cur child arr rest => rw [hpc] at h; cases h; exact .inl (hset cur _ rfl)
  | linked c cur child rest => rw [hpc] at h; cases h; exact .inl (hset child _ rfl)
  | shift c cur j =>
    rw [hpc] at h
    cases h
    unfold St.shift
    dsimp only
    split
    · by_cases hc : a = cur
      · subst hc
        exact .inr (.inr ⟨c, j, _, rfl, congrArg Node.cells (upd_same ..)⟩)
      · exact .inl (congrArg Node.cells (upd_other _ _ hc))
    · exact .inl (hset cur _ rfl)
  | unlock c cur r rest =>
    rw [hpc] at h
    cases r <;> cases h
    · exact .inl (hset cur _ rfl)
    · rw [hit_node]; exact .inl (hset cur _ rfl)
  | enter c d ns fs => rw [hpc] at h; cases h; exact .inl rfl
  | find c fs => rw [hpc] at h; cases h; rw [findStep_node]; exact .inl rfl
  | panic c => rw [hpc] at h; cases h

/-- Nobody takes one of these children out. -/
def Spared (s : St) (a : Nat) (M : List Nat) : Prop := ∀ e ∈ M, ∀ u, ¬ Deleting s u a (s.node e).name

theorem spared_prefix {M L2 A B : List Nat} {x : Nat} (h : M ++ L2 = A ++ x :: B) (hx : x ∉ M) : ∃ A2, A = M ++ A2 ∧ L2 = A2 ++ x :: B := by
  rcases List.append_eq_append_iff.1 h with ⟨A2, h1, h2⟩ | ⟨A2, h1, h2⟩
  · exact ⟨A2, h1, h2⟩
  · cases A2 with
    | nil =>
      rw [List.append_nil] at h1
      rw [List.nil_append] at h2
      exact ⟨[], by rw [List.append_nil, h1], by rw [← h2]; rfl⟩
    | cons y A2 =>
      rw [List.cons_append] at h2
      cases h2
      exact absurd (h1 ▸ List.mem_append_right _ (List.mem_cons_self ..)) hx

/-- The first children stay where they are. -/
theorem Inv.spared {s s' : St} (i : Inv s) {t a : Nat} {c : Call} {f : Bool} (h : s.step t c f = some s') (ha : a < s.next) {M L2 : List Nat}
    (hL : Content s a (M ++ L2)) (hM : Spared s a M) :
    (∃ L2', Content s' a (M ++ L2')) ∧
      ∀ k, ((s.node a).cells k).take M.length = M → ((s'.node a).cells k).take M.length = M := by
  obtain ⟨i', g, hc⟩ := i.step h
  constructor
  · obtain ⟨L', hL', he⟩ := hc a _ hL
    rcases he with rfl | ⟨_, _, ch, _, _, _, rfl⟩ | ⟨v, A, x, B, j, w1, _, w2, w3, w4⟩
    · exact ⟨L2, hL'⟩
    · exact ⟨L2 ++ [ch], by rwa [← List.append_assoc]⟩
    · obtain ⟨A2, e1, e2⟩ := spared_prefix w2 fun hx => hM x hx v ⟨[], j, .inr (.inr w1)⟩
      exact ⟨A2 ++ B, by rwa [← List.append_assoc, ← e1, ← w3]⟩
  · intro k hk
    rcases step_cells h ha with e | ⟨q, n, rest, hpc, e⟩ | ⟨q, j, v, hpc, e⟩
    · rw [e]; exact hk
    · rw [e]
      obtain ⟨_, hd⟩ := i.content_seen (t := t) (p := a) (by rw [hpc]; rfl) (fun c j h => by rw [hpc] at h; cases h) hL
      unfold Node.append
      cases f
      · by_cases hka : k = (s.node a).arr
        · subst hka
          show List.take _ (upd _ _ _ _) = _
          rw [upd_same, hd, List.append_assoc, List.take_left']
          rfl
        · show List.take _ (upd _ _ _ _) = _
          rw [upd_other _ _ hka]
          exact hk
      · by_cases hka : k = (s.node a).made
        · subst hka
          show List.take _ (upd _ _ _ _) = _
          rw [upd_same, hd, List.append_assoc, List.take_left']
          rfl
        · show List.take _ (upd _ _ _ _) = _
          rw [upd_other _ _ hka]
          exact hk
    · rw [e]
      by_cases hka : k = (s.node a).arr
      · subst hka
        rw [upd_same]
        obtain ⟨A, x, B, k, q1, q2, q3, q4, _⟩ := i.shifting hpc hL
        obtain ⟨A2, e1, e2⟩ := spared_prefix q3 fun hx => hM x hx t ⟨[], j, .inr (.inr (q1 ▸ hpc))⟩
        rw [List.take_set_of_le (by rw [q2, e1, List.length_append]; omega)]
        exact hk
      · rw [upd_other _ _ hka]
        exact hk

/-- The header shows them. -/
theorem Inv.spared_head {s : St} (i : Inv s) {a : Nat} {M L2 : List Nat} (hL : Content s a (M ++ L2)) (hM : Spared s a M) :
    ((s.node a).cells (s.node a).arr).take M.length = M ∧ M.length ≤ (s.node a).len := by
  have hlen : M.length ≤ (s.node a).len := by
    rcases hL with ⟨_, h⟩ | ⟨_, A, x, B, k, _, h1, _, _, h2, _⟩
    · rw [← Node.downs_length (i.len a), h, List.length_append]
      omega
    · rw [h2, ← h1, List.length_append]
      omega
  refine ⟨?_, hlen⟩
  have : ((s.node a).cells (s.node a).arr).take M.length = (s.node a).downs.take M.length := by
    unfold Node.downs
    rw [List.take_take, Nat.min_eq_left hlen]
  rw [this]
  rcases hL with ⟨_, h⟩ | ⟨t, A, x, B, k, h0, h1, _, h2, _⟩
  · rw [h, List.take_left']
    rfl
  · obtain ⟨A2, e1, e2⟩ := spared_prefix h1 fun hx => hM x hx t ⟨[], _, .inr (.inr h0)⟩
    rw [h2, e1, List.append_assoc, List.append_assoc, List.take_left']
    rfl

/-- From `a` one comes to `x` through first children that nobody takes out in the execution. -/
inductive Safe (s : St) (l : List (Nat × Call × Bool)) : Nat → List Bytes → Nat → Prop
  | here (a : Nat) : Safe s l a [] a
  | down {a d x : Nat} {before L2 : List Nat} {n : Bytes} {ns : List Bytes} : a < s.next → Content s a ((before ++ [d]) ++ L2) →
      (s.node d).name = n → (∀ e ∈ before, (s.node e).name ≠ n) → (∀ e ∈ before ++ [d], ¬ Deletes s l a (s.node e).name) →
      Safe s l d ns x → Safe s l a (n :: ns) x

theorem kept_names {s s' : St} (i : Inv s) (g : Grows s s') {a : Nat} {L : List Nat} (hL : Content s a L) : ∀ e ∈ L, (s'.node e).name = (s.node e).name :=
  fun _ he => g.name _ (i.content_old hL he)

theorem spared_of {s : St} {l : List (Nat × Call × Bool)} {a : Nat} {M : List Nat} (h : ∀ e ∈ M, ¬ Deletes s l a (s.node e).name) : Spared s a M :=
  fun e he u hd => h e he (.inl ⟨u, hd⟩)

/-- One node of the way after a step. -/
theorem safe_node {s s' : St} (i : Inv s) {t a d : Nat} {c : Call} {f : Bool} {l : List (Nat × Call × Bool)} {n : Bytes} (h : s.step t c f = some s') (ha : a < s.next)
    {before L2 : List Nat} (hL : Content s a ((before ++ [d]) ++ L2)) (hd : (s.node d).name = n) (hb : ∀ e ∈ before, (s.node e).name ≠ n)
    (hs : ∀ e ∈ before ++ [d], ¬ Deletes s ((t, c, f) :: l) a (s.node e).name) :
    a < s'.next ∧ (∃ L2', Content s' a ((before ++ [d]) ++ L2')) ∧ (s'.node d).name = n ∧ (∀ e ∈ before, (s'.node e).name ≠ n) ∧
      (∀ e ∈ before ++ [d], ¬ Deletes s' l a (s'.node e).name) ∧
      ∀ k, ((s.node a).cells k).take (before ++ [d]).length = before ++ [d] → ((s'.node a).cells k).take (before ++ [d]).length = before ++ [d] := by
  obtain ⟨_, g, _⟩ := i.step h
  obtain ⟨h1, h2⟩ := i.spared h ha hL (spared_of hs)
  have hnm := kept_names i g hL
  refine ⟨Nat.lt_of_lt_of_le ha g.next, h1, ?_, fun e he => ?_, fun e he hdel => ?_, h2⟩
  · rw [hnm d (by simp), hd]
  · rw [hnm e (by simp [he])]
    exact hb e he
  · rw [hnm e (List.mem_append_left _ he)] at hdel
    exact hs e he (hdel.back i h)

theorem Safe.step {s s' : St} (i : Inv s) {t : Nat} {c : Call} {f : Bool} {l : List (Nat × Call × Bool)} (h : s.step t c f = some s')
    {a x : Nat} {ns : List Bytes} (hs : Safe s ((t, c, f) :: l) a ns x) : Safe s' l a ns x := by
  induction hs with
  | here a => exact .here a
  | down h1 h2 h3 h4 h5 _ ih =>
    obtain ⟨e1, ⟨L2', e2⟩, e3, e4, e5, _⟩ := safe_node i h h1 h2 h3 h4 h5
    exact .down e1 e2 e3 e4 e5 ih

/-- The call `c` of goroutine `t` is on its way to `x`, or has returned it. -/
def ReadOk (t : Nat) (c : Call) (x : Nat) (log : List (Call × Option Nat)) (s : St) (l : List (Nat × Call × Bool)) : Prop :=
  (s.log t = log ∧
    ((∃ cur n rest, s.pc t = .look c cur n rest ∧ Safe s l cur (n :: rest) x) ∨
      ∃ cur n rest arr len idx before d L2, s.pc t = .scan c cur n rest arr len idx ∧ cur < s.next ∧ Content s cur ((before ++ [d]) ++ L2) ∧
        (s.node d).name = n ∧ (∀ e ∈ before, (s.node e).name ≠ n) ∧ (∀ e ∈ before ++ [d], ¬ Deletes s l cur (s.node e).name) ∧
        Safe s l d rest x ∧ ((s.node cur).cells arr).take (before ++ [d]).length = before ++ [d] ∧ before.length < len ∧ idx ≤ before.length)) ∨
  ∃ later, s.log t = later ++ (c, some x) :: log

theorem ReadOk.step {s s' : St} (i : Inv s) {t u x : Nat} {c k : Call} {f : Bool} {log : List (Call × Option Nat)} {l : List (Nat × Call × Bool)}
    (hr : ReadOk t c x log s ((u, k, f) :: l)) (h : s.step u k f = some s') : ReadOk t c x log s' l := by
  rcases hr with ⟨hlog, hr⟩ | ⟨later, hr⟩
  · by_cases hu : t = u
    · subst hu
      have hstep := h
      unfold St.step at h
      rcases hr with ⟨cur, n, rest, h1, h2⟩ | ⟨cur, n, rest, arr, len, idx, before, d, L2, h1, h2, h3, h4, h5, h6, h7, h8, h9, h10⟩
      · rw [h1] at h
        cases h
        cases h2 with
        | down q1 q2 q3 q4 q5 q6 =>
          rename_i d before L2
          obtain ⟨e1, ⟨L2', e2⟩, e3, e4, e5, e6⟩ := safe_node i hstep q1 q2 q3 q4 q5
          obtain ⟨w1, w2⟩ := i.spared_head q2 (spared_of q5)
          refine .inl ⟨hlog, .inr ⟨cur, n, rest, _, _, 0, before, d, L2', upd_same .., e1, e2, e3, e4, e5, q6.step i hstep, e6 _ w1, ?_, Nat.zero_le _⟩⟩
          rw [List.length_append, List.length_singleton] at w2
          omega
      · rw [h1] at h
        dsimp only at h
        rw [if_pos (by omega)] at h
        have hget : ((s.node cur).cells arr)[idx]? = (before ++ [d])[idx]? := by
          have : (((s.node cur).cells arr).take (before ++ [d]).length)[idx]? = (before ++ [d])[idx]? := by rw [h8]
          rw [List.getElem?_take, if_pos (by rw [List.length_append, List.length_singleton]; omega)] at this
          exact this
        by_cases hi : idx = before.length
        · rw [hget, hi, List.getElem?_append_right (Nat.le_refl _), Nat.sub_self] at h
          simp only [List.getElem?_cons_zero] at h
          rw [if_pos h4] at h
          cases h
          cases h7 with
          | here =>
            refine .inr ⟨[], ?_⟩
            show upd s.log t ((c, some x) :: s.log t) t = _
            rw [upd_same, hlog]
            rfl
          | down q1 q2 q3 q4 q5 q6 =>
            rename_i n' ns'
            refine .inl ⟨hlog, .inl ⟨d, n', ns', upd_same .., ?_⟩⟩
            exact Safe.step i hstep (Safe.down q1 q2 q3 q4 q5 q6)
        · have hlt : idx < before.length := by omega
          rw [hget, List.getElem?_append_left hlt, List.getElem?_eq_getElem hlt] at h
          dsimp only at h
          rw [if_neg (h5 _ (List.getElem_mem _))] at h
          cases h
          obtain ⟨e1, ⟨L2', e2⟩, e3, e4, e5, e6⟩ := safe_node i hstep h2 h3 h4 h5 h6
          exact .inl ⟨hlog, .inr ⟨cur, n, rest, arr, len, idx + 1, before, d, L2', upd_same .., e1, e2, e3, e4, e5, h7.step i hstep, e6 _ h8, h9, hlt⟩⟩
    · obtain ⟨o1, o2⟩ := step_other h hu
      refine .inl ⟨o2.trans hlog, ?_⟩
      rw [o1]
      rcases hr with ⟨cur, n, rest, h1, h2⟩ | ⟨cur, n, rest, arr, len, idx, before, d, L2, h1, h2, h3, h4, h5, h6, h7, h8, h9, h10⟩
      · exact .inl ⟨cur, n, rest, h1, h2.step i h⟩
      · obtain ⟨e1, ⟨L2', e2⟩, e3, e4, e5, e6⟩ := safe_node i h h2 h3 h4 h5 h6
        exact .inr ⟨cur, n, rest, arr, len, idx, before, d, L2', h1, e1, e2, e3, e4, e5, h7.step i h, e6 _ h8, h9, h10⟩
  · obtain ⟨more, hm⟩ := step_log h t
    exact .inr ⟨more ++ later, by rw [hm, hr, List.append_assoc]⟩

theorem ReadOk.run {s s' : St} (i : Inv s) {t x : Nat} {c : Call} {log : List (Call × Option Nat)} {l : List (Nat × Call × Bool)}
    (hr : ReadOk t c x log s l) (h : s.run l = some s') : ReadOk t c x log s' [] := by
  induction l generalizing s with
  | nil => cases h; exact hr
  | cons e l ih =>
    obtain ⟨s1, h1, h2⟩ := run_cons h
    exact ih (i.step h1).1 (hr.step i h1) h2

theorem Lasting.safe {s : St} (i : Inv s) {l : List (Nat × Call × Bool)} {a x : Nat} {ns : List Bytes} (h : Lasting s l a ns x) (ha : a < s.next) : Safe s l a ns x := by
  induction h with
  | here a => exact .here a
  | down h1 h2 h3 h4 _ ih =>
    rename_i a d x before after ns _
    have hL : Content s a ((before ++ [d]) ++ after) := .inl ⟨fun t c j h => h1 ⟨t, c, j, h⟩, by rw [h2]; simp⟩
    exact .down ha hL rfl h3 h4 (ih (i.content_old hL (by simp)))

/-- If nobody is inside of `AddNode`, all children that were made point up. -/
theorem Chain.up {s : St} (hno : ∀ t p, ¬ InAdd s t p) {a x : Nat} {l : List Bytes} (h : Chain s a l x) : UpPath s a l x := by
  induction h with
  | here a => exact .here a
  | down hd _ ih =>
    refine .down ?_ ih
    rcases hd.2.2 with h | ⟨t, h⟩
    · exact h
    · exfalso
      cases hq : s.pc t with
      | appended c p' c' arr rest => rw [hq] at h; cases h.1; exact hno t _ ⟨c, c', arr, rest, .inl hq⟩
      | linked c p' c' rest => rw [hq] at h; cases h.1; exact hno t _ ⟨c, c', 0, rest, .inr hq⟩
      | _ => rw [hq] at h; exact h.elim

/-- While nobody has the lock, the children are those seen. -/
theorem free_content {s : St} (i : Inv s) {p : Nat} (hp : (s.node p).lock = none) {L : List Nat} : Content s p L ↔ (s.node p).downs = L := by
  have none_holds : ∀ t, ¬ Holds (s.pc t) p := fun t ht => by rw [← i.locks, hp] at ht; cases ht
  constructor
  · rintro (⟨_, h⟩ | ⟨t, A, x, B, k, h, _⟩)
    · exact h
    · exact absurd (by rw [h]; rfl) (none_holds t)
  · exact fun h => .inl ⟨fun t c j h => none_holds t (by rw [h]; rfl), h⟩

end Verif.TreeAll
