import Verif.Lemmas.TreeRace
import Verif.Props.TreeAll
/-!
# Property C123: data races in a tree that many goroutines use
-/
namespace Verif.TreeAll

/-! ## The accesses -/

/-- `writes` is complete: a step changes no other memory. -/
theorem C123_writes {s s1 s2 : St} (hi : s.Init) {l : List (Nat × Call × Bool)} (h1 : s.run l = some s1) {t : Nat} {c : Call} {f : Bool}
    (h2 : s1.step t c f = some s2) {a : Loc} (ha : ¬ s1.writes t f a) : s2.word a = s1.word a :=
  writes_all ((Inv.init hi).run h1).1 h2 ha

/-- `reads` is complete: what a step does depends on no other memory.  `s1` and `s1'` differ only there and in the other goroutines. -/
theorem C123_reads {s s' s1 s1' s2 : St} (hi : s.Init) (hi' : s'.Init) {l l' : List (Nat × Call × Bool)} (h1 : s.run l = some s1)
    (h1' : s'.run l' = some s1') {t : Nat} {c : Call} {f : Bool} (hs : Alike s1 s1' t) (hr : ∀ a, s1.reads t f a → s1'.word a = s1.word a)
    (h2 : s1.step t c f = some s2) : ∃ s2', s1'.step t c f = some s2' ∧ Alike s2 s2' t ∧ ∀ a, s1.writes t f a → s2'.word a = s2.word a :=
  reads_all ((Inv.init hi).run h1).1 ((Inv.init hi').run h1').1 hs hr h2

/-- Goroutine 0 is about to write the header of the root: nothing else changes. -/
example : ∃ s1 s2, Demo.root.run (Demo.go 5 0 (Demo.add "a") true) = some s1 ∧ s1.step 0 (Demo.add "a") false = some s2 ∧ s2.word (.name 1) = s1.word (.name 1) ∧
    s1.word (.head 0) = .head 0 0 ∧ s2.word (.head 0) = .head 1 1 := by
  have h1 : ∃ s1, Demo.root.run (Demo.go 5 0 (Demo.add "a") true) = some s1 := ⟨_, rfl⟩
  obtain ⟨s1, h1⟩ := h1
  have h2 : ∃ s2, s1.step 0 (Demo.add "a") false = some s2 := by cases h1; exact ⟨_, rfl⟩
  obtain ⟨s2, h2⟩ := h2
  exact ⟨s1, s2, h1, h2, C123_writes Demo.root_init h1 h2 (by cases h1; exact fun h => by cases h), by cases h1; rfl, by cases h1; cases h2; rfl⟩

/-- The tree `Demo.root` with another name of the root; looking for a child does not depend on it. -/
def Demo.other : St := ⟨fun _ => newNode (b "q"), 1, fun _ => .idle, fun _ => []⟩

theorem Demo.other_init : Demo.other.Init where
  kid _ _ _ h := by cases h
  arr _ := Nat.zero_lt_one
  len _ := Nat.le_refl _
  nodup _ := List.nodup_nil
  free _ := rfl
  idle _ := rfl
  log _ := rfl

example : ∃ s1 s1' s2 s2', Demo.root.run (Demo.go 1 0 (Demo.add "a")) = some s1 ∧ Demo.other.run (Demo.go 1 0 (Demo.add "a")) = some s1' ∧
    s1.step 0 (Demo.add "a") false = some s2 ∧ s1'.step 0 (Demo.add "a") false = some s2' ∧ s2'.pc 0 = s2.pc 0 := by
  have h1 : ∃ s1, Demo.root.run (Demo.go 1 0 (Demo.add "a")) = some s1 := ⟨_, rfl⟩
  have h1' : ∃ s1, Demo.other.run (Demo.go 1 0 (Demo.add "a")) = some s1 := ⟨_, rfl⟩
  obtain ⟨s1, h1⟩ := h1
  obtain ⟨s1', h1'⟩ := h1'
  have h2 : ∃ s2, s1.step 0 (Demo.add "a") false = some s2 := by cases h1; exact ⟨_, rfl⟩
  obtain ⟨s2, h2⟩ := h2
  obtain ⟨s2', e1, e2, _⟩ := C123_reads Demo.root_init Demo.other_init h1 h1' (t := 0) (f := false) (by cases h1; cases h1'; exact ⟨rfl, rfl, rfl, fun _ => rfl, fun _ => rfl⟩)
    (fun a ha => by cases h1; cases h1'; cases ha; rfl) h2
  exact ⟨s1, s1', s2, s2', h1, h1', h2, e1, e2.pc⟩

/-! ## Which races there are -/

/-- **C123, in part.**  In every data race either the first step makes a node (in `AddNode`) and the second uses this node, or one step writes with
the lock of the node and the other reads without any lock.  So all writes to `Downs` and `Up`, apart from the making of nodes, are ordered, and so are
the reads of `DeleteNode`. -/
theorem C123_partial {s : St} (hi : s.Init) {l : List (Nat × Call × Bool)} {a : Loc} {i j ti tj : Nat} {si sj : St} {fi fj : Bool}
    (r : Race s l a i j si sj ti tj fi fj) :
    (si.makes ti ∧ a.node = si.next) ∨
    (si.writes ti fi a ∧ HasLock si ti a.node ∧ sj.reads tj fj a ∧ ∀ q, ¬ HasLock sj tj q) ∨
    (sj.writes tj fj a ∧ HasLock sj tj a.node ∧ si.reads ti fi a ∧ ∀ q, ¬ HasLock si ti q) := by
  have i0 := Inv.init hi
  obtain ⟨ii, _⟩ := i0.run r.ei.1
  obtain ⟨ij, _⟩ := i0.run r.ej.1
  obtain ⟨ci, s1, hs1, l1, hl1⟩ := r.ei.next r.ej r.lt
  obtain ⟨i1, g1, _⟩ := ii.step hs1
  obtain ⟨_, g2⟩ := i1.run hl1
  have g := g1.trans g2
  -- what a goroutine that reads may hold
  have free : ∀ {s : St} (i : Inv s) {t : Nat} {p : Nat}, (∀ q, ¬ Holds (s.pc t) q) → ∀ q, ¬ HasLock s t q :=
    fun i _ _ h q hq => h q ((i.locks q _).1 hq)
  -- memory that is guarded by the same lock on both sides is ordered
  have ordered : ∀ {p q : Nat}, Holds (si.pc ti) p → Holds (sj.pc tj) q → Guarded si p a → Guarded sj q a → False := by
    intro p q hp hq gp gq
    have := (gp.grows g).one ij gq
    subst this
    exact r.open_ (locked_hb i0 r.ei r.ej r.lt hp hq)
  have node : ∀ {s : St} {p t : Nat} {f : Bool}, Guarded s p a → (∀ d, a ≠ .name d) → (∀ d, a ≠ .up d) → p = a.node := by
    intro s p t f hg h1 h2
    cases a with
    | head q => exact hg.symm
    | cell q _ _ => exact hg.symm
    | name d => exact absurd rfl (h1 d)
    | up d => exact absurd rfl (h2 d)
  -- the second step does not make the node that the first one uses
  have late : a.node < si.next → ¬ a.node = sj.next := fun h e => by
    have := g.next
    omega
  rcases r.conflict with ⟨hw, hr | hw'⟩ | ⟨hr, hw⟩
  · obtain ⟨p, hp, hm | ⟨gp, hn⟩⟩ := writes_guarded ii hw
    · exact .inl hm
    · by_cases hq : ∃ q, Holds (sj.pc tj) q
      · obtain ⟨q, hq⟩ := hq
        exact (ordered hp hq gp (reads_guarded ij hr hq)).elim
      · have : p = a.node := node (t := ti) (f := fi) gp hn (fun d e => reads_up (e ▸ hr))
        subst this
        exact .inr (.inl ⟨hw, (ii.locks _ _).2 hp, hr, free ij (p := 0) fun q h => hq ⟨q, h⟩⟩)
  · obtain ⟨p, hp, hm | ⟨gp, hn⟩⟩ := writes_guarded ii hw
    · exact .inl hm
    · obtain ⟨q, hq, hm | ⟨gq, _⟩⟩ := writes_guarded ij hw'
      · exact absurd hm.2 (late (guarded_old gp (PCok.holds_old (ii.pcs ti) hp)))
      · exact (ordered hp hq gp gq).elim
  · obtain ⟨q, hq, hm | ⟨gq, hn⟩⟩ := writes_guarded ij hw
    · exact absurd hm.2 (late (reads_old ii hr))
    · by_cases hp : ∃ p, Holds (si.pc ti) p
      · obtain ⟨p, hp⟩ := hp
        exact (ordered hp hq (reads_guarded ii hr hp) gq).elim
      · have : q = a.node := node (t := ti) (f := fi) gq hn (fun d e => reads_up (e ▸ hr))
        subst this
        exact .inr (.inr ⟨hw, (ij.locks _ _).2 hq, hr, free ii (p := 0) fun q h => hp ⟨q, h⟩⟩)

/-- Executions in which only `DeleteNode` is called have no data race. -/
theorem C123_delete {s : St} (hi : s.Init) {l : List (Nat × Call × Bool)} (hl : ∀ e ∈ l, ∃ p n, e.2.1 = .del p n) (a : Loc) (i j ti tj : Nat)
    (si sj : St) (fi fj : Bool) : ¬ Race s l a i j si sj ti tj fi fj := by
  intro r
  have i0 := Inv.init hi
  have calls : ∀ {k sk}, s.run (l.take k) = some sk → ∀ t c, (sk.pc t).call = some c → ∃ p n, c = .del p n := fun {k sk} h =>
    run_call (P := fun c => ∃ p n, c = .del p n) h (fun e he => hl e (List.mem_of_mem_take he)) (fun t c hc => by rw [hi.idle] at hc; cases hc)
  -- no step makes a node, and no step reads without a lock
  have makes : ∀ {k sk t}, s.run (l.take k) = some sk → ¬ sk.makes t := by
    intro k sk t h hm
    unfold St.makes at hm
    cases hpc : sk.pc t with
    | locked c cur n rest =>
      obtain ⟨p, n', rfl⟩ := calls h t c (by rw [hpc]; rfl)
      rw [hpc] at hm
      exact hm
    | _ => rw [hpc] at hm; exact hm
  have reads : ∀ {k sk t f}, s.run (l.take k) = some sk → sk.reads t f a → ∃ q, HasLock sk t q := by
    intro k sk t f h hr
    obtain ⟨ik, _⟩ := i0.run h
    have hp := ik.pcs t
    unfold St.reads at hr
    cases hpc : sk.pc t with
    | look c cur n rest =>
      obtain ⟨p, n', rfl⟩ := calls h t c (by rw [hpc]; rfl)
      rw [hpc] at hp
      obtain ⟨_, _, _, _, e | ⟨e, _⟩, _⟩ := hp <;> cases e
    | scan c cur n rest arr len idx =>
      obtain ⟨p, n', rfl⟩ := calls h t c (by rw [hpc]; rfl)
      rw [hpc] at hp
      obtain ⟨⟨_, _, _, _, e | ⟨e, _⟩, _⟩, _⟩ := hp <;> cases e
    | enter c d ns fs =>
      obtain ⟨p, n', rfl⟩ := calls h t c (by rw [hpc]; rfl)
      rw [hpc] at hp
      obtain ⟨_, _, e, _⟩ := hp
      cases e
    | find c fs =>
      obtain ⟨p, n', rfl⟩ := calls h t c (by rw [hpc]; rfl)
      rw [hpc] at hp
      obtain ⟨_, _, e, _⟩ := hp
      cases e
    | locked c cur n rest => exact ⟨cur, (ik.locks cur t).2 (by rw [hpc]; rfl)⟩
    | appended c cur child arr rest => exact ⟨cur, (ik.locks cur t).2 (by rw [hpc]; rfl)⟩
    | shift c cur j => exact ⟨cur, (ik.locks cur t).2 (by rw [hpc]; rfl)⟩
    | _ => rw [hpc] at hr; exact hr.elim
  rcases C123_partial hi r with h | ⟨_, _, h, hn⟩ | ⟨_, _, h, hn⟩
  · exact makes r.ei.1 h.1
  · obtain ⟨q, hq⟩ := reads r.ej.1 h
    exact hn q hq
  · obtain ⟨q, hq⟩ := reads r.ei.1 h
    exact hn q hq

/-- Executions in which only `GetNode` and `FindNode` are called write nothing, so they have no data race either. -/
theorem C123_readers {s : St} (hi : s.Init) {l : List (Nat × Call × Bool)}
    (hl : ∀ e ∈ l, (∃ p tag ns, e.2.1 = .get p tag ns) ∨ ∃ p ns, e.2.1 = .find p ns) {s1 : St} (h : s.run l = some s1) :
    s1.word = s.word ∧ ∀ (a : Loc) (i j ti tj : Nat) (si sj : St) (fi fj : Bool), ¬ Race s l a i j si sj ti tj fi fj := by
  have i0 := Inv.init hi
  have none : ∀ {k sk t f a}, s.run (l.take k) = some sk → ¬ sk.writes t f a := by
    intro k sk t f a hk hw
    obtain ⟨ik, _⟩ := i0.run hk
    obtain ⟨p, hp, _⟩ := writes_guarded ik hw
    have hpc' := ik.pcs t
    have calls := run_call (P := fun c => (∃ p tag ns, c = .get p tag ns) ∨ ∃ p ns, c = .find p ns) hk (fun e he => hl e (List.mem_of_mem_take he))
      (fun t c hc => by rw [hi.idle] at hc; cases hc) t
    cases hpc : sk.pc t with
    | locked c cur n rest =>
      rw [hpc] at hpc' calls
      have := calls c rfl
      rcases hpc' with ⟨_, _, _, _, rfl, _⟩ | ⟨rfl, _⟩ <;> rcases this with ⟨_, _, _, e⟩ | ⟨_, _, e⟩ <;> cases e
    | appended c cur child arr rest =>
      rw [hpc] at hpc' calls
      have := calls c rfl
      obtain ⟨_, _, _, _, _, rfl, _⟩ := hpc'
      rcases this with ⟨_, _, _, e⟩ | ⟨_, _, e⟩ <;> cases e
    | linked c cur child rest =>
      rw [hpc] at hpc' calls
      have := calls c rfl
      obtain ⟨_, _, _, _, _, rfl, _⟩ := hpc'
      rcases this with ⟨_, _, _, e⟩ | ⟨_, _, e⟩ <;> cases e
    | shift c cur j =>
      rw [hpc] at hpc' calls
      have := calls c rfl
      obtain ⟨⟨_, rfl⟩, _⟩ := hpc'
      rcases this with ⟨_, _, _, e⟩ | ⟨_, _, e⟩ <;> cases e
    | _ => unfold St.writes at hw; rw [hpc] at hw; exact hw
  refine ⟨?_, fun a i j ti tj si sj fi fj r => ?_⟩
  · have : ∀ k sk, k ≤ l.length → s.run (l.take k) = some sk → sk.word = s.word := by
      intro k
      induction k with
      | zero => intro sk _ h; simp only [List.take_zero, St.run] at h; cases h; rfl
      | succ k ih =>
        intro sk hk h
        rw [List.take_add_one, List.getElem?_eq_getElem (by omega)] at h
        obtain ⟨s2, q1, q2⟩ := run_split h
        obtain ⟨s3, q3, q4⟩ := run_cons q2
        cases q4
        rw [← ih s2 (by omega) q1]
        funext a
        exact writes_all (i0.run q1).1 q3 (none q1)
    exact this l.length s1 (Nat.le_refl _) (by rw [List.take_length]; exact h)
  · rcases r.conflict with ⟨h, _⟩ | ⟨_, h⟩
    · exact none r.ei.1 h
    · exact none r.ej.1 h

/-! ## The races -/

/-- Goroutine 0 is in `AddNode("a")`, the cell is written; goroutine 1 begins `AddNode("b")` and reads `Downs`; goroutine 0 writes `Downs`. -/
def Demo.race : List (Nat × Call × Bool) := Demo.go 5 0 (Demo.add "a") true ++ Demo.go 2 1 (Demo.add "b") ++ Demo.go 1 0 (Demo.add "a")

/-- Goroutine 0 has made node 1 and written `Downs`; goroutine 1 finds it with `GetNode("a")` and reads its name. -/
def Demo.early : List (Nat × Call × Bool) := Demo.go 6 0 (Demo.add "a") true ++ Demo.go 3 1 (.get 0 (b "a") [])

theorem Demo.race_quiet (k : Nat) (sk : St) (t : Nat) (f : Bool) (p : Nat) (hk : k < 7) (h : Ev Demo.root Demo.race k sk t f) : ¬ Unlocks sk t p := by
  obtain ⟨h1, c, h2⟩ := h
  rintro ⟨c', r, rest, h3⟩
  match k, hk with
  | 0, _ | 1, _ | 2, _ | 3, _ | 4, _ | 5, _ | 6, _ => cases h2; cases h1; cases h3

theorem Demo.early_quiet (k : Nat) (sk : St) (t : Nat) (f : Bool) (p : Nat) (hk : k < 8) (h : Ev Demo.root Demo.early k sk t f) : ¬ Unlocks sk t p := by
  obtain ⟨h1, c, h2⟩ := h
  rintro ⟨c', r, rest, h3⟩
  match k, hk with
  | 0, _ | 1, _ | 2, _ | 3, _ | 4, _ | 5, _ | 6, _ | 7, _ => cases h2; cases h1; cases h3

/-- **C123 fails**: two calls of `AddNode` on one node, with different names, have a data race. -/
theorem C123_violated : ∃ (l : List (Nat × Call × Bool)) (i j ti tj : Nat) (si sj s1 : St) (fi fj : Bool), Demo.root.run l = some s1 ∧
    (∀ e ∈ l, e.2.1 = .add 0 (b "a") [] ∨ e.2.1 = .add 0 (b "b") []) ∧ Race Demo.root l (.head 0) i j si sj ti tj fi fj := by
  have h6 : ∃ si, Demo.root.run (Demo.race.take 6) = some si := ⟨_, rfl⟩
  have h7 : ∃ sj, Demo.root.run (Demo.race.take 7) = some sj := ⟨_, rfl⟩
  have h8 : ∃ s1, Demo.root.run Demo.race = some s1 := ⟨_, rfl⟩
  obtain ⟨si, h6⟩ := h6
  obtain ⟨sj, h7⟩ := h7
  obtain ⟨s1, h8⟩ := h8
  refine ⟨Demo.race, 6, 7, 1, 0, si, sj, s1, false, false, h8, ?_, by omega, ⟨h6, _, rfl⟩, ⟨h7, _, rfl⟩, .inr ⟨?_, ?_⟩, fun h => ?_⟩
  · intro e he
    simp only [Demo.race, Demo.go, List.mem_append, List.mem_replicate] at he
    rcases he with (⟨_, rfl⟩ | ⟨_, rfl⟩) | ⟨_, rfl⟩
    · exact .inl rfl
    · exact .inr rfl
    · exact .inl rfl
  · cases h6; exact rfl
  · cases h7; exact rfl
  · exact absurd (hb_quiet Demo.race_quiet h (Nat.le_refl _)).2 (by decide)

/-- **C123 fails**: a node can be used by another goroutine before it is safely made: `GetNode` reads a name that `NewTree` has written, unordered. -/
theorem C123_violated_new : ∃ (l : List (Nat × Call × Bool)) (i j ti tj : Nat) (si sj s1 : St) (fi fj : Bool), Demo.root.run l = some s1 ∧
    s1.log tj = [(.get 0 (b "a") [], some 1)] ∧ si.makes ti ∧ Race Demo.root l (.name 1) i j si sj ti tj fi fj := by
  have h4 : ∃ si, Demo.root.run (Demo.early.take 4) = some si := ⟨_, rfl⟩
  have h8 : ∃ sj, Demo.root.run (Demo.early.take 8) = some sj := ⟨_, rfl⟩
  have h9 : ∃ s1, Demo.root.run Demo.early = some s1 := ⟨_, rfl⟩
  obtain ⟨si, h4⟩ := h4
  obtain ⟨sj, h8⟩ := h8
  obtain ⟨s1, h9⟩ := h9
  refine ⟨Demo.early, 4, 8, 0, 1, si, sj, s1, true, false, h9, by cases h9; rfl, by cases h4; trivial, by omega, ⟨h4, _, rfl⟩, ⟨h8, _, rfl⟩,
    .inl ⟨?_, .inl ?_⟩, fun h => ?_⟩
  · cases h4; exact .inl rfl
  · cases h8; exact ⟨Nat.zero_lt_one, .inr ⟨1, rfl, rfl⟩⟩
  · exact absurd (hb_quiet Demo.early_quiet h (Nat.le_refl _)).2 (by decide)

/-- The race of `C123_violated` is between a write with the lock and a read without one. -/
example : ∃ (si sj : St), Race Demo.root Demo.race (.head 0) 6 7 si sj 1 0 false false ∧ HasLock sj 0 0 ∧ ∀ q, ¬ HasLock si 1 q := by
  have h6 : ∃ si, Demo.root.run (Demo.race.take 6) = some si := ⟨_, rfl⟩
  have h7 : ∃ sj, Demo.root.run (Demo.race.take 7) = some sj := ⟨_, rfl⟩
  obtain ⟨si, h6⟩ := h6
  obtain ⟨sj, h7⟩ := h7
  have r : Race Demo.root Demo.race (.head 0) 6 7 si sj 1 0 false false :=
    ⟨by omega, ⟨h6, _, rfl⟩, ⟨h7, _, rfl⟩, .inr ⟨by cases h6; exact rfl, by cases h7; exact rfl⟩,
      fun h => absurd (hb_quiet Demo.race_quiet h (Nat.le_refl _)).2 (by decide)⟩
  refine ⟨si, sj, r, ?_⟩
  rcases C123_partial Demo.root_init r with h | ⟨h, _⟩ | ⟨_, h, _, h'⟩
  · cases h6; exact h.1.elim
  · cases h6; exact h.elim
  · exact ⟨h, h'⟩

/-- A tree with three children: root `r`, children `a`, `b`, `c`. -/
def Demo.three : St where
  node a := if a = 0 then { newNode (b "r") with cells := fun _ => [1, 2, 3], len := 3 }
    else { newNode (if a = 1 then b "a" else if a = 2 then b "b" else b "c") with up := some 0 }
  next := 4
  pc _ := .idle
  log _ := []

theorem Demo.three_init : Demo.three.Init where
  kid p k c h := by
    by_cases hp : p = 0
    · subst hp
      have : c ∈ [1, 2, 3] := h
      simp only [List.mem_cons, List.not_mem_nil, or_false] at this
      rcases this with rfl | rfl | rfl <;> decide
    · simp only [Demo.three, if_neg hp] at h
      cases h
  arr p := by by_cases hp : p = 0 <;> simp [Demo.three, hp, newNode]
  len p := by by_cases hp : p = 0 <;> simp [Demo.three, hp, newNode]
  nodup p := by by_cases hp : p = 0 <;> simp [Demo.three, hp, newNode, Node.downs]
  free a := by by_cases hp : a = 0 <;> simp [Demo.three, hp, newNode]
  idle _ := rfl
  log _ := rfl

/-- Two goroutines delete `a` and `b`, one of them waiting for the other; no race. -/
example : ∃ s1, Demo.three.run (Demo.go 4 0 (Demo.del "a") ++ Demo.go 1 1 (Demo.del "b") ++ Demo.go 3 0 (Demo.del "a") ++ Demo.go 5 1 (Demo.del "b")) = some s1 ∧
    (s1.node 0).downs = [3] ∧ ∀ (a : Loc) (i j ti tj : Nat) (si sj : St) (fi fj : Bool), ¬ Race Demo.three
      (Demo.go 4 0 (Demo.del "a") ++ Demo.go 1 1 (Demo.del "b") ++ Demo.go 3 0 (Demo.del "a") ++ Demo.go 5 1 (Demo.del "b")) a i j si sj ti tj fi fj := by
  refine ⟨_, rfl, rfl, C123_delete Demo.three_init fun e he => ?_⟩
  simp only [Demo.go, List.mem_append, List.mem_replicate] at he
  rcases he with ((⟨_, rfl⟩ | ⟨_, rfl⟩) | ⟨_, rfl⟩) | ⟨_, rfl⟩ <;> exact ⟨_, _, rfl⟩

/-- Two goroutines read. -/
example : ∃ s1, Demo.three.run (Demo.go 2 0 (.get 0 (b "b") []) ++ Demo.go 4 1 (.find 0 [b "c"]) ++ Demo.go 2 0 (.get 0 (b "b") [])) = some s1 ∧
    s1.log 0 = [(.get 0 (b "b") [], some 2)] ∧ s1.word = Demo.three.word := by
  have h : ∃ s1, Demo.three.run (Demo.go 2 0 (.get 0 (b "b") []) ++ Demo.go 4 1 (.find 0 [b "c"]) ++ Demo.go 2 0 (.get 0 (b "b") [])) = some s1 := ⟨_, rfl⟩
  obtain ⟨s1, h⟩ := h
  refine ⟨s1, h, by cases h; rfl, (C123_readers Demo.three_init (fun e he => ?_) h).1⟩
  simp only [Demo.go, List.mem_append, List.mem_replicate] at he
  rcases he with (⟨_, rfl⟩ | ⟨_, rfl⟩) | ⟨_, rfl⟩
  · exact .inl ⟨_, _, _, rfl⟩
  · exact .inr ⟨_, _, rfl⟩
  · exact .inl ⟨_, _, _, rfl⟩

end Verif.TreeAll
