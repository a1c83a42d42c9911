import Verif.Lemmas.TreeAllEnd
/-!
# Properties C120-C122: additions and deletions anywhere in a tree, by many goroutines
-/
namespace Verif.TreeAll

/-! ## Demo -/

/-- A root without children. -/
def Demo.root : St := ⟨fun _ => newNode (b "r"), 1, fun _ => .idle, fun _ => []⟩

theorem Demo.root_init : Demo.root.Init where
  kid _ _ _ h := by cases h
  arr _ := Nat.zero_lt_one
  len _ := Nat.le_refl _
  nodup _ := List.nodup_nil
  free _ := rfl
  idle _ := rfl
  log _ := rfl

def Demo.add (n : String) : Call := .add 0 (b n) []
def Demo.del (n : String) : Call := .del 0 (b n)

/-- `k` steps of goroutine `t`, which makes the call if it is idle. -/
def Demo.go (k t : Nat) (c : Call) (f : Bool := false) : List (Nat × Call × Bool) := List.replicate k (t, c, f)

/-- Goroutine 0 adds `a`, `b` and `c`. -/
def Demo.build : List (Nat × Call × Bool) := Demo.go 8 0 (Demo.add "a") true ++ Demo.go 9 0 (Demo.add "b") ++ Demo.go 10 0 (Demo.add "c") true

/-- Goroutine 1 deletes `a` while goroutine 2 adds `d`. -/
def Demo.mixed : List (Nat × Call × Bool) :=
  Demo.go 3 2 (Demo.add "d") ++ Demo.go 4 1 (Demo.del "a") ++ Demo.go 3 2 (Demo.add "d") ++ Demo.go 3 1 (Demo.del "a") ++ Demo.go 5 2 (Demo.add "d")

/-! ## C120: deletions -/

/-- **C120: trees stay trees.** Whatever runs at the same time, nothing panics, no node has two parents and no node is below itself. -/
theorem C120_tree {s s1 : St} (hi : s.Init) {l : List (Nat × Call × Bool)} (h : s.run l = some s1) :
    (∀ t c, s1.pc t ≠ .panic c) ∧ (∀ p q d, d ∈ (s1.node p).downs → d ∈ (s1.node q).downs → p = q) ∧ ∀ x, ¬ Below s1 x x := by
  obtain ⟨i, _⟩ := (Inv.init hi).run h
  have kid : ∀ {p d}, d ∈ (s1.node p).downs → Kid s1 p d := fun hd => i.kid _ _ _ (List.mem_of_mem_take hd)
  refine ⟨fun t c hp => ?_, fun p q d h1 h2 => i.kid_one (kid h1) (kid h2), fun x hx => ?_⟩
  · have := i.pcs t
    rw [hp] at this
    exact this
  · have lt : ∀ {a x}, Below s1 a x → a < x := by
      intro a x hb
      induction hb with
      | child hd => exact (kid hd).1
      | down hd _ ih => exact Nat.lt_trans (kid hd).1 ih
    exact Nat.lt_irrefl _ (lt hx)

/-- **C120: between calls the children are in order.** While nobody has the lock of a node, it lists no child twice, and all its children point
up to it. -/
theorem C120_settled {s s1 : St} (hi : s.Init) {l : List (Nat × Call × Bool)} (h : s.run l = some s1) {p : Nat} (hp : (s1.node p).lock = none) :
    (s1.node p).downs.Nodup ∧ ∀ d ∈ (s1.node p).downs, (s1.node d).up = some p := by
  obtain ⟨i, _⟩ := (Inv.init hi).run h
  have none_holds : ∀ t, ¬ Holds (s1.pc t) p := fun t ht => by rw [← i.locks, hp] at ht; cases ht
  obtain ⟨L, hL, hn⟩ := i.cont p
  constructor
  · rcases hL with ⟨_, h⟩ | ⟨t, A, x, B, k, h, _⟩
    · exact h ▸ hn
    · exact absurd (by rw [h]; rfl) (none_holds t)
  · intro d hd
    obtain ⟨_, _, h | ⟨t, h⟩⟩ := i.kid _ _ _ (List.mem_of_mem_take hd)
    · exact h
    · exact absurd h.holds (none_holds t)

/-- **C120: only what is deleted is lost.** Between two moments in which nobody has the lock of `p`, its children stay in their order, new ones come
behind them (nodes that were not there before, so that a node never comes back), and of each name not more children are lost than calls of
`DeleteNode` with this name were running or began. -/
theorem C120_order {s s1 s2 : St} (hi : s.Init) {l l' : List (Nat × Call × Bool)} (h1 : s.run l = some s1) (h2 : s1.run l' = some s2) {p : Nat}
    (hp1 : (s1.node p).lock = none) (hp2 : (s2.node p).lock = none) :
    ∃ kept added, (s2.node p).downs = kept ++ added ∧ kept.Sublist (s1.node p).downs ∧ (∀ x ∈ added, s1.next ≤ x) ∧
      ∀ (n : Bytes) (W : List Nat), (∀ t, Deleting s1 t p n → t ∈ W) →
        ((s1.node p).downs.filter fun d => decide ((s1.node d).name = n ∧ d ∉ kept)).length ≤ W.length + begun p n s1 l' := by
  obtain ⟨i1, _⟩ := (Inv.init hi).run h1
  obtain ⟨i2, _⟩ := i1.run h2
  obtain ⟨kept, added, e1, e2, e3, e4⟩ := i1.content_run h2 ((free_content i1 hp1).2 rfl)
  refine ⟨kept, added, (free_content i2 hp2).1 e1, e2, fun x hx => ?_, e4⟩
  rcases e3 x hx with h | ⟨t, c, arr, rest, h⟩
  · exact h
  · have : (s1.node p).lock = some t := (i1.locks p t).2 (by rw [h]; rfl)
    rw [hp1] at this
    cases this

/-- **C120: other names are safe.** A child is still there if no `DeleteNode` with its name was running or began. -/
theorem C120_kept {s s1 s2 : St} (hi : s.Init) {l l' : List (Nat × Call × Bool)} (h1 : s.run l = some s1) (h2 : s1.run l' = some s2) {p d : Nat}
    (hp1 : (s1.node p).lock = none) (hp2 : (s2.node p).lock = none) (hd : d ∈ (s1.node p).downs) (hn : ¬ Deletes s1 l' p (s1.node d).name) :
    d ∈ (s2.node p).downs := by
  obtain ⟨kept, added, e1, _, _, e4⟩ := C120_order hi h1 h2 hp1 hp2
  rw [e1]
  refine List.mem_append_left _ (Classical.byContradiction fun hk => ?_)
  have := e4 (s1.node d).name [] (fun t ht => absurd (.inl ⟨t, ht⟩) hn)
  have h0 : begun p (s1.node d).name s1 l' = 0 := Nat.eq_zero_of_not_pos fun h => hn (.inr h)
  rw [h0, List.length_nil, Nat.le_zero, List.length_eq_zero_iff, List.filter_eq_nil_iff] at this
  exact this d hd (by simp [hk])

/-- **C120: what is deleted is gone.** When a call of `DeleteNode(n)` has returned, the child that was the first of that name when the call began is not
a child any more. -/
theorem C120_gone {s s1 s2 : St} (hi : s.Init) {l l' : List (Nat × Call × Bool)} (h1 : s.run l = some s1) {t p d : Nat} {n : Bytes} {f : Bool}
    {r : Option Nat} (h2 : Returns s1 t (.del p n) f l' s2 r) (hp1 : (s1.node p).lock = none) (hp2 : (s2.node p).lock = none)
    (hd : FirstOf s1 p d) (hn : (s1.node d).name = n) : d ∉ (s2.node p).downs := by
  obtain ⟨i1, _⟩ := (Inv.init hi).run h1
  obtain ⟨hidle, hrun, later, hlog⟩ := h2
  obtain ⟨i2, _⟩ := i1.run hrun
  obtain ⟨s1', q1, q2⟩ := run_cons hrun
  dsimp only at q1
  obtain ⟨i1', g, hc⟩ := i1.step q1
  obtain ⟨before, after, e1, e2⟩ := hd
  have hdn := (C120_settled hi h1 hp1).1
  rw [e1] at hdn
  have hkid : Kid s1 p d := i1.kid _ _ _ (List.mem_of_mem_take (i := (s1.node p).len) (by
    show d ∈ (s1.node p).downs
    rw [e1]
    exact List.mem_append_right _ (List.mem_cons_self ..)))
  have hcoming : NotComing s1 p d := by
    refine ⟨hkid.2.1, fun u c arr rest h => ?_⟩
    have : (s1.node p).lock = some u := (i1.locks p u).2 (by rw [h]; rfl)
    rw [hp1] at this
    cases this
  -- the first step of the call
  have hfirst : s1' = s1.goto t (.want (.del p n) p n []) := by
    unfold St.step at q1
    rw [hidle] at q1
    dsimp only at q1
    split at q1 <;> cases q1
    rfl
  obtain ⟨L', hL', he⟩ := hc p _ ((free_content i1 hp1).2 rfl)
  have hJ : DelOk p n d t (s1.log t) s1' := by
    refine ⟨hcoming.step g q1, (g.name d hkid.2.1).trans hn, L', hL', .inl ⟨by rw [hfirst]; rfl, ⟨[], 0, .inl (by rw [hfirst]; exact upd_same ..)⟩, ?_⟩⟩
    refine he.first i1 g ((free_content i1 hp1).2 rfl) hcoming ⟨before, after, e1, e2, ?_⟩
    exact (List.nodup_cons.1 (List.nodup_append.1 hdn).2.1).1
  obtain ⟨_, _, L2, hL2, ⟨j1, _⟩ | ⟨j1, _⟩⟩ := hJ.run i1' q2
  · rw [j1] at hlog
    have := congrArg List.length hlog
    rw [List.length_append, List.length_cons] at this
    omega
  · rw [(free_content i2 hp2).1 hL2]
    exact j1

/-- Goroutine 1 deletes `a` (node 1) while goroutine 2 adds `d` (node 4). -/
example : ∃ s1 s2, Demo.root.run Demo.build = some s1 ∧ s1.run Demo.mixed = some s2 ∧ (s1.node 0).downs = [1, 2, 3] ∧ (s2.node 0).downs = [2, 3, 4] ∧
    (∃ kept added, (s2.node 0).downs = kept ++ added ∧ kept.Sublist (s1.node 0).downs ∧ (∀ x ∈ added, s1.next ≤ x) ∧
      ((s1.node 0).downs.filter fun d => decide ((s1.node d).name = b "a" ∧ d ∉ kept)).length ≤ 1) ∧ 2 ∈ (s2.node 0).downs := by
  have h1 : ∃ s1, Demo.root.run Demo.build = some s1 := ⟨_, rfl⟩
  obtain ⟨s1, h1⟩ := h1
  have h2 : ∃ s2, s1.run Demo.mixed = some s2 := by cases h1; exact ⟨_, rfl⟩
  obtain ⟨s2, h2⟩ := h2
  have f1 : (s1.node 0).lock = none := by cases h1; rfl
  have f2 : (s2.node 0).lock = none := by cases h1; cases h2; rfl
  have d1 : (s1.node 0).downs = [1, 2, 3] := by cases h1; rfl
  have idle : ∀ t, s1.pc t = .idle := by
    intro t
    by_cases ht : t = 0
    · subst ht; cases h1; rfl
    · exact ((run_other (u := t) h1 fun e he => by
        have : e.1 = 0 := by
          simp only [Demo.build, Demo.go, List.mem_append, List.mem_replicate] at he
          rcases he with (⟨_, rfl⟩ | ⟨_, rfl⟩) | ⟨_, rfl⟩ <;> rfl
        rw [this]; exact ht).1)
  have none : ∀ t n, ¬ Deleting s1 t 0 n := by
    rintro t n ⟨_, _, h⟩
    rw [idle t] at h
    rcases h with h | h | h <;> cases h
  refine ⟨s1, s2, h1, h2, d1, by cases h1; cases h2; rfl, ?_, ?_⟩
  · obtain ⟨kept, added, e1, e2, e3, e4⟩ := C120_order Demo.root_init h1 h2 f1 f2
    refine ⟨kept, added, e1, e2, e3, ?_⟩
    have := e4 (b "a") [] (fun t ht => absurd ht (none t _))
    have hb : begun 0 (b "a") s1 Demo.mixed = 1 := by cases h1; rfl
    rw [hb] at this
    exact this
  · refine C120_kept Demo.root_init h1 h2 f1 f2 (by rw [d1]; simp) ?_
    rintro (⟨t, ht⟩ | h)
    · exact none t _ ht
    · have : begun 0 (s1.node 2).name s1 Demo.mixed = 0 := by cases h1; rfl
      omega

/-- The call of goroutine 1 in it. -/
example : ∃ s1 s2, Demo.root.run Demo.build = some s1 ∧ Returns s1 1 (Demo.del "a") false (Demo.go 6 1 (Demo.del "a")) s2 none ∧ FirstOf s1 0 1 ∧
    1 ∉ (s2.node 0).downs := by
  have h1 : ∃ s1, Demo.root.run Demo.build = some s1 := ⟨_, rfl⟩
  obtain ⟨s1, h1⟩ := h1
  have h2 : ∃ s2, s1.run (Demo.go 7 1 (Demo.del "a")) = some s2 := by cases h1; exact ⟨_, rfl⟩
  obtain ⟨s2, h2⟩ := h2
  have hr : Returns s1 1 (Demo.del "a") false (Demo.go 6 1 (Demo.del "a")) s2 none := ⟨by cases h1; rfl, h2, [], by cases h1; cases h2; rfl⟩
  have hf : FirstOf s1 0 1 := ⟨[], [2, 3], by cases h1; rfl, fun e he => (by cases he)⟩
  exact ⟨s1, s2, h1, hr, hf, C120_gone Demo.root_init h1 hr (by cases h1; rfl) (by cases h1; cases h2; rfl) hf (by cases h1; rfl)⟩

/-! ## C121: results -/

/-- **C121: nodes that were returned know where they come from.** Through `Up` one comes from a node that `AddNodes` or `GetNode` has returned to the
receiver, over nodes of the given names, also if it has been deleted meanwhile; from a node that `FindNode` has returned, over nodes with the given
names among theirs.  (At moments in which no `AddNode` is between making a node and setting its `Up`.) -/
theorem C121_up {s s1 : St} (hi : s.Init) {l : List (Nat × Call × Bool)} (h : s.run l = some s1) (hno : ∀ t p, ¬ InAdd s1 t p) {t : Nat} {c : Call}
    {r : Option Nat} (hlog : (c, r) ∈ s1.log t) :
    match c with
    | .add self tag names => ∃ x, r = some x ∧ UpPath s1 self (tag :: names) x
    | .get self tag names => ∀ x, r = some x → if tag = [] then x = self else UpPath s1 self (tag :: names) x
    | .find self names => ∀ x, r = some x → ∃ p, UpPath s1 self p x ∧ names.Sublist p ∧ p.getLast? = names.getLast?
    | .del _ _ => r = none := by
  obtain ⟨i, _⟩ := (Inv.init hi).run h
  have hres := i.logs t _ hlog
  cases c with
  | add self tag names =>
    obtain ⟨_, x, e1, e2⟩ := hres
    exact ⟨x, e1, e2.up hno⟩
  | get self tag names =>
    intro x hx
    have := hres.2 x hx
    split
    · rename_i h; rwa [if_pos h] at this
    · rename_i h; rw [if_neg h] at this; exact this.up hno
  | find self names =>
    intro x hx
    obtain ⟨p, e1, e2, e3⟩ := hres.2 x hx
    exact ⟨p, e1.up hno, e2, e3⟩
  | del self name => exact hres.2

/-- Node 1 was returned by `AddNode("a")` and is deleted. -/
example : ∃ s1, Demo.root.run (Demo.build ++ Demo.go 7 1 (Demo.del "a")) = some s1 ∧ 1 ∉ (s1.node 0).downs ∧ (Demo.add "a", some 1) ∈ s1.log 0 ∧ UpPath s1 0 [b "a"] 1 := by
  have h1 : ∃ s1, Demo.root.run (Demo.build ++ Demo.go 7 1 (Demo.del "a")) = some s1 := ⟨_, rfl⟩
  obtain ⟨s1, h1⟩ := h1
  have hl : (Demo.add "a", some 1) ∈ s1.log 0 := by cases h1; exact List.mem_cons_of_mem _ (List.mem_cons_of_mem _ (List.mem_cons_self ..))
  have idle : ∀ t, s1.pc t = .idle := by
    intro t
    by_cases ht : t = 0 ∨ t = 1
    · rcases ht with rfl | rfl <;> cases h1 <;> rfl
    · refine (run_other (u := t) h1 fun e he h => ht ?_).1
      simp only [Demo.build, Demo.go, List.mem_append, List.mem_replicate] at he
      rcases he with ((⟨_, rfl⟩ | ⟨_, rfl⟩) | ⟨_, rfl⟩) | ⟨_, rfl⟩ <;> subst h <;> simp
  obtain ⟨x, hx, hu⟩ := C121_up Demo.root_init h1 (fun t p ⟨_, _, _, _, h⟩ => by rw [idle t] at h; rcases h with h | h <;> cases h) hl
  cases hx
  exact ⟨s1, h1, by cases h1; decide, hl, hu⟩

/-- **C121: readers find what lasts.** If the nodes of a path are the first of their names when `GetNode` or `AddNodes` begins, and no `DeleteNode` names
one of them or a sibling before it, then the call returns the end of the path. -/
theorem C121_found {s s1 s2 : St} (hi : s.Init) {l l' : List (Nat × Call × Bool)} (h1 : s.run l = some s1) {t self x : Nat} {tag : Bytes}
    {names : List Bytes} {c : Call} {f : Bool} {r : Option Nat} (hc : c = .add self tag names ∨ c = .get self tag names ∧ tag ≠ [])
    (h2 : Returns s1 t c f l' s2 r) (hx : Lasting s1 ((t, c, f) :: l') self (tag :: names) x) : r = some x := by
  obtain ⟨i1, _⟩ := (Inv.init hi).run h1
  obtain ⟨hidle, hrun, later, hlog⟩ := h2
  obtain ⟨s1', q1, q2⟩ := run_cons hrun
  dsimp only at q1
  have hself : self < s1.next := by
    unfold St.step at q1
    rw [hidle] at q1
    dsimp only at q1
    split at q1
    · rcases hc with rfl | ⟨rfl, _⟩ <;> assumption
    · cases q1
  have hfirst : s1' = s1.goto t (.look c self tag names) := by
    unfold St.step at q1
    rw [hidle] at q1
    dsimp only at q1
    split at q1 <;> cases q1
    rcases hc with rfl | ⟨rfl, ht⟩
    · rfl
    · simp only [St.begin, if_neg ht]
  have hR : ReadOk t c x (s1.log t) s1' l' := by
    refine .inl ⟨by rw [hfirst]; rfl, .inl ⟨self, tag, names, by rw [hfirst]; exact upd_same .., (hx.safe i1 hself).step i1 q1⟩⟩
  rcases hR.run (i1.step q1).1 q2 with ⟨e, _⟩ | ⟨later', e⟩
  · rw [e] at hlog
    have := congrArg List.length hlog
    rw [List.length_append, List.length_cons] at this
    omega
  · rw [e, List.append_cons, List.append_cons later] at hlog
    have h3 := List.append_cancel_right hlog
    have := List.append_inj_right' h3 rfl
    cases this
    rfl

/-- Goroutine 1 deletes `c` while goroutine 2 looks for `b`, which is before it. -/
example : ∃ s1 s2 r, Demo.root.run Demo.build = some s1 ∧
    Returns s1 2 (.get 0 (b "b") []) false (Demo.go 1 2 (Demo.add "x") ++ Demo.go 5 1 (Demo.del "c") ++ Demo.go 2 2 (Demo.add "x")) s2 r ∧ r = some 2 ∧
    (s2.node 0).downs = [1, 2] := by
  have h1 : ∃ s1, Demo.root.run Demo.build = some s1 := ⟨_, rfl⟩
  obtain ⟨s1, h1⟩ := h1
  have h2 : ∃ s2, s1.run ((2, .get 0 (b "b") [], false) :: (Demo.go 1 2 (Demo.add "x") ++ Demo.go 5 1 (Demo.del "c") ++ Demo.go 2 2 (Demo.add "x"))) = some s2 := by
    cases h1; exact ⟨_, rfl⟩
  obtain ⟨s2, h2⟩ := h2
  have idle : ∀ t, s1.pc t = .idle := by
    intro t
    by_cases ht : t = 0
    · subst ht; cases h1; rfl
    · exact ((run_other (u := t) h1 fun e he => by
        have : e.1 = 0 := by
          simp only [Demo.build, Demo.go, List.mem_append, List.mem_replicate] at he
          rcases he with (⟨_, rfl⟩ | ⟨_, rfl⟩) | ⟨_, rfl⟩ <;> rfl
        rw [this]; exact ht).1)
  have hr : Returns s1 2 (.get 0 (b "b") []) false (Demo.go 1 2 (Demo.add "x") ++ Demo.go 5 1 (Demo.del "c") ++ Demo.go 2 2 (Demo.add "x")) s2 (some 2) :=
    ⟨idle 2, h2, [], by cases h1; cases h2; rfl⟩
  refine ⟨s1, s2, some 2, h1, hr, C121_found Demo.root_init h1 (.inr ⟨rfl, by decide⟩) hr ?_, by cases h1; cases h2; rfl⟩
  have hname : (s1.node 2).name = b "b" := by cases h1; rfl
  rw [← hname]
  refine Lasting.down (before := [1]) (after := [3]) ?_ (by cases h1; rfl) ?_ ?_ (.here _)
  · rintro ⟨t, c, j, h⟩
    rw [idle t] at h
    cases h
  · intro e he
    rw [List.mem_singleton] at he
    subst he
    cases h1
    decide
  · intro e he
    rintro (⟨t, _, _, h⟩ | h)
    · rw [idle t] at h
      rcases h with h | h | h <;> cases h
    · simp only [List.cons_append, List.nil_append, List.mem_cons, List.not_mem_nil, or_false] at he
      rcases he with rfl | rfl
      · cases h1; exact absurd h (by decide)
      · cases h1; exact absurd h (by decide)

/-! ## C122: calls end -/

/-- **C122: no deadlock.** From every state one can go on until all calls have ended, with only the goroutines that were in a call and without
further calls: none of them waits for ever, and none is in an endless loop. -/
theorem C122_ends {s s1 : St} (hi : s.Init) {l : List (Nat × Call × Bool)} (h : s.run l = some s1) {T : List Nat} (hT : ∀ t, s1.pc t ≠ .idle → t ∈ T) :
    ∃ l' s2, (∀ e ∈ l', e.1 ∈ T) ∧ s1.run l' = some s2 ∧ ∀ t, Ended s1 s2 t := by
  obtain ⟨i, _⟩ := (Inv.init hi).run h
  obtain ⟨l1, s', e1, e2, e3, e4, e5⟩ := all_released (s0 := s1) T i (fun u => .inl ⟨rfl, rfl⟩) (fun u a hu => hT u fun hp => by rw [hp] at hu; exact hu)
  obtain ⟨l2, s2, q1, q2, q3⟩ := all_ended (s0 := s1) T e3 e4 e5 (fun u hu => hT u fun hp => by
    rcases e4 u with ⟨h, _⟩ | ⟨h, _⟩
    · rw [hp] at h
      exact hu (call_none h)
    · rw [hp] at h
      exact h rfl)
  refine ⟨l1 ++ l2, s2, fun e he => ?_, run_append e2 q2, q3⟩
  rcases List.mem_append.1 he with he | he
  · exact e1 e he
  · exact q1 e he

/-- **C122: a call that cannot go on waits for a lock**, and the goroutine that has this lock can go on. -/
theorem C122_waits {s s1 : St} (hi : s.Init) {l : List (Nat × Call × Bool)} (h : s.run l = some s1) {t : Nat} (ht : s1.pc t ≠ .idle) (k : Call) (f : Bool)
    (hs : s1.step t k f = none) :
    ∃ u c cur n rest, u ≠ t ∧ s1.pc t = .want c cur n rest ∧ (s1.node cur).lock = some u ∧ s1.pc u ≠ .idle ∧ ∃ s2, s1.step u k f = some s2 := by
  obtain ⟨i, _⟩ := (Inv.init hi).run h
  cases hpc : s1.pc t with
  | idle => exact absurd hpc ht
  | want c cur n rest =>
    cases hl : (s1.node cur).lock with
    | none => simp only [St.step, hpc, hl] at hs; cases hs
    | some u =>
      have hu := (i.locks cur u).1 hl
      refine ⟨u, c, cur, n, rest, fun e => ?_, rfl, hl, fun e => ?_, ?_⟩
      · rw [e, hpc] at hu; exact hu
      · rw [e] at hu; exact hu
      · cases hq : s1.pc u with
        | locked c' p n' rest' =>
          cases c' with
          | del self name => simp only [St.step, hq]; cases s1.index p n' <;> exact ⟨_, rfl⟩
          | _ => simp only [St.step, hq]; exact ⟨_, rfl⟩
        | unlock c' p r' rest' => simp only [St.step, hq]; cases r' <;> exact ⟨_, rfl⟩
        | appended => simp only [St.step, hq]; exact ⟨_, rfl⟩
        | linked => simp only [St.step, hq]; exact ⟨_, rfl⟩
        | shift => simp only [St.step, hq]; exact ⟨_, rfl⟩
        | _ => rw [hq] at hu; exact hu.elim
  | locked c p n rest =>
    cases c with
    | del self name => simp only [St.step, hpc] at hs; cases hx : s1.index p n <;> rw [hx] at hs <;> cases hs
    | _ => simp only [St.step, hpc] at hs; cases hs
  | unlock c p r rest => simp only [St.step, hpc] at hs; cases r <;> cases hs
  | scan c cur n rest arr len idx =>
    simp only [St.step, hpc] at hs
    repeat' split at hs
    all_goals cases hs
  | panic c =>
    have := i.pcs t
    rw [hpc] at this
    exact this.elim
  | _ => simp only [St.step, hpc] at hs; cases hs

/-- **C122**: when all calls have ended, no lock is held. -/
theorem C122_released {s s1 : St} (hi : s.Init) {l : List (Nat × Call × Bool)} (h : s.run l = some s1) (hall : ∀ t, s1.pc t = .idle) (a : Nat) :
    (s1.node a).lock = none := by
  obtain ⟨i, _⟩ := (Inv.init hi).run h
  cases hl : (s1.node a).lock with
  | none => rfl
  | some t =>
    have := (i.locks a t).1 hl
    rw [hall t] at this
    exact this.elim

/-- Goroutine 1 is taking out `a`, and goroutine 2 waits for the lock to add `d`; they can end. -/
example : ∃ s1 s2 l', Demo.root.run (Demo.build ++ (Demo.go 6 2 (Demo.add "d") ++ Demo.go 4 1 (Demo.del "a"))) = some s1 ∧ s1.step 2 (Demo.add "d") false = none ∧
    s1.run l' = some s2 ∧ (∀ t, s2.pc t = .idle) ∧ ∃ r, s2.log 2 = [(Demo.add "d", r)] := by
  have h1 : ∃ s1, Demo.root.run (Demo.build ++ (Demo.go 6 2 (Demo.add "d") ++ Demo.go 4 1 (Demo.del "a"))) = some s1 := ⟨_, rfl⟩
  obtain ⟨s1, h1⟩ := h1
  obtain ⟨l', s2, e1, e2, e3⟩ := C122_ends Demo.root_init h1 (T := [0, 1, 2]) (fun t ht => by
    apply Classical.byContradiction
    intro hm
    refine ht (run_other (u := t) h1 fun e he h => hm ?_).1
    simp only [Demo.build, Demo.go, List.mem_append, List.mem_replicate] at he
    rcases he with ((⟨_, rfl⟩ | ⟨_, rfl⟩) | ⟨_, rfl⟩) | ⟨_, rfl⟩ | ⟨_, rfl⟩ <;> subst h <;> simp)
  refine ⟨s1, s2, l', h1, by cases h1; rfl, e2, fun t => (e3 t).1, ?_⟩
  have := (e3 2).2
  have hc : (s1.pc 2).call = some (Demo.add "d") := by cases h1; rfl
  rw [hc] at this
  have hl : s1.log 2 = [] := by cases h1; rfl
  rw [hl] at this
  exact this

end Verif.TreeAll
