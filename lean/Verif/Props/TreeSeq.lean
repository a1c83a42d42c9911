import Verif.Lemmas.TreeSeq
import Verif.Lemmas.TreeFind
import Verif.Props.TreeAll
/-!
# Property C124: when calls behave as if they ran one after the other
-/
namespace Verif.TreeAll

/-- **C124 for calls that do not overlap.** While only goroutine `t` runs (the others may have stopped anywhere, even inside of a call), its calls
return what they return one after the other in a single goroutine, and leave the nodes that they leave then, whatever `append` does.
Missing: calls that overlap (`C124_violated`). -/
theorem C124_partial {s s1 s2 : St} (hi : s.Init) {l l' : List (Nat × Call × Bool)} (h1 : s.run l = some s1) {t : Nat} (hl : ∀ e ∈ l', e.1 = t)
    (h2 : s1.run l' = some s2) (hb : s1.pc t = .idle) (he : s2.pc t = .idle) :
    ∃ calls, s2.log t = calls ++ s1.log t ∧ History s1.heap calls s2.heap := by
  obtain ⟨i1, _⟩ := (Inv.init hi).run h1
  have ha : Alone s1.heap (s1.log t) t s1 := ⟨[], s1.heap, rfl, .none, by rw [hb]; trivial, .inl ⟨hb, rfl⟩⟩
  obtain ⟨done, hd, e1, e2, _, ⟨_, rfl⟩ | ⟨c, e3, _⟩⟩ := ha.run hl i1 h2
  · exact ⟨done, e1, e2⟩
  · rw [he] at e3
    cases e3

/-- **C124 for one call**, which is not interrupted. -/
theorem C124_call {s s1 s2 : St} (hi : s.Init) {l l' : List (Nat × Call × Bool)} (h1 : s.run l = some s1) {t : Nat} (hl : ∀ e ∈ l', e.1 = t)
    (h2 : s1.run l' = some s2) (hb : s1.pc t = .idle) (he : s2.pc t = .idle) {c : Call} {r : Option Nat} (hlog : s2.log t = (c, r) :: s1.log t) :
    c.seq s1.heap = some (s2.heap, r) := by
  obtain ⟨calls, e1, e2⟩ := C124_partial hi h1 hl h2 hb he
  rw [hlog] at e1
  have : calls = [(c, r)] := (List.append_cancel_right (show [(c, r)] ++ s1.log t = calls ++ s1.log t from e1)).symm
  subst this
  cases e2 with
  | call e2 e3 =>
    cases e2
    exact e3

/-- **C124: such a call ends.** If nobody has a lock, a call on an existing node can run to its end alone, and so the functions of a single
goroutine do not panic on a tree that others have made. -/
theorem C124_ends {s s1 : St} (hi : s.Init) {l : List (Nat × Call × Bool)} (h1 : s.run l = some s1) (hfree : ∀ p, (s1.node p).lock = none)
    {t : Nat} (hb : s1.pc t = .idle) {c : Call} (hc : c.self < s1.next) :
    ∃ l' s2 r, (∀ e ∈ l', e.1 = t) ∧ s1.run l' = some s2 ∧ s2.pc t = .idle ∧ s2.log t = (c, r) :: s1.log t ∧ c.seq s1.heap = some (s2.heap, r) := by
  obtain ⟨i1, _⟩ := (Inv.init hi).run h1
  have ho : Others t s1 := fun u a _ hu => by
    have := (i1.locks a u).2 hu
    rw [hfree] at this
    cases this
  have hstep : s1.step t c false = some (s1.begin t c) := by
    unfold St.step
    rw [hb]
    exact if_pos hc
  obtain ⟨⟨g1, g2, _⟩ | ⟨g1, r, g2, g3⟩, _⟩ := begin_goes i1 hb hstep
  · have hs : Solo t s1 (s1.begin t c) := .step hstep (.refl _ _)
    obtain ⟨s2, ⟨l', q1, q2⟩, q3, r, q4⟩ := call_ends (i1.step hstep).1 (ho.solo hs) g2
    rw [g1] at q4
    have hrun : s1.run ((t, c, false) :: l') = some s2 := by
      unfold St.run
      rw [hstep]
      exact q2
    have hl : ∀ e ∈ (t, c, false) :: l', e.1 = t := fun e he => by
      rcases List.mem_cons.1 he with rfl | he
      · rfl
      · exact q1 e he
    exact ⟨_, s2, r, hl, hrun, q3, q4, C124_call hi h1 hl hrun hb q3 q4⟩
  · have hrun : s1.run [(t, c, false)] = some (s1.begin t c) := by
      unfold St.run
      rw [hstep]
      rfl
    have hl : ∀ e ∈ [(t, c, false)], e.1 = t := fun e he => by
      rcases List.mem_cons.1 he with rfl | he
      · rfl
      · cases he
    exact ⟨_, _, r, hl, hrun, g1, g2, g3⟩

/-- **C124: one goroutine alone** makes only trees that `Model/Tree` makes, so that all that is proved of them holds. -/
theorem C124_reachable {s s1 : St} (hi : s.Init) (hr : Tree.Reachable s.heap) {l : List (Nat × Call × Bool)} {t : Nat} (hl : ∀ e ∈ l, e.1 = t)
    (h : s.run l = some s1) (he : s1.pc t = .idle) : Tree.Reachable s1.heap := by
  obtain ⟨calls, hlog, hh⟩ := C124_partial hi (l := []) rfl hl h (hi.idle t) he
  have snoc : ∀ {h h' : Tree.Heap Unit} (o : Tree.Op Unit), Tree.Reachable h → o.run h = some h' → Tree.Reachable h' := by
    rintro h h' o ⟨ops, hops⟩ ho
    refine ⟨ops ++ [o], ?_⟩
    have : ∀ (g : Tree.Heap Unit), Tree.runAll g ops = some h → Tree.runAll g (ops ++ [o]) = some h' := by
      clear hops
      induction ops with
      | nil => intro g hg; cases hg; simp only [List.nil_append, Tree.runAll, ho]
      | cons o' ops ih =>
        intro g hg
        simp only [List.cons_append, Tree.runAll] at hg ⊢
        cases hr : o'.run g with
        | none => rw [hr] at hg; cases hg
        | some g' => rw [hr] at hg; exact ih g' hg
    exact this _ hops
  generalize s1.heap = h1 at hh
  clear he h hlog
  induction hh with
  | none => exact hr
  | @call l h1 h3 c r hh h2 ih =>
    cases c with
    | add self tag names =>
      simp only [Call.seq, Option.map_eq_some_iff] at h2
      obtain ⟨x, e1, e2⟩ := h2
      cases e2
      exact snoc (.addNodes self tag names) ih (by simp only [Tree.Op.run, e1]; rfl)
    | get self tag names =>
      simp only [Call.seq, Option.map_eq_some_iff] at h2
      obtain ⟨x, e1, e2⟩ := h2
      cases e2
      exact ih
    | find self names =>
      simp only [Call.seq, Option.map_eq_some_iff] at h2
      obtain ⟨x, e1, e2⟩ := h2
      cases e2
      exact ih
    | del self name =>
      simp only [Call.seq, Option.map_eq_some_iff] at h2
      obtain ⟨x, e1, e2⟩ := h2
      cases e2
      exact snoc (.deleteNode self name) ih e1

/-- The root of the demo is a tree of `Model/Tree`. -/
theorem Demo.root_reachable : Tree.Reachable Demo.root.heap := ⟨[.newTree (b "r")], rfl⟩

/-- Goroutine 0 adds `a`, `b` and `c`; `Model/Tree` agrees. -/
example : ∃ s1, Demo.root.run Demo.build = some s1 ∧ (s1.node 0).downs = [1, 2, 3] ∧ s1.log 0 = [(Demo.add "c", some 3), (Demo.add "b", some 2), (Demo.add "a", some 1)] ∧
    History Demo.root.heap (s1.log 0) s1.heap ∧ Tree.Reachable s1.heap := by
  have h1 : ∃ s1, Demo.root.run Demo.build = some s1 := ⟨_, rfl⟩
  obtain ⟨s1, h1⟩ := h1
  have hl : ∀ e ∈ Demo.build, e.1 = 0 := by
    intro e he
    simp only [Demo.build, Demo.go, List.mem_append, List.mem_replicate] at he
    rcases he with (⟨_, rfl⟩ | ⟨_, rfl⟩) | ⟨_, rfl⟩ <;> rfl
  have he : s1.pc 0 = .idle := by cases h1; rfl
  obtain ⟨calls, e1, e2⟩ := C124_partial Demo.root_init (l := []) rfl hl h1 rfl he
  refine ⟨s1, h1, by cases h1; rfl, by cases h1; rfl, ?_, C124_reachable Demo.root_init Demo.root_reachable hl h1 he⟩
  have : s1.log 0 = calls := e1.trans (List.append_nil _)
  rw [this]
  exact e2

/-- Goroutine 1 has stopped in the middle of taking out `a`: `c` is already there twice.  Goroutine 2 looks for `c` and is given what `GetNode` gives on that list. -/
example : ∃ s1 s2, Demo.root.run (Demo.build ++ Demo.go 5 1 (Demo.del "a")) = some s1 ∧ (s1.node 0).downs = [2, 3, 3] ∧
    s1.run (Demo.go 4 2 (.get 0 (b "c") [])) = some s2 ∧ s2.log 2 = [(.get 0 (b "c") [], some 3)] ∧ (Call.get 0 (b "c") []).seq s1.heap = some (s2.heap, some 3) := by
  have h1 : ∃ s1, Demo.root.run (Demo.build ++ Demo.go 5 1 (Demo.del "a")) = some s1 := ⟨_, rfl⟩
  obtain ⟨s1, h1⟩ := h1
  have h2 : ∃ s2, s1.run (Demo.go 4 2 (.get 0 (b "c") [])) = some s2 := by cases h1; exact ⟨_, rfl⟩
  obtain ⟨s2, h2⟩ := h2
  have hlog : s2.log 2 = (.get 0 (b "c") [], some 3) :: s1.log 2 := by cases h1; cases h2; rfl
  refine ⟨s1, s2, h1, by cases h1; rfl, h2, by cases h1; cases h2; rfl, C124_call Demo.root_init h1 (t := 2) ?_ h2 (by cases h1; rfl) (by cases h1; cases h2; rfl) hlog⟩
  intro e he
  rw [(List.mem_replicate.1 he).2]

/-- **C124 is violated**: two goroutines call `AddNode("a")` and are given different nodes; in both orders the two calls return the same node.  And
while `DeleteNode("a")` runs, `GetNode("b")` returns nil; in both orders it finds `b`. -/
theorem C124_violated :
    (∃ l s1, Demo.root.run l = some s1 ∧ s1.pc 1 = .idle ∧ s1.pc 2 = .idle ∧ s1.log 1 = [(Demo.add "a", some 1)] ∧ s1.log 2 = [(Demo.add "a", some 2)] ∧
      ∀ r r' h', History Demo.root.heap [(Demo.add "a", r'), (Demo.add "a", r)] h' → r = r') ∧
    (∃ l l' s1 s2, Demo.root.run l = some s1 ∧ s1.run l' = some s2 ∧ s2.pc 1 = .idle ∧ s2.pc 2 = .idle ∧ s1.log 1 = [] ∧ s1.log 2 = [] ∧
      s2.log 1 = [(Demo.del "a", none)] ∧ s2.log 2 = [(.get 0 (b "b") [], none)] ∧
      ∀ r r' h', (History s1.heap [(.get 0 (b "b") [], r), (Demo.del "a", r')] h' ∨ History s1.heap [(Demo.del "a", r'), (.get 0 (b "b") [], r)] h') → r = some 2) := by
  constructor
  · refine ⟨Demo.go 3 1 (Demo.add "a") true ++ Demo.go 3 2 (Demo.add "a") true ++ Demo.go 5 1 (Demo.add "a") true ++ Demo.go 5 2 (Demo.add "a") true, _, rfl, rfl, rfl, rfl, rfl, ?_⟩
    intro r r' h' h
    cases h with
    | call h e2 =>
    cases h with
    | call h e1 =>
    cases h
    cases e1
    cases e2
    rfl
  · have h1 : ∃ s1, Demo.root.run Demo.build = some s1 := ⟨_, rfl⟩
    obtain ⟨s1, h1⟩ := h1
    have h2 : ∃ s2, s1.run (Demo.go 3 2 (.get 0 (b "b") []) ++ Demo.go 7 1 (Demo.del "a") ++ Demo.go 3 2 (Demo.add "a")) = some s2 := by cases h1; exact ⟨_, rfl⟩
    obtain ⟨s2, h2⟩ := h2
    refine ⟨_, _, s1, s2, h1, h2, by cases h1; cases h2; rfl, by cases h1; cases h2; rfl, by cases h1; rfl, by cases h1; rfl, by cases h1; cases h2; rfl, by cases h1; cases h2; rfl, ?_⟩
    have hh : s1.heap = [⟨b "r", [], none, [1, 2, 3]⟩, ⟨b "a", [], some 0, []⟩, ⟨b "b", [], some 0, []⟩, ⟨b "c", [], some 0, []⟩] := by cases h1; rfl
    rw [hh]
    intro r r' h' h
    rcases h with h | h
    · cases h with
      | call h e2 =>
      cases h with
      | call h e1 =>
      cases h
      cases e1
      cases e2
      rfl
    · cases h with
      | call h e2 =>
      cases h with
      | call h e1 =>
      cases h
      cases e1
      rfl

end Verif.TreeAll
