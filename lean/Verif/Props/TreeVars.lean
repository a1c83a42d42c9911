import Verif.Lemmas.TreeVars
/-!
# Items and `Variables` while other goroutines run
-/
set_option linter.unusedSimpArgs false

namespace Verif.TreeVars
open Tree (CV VAR evalPath)

variable {V : Type}

/-! ## Demo -/

/-- A root `r` without children and items. -/
def Demo.root : St Nat := ⟨⟨fun _ => ⟨b "r", none, [], none⟩, 1, fun _ => .idle, fun _ => []⟩, fun _ => [], fun _ => none, fun _ => []⟩

theorem Demo.root_init : Demo.root.Init where
  tree := ⟨fun _ _ h => (by cases h), fun _ => List.nodup_nil, fun _ _ _ h => (by cases h), fun _ _ h => (by cases h), fun _ => rfl, fun _ => rfl, fun _ => rfl⟩
  idle _ := rfl
  log _ := rfl

/-- Goroutine `t` adds a child to the root. -/
def Demo.add (t : Nat) (n : Bytes) : List (Ev Nat) := List.replicate 6 (.tree t (.add 0 n []))

/-- The root gets a child `a` with an item `x`. -/
def Demo.before : List (Ev Nat) := Demo.add 0 (b "a") ++ [.store 0 1 (b "x") 7, .store 0 0 (b "y") 1]

/-- While goroutine 2 is in `Variables`, goroutine 1 adds a child `b` and changes the item `y` of the root. -/
def Demo.during : List (Ev Nat) :=
  [.go 2 none] ++ Demo.add 1 (b "b") ++ [.go 2 none, .store 1 0 (b "y") 2, .go 2 (some (b "x")), .go 2 none, .go 2 none, .go 2 (some (b "y")), .go 2 none]

/-! ## C109 -/

/-- **C109**: `Variables` shows every item that is there from its beginning to its end, at its place, if nothing hides the
place. -/
theorem C109_complete {s s1 s2 : St V} (hi : s.Init) {es0 es : List (Ev V)} (h0 : s.run es0 = some s1) {t a x : Nat} {r : List (Bytes × CV V)}
    (h : Returns s1 t a es s2 r) {names : List Bytes} {k : Bytes} {v : V} (hc : Clear s1 s2 es a names x) (hx : Stays s1 es x k (some v)) (hk : k ≠ VAR) :
    evalPath r names k = some (.item v) :=
  (returns_complete (run_tree h0 (.init hi.tree)).1 h hk hx hc).1

/-- **C109**: if the receiver is called `var`, it shows them also under this name. -/
theorem C109_var {s s1 s2 : St V} (hi : s.Init) {es0 es : List (Ev V)} (h0 : s.run es0 = some s1) {t a x : Nat} {r : List (Bytes × CV V)}
    (h : Returns s1 t a es s2 r) {names : List Bytes} {k : Bytes} {v : V} (hc : Clear s1 s2 es a names x) (hx : Stays s1 es x k (some v)) (hk : k ≠ VAR)
    (ha : (s1.tree.node a).name = VAR) : evalPath r (VAR :: names) k = some (.item v) :=
  (returns_complete (run_tree h0 (.init hi.tree)).1 h hk hx hc).2 ha

/-- **C109**: `Variables` shows nothing else: every item in its result was at its place at some moment of the call. -/
theorem C109_sound {s s1 s2 : St V} (hi : s.Init) {es0 es : List (Ev V)} (h0 : s.run es0 = some s1) {t a : Nat} {r : List (Bytes × CV V)}
    (h : Returns s1 t a es s2 r) {names : List Bytes} {k : Bytes} {v : V} (hk : evalPath r names k = some (.item v)) :
    ∃ x, Reach s2.tree a names x ∧ Was s1 (.begin t a :: es) x k v :=
  returns_sound (run_tree h0 (.init hi.tree)).1 h hk

/-- **C109**: `Variables` never waits for other goroutines. -/
theorem C109_progress {s s1 : St V} (hi : s.Init) {es0 : List (Ev V)} (h0 : s.run es0 = some s1) {t : Nat} (ht : s1.vars t ≠ none) :
    ∃ key s2, s1.step (.go t key) = some s2 := by
  cases hv : s1.vars t with
  | none => exact absurd hv ht
  | some fs => exact alive_step (run_alive h0 (fun u fs h => by rw [hi.idle u] at h; cases h) t) hv

/-! ## C110 -/

/-- C110, the full statement: the items that `Variables` shows of a node are those of one moment of the call. -/
def OneMoment : Prop :=
  ∀ (s s1 s2 : St Nat) (es0 es : List (Ev Nat)) (t a : Nat) (r : List (Bytes × CV Nat)), s.Init → s.run es0 = some s1 → Returns s1 t a es s2 r →
    ∃ es1 es2 s', .begin t a :: es = es1 ++ es2 ∧ s1.run es1 = some s' ∧
      ∀ k v, GoMap.get? r k = some (.item v) → GoMap.get? (s'.data a) k = some v

/-- The root has the items `x` and `y`, both 0. -/
def Demo.zeros : List (Ev Nat) := [.store 0 0 (b "x") 0, .store 0 0 (b "y") 0]

/-- Goroutine 1 sets `x` to 1 and then `y` to 1, while goroutine 2 visits `x` before and `y` after that. -/
def Demo.torn : List (Ev Nat) :=
  [.go 2 none, .go 2 (some (b "x")), .store 1 0 (b "x") 1, .store 1 0 (b "y") 1, .go 2 (some (b "y")), .go 2 none]

/-- The states of an execution are those of its prefixes. -/
theorem prefix_cases {α : Type} {l es1 es2 : List α} (h : l = es1 ++ es2) : es1 = l.take es1.length ∧ es1.length ≤ l.length := by
  subst h
  simp

/-- **C110 is violated**: `x` is 0 and `y` is 1 in the result, which they never were together. -/
theorem C110_violated : ¬ OneMoment := by
  intro h
  have h0 : ∃ s1, Demo.root.run Demo.zeros = some s1 := ⟨_, rfl⟩
  obtain ⟨s1, h0⟩ := h0
  have hr : ∃ s2, s1.run (.begin 2 0 :: Demo.torn) = some s2 := by cases h0; exact ⟨_, rfl⟩
  obtain ⟨s2, hr⟩ := hr
  obtain ⟨es1, es2, s', e1, e2, e3⟩ := h Demo.root s1 s2 Demo.zeros Demo.torn 2 0 [(b "x", .item 0), (b "y", .item 1)] Demo.root_init h0
    ⟨hr, [], by cases h0; cases hr; rfl⟩
  have hx := e3 (b "x") 0 rfl
  have hy := e3 (b "y") 1 rfl
  obtain ⟨h1, h2⟩ := prefix_cases e1
  generalize es1.length = n at h1 h2
  subst h1
  cases h0
  have hn : n = 0 ∨ n = 1 ∨ n = 2 ∨ n = 3 ∨ n = 4 ∨ n = 5 ∨ n = 6 ∨ n = 7 := by
    simp [Demo.torn] at h2
    omega
  rcases hn with rfl | rfl | rfl | rfl | rfl | rfl | rfl | rfl <;> cases e2 <;> first | (cases hx; done) | (cases hy; done)

/-- **C110, partial**: if no item is stored or deleted during the call, all that `Variables` shows is as it was when it began.
Missing: the other executions (`C110_violated`). -/
theorem C110_partial {s s1 s2 : St V} (hi : s.Init) {es0 es : List (Ev V)} (h0 : s.run es0 = some s1) {t a : Nat} {r : List (Bytes × CV V)}
    (h : Returns s1 t a es s2 r) (hq : ∀ e ∈ es, ∀ x k, ¬ e.touches x k) {names : List Bytes} {k : Bytes} {v : V}
    (hk : evalPath r names k = some (.item v)) : ∃ x, Reach s2.tree a names x ∧ GoMap.get? (s1.data x) k = some v := by
  obtain ⟨x, h1, es1, es2, s', e1, e2, e3⟩ := C109_sound hi h0 h hk
  refine ⟨x, h1, ?_⟩
  rw [← e3]
  have hq' : ∀ e ∈ es1, ¬ e.touches x k := by
    intro e he
    have : e ∈ Ev.begin t a :: es := by rw [e1]; exact List.mem_append_left _ he
    rcases List.mem_cons.1 this with rfl | h
    · exact fun h => h
    · exact hq e h x k
  clear e1 e3 h h1 h0 hk
  induction es1 generalizing s1 with
  | nil => cases e2; rfl
  | cons e es1 ih =>
    obtain ⟨s3, h3, h4⟩ := run_cons e2
    rw [← ih h4 fun e he => hq' e (List.mem_cons_of_mem _ he), step_data h3 (hq' e (List.mem_cons_self ..))]

/-! ## The hypotheses are met -/

/-- Item `x` of node `a` stays, and is shown; `y` changes meanwhile and is shown with its new value. -/
example : ∃ s1 s2 r, Demo.root.run Demo.before = some s1 ∧ Returns s1 2 0 Demo.during s2 r ∧ Clear s1 s2 Demo.during 0 [b "a"] 1 ∧
    Stays s1 Demo.during 1 (b "x") (some 7) ∧ evalPath r [b "a"] (b "x") = some (.item 7) ∧ evalPath r [] (b "y") = some (.item 2) ∧
    (s2.tree.node 0).downs = [1, 2] := by
  have h0 : ∃ s1, Demo.root.run Demo.before = some s1 := ⟨_, rfl⟩
  obtain ⟨s1, h0⟩ := h0
  have hr : ∃ s2, s1.run (.begin 2 0 :: Demo.during) = some s2 := by cases h0; exact ⟨_, rfl⟩
  obtain ⟨s2, hr⟩ := hr
  have hret : Returns s1 2 0 Demo.during s2 [(b "a", .obj [(b "x", .item 7)]), (b "y", .item 2)] :=
    ⟨hr, [], by cases h0; cases hr; rfl⟩
  have hn : (s1.tree.node 1).name = b "a" := by cases h0; rfl
  have ht : ∀ a k, ¬ (a = 0 ∧ k = b "y") → ∀ e ∈ Demo.during, ¬ e.touches a k := by
    intro a k hne e he
    simp only [Demo.during, Demo.add, List.cons_append, List.nil_append, List.mem_append, List.mem_cons, List.mem_replicate, List.not_mem_nil,
      or_false] at he
    rcases he with rfl | ⟨_, rfl⟩ | rfl | rfl | rfl | rfl | rfl | rfl | rfl <;> simp only [Ev.touches, not_false_iff]
    rintro ⟨rfl, rfl⟩
    exact hne ⟨rfl, rfl⟩
  have hx : Stays s1 Demo.during 1 (b "x") (some 7) := ⟨by cases h0; rfl, ht 1 _ (by simp)⟩
  have hd : (s2.tree.node 0).downs = [1, 2] := by cases h0; cases hr; rfl
  have hc : Clear s1 s2 Demo.during 0 [b "a"] 1 := by
    rw [← hn]
    refine .down (by cases h0; exact List.mem_singleton_self _) ?_ ⟨by cases h0; rfl, ht 0 _ (by rw [hn]; decide)⟩ ?_ (.here 1)
    · intro e he hne
      rw [hd] at he
      rcases List.mem_cons.1 he with rfl | he
      · rfl
      · cases List.mem_singleton.1 he
        rw [hn, show (s2.tree.node 2).name = b "b" by cases h0; cases hr; rfl] at hne
        cases hne
    · rw [hn]
      exact fun h => absurd h.2 (by decide)
  exact ⟨s1, s2, _, h0, hret, hc, hx, C109_complete Demo.root_init h0 hret hc hx (by decide), rfl, hd⟩

/-- An execution without changes of items. -/
example : ∃ s1 s2 r, Demo.root.run Demo.zeros = some s1 ∧ Returns s1 2 0 [.go 2 none, .go 2 (some (b "y")), .go 2 (some (b "x")), .go 2 none] s2 r ∧
    evalPath r [] (b "y") = some (.item 0) := by
  refine ⟨_, _, [(b "y", .item 0), (b "x", .item 0)], rfl, ⟨rfl, [], rfl⟩, rfl⟩

/-- A root called `var`. -/
def Demo.var : St Nat := ⟨⟨fun _ => ⟨VAR, none, [], none⟩, 1, fun _ => .idle, fun _ => []⟩, fun _ => [], fun _ => none, fun _ => []⟩

/-- Its item is shown at both places, while another goroutine adds a child. -/
example : ∃ s1 s2 r, Demo.var.run [.store 0 0 (b "x") 7] = some s1 ∧
    Returns s1 2 0 ([.go 2 none] ++ Demo.add 1 (b "a") ++ [.go 2 (some (b "x")), .go 2 none]) s2 r ∧ (s1.tree.node 0).name = VAR ∧
    Clear s1 s2 ([.go 2 none] ++ Demo.add 1 (b "a") ++ [.go 2 (some (b "x")), .go 2 none]) 0 [] 0 ∧ evalPath r [VAR] (b "x") = some (.item 7) :=
  ⟨_, _, [(b "x", .item 7), (VAR, .obj [(b "x", .item 7)])], rfl, ⟨rfl, [], rfl⟩, rfl, .here 0, rfl⟩

end Verif.TreeVars
