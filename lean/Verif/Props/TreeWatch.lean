import Verif.Lemmas.TreeWatch
import Verif.Lemmas.TreeAllEnd
/-!
# Properties C140, C141: `Variables` while nodes are added and deleted
-/
set_option linter.unusedSimpArgs false

namespace Verif.TreeWatch
open Tree (CV VAR evalPath)
open TreeAll (Call Shifting Deletes Deleting begun)

variable {V : Type}

/-! ## Demo -/

/-- A root `r` without children and items. -/
def Demo.root : St Nat := ⟨⟨fun _ => TreeAll.newNode (b "r"), 1, fun _ => .idle, fun _ => []⟩, fun _ => [], fun _ => .out, fun _ => []⟩

theorem Demo.root_init : Demo.root.Init where
  tree := ⟨fun _ _ _ h => (by cases h), fun _ => Nat.zero_lt_one, fun _ => Nat.le_refl _, fun _ => List.nodup_nil, fun _ => rfl, fun _ => rfl, fun _ => rfl⟩
  idle _ := rfl
  log _ := rfl

/-- `k` steps of goroutine `t` in a call. -/
def Demo.go (k t : Nat) (c : Call) (f : Bool := false) : List (Ev Nat) := List.replicate k (.tree t c f)

/-- The root gets the children `a`, `b` and `c`, and `b` an item `x`. -/
def Demo.before : List (Ev Nat) :=
  Demo.go 8 0 (.add 0 (b "a") []) true ++ Demo.go 9 0 (.add 0 (b "b") []) ++ Demo.go 10 0 (.add 0 (b "c") []) true ++ [.store 0 2 (b "x") 7]

/-- Goroutine 2 is in `Variables` on the root and has read the first child; goroutine 1 deletes it; goroutine 2 goes on. -/
def Demo.during : List (Ev Nat) :=
  List.replicate 3 (.go 2 none) ++ Demo.go 7 1 (.del 0 (b "a")) ++ List.replicate 8 (.go 2 none)

/-- Goroutine 1 deletes the last child instead, goroutine 2 visits the item. -/
def Demo.during' : List (Ev Nat) :=
  List.replicate 3 (.go 2 none) ++ Demo.go 5 1 (.del 0 (b "c")) ++
    [.go 2 none, .go 2 none, .go 2 (some (b "x")), .go 2 none] ++ List.replicate 5 (.go 2 none)

/-! ## C140 -/

/-- C140, the full statement: `Variables` shows every item that is there from its beginning to its end, at its place, if the nodes on the way are
not deleted and nothing hides the place. -/
def AllShown : Prop :=
  ∀ (s s1 s2 : St Nat) (es0 es : List (Ev Nat)) (t a x : Nat) (r : List (Bytes × CV Nat)) (names : List Bytes) (k : Bytes) (v : Nat), s.Init → s.run es0 = some s1 →
    Returns s1 t a es s2 r → Open s1 s2 (.begin t a :: es) a names x → Stays s1 (.begin t a :: es) x k (some v) → k ≠ VAR →
    evalPath r names k = some (.item v)

/-- What was a child was made as a child. -/
theorem wasChild_old {s s' : St V} (hi : TreeAll.Inv s.tree) {es : List (Ev V)} (hr : s.run es = some s') {a d : Nat} (h : WasChild s es a d) : d < s'.tree.next := by
  obtain ⟨es1, es2, s1, rfl, h1, h2⟩ := h
  have h3 : s1.run es2 = some s' := by
    clear h2 hi
    induction es1 generalizing s with
    | nil => cases h1; exact hr
    | cons e es1 ih =>
      obtain ⟨s3, h3, h4⟩ := run_cons h1
      simp only [List.cons_append, St.run, h3] at hr
      exact ih hr h4
  obtain ⟨i1, _⟩ := run_inv h1 hi
  refine Nat.lt_of_lt_of_le ?_ (run_inv h3 i1).2.next
  rcases h2 with h2 | h2
  · exact (tree_child i1 h2).2.1
  · have hp := i1.pcs h2.choose
    obtain ⟨k, rest, ⟨arr, h4⟩ | h4⟩ := h2.choose_spec <;> rw [h4] at hp
    · exact hp.1.2.1
    · exact hp.1.2.1

theorem Demo.idle {s1 : St Nat} (h0 : Demo.root.run Demo.before = some s1) (t : Nat) : s1.tree.pc t = .idle := by
  by_cases ht : t = 0
  · subst ht; cases h0; rfl
  · refine ((TreeAll.run_other (u := t) (run_tree h0) fun e he => ?_).1)
    have : e.1 = 0 := by
      have he := mem_treeSteps he
      simp only [Demo.before, Demo.go, List.mem_append, List.mem_replicate, List.mem_singleton, reduceCtorEq, or_false] at he
      rcases he with (⟨_, he⟩ | ⟨_, he⟩) | ⟨_, he⟩ <;> (injection he)
    rw [this]; exact ht

/-- **C140 is violated**: the loop over `a`, `b`, `c` has read `a` when `a` is deleted; the cells move and the loop goes on with `c`.  `b`, which nobody
deletes, is missing. -/
theorem C140_violated : ¬ AllShown := by
  intro h
  have h0 : ∃ s1, Demo.root.run Demo.before = some s1 := ⟨_, rfl⟩
  obtain ⟨s1, h0⟩ := h0
  have hr : ∃ s2, s1.run (.begin 2 0 :: Demo.during) = some s2 := by cases h0; exact ⟨_, rfl⟩
  obtain ⟨s2, hr⟩ := hr
  have hret : Returns s1 2 0 Demo.during s2 [(b "a", .obj []), (b "c", .obj [])] := ⟨hr, [], by cases h0; cases hr; rfl⟩
  have hn : (s1.tree.node 2).name = b "b" := by cases h0; rfl
  have ht : ∀ a k, ∀ e ∈ Ev.begin 2 0 :: Demo.during, ¬ e.touches a k := by
    intro a k e he
    simp only [Demo.during, Demo.go, List.mem_append, List.mem_cons, List.mem_replicate] at he
    rcases he with rfl | (⟨_, rfl⟩ | ⟨_, rfl⟩) | ⟨_, rfl⟩ <;> simp only [Ev.touches, not_false_iff]
  have hp : Plain s1 s2 (.begin 2 0 :: Demo.during) 0 2 := by
    refine ⟨fun ⟨t, c, j, h⟩ => ?_, ?_, fun e he hne => ?_, ⟨by cases h0; rfl, ht _ _⟩, ?_⟩
    · rw [Demo.idle h0] at h; cases h
    · rintro (⟨t, _, _, h⟩ | h)
      · rw [Demo.idle h0] at h; rcases h with h | h | h <;> cases h
      · rw [hn] at h
        revert h
        cases h0
        decide
    · have hlt := wasChild_old (run_inv h0 (.init Demo.root_init.tree)).1 hr he
      rw [hn] at hne
      have hnext : s2.tree.next = 4 := by cases h0; cases hr; rfl
      have : e = 0 ∨ e = 1 ∨ e = 2 ∨ e = 3 := by omega
      rcases this with rfl | rfl | rfl | rfl
      · rw [show (s2.tree.node 0).name = b "r" by cases h0; cases hr; rfl] at hne; cases hne
      · rw [show (s2.tree.node 1).name = b "a" by cases h0; cases hr; rfl] at hne; cases hne
      · rfl
      · rw [show (s2.tree.node 3).name = b "c" by cases h0; cases hr; rfl] at hne; cases hne
    · rw [hn]; exact fun h => absurd h.2 (by decide)
  have := h Demo.root s1 s2 Demo.before Demo.during 2 0 2 _ [b "b"] (b "x") 7 Demo.root_init h0 hret
    (hn ▸ .down (by cases h0; decide) hp (.here 2)) ⟨by cases h0; rfl, ht _ _⟩ (by decide)
  cases this

/-- **C140, partial**: it is shown if also no sibling before a node on the way is deleted meanwhile.  Missing: the other executions
(`C140_violated`). -/
theorem C140_partial {s s1 s2 : St V} (hi : s.Init) {es0 es : List (Ev V)} (h0 : s.run es0 = some s1) {t a x : Nat} {r : List (Bytes × CV V)}
    (h : Returns s1 t a es s2 r) {names : List Bytes} {k : Bytes} {v : V} (hc : Clear s1 s2 (.begin t a :: es) a names x)
    (hx : Stays s1 (.begin t a :: es) x k (some v)) (hk : k ≠ VAR) : evalPath r names k = some (.item v) :=
  (returns_complete (run_inv h0 (.init hi.tree)).1 h hk hx hc).1

/-- **C140, partial**: the same for the second place of the items of a node called `var`.  Missing: the other executions (`C140_violated`). -/
theorem C140_var_partial {s s1 s2 : St V} (hi : s.Init) {es0 es : List (Ev V)} (h0 : s.run es0 = some s1) {t a x : Nat} {r : List (Bytes × CV V)}
    (h : Returns s1 t a es s2 r) {names : List Bytes} {k : Bytes} {v : V} (hc : Clear s1 s2 (.begin t a :: es) a names x)
    (hx : Stays s1 (.begin t a :: es) x k (some v)) (hk : k ≠ VAR) (ha : (s1.tree.node a).name = VAR) : evalPath r (VAR :: names) k = some (.item v) :=
  (returns_complete (run_inv h0 (.init hi.tree)).1 h hk hx hc).2 ha

/-! ## C141 -/

/-- **C141**: `Variables` shows nothing else: every item in its result was at its place at some moment of the call, and the nodes on the way were children
at some moment of the call. -/
theorem C141_sound {s s1 s2 : St V} (hi : s.Init) {es0 es : List (Ev V)} (h0 : s.run es0 = some s1) {t a : Nat} {r : List (Bytes × CV V)}
    (h : Returns s1 t a es s2 r) {names : List Bytes} {k : Bytes} {v : V} (hk : evalPath r names k = some (.item v)) :
    ∃ x, Reach s1 s2 (.begin t a :: es) a names x ∧ Was s1 (.begin t a :: es) x k v :=
  returns_sound (run_inv h0 (.init hi.tree)).1 h hk

/-- **C141**: whatever is added or deleted meanwhile, `Variables` does not panic and never waits for other goroutines. -/
theorem C141_progress {s s1 : St V} (hi : s.Init) {es0 : List (Ev V)} (h0 : s.run es0 = some s1) (t : Nat) :
    s1.vars t = .out ∨ ∃ key s2, s1.step (.go t key) = some s2 ∧ s2.vars t ≠ .panic := by
  have hinv := run_inv h0 (.init hi.tree)
  have hal := run_alive (.init hi.tree) h0 (fun u => by rw [hi.idle u]; trivial)
  have halive := hal t
  cases hv : s1.vars t with
  | out => exact .inl rfl
  | panic => rw [hv] at halive; exact halive.elim
  | inside fs =>
    right
    rw [hv] at halive
    obtain ⟨key, s2, hs⟩ := alive_step hv halive
    refine ⟨key, s2, hs, fun hp => ?_⟩
    have := run_alive (es := [.go t key]) hinv.1 (by simp only [St.run, hs]; rfl) hal t
    rw [hp] at this
    exact this

/-! ## The hypotheses are met -/

/-- While `c` is deleted, the item `x` of `b` is shown, and so is `c`, which the loop still finds. -/
example : ∃ s1 s2 r, Demo.root.run Demo.before = some s1 ∧ Returns s1 2 0 Demo.during' s2 r ∧ Clear s1 s2 (.begin 2 0 :: Demo.during') 0 [b "b"] 2 ∧
    Stays s1 (.begin 2 0 :: Demo.during') 2 (b "x") (some 7) ∧ evalPath r [b "b"] (b "x") = some (.item 7) ∧ GoMap.get? r (b "c") = some (.obj []) ∧
    (s2.tree.node 0).downs = [1, 2] := by
  have h0 : ∃ s1, Demo.root.run Demo.before = some s1 := ⟨_, rfl⟩
  obtain ⟨s1, h0⟩ := h0
  have hr : ∃ s2, s1.run (.begin 2 0 :: Demo.during') = some s2 := by cases h0; exact ⟨_, rfl⟩
  obtain ⟨s2, hr⟩ := hr
  have hret : Returns s1 2 0 Demo.during' s2 [(b "a", .obj []), (b "b", .obj [(b "x", .item 7)]), (b "c", .obj [])] :=
    ⟨hr, [], by cases h0; cases hr; rfl⟩
  have hn : (s1.tree.node 2).name = b "b" := by cases h0; rfl
  have ht : ∀ a k, ∀ e ∈ Ev.begin 2 0 :: Demo.during', ¬ e.touches a k := by
    intro a k e he
    simp only [Demo.during', Demo.go, List.mem_append, List.mem_cons, List.mem_replicate, List.not_mem_nil, or_false] at he
    rcases he with rfl | ((⟨_, rfl⟩ | ⟨_, rfl⟩) | rfl | rfl | rfl | rfl) | ⟨_, rfl⟩ <;> simp only [Ev.touches, not_false_iff]
  have hdel : ∀ n, n = b "a" ∨ n = b "b" → ¬ Deletes s1.tree (treeSteps (.begin 2 0 :: Demo.during')) 0 n := by
    rintro n hne (⟨t, _, _, h⟩ | h)
    · rw [Demo.idle h0] at h; rcases h with h | h | h <;> cases h
    · revert h
      cases h0
      rcases hne with rfl | rfl <;> decide
  have hp : Plain s1 s2 (.begin 2 0 :: Demo.during') 0 2 := by
    refine ⟨fun ⟨t, c, j, h⟩ => ?_, hdel _ (.inr hn), fun e he hne => ?_, ⟨by cases h0; rfl, ht _ _⟩, ?_⟩
    · rw [Demo.idle h0] at h; cases h
    · have hlt := wasChild_old (run_inv h0 (.init Demo.root_init.tree)).1 hr he
      rw [hn] at hne
      have hnext : s2.tree.next = 4 := by cases h0; cases hr; rfl
      have : e = 0 ∨ e = 1 ∨ e = 2 ∨ e = 3 := by omega
      rcases this with rfl | rfl | rfl | rfl
      · rw [show (s2.tree.node 0).name = b "r" by cases h0; cases hr; rfl] at hne; cases hne
      · rw [show (s2.tree.node 1).name = b "a" by cases h0; cases hr; rfl] at hne; cases hne
      · rfl
      · rw [show (s2.tree.node 3).name = b "c" by cases h0; cases hr; rfl] at hne; cases hne
    · rw [hn]; exact fun h => absurd h.2 (by decide)
  have hc : Clear s1 s2 (.begin 2 0 :: Demo.during') 0 [b "b"] 2 := by
    rw [← hn]
    refine .down (before := [1]) (after := [3]) (by cases h0; rfl) (fun e he => ?_) hp (.here 2)
    cases List.mem_singleton.1 he
    exact hdel _ (.inl (by cases h0; rfl))
  have hx : Stays s1 (.begin 2 0 :: Demo.during') 2 (b "x") (some 7) := ⟨by cases h0; rfl, ht _ _⟩
  exact ⟨s1, s2, _, h0, hret, hc, hx, C140_partial Demo.root_init h0 hret hc hx (by decide), rfl, by cases h0; cases hr; rfl⟩

/-- A root called `var` with an item; while it is read another goroutine adds a child. -/
def Demo.var : St Nat := ⟨⟨fun _ => TreeAll.newNode VAR, 1, fun _ => .idle, fun _ => []⟩, fun _ => [], fun _ => .out, fun _ => []⟩

example : ∃ s1 s2 r, Demo.var.run [.store 0 0 (b "x") 7] = some s1 ∧
    Returns s1 2 0 ([.go 2 none] ++ Demo.go 7 1 (.add 0 (b "a") []) ++ [.go 2 (some (b "x")), .go 2 none]) s2 r ∧ (s1.tree.node 0).name = VAR ∧
    Clear s1 s2 (.begin 2 0 :: ([.go 2 none] ++ Demo.go 7 1 (.add 0 (b "a") []) ++ [.go 2 (some (b "x")), .go 2 none])) 0 [] 0 ∧
    evalPath r [VAR] (b "x") = some (.item 7) :=
  ⟨_, _, [(b "x", .item 7), (VAR, .obj [(b "x", .item 7)])], rfl, ⟨rfl, [], rfl⟩, rfl, .here 0, rfl⟩

end Verif.TreeWatch
