import Verif.Lemmas.TreeMany
/-!
# Concurrent additions anywhere in a tree
-/
set_option linter.unusedSimpArgs false

namespace Verif.TreeMany

/-! ## Demo -/

/-- A root without children. -/
def Demo.root : St := ⟨fun _ => ⟨b "r", none, [], none⟩, 1, fun _ => .idle, fun _ => []⟩

theorem Demo.root_init : Demo.root.Init where
  low _ _ h := by cases h
  nodup _ := List.nodup_nil
  one _ _ _ h := by cases h
  up _ _ h := by cases h
  free _ := rfl
  idle _ := rfl
  log _ := rfl

theorem Demo.root_distinct : Distinct Demo.root := fun _ _ _ h => by cases h

def Demo.addAB : Call := .add 0 (b "a") [b "b"]
def Demo.getAB : Call := .get 0 (b "a") [b "b"]

/-- Goroutines 0 and 1 both add `a`, 1 also adds `b` below its `a`; then 2 looks for `a`, `b`. -/
def Demo.race : List (Nat × Call) :=
  [(0, Demo.addAB), (0, Demo.addAB), (1, Demo.addAB), (1, Demo.addAB),
   (0, Demo.addAB), (0, Demo.addAB), (0, Demo.addAB), (0, Demo.addAB),
   (1, Demo.addAB), (1, Demo.addAB), (1, Demo.addAB), (1, Demo.addAB),
   (1, Demo.addAB), (1, Demo.addAB), (1, Demo.addAB), (1, Demo.addAB), (1, Demo.addAB)]

/-- Goroutine 0 alone adds `a` and `b`. -/
def Demo.alone : List (Nat × Call) := List.replicate 11 (0, Demo.addAB)

/-- Goroutine 2 looks for `a`, `b`. -/
def Demo.look : List (Nat × Call) := List.replicate 3 (2, Demo.getAB)

/-! ## C92 -/

/-- **C92**: children stay children of the same node, in the same order, under the same name. -/
theorem C92_kept {s s1 s2 : St} (hi : s.Init) {l l' : List (Nat × Call)} (h1 : s.run l = some s1) (h2 : s1.run l' = some s2) (p : Nat) :
    (s1.node p).downs <+: (s2.node p).downs ∧ ∀ c ∈ (s1.node p).downs, (s2.node c).name = (s1.node c).name := by
  obtain ⟨i1, _⟩ := Inv.run (.init hi) h1
  obtain ⟨_, g⟩ := Inv.run i1 h2
  exact ⟨g.downs p, fun c hc => g.name c (i1.low _ _ hc).2⟩

/-- **C92**: no node has two parents, is listed twice, or is below itself. -/
theorem C92_tree {s s1 : St} (hi : s.Init) {l : List (Nat × Call)} (h1 : s.run l = some s1) :
    (∀ p, (s1.node p).downs.Nodup) ∧ (∀ p q c, c ∈ (s1.node p).downs → c ∈ (s1.node q).downs → p = q) ∧ ∀ x, ¬ Below s1 x x := by
  obtain ⟨i1, _⟩ := Inv.run (.init hi) h1
  refine ⟨i1.nodup, i1.one, fun x hx => ?_⟩
  obtain ⟨l, h1, h2⟩ := hx
  exact Nat.lt_irrefl _ (h2.lt' i1.low h1)

/-- **C92**: what `AddNodes` has returned is a node, and it stays reachable from the receiver under these names. -/
theorem C92_added {s s1 s2 : St} (hi : s.Init) {l l' : List (Nat × Call)} (h1 : s.run l = some s1) (h2 : s1.run l' = some s2)
    {t self : Nat} {tag : Bytes} {names : List Bytes} {r : Option Nat} (h : (.add self tag names, r) ∈ s1.log t) :
    ∃ x, r = some x ∧ Path s2 self (tag :: names) x := by
  obtain ⟨i1, _⟩ := Inv.run (.init hi) h1
  obtain ⟨_, g⟩ := Inv.run i1 h2
  obtain ⟨_, x, e1, e2⟩ := i1.logs t _ h
  exact ⟨x, e1, e2.grows g i1.low⟩

/-- Two goroutines add the same path at the same time, and one of them gets node 3. -/
example : ∃ s1, Demo.root.run Demo.race = some s1 ∧ (Demo.addAB, some 3) ∈ s1.log 1 ∧ (s1.node 0).downs = [1, 2] ∧
    Path s1 0 [b "a", b "b"] 3 := by
  have h : ∃ s1, Demo.root.run Demo.race = some s1 := ⟨_, rfl⟩
  obtain ⟨s1, h⟩ := h
  have hl : (Demo.addAB, some 3) ∈ s1.log 1 := by cases h; exact List.mem_cons_self ..
  have hd : (s1.node 0).downs = [1, 2] := by cases h; rfl
  refine ⟨s1, h, hl, hd, ?_⟩
  obtain ⟨x, hx, hp⟩ := C92_added Demo.root_init h (l' := []) rfl hl
  cases hx
  exact hp

/-! ## C93 -/

/-- C93, the full statement. -/
def AddedIsFound : Prop :=
  ∀ (s s1 s2 : St) (l l' : List (Nat × Call)) (t u self x : Nat) (tag : Bytes) (names : List Bytes) (r : Option Nat),
    s.Init → Distinct s → tag ≠ [] → s.run l = some s1 → (.add self tag names, some x) ∈ s1.log u →
      Returns s1 t (.get self tag names) l' s2 r → r = some x

/-- **C93 is violated**: two goroutines add `a`, `b` at the same time, one is done, and `GetNode("a", "b")` finds nothing. -/
theorem C93_violated : ¬ AddedIsFound := by
  intro h
  have hr : ∃ s1, Demo.root.run Demo.race = some s1 := ⟨_, rfl⟩
  obtain ⟨s1, hr⟩ := hr
  have hr2 : ∃ s2, s1.run Demo.look = some s2 := by cases hr; exact ⟨_, rfl⟩
  obtain ⟨s2, hr2⟩ := hr2
  have hlog : s1.log 2 = [] := by cases hr; rfl
  have := h Demo.root s1 s2 Demo.race (List.replicate 2 (2, Demo.getAB)) 2 1 0 3 (b "a") [b "b"] none Demo.root_init Demo.root_distinct
    (by decide) hr (by cases hr; exact List.mem_cons_self ..)
    ⟨by cases hr; rfl, hr2, [], by rw [hlog]; cases hr; cases hr2; rfl⟩
  cases this

/-- **C93, partial**: if no two goroutines ever were about to add the same child, then `GetNode` finds what `AddNodes` has
returned, whatever happens while it runs.  Missing: overlapping additions of one name (`C93_violated`). -/
theorem C93_partial {s s1 s2 : St} (hi : s.Init) (hd : Distinct s) {l l' : List (Nat × Call)} (h1 : RunApart s l s1)
    {t u self x : Nat} {tag : Bytes} {names : List Bytes} {r : Option Nat} (htag : tag ≠ [])
    (ha : (.add self tag names, some x) ∈ s1.log u) (hg : Returns s1 t (.get self tag names) l' s2 r) : r = some x := by
  obtain ⟨h1, hc⟩ := runApart_clean h1 (.init hi) (.init hi hd)
  obtain ⟨i1, _⟩ := Inv.run (.init hi) h1
  obtain ⟨_, y, e1, e2⟩ := i1.logs u _ ha
  cases e1
  exact get_returns i1 htag (look_of_path hc.1 e2) hg

/-- **C93**: while others add, `GetNode` returns what it would have returned at its beginning, if that is a node. -/
theorem C93_stable {s s1 s2 : St} (hi : s.Init) {l l' : List (Nat × Call)} (h1 : s.run l = some s1) {t self x : Nat} {tag : Bytes}
    {names : List Bytes} {r : Option Nat} (htag : tag ≠ []) (hf : First s1 self (tag :: names) x)
    (hg : Returns s1 t (.get self tag names) l' s2 r) : r = some x :=
  get_returns (Inv.run (.init hi) h1).1 htag (look_of_first hf) hg

/-- **C93**: a node that `GetNode` returns is reached under the names. -/
theorem C93_sound {s s1 : St} (hi : s.Init) {l : List (Nat × Call)} (h1 : s.run l = some s1) {t self x : Nat} {tag : Bytes}
    {names : List Bytes} (htag : tag ≠ []) (h : (.get self tag names, some x) ∈ s1.log t) : Path s1 self (tag :: names) x := by
  have := (Inv.run (.init hi) h1).1.logs t _ h
  have := this.2 x rfl
  rwa [if_neg htag] at this

/-- Executions of a single goroutine are such. -/
theorem runApart_one {s s' : St} {t : Nat} {l : List (Nat × Call)} (hl : ∀ e ∈ l, e.1 = t) (hr : s.run l = some s') (hi : Inv s)
    (ho : ∀ u, u ≠ t → s.pc u = .idle) : RunApart s l s' := by
  have apart : ∀ {s : St}, (∀ u, u ≠ t → s.pc u = .idle) → Apart s := by
    intro s ho u v p n hu hv
    have : ∀ w, Adding s w p n → w = t := by
      intro w hw
      by_cases hwt : w = t
      · exact hwt
      · obtain ⟨c, rest, hw | hw⟩ := hw <;> rw [ho w hwt] at hw <;> cases hw
    rw [this u hu, this v hv]
  induction l generalizing s with
  | nil => cases hr; exact .done (apart ho)
  | cons e l ih =>
    obtain ⟨s1, h1, h2⟩ := run_cons hr
    have he := hl e (List.mem_cons_self ..)
    refine .step (apart ho) h1 (ih (fun e he => hl e (List.mem_cons_of_mem _ he)) h2 (Inv.next hi h1).1 fun u hu => ?_)
    rw [((hi.tr h1).other (he ▸ hu)).1, ho u hu]

example : ∃ s1 s2 r, RunApart Demo.root Demo.alone s1 ∧ (Demo.addAB, some 2) ∈ s1.log 0 ∧
    Returns s1 2 Demo.getAB (List.replicate 2 (2, Demo.getAB)) s2 r ∧ r = some 2 := by
  have hr : ∃ s1, Demo.root.run Demo.alone = some s1 := ⟨_, rfl⟩
  obtain ⟨s1, hr⟩ := hr
  have hr2 : ∃ s2, s1.run Demo.look = some s2 := by cases hr; exact ⟨_, rfl⟩
  obtain ⟨s2, hr2⟩ := hr2
  have hap : RunApart Demo.root Demo.alone s1 := runApart_one (t := 0) (by intro e he; rw [List.eq_of_mem_replicate he]) hr (.init Demo.root_init) (fun _ _ => rfl)
  have hlog : (Demo.addAB, some 2) ∈ s1.log 0 := by cases hr; exact List.mem_cons_self ..
  have hret : Returns s1 2 Demo.getAB (List.replicate 2 (2, Demo.getAB)) s2 (some 2) :=
    ⟨by cases hr; rfl, hr2, [], by cases hr; cases hr2; rfl⟩
  exact ⟨s1, s2, some 2, hap, hlog, hret, C93_partial Demo.root_init Demo.root_distinct hap (by decide) hlog hret⟩

/-! ## C94 -/

/-- C94, the full statement. -/
def KnowsParent : Prop :=
  ∀ (s s1 : St) (l : List (Nat × Call)) (p c : Nat), s.Init → s.run l = some s1 → c ∈ (s1.node p).downs → (s1.node c).up = some p

/-- **C94 is violated**: goroutine 1 is given node 1 by `AddNode("a")` while goroutine 0 has not yet set its `Up`. -/
theorem C94_violated : ¬ KnowsParent ∧
    ∃ s1, Demo.root.run [(0, .add 0 (b "a") []), (0, .add 0 (b "a") []), (0, .add 0 (b "a") []), (0, .add 0 (b "a") []),
      (1, .add 0 (b "a") []), (1, .add 0 (b "a") [])] = some s1 ∧ s1.log 1 = [(.add 0 (b "a") [], some 1)] ∧ (s1.node 1).up = none := by
  constructor
  · intro h
    have := h Demo.root _ [(0, .add 0 (b "a") []), (0, .add 0 (b "a") []), (0, .add 0 (b "a") []), (0, .add 0 (b "a") [])] 0 1 Demo.root_init rfl
      (List.mem_singleton_self _)
    cases this
  · exact ⟨_, rfl, rfl, rfl⟩

/-- **C94, partial**: whenever no goroutine is inside `AddNode` on node `p`, all children of `p` point to it; while one
is, only one child may not.  Missing: that child (`C94_violated`). -/
theorem C94_partial {s s1 : St} (hi : s.Init) {l : List (Nat × Call)} (h1 : s.run l = some s1) (p : Nat) :
    ((s1.node p).lock = none → ∀ c ∈ (s1.node p).downs, (s1.node c).up = some p) ∧
    ∀ c d, c ∈ (s1.node p).downs → d ∈ (s1.node p).downs → (s1.node c).up ≠ some p → (s1.node d).up ≠ some p → c = d := by
  obtain ⟨i1, _⟩ := Inv.run (.init hi) h1
  have hold : ∀ {c : Nat}, c ∈ (s1.node p).downs → (s1.node c).up ≠ some p → ∃ t k rest, s1.pc t = .linked k p c rest ∧ (s1.node p).lock = some t := by
    intro c hc hne
    rcases i1.up p c hc with h | ⟨t, k, rest, h⟩
    · exact absurd h hne
    · exact ⟨t, k, rest, h, (i1.locks p t).2 (by rw [h]; rfl)⟩
  refine ⟨fun hl c hc => ?_, fun c d hc hd hcu hdu => ?_⟩
  · by_cases hne : (s1.node c).up = some p
    · exact hne
    · obtain ⟨t, _, _, _, h⟩ := hold hc hne
      rw [hl] at h
      cases h
  · obtain ⟨t, k, rest, e1, e2⟩ := hold hc hcu
    obtain ⟨u, k', rest', e3, e4⟩ := hold hd hdu
    rw [e2] at e4
    cases e4
    rw [e1] at e3
    cases e3
    rfl

example : ∃ s1, Demo.root.run Demo.race = some s1 ∧ (s1.node 0).lock = none ∧ (s1.node 2).up = some 0 := by
  have hr : ∃ s1, Demo.root.run Demo.race = some s1 := ⟨_, rfl⟩
  obtain ⟨s1, hr⟩ := hr
  have hl : (s1.node 0).lock = none := by cases hr; rfl
  exact ⟨s1, hr, hl, (C94_partial Demo.root_init hr 0).1 hl 2 (by cases hr; decide)⟩

/-! ## C95 -/

/-- **C95**: a node that `FindNode` returns is below the receiver, through nodes of the given names in their order, and has
the last of them. -/
theorem C95_sound {s s1 : St} (hi : s.Init) {l : List (Nat × Call)} (h1 : s.run l = some s1) {t self x : Nat} {names : List Bytes}
    (h : (.find self names, some x) ∈ s1.log t) : ∃ p, Path s1 self p x ∧ names.Sublist p ∧ p.getLast? = names.getLast? :=
  ((Inv.run (.init hi) h1).1.logs t _ h).2 x rfl

/-- **C95**: with one name `FindNode` finds a node if there was one below the receiver when the call began. -/
theorem C95_found {s s1 s2 : St} (hi : s.Init) {l l' : List (Nat × Call)} (h1 : s.run l = some s1) {t self x : Nat} {r : Option Nat}
    (hb : Below s1 self x) (hr : Returns s1 t (.find self [(s1.node x).name]) l' s2 r) :
    ∃ y, r = some y ∧ Below s2 self y ∧ (∃ p, Path s2 self (p ++ [(s1.node x).name]) y) := by
  obtain ⟨i1, _⟩ := Inv.run (.init hi) h1
  obtain ⟨y, rfl⟩ := find_returns i1 hb rfl hr
  obtain ⟨_, h3, later, h4⟩ := hr
  obtain ⟨i2, _⟩ := Inv.run i1 h3
  obtain ⟨p, e1, e2, e3⟩ := (i2.logs t (.find self [(s1.node x).name], some y) (by rw [h4]; simp)).2 y rfl
  have hp : p ≠ [] := by rintro rfl; cases e3
  obtain ⟨q, hq⟩ := List.getLast?_eq_some_iff.1 e3
  exact ⟨y, rfl, ⟨p, hp, e1⟩, q, hq ▸ e1⟩

/-- Node 3 (`b`) is found through the second `a`. -/
example : ∃ s1 s2 r, Demo.root.run Demo.race = some s1 ∧ Below s1 0 3 ∧
    Returns s1 2 (.find 0 [b "b"]) (List.replicate 4 (2, .find 0 [b "b"])) s2 r ∧ r = some 3 := by
  have hr : ∃ s1, Demo.root.run Demo.race = some s1 := ⟨_, rfl⟩
  obtain ⟨s1, hr⟩ := hr
  have hr2 : ∃ s2, s1.run (List.replicate 5 (2, .find 0 [b "b"])) = some s2 := by cases hr; exact ⟨_, rfl⟩
  obtain ⟨s2, hr2⟩ := hr2
  have hl : (Demo.addAB, some 3) ∈ s1.log 1 := by cases hr; exact List.mem_cons_self ..
  obtain ⟨x, hx, hp⟩ := C92_added Demo.root_init hr (l' := []) rfl hl
  cases hx
  exact ⟨s1, s2, some 3, hr, ⟨_, by simp, hp⟩, ⟨by cases hr; rfl, hr2, [], by cases hr; cases hr2; rfl⟩, rfl⟩

/-! ## C96 -/

/-- **C96**: an unfinished call can go on, or it waits for a lock whose holder is another goroutine that can go on. -/
theorem C96_progress {s s1 : St} (hi : s.Init) {l : List (Nat × Call)} (h1 : s.run l = some s1) {t : Nat} (ht : s1.pc t ≠ .idle) (c : Call) :
    (∃ s2, s1.step t c = some s2) ∨
    ∃ u k cur n rest, u ≠ t ∧ s1.pc t = .want k cur n rest ∧ (s1.node cur).lock = some u ∧ ∃ s2, s1.step u c = some s2 := by
  obtain ⟨i1, _⟩ := Inv.run (.init hi) h1
  cases hpc : s1.pc t with
  | idle => exact absurd hpc ht
  | scan k cur n rest =>
    left
    simp only [St.step, hpc]
    cases s1.grep cur n <;> exact ⟨_, rfl⟩
  | want k cur n rest =>
    cases hl : (s1.node cur).lock with
    | none =>
      left
      simp only [St.step, hpc, hl]
      exact ⟨_, rfl⟩
    | some u =>
      right
      have hu := (i1.locks cur u).1 hl
      refine ⟨u, k, cur, n, rest, fun e => ?_, rfl, hl, ?_⟩
      · rw [e, hpc] at hu
        cases hu
      · cases hq : s1.pc u <;> rw [hq] at hu <;> first | cases hu; done | (simp only [St.step, hq]; exact ⟨_, rfl⟩)
  | locked k cur n rest => left; simp only [St.step, hpc]; exact ⟨_, rfl⟩
  | linked k cur child rest => left; simp only [St.step, hpc]; exact ⟨_, rfl⟩
  | unlock k cur child rest => left; simp only [St.step, hpc]; exact ⟨_, rfl⟩
  | get k cur n rest => left; simp only [St.step, hpc]; exact ⟨_, rfl⟩
  | find k fs => left; simp only [St.step, hpc]; exact ⟨_, rfl⟩

/-- **C96**: a lock is held by at most one goroutine, which is inside `AddNode` on that node; when all calls have ended no
lock is held. -/
theorem C96_released {s s1 : St} (hi : s.Init) {l : List (Nat × Call)} (h1 : s.run l = some s1) :
    (∀ a t, (s1.node a).lock = some t → s1.pc t ≠ .idle) ∧ ((∀ t, s1.pc t = .idle) → ∀ a, (s1.node a).lock = none) := by
  obtain ⟨i1, _⟩ := Inv.run (.init hi) h1
  have h : ∀ a t, (s1.node a).lock = some t → s1.pc t ≠ .idle := by
    intro a t hl hp
    have := (i1.locks a t).1 hl
    rw [hp] at this
    cases this
  refine ⟨h, fun hall a => ?_⟩
  cases hl : (s1.node a).lock with
  | none => rfl
  | some t => exact absurd (hall t) (h a t hl)

/-- Goroutine 1 waits for the lock that goroutine 0 holds. -/
example : ∃ s1, Demo.root.run (Demo.race.take 5) = some s1 ∧ s1.step 1 Demo.addAB = none ∧ s1.pc 1 ≠ .idle ∧ ∃ s2, s1.step 0 Demo.addAB = some s2 := by
  refine ⟨_, rfl, rfl, ?_, _, rfl⟩
  intro h
  cases h

end Verif.TreeMany
