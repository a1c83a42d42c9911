import Verif.Lemmas.TreeEff
import Verif.Props.TreeSeq
import Verif.Props.Tree
/-!
# C125: additions and deletions by many goroutines happen one at a time
-/
namespace Verif.TreeAll

/-- **C125: every change happens at once, when the lock is taken.** Whatever the goroutines do, once no lock is held the tree is the one that
the additions and removals give when each is made at once, in the order in which the locks were taken.  So no addition is lost, no removal
takes out more or other children than the one it found, and a removal and an addition at the same node do not disturb each other. -/
theorem C125_atomic {s s1 : St} (hi : s.Init) {l : List (Nat × Call × Bool)} (h : s.run l = some s1) (hfree : ∀ p, (s1.node p).lock = none) :
    runEffs s.heap ((effects s l).map Prod.snd) = some s1.heap := by
  obtain ⟨h', e1, e2⟩ := (Abs.init hi).run (.init hi) h
  rw [e1, e2.quiet (Inv.run (.init hi) h).1 hfree]

/-- **C125: the removals are the deletions.** A goroutine makes one removal for every call of `DeleteNode`, in the order of the calls, and no
other. -/
theorem C125_deletes {s s1 : St} (hi : s.Init) {l : List (Nat × Call × Bool)} (h : s.run l = some s1) {t : Nat} (he : s1.pc t = .idle) :
    cuts t (effects s l) = (dels (s1.log t)).reverse := by
  have := cuts_run (u := t) (.init hi) h
  rw [he, hi.idle, hi.log] at this
  exact ((List.append_nil _).symm.trans this).symm

/-- **C125: only what was asked for is added.** An addition below `p` is made by a call of `AddNode` or `AddNodes` of that goroutine, which
names the child and reaches `p` by the names before it. -/
theorem C125_adds {s s1 : St} (hi : s.Init) {l : List (Nat × Call × Bool)} (h : s.run l = some s1) {t p : Nat} {n : Bytes} (he : s1.pc t = .idle)
    (ha : (t, Eff.app p n) ∈ effects s l) :
    ∃ self tag names pre rest r, (Call.add self tag names, r) ∈ s1.log t ∧ tag :: names = pre ++ n :: rest ∧ Chain s1 self pre p := by
  obtain ⟨self, tag, names, pre, rest, h1, h2, h3⟩ := (asked_run (.init hi) h).2 t p n ha
  rcases h1 with h1 | ⟨r, h1⟩
  · rw [he] at h1
    cases h1
  · exact ⟨self, tag, names, pre, rest, r, h1, h2, h3⟩

/-- **C125: without twins the calls are one after the other.** If no child was added beside one of the same name, then the tree is what
`AddNode` and `DeleteNode` give when they are called one after the other, by one goroutine. -/
theorem C125_serial {s s1 : St} (hi : s.Init) {l : List (Nat × Call × Bool)} (h : s.run l = some s1) (hfree : ∀ p, (s1.node p).lock = none)
    (ha : Apart s.heap ((effects s l).map Prod.snd)) : Tree.runAll s.heap ((effects s l).map fun e => e.2.op) = some s1.heap := by
  have := serial (Inv.init hi).deep (C125_atomic hi h hfree) ha
  rwa [List.map_map] at this

/-- **C125: without twins the tree is one that a single goroutine can build.** So all that is proved about such trees holds of it. -/
theorem C125_reachable {s s1 : St} (hi : s.Init) (hr : Tree.Reachable s.heap) {l : List (Nat × Call × Bool)} (h : s.run l = some s1)
    (hfree : ∀ p, (s1.node p).lock = none) (ha : Apart s.heap ((effects s l).map Prod.snd)) : Tree.Reachable s1.heap := by
  obtain ⟨ops, ho⟩ := hr
  refine ⟨ops ++ (effects s l).map (fun e => e.2.op), ?_⟩
  have : ∀ (g : Tree.Heap Unit), Tree.runAll g ops = some s.heap → Tree.runAll g (ops ++ (effects s l).map (fun e => e.2.op)) = some s1.heap := by
    clear ho
    induction ops with
    | nil => intro g hg; cases hg; exact C125_serial hi h hfree ha
    | cons o ops ih =>
      intro g hg
      simp only [List.cons_append, Tree.runAll] at hg ⊢
      cases hr : o.run g with
      | none => rw [hr] at hg; cases hg
      | some g' => rw [hr] at hg; exact ih g' hg
  exact this _ ho

set_option maxRecDepth 4000 in
/-- The changes of the demo: goroutine 0 adds three children, then goroutine 1 takes out `a` while goroutine 2 adds `d`. -/
theorem Demo.effects_mixed : effects Demo.root (Demo.build ++ Demo.mixed) =
    [(0, .app 0 (b "a")), (0, .app 0 (b "b")), (0, .app 0 (b "c")), (1, .cut 0 (b "a")), (2, .app 0 (b "d"))] := rfl

/-- Whether a child is added beside one of the same name can be computed. -/
theorem apart_of {h : Tree.Heap Unit} {es : List Eff} (hc : ∀ k p n h', es[k]? = some (.app p n) → runEffs h (es.take k) = some h' → ¬ HasChild h' p n) :
    Apart h es := by
  intro pre p n post e h' hr
  subst e
  refine hc pre.length p n h' ?_ ?_
  · rw [List.getElem?_append_right (Nat.le_refl _), Nat.sub_self]; rfl
  · rw [List.take_left]; exact hr

example : ∃ s1, Demo.root.run (Demo.build ++ Demo.mixed) = some s1 ∧ (s1.node 0).downs = [2, 3, 4] ∧ cuts 1 (effects Demo.root (Demo.build ++ Demo.mixed)) = [(0, b "a")] ∧
    s1.log 1 = [(Demo.del "a", none)] ∧ runEffs Demo.root.heap ((effects Demo.root (Demo.build ++ Demo.mixed)).map Prod.snd) = some s1.heap ∧
    Tree.runAll Demo.root.heap [.addNode 0 (b "a"), .addNode 0 (b "b"), .addNode 0 (b "c"), .deleteNode 0 (b "a"), .addNode 0 (b "d")] = some s1.heap ∧
    Tree.Reachable s1.heap := by
  have h1 : ∃ s1, Demo.root.run (Demo.build ++ Demo.mixed) = some s1 := ⟨_, rfl⟩
  obtain ⟨s1, h1⟩ := h1
  have hfree : ∀ p, (s1.node p).lock = none := by
    cases h1
    intro p
    match p with
    | 0 | 1 | 2 | 3 | 4 => rfl
    | p + 5 => rfl
  have ha : Apart Demo.root.heap ((effects Demo.root (Demo.build ++ Demo.mixed)).map Prod.snd) := by
    rw [Demo.effects_mixed]
    refine apart_of fun k p n h' hk hr => ?_
    have key : ∀ {g : Tree.Heap Unit} {ds : List Nat} {nd : Tree.Node Unit}, g[0]? = some nd → nd.downs = ds →
        (∀ d ∈ ds, ∀ nd', g[d]? = some nd' → nd'.name ≠ n) → p = 0 → ¬ HasChild g p n := by
      rintro g ds nd e1 e2 e3 rfl ⟨nd1, d, nd', g1, g2, g3, g4⟩
      rw [e1] at g1
      cases g1
      exact e3 d (e2 ▸ g2) nd' g3 g4
    match k, hk, hr with
    | 0, hk, hr =>
      cases hk; cases hr
      exact key rfl rfl (fun d hd => by cases hd) rfl
    | 1, hk, hr =>
      cases hk; cases hr
      refine key rfl rfl (fun d hd nd' he hn => ?_) rfl
      replace hd : d ∈ [1] := hd
      rw [List.mem_singleton] at hd
      subst hd
      cases he
      exact absurd hn (by decide)
    | 2, hk, hr =>
      cases hk; cases hr
      refine key rfl rfl (fun d hd nd' he hn => ?_) rfl
      replace hd : d ∈ [1, 2] := hd
      simp only [List.mem_cons, List.not_mem_nil, or_false] at hd
      rcases hd with rfl | rfl <;> cases he <;> exact absurd hn (by decide)
    | 3, hk, hr => cases hk
    | 4, hk, hr =>
      cases hk; cases hr
      refine key rfl rfl (fun d hd nd' he hn => ?_) rfl
      replace hd : d ∈ [2, 3] := hd
      simp only [List.mem_cons, List.not_mem_nil, or_false] at hd
      rcases hd with rfl | rfl <;> cases he <;> exact absurd hn (by decide)
    | k + 5, hk, hr => cases hk
  refine ⟨s1, h1, by cases h1; rfl, rfl, by cases h1; rfl, C125_atomic Demo.root_init h1 hfree, ?_, C125_reachable Demo.root_init Demo.root_reachable h1 hfree ha⟩
  exact C125_serial Demo.root_init h1 hfree ha

/-- `C125_deletes` and `C125_adds` at work: in the middle of the demo goroutine 1 is done and goroutine 2 is not. -/
example : ∃ l s1, Demo.root.run l = some s1 ∧ s1.pc 1 = .idle ∧ s1.log 1 = [(Demo.del "c", none), (Demo.del "a", none)] ∧
    cuts 1 (effects Demo.root l) = [(0, b "a"), (0, b "c")] ∧ ∃ self tag names pre rest r, (Call.add self tag names, r) ∈ s1.log 0 ∧ tag :: names = pre ++ b "b" :: rest ∧ Chain s1 self pre 0 := by
  have h1 : ∃ s1, Demo.root.run (Demo.build ++ Demo.go 7 1 (Demo.del "a") ++ Demo.go 5 1 (Demo.del "c")) = some s1 := ⟨_, rfl⟩
  obtain ⟨s1, h1⟩ := h1
  have hp : s1.pc 1 = .idle := by cases h1; rfl
  have hp0 : s1.pc 0 = .idle := by cases h1; rfl
  have hl : s1.log 1 = [(Demo.del "c", none), (Demo.del "a", none)] := by cases h1; rfl
  refine ⟨_, s1, h1, hp, hl, ?_, C125_adds Demo.root_init h1 hp0 (n := b "b") ?_⟩
  · have := C125_deletes Demo.root_init h1 hp
    rw [hl] at this
    exact this
  · exact List.mem_cons_of_mem _ (List.mem_cons_self ..)

/-- **Twins are no tree of one goroutine**: two goroutines call `AddNode("a")`; all calls return; but no calls of one goroutine give that tree.
So the hypothesis of `C125_serial` is needed. -/
theorem C125_violated : ∃ l s1, Demo.root.run l = some s1 ∧ (∀ t, s1.pc t = .idle) ∧ s1.log 1 = [(Demo.add "a", some 1)] ∧ s1.log 2 = [(Demo.add "a", some 2)] ∧
    (∀ p, (s1.node p).lock = none) ∧ Tree.Reachable Demo.root.heap ∧ ¬ Tree.Reachable s1.heap := by
  have h1 : ∃ s1, Demo.root.run (Demo.go 3 1 (Demo.add "a") true ++ Demo.go 3 2 (Demo.add "a") true ++ Demo.go 5 1 (Demo.add "a") true ++ Demo.go 5 2 (Demo.add "a") true) = some s1 := ⟨_, rfl⟩
  obtain ⟨s1, h1⟩ := h1
  refine ⟨_, s1, h1, fun t => ?_, by cases h1; rfl, by cases h1; rfl, fun p => ?_, Demo.root_reachable, fun hr => ?_⟩
  · cases h1
    match t with
    | 0 | 1 | 2 => rfl
    | t + 3 => rfl
  · cases h1
    match p with
    | 0 | 1 | 2 => rfl
    | p + 3 => rfl
  · have hh : s1.heap = [⟨b "r", [], none, [1, 2]⟩, ⟨b "a", [], some 0, []⟩, ⟨b "a", [], some 0, []⟩] := by cases h1; rfl
    rw [hh] at hr
    have := Tree.C05_sibling_names_unique hr 0 _ rfl
    rw [List.pairwise_cons] at this
    exact this.1 2 (List.mem_singleton.2 rfl) (b "a") ⟨_, rfl, rfl⟩ ⟨_, rfl, rfl⟩

end Verif.TreeAll
