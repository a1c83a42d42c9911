import Verif.Lemmas.TreeFind
/-!
# Properties C05–C09: the variable tree of `utils/tree.go` (one goroutine)

`Reachable h`: the heap `h` is the result of some history of client operations.
-/
set_option linter.unusedSimpArgs false
namespace Verif.Tree
variable {V : Type}

/-- The heap used in the examples: a root `var` with children `a` and `b`, `b` having a
child `a`; one item in node 1. -/
def exampleHeap : Heap Nat :=
  [{ name := VAR, data := [], up := none, downs := [1, 2] },
   { name := b "a", data := [(b "k", 7)], up := some 0, downs := [] },
   { name := b "b", data := [], up := some 0, downs := [3] },
   { name := b "a", data := [], up := some 2, downs := [] }]

theorem exampleHeap_reachable : Reachable exampleHeap :=
  ⟨[.newTree VAR, .addNode 0 (b "a"), .addNodes 0 (b "b") [b "a"], .addItem 1 (b "k") 7], rfl⟩

/-! ## C05 -/

/-- No node ever has two children of the same name. -/
theorem C05_sibling_names_unique {h : Heap V} (hr : Reachable h) (i : Nat) (nd : Node V)
    (hnd : h[i]? = some nd) :
    nd.downs.Pairwise fun c d => ∀ n, Named h c n → ¬ Named h d n := by
  have hi := hr.inv
  have hn := hi.names i nd hnd
  rw [List.nodup_iff_pairwise_ne, List.pairwise_map] at hn
  refine hn.imp ?_
  intro c d hcd n h1 h2
  exact hcd (by rw [named_iff.mp h1, named_iff.mp h2])

/-- `AddNode` of an existing name returns the existing child and changes nothing. -/
theorem C05_existing {h : Heap V} (hr : Reachable h) {i n c} (hc : Child h i n c) :
    addNode h i n = some (h, c) := by
  have hi := hr.inv
  obtain ⟨⟨nd, hnd, _⟩, _⟩ := hc.1, ()
  rcases addNode_cases hi hnd n with ⟨c', h1, h2⟩ | ⟨h1, _⟩
  · rw [h2, hi.child_unique h1 hc]
  · exact absurd hc (h1 c)

example : Child exampleHeap 0 (b "b") 2 :=
  ⟨⟨_, rfl, by decide⟩, _, rfl, rfl⟩

/-- `AddNode` of a new name appends a fresh, empty child whose `Up` is the receiver; no
other node changes. -/
theorem C05_new {h : Heap V} (hr : Reachable h) {i n nd} (hnd : h[i]? = some nd)
    (hno : ∀ c, ¬ Child h i n c) :
    ∃ h' c, addNode h i n = some (h', c) ∧ h[c]? = none ∧
      h'[c]? = some { name := n, data := [], up := some i, downs := [] } ∧
      h'[i]? = some { nd with downs := nd.downs ++ [c] } ∧
      ∀ j, j ≠ i → j ≠ c → h'[j]? = h[j]? := by
  have hlt := lt_of_get hnd
  rcases addNode_cases hr.inv hnd n with ⟨c', h1, _⟩ | ⟨_, h2⟩
  · exact absurd h1 (hno c')
  · refine ⟨_, _, h2, by simp, ?_, ?_, ?_⟩
    · rw [get_set_append hlt, if_pos rfl]
    · rw [get_set_append hlt, if_neg (by omega), if_pos rfl]
    · intro j h3 h4
      rw [get_set_append hlt, if_neg h4, if_neg h3]

/-- `NewTree` allocates a fresh empty root of that name and changes nothing else. -/
theorem C05_newTree (h : Heap V) (n : Bytes) :
    h[(newTree h n).2]? = none ∧
    (newTree h n).1[(newTree h n).2]? = some { name := n, data := [], up := none, downs := [] } ∧
    ∀ j, j ≠ (newTree h n).2 → (newTree h n).1[j]? = h[j]? := by
  refine ⟨by simp [newTree], by simp [newTree], ?_⟩
  intro j hj
  simp only [newTree] at hj ⊢
  rcases Nat.lt_or_ge j h.length with h1 | h1
  · rw [List.getElem?_append_left h1]
  · rw [List.getElem?_eq_none (by simp; omega), List.getElem?_eq_none h1]

/-- Every operation on handles of the heap succeeds (no panic) and stays reachable, and
whatever `AddNode` returns is then a child of the receiver under that name. -/
theorem C05_progress {h : Heap V} (hr : Reachable h) (o : Op V) (ho : o.Valid h) :
    ∃ h', o.run h = some h' ∧ Reachable h' := by
  obtain ⟨h', h1, _, _⟩ := hr.inv.run ho
  obtain ⟨ops, h2⟩ := hr
  refine ⟨h', h1, ops ++ [o], ?_⟩
  have : ∀ (ops : List (Op V)) (h0 : Heap V), runAll h0 ops = some h →
      runAll h0 (ops ++ [o]) = some h' := by
    intro ops
    induction ops with
    | nil => intro h0 h3; cases h3; simp [runAll, h1]
    | cons p ops ih =>
      intro h0 h3
      simp only [runAll] at h3
      simp only [List.cons_append, runAll]
      cases h4 : p.run h0 with
      | none => simp [h4] at h3
      | some h5 => simp only [h4] at h3; exact ih h5 h3
  exact this ops [] h2

example : (Op.deleteNode 2 (b "a") : Op Nat).Valid exampleHeap := by
  show 2 < 4
  decide

/-- Adding the same name twice gives the same node. -/
theorem C05_idempotent {h h' : Heap V} (hr : Reachable h) {i n c}
    (h1 : addNode h i n = some (h', c)) : addNode h' i n = some (h', c) := by
  have hv : i < h.length := by
    cases hs : h[i]? with
    | none => simp [addNode, hs] at h1
    | some nd => exact lt_of_get hs
  obtain ⟨nd, hnd⟩ := get_of_lt hv
  obtain ⟨h2, c2, h3, _, h5, _⟩ := hr.inv.addNode hnd n
  rw [h1] at h3; cases h3
  obtain ⟨h4, h6, h7⟩ := C05_progress hr (.addNode i n) hv
  simp only [Op.run, h1, Option.map_some, Option.some.injEq] at h6
  subst h6
  exact C05_existing h7 h5

/-! ## C06 -/

/-- The edge `(s, n)` is used by the path `ns` from `i`. -/
def OnPath (h : Heap V) (i : Nat) (ns : List Bytes) (s : Nat) (n : Bytes) : Prop :=
  ∃ pre post, ns = pre ++ n :: post ∧ Walk h i pre s

/-- C06, the full statement: `GetNode` after `AddNodes` finds the node. -/
def GetFindsAdded : Prop :=
  ∀ (h h' : Heap Unit) i tag names c, Reachable h → addNodes h i tag names = some (h', c) →
    getNode h' i tag names = some (some c)

/-- C06 is false for the empty tag: `AddNode("")` creates a child, `GetNode("")` returns
the receiver. -/
theorem C06_empty_tag_counterexample : ¬ GetFindsAdded := by
  intro h
  have := h [{ name := b "r", data := [], up := none, downs := [] }]
    [{ name := b "r", data := [], up := none, downs := [1] },
     { name := [], data := [], up := some 0, downs := [] }] 0 [] [] 1
    ⟨[.newTree (b "r")], rfl⟩ rfl
  simp [getNode] at this

theorem walk_runAll {h h' : Heap V} (hi : Inv h) {ops} (hr : runAll h ops = some h')
    {i ns j} (hw : Walk h i ns j)
    (hno : ∀ s n, Op.deleteNode s n ∈ ops → ¬ OnPath h i ns s n) : Walk h' i ns j := by
  induction hw with
  | nil i => exact .nil i
  | @cons i n c ns j hc hw ih =>
    refine .cons (child_runAll hi hr ?_ hc) (ih ?_)
    · rintro s m hm ⟨rfl, rfl⟩
      exact hno s m hm ⟨[], ns, rfl, .nil s⟩
    · rintro s m hm ⟨pre, post, h1, h2⟩
      exact hno s m hm ⟨n :: pre, post, by simp [h1], .cons hc h2⟩

/-- C06 for non-empty tags (the later names may be empty): `GetNode` returns what
`AddNodes` returned, immediately and after any further operations, as long as none of
them deletes an edge of this very path.  Missing: the empty tag
(`C06_empty_tag_counterexample`). -/
theorem C06_get_after_add_partial {h h1 h2 : Heap V} (hr : Reachable h) {i tag names c}
    (ht : tag ≠ []) (ha : addNodes h i tag names = some (h1, c))
    (ops : List (Op V)) (hops : runAll h1 ops = some h2)
    (hno : ∀ s n, Op.deleteNode s n ∈ ops → ¬ OnPath h1 i (tag :: names) s n) :
    getNode h2 i tag names = some (some c) := by
  have hi := hr.inv
  have ha' : addNodesLoop h i (tag :: names) = some (h1, c) := by
    simpa [addNodesLoop, addNodes] using ha
  have hlt : i < h.length := by
    cases hs : h[i]? with
    | none => simp [addNodes, addNode, hs] at ha
    | some nd => exact lt_of_get hs
  have hw := walk_addNodesLoop hi hlt ha'
  obtain ⟨h3, c3, h4, h5, h6⟩ := hi.addNodes tag names hlt
  rw [ha] at h4; cases h4
  have hw2 := walk_runAll h5 hops hw hno
  have hi2 := h5.runAll ops hops
  have hlt2 : i < h2.length := by
    cases hw2 with
    | cons hc _ => obtain ⟨⟨nd, h7, _⟩, _⟩ := hc; exact lt_of_get h7
  obtain ⟨r, h7, h8⟩ := getNode_iff hi2 hlt2 tag ht names
  rw [h7, (h8 c).mpr hw2]

-- a later history with a deletion elsewhere
example : ∃ (h1 h2 : Heap Nat) (c : Nat), addNodes exampleHeap 0 (b "b") [b "z"] = some (h1, c) ∧
    runAll h1 [.deleteNode 0 (b "a"), .addNode 1 (b "q")] = some h2 ∧ c = 4 :=
  ⟨_, _, _, rfl, rfl, rfl⟩

/-- In every reachable tree, `GetNode` with a non-empty tag returns the node reached by
following the names, and nil exactly when there is none. -/
theorem C06_get_iff {h : Heap V} (hr : Reachable h) {i} (hlt : i < h.length) (tag : Bytes)
    (ht : tag ≠ []) (names : List Bytes) :
    ∃ r, getNode h i tag names = some r ∧ ∀ j, r = some j ↔ Walk h i (tag :: names) j :=
  getNode_iff hr.inv hlt tag ht names

example : Walk exampleHeap 0 [b "b", b "a"] 3 :=
  .cons (c := 2) ⟨⟨_, rfl, by decide⟩, _, rfl, rfl⟩
    (.cons (c := 3) ⟨⟨_, rfl, by decide⟩, _, rfl, rfl⟩ (.nil 3))

/-! ## C07 -/

/-- `DeleteNode` removes exactly the child of that name: it is no longer a child, the
other children keep identity and order (`Sublist`), and no other node is changed. -/
theorem C07_delete_exact {h : Heap V} (hr : Reachable h) {i nd} (hnd : h[i]? = some nd)
    (n : Bytes) :
    ∃ h' nd', deleteNode h i n = some h' ∧ h'[i]? = some nd' ∧
      nd'.name = nd.name ∧ nd'.data = nd.data ∧ nd'.up = nd.up ∧
      nd'.downs.Sublist nd.downs ∧
      (∀ c, c ∈ nd'.downs ↔ c ∈ nd.downs ∧ ¬ Named h c n) ∧
      (∀ c, ¬ Child h' i n c) ∧
      ∀ j, j ≠ i → h'[j]? = h[j]? := by
  have hlt := lt_of_get hnd
  refine ⟨_, { nd with downs := nd.downs.filter fun d => nameOf h d ≠ some n },
    deleteNode_eq hr.inv hnd n, by rw [get_set hlt, if_pos rfl], rfl, rfl, rfl,
    List.filter_sublist, ?_, ?_, ?_⟩
  · intro c
    simp only [List.mem_filter, decide_eq_true_eq, named_iff, ne_eq]
  · rintro c ⟨⟨nd', h1, h2⟩, nc, h3, h4⟩
    rw [get_set hlt, if_pos rfl] at h1; cases h1
    have h5 := (List.mem_filter.mp h2).2
    simp only [decide_eq_true_eq, ne_eq] at h5
    apply h5
    rw [get_set hlt] at h3
    split at h3
    · rename_i hci
      subst hci
      cases h3
      simp [nameOf, hnd] at *
      exact h4
    · exact named_iff.mp ⟨nc, h3, h4⟩
  · intro j hj
    rw [get_set hlt, if_neg hj]

/-- After `DeleteNode(name)`, `GetNode(name, ...)` is nil (non-empty name). -/
theorem C07_get_nil {h h' : Heap V} (hr : Reachable h) {i : Nat} (n : Bytes) (hn : n ≠ [])
    (names : List Bytes) (hd : deleteNode h i n = some h') :
    getNode h' i n names = some none := by
  have hv : i < h.length := by
    cases hs : h[i]? with
    | none => simp [deleteNode, hs] at hd
    | some nd => exact lt_of_get hs
  obtain ⟨nd, hnd⟩ := get_of_lt hv
  obtain ⟨h2, nd', h3, h4, _, _, _, _, _, h5, _⟩ := C07_delete_exact hr hnd n
  rw [hd] at h3; cases h3
  obtain ⟨h6, h7, h8⟩ := C05_progress hr (.deleteNode i n) hv
  simp only [Op.run, hd, Option.some.injEq] at h7; subst h7
  obtain ⟨r, h9, h10⟩ := getNode_iff h8.inv (lt_of_get h4) n hn names
  rw [h9]
  cases r with
  | none => rfl
  | some j =>
    have := (h10 j).mp rfl
    cases this with
    | cons hc _ => exact absurd hc (h5 _)

example : ∃ h', deleteNode exampleHeap 0 (b "a") = some h' := ⟨_, rfl⟩

/-! ## C08 -/

/-- `FindNode` terminates, never panics, and what it finds is below the receiver with the
names occurring in order on the way. -/
theorem C08_sound {h : Heap V} (hr : Reachable h) {i} (hlt : i < h.length)
    (names : List Bytes) :
    ∃ r, findNode h i names = some r ∧ ∀ j, r = some j → Occurs h i names j :=
  findNodeN_sound hr.inv (h.length + 1) i hlt (by omega) names

/-- C08, completeness: full statement. -/
def FindComplete : Prop :=
  ∀ (h : Heap Unit) i names j, Reachable h → Occurs h i names j →
    ∃ d, findNode h i names = some (some d)

/-- Completeness is false: with children `a{}` and `x{a{b}}`, `FindNode(a, b)` commits to
the first `a` and gives up. -/
theorem C08_incomplete : ¬ FindComplete := by
  intro h
  have h1 := h [{ name := b "r", data := [], up := none, downs := [1, 2] },
     { name := b "a", data := [], up := some 0, downs := [] },
     { name := b "x", data := [], up := some 0, downs := [3] },
     { name := b "a", data := [], up := some 2, downs := [4] },
     { name := b "b", data := [], up := some 3, downs := [] }] 0 [b "a", b "b"] 4
    ⟨[.newTree (b "r"), .addNode 0 (b "a"), .addNodes 0 (b "x") [b "a", b "b"]], rfl⟩
    (.step (m := 3)
      (.deeper (c := 2) ⟨_, rfl, by decide⟩ (.child ⟨_, rfl, by decide⟩))
      ⟨_, rfl, rfl⟩
      (.last (.child ⟨_, rfl, by decide⟩) ⟨_, rfl, rfl⟩))
  obtain ⟨d, hd⟩ := h1
  revert hd
  simp [findNode, findNodeN, findLoop, b]

/-- Completeness when every name but the last is carried by at most one node below the
receiver; in particular for every one-element list of names.
Missing for the full claim: repeated intermediate names (`C08_incomplete`). -/
theorem C08_complete_partial {h : Heap V} (hr : Reachable h) {i} {names : List Bytes} {j}
    (hu : ∀ n ∈ names.dropLast, ∀ x y, Below h i x → Below h i y → Named h x n →
      Named h y n → x = y)
    (ho : Occurs h i names j) : ∃ d, findNode h i names = some (some d) := by
  have hlt : i < h.length := by
    have : ∃ m, Below h i m := by
      cases ho with
      | last hb _ => exact ⟨_, hb⟩
      | step hb _ _ => exact ⟨_, hb⟩
    obtain ⟨m, hb⟩ := this
    cases hb with
    | child he => obtain ⟨nd, h1, _⟩ := he; exact lt_of_get h1
    | deeper he _ => obtain ⟨nd, h1, _⟩ := he; exact lt_of_get h1
  exact findNodeN_complete hr.inv (h.length + 1) i hlt (by omega) names hu ⟨j, ho⟩

/-- One name: `FindNode(n)` is nil exactly when no node below is called `n`. -/
theorem C08_single {h : Heap V} (hr : Reachable h) {i} (hlt : i < h.length) (n : Bytes) :
    findNode h i [n] = some none ↔ ∀ j, Below h i j → ¬ Named h j n := by
  obtain ⟨r, h1, h2⟩ := C08_sound hr hlt [n]
  rw [h1]
  constructor
  · intro he j hb hn
    obtain ⟨d, hd⟩ := C08_complete_partial hr (i := i) (names := [n]) (j := j) (by simp)
      (.last hb hn)
    rw [h1, Option.some.inj he] at hd; cases hd
  · intro hno
    cases r with
    | none => rfl
    | some j =>
      have := h2 j rfl
      cases this with
      | last hb hn => exact absurd hn (hno j hb)

example : Occurs exampleHeap 0 [b "b", b "a"] 3 :=
  .step (m := 2) (.child ⟨_, rfl, by decide⟩) ⟨_, rfl, rfl⟩
    (.last (.child ⟨_, rfl, by decide⟩) ⟨_, rfl, rfl⟩)

/-! ## C09 -/

/-- `Variables` terminates without panic, and its result `vs` has, for every key `k`: the
stored item if there is one and `k` is not the reserved key; otherwise the object made of
the variables of the child called `k`; otherwise nothing.  (Reserved key of a node itself
called `var`: `C09_root_var`.) -/
theorem C09_lookup {h : Heap V} (hr : Reachable h) {i} (hlt : i < h.length) :
    ∃ vs, variables h i = some vs ∧
      (∀ k v, k ≠ VAR → Stored h i k v → GoMap.get? vs k = some (.item v)) ∧
      (∀ k c, (k = VAR ∨ ∀ v, ¬ Stored h i k v) → ¬ (k = VAR ∧ Named h i VAR) → Child h i k c →
        ∃ vc, variables h c = some vc ∧ GoMap.get? vs k = some (.obj vc)) ∧
      (∀ k, (k = VAR ∨ ∀ v, ¬ Stored h i k v) → ¬ (k = VAR ∧ Named h i VAR) →
        (∀ c, ¬ Child h i k c) → GoMap.get? vs k = none) := by
  have hi := hr.inv
  obtain ⟨f, hf, hv⟩ := variablesN_spec hi
  obtain ⟨nd, hnd⟩ := get_of_lt hlt
  obtain ⟨base, h1, h2, h3⟩ := hv i nd hnd
  have hns : ∀ k, (k = VAR ∨ ∀ v, ¬ Stored h i k v) → k = VAR ∨ GoMap.get? nd.data k = none := by
    intro k hk
    rcases hk with hk | hk
    · exact .inl hk
    · right
      cases hg : GoMap.get? nd.data k with
      | none => rfl
      | some v => exact absurd ⟨nd, hnd, hg⟩ (hk v)
  have hnv : ∀ k, ¬ (k = VAR ∧ Named h i VAR) → ¬ (k = VAR ∧ nd.name = VAR) :=
    fun k hk hh => hk ⟨hh.1, nd, hnd, hh.2⟩
  refine ⟨f i, hf i hlt _ (by omega), ?_, ?_, ?_⟩
  · rintro k v hk ⟨nd', h4, h5⟩
    rw [hnd] at h4; cases h4
    rw [h3, if_neg (fun hh => hk hh.1)]
    exact h1 k hk v h5
  · intro k c hk hkv hc
    obtain ⟨nc, h4, _⟩ := hc.2
    refine ⟨f c, hf c (lt_of_get h4) _ (by omega), ?_⟩
    rw [h3, if_neg (hnv k hkv)]
    exact (h2 k (hns k hk)).1 c hc
  · intro k hk hkv hno
    rw [h3, if_neg (hnv k hkv)]
    exact (h2 k (hns k hk)).2 hno

example : (variables exampleHeap 0).bind (fun vs => (GoMap.get? vs (b "b")).map fun _ => ()) =
    some () := by
  simp [variables, variablesN, varLoop, exampleHeap, storeItems, GoMap.get?, GoMap.set, VAR, b]
  rfl

/-- A node called `var` exposes under `var` an object with all its other attributes. -/
theorem C09_root_var {h : Heap V} (hr : Reachable h) {i} (hn : Named h i VAR) :
    ∃ vs self, variables h i = some vs ∧ GoMap.get? vs VAR = some (.obj self) ∧
      ∀ k, k ≠ VAR → GoMap.get? self k = GoMap.get? vs k := by
  obtain ⟨nd, hnd, hname⟩ := hn
  obtain ⟨f, hf, hv⟩ := variablesN_spec hr.inv
  obtain ⟨base, _, _, h3⟩ := hv i nd hnd
  refine ⟨f i, base, hf i (lt_of_get hnd) _ (by omega), ?_, ?_⟩
  · rw [h3, if_pos ⟨rfl, hname⟩]
  · intro k hk; rw [h3, if_neg (fun hh => hk hh.1)]

example : Named exampleHeap 0 VAR := ⟨_, rfl, rfl⟩

/-- An item stored at the end of a path is read by that attribute path (`a.b.k`), unless
some node on the way stores an item under the next name, or is called `var` and the next
name is `var` as well. -/
theorem C09_path {h : Heap V} (hr : Reachable h) {i ns j} (hw : Walk h i ns j) {k v}
    (hk : k ≠ VAR) (hs : Stored h j k v)
    (hfree : ∀ pre n post x, ns = pre ++ n :: post → Walk h i pre x →
      (n = VAR ∧ ¬ Named h x VAR) ∨ (n ≠ VAR ∧ ∀ w, ¬ Stored h x n w)) :
    ∃ vs, variables h i = some vs ∧ evalPath vs ns k = some (.item v) := by
  induction hw with
  | nil i =>
    obtain ⟨nd, hnd, _⟩ := id hs
    obtain ⟨vs, h1, h2, _⟩ := C09_lookup hr (lt_of_get hnd)
    exact ⟨vs, h1, h2 k v hk hs⟩
  | @cons i n c ns j hc hw ih =>
    obtain ⟨vc, h1, h2⟩ := ih hs (by
      intro pre m post x he hx
      exact hfree (n :: pre) m post x (by simp [he]) (.cons hc hx))
    obtain ⟨⟨nd, hnd, _⟩, _⟩ := id hc
    obtain ⟨vs, h3, _, h4, _⟩ := C09_lookup hr (lt_of_get hnd)
    have hf := hfree [] n ns i rfl (.nil i)
    obtain ⟨vc', h5, h6⟩ := h4 n c
      (by rcases hf with h | h
          · exact .inl h.1
          · exact .inr h.2)
      (by rintro ⟨h7, h8⟩
          rcases hf with h | h
          · exact h.2 h8
          · exact h.1 h7) hc
    rw [h1] at h5; cases h5
    exact ⟨vs, h3, by simp [evalPath, h6, h2]⟩

example : Walk exampleHeap 0 [b "a"] 1 ∧ Stored exampleHeap 1 (b "k") 7 :=
  ⟨.cons (c := 1) ⟨⟨_, rfl, by decide⟩, _, rfl, rfl⟩ (.nil 1), _, rfl, rfl⟩

/-- `AddItem` stores exactly that item: it is readable under its key, every other key of
the node and every other node is unchanged. -/
theorem C09_addItem {h : Heap V} {i nd} (hnd : h[i]? = some nd) (k : Bytes) (v : V) :
    ∃ h' nd', addItem h i k v = some h' ∧ h'[i]? = some nd' ∧ Stored h' i k v ∧
      (∀ k' w, k' ≠ k → (Stored h' i k' w ↔ Stored h i k' w)) ∧
      nd'.name = nd.name ∧ nd'.up = nd.up ∧ nd'.downs = nd.downs ∧
      ∀ j, j ≠ i → h'[j]? = h[j]? := by
  have hlt := lt_of_get hnd
  have hg : (h.set i { nd with data := GoMap.set nd.data k v })[i]? =
      some { nd with data := GoMap.set nd.data k v } := by rw [get_set hlt, if_pos rfl]
  refine ⟨h.set i { nd with data := GoMap.set nd.data k v },
    { nd with data := GoMap.set nd.data k v }, by simp [addItem, hnd], hg,
    ⟨_, hg, Spec.get_set_same⟩, ?_, rfl, rfl, rfl, ?_⟩
  · intro k' w hk
    constructor
    · rintro ⟨nd', h1, h2⟩
      rw [hg] at h1; cases h1
      rw [Spec.get_set_ne (Ne.symm hk)] at h2
      exact ⟨nd, hnd, h2⟩
    · rintro ⟨nd', h1, h2⟩
      rw [hnd] at h1; cases h1
      exact ⟨_, hg, by simpa [Spec.get_set_ne (Ne.symm hk)] using h2⟩
  · intro j hj; rw [get_set hlt, if_neg hj]

example : exampleHeap[1]? = some { name := b "a", data := [(b "k", 7)], up := some 0, downs := [] } := rfl

/-- `DeleteItem` removes exactly the item of that key. -/
theorem C09_deleteItem {h : Heap V} {i nd} (hnd : h[i]? = some nd) (k : Bytes) :
    ∃ h' nd', deleteItem h i k = some h' ∧ h'[i]? = some nd' ∧ (∀ v, ¬ Stored h' i k v) ∧
      (∀ k' w, k' ≠ k → (Stored h' i k' w ↔ Stored h i k' w)) ∧
      nd'.name = nd.name ∧ nd'.up = nd.up ∧ nd'.downs = nd.downs ∧
      ∀ j, j ≠ i → h'[j]? = h[j]? := by
  have hlt := lt_of_get hnd
  have hg : (h.set i { nd with data := GoMap.del nd.data k })[i]? =
      some { nd with data := GoMap.del nd.data k } := by rw [get_set hlt, if_pos rfl]
  refine ⟨h.set i { nd with data := GoMap.del nd.data k },
    { nd with data := GoMap.del nd.data k }, by simp [deleteItem, hnd], hg, ?_, ?_, rfl, rfl, rfl, ?_⟩
  · rintro v ⟨nd', h1, h2⟩
    rw [hg] at h1; cases h1
    simp only [get_del] at h2
    simp at h2
  · intro k' w hk
    constructor
    · rintro ⟨nd', h1, h2⟩
      rw [hg] at h1; cases h1
      simp only [get_del, if_neg hk] at h2
      exact ⟨nd, hnd, h2⟩
    · rintro ⟨nd', h1, h2⟩
      rw [hnd] at h1; cases h1
      exact ⟨_, hg, by simpa only [get_del, if_neg hk] using h2⟩
  · intro j hj; rw [get_set hlt, if_neg hj]

/-- The reserved key: an item stored under `var` is never visible, whatever else the tree
contains. -/
theorem C09_reserved_invisible {h : Heap V} (hr : Reachable h) {i} (hlt : i < h.length) :
    ∃ vs, variables h i = some vs ∧ ∀ v, GoMap.get? vs VAR ≠ some (.item v) := by
  obtain ⟨nd, hnd⟩ := get_of_lt hlt
  obtain ⟨f, hf, hv⟩ := variablesN_spec hr.inv
  obtain ⟨base, _, h2, h3⟩ := hv i nd hnd
  refine ⟨f i, hf i hlt _ (by omega), fun v => ?_⟩
  rw [h3]
  split
  · simp
  · have h4 := h2 VAR (.inl rfl)
    by_cases hc : ∃ c, Child h i VAR c
    · obtain ⟨c, hc⟩ := hc
      rw [h4.1 c hc]; simp
    · rw [h4.2 (fun c hcc => hc ⟨c, hcc⟩)]; simp

example : ∃ h' : Heap Nat, addItem exampleHeap 0 VAR 5 = some h' ∧ Stored h' 0 VAR 5 :=
  ⟨_, rfl, _, rfl, rfl⟩

end Verif.Tree
