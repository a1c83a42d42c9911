import Verif.Spec.Tree
import Verif.Lemmas.SpecAccept
/-! Lemmas about the sequential tree model. -/
set_option linter.unusedSimpArgs false
namespace Verif.Tree
variable {V : Type}

theorem named_iff {h : Heap V} {c n} : Named h c n ↔ nameOf h c = some n := by
  simp [Named, nameOf]

theorem Inv.valid {h : Heap V} (hi : Inv h) {i : Nat} {nd : Node V} (h1 : h[i]? = some nd) {d}
    (hd : d ∈ nd.downs) : ∃ nd', h[d]? = some nd' := by
  obtain ⟨_, nd', h2, _⟩ := hi.down i nd h1 d hd
  exact ⟨nd', h2⟩

theorem grep_total {h : Heap V} {ds : List Nat} {n}
    (hv : ∀ d ∈ ds, ∃ nd, h[d]? = some nd) :
    ∃ r, grep h ds n = some r ∧
      (∀ c, r = some c → c ∈ ds ∧ Named h c n) ∧
      (r = none → ∀ d ∈ ds, ¬ Named h d n) := by
  induction ds with
  | nil => exact ⟨none, rfl, by simp, by simp⟩
  | cons d ds ih =>
    obtain ⟨nd, hnd⟩ := hv d (by simp)
    obtain ⟨r, h1, h2, h3⟩ := ih (fun x hx => hv x (by simp [hx]))
    simp only [grep, hnd]
    by_cases hn : nd.name = n
    · rw [if_pos hn]
      refine ⟨some d, rfl, ?_, by simp⟩
      rintro c hc
      cases hc
      exact ⟨by simp, nd, hnd, hn⟩
    · rw [if_neg hn]
      refine ⟨r, h1, ?_, ?_⟩
      · intro c hc; obtain ⟨h4, h5⟩ := h2 c hc; exact ⟨by simp [h4], h5⟩
      · intro hr x hx
        rcases List.mem_cons.mp hx with hx | hx
        · subst hx
          rintro ⟨nd', h4, h5⟩
          rw [hnd] at h4; cases h4; exact hn h5
        · exact h3 hr x hx

theorem nodup_map_inj {α β : Type} {f : α → β} {l : List α} (h : (l.map f).Nodup) {x y}
    (hx : x ∈ l) (hy : y ∈ l) (he : f x = f y) : x = y := by
  induction l with
  | nil => simp at hx
  | cons a l ih =>
    simp only [List.map_cons, List.nodup_cons] at h
    rcases List.mem_cons.mp hx with h1 | h1 <;> rcases List.mem_cons.mp hy with h2 | h2
    · rw [h1, h2]
    · subst h1; exact absurd (List.mem_map.mpr ⟨y, h2, he.symm⟩) h.1
    · subst h2; exact absurd (List.mem_map.mpr ⟨x, h1, he⟩) h.1
    · exact ih h.2 h1 h2

theorem Inv.child_unique {h : Heap V} (hi : Inv h) {i n c c'} (h1 : Child h i n c)
    (h2 : Child h i n c') : c = c' := by
  obtain ⟨⟨nd, ha, hb⟩, hc⟩ := h1
  obtain ⟨⟨nd', hd, he⟩, hf⟩ := h2
  rw [ha] at hd; cases hd
  exact nodup_map_inj (hi.names i nd ha) hb he
    (by rw [named_iff.mp hc, named_iff.mp hf])

/-- `grep` on the children of a node finds the child of that name. -/
theorem Inv.grep_iff {h : Heap V} (hi : Inv h) {i nd} (hnd : h[i]? = some nd) (n) :
    ∃ r, grep h nd.downs n = some r ∧ ∀ c, r = some c ↔ Child h i n c := by
  obtain ⟨r, h1, h2, h3⟩ := grep_total (h := h) (ds := nd.downs) (n := n)
    (fun d hd => hi.valid hnd hd)
  refine ⟨r, h1, fun c => ⟨fun hc => ?_, fun hc => ?_⟩⟩
  · obtain ⟨h4, h5⟩ := h2 c hc
    exact ⟨⟨nd, hnd, h4⟩, h5⟩
  · cases r with
    | none =>
      obtain ⟨⟨nd', h4, h5⟩, h6⟩ := hc
      rw [hnd] at h4; cases h4
      exact absurd h6 (h3 rfl c h5)
    | some c' =>
      obtain ⟨h4, h5⟩ := h2 c' rfl
      rw [hi.child_unique ⟨⟨nd, hnd, h4⟩, h5⟩ hc]

theorem lt_of_get {h : Heap V} {i nd} (hnd : h[i]? = some nd) : i < h.length := by
  rcases Nat.lt_or_ge i h.length with h1 | h1
  · exact h1
  · rw [List.getElem?_eq_none h1] at hnd; cases hnd

theorem get_of_lt {h : Heap V} {i} (hlt : i < h.length) : ∃ nd, h[i]? = some nd :=
  ⟨h[i], List.getElem?_eq_getElem hlt⟩

/-- The result of `AddNode` in closed form. -/
theorem addNode_cases {h : Heap V} (hi : Inv h) {i nd} (hnd : h[i]? = some nd) (n : Bytes) :
    (∃ c, Child h i n c ∧ addNode h i n = some (h, c)) ∨
    ((∀ c, ¬ Child h i n c) ∧
      addNode h i n = some
        (h.set i { nd with downs := nd.downs ++ [h.length] } ++
          [{ name := n, data := [], up := some i, downs := [] }], h.length)) := by
  obtain ⟨r, h1, h2⟩ := hi.grep_iff hnd n
  have hlt := lt_of_get hnd
  cases r with
  | some c =>
    left
    exact ⟨c, (h2 c).mp rfl, by simp [addNode, hnd, h1]⟩
  | none =>
    right
    refine ⟨fun c hc => (by have := (h2 c).mpr hc; cases this), ?_⟩
    simp only [addNode, hnd, h1, newTree]
    rw [List.set_append, if_pos hlt, List.set_append]
    simp

section facts
variable {h : Heap V}

theorem get_set_append {i j : Nat} {x y : Node V} (hlt : i < h.length) :
    (h.set i x ++ [y])[j]? =
      if j = h.length then some y else if j = i then some x else h[j]? := by
  by_cases h1 : j = h.length
  · subst h1; simp
  · rw [if_neg h1]
    by_cases h2 : j < h.length
    · rw [List.getElem?_append_left (by simpa using h2), List.getElem?_set]
      by_cases h3 : j = i
      · subst h3; simp [hlt]
      · rw [if_neg (fun hh => h3 hh.symm), if_neg h3]
    · have h3 : j ≠ i := by omega
      rw [if_neg h3, List.getElem?_eq_none (by simp; omega), List.getElem?_eq_none (by omega)]

theorem get_set {i j : Nat} {x : Node V} (hlt : i < h.length) :
    (h.set i x)[j]? = if j = i then some x else h[j]? := by
  rw [List.getElem?_set]
  by_cases h3 : j = i
  · subst h3; simp [hlt]
  · rw [if_neg (fun hh => h3 hh.symm), if_neg h3]
end facts

/-- An update of one node that keeps name and Up, shrinks the children (keeping order)
and keeps data keys distinct preserves the invariant. -/
theorem Inv.set {h : Heap V} (hi : Inv h) {i nd nd'} (hnd : h[i]? = some nd)
    (hname : nd'.name = nd.name) (hup : nd'.up = nd.up) (hd : nd'.downs.Sublist nd.downs)
    (hdata : (nd'.data.map Prod.fst).Nodup) : Inv (h.set i nd') := by
  have hlt := lt_of_get hnd
  have hnm : ∀ d, nameOf (h.set i nd') d = nameOf h d := by
    intro d
    simp only [nameOf, get_set hlt]
    split
    · subst_vars; simp [hnd, hname]
    · rfl
  constructor
  · intro j nj hj d hdj
    rw [get_set hlt] at hj
    have key : ∀ nj', h[j]? = some nj' → d ∈ nj'.downs →
        j < d ∧ ∃ nd'', (h.set i nd')[d]? = some nd'' ∧ nd''.up = some j := by
      intro nj' h1 h2
      obtain ⟨h3, n2, h4, h5⟩ := hi.down j nj' h1 d h2
      refine ⟨h3, ?_⟩
      rw [get_set hlt]
      by_cases hdi : d = i
      · subst hdi
        rw [hnd] at h4; cases h4
        exact ⟨nd', by simp, by rw [hup]; exact h5⟩
      · rw [if_neg hdi]; exact ⟨n2, h4, h5⟩
    split at hj
    · subst_vars; cases hj; exact key nd hnd (hd.subset hdj)
    · exact key nj hj hdj
  · intro j nj hj
    rw [get_set hlt] at hj
    rw [List.map_congr_left (fun d _ => hnm d)]
    split at hj
    · subst_vars; cases hj
      exact (hi.names _ nd hnd).sublist (hd.map _)
    · exact hi.names j nj hj
  · intro j nj hj
    rw [get_set hlt] at hj
    split at hj
    · cases hj; exact hdata
    · exact hi.dataNodup j nj hj

theorem Inv.addNode {h : Heap V} (hi : Inv h) {i nd} (hnd : h[i]? = some nd) (n : Bytes) :
    ∃ h' c, addNode h i n = some (h', c) ∧ Inv h' ∧ Child h' i n c ∧ h.length ≤ h'.length := by
  rcases addNode_cases hi hnd n with ⟨c, h1, h2⟩ | ⟨h1, h2⟩
  · exact ⟨h, c, h2, hi, h1, Nat.le_refl _⟩
  · refine ⟨_, _, h2, ?_, ?_, by simp⟩
    · have hlt := lt_of_get hnd
      have hnm : ∀ d, d < h.length → nameOf (h.set i { nd with downs := nd.downs ++ [h.length] } ++
          [{ name := n, data := [], up := some i, downs := [] }]) d = nameOf h d := by
        intro d hd
        simp only [nameOf, get_set_append hlt]
        rw [if_neg (by omega)]
        split
        · subst_vars; simp [hnd]
        · rfl
      constructor
      · intro j nj hj d hdj
        rw [get_set_append hlt] at hj
        have key : ∀ nj', h[j]? = some nj' → d ∈ nj'.downs →
            j < d ∧ ∃ nd'', (h.set i { nd with downs := nd.downs ++ [h.length] } ++
          [{ name := n, data := [], up := some i, downs := [] }])[d]? = some nd'' ∧ nd''.up = some j := by
          intro nj' h3 h4
          obtain ⟨h5, n2, h6, h7⟩ := hi.down j nj' h3 d h4
          refine ⟨h5, ?_⟩
          have := lt_of_get h6
          rw [get_set_append hlt, if_neg (by omega)]
          split
          · subst_vars; rw [hnd] at h6; cases h6; exact ⟨_, rfl, h7⟩
          · exact ⟨n2, h6, h7⟩
        split at hj
        · cases hj; simp at hdj
        · split at hj
          · subst_vars; cases hj
            simp only [List.mem_append, List.mem_singleton] at hdj
            rcases hdj with hdj | hdj
            · exact key nd hnd hdj
            · subst hdj
              refine ⟨hlt, ?_⟩
              rw [get_set_append hlt, if_pos rfl]
              exact ⟨_, rfl, rfl⟩
          · exact key nj hj hdj
      · intro j nj hj
        rw [get_set_append hlt] at hj
        have hmap : ∀ nj', h[j]? = some nj' → nj'.downs.map (nameOf (h.set i
            { nd with downs := nd.downs ++ [h.length] } ++
          [{ name := n, data := [], up := some i, downs := [] }])) = nj'.downs.map (nameOf h) := by
          intro nj' h3
          apply List.map_congr_left
          intro d hd
          apply hnm
          obtain ⟨_, n2, h6, _⟩ := hi.down j nj' h3 d hd
          exact lt_of_get h6
        split at hj
        · cases hj; simp
        · split at hj
          · subst_vars; cases hj
            simp only [List.map_append, List.map_cons, List.map_nil]
            rw [hmap nd hnd, List.nodup_append]
            refine ⟨hi.names _ nd hnd, by simp, ?_⟩
            intro x hx y hy
            simp only [List.mem_singleton] at hy
            obtain ⟨d, hd, rfl⟩ := List.mem_map.mp hx
            subst hy
            simp only [nameOf, get_set_append hlt]
            intro he
            rw [if_pos trivial] at he
            have hc : Named h d n := named_iff.mpr (by simpa [nameOf] using he)
            exact h1 d ⟨⟨nd, hnd, hd⟩, hc⟩
          · rw [hmap nj hj]; exact hi.names j nj hj
      · intro j nj hj
        rw [get_set_append hlt] at hj
        split at hj
        · cases hj; simp
        · split at hj
          · subst_vars; cases hj; exact hi.dataNodup _ nd hnd
          · exact hi.dataNodup j nj hj
    · have hlt := lt_of_get hnd
      refine ⟨⟨_, by rw [get_set_append hlt, if_neg (by omega), if_pos rfl], by simp⟩, ?_⟩
      exact ⟨_, by rw [get_set_append hlt, if_pos rfl], rfl⟩

theorem removeFirst_spec {h : Heap V} {ds : List Nat} {n}
    (hv : ∀ d ∈ ds, ∃ nd, h[d]? = some nd) :
    ∃ r, removeFirst h ds n = some r ∧
      ((∀ d ∈ ds, ¬ Named h d n) ∧ r = ds ∨
       ∃ l1 c l2, ds = l1 ++ c :: l2 ∧ Named h c n ∧ (∀ d ∈ l1, ¬ Named h d n) ∧ r = l1 ++ l2) := by
  induction ds with
  | nil => exact ⟨[], rfl, .inl ⟨by simp, rfl⟩⟩
  | cons d ds ih =>
    obtain ⟨nd, hnd⟩ := hv d (by simp)
    obtain ⟨r, h1, h2⟩ := ih (fun x hx => hv x (by simp [hx]))
    simp only [removeFirst, hnd, h1]
    by_cases hn : nd.name = n
    · rw [if_pos hn]
      exact ⟨ds, rfl, .inr ⟨[], d, ds, rfl, ⟨nd, hnd, hn⟩, by simp, rfl⟩⟩
    · rw [if_neg hn]
      have hdn : ¬ Named h d n := by
        rintro ⟨nd', h4, h5⟩; rw [hnd] at h4; cases h4; exact hn h5
      refine ⟨d :: r, rfl, ?_⟩
      rcases h2 with ⟨h3, rfl⟩ | ⟨l1, c, l2, rfl, h4, h5, rfl⟩
      · exact .inl ⟨by simpa using ⟨hdn, h3⟩, rfl⟩
      · exact .inr ⟨d :: l1, c, l2, rfl, h4, by simpa using ⟨hdn, h5⟩, rfl⟩

/-- The result of `DeleteNode` in closed form: the child of that name is filtered out. -/
theorem deleteNode_eq {h : Heap V} (hi : Inv h) {i nd} (hnd : h[i]? = some nd) (n : Bytes) :
    deleteNode h i n = some (h.set i { nd with
      downs := nd.downs.filter fun d => nameOf h d ≠ some n }) := by
  obtain ⟨r, h1, h2⟩ := removeFirst_spec (h := h) (ds := nd.downs) (n := n)
    (fun d hd => hi.valid hnd hd)
  simp only [deleteNode, hnd, h1, Option.some.injEq]
  congr 2
  rcases h2 with ⟨h3, rfl⟩ | ⟨l1, c, l2, h3, h4, h5, rfl⟩
  · symm; rw [List.filter_eq_self]
    intro d hd
    have := h3 d hd
    rw [named_iff] at this
    simpa using this
  · rw [h3, List.filter_append, List.filter_cons]
    have hc : nameOf h c = some n := named_iff.mp h4
    have hnd' := hi.names i nd hnd
    rw [h3, List.map_append, List.map_cons, List.nodup_append, List.nodup_cons] at hnd'
    have e1 : l1.filter (fun d => decide (nameOf h d ≠ some n)) = l1 := by
      rw [List.filter_eq_self]
      intro d hd
      have := h5 d hd
      rw [named_iff] at this; simpa using this
    have e2 : l2.filter (fun d => decide (nameOf h d ≠ some n)) = l2 := by
      rw [List.filter_eq_self]
      intro d hd
      simp only [decide_eq_true_eq]
      intro hd2
      exact hnd'.2.1.1 (List.mem_map.mpr ⟨d, hd, by rw [hd2, hc]⟩)
    rw [e1, e2]; simp [hc]

theorem nodup_set {α : Type} {m : List (Bytes × α)} {k v} (hm : (m.map Prod.fst).Nodup) :
    ((GoMap.set m k v).map Prod.fst).Nodup := by
  have key : ∀ (m : List (Bytes × α)), ∀ x, x ∈ (GoMap.set m k v).map Prod.fst → x = k ∨ x ∈ m.map Prod.fst := by
    intro m
    induction m with
    | nil => intro x; simp [GoMap.set]
    | cons e m ih =>
      intro x hx
      simp only [GoMap.set] at hx
      split at hx
      · simp at hx ⊢; rcases hx with hx | hx
        · exact .inl hx
        · exact .inr (.inr hx)
      · simp only [List.map_cons, List.mem_cons] at hx ⊢
        rcases hx with hx | hx
        · exact .inr (.inl hx)
        · rcases ih x hx with h1 | h1
          · exact .inl h1
          · exact .inr (.inr h1)
  induction m with
  | nil => simp [GoMap.set]
  | cons e m ih =>
    simp only [List.map_cons, List.nodup_cons] at hm
    simp only [GoMap.set]
    split
    · rename_i he
      simp only [List.map_cons, List.nodup_cons]
      exact ⟨by rw [← he]; exact hm.1, hm.2⟩
    · rename_i he
      simp only [List.map_cons, List.nodup_cons]
      refine ⟨fun hx => ?_, ih hm.2⟩
      rcases key m _ hx with h1 | h1
      · exact he h1
      · exact hm.1 h1

theorem Inv.nil : Inv ([] : Heap V) := by
  constructor <;> intro i nd h <;> simp at h

theorem Inv.newTree {h : Heap V} (hi : Inv h) (n) : Inv (Tree.newTree h n).1 := by
  have hg : ∀ j, ((Tree.newTree h n).1)[j]? =
      if j = h.length then some { name := n, data := [], up := none, downs := [] } else h[j]? := by
    intro j
    simp only [Tree.newTree]
    by_cases h1 : j = h.length
    · subst h1; simp
    · rw [if_neg h1]
      by_cases h2 : j < h.length
      · rw [List.getElem?_append_left h2]
      · rw [List.getElem?_eq_none (by simp; omega), List.getElem?_eq_none (by omega)]
  constructor
  · intro j nj hj d hd
    rw [hg] at hj
    split at hj
    · cases hj; simp at hd
    · obtain ⟨h1, n2, h3, h4⟩ := hi.down j nj hj d hd
      refine ⟨h1, n2, ?_, h4⟩
      rw [hg, if_neg (by have := lt_of_get h3; omega)]; exact h3
  · intro j nj hj
    rw [hg] at hj
    split at hj
    · cases hj; simp
    · rw [List.map_congr_left (g := nameOf h)]
      · exact hi.names j nj hj
      · intro d hd
        obtain ⟨_, n2, h3, _⟩ := hi.down j nj hj d hd
        simp only [nameOf]
        rw [hg, if_neg (by have := lt_of_get h3; omega)]
  · intro j nj hj
    rw [hg] at hj
    split at hj
    · cases hj; simp
    · exact hi.dataNodup j nj hj

theorem Inv.addNodesLoop {h : Heap V} (hi : Inv h) (ns : List Bytes) :
    ∀ {i}, i < h.length → ∃ h' c, addNodesLoop h i ns = some (h', c) ∧ Inv h' ∧
      h.length ≤ h'.length := by
  induction ns generalizing h with
  | nil => intro i _; exact ⟨h, i, rfl, hi, Nat.le_refl _⟩
  | cons n ns ih =>
    intro i hlt
    obtain ⟨nd, hnd⟩ := get_of_lt hlt
    obtain ⟨h1, c, h2, h3, h4, h5⟩ := hi.addNode hnd n
    obtain ⟨ndc, hc, _⟩ := h4.2
    obtain ⟨h6, c6, h7, h8, h9⟩ := ih h3 (lt_of_get hc)
    exact ⟨h6, c6, by simp [Tree.addNodesLoop, h2, h7], h8, by omega⟩

theorem Inv.addNodes {h : Heap V} (hi : Inv h) (t) (ns : List Bytes) {i} (hlt : i < h.length) :
    ∃ h' c, Tree.addNodes h i t ns = some (h', c) ∧ Inv h' ∧ h.length ≤ h'.length := by
  obtain ⟨h', c, h1, h2, h3⟩ := hi.addNodesLoop (t :: ns) hlt
  refine ⟨h', c, ?_, h2, h3⟩
  simpa [Tree.addNodesLoop, Tree.addNodes] using h1

/-- A handle argument of an operation refers to an existing node. -/
def Op.Valid (h : Heap V) : Op V → Prop
  | .newTree _ => True
  | .addNode s _ => s < h.length
  | .addNodes s _ _ => s < h.length
  | .deleteNode s _ => s < h.length
  | .addItem s _ _ => s < h.length
  | .deleteItem s _ => s < h.length

theorem Inv.run {h : Heap V} (hi : Inv h) {o : Op V} (ho : o.Valid h) :
    ∃ h', o.run h = some h' ∧ Inv h' ∧ h.length ≤ h'.length := by
  cases o with
  | newTree n => exact ⟨_, rfl, hi.newTree n, by simp [Tree.newTree]⟩
  | addNode s n =>
    obtain ⟨nd, hnd⟩ := get_of_lt ho
    obtain ⟨h1, c, h2, h3, h4, h5⟩ := hi.addNode hnd n
    exact ⟨h1, by simp [Op.run, h2], h3, h5⟩
  | addNodes s t ns =>
    obtain ⟨h1, c, h2, h3, h4⟩ := hi.addNodes t ns ho
    exact ⟨h1, by simp [Op.run, h2], h3, h4⟩
  | deleteNode s n =>
    obtain ⟨nd, hnd⟩ := get_of_lt ho
    refine ⟨_, deleteNode_eq hi hnd n, ?_, by simp⟩
    exact hi.set hnd rfl rfl List.filter_sublist (hi.dataNodup s nd hnd)
  | addItem s k v =>
    obtain ⟨nd, hnd⟩ := get_of_lt ho
    refine ⟨_, by simp [Op.run, addItem, hnd]; rfl, ?_, by simp⟩
    exact hi.set hnd rfl rfl (List.Sublist.refl _) (nodup_set (hi.dataNodup s nd hnd))
  | deleteItem s k =>
    obtain ⟨nd, hnd⟩ := get_of_lt ho
    refine ⟨_, by simp [Op.run, deleteItem, hnd]; rfl, ?_, by simp⟩
    refine hi.set hnd rfl rfl (List.Sublist.refl _) ?_
    exact (hi.dataNodup s nd hnd).sublist (List.filter_sublist.map _)

theorem Op.valid_of_run {h h' : Heap V} {o : Op V} (hr : o.run h = some h') : o.Valid h := by
  cases o with
  | newTree n => trivial
  | addNode s n =>
    simp only [Op.run, Tree.addNode] at hr
    cases hs : h[s]? with
    | none => simp [hs] at hr
    | some nd => exact lt_of_get hs
  | addNodes s t ns =>
    simp only [Op.run, Tree.addNodes, Tree.addNode] at hr
    cases hs : h[s]? with
    | none => simp [hs] at hr
    | some nd => exact lt_of_get hs
  | deleteNode s n =>
    simp only [Op.run, Tree.deleteNode] at hr
    cases hs : h[s]? with
    | none => simp [hs] at hr
    | some nd => exact lt_of_get hs
  | addItem s k v =>
    simp only [Op.run, Tree.addItem] at hr
    cases hs : h[s]? with
    | none => simp [hs] at hr
    | some nd => exact lt_of_get hs
  | deleteItem s k =>
    simp only [Op.run, Tree.deleteItem] at hr
    cases hs : h[s]? with
    | none => simp [hs] at hr
    | some nd => exact lt_of_get hs

theorem Inv.runAll {h : Heap V} (hi : Inv h) (ops : List (Op V)) :
    ∀ {h'}, runAll h ops = some h' → Inv h' := by
  induction ops generalizing h with
  | nil => intro h' hr; cases hr; exact hi
  | cons o os ih =>
    intro h' hr
    simp only [Tree.runAll] at hr
    cases ho : o.run h with
    | none => simp [ho] at hr
    | some h1 =>
      simp only [ho] at hr
      obtain ⟨h2, h3, h4, _⟩ := hi.run (Op.valid_of_run ho)
      rw [ho] at h3; cases h3
      exact ih h4 hr

theorem Reachable.inv {h : Heap V} (hr : Reachable h) : Inv h := by
  obtain ⟨ops, h1⟩ := hr
  exact Inv.nil.runAll ops h1

end Verif.Tree
