import Verif.Lemmas.SpecAccept
/-!
# Properties C01–C04: building specifications (`utils.NewValue`, `utils.NewStruct`)
-/
namespace Verif.Spec

/-! ## C01 -/

/-- C01: every shorthand form gives the same result as the long form with nil second
components. -/
theorem C01_shorthand :
    (∀ c, newValue (.str c) = newValue (.pair (.mk (.str c) .nil))) ∧
    (∀ l : List Bytes,
      newValue (.strs l) = newValue (.pairs (l.map fun c => .mk (.str c) .nil))) ∧
    (∀ m : List (Bytes × Bytes),
      newValue (.mapStr m) = newValue (.mapPair (m.map fun e => (e.1, .mk (.str e.2) .nil)))) ∧
    (∀ m : List ((Bytes × Bytes) × Bytes),
      newValue (.map2Str m) = newValue (.map2Pair (m.map fun e => (e.1, .mk (.str e.2) .nil)))) := by
  refine ⟨fun c => ?_, fun l => ?_, fun m => ?_, fun m => ?_⟩ <;>
    simp [newValue_eq (.str _), newValue_eq (.pair _), newValue_eq (.strs _),
      newValue_eq (.pairs _), newValue_eq (.mapStr _), newValue_eq (.mapPair _),
      newValue_eq (.map2Str _), newValue_eq (.map2Pair _), newValueStep]

/-- C01: the shorthands always succeed, with field-less classes: one, or a list in order,
or a map with the same keys. -/
theorem C01_shorthand_value :
    (∀ c, newValue (.str c) = .ok (.single (.mk c none))) ∧
    (∀ l : List Bytes, newValue (.strs l) = .ok (.list (l.map fun c => .mk c none))) ∧
    (∀ m : List (Bytes × Bytes),
      newValue (.mapStr m) = .ok (.map (m.map fun e => (e.1, .mk e.2 none)))) :=
  ⟨fun c => den_ok trivial (.str c), fun l => den_ok trivial (.strs l),
    fun m => den_ok trivial (.mapStr m)⟩

/-! ## C02 -/

/-- C02, acceptance: `NewValue` succeeds exactly on the documented notation (no side
condition). -/
theorem C02_accepts_iff (v : SVal) : (∃ r, newValue v = .ok r) ↔ ∃ r, DenVal v r :=
  accept_iff v

/-- C02, meaning: for specifications whose two-label maps have distinct first labels (in
particular for those without two-label maps), the result is exactly the denoted message. -/
theorem C02_result_iff (v : SVal) (hd : v.FirstLabelsDistinct) (r : Value) :
    newValue v = .ok r ↔ DenVal v r :=
  ⟨ok_den v r hd, den_ok hd⟩

/-- C02 for `NewStruct`: no map means no field map; a map gives the same field names with
their denoted values, and is accepted exactly when all names are UTF-8 and all values
are documented ones. -/
theorem C02_newStruct (name : Bytes) :
    NewStruct name none = .ok (.mk name none) ∧
    (∀ m, (∃ s, NewStruct name (some m) = .ok s) ↔
      ∀ e ∈ m, IsUtf8 e.1 ∧ ∃ r, DenVal e.2 r) ∧
    (∀ m, SVal.FirstLabelsDistinctF m → ∀ s, NewStruct name (some m) = .ok s ↔
      ∃ fs, DenFields m fs ∧ s = .mk name (some fs)) := by
  refine ⟨rfl, fun m => ?_, fun m hd s => ?_⟩
  · have h : (∃ s, NewStruct name (some m) = .ok s) ↔ ∃ fs, collectM (fieldEntry newValue) m = .ok fs := by
      simp only [NewStruct, newStruct]
      cases collectM (fieldEntry newValue) m <;> simp
    rw [h, collectM_ok_iff]
    apply forall_congr'; intro e
    apply imp_congr_right; intro _
    rw [fieldEntry_ok_iff, accept_iff]
  · simp only [NewStruct, newStruct]
    constructor
    · intro h
      split at h
      · cases h
      · rename_i fs hfs
        cases h
        exact ⟨fs, ok_denFields m fs hd hfs, rfl⟩
    · rintro ⟨fs, h, rfl⟩
      rw [denFields_ok hd h]

/-- A nested example: `{"Shape": ["circle", {"Sub": ["a","b"]}]}` is in the grammar and
satisfies the side condition. -/
example : (SVal.pair (.mk (.str (b "geo")) (.hash
      [(b "Shape", .pair (.mk (.str (b "circle")) (.hash [(b "Sub", .strs [b "a", b "b"])]))),
       (b "M", .map2Str [((b "x", b "y"), b "c")])]))).FirstLabelsDistinct := by
  simp [SVal.FirstLabelsDistinct, SPair.FirstLabelsDistinct, SVal.FirstLabelsDistinctF]

example : newValue (.pair (.mk (.str (b "geo")) (.hash
      [(b "Shape", .pair (.mk (.str (b "circle")) (.hash [(b "Sub", .strs [b "a", b "b"])])))])))
    = .ok (.single (.mk (b "geo") (some
      [(b "Shape", .single (.mk (b "circle") (some
        [(b "Sub", .list [.mk (b "a") none, .mk (b "b") none])])))]))) := by rfl

example : newValue (.pair (.mk (.str (b "geo")) (.hash [(b "Shape", .other (b "int"))])))
    = .error .invalidType := by rfl

/-! ## C03 -/

/-- C03, the full statement: every entry of a two-label map specification is kept. -/
def KeepsEveryEntry : Prop :=
  ∀ (m : List ((Bytes × Bytes) × Bytes)) (ms : List (Bytes × List (Bytes × Struct))),
    (m.map Prod.fst).Nodup → newValue (.map2Str m) = .ok (.map2 ms) →
    ∀ e ∈ m, lookup2 ms e.1.1 e.1.2 = some (.mk e.2 none)

/-- C03 is FALSE for the code: of two entries sharing the first label one is lost. -/
theorem C03_entry_lost : ¬ KeepsEveryEntry := by
  intro h
  have := h [((b "a", b "x"), b "c"), ((b "a", b "y"), b "d")]
    [(b "a", [(b "y", .mk (b "d") none)])] (by decide) rfl
    ((b "a", b "x"), b "c") (by simp)
  simp only [lookup2] at this
  have h2 : ((GoMap.get? [(b "a", [(b "y", Struct.mk (b "d") none)])] (b "a")).bind
    fun inner => GoMap.get? inner (b "x")) = none := by rfl
  rw [h2] at this
  cases this

/-- C03, exactly what survives: looking up `(k₁, k₂)` finds `s` iff the last entry (in
iteration order) among those with first label `k₁` is the one for `(k₁, k₂)`, and its
class denotes `s`. -/
theorem C03_survives_iff_last (m : List ((Bytes × Bytes) × SPair))
    (ms : List (Bytes × List (Bytes × Struct)))
    (h : newValue (.map2Pair m) = .ok (.map2 ms)) (k₁ k₂ : Bytes) (s : Struct) :
    lookup2 ms k₁ k₂ = some s ↔
      ∃ p, (m.filter fun e => e.1.1 = k₁).getLast? = some ((k₁, k₂), p) ∧
        newValue (.pair p) = .ok (.single s) := by
  rw [newValue_eq] at h
  obtain ⟨a, h1, h2⟩ := map_ok h
  cases h2
  have hg := newMap2_get m [] ms h1 k₁
  have hp : ∀ p, newValue (.pair p) = .ok (.single s) ↔ newSingleStruct newValue p = .ok s := by
    intro p
    rw [newValue_eq]; simp only [newValueStep]
    cases newSingleStruct newValue p <;> simp [Except.map]
  simp only [hp]
  unfold lookup2
  rw [hg]
  cases hl : (m.filter fun e => e.1.1 = k₁).getLast? with
  | none => simp [GoMap.get?]
  | some e =>
    obtain ⟨⟨a, c⟩, p⟩ := e
    have ha : a = k₁ := by
      have := List.mem_of_getLast? hl
      simpa using (List.mem_filter.mp this).2
    subst ha
    simp only [Option.some.injEq, Prod.mk.injEq, true_and]
    cases hs : newSingleStruct newValue p with
    | error er =>
      simp only [Option.bind_none]
      constructor
      · intro h; cases h
      · rintro ⟨p', ⟨rfl, rfl⟩, h⟩; rw [hs] at h; cases h
    | ok s' =>
      simp only [Option.bind_some, GoMap.get?]
      by_cases hc : c = k₂
      · subst hc
        simp only [if_pos, Option.some.injEq]
        constructor
        · rintro rfl; exact ⟨p, ⟨trivial, rfl⟩, hs⟩
        · rintro ⟨p', ⟨_, rfl⟩, h⟩; rw [hs] at h; cases h; rfl
      · simp only [if_neg hc]
        constructor
        · intro h; cases h
        · rintro ⟨p', ⟨rfl, _⟩, h⟩; exact absurd rfl hc

/-- C03 for two-label maps with pairwise distinct first labels: every entry is kept.
Missing for the full claim: entries sharing their first label (`C03_entry_lost`). -/
theorem C03_keeps_every_entry_partial (m : List ((Bytes × Bytes) × SPair))
    (hm : (m.map fun e => e.1.1).Nodup) (ms : List (Bytes × List (Bytes × Struct)))
    (h : newValue (.map2Pair m) = .ok (.map2 ms)) :
    ∀ e ∈ m, ∃ s, newValue (.pair e.2) = .ok (.single s) ∧ lookup2 ms e.1.1 e.1.2 = some s := by
  intro e he
  have hacc := (newMap2_ok_iff (f := newValue) (m := m) []).mp
    (by rw [newValue_eq] at h
        obtain ⟨a, h1, _⟩ := map_ok h
        exact ⟨a, h1⟩) e he
  obtain ⟨s, hs⟩ := hacc
  have hp : newValue (.pair e.2) = .ok (.single s) := by
    rw [newValue_eq]; simp [newValueStep, hs, Except.map]
  refine ⟨s, hp, ?_⟩
  rw [C03_survives_iff_last m ms h]
  refine ⟨e.2, ?_, hp⟩
  obtain ⟨l1, l2, rfl⟩ := List.append_of_mem he
  rw [List.map_append, List.map_cons, List.nodup_append] at hm
  have e1 : l1.filter (fun x => x.1.1 = e.1.1) = [] := by
    rw [List.filter_eq_nil_iff]
    intro x hx hxe
    exact hm.2.2 x.1.1 (List.mem_map.mpr ⟨x, hx, rfl⟩) e.1.1 (by simp) (by simpa using hxe)
  have e2 : l2.filter (fun x => x.1.1 = e.1.1) = [] := by
    rw [List.filter_eq_nil_iff]
    intro x hx hxe
    have := (List.nodup_cons.mp hm.2.1).1
    exact this (List.mem_map.mpr ⟨x, hx, by simpa using hxe⟩)
  rw [List.filter_append, List.filter_cons, e1, e2]
  simp

example : ([((b "a", b "x"), SPair.mk (.str (b "c")) .nil),
    ((b "b", b "x"), .mk (.str (b "d")) .nil)].map fun e => e.1.1).Nodup := by decide

/-! ## C04 -/

/-- C04, the full statement: the message does not depend on map iteration order. -/
def OrderIndependent : Prop :=
  ∀ v v' r, SVal.Same v v' → newValue v = .ok r → ∃ r', newValue v' = .ok r' ∧ Value.Same r r'

theorem sameM2_keys {m m'} (h : Struct.SameM2 m m') :
    ∀ k k2 s, (k, [(k2, s)]) ∈ m → ∃ inner, (k, inner) ∈ m' ∧ Struct.SameM [(k2, s)] inner := by
  match h with
  | .nil => intro k k2 s hm; simp at hm
  | .cons k0 hp hl =>
    intro k k2 s hm
    rcases List.mem_cons.mp hm with hm | hm
    · cases hm; exact ⟨_, by simp, hp⟩
    · obtain ⟨i, h1, h2⟩ := sameM2_keys hl k k2 s hm
      exact ⟨i, by simp [h1], h2⟩
  | .perm h1 h2 =>
    intro k k2 s hm
    obtain ⟨i, h3, h4⟩ := sameM2_keys h1 k k2 s hm
    exact ⟨i, h2.mem_iff.mp h3, h4⟩

theorem sameM_fst {m m'} (h : Struct.SameM m m') : (m.map Prod.fst).Perm (m'.map Prod.fst) := by
  match h with
  | .nil => exact .refl _
  | .cons k _ hl => simpa using sameM_fst hl
  | .perm h1 h2 => exact (sameM_fst h1).trans (h2.map _)

/-- C04 is FALSE for the code: reordering a two-label map changes the message. -/
theorem C04_order_matters : ¬ OrderIndependent := by
  intro h
  have hs : SVal.Same (.map2Str [((b "a", b "x"), b "c"), ((b "a", b "y"), b "d")])
      (.map2Str [((b "a", b "y"), b "d"), ((b "a", b "x"), b "c")]) :=
    .map2Str (.swap _ _ _)
  obtain ⟨r', h1, h2⟩ := h _ _ (.map2 [(b "a", [(b "y", .mk (b "d") none)])]) hs rfl
  have h3 : newValue (.map2Str [((b "a", b "y"), b "d"), ((b "a", b "x"), b "c")])
      = .ok (.map2 [(b "a", [(b "x", .mk (b "c") none)])]) := rfl
  rw [h3] at h1
  cases h1
  cases h2 with
  | map2 h2 =>
    obtain ⟨i, h4, h5⟩ := sameM2_keys h2 (b "a") (b "y") (.mk (b "d") none) (by simp)
    simp at h4
    subst h4
    have := (sameM_fst h5)
    have := this.mem_iff (a := b "y")
    simp [b] at this
    exact absurd this (by decide)

/-- C04, acceptance: whether `NewValue` succeeds never depends on iteration order. -/
theorem C04_acceptance_order_independent (v v' : SVal) (hs : SVal.Same v v') :
    (∃ r, newValue v = .ok r) → ∃ r', newValue v' = .ok r' := by
  rw [accept_iff, accept_iff]
  rintro ⟨r, h⟩
  obtain ⟨r', h1, _⟩ := same_den hs h
  exact ⟨r', h1⟩

/-- C04 when the two-label maps have distinct first labels at every depth (so in
particular without two-label maps): the message is the same up to map order.
Missing for the full claim: two-label maps with shared first labels
(`C04_order_matters`). -/
theorem C04_order_independent_partial (v v' : SVal) (hs : SVal.Same v v')
    (hd : v.FirstLabelsDistinct) (r : Value) (h : newValue v = .ok r) :
    ∃ r', newValue v' = .ok r' ∧ Value.Same r r' := by
  obtain ⟨r', h1, h2⟩ := same_den hs (ok_den v r hd h)
  exact ⟨r', den_ok (same_fld hs hd) h1, h2⟩

/-- A non-trivial pair meeting the hypotheses: two orders of a two-entry map. -/
example : SVal.Same (.mapStr [(b "a", b "c"), (b "x", b "d")])
    (.mapStr [(b "x", b "d"), (b "a", b "c")]) := .mapStr (.swap _ _ _)

end Verif.Spec
