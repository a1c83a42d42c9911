import Verif.Lemmas.Det
set_option linter.unusedSimpArgs false
/-! The raw field values in terms of the document. -/
namespace Verif.Det

theorem rawFold_msg {ext f} (vs : List J) {d : Doc} {r : Raw}
    (h : vs.foldlM (rawSet ext f) (.msg d) = some r) : r = .msg (vs.getLast? <|> d) := by
  induction vs generalizing d with
  | nil => simp only [List.foldlM_nil, Option.pure_def, Option.some.injEq] at h; simp [← h]
  | cons j vs ih =>
    simp only [List.foldlM_cons, rawSet, Option.bind_eq_bind, Option.bind_some] at h
    rw [ih h, List.getLast?_cons]
    cases vs.getLast? <;> simp

/-- What the last value gives to a list of raw messages. -/
def listOf (l0 : List J) : Option J → List J
  | none => l0
  | some (.arr l) => l
  | some _ => []

theorem rawFold_list {ext f} (vs : List J) {l0 : List J} {r : Raw}
    (h : vs.foldlM (rawSet ext f) (.list l0) = some r) : r = .list (listOf l0 vs.getLast?) := by
  induction vs generalizing l0 with
  | nil => simp only [List.foldlM_nil, Option.pure_def, Option.some.injEq] at h; simp [← h, listOf]
  | cons j vs ih =>
    simp only [List.foldlM_cons, Option.bind_eq_bind, Option.bind_eq_some_iff] at h
    obtain ⟨r1, h1, h2⟩ := h
    rw [List.getLast?_cons]
    cases j with
    | null =>
      simp only [rawSet, Option.some.injEq] at h1; subst h1
      rw [ih h2]; cases vs.getLast? with
      | none => simp [listOf]
      | some y => cases y <;> simp [listOf]
    | arr l =>
      simp only [rawSet, Option.some.injEq] at h1; subst h1
      rw [ih h2]; cases vs.getLast? with
      | none => simp [listOf]
      | some y => cases y <;> simp [listOf]
    | atom t => simp [rawSet] at h1
    | obj m => simp [rawSet] at h1

theorem rawFold_map {ext f} (vs : List J) {m0 : GoMap Bytes J} {r : Raw}
    (h : vs.foldlM (rawSet ext f) (.map m0) = some r) (h0 : m0.keys.Nodup) :
    ∃ m, r = .map m ∧ m.keys.Nodup := by
  induction vs generalizing m0 with
  | nil => simp only [List.foldlM_nil, Option.pure_def, Option.some.injEq] at h; exact ⟨_, h.symm, h0⟩
  | cons j vs ih =>
    simp only [List.foldlM_cons, Option.bind_eq_bind, Option.bind_eq_some_iff] at h
    obtain ⟨r1, h1, h2⟩ := h
    cases j with
    | null =>
      simp only [rawSet, Option.some.injEq] at h1; subst h1
      exact ih h2 (by simp [GoMap.keys])
    | obj l =>
      simp only [rawSet, Option.some.injEq] at h1; subst h1
      exact ih h2 (mergeMembers_nodup _ h0)
    | atom t => simp [rawSet] at h1
    | arr m => simp [rawSet] at h1

theorem innerMap_nodup {j : J} {m} (h : innerMap j = some m) : m.keys.Nodup := by
  cases j with
  | null => simp [innerMap] at h; subst h; simp [GoMap.keys]
  | obj o => simp [innerMap] at h; subst h; exact mergeMembers_nodup _ (by simp [GoMap.keys])
  | atom t => simp [innerMap] at h
  | arr l => simp [innerMap] at h

theorem mapM_inner {l : List (Bytes × J)} {l' : List (Bytes × GoMap Bytes J)}
    (h : (l.mapM fun e => (innerMap e.2).map fun x => (e.1, x)) = some l') (key : Bytes) :
    lastOf l' key = (lastOf l key).bind innerMap ∧ (lastOf l' key).isSome = (lastOf l key).isSome := by
  induction l generalizing l' with
  | nil => simp at h; subst h; simp [lastOf]
  | cons e l ih =>
    simp only [List.mapM_cons, Option.bind_eq_bind, Option.bind_eq_some_iff, Option.map_eq_some_iff,
      Option.pure_def, Option.some.injEq] at h
    obtain ⟨x, ⟨y, hy, rfl⟩, l1, h1, rfl⟩ := h
    rw [lastOf_cons, lastOf_cons]
    obtain ⟨a1, a2⟩ := ih h1
    cases hl : lastOf l key with
    | none =>
      rw [hl] at a1 a2
      simp only [Option.bind_none, Option.isSome_none] at a1 a2
      rw [a1]
      by_cases hk : e.1 = key
      · simp [hk, hy]
      · simp [hk]
    | some j =>
      rw [hl] at a1 a2
      simp only [Option.isSome_some] at a2
      cases hl' : lastOf l1 key with
      | none => rw [hl'] at a2; simp at a2
      | some g => rw [hl'] at a1; simpa using a1

theorem rawFold_map2 {ext f} (vs : List J) {m0 : GoMap Bytes (GoMap Bytes J)} {r : Raw}
    (h : vs.foldlM (rawSet ext f) (.map2 m0) = some r) (h0 : m0.keys.Nodup)
    (h1 : ∀ x m, GoMap.get? m0 x = some m → m.keys.Nodup) :
    ∃ m, r = .map2 m ∧ m.keys.Nodup ∧ ∀ x m', GoMap.get? m x = some m' → m'.keys.Nodup := by
  induction vs generalizing m0 with
  | nil => simp only [List.foldlM_nil, Option.pure_def, Option.some.injEq] at h; exact ⟨_, h.symm, h0, h1⟩
  | cons j vs ih =>
    simp only [List.foldlM_cons, Option.bind_eq_bind, Option.bind_eq_some_iff] at h
    obtain ⟨r1, hr1, h2⟩ := h
    cases j with
    | null =>
      simp only [rawSet, Option.some.injEq] at hr1; subst hr1
      exact ih h2 (by simp [GoMap.keys]) (by simp [GoMap.get?])
    | obj l =>
      simp only [rawSet, Option.map_eq_some_iff] at hr1
      obtain ⟨l', hl', rfl⟩ := hr1
      refine ih h2 (mergeMembers_nodup _ h0) ?_
      intro x m hm
      rw [mergeMembers_get, (mapM_inner hl' x).1] at hm
      cases hb : (lastOf l x).bind innerMap with
      | none => rw [hb] at hm; exact h1 x m (by simpa using hm)
      | some g =>
        rw [hb] at hm
        simp at hm; subst hm
        cases hq : lastOf l x with
        | none => rw [hq] at hb; simp at hb
        | some q => rw [hq] at hb; exact innerMap_nodup hb
    | atom t => simp [rawSet] at hr1
    | arr m => simp [rawSet] at hr1

theorem rawFold_val {ext f} (vs : List J) {v : Val} {r : Raw}
    (h : vs.foldlM (rawSet ext f) (.val v) = some r) :
    ∃ w, r = .val w ∧ vs.foldlM (ext.leaf f) v = some w := by
  induction vs generalizing v with
  | nil => simp only [List.foldlM_nil, Option.pure_def, Option.some.injEq] at h; exact ⟨v, h.symm, rfl⟩
  | cons j vs ih =>
    simp only [List.foldlM_cons, Option.bind_eq_bind, Option.bind_eq_some_iff, rawSet,
      Option.map_eq_some_iff] at h
    obtain ⟨r1, ⟨v1, hv1, rfl⟩, h2⟩ := h
    obtain ⟨w, h3, h4⟩ := ih h2
    exact ⟨w, h3, by simp [hv1, h4]⟩

/-- The shapes of the raw values. -/
def Raw.HasKind : Raw → RawKind → Prop
  | .msg _, .msg => True
  | .list _, .list => True
  | .map m, .map => m.keys.Nodup
  | .map2 m, .map2 => m.keys.Nodup ∧ ∀ x m', GoMap.get? m x = some m' → m'.keys.Nodup
  | .val _, .val => True
  | _, _ => False

theorem rawFold_kind {ext f k} (vs : List J) {r : Raw}
    (h : vs.foldlM (rawSet ext f) (rawZero ext k f) = some r) : r.HasKind k := by
  cases k with
  | msg => rw [rawFold_msg _ h]; trivial
  | list => rw [rawFold_list _ h]; trivial
  | map =>
    obtain ⟨m, rfl, hm⟩ := rawFold_map _ h (by simp [GoMap.keys])
    exact hm
  | map2 =>
    obtain ⟨m, rfl, hm⟩ := rawFold_map2 _ h (by simp [GoMap.keys]) (by simp [GoMap.get?])
    exact hm
  | val => obtain ⟨w, rfl, _⟩ := rawFold_val _ h; trivial

end Verif.Det
