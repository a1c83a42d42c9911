import Verif.Lemmas.SpecDen
/-! Acceptance by `NewValue` is membership in the grammar, unconditionally; two-label maps. -/
set_option linter.unusedSimpArgs false
namespace Verif.Spec

theorem collectM_ok_iff {α β ε : Type} {f : α → Except ε β} {l : List α} :
    (∃ ys, collectM f l = .ok ys) ↔ ∀ a ∈ l, ∃ y, f a = .ok y := by
  induction l with
  | nil => simp [collectM]
  | cons a l ih =>
    constructor
    · rintro ⟨ys, h⟩
      obtain ⟨y, ys', h1, h2, rfl⟩ := collectM_cons_ok h
      intro x hx
      rcases List.mem_cons.mp hx with hx | hx
      · subst hx; exact ⟨y, h1⟩
      · exact ih.mp ⟨ys', h2⟩ x hx
    · intro h
      obtain ⟨y, hy⟩ := h a (by simp)
      obtain ⟨ys, hys⟩ := ih.mpr (fun x hx => h x (by simp [hx]))
      exact ⟨y :: ys, by simp [collectM, hy, hys]⟩

theorem mapEntry_ok_iff {f} {e : Bytes × SPair} :
    (∃ y, mapEntry f e = .ok y) ↔ ∃ s, newSingleStruct f e.2 = .ok s := by
  unfold mapEntry
  cases newSingleStruct f e.2 <;> simp

theorem newMap2_ok_iff {f} {m : List ((Bytes × Bytes) × SPair)} :
    ∀ acc, (∃ ys, newMap2Struct f acc m = .ok ys) ↔
      ∀ e ∈ m, ∃ s, newSingleStruct f e.2 = .ok s := by
  induction m with
  | nil => simp [newMap2Struct]
  | cons e m ih =>
    obtain ⟨k, u⟩ := e
    intro acc
    simp only [newMap2Struct, newMapStruct, collectM, mapEntry]
    cases hs : newSingleStruct f u with
    | error er => simp [hs]
    | ok s => simp only [ih]; simp [hs]

theorem denPairs_ex {l : List SPair} :
    (∃ ss, DenPairs l ss) ↔ ∀ p ∈ l, ∃ s, DenPair p s := by
  induction l with
  | nil => simp; exact ⟨_, .nil⟩
  | cons p l ih =>
    simp only [List.forall_mem_cons, ← ih]
    constructor
    · rintro ⟨ss, h⟩; cases h; exact ⟨⟨_, ‹_›⟩, ⟨_, ‹_›⟩⟩
    · rintro ⟨⟨s, h1⟩, ⟨ss, h2⟩⟩; exact ⟨_, .cons h1 h2⟩

theorem denMap_ex {l : List (Bytes × SPair)} :
    (∃ ss, DenMap l ss) ↔ ∀ p ∈ l, ∃ s, DenPair p.2 s := by
  induction l with
  | nil => simp; exact ⟨_, .nil⟩
  | cons p l ih =>
    obtain ⟨k, p⟩ := p
    simp only [List.forall_mem_cons, ← ih]
    constructor
    · rintro ⟨ss, h⟩; cases h; exact ⟨⟨_, ‹_›⟩, ⟨_, ‹_›⟩⟩
    · rintro ⟨⟨s, h1⟩, ⟨ss, h2⟩⟩; exact ⟨_, .cons k h1 h2⟩

theorem denMap2_ex {l : List ((Bytes × Bytes) × SPair)} :
    (∃ ss, DenMap2 l ss) ↔ ∀ p ∈ l, ∃ s, DenPair p.2 s := by
  induction l with
  | nil => simp; exact ⟨_, .nil⟩
  | cons p l ih =>
    obtain ⟨⟨k1, k2⟩, p⟩ := p
    simp only [List.forall_mem_cons, ← ih]
    constructor
    · rintro ⟨ss, h⟩; cases h; exact ⟨⟨_, ‹_›⟩, ⟨_, ‹_›⟩⟩
    · rintro ⟨⟨s, h1⟩, ⟨ss, h2⟩⟩; exact ⟨_, .cons k1 k2 h1 h2⟩

theorem denFields_ex {l : List (Bytes × SVal)} :
    (∃ ss, DenFields l ss) ↔ ∀ p ∈ l, IsUtf8 p.1 ∧ ∃ s, DenVal p.2 s := by
  induction l with
  | nil => simp; exact ⟨_, .nil⟩
  | cons p l ih =>
    obtain ⟨k, p⟩ := p
    simp only [List.forall_mem_cons, ← ih]
    constructor
    · rintro ⟨ss, h⟩; cases h; exact ⟨⟨‹_›, _, ‹_›⟩, ⟨_, ‹_›⟩⟩
    · rintro ⟨⟨hk, s, h1⟩, ⟨ss, h2⟩⟩; exact ⟨_, .cons hk h1 h2⟩

theorem fieldEntry_ok_iff {f} {e : Bytes × SVal} :
    (∃ y, fieldEntry f e = .ok y) ↔ IsUtf8 e.1 ∧ ∃ v, f e.2 = .ok v := by
  unfold fieldEntry
  rw [← utf8Valid_iff]
  split
  · cases f e.2 <;> simp_all
  · simp_all

theorem pair_ok_iff_of {f} {p : SPair}
    (hf : ∀ v : SVal, v.depth < p.depth → ((∃ r, f v = .ok r) ↔ ∃ r, DenVal v r)) :
    (∃ s, newSingleStruct f p = .ok s) ↔ ∃ s, DenPair p s := by
  obtain ⟨a, c⟩ := p
  cases a <;>
    try (constructor <;> (rintro ⟨s, h⟩; cases h))
  rename_i n
  cases c <;>
    try (constructor <;> (rintro ⟨s, h⟩; cases h))
  · exact ⟨_, .leaf _⟩
  · exact ⟨_, rfl⟩
  · rename_i m
    simp only [newSingleStruct, newStruct]
    have h1 : (∃ fs, collectM (fieldEntry f) m = .ok fs) ↔ ∃ fs, DenFields m fs := by
      rw [collectM_ok_iff, denFields_ex]
      apply forall_congr'; intro e
      apply imp_congr_right; intro he
      rw [fieldEntry_ok_iff, hf]
      have := depthMap_le he
      simp only [SPair.depth, SVal.depth]
      omega
    constructor
    · rintro ⟨s, h⟩
      split at h
      · cases h
      · rename_i fs hfs
        obtain ⟨fs', h2⟩ := h1.mp ⟨fs, hfs⟩
        exact ⟨_, .node n h2⟩
    · rintro ⟨s, h⟩
      cases h with
      | node _ h =>
        obtain ⟨fs, h2⟩ := h1.mpr ⟨_, h⟩
        exact ⟨_, by rw [h2]⟩

theorem exMap {α β ε} {g : α → β} {x : Except ε α} :
    (∃ y, x.map g = .ok y) ↔ ∃ a, x = .ok a := by
  cases x with
  | error e => constructor <;> (rintro ⟨_, h⟩; cases h)
  | ok a => exact ⟨fun _ => ⟨a, rfl⟩, fun _ => ⟨g a, rfl⟩⟩

theorem accept_iff_aux (n : Nat) : ∀ v : SVal, v.depth < n →
    ((∃ r, newValue v = .ok r) ↔ ∃ r, DenVal v r) := by
  induction n with
  | zero => intro v h; omega
  | succ n ih =>
    intro v hv
    rw [newValue_eq]
    have hp : ∀ p : SPair, p.depth ≤ v.depth →
        ((∃ s, newSingleStruct newValue p = .ok s) ↔ ∃ s, DenPair p s) := by
      intro p hp
      apply pair_ok_iff_of
      intro w hw
      exact ih w (by omega)
    cases v with
    | nil => constructor <;> (rintro ⟨s, h⟩; cases h)
    | hash => constructor <;> (rintro ⟨s, h⟩; cases h)
    | other => constructor <;> (rintro ⟨s, h⟩; cases h)
    | str t => exact ⟨fun _ => ⟨_, .str t⟩, fun _ => ⟨_, rfl⟩⟩
    | struct t => exact ⟨fun _ => ⟨_, .struct t⟩, fun _ => ⟨_, rfl⟩⟩
    | structs t => exact ⟨fun _ => ⟨_, .structs t⟩, fun _ => ⟨_, rfl⟩⟩
    | mapStruct t => exact ⟨fun _ => ⟨_, .mapStruct t⟩, fun _ => ⟨_, rfl⟩⟩
    | map2Struct t => exact ⟨fun _ => ⟨_, .map2Struct t⟩, fun _ => ⟨_, rfl⟩⟩
    | pair p =>
      simp only [newValueStep, exMap, hp p (by simp [SVal.depth])]
      exact ⟨fun ⟨s, h⟩ => ⟨_, .pair h⟩, fun ⟨r, h⟩ => by cases h; exact ⟨_, ‹_›⟩⟩
    | strs l =>
      simp only [newValueStep, collectM_strs]
      exact ⟨fun _ => ⟨_, .strs l⟩, fun _ => ⟨_, rfl⟩⟩
    | mapStr l =>
      simp only [newValueStep, collectM_mapStr]
      exact ⟨fun _ => ⟨_, .mapStr l⟩, fun _ => ⟨_, rfl⟩⟩
    | map2Str l =>
      simp only [newValueStep, exMap, newMap2_ok_iff]
      refine ⟨fun _ => ⟨_, .map2Str l⟩, fun _ => ?_⟩
      intro e he
      obtain ⟨a, _, rfl⟩ := List.mem_map.mp he
      exact ⟨_, rfl⟩
    | pairs l =>
      simp only [newValueStep, exMap, newListStruct, collectM_ok_iff]
      have : (∀ a ∈ l, ∃ y, newSingleStruct newValue a = .ok y) ↔ ∃ ss, DenPairs l ss := by
        rw [denPairs_ex]
        apply forall_congr'; intro e
        apply imp_congr_right; intro he
        exact hp e (by have := depthPairs_le he; simpa [SVal.depth] using this)
      rw [this]
      exact ⟨fun ⟨s, h⟩ => ⟨_, .pairs h⟩, fun ⟨r, h⟩ => by cases h; exact ⟨_, ‹_›⟩⟩
    | mapPair l =>
      simp only [newValueStep, exMap, newMapStruct, collectM_ok_iff, mapEntry_ok_iff]
      have : (∀ a ∈ l, ∃ y, newSingleStruct newValue a.2 = .ok y) ↔ ∃ ss, DenMap l ss := by
        rw [denMap_ex]
        apply forall_congr'; intro e
        apply imp_congr_right; intro he
        exact hp e.2 (by have := depthMapP_le he; simpa [SVal.depth] using this)
      rw [this]
      exact ⟨fun ⟨s, h⟩ => ⟨_, .mapPair h⟩, fun ⟨r, h⟩ => by cases h; exact ⟨_, ‹_›⟩⟩
    | map2Pair l =>
      simp only [newValueStep, exMap, newMap2_ok_iff]
      have : (∀ a ∈ l, ∃ y, newSingleStruct newValue a.2 = .ok y) ↔ ∃ ss, DenMap2 l ss := by
        rw [denMap2_ex]
        apply forall_congr'; intro e
        apply imp_congr_right; intro he
        exact hp e.2 (by have := depthMap2_le he; simpa [SVal.depth] using this)
      rw [this]
      exact ⟨fun ⟨s, h⟩ => ⟨_, .map2Pair h⟩, fun ⟨r, h⟩ => by cases h; exact ⟨_, ‹_›⟩⟩

theorem accept_iff (v : SVal) : (∃ r, newValue v = .ok r) ↔ ∃ r, DenVal v r :=
  accept_iff_aux _ v (Nat.lt_succ_self _)

/-! ## Order independence -/

theorem denMap_perm {m m' : List (Bytes × SPair)} (hp : m.Perm m') :
    ∀ {ms}, DenMap m ms → ∃ ms', DenMap m' ms' ∧ ms.Perm ms' := by
  induction hp with
  | nil => intro ms h; exact ⟨ms, h, .refl _⟩
  | cons x _ ih =>
    intro ms h
    cases h with
    | cons k h1 h2 =>
      obtain ⟨ms', h3, h4⟩ := ih h2
      exact ⟨_, .cons k h1 h3, h4.cons _⟩
  | swap x y l =>
    intro ms h
    cases h with
    | cons k h1 h2 =>
      cases h2 with
      | cons k' h3 h4 => exact ⟨_, .cons k' h3 (.cons k h1 h4), .swap _ _ _⟩
  | trans _ _ ih1 ih2 =>
    intro ms h
    obtain ⟨m1, h1, h2⟩ := ih1 h
    obtain ⟨m2, h3, h4⟩ := ih2 h1
    exact ⟨m2, h3, h2.trans h4⟩

theorem denMap2_perm {m m' : List ((Bytes × Bytes) × SPair)} (hp : m.Perm m') :
    ∀ {ms}, DenMap2 m ms → ∃ ms', DenMap2 m' ms' ∧ ms.Perm ms' := by
  induction hp with
  | nil => intro ms h; exact ⟨ms, h, .refl _⟩
  | cons x _ ih =>
    intro ms h
    cases h with
    | cons k k2 h1 h2 =>
      obtain ⟨ms', h3, h4⟩ := ih h2
      exact ⟨_, .cons k k2 h1 h3, h4.cons _⟩
  | swap x y l =>
    intro ms h
    cases h with
    | cons k k2 h1 h2 =>
      cases h2 with
      | cons k' k2' h3 h4 => exact ⟨_, .cons k' k2' h3 (.cons k k2 h1 h4), .swap _ _ _⟩
  | trans _ _ ih1 ih2 =>
    intro ms h
    obtain ⟨m1, h1, h2⟩ := ih1 h
    obtain ⟨m2, h3, h4⟩ := ih2 h1
    exact ⟨m2, h3, h2.trans h4⟩

theorem denFields_perm {m m' : List (Bytes × SVal)} (hp : m.Perm m') :
    ∀ {ms}, DenFields m ms → ∃ ms', DenFields m' ms' ∧ ms.Perm ms' := by
  induction hp with
  | nil => intro ms h; exact ⟨ms, h, .refl _⟩
  | cons x _ ih =>
    intro ms h
    cases h with
    | cons k h1 h2 =>
      obtain ⟨ms', h3, h4⟩ := ih h2
      exact ⟨_, .cons k h1 h3, h4.cons _⟩
  | swap x y l =>
    intro ms h
    cases h with
    | cons k h1 h2 =>
      cases h2 with
      | cons k' h3 h4 => exact ⟨_, .cons k' h3 (.cons k h1 h4), .swap _ _ _⟩
  | trans _ _ ih1 ih2 =>
    intro ms h
    obtain ⟨m1, h1, h2⟩ := ih1 h
    obtain ⟨m2, h3, h4⟩ := ih2 h1
    exact ⟨m2, h3, h2.trans h4⟩

mutual
theorem Value.Same.rfl' : (v : Value) → Value.Same v v
  | .single s => .single (Struct.Same.rfl' s)
  | .list l => .list (Struct.SameL.rfl' l)
  | .map m => .map (Struct.SameM.rfl' m)
  | .map2 m => .map2 (Struct.SameM2.rfl' m)
theorem Struct.Same.rfl' : (s : Struct) → Struct.Same s s
  | .mk c none => .leaf c
  | .mk c (some f) => .node c (Value.SameF.rfl' f)
theorem Struct.SameL.rfl' : (l : List Struct) → Struct.SameL l l
  | [] => .nil
  | s :: l => .cons (Struct.Same.rfl' s) (Struct.SameL.rfl' l)
theorem Struct.SameM.rfl' : (l : List (Bytes × Struct)) → Struct.SameM l l
  | [] => .nil
  | (k, s) :: l => .cons k (Struct.Same.rfl' s) (Struct.SameM.rfl' l)
theorem Struct.SameM2.rfl' : (l : List (Bytes × List (Bytes × Struct))) → Struct.SameM2 l l
  | [] => .nil
  | (k, s) :: l => .cons k (Struct.SameM.rfl' s) (Struct.SameM2.rfl' l)
theorem Value.SameF.rfl' : (l : List (Bytes × Value)) → Value.SameF l l
  | [] => .nil
  | (k, s) :: l => .cons k (Value.Same.rfl' s) (Value.SameF.rfl' l)
end

theorem denPair_inv {a c r} (h : DenPair (.mk a c) r) :
    ∃ n, a = .str n ∧ ((c = .nil ∧ r = .mk n none) ∨
      ∃ m f, c = .hash m ∧ DenFields m f ∧ r = .mk n (some f)) := by
  cases h with
  | leaf n => exact ⟨n, rfl, .inl ⟨rfl, rfl⟩⟩
  | node n h => exact ⟨n, rfl, .inr ⟨_, _, rfl, h, rfl⟩⟩

theorem same_str {a a' n} (h : SVal.Same a a') (ha : a = .str n) : a' = .str n := by
  cases h <;> simp_all

theorem same_nil {a a'} (h : SVal.Same a a') (ha : a = .nil) : a' = .nil := by
  cases h <;> simp_all

mutual
theorem same_den {v v' : SVal} (hs : SVal.Same v v') {r} (h : DenVal v r) :
    ∃ r', DenVal v' r' ∧ Value.Same r r' := by
  match hs with
  | .refl _ => exact ⟨r, h, Value.Same.rfl' r⟩
  | .pair hp =>
    cases h with
    | pair h => obtain ⟨s', h1, h2⟩ := same_denPair hp h; exact ⟨_, .pair h1, .single h2⟩
  | .pairs hp =>
    cases h with
    | pairs h => obtain ⟨s', h1, h2⟩ := same_denL hp h; exact ⟨_, .pairs h1, .list h2⟩
  | .mapStr hp =>
    cases h
    exact ⟨_, .mapStr _, .map (.perm (Struct.SameM.rfl' _) (hp.map _))⟩
  | .mapPair hp =>
    cases h with
    | mapPair h => obtain ⟨s', h1, h2⟩ := same_denM hp h; exact ⟨_, .mapPair h1, .map h2⟩
  | .map2Str hp =>
    cases h
    exact ⟨_, .map2Str _, .map2 (.perm (Struct.SameM2.rfl' _) (hp.map _))⟩
  | .map2Pair hp =>
    cases h with
    | map2Pair h => obtain ⟨s', h1, h2⟩ := same_denM2 hp h; exact ⟨_, .map2Pair h1, .map2 h2⟩
  | .hash _ => cases h
theorem same_denPair {v v' : SPair} (hs : SPair.Same v v') {r} (h : DenPair v r) :
    ∃ r', DenPair v' r' ∧ Struct.Same r r' := by
  match hs with
  | .mk h1 h2 =>
    obtain ⟨n, ha, hc⟩ := denPair_inv h
    have ha' := same_str h1 ha
    rcases hc with ⟨hc, hr⟩ | ⟨m, f, hc, hf, hr⟩
    · have hc' := same_nil h2 hc
      subst ha' hc' hr
      exact ⟨_, .leaf n, .leaf n⟩
    · obtain ⟨m', f', h3, h4, h5⟩ := same_denH h2 hc hf
      subst ha' h3 hr
      exact ⟨_, .node n h4, .node n h5⟩
theorem same_denH {v v' : SVal} (hs : SVal.Same v v') {m : List (Bytes × SVal)}
    (hv : v = .hash m) {f}
    (h : DenFields m f) : ∃ m' f', v' = .hash m' ∧ DenFields m' f' ∧ Value.SameF f f' := by
  match hs with
  | .refl _ => exact ⟨_, _, hv, h, Value.SameF.rfl' _⟩
  | .hash h3 =>
    obtain ⟨f', h4, h5⟩ := same_denF h3 (SVal.hash.inj hv ▸ h)
    exact ⟨_, _, rfl, h4, h5⟩
  | .pair _ => cases hv
  | .pairs _ => cases hv
  | .mapStr _ => cases hv
  | .mapPair _ => cases hv
  | .map2Str _ => cases hv
  | .map2Pair _ => cases hv
theorem same_denL {v v' : List SPair} (hs : SPair.SameL v v') {r} (h : DenPairs v r) :
    ∃ r', DenPairs v' r' ∧ Struct.SameL r r' := by
  match hs with
  | .nil => cases h; exact ⟨_, .nil, .nil⟩
  | .cons h1 h2 =>
    cases h with
    | cons h3 h4 =>
      obtain ⟨_, h5, h6⟩ := same_denPair h1 h3
      obtain ⟨_, h7, h8⟩ := same_denL h2 h4
      exact ⟨_, .cons h5 h7, .cons h6 h8⟩
theorem same_denM {v v' : List (Bytes × SPair)} (hs : SPair.SameM v v') {r} (h : DenMap v r) :
    ∃ r', DenMap v' r' ∧ Struct.SameM r r' := by
  match hs with
  | .nil => cases h; exact ⟨_, .nil, .nil⟩
  | .cons k h1 h2 =>
    cases h with
    | cons _ h3 h4 =>
      obtain ⟨_, h5, h6⟩ := same_denPair h1 h3
      obtain ⟨_, h7, h8⟩ := same_denM h2 h4
      exact ⟨_, .cons k h5 h7, .cons k h6 h8⟩
  | .perm h1 h2 =>
    obtain ⟨_, h5, h6⟩ := same_denM h1 h
    obtain ⟨_, h7, h8⟩ := denMap_perm h2 h5
    exact ⟨_, h7, .perm h6 h8⟩
theorem same_denM2 {v v' : List ((Bytes × Bytes) × SPair)} (hs : SPair.SameM2 v v') {r}
    (h : DenMap2 v r) : ∃ r', DenMap2 v' r' ∧ Struct.SameM2 r r' := by
  match hs with
  | .nil => cases h; exact ⟨_, .nil, .nil⟩
  | .cons k h1 h2 =>
    cases h with
    | cons _ _ h3 h4 =>
      obtain ⟨_, h5, h6⟩ := same_denPair h1 h3
      obtain ⟨_, h7, h8⟩ := same_denM2 h2 h4
      exact ⟨_, .cons _ _ h5 h7, .cons _ (.cons _ h6 .nil) h8⟩
  | .perm h1 h2 =>
    obtain ⟨_, h5, h6⟩ := same_denM2 h1 h
    obtain ⟨_, h7, h8⟩ := denMap2_perm h2 h5
    exact ⟨_, h7, .perm h6 h8⟩
theorem same_denF {v v' : List (Bytes × SVal)} (hs : SVal.SameF v v') {r} (h : DenFields v r) :
    ∃ r', DenFields v' r' ∧ Value.SameF r r' := by
  match hs with
  | .nil => cases h; exact ⟨_, .nil, .nil⟩
  | .cons k h1 h2 =>
    cases h with
    | cons hk h3 h4 =>
      obtain ⟨_, h5, h6⟩ := same_den h1 h3
      obtain ⟨_, h7, h8⟩ := same_denF h2 h4
      exact ⟨_, .cons hk h5 h7, .cons k h6 h8⟩
  | .perm h1 h2 =>
    obtain ⟨_, h5, h6⟩ := same_denF h1 h
    obtain ⟨_, h7, h8⟩ := denFields_perm h2 h5
    exact ⟨_, h7, .perm h6 h8⟩
end

theorem fldM_perm {m m' : List (Bytes × SPair)} (h : m.Perm m') :
    SPair.FirstLabelsDistinctM m → SPair.FirstLabelsDistinctM m' := by
  have key : ∀ m, SPair.FirstLabelsDistinctM m ↔ ∀ e ∈ m, e.2.FirstLabelsDistinct := by
    intro m; induction m <;> simp_all [SPair.FirstLabelsDistinctM]
  rw [key, key]; intro h1 e he; exact h1 e (h.mem_iff.mpr he)

theorem fldM2_perm {m m' : List ((Bytes × Bytes) × SPair)} (h : m.Perm m') :
    SPair.FirstLabelsDistinctM2 m → SPair.FirstLabelsDistinctM2 m' := by
  have key : ∀ m, SPair.FirstLabelsDistinctM2 m ↔ ∀ e ∈ m, e.2.FirstLabelsDistinct := by
    intro m; induction m <;> simp_all [SPair.FirstLabelsDistinctM2]
  rw [key, key]; intro h1 e he; exact h1 e (h.mem_iff.mpr he)

theorem fldF_perm {m m' : List (Bytes × SVal)} (h : m.Perm m') :
    SVal.FirstLabelsDistinctF m → SVal.FirstLabelsDistinctF m' := by
  have key : ∀ m, SVal.FirstLabelsDistinctF m ↔ ∀ e ∈ m, e.2.FirstLabelsDistinct := by
    intro m; induction m <;> simp_all [SVal.FirstLabelsDistinctF]
  rw [key, key]; intro h1 e he; exact h1 e (h.mem_iff.mpr he)

mutual
theorem same_fld {v v' : SVal} (hs : SVal.Same v v') (h : v.FirstLabelsDistinct) :
    v'.FirstLabelsDistinct := by
  match hs with
  | .refl _ => exact h
  | .pair hp => simp only [SVal.FirstLabelsDistinct] at h ⊢; exact same_fldP hp h
  | .pairs hp => simp only [SVal.FirstLabelsDistinct] at h ⊢; exact same_fldL hp h
  | .mapStr hp => simp [SVal.FirstLabelsDistinct]
  | .mapPair hp => simp only [SVal.FirstLabelsDistinct] at h ⊢; exact same_fldM hp h
  | .map2Str hp =>
    simp only [SVal.FirstLabelsDistinct] at h ⊢
    exact (hp.map fun e => e.1.1).nodup_iff.mp h
  | .map2Pair hp =>
    simp only [SVal.FirstLabelsDistinct] at h ⊢
    obtain ⟨h1, h2⟩ := same_fldM2 hp h.2
    exact ⟨h2.nodup_iff.mp h.1, h1⟩
  | .hash hp => simp only [SVal.FirstLabelsDistinct] at h ⊢; exact same_fldF hp h
theorem same_fldP {v v' : SPair} (hs : SPair.Same v v') (h : v.FirstLabelsDistinct) :
    v'.FirstLabelsDistinct := by
  match hs with
  | .mk h1 h2 =>
    simp only [SPair.FirstLabelsDistinct] at h ⊢
    exact ⟨same_fld h1 h.1, same_fld h2 h.2⟩
theorem same_fldL {v v' : List SPair} (hs : SPair.SameL v v') (h : SPair.FirstLabelsDistinctL v) :
    SPair.FirstLabelsDistinctL v' := by
  match hs with
  | .nil => exact h
  | .cons h1 h2 =>
    simp only [SPair.FirstLabelsDistinctL] at h ⊢
    exact ⟨same_fldP h1 h.1, same_fldL h2 h.2⟩
theorem same_fldM {v v' : List (Bytes × SPair)} (hs : SPair.SameM v v')
    (h : SPair.FirstLabelsDistinctM v) : SPair.FirstLabelsDistinctM v' := by
  match hs with
  | .nil => exact h
  | .cons k h1 h2 =>
    simp only [SPair.FirstLabelsDistinctM] at h ⊢
    exact ⟨same_fldP h1 h.1, same_fldM h2 h.2⟩
  | .perm h1 h2 => exact fldM_perm h2 (same_fldM h1 h)
theorem same_fldM2 {v v' : List ((Bytes × Bytes) × SPair)} (hs : SPair.SameM2 v v')
    (h : SPair.FirstLabelsDistinctM2 v) : SPair.FirstLabelsDistinctM2 v' ∧
      (v.map fun e => e.1.1).Perm (v'.map fun e => e.1.1) := by
  match hs with
  | .nil => exact ⟨h, .refl _⟩
  | .cons k h1 h2 =>
    simp only [SPair.FirstLabelsDistinctM2] at h ⊢
    obtain ⟨h3, h4⟩ := same_fldM2 h2 h.2
    exact ⟨⟨same_fldP h1 h.1, h3⟩, by simpa using h4⟩
  | .perm h1 h2 =>
    obtain ⟨h3, h4⟩ := same_fldM2 h1 h
    exact ⟨fldM2_perm h2 h3, h4.trans (h2.map _)⟩
theorem same_fldF {v v' : List (Bytes × SVal)} (hs : SVal.SameF v v')
    (h : SVal.FirstLabelsDistinctF v) : SVal.FirstLabelsDistinctF v' := by
  match hs with
  | .nil => exact h
  | .cons k h1 h2 =>
    simp only [SVal.FirstLabelsDistinctF] at h ⊢
    exact ⟨same_fld h1 h.1, same_fldF h2 h.2⟩
  | .perm h1 h2 => exact fldF_perm h2 (same_fldF h1 h)
end

/-! ## Two-label maps: the last entry per first label survives -/

theorem get_set_same {α : Type} {m : List (Bytes × α)} {k : Bytes} {v : α} :
    GoMap.get? (GoMap.set m k v) k = some v := by
  induction m with
  | nil => simp [GoMap.set, GoMap.get?]
  | cons e m ih =>
    obtain ⟨k', v'⟩ := e
    simp only [GoMap.set]
    split
    · simp [GoMap.get?]
    · simp [GoMap.get?, *]

theorem get_set_ne {α : Type} {m : List (Bytes × α)} {k k' : Bytes} {v : α} (h : k ≠ k') :
    GoMap.get? (GoMap.set m k v) k' = GoMap.get? m k' := by
  induction m with
  | nil => simp [GoMap.set, GoMap.get?, h]
  | cons e m ih =>
    obtain ⟨a, v'⟩ := e
    simp only [GoMap.set]
    split
    · subst_vars; simp [GoMap.get?, h]
    · simp [GoMap.get?, ih]

theorem newMap2_get {f} (m : List ((Bytes × Bytes) × SPair)) :
    ∀ acc ys, newMap2Struct f acc m = .ok ys → ∀ k₁,
      GoMap.get? ys k₁ =
        match (m.filter fun e => e.1.1 = k₁).getLast? with
        | none => GoMap.get? acc k₁
        | some e => match newSingleStruct f e.2 with
          | .ok s => some [(e.1.2, s)]
          | .error _ => none := by
  induction m with
  | nil => intro acc ys h k₁; cases h; simp
  | cons e m ih =>
    obtain ⟨⟨a, c⟩, u⟩ := e
    intro acc ys h k₁
    simp only [newMap2Struct, newMapStruct, collectM, mapEntry] at h
    cases hs : newSingleStruct f u with
    | error er => simp [hs] at h
    | ok s =>
      simp only [hs] at h
      rw [ih _ _ h k₁]
      by_cases hk : a = k₁
      · subst hk
        simp only [List.filter_cons, decide_true, if_true]
        cases hl : (m.filter fun e => e.1.1 = a).getLast? with
        | none =>
          have : (m.filter fun e => e.1.1 = a) = [] := by
            simpa using hl
          rw [this]
          simp [get_set_same, hs]
        | some e =>
          have : (m.filter fun e => e.1.1 = a) ≠ [] := by
            intro h0; rw [h0] at hl; simp at hl
          obtain ⟨x, xs, hx⟩ := List.exists_cons_of_ne_nil this
          rw [hx] at hl ⊢
          rw [List.getLast?_cons_cons, hl]
      · simp [hk, get_set_ne hk]

end Verif.Spec
