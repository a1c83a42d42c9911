import Verif.Lemmas.Spec
import Verif.Lemmas.Utf8
import Verif.Spec.SpecGrammar
/-! `NewValue` against the grammar. -/
set_option linter.unusedSimpArgs false
namespace Verif.Spec

theorem GoMap.set_new {α : Type} {m : List (Bytes × α)} {k : Bytes} {v : α}
    (h : k ∉ m.map Prod.fst) : GoMap.set m k v = m ++ [(k, v)] := by
  induction m with
  | nil => rfl
  | cons e m ih =>
    obtain ⟨k', v'⟩ := e
    simp at h
    have : k' ≠ k := fun hh => h.1 hh.symm
    simp only [GoMap.set, if_neg this, List.cons_append]
    rw [ih (by simpa using h.2)]

theorem nsLeaf (f) (c : Bytes) : newSingleStruct f (.mk (.str c) .nil) = .ok (.mk c none) := rfl

/-- One entry of a two-label map, built in isolation. -/
def map2Entry (f : SVal → Except SpecErr Value) (e : (Bytes × Bytes) × SPair) :
    Except SpecErr (Bytes × List (Bytes × Struct)) :=
  match newSingleStruct f e.2 with
  | .error er => .error er
  | .ok s => .ok (e.1.1, [(e.1.2, s)])

theorem newMap2_append (f) (m : List ((Bytes × Bytes) × SPair)) :
    ∀ acc, (m.map fun e => e.1.1).Nodup → (∀ e ∈ m, e.1.1 ∉ acc.map Prod.fst) →
      newMap2Struct f acc m =
        match collectM (map2Entry f) m with
        | .error e => .error e
        | .ok ys => .ok (acc ++ ys) := by
  induction m with
  | nil => intro acc _ _; simp [newMap2Struct, collectM]
  | cons e m ih =>
    obtain ⟨⟨k1, k2⟩, u⟩ := e
    intro acc hn hd
    simp at hn
    simp only [newMap2Struct, newMapStruct, collectM, mapEntry, map2Entry]
    cases hs : newSingleStruct f u with
    | error er => simp
    | ok s =>
      simp only
      have h1 := hd ((k1, k2), u) (by simp)
      rw [GoMap.set_new h1, ih _ hn.2]
      · cases collectM _ m <;> simp
      · intro e he
        have h2 := hd e (by simp [he])
        simp only [List.map_append, List.mem_append, not_or]
        refine ⟨h2, ?_⟩
        simp
        intro h3
        exact hn.1 e.1.2 e.2 (by rw [← h3]; exact he)

theorem collectM_strs (f) (l : List Bytes) :
    newListStruct f (l.map fun u => .mk (.str u) .nil) = .ok (l.map fun c => .mk c none) := by
  induction l with
  | nil => rfl
  | cons a l ih =>
    simp only [newListStruct] at ih ⊢
    simp [collectM, mapEntry, map2Entry, nsLeaf, ih]

theorem collectM_mapStr (f) (l : List (Bytes × Bytes)) :
    newMapStruct f (l.map fun e => (e.1, .mk (.str e.2) .nil))
      = .ok (l.map fun e => (e.1, .mk e.2 none)) := by
  induction l with
  | nil => rfl
  | cons a l ih =>
    simp only [newMapStruct] at ih ⊢
    simp [collectM, mapEntry, map2Entry, nsLeaf, ih]

theorem collectM_map2Str (f) (l : List ((Bytes × Bytes) × Bytes))
    (h : (l.map fun e => e.1.1).Nodup) :
    newMap2Struct f [] (l.map fun e => (e.1, .mk (.str e.2) .nil))
      = .ok (l.map fun e => (e.1.1, [(e.1.2, .mk e.2 none)])) := by
  rw [newMap2_append f _ _ (by simpa [Function.comp_def] using h) (by simp)]
  have : collectM (map2Entry f) (l.map fun e => (e.1, .mk (.str e.2) .nil))
      = .ok (l.map fun e => (e.1.1, [(e.1.2, .mk e.2 none)])) := by
    clear h
    induction l with
    | nil => rfl
    | cons a l ih => simp [collectM, mapEntry, map2Entry, nsLeaf, ih]
  rw [this]; simp

mutual
theorem den_ok {v : SVal} {r : Value} (hd : v.FirstLabelsDistinct) (h : DenVal v r) :
    newValue v = .ok r := by
  rw [newValue_eq]
  match h with
  | .str c => rfl
  | .pair hp => simp only [newValueStep]; rw [denPair_ok (by simpa [SVal.FirstLabelsDistinct] using hd) hp]; rfl
  | .strs l => simp only [newValueStep]; rw [collectM_strs]; rfl
  | .pairs hp => simp only [newValueStep]; rw [denPairs_ok (by simpa [SVal.FirstLabelsDistinct] using hd) hp]; rfl
  | .mapStr m => simp only [newValueStep]; rw [collectM_mapStr]; rfl
  | .mapPair hp => simp only [newValueStep]; rw [denMap_ok (by simpa [SVal.FirstLabelsDistinct] using hd) hp]; rfl
  | .map2Str m =>
    simp only [newValueStep]
    rw [collectM_map2Str _ _ (by simpa [SVal.FirstLabelsDistinct] using hd)]; rfl
  | .map2Pair hp =>
    simp only [SVal.FirstLabelsDistinct] at hd
    simp only [newValueStep]
    rw [newMap2_append _ _ _ hd.1 (by simp), denMap2_ok hd.2 hp]; rfl
  | .struct s => rfl
  | .structs l => rfl
  | .mapStruct m => rfl
  | .map2Struct m => rfl
theorem denPair_ok {p : SPair} {s : Struct} (hd : p.FirstLabelsDistinct) (h : DenPair p s) :
    newSingleStruct newValue p = .ok s := by
  match h with
  | .leaf c => rfl
  | .node c hf =>
    simp only [SPair.FirstLabelsDistinct, SVal.FirstLabelsDistinct] at hd
    simp only [newSingleStruct, newStruct]
    rw [denFields_ok hd.2 hf]
theorem denPairs_ok {l : List SPair} {ss : List Struct} (hd : SPair.FirstLabelsDistinctL l)
    (h : DenPairs l ss) : newListStruct newValue l = .ok ss := by
  match h with
  | .nil => rfl
  | .cons hp hl =>
    simp only [SPair.FirstLabelsDistinctL] at hd
    have h1 := denPair_ok hd.1 hp
    have h2 := denPairs_ok hd.2 hl
    simp only [newListStruct] at h2 ⊢
    simp [collectM, mapEntry, map2Entry, fieldEntry, h1, h2]
theorem denMap_ok {l : List (Bytes × SPair)} {ss} (hd : SPair.FirstLabelsDistinctM l)
    (h : DenMap l ss) : newMapStruct newValue l = .ok ss := by
  match h with
  | .nil => rfl
  | .cons k hp hl =>
    simp only [SPair.FirstLabelsDistinctM] at hd
    have h1 := denPair_ok hd.1 hp
    have h2 := denMap_ok hd.2 hl
    simp only [newMapStruct] at h2 ⊢
    simp [collectM, mapEntry, map2Entry, fieldEntry, h1, h2]
theorem denMap2_ok {l : List ((Bytes × Bytes) × SPair)} {ss}
    (hd : SPair.FirstLabelsDistinctM2 l)
    (h : DenMap2 l ss) : collectM (map2Entry newValue) l = .ok ss := by
  match h with
  | .nil => rfl
  | .cons k1 k2 hp hl =>
    simp only [SPair.FirstLabelsDistinctM2] at hd
    have h1 := denPair_ok hd.1 hp
    have h2 := denMap2_ok hd.2 hl
    simp [collectM, mapEntry, map2Entry, fieldEntry, h1, h2]
theorem denFields_ok {l : List (Bytes × SVal)} {ss}
    (hd : SVal.FirstLabelsDistinctF l)
    (h : DenFields l ss) : collectM (fieldEntry newValue) l = .ok ss := by
  match h with
  | .nil => rfl
  | .cons hk hp hl =>
    simp only [SVal.FirstLabelsDistinctF] at hd
    have h1 := den_ok hd.1 hp
    have h2 := denFields_ok hd.2 hl
    simp [collectM, mapEntry, map2Entry, fieldEntry, h1, h2, valid_of_isUtf8 hk]
end

theorem map_ok {α β ε} {f : α → β} {x : Except ε α} {y : β} (h : x.map f = .ok y) :
    ∃ a, x = .ok a ∧ y = f a := by
  cases x with
  | error e => cases h
  | ok a => cases h; exact ⟨a, rfl, rfl⟩

theorem collectM_cons_ok {α β ε : Type} {f : α → Except ε β} {a l ys}
    (h : collectM f (a :: l) = .ok ys) :
    ∃ y ys', f a = .ok y ∧ collectM f l = .ok ys' ∧ ys = y :: ys' := by
  simp only [collectM] at h
  split at h
  · cases h
  · rename_i y hy
    split at h
    · cases h
    · rename_i ys' hys
      cases h
      exact ⟨y, ys', hy, hys, rfl⟩

mutual
theorem ok_den : (v : SVal) → (r : Value) → (hd : v.FirstLabelsDistinct) →
    (h : newValue v = .ok r) → DenVal v r
  | .nil, r, hd, h => by rw [newValue_eq] at h; cases h
  | .hash m, r, hd, h => by rw [newValue_eq] at h; cases h
  | .other m, r, hd, h => by rw [newValue_eq] at h; cases h
  | .str t, r, hd, h => by rw [newValue_eq] at h; cases h; exact .str t
  | .pair p, r, hd, h => by
    rw [newValue_eq] at h
    obtain ⟨a, h1, rfl⟩ := map_ok h
    exact .pair (ok_denPair p a hd h1)
  | .strs l, r, hd, h => by
    rw [newValue_eq] at h; simp only [newValueStep] at h; rw [collectM_strs] at h
    cases h; exact .strs l
  | .pairs l, r, hd, h => by
    rw [newValue_eq] at h
    obtain ⟨a, h1, rfl⟩ := map_ok h
    exact .pairs (ok_denPairs l a hd h1)
  | .mapStr l, r, hd, h => by
    rw [newValue_eq] at h; simp only [newValueStep] at h; rw [collectM_mapStr] at h
    cases h; exact .mapStr l
  | .mapPair l, r, hd, h => by
    rw [newValue_eq] at h
    obtain ⟨a, h1, rfl⟩ := map_ok h
    exact .mapPair (ok_denMap l a hd h1)
  | .map2Str l, r, hd, h => by
    rw [newValue_eq] at h; simp only [newValueStep] at h
    rw [collectM_map2Str _ _ (by simpa [SVal.FirstLabelsDistinct] using hd)] at h
    cases h; exact .map2Str l
  | .map2Pair l, r, hd, h => by
    rw [newValue_eq] at h
    obtain ⟨a, h1, rfl⟩ := map_ok h
    simp only [SVal.FirstLabelsDistinct] at hd
    rw [newMap2_append _ _ _ hd.1 (by simp)] at h1
    split at h1
    · cases h1
    · rename_i ys hys
      simp at h1; subst h1
      exact .map2Pair (ok_denMap2 l ys hd.2 hys)
  | .struct s, r, hd, h => by rw [newValue_eq] at h; cases h; exact .struct s
  | .structs s, r, hd, h => by rw [newValue_eq] at h; cases h; exact .structs s
  | .mapStruct s, r, hd, h => by rw [newValue_eq] at h; cases h; exact .mapStruct s
  | .map2Struct s, r, hd, h => by rw [newValue_eq] at h; cases h; exact .map2Struct s
theorem ok_denPair : (p : SPair) → (s : Struct) → (hd : p.FirstLabelsDistinct) →
    (h : newSingleStruct newValue p = .ok s) → DenPair p s
  | .mk (.str c) (.hash m), s, hd, h => by
    simp only [newSingleStruct, newStruct] at h
    split at h
    · cases h
    · rename_i fs hfs
      cases h
      simp only [SPair.FirstLabelsDistinct, SVal.FirstLabelsDistinct] at hd
      exact .node c (ok_denFields m fs hd.2 hfs)
  | .mk (.str c) .nil, s, hd, h => by cases h; exact .leaf _
  | .mk (.str c) (.str _), s, hd, h => by cases h
  | .mk (.str c) (.pair _), s, hd, h => by cases h
  | .mk (.str c) (.strs _), s, hd, h => by cases h
  | .mk (.str c) (.pairs _), s, hd, h => by cases h
  | .mk (.str c) (.mapStr _), s, hd, h => by cases h
  | .mk (.str c) (.mapPair _), s, hd, h => by cases h
  | .mk (.str c) (.map2Str _), s, hd, h => by cases h
  | .mk (.str c) (.map2Pair _), s, hd, h => by cases h
  | .mk (.str c) (.struct _), s, hd, h => by cases h
  | .mk (.str c) (.structs _), s, hd, h => by cases h
  | .mk (.str c) (.mapStruct _), s, hd, h => by cases h
  | .mk (.str c) (.map2Struct _), s, hd, h => by cases h
  | .mk (.str c) (.other _), s, hd, h => by cases h
  | .mk .nil _, s, hd, h => by cases h
  | .mk (.pair _) _, s, hd, h => by cases h
  | .mk (.strs _) _, s, hd, h => by cases h
  | .mk (.pairs _) _, s, hd, h => by cases h
  | .mk (.mapStr _) _, s, hd, h => by cases h
  | .mk (.mapPair _) _, s, hd, h => by cases h
  | .mk (.map2Str _) _, s, hd, h => by cases h
  | .mk (.map2Pair _) _, s, hd, h => by cases h
  | .mk (.struct _) _, s, hd, h => by cases h
  | .mk (.structs _) _, s, hd, h => by cases h
  | .mk (.mapStruct _) _, s, hd, h => by cases h
  | .mk (.map2Struct _) _, s, hd, h => by cases h
  | .mk (.hash _) _, s, hd, h => by cases h
  | .mk (.other _) _, s, hd, h => by cases h
theorem ok_denPairs : (l : List SPair) → (ss : List Struct) →
    (hd : SPair.FirstLabelsDistinctL l) →
    (h : newListStruct newValue l = .ok ss) → DenPairs l ss
  | [], ss, _, h => by cases h; exact .nil
  | p :: l, ss, hd, h => by
    obtain ⟨y, ys, h1, h2, rfl⟩ := collectM_cons_ok h
    exact .cons (ok_denPair p y hd.1 h1) (ok_denPairs l ys hd.2 h2)
theorem ok_denMap : (l : List (Bytes × SPair)) → (ss : List (Bytes × Struct)) →
    (hd : SPair.FirstLabelsDistinctM l) →
    (h : newMapStruct newValue l = .ok ss) → DenMap l ss
  | [], ss, _, h => by cases h; exact .nil
  | (k, p) :: l, ss, hd, h => by
    obtain ⟨y, ys, h1, h2, rfl⟩ := collectM_cons_ok h
    simp only [mapEntry, map2Entry, fieldEntry] at h1
    split at h1
    · cases h1
    · rename_i s hs
      cases h1
      exact .cons k (ok_denPair p s hd.1 hs) (ok_denMap l ys hd.2 h2)
theorem ok_denMap2 : (l : List ((Bytes × Bytes) × SPair)) →
    (ss : List (Bytes × List (Bytes × Struct))) →
    (hd : SPair.FirstLabelsDistinctM2 l) →
    (h : collectM (map2Entry newValue) l = .ok ss) → DenMap2 l ss
  | [], ss, _, h => by cases h; exact .nil
  | ((k1, k2), p) :: l, ss, hd, h => by
    obtain ⟨y, ys, h1, h2, rfl⟩ := collectM_cons_ok h
    simp only [mapEntry, map2Entry, fieldEntry] at h1
    split at h1
    · cases h1
    · rename_i s hs
      cases h1
      exact .cons k1 k2 (ok_denPair p s hd.1 hs) (ok_denMap2 l ys hd.2 h2)
theorem ok_denFields : (l : List (Bytes × SVal)) → (ss : List (Bytes × Value)) →
    (hd : SVal.FirstLabelsDistinctF l) →
    (h : collectM (fieldEntry newValue) l = .ok ss) → DenFields l ss
  | [], ss, _, h => by cases h; exact .nil
  | (k, v) :: l, ss, hd, h => by
    obtain ⟨y, ys, h1, h2, rfl⟩ := collectM_cons_ok h
    simp only [mapEntry, map2Entry, fieldEntry] at h1
    split at h1
    · rename_i hk
      split at h1
      · cases h1
      · rename_i s hs
        cases h1
        exact .cons (isUtf8_of_valid _ hk) (ok_den v s hd.1 hs) (ok_denFields l ys hd.2 h2)
    · cases h1
end

end Verif.Spec
