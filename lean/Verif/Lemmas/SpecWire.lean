import Verif.Spec.SpecWire
import Verif.Lemmas.SpecAccept
/-!
# Lemmas for C169
-/
namespace Verif.Spec

mutual
theorem den_all {v : SVal} {r : Value} : DenVal v r → (r.All IsUtf8 ↔ v.Names IsUtf8)
  | .str c => by simp [Value.All, Struct.All, SVal.Names]
  | .pair h => by simpa [Value.All, SVal.Names] using denPair_all h
  | .strs l => by
    simp only [Value.All, SVal.Names]
    induction l with
    | nil => simp [Struct.AllL]
    | cons c l ih => simp [Struct.AllL, Struct.All, ih]
  | .pairs h => by simpa [Value.All, SVal.Names] using denPairs_all h
  | .mapStr m => by
    simp only [Value.All, SVal.Names]
    induction m with
    | nil => simp [Struct.AllM]
    | cons c l ih => simp [Struct.AllM, Struct.All, ih, and_assoc]
  | .mapPair h => by simpa [Value.All, SVal.Names] using denMap_all h
  | .map2Str m => by
    simp only [Value.All, SVal.Names]
    induction m with
    | nil => simp [Struct.AllM2]
    | cons c l ih => simp [Struct.AllM2, Struct.AllM, Struct.All, ih, and_assoc]
  | .map2Pair h => by simpa [Value.All, SVal.Names] using denMap2_all h
  | .struct s => by simp [Value.All, SVal.Names]
  | .structs l => by simp [Value.All, SVal.Names]
  | .mapStruct m => by simp [Value.All, SVal.Names]
  | .map2Struct m => by simp [Value.All, SVal.Names]
theorem denPair_all {p : SPair} {s : Struct} : DenPair p s → (s.All IsUtf8 ↔ p.Names IsUtf8)
  | .leaf c => by simp [Struct.All, SPair.Names, SVal.Names]
  | .node c h => by simp [Struct.All, SPair.Names, SVal.Names, denFields_all h]
theorem denPairs_all {l : List SPair} {ss : List Struct} : DenPairs l ss → (Struct.AllL IsUtf8 ss ↔ SPair.NamesL IsUtf8 l)
  | .nil => by simp [Struct.AllL, SPair.NamesL]
  | .cons h hs => by simp [Struct.AllL, SPair.NamesL, denPair_all h, denPairs_all hs]
theorem denMap_all {l : List (Bytes × SPair)} {ss : List (Bytes × Struct)} : DenMap l ss → (Struct.AllM IsUtf8 ss ↔ SPair.NamesM IsUtf8 l)
  | .nil => by simp [Struct.AllM, SPair.NamesM]
  | .cons k h hs => by simp [Struct.AllM, SPair.NamesM, denPair_all h, denMap_all hs]
theorem denMap2_all {l : List ((Bytes × Bytes) × SPair)} {ss : List (Bytes × List (Bytes × Struct))} :
    DenMap2 l ss → (Struct.AllM2 IsUtf8 ss ↔ SPair.NamesM2 IsUtf8 l)
  | .nil => by simp [Struct.AllM2, SPair.NamesM2]
  | .cons k₁ k₂ h hs => by simp [Struct.AllM2, Struct.AllM, SPair.NamesM2, denPair_all h, denMap2_all hs, and_assoc]
theorem denFields_all {l : List (Bytes × SVal)} {rs : List (Bytes × Value)} : DenFields l rs → (Value.AllF IsUtf8 rs ↔ SVal.NamesF IsUtf8 l)
  | .nil => by simp [Value.AllF, SVal.NamesF]
  | .cons hk h hs => by simp [Value.AllF, SVal.NamesF, den_all h, denFields_all hs, hk]
end

theorem allL_iff {P : Bytes → Prop} : ∀ l : List Struct, Struct.AllL P l ↔ ∀ s ∈ l, s.All P
  | [] => by simp [Struct.AllL]
  | s :: l => by simp [Struct.AllL, allL_iff l]

theorem allM_iff {P : Bytes → Prop} : ∀ l : List (Bytes × Struct), Struct.AllM P l ↔ ∀ e ∈ l, P e.1 ∧ e.2.All P
  | [] => by simp [Struct.AllM]
  | (k, s) :: l => by simp [Struct.AllM, allM_iff l, and_assoc]

theorem allM2_iff {P : Bytes → Prop} : ∀ l : List (Bytes × List (Bytes × Struct)), Struct.AllM2 P l ↔ ∀ e ∈ l, P e.1 ∧ Struct.AllM P e.2
  | [] => by simp [Struct.AllM2]
  | (k, s) :: l => by simp [Struct.AllM2, allM2_iff l, and_assoc]

theorem allF_iff {P : Bytes → Prop} : ∀ l : List (Bytes × Value), Value.AllF P l ↔ ∀ e ∈ l, P e.1 ∧ e.2.All P
  | [] => by simp [Value.AllF]
  | (k, s) :: l => by simp [Value.AllF, allF_iff l, and_assoc]

theorem namesL_iff {P : Bytes → Prop} : ∀ l : List SPair, SPair.NamesL P l ↔ ∀ p ∈ l, p.Names P
  | [] => by simp [SPair.NamesL]
  | s :: l => by simp [SPair.NamesL, namesL_iff l]

theorem namesM_iff {P : Bytes → Prop} : ∀ l : List (Bytes × SPair), SPair.NamesM P l ↔ ∀ e ∈ l, P e.1 ∧ e.2.Names P
  | [] => by simp [SPair.NamesM]
  | (k, s) :: l => by simp [SPair.NamesM, namesM_iff l, and_assoc]

theorem namesM2_iff {P : Bytes → Prop} : ∀ l : List ((Bytes × Bytes) × SPair), SPair.NamesM2 P l ↔ ∀ e ∈ l, P e.1.1 ∧ P e.1.2 ∧ e.2.Names P
  | [] => by simp [SPair.NamesM2]
  | (k, s) :: l => by simp [SPair.NamesM2, namesM2_iff l, and_assoc]

theorem namesF_iff {P : Bytes → Prop} : ∀ l : List (Bytes × SVal), SVal.NamesF P l ↔ ∀ e ∈ l, e.2.Names P
  | [] => by simp [SVal.NamesF]
  | (k, s) :: l => by simp [SVal.NamesF, namesF_iff l]

theorem collectM_mem {α β ε : Type} {f : α → Except ε β} : ∀ {l : List α} {ys : List β}, collectM f l = .ok ys → ∀ y ∈ ys, ∃ a ∈ l, f a = .ok y
  | [], ys, h => by cases h; simp
  | a :: l, ys, h => by
    simp only [collectM] at h
    split at h
    · cases h
    · rename_i y hy
      split at h
      · cases h
      · rename_i ys' hys
        cases h
        intro z hz
        rcases List.mem_cons.1 hz with rfl | hz
        · exact ⟨a, List.mem_cons_self .., hy⟩
        · obtain ⟨a', ha, e⟩ := collectM_mem hys z hz
          exact ⟨a', List.mem_cons_of_mem _ ha, e⟩

theorem mem_set_of {α β : Type} [DecidableEq α] {k : α} {x : β} {e : α × β} : ∀ {m : GoMap α β}, e ∈ GoMap.set m k x → e = (k, x) ∨ e ∈ m := by
  intro m
  induction m with
  | nil => intro h; simpa [GoMap.set] using h
  | cons a m ih =>
    intro h
    simp only [GoMap.set] at h
    split at h
    · rcases List.mem_cons.1 h with h | h
      · rename_i hk; exact Or.inl (by simpa [hk] using h)
      · exact Or.inr (List.mem_cons_of_mem _ h)
    · rcases List.mem_cons.1 h with h | h
      · exact Or.inr (h ▸ List.mem_cons_self ..)
      · rcases ih h with h | h
        · exact Or.inl h
        · exact Or.inr (List.mem_cons_of_mem _ h)

theorem exceptMap_ok {α β ε : Type} {g : α → β} {x : Except ε α} {y : β} (h : x.map g = .ok y) : ∃ a, x = .ok a ∧ y = g a := by
  cases x with
  | error e => cases h
  | ok a => cases h; exact ⟨a, rfl, rfl⟩

section step
variable {f : SVal → Except SpecErr Value} (hf : ∀ v r, f v = .ok r → v.Names IsUtf8 → r.All IsUtf8)
include hf

theorem fields_all {m : List (Bytes × SVal)} {fs : List (Bytes × Value)} (h : collectM (fieldEntry f) m = .ok fs) (hn : SVal.NamesF IsUtf8 m) :
    Value.AllF IsUtf8 fs := by
  rw [allF_iff]
  intro e he
  obtain ⟨a, ha, h⟩ := collectM_mem h e he
  unfold fieldEntry at h
  split at h
  · rename_i hu
    split at h
    · cases h
    · rename_i v hv
      cases h
      exact ⟨utf8Valid_iff _ |>.1 hu, hf _ _ hv ((namesF_iff m).1 hn a ha)⟩
  · cases h

theorem newStruct_all {c : Bytes} {m : Option (List (Bytes × SVal))} {s : Struct} (h : newStruct f c m = .ok s) (hc : IsUtf8 c)
    (hn : ∀ m', m = some m' → SVal.NamesF IsUtf8 m') : s.All IsUtf8 := by
  unfold newStruct at h
  split at h
  · cases h; exact hc
  · split at h
    · cases h
    · rename_i fs hfs
      cases h
      exact ⟨hc, fields_all hf hfs (hn _ rfl)⟩

theorem single_all {p : SPair} {s : Struct} (h : newSingleStruct f p = .ok s) (hn : p.Names IsUtf8) : s.All IsUtf8 := by
  unfold newSingleStruct at h
  split at h
  · exact newStruct_all hf h hn.1 (fun _ h => by cases h)
  · exact newStruct_all hf h hn.1 (fun _ h => by cases h; exact hn.2)
  · cases h
  · cases h

theorem list_all {l : List SPair} {ss : List Struct} (h : newListStruct f l = .ok ss) (hn : SPair.NamesL IsUtf8 l) : Struct.AllL IsUtf8 ss := by
  rw [allL_iff]
  intro s hs
  obtain ⟨p, hp, h⟩ := collectM_mem h s hs
  exact single_all hf h ((namesL_iff l).1 hn p hp)

theorem map_all {l : List (Bytes × SPair)} {ss : List (Bytes × Struct)} (h : newMapStruct f l = .ok ss) (hn : SPair.NamesM IsUtf8 l) :
    Struct.AllM IsUtf8 ss := by
  rw [allM_iff]
  intro s hs
  obtain ⟨p, hp, h⟩ := collectM_mem h s hs
  have := (namesM_iff l).1 hn p hp
  unfold mapEntry at h
  split at h
  · cases h
  · rename_i s' hs'
    cases h
    exact ⟨this.1, single_all hf hs' this.2⟩

theorem map2_all : ∀ {l : List ((Bytes × Bytes) × SPair)} {acc ss : List (Bytes × List (Bytes × Struct))}, newMap2Struct f acc l = .ok ss → SPair.NamesM2 IsUtf8 l →
    Struct.AllM2 IsUtf8 acc → Struct.AllM2 IsUtf8 ss
  | [], _, _, h, _, ha => by cases h; exact ha
  | (i, u) :: l, acc, ss, h, hn, ha => by
    simp only [newMap2Struct] at h
    split at h
    · cases h
    · rename_i ms hms
      refine map2_all h hn.2.2.2 ?_
      rw [allM2_iff] at ha ⊢
      intro e he
      rcases mem_set_of he with rfl | he
      · exact ⟨hn.1, map_all hf hms ⟨hn.2.1, hn.2.2.1, trivial⟩⟩
      · exact ha e he

theorem step_all {v : SVal} {r : Value} (h : newValueStep f v = .ok r) (hn : v.Names IsUtf8) : r.All IsUtf8 := by
  cases v <;> simp only [newValueStep] at h
  case str t => obtain ⟨s, h', rfl⟩ := exceptMap_ok h; exact single_all hf h' ⟨hn, trivial⟩
  case pair p => obtain ⟨s, h', rfl⟩ := exceptMap_ok h; exact single_all hf h' hn
  case strs l =>
    obtain ⟨s, h', rfl⟩ := exceptMap_ok h
    refine list_all hf h' ((namesL_iff _).2 fun p hp => ?_)
    obtain ⟨c, hc, rfl⟩ := List.mem_map.1 hp
    exact ⟨hn c hc, trivial⟩
  case pairs l => obtain ⟨s, h', rfl⟩ := exceptMap_ok h; exact list_all hf h' hn
  case mapStr m =>
    obtain ⟨s, h', rfl⟩ := exceptMap_ok h
    refine map_all hf h' ((namesM_iff _).2 fun p hp => ?_)
    obtain ⟨c, hc, rfl⟩ := List.mem_map.1 hp
    exact ⟨(hn c hc).1, (hn c hc).2, trivial⟩
  case mapPair m => obtain ⟨s, h', rfl⟩ := exceptMap_ok h; exact map_all hf h' hn
  case map2Str m =>
    obtain ⟨s, h', rfl⟩ := exceptMap_ok h
    refine map2_all hf h' ((namesM2_iff _).2 fun p hp => ?_) trivial
    obtain ⟨c, hc, rfl⟩ := List.mem_map.1 hp
    exact ⟨(hn c hc).1, (hn c hc).2.1, (hn c hc).2.2, trivial⟩
  case map2Pair m => obtain ⟨s, h', rfl⟩ := exceptMap_ok h; exact map2_all hf h' hn trivial
  case struct s => cases h; exact hn
  case structs s => cases h; exact hn
  case mapStruct s => cases h; exact hn
  case map2Struct s => cases h; exact hn
  all_goals cases h

end step

theorem newValueN_all : ∀ (n : Nat) (v : SVal) (r : Value), newValueN n v = .ok r → v.Names IsUtf8 → r.All IsUtf8
  | 0, _, _, h => by cases h
  | n + 1, _, _, h => step_all (newValueN_all n) h

end Verif.Spec
