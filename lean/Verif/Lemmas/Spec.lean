import Verif.Model.Spec
/-! Helper lemmas about the specification builder. -/
namespace Verif.Spec

theorem collectM_congr {α β ε : Type} {f g : α → Except ε β} {l : List α}
    (h : ∀ a ∈ l, f a = g a) : collectM f l = collectM g l := by
  induction l with
  | nil => rfl
  | cons a l ih =>
    have h1 := h a (by simp)
    have h2 := ih (fun x hx => h x (by simp [hx]))
    simp [collectM, h1, h2]

theorem depthMap_le {m : List (Bytes × SVal)} {e} (h : e ∈ m) :
    e.2.depth ≤ SVal.depthMap m := by
  induction m with
  | nil => simp at h
  | cons a m ih =>
    obtain ⟨k, v⟩ := a
    simp only [SVal.depthMap]
    rcases List.mem_cons.mp h with h | h
    · subst h; simp; omega
    · have := ih h; omega

theorem depthPairs_le {l : List SPair} {p} (h : p ∈ l) : p.depth ≤ SPair.depthList l := by
  induction l with
  | nil => simp at h
  | cons a m ih =>
    simp only [SPair.depthList]
    rcases List.mem_cons.mp h with h | h
    · subst h; omega
    · have := ih h; omega

theorem depthMapP_le {m : List (Bytes × SPair)} {e} (h : e ∈ m) :
    e.2.depth ≤ SPair.depthMap m := by
  induction m with
  | nil => simp at h
  | cons a m ih =>
    obtain ⟨k, v⟩ := a
    simp only [SPair.depthMap]
    rcases List.mem_cons.mp h with h | h
    · subst h; simp; omega
    · have := ih h; omega

theorem depthMap2_le {m : List ((Bytes × Bytes) × SPair)} {e} (h : e ∈ m) :
    e.2.depth ≤ SPair.depthMap2 m := by
  induction m with
  | nil => simp at h
  | cons a m ih =>
    obtain ⟨k, v⟩ := a
    simp only [SPair.depthMap2]
    rcases List.mem_cons.mp h with h | h
    · subst h; simp; omega
    · have := ih h; omega

section
variable {f g : SVal → Except SpecErr Value} {d : Nat} (hfg : ∀ v : SVal, v.depth < d → f v = g v)
include hfg

theorem newStruct_congr {name} {m : Option (List (Bytes × SVal))}
    (hd : ∀ m', m = some m' → SVal.depthMap m' < d) :
    newStruct f name m = newStruct g name m := by
  cases m with
  | none => rfl
  | some m =>
    have hm := hd m rfl
    simp only [newStruct]
    rw [collectM_congr]
    intro e he
    have := depthMap_le he
    unfold fieldEntry
    rw [hfg e.2 (by omega)]

theorem newSingleStruct_congr {p : SPair} (hd : p.depth ≤ d) :
    newSingleStruct f p = newSingleStruct g p := by
  obtain ⟨a, c⟩ := p
  cases a <;> try rfl
  cases c <;> try rfl
  rename_i m
  simp only [newSingleStruct]
  apply newStruct_congr hfg
  intro m' hm'
  cases hm'
  simp [SPair.depth, SVal.depth] at hd
  omega

theorem newListStruct_congr {l : List SPair} (hd : SPair.depthList l ≤ d) :
    newListStruct f l = newListStruct g l := by
  apply collectM_congr
  intro p hp
  have := depthPairs_le hp
  exact newSingleStruct_congr hfg (by omega)

theorem newMapStruct_congr {m : List (Bytes × SPair)} (hd : SPair.depthMap m ≤ d) :
    newMapStruct f m = newMapStruct g m := by
  apply collectM_congr
  intro e he
  have := depthMapP_le he
  unfold mapEntry
  rw [newSingleStruct_congr hfg (by omega)]

theorem newMap2Struct_congr {m : List ((Bytes × Bytes) × SPair)} (hd : SPair.depthMap2 m ≤ d) (acc) :
    newMap2Struct f acc m = newMap2Struct g acc m := by
  induction m generalizing acc with
  | nil => rfl
  | cons e m ih =>
    obtain ⟨k, u⟩ := e
    simp only [SPair.depthMap2] at hd
    have h1 : newMapStruct f [(k.2, u)] = newMapStruct g [(k.2, u)] := by
      apply newMapStruct_congr hfg
      simp only [SPair.depthMap]; omega
    simp only [newMap2Struct, h1]
    split
    · rfl
    · exact ih (by omega) _

theorem newValueStep_congr {v : SVal} (hd : v.depth ≤ d) :
    newValueStep f v = newValueStep g v := by
  cases v <;> simp only [newValueStep] <;> simp only [SVal.depth] at hd
  case str => rw [newSingleStruct_congr hfg]; simp [SPair.depth, SVal.depth]
  case pair => rw [newSingleStruct_congr hfg hd]
  case strs l =>
    rw [newListStruct_congr hfg]
    have : ∀ l : List Bytes, SPair.depthList (l.map fun u => SPair.mk (.str u) .nil) = 0 := by
      intro l; induction l <;> simp_all [SPair.depthList, SPair.depth, SVal.depth]
    rw [this]; omega
  case pairs => rw [newListStruct_congr hfg hd]
  case mapStr m =>
    rw [newMapStruct_congr hfg]
    have : ∀ l : List (Bytes × Bytes),
        SPair.depthMap (l.map fun e => (e.1, SPair.mk (.str e.2) .nil)) = 0 := by
      intro l; induction l <;> simp_all [SPair.depthMap, SPair.depth, SVal.depth]
    rw [this]; omega
  case mapPair => rw [newMapStruct_congr hfg hd]
  case map2Str m =>
    rw [newMap2Struct_congr hfg]
    have : ∀ l : List ((Bytes × Bytes) × Bytes),
        SPair.depthMap2 (l.map fun e => (e.1, SPair.mk (.str e.2) .nil)) = 0 := by
      intro l; induction l <;> simp_all [SPair.depthMap2, SPair.depth, SVal.depth]
    rw [this]; omega
  case map2Pair => rw [newMap2Struct_congr hfg hd]
end

theorem newValueN_eq (n m : Nat) (v : SVal) (h1 : v.depth < n) (h2 : v.depth < m) :
    newValueN n v = newValueN m v := by
  induction n generalizing m v with
  | zero => omega
  | succ n ih =>
    cases m with
    | zero => omega
    | succ m =>
      simp only [newValueN]
      apply newValueStep_congr (d := v.depth) _ (Nat.le_refl _)
      intro w hw
      exact ih m w (by omega) (by omega)

/-- The recursion bound in `newValue` is never reached. -/
theorem newValue_eq (v : SVal) : newValue v = newValueStep newValue v := by
  unfold newValue
  simp only [newValueN]
  apply newValueStep_congr (d := v.depth) _ (Nat.le_refl _)
  intro w hw
  show newValueN _ w = newValueN (w.depth + 1) w
  exact newValueN_eq _ _ _ hw (by omega)

end Verif.Spec
