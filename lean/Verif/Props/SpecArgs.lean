import Verif.Model.SpecArgs
import Verif.Props.Spec
/-!
# Properties of the variable arguments of `NewStruct`

C152: every map that is passed counts, and no call panics.
-/
namespace Verif.Spec

/-- The names of the fields that a specification has. -/
def Struct.names : Struct → List Bytes
  | .mk _ none => []
  | .mk _ (some fs) => fs.map Prod.fst

/-- The names in a map, of which the nil map has none. -/
def namesOf (m : Option (List (Bytes × SVal))) : List Bytes := (m.getD []).map Prod.fst

theorem collect_names {f : SVal → Except SpecErr Value} : ∀ {m : List (Bytes × SVal)} {fs : List (Bytes × Value)},
    collectM (fieldEntry f) m = .ok fs → fs.map Prod.fst = m.map Prod.fst
  | [], fs, h => by
    simp only [collectM] at h
    injection h with h
    rw [← h]; rfl
  | (k, v) :: m, fs, h => by
    simp only [collectM, fieldEntry] at h
    split at h
    · cases h
    · rename_i y hy
      split at hy
      · split at hy
        · cases hy
        · injection hy with hy
          split at h
          · cases h
          · rename_i ys hys
            injection h with h
            rw [← h, ← hy]
            simp only [List.map_cons, collect_names hys]
      · cases hy

/-- What a call does: without maps the specification has no fields; with maps it has those of the first one, and is
refused exactly when a name or a value of the first one is; a slice without elements panics. -/
theorem C152_partial (name : Bytes) :
    newStructArgs name none = .done (.mk name none) ∧
    (∀ m ms s, newStructArgs name (some (m :: ms)) = .done s → s.className = name ∧ s.names = namesOf m) ∧
    (∀ m ms, (∃ s, newStructArgs name (some (m :: ms)) = .done s) ↔ ∀ e ∈ m.getD [], IsUtf8 e.1 ∧ ∃ r, DenVal e.2 r) ∧
    ∀ v, newStructArgs name v = .panic ↔ v = some [] := by
  refine ⟨rfl, fun m ms s h => ?_, fun m ms => ?_, fun v => ?_⟩
  · simp only [newStructArgs, NewStruct, newStruct] at h
    split at h
    · cases h
    · rename_i fs hfs
      simp only [Call.of] at h
      injection h with h
      rw [← h]
      exact ⟨rfl, collect_names hfs⟩
  · rw [← (C02_newStruct name).2.1]
    simp only [newStructArgs]
    cases NewStruct name (some (m.getD [])) with
    | ok s => simp [Call.of]
    | error e => simp [Call.of]
  · match v with
    | none => simp [newStructArgs]
    | some [] => simp [newStructArgs]
    | some (m :: ms) =>
      simp only [newStructArgs]
      cases NewStruct name (some (m.getD [])) <;> simp [Call.of]

example : newStructArgs (b "Team") (some [some [(b "Lead", .str (b "Person"))], none]) =
    .done (.mk (b "Team") (some [(b "Lead", .single (.mk (b "Person") none))])) := rfl

/-- The second map is dropped silently, even if it could not be accepted; a slice without elements panics. -/
theorem C152_violated : ∃ (name k : Bytes) (s : Struct) (m m' : List (Bytes × SVal)),
    newStructArgs name (some [some m, some m']) = .done s ∧ k ∈ namesOf (some m') ∧ k ∉ s.names ∧
      (∃ e, newStructArgs name (some [some m']) = .fail e) ∧ newStructArgs name (some []) = .panic :=
  ⟨b "Team", b "Lead", .mk (b "Team") (some []), [], [(b "Lead", .nil)], rfl, by decide, by decide, ⟨.invalidType, rfl⟩, rfl⟩
end Verif.Spec
