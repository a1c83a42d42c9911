import Verif.Model.Exported
import Verif.Props.Registry
/-!
# C170: functions of package funcs and the names under which they are called
-/
namespace Verif.Fn

/-- A small ASCII letter for a capital one. -/
def small (c : UInt8) : UInt8 := if 65 ≤ c ∧ c ≤ 90 then c + 32 else c

/-- The name of a function in the language: its Go name without `Func`, in small letters. -/
def callName (g : Bytes) : Bytes := (g.take (g.length - 4)).map small

/-- The functions that are not in the table. -/
def Passed (g : Bytes) : Prop :=
  g = b "TypeFunc" ∨ g = b "TimeAddFunc" ∨ g = b "LogFunc" ∨ g = b "PowFunc" ∨ g = b "SignumFunc" ∨ g = b "ParseIntFunc"

instance (g : Bytes) : Decidable (Passed g) := inferInstanceAs (Decidable (_ ∨ _))

theorem exported_ok : (exported.all fun g => if Passed g then coreTable.all (fun e => e.2 != .go (b "funcs." ++ g))
    else GoMap.get? coreTable (callName g) == some (.go (b "funcs." ++ g)) && fileTable.all (fun e => e.1 != callName g)) = true := by
  decide +kernel

theorem names_ok : (coreTable.all fun e => exported.all fun g => e.2 != .go (b "funcs." ++ g) || e.1 == callName g) = true := by decide +kernel

/-- What the files of a base directory add does not matter for other names. -/
theorem kept {d name : Bytes} : ∀ (l : List (Bytes × Bytes)) (m : GoMap Bytes FnId), (l.all fun e => e.1 != name) = true →
    GoMap.get? (l.foldl (fun m e => GoMap.set m e.1 (FnId.file e.2 d)) m) name = GoMap.get? m name
  | [], _, _ => rfl
  | e :: l, m, h => by
    rw [List.all_cons, Bool.and_eq_true] at h
    rw [List.foldl_cons, kept l _ h.2, GoMap.get?_set]
    have h1 : ¬ e.1 = name := fun he => by simp [he] at h
    simp [h1]

/-- Functions that are the same for all calls come from the table. -/
theorem goCore {d name g : Bytes} : ∀ (l : List (Bytes × Bytes)) (m : GoMap Bytes FnId),
    GoMap.get? (l.foldl (fun m e => GoMap.set m e.1 (FnId.file e.2 d)) m) name = some (.go g) → GoMap.get? m name = some (.go g)
  | [], _, h => h
  | e :: l, m, h => by
    have h := goCore l _ h
    rw [GoMap.get?_set] at h
    split at h
    · cases h
    · exact h

theorem core_of {base : Option (List Bytes)} {m : GoMap Bytes FnId} (hm : coreFunctions base = .ok m) {name g : Bytes} (h : GoMap.get? m name = some (.go g)) :
    GoMap.get? coreTable name = some (.go g) := by
  match base, hm with
  | none, hm => cases hm; exact h
  | some (d :: rest), hm => cases hm; exact goCore fileTable coreTable h

/-- **C170, partial**: every function that package funcs exports is called by its own name, whatever the base directory, but for six of them. -/
theorem C170_partial {base : Option (List Bytes)} {m : GoMap Bytes FnId} (hm : coreFunctions base = .ok m) {g : Bytes} (hg : g ∈ exported) (hp : ¬ Passed g) :
    GoMap.get? m (callName g) = some (.go (b "funcs." ++ g)) := by
  have h := List.all_eq_true.1 exported_ok g hg
  rw [if_neg hp, Bool.and_eq_true, beq_iff_eq] at h
  match base, hm with
  | none, hm => cases hm; exact h.1
  | some (d :: rest), hm => cases hm; exact (kept fileTable coreTable h.2).trans h.1

/-- None is called by another name. -/
theorem C170_names {base : Option (List Bytes)} {m : GoMap Bytes FnId} (hm : coreFunctions base = .ok m) {g name : Bytes} (hg : g ∈ exported)
    (h : GoMap.get? m name = some (.go (b "funcs." ++ g))) : name = callName g := by
  have := List.all_eq_true.1 (List.all_eq_true.1 names_ok _ (GoMap.get?_mem (core_of hm h))) g hg
  simpa using this

/-- **C170 is violated**: six functions of the package cannot be called by any name.  Five of their names stand for functions of go-cty, `type` for none. -/
theorem C170_violated {base : Option (List Bytes)} {m : GoMap Bytes FnId} (hm : coreFunctions base = .ok m) :
    (∀ g, Passed g → g ∈ exported ∧ ∀ name, GoMap.get? m name ≠ some (.go (b "funcs." ++ g))) ∧
    GoMap.get? m (b "timeadd") = some (.go (b "stdlib.TimeAddFunc")) ∧ GoMap.get? m (b "log") = some (.go (b "stdlib.LogFunc")) ∧
    GoMap.get? m (b "pow") = some (.go (b "stdlib.PowFunc")) ∧ GoMap.get? m (b "signum") = some (.go (b "stdlib.SignumFunc")) ∧
    GoMap.get? m (b "parseint") = some (.go (b "stdlib.ParseIntFunc")) ∧ GoMap.get? m (b "type") = none := by
  refine ⟨fun g hp => ?_, ?_⟩
  · have hg : g ∈ exported := by rcases hp with rfl | rfl | rfl | rfl | rfl | rfl <;> decide +kernel
    refine ⟨hg, fun name h => ?_⟩
    have hx := List.all_eq_true.1 exported_ok g hg
    rw [if_pos hp] at hx
    have := List.all_eq_true.1 hx _ (GoMap.get?_mem (core_of hm h))
    simp at this
  · have core : ∀ name, (fileTable.all fun e => e.1 != name) = true → GoMap.get? m name = GoMap.get? coreTable name := fun name hn => by
      match base, hm with
      | none, hm => cases hm; rfl
      | some (d :: rest), hm => cases hm; exact kept fileTable coreTable hn
    refine ⟨?_, ?_, ?_, ?_, ?_, ?_⟩ <;> (rw [core _ (by decide +kernel)]; decide +kernel)

/-- The name behind the package. -/
def afterDot (g : Bytes) : Bytes := (g.dropWhile (· != 46)).drop 1

theorem others_ok : (coreTable.all fun e => match e.2 with
    | .go g => (b "funcs.").isPrefixOf g || e.1 == callName (afterDot g) || (e.1, g) == (b "abs", b "stdlib.AbsoluteFunc") || (e.1, g) == (b "reverse", b "stdlib.ReverseListFunc") ||
      (e.1, g) == (b "strrev", b "stdlib.ReverseFunc")
    | .file _ _ => false) = true := by decide +kernel

/-- Functions of other packages are called by their own names, too, but for `abs`, `reverse` (of lists) and `strrev` (of strings). -/
theorem C170_others {base : Option (List Bytes)} {m : GoMap Bytes FnId} (hm : coreFunctions base = .ok m) {g name : Bytes}
    (h : GoMap.get? m name = some (.go g)) (hf : (b "funcs.").isPrefixOf g = false) :
    name = callName (afterDot g) ∨ (name, g) = (b "abs", b "stdlib.AbsoluteFunc") ∨ (name, g) = (b "reverse", b "stdlib.ReverseListFunc") ∨
      (name, g) = (b "strrev", b "stdlib.ReverseFunc") := by
  have := List.all_eq_true.1 others_ok _ (GoMap.get?_mem (core_of hm h))
  simp only [hf, Bool.false_or, Bool.or_eq_true, beq_iff_eq] at this
  rcases this with ((h | h) | h) | h
  · exact Or.inl h
  · exact Or.inr (Or.inl h)
  · exact Or.inr (Or.inr (Or.inl h))
  · exact Or.inr (Or.inr (Or.inr h))

-- `stdlib.FormatDateFunc` is called by `formatdate`.
example : (b "funcs.").isPrefixOf (b "stdlib.FormatDateFunc") = false ∧ GoMap.get? coreTable (b "formatdate") = some (.go (b "stdlib.FormatDateFunc")) ∧
    callName (afterDot (b "stdlib.FormatDateFunc")) = b "formatdate" := ⟨by decide +kernel, by decide +kernel, by decide +kernel⟩

-- `UUIDV5Func` is called by `uuidv5`.
example : b "UUIDV5Func" ∈ exported ∧ ¬ Passed (b "UUIDV5Func") ∧ callName (b "UUIDV5Func") = b "uuidv5" ∧ ∃ m, coreFunctions none = .ok m :=
  ⟨by decide +kernel, by decide +kernel, by decide +kernel, _, rfl⟩

end Verif.Fn
