import Verif.Model.Describe
import Verif.Props.Registry
import Verif.Props.TypedMarks
/-!
# C168: descriptions of built-in functions
-/
namespace Verif.Fn
open Typed (MSpec MV MOut)

variable {run : Typed.Run} {x : Typed.Ext} {conv : Typed.MConv}

/-- The number of parameters, which does not depend on what functions do. -/
def Known.count (k : Known) : Nat := paramCount (k.spec (fun _ _ => none) Typed.Demo.ext Typed.Demo.mconv)

theorem known_count (k : Known) : paramCount (k.spec run x conv) = k.count := by
  cases k with
  | scalar f => cases f <;> rfl
  | typed f =>
    cases f with
    | fn f => cases f <;> rfl
    | sensitive => rfl
    | nonsensitive => rfl

/-- What is checked of each entry of the tables: a description for each parameter, whatever the base directory. -/
def okEntry (name : Bytes) (k : Option Known) (inFuncs : Bool) : Bool :=
  match k with
  | some k => GoMap.get? descriptionCounts name == some k.count
  | none => !inFuncs && (GoMap.get? descriptionCounts name).isSome

/-- Whether a function of the table is one of package funcs, by its Go name. -/
def FnId.inFuncs : FnId → Bool
  | .go name => (b "funcs.").isPrefixOf name
  | .file _ _ => true

theorem core_ok : (coreTable.all fun e => okEntry e.1 e.2.known e.2.inFuncs) = true := by decide +kernel

theorem file_ok : (fileTable.all fun e => okEntry e.1 (GoMap.get? makeNames e.2) true) = true := by decide +kernel

theorem stored_or {α β : Type} (f : Bytes × β → α) {n : Bytes} {v : α} : ∀ (l : List (Bytes × β)) (m : GoMap Bytes α),
    GoMap.get? (l.foldl (fun m e => GoMap.set m e.1 (f e)) m) n = some v → (∃ e ∈ l, e.1 = n ∧ v = f e) ∨ GoMap.get? m n = some v
  | [], _, h => Or.inr h
  | e :: l, m, h => by
    rcases stored_or f l _ h with ⟨e', he, hx⟩ | h
    · exact Or.inl ⟨e', List.mem_cons_of_mem _ he, hx⟩
    · rw [GoMap.get?_set] at h
      split at h
      · rename_i hn; cases h; exact Or.inl ⟨e, List.mem_cons_self .., hn.symm ▸ rfl, rfl⟩
      · exact Or.inr h

theorem builtin_ok {base : Option (List Bytes)} {m : GoMap Bytes FnId} (hm : coreFunctions base = .ok m) {name : Bytes} {id : FnId}
    (hid : GoMap.get? m name = some id) : okEntry name id.known id.inFuncs = true := by
  have core : ∀ {id}, GoMap.get? coreTable name = some id → okEntry name id.known id.inFuncs = true := fun h =>
    List.all_eq_true.1 core_ok _ (GoMap.get?_mem h)
  match base, hm with
  | none, hm => cases hm; exact core hid
  | some (d :: rest), hm =>
    cases hm
    rcases stored_or (fun e : Bytes × Bytes => FnId.file e.2 d) fileTable coreTable hid with ⟨e, he, hn, rfl⟩ | h
    · subst hn; exact List.all_eq_true.1 file_ok _ he
    · exact core h

/-- **C168**: `WithDescription` does not panic for any built-in function of package funcs under its name, whatever the base directory; it gives the
description of the list, one for each parameter, in order, and the function does what it did.  Functions of other packages, whose parameters are not in this repository: `C168_extern`. -/
theorem C168_funcs (t : Texts) {base : Option (List Bytes)} {m : GoMap Bytes FnId} (hm : coreFunctions base = .ok m) {name : Bytes} {id : FnId}
    (hid : GoMap.get? m name = some id) (hf : id.inFuncs = true) :
    ∃ k, id.known = some k ∧ ∀ text params, ∃ d, withDescription t name ⟨k.spec run x conv, text, params⟩ = .ok d ∧
      d.text = t.text name ∧ d.params.length = paramCount d.spec ∧ (∀ i p, d.params[i]? = some p → p = t.param name i) ∧ ∀ args, Typed.mcall d.spec args = Typed.mcall (k.spec run x conv) args := by
  have h := builtin_ok hm hid
  cases hk : id.known with
  | none => rw [hk, hf] at h; simp [okEntry] at h
  | some k =>
    rw [hk] at h
    simp only [okEntry, beq_iff_eq] at h
    refine ⟨k, rfl, fun text params => ?_⟩
    simp only [withDescription, h, known_count]
    refine ⟨_, rfl, rfl, by simp [known_count], fun i p hp => ?_, fun _ => rfl⟩
    simp only [List.getElem?_map, Option.map_eq_some_iff, List.getElem?_eq_some_iff] at hp
    obtain ⟨j, ⟨_, hj⟩, rfl⟩ := hp
    simp only [List.getElem_range] at hj
    rw [hj]

/-- Whether there are as many descriptions as the recalled parameters of a function of another package. -/
def okExtern (name : Bytes) : FnId → Bool
  | .go g => match GoMap.get? externParams g with
    | some (n, var) => GoMap.get? descriptionCounts name == some (n + if var then 1 else 0)
    | none => (b "funcs.").isPrefixOf g
  | .file _ _ => true

theorem extern_ok : (coreTable.all fun e => okExtern e.1 e.2) = true := by decide +kernel

/-- The same for the built-in functions of other packages, if these have the parameters that are recalled in `externParams`, which has all of them. -/
theorem C168_extern (t : Texts) {base : Option (List Bytes)} {m : GoMap Bytes FnId} (hm : coreFunctions base = .ok m) {name : Bytes} {id : FnId}
    (hid : GoMap.get? m name = some id) (hf : id.inFuncs = false) :
    ∃ g n var, id = .go g ∧ GoMap.get? externParams g = some (n, var) ∧ ∀ f : MSpec, f.params.length = n → f.var.isSome = var → ∀ text params,
      ∃ d, withDescription t name ⟨f, text, params⟩ = .ok d ∧ d.text = t.text name ∧ d.params.length = paramCount d.spec ∧
        (∀ i p, d.params[i]? = some p → p = t.param name i) ∧ ∀ args, Typed.mcall d.spec args = Typed.mcall f args := by
  have h : okExtern name id = true := by
    have core : ∀ {id}, GoMap.get? coreTable name = some id → okExtern name id = true := fun h => List.all_eq_true.1 extern_ok _ (GoMap.get?_mem h)
    match base, hm with
    | none, hm => cases hm; exact core hid
    | some (d :: rest), hm =>
      cases hm
      rcases stored_or (fun e : Bytes × Bytes => FnId.file e.2 d) fileTable coreTable hid with ⟨e, he, hn, rfl⟩ | h
      · cases hf
      · exact core h
  cases id with
  | file k d => cases hf
  | go g =>
    simp only [okExtern] at h
    simp only [FnId.inFuncs] at hf
    cases hg : GoMap.get? externParams g with
    | none => rw [hg] at h; simp [hf] at h
    | some e =>
      obtain ⟨n, var⟩ := e
      rw [hg] at h
      simp only [beq_iff_eq] at h
      refine ⟨g, n, var, rfl, hg, fun f hp hv text params => ?_⟩
      have hc : n + (if var = true then 1 else 0) = paramCount f := by rw [paramCount, hp, hv]
      simp only [withDescription, h, hc]
      refine ⟨_, rfl, rfl, by simp, fun i p hp => ?_, fun _ => rfl⟩
      simp only [List.getElem?_map, Option.map_eq_some_iff, List.getElem?_eq_some_iff] at hp
      obtain ⟨j, ⟨_, hj⟩, rfl⟩ := hp
      simp only [List.getElem_range] at hj
      rw [hj]

/-- Every built-in function has an entry in the list. -/
theorem C168_listed {base : Option (List Bytes)} {m : GoMap Bytes FnId} (hm : coreFunctions base = .ok m) {name : Bytes} {id : FnId}
    (hid : GoMap.get? m name = some id) : ∃ n, GoMap.get? descriptionCounts name = some n := by
  have h := builtin_ok hm hid
  cases hk : id.known with
  | none => rw [hk] at h; simp only [okEntry, Bool.and_eq_true] at h; exact Option.isSome_iff_exists.1 h.2
  | some k => rw [hk] at h; simp only [okEntry, beq_iff_eq] at h; exact ⟨_, h⟩

/-- Of any other function: it panics exactly if there are descriptions for that name, for another number of parameters; so a function that stands in for a built-in one (C118) may not be
described. -/
theorem C168_panics (t : Texts) (name : Bytes) (f : Described) :
    (∃ e, withDescription t name f = .error e) ↔ ∃ n, GoMap.get? descriptionCounts name = some n ∧ n ≠ paramCount f.spec := by
  unfold withDescription
  cases GoMap.get? descriptionCounts name with
  | none => simp
  | some n =>
    by_cases h : n = paramCount f.spec
    · simp [h]
    · simp [h]

/-- A function under a name that is not in the list stays as it is. -/
theorem C168_unlisted (t : Texts) {name : Bytes} (h : ∀ e ∈ descriptionCounts, e.1 ≠ name) (f : Described) : withDescription t name f = .ok f := by
  have hn : GoMap.get? descriptionCounts name = none := by
    cases hg : GoMap.get? descriptionCounts name with
    | none => rfl
    | some n => exact absurd rfl (h _ (GoMap.get?_mem hg))
  rw [withDescription, hn]

/-- The entries of the list for which there is no function though there is a base directory: those of `templatefile`, `plantimestamp` and `type` describe nothing. -/
theorem C168_unused (name : Bytes) (n : Nat) (h : (name, n) ∈ descriptionCounts) (base : Option (List Bytes)) (m : GoMap Bytes FnId) (hm : coreFunctions base = .ok m) (hb : base ≠ none) :
    GoMap.get? m name = none ↔ name = b "templatefile" ∨ name = b "plantimestamp" ∨ name = b "type" := by
  match base, hm, hb with
  | some (d :: rest), hm, _ =>
    cases hm
    have fold : ∀ (l : List (Bytes × Bytes)) (m : GoMap Bytes FnId),
        GoMap.get? (l.foldl (fun m e => GoMap.set m e.1 (FnId.file e.2 d)) m) name = none ↔ (l.all fun e => e.1 != name) = true ∧ GoMap.get? m name = none := by
      intro l
      induction l with
      | nil => intro m; simp
      | cons e l ih =>
        intro m
        rw [List.foldl_cons, ih, GoMap.get?_set, List.all_cons]
        by_cases he : name = e.1
        · subst he; simp
        · have : ¬ e.1 = name := fun h => he h.symm
          simp [this]
    have table : (descriptionCounts.all fun e => ((fileTable.all fun f => f.1 != e.1) && (GoMap.get? coreTable e.1).isNone) ==
        (e.1 == b "templatefile" || e.1 == b "plantimestamp" || e.1 == b "type")) = true := by decide +kernel
    have := List.all_eq_true.1 table _ h
    rw [beq_iff_eq] at this
    refine (fold fileTable coreTable).trans ?_
    have h2 : ((fileTable.all fun f => f.1 != name) = true ∧ GoMap.get? coreTable name = none) ↔
        ((fileTable.all fun f => f.1 != name) && (GoMap.get? coreTable name).isNone) = true := by
      rw [Bool.and_eq_true, Option.isNone_iff_eq_none]
    rw [h2, this]
    simp only [Bool.or_eq_true, beq_iff_eq, or_assoc]

-- `lookup` has two parameters and a variadic one, and three descriptions.
example : ∃ d, withDescription ⟨id, fun n k => n ++ List.replicate k 0⟩ (b "lookup") ⟨(Known.typed (.fn .lookup)).spec (fun _ _ => none) Typed.Demo.ext Typed.Demo.mconv, [], []⟩ = .ok d ∧
    d.text = b "lookup" ∧ d.params.length = 3 ∧ GoMap.get? coreTable (b "lookup") = some (.go (b "funcs.LookupFunc")) := ⟨_, rfl, rfl, rfl, rfl⟩

-- `format` is of package stdlib, with one parameter and a variadic one.
example : GoMap.get? coreTable (b "format") = some (.go (b "stdlib.FormatFunc")) ∧ GoMap.get? externParams (b "stdlib.FormatFunc") = some (1, true) ∧
    (FnId.go (b "stdlib.FormatFunc")).inFuncs = false := ⟨by decide +kernel, by decide +kernel, by decide +kernel⟩

-- There is an entry for `type`, and no function of that name; there is none for `lookups`.
example : (b "type", 1) ∈ descriptionCounts ∧ (∃ m, coreFunctions (some [b "."]) = .ok m ∧ GoMap.get? m (b "type") = none) ∧ ∀ e ∈ descriptionCounts, e.1 ≠ b "lookups" :=
  ⟨by decide +kernel, ⟨_, rfl, by decide +kernel⟩, by decide +kernel⟩

-- Under the name of another function it panics.
example : withDescription ⟨id, fun n _ => n⟩ (b "length") ⟨(Known.typed (.fn .lookup)).spec (fun _ _ => none) Typed.Demo.ext Typed.Demo.mconv, [], []⟩ = .error .panic := rfl

end Verif.Fn
