import Verif.Model.Registry
import Verif.Props.Call
/-!
# C118: the functions that are built in
-/

namespace Verif.Fn

/-- The names of the functions that read files, with what makes them. -/
inductive FileFn : Bytes → Bytes → Prop where
  | file : FileFn (b "file") (b "funcs.MakeFileFunc(_, false)")
  | base64 : FileFn (b "filebase64") (b "funcs.MakeFileFunc(_, true)")
  | «exists» : FileFn (b "fileexists") (b "funcs.MakeFileExistsFunc")
  | set : FileFn (b "fileset") (b "funcs.MakeFileSetFunc")
  | base64sha256 : FileFn (b "filebase64sha256") (b "funcs.MakeFileBase64Sha256Func")
  | base64sha512 : FileFn (b "filebase64sha512") (b "funcs.MakeFileBase64Sha512Func")
  | md5 : FileFn (b "filemd5") (b "funcs.MakeFileMd5Func")
  | sha1 : FileFn (b "filesha1") (b "funcs.MakeFileSha1Func")
  | sha256 : FileFn (b "filesha256") (b "funcs.MakeFileSha256Func")
  | sha512 : FileFn (b "filesha512") (b "funcs.MakeFileSha512Func")

theorem get?_stored {α β κ : Type} [DecidableEq κ] (f : κ × β → α) (n : κ) : ∀ (l : List (κ × β)) (m : GoMap κ α),
    (l.map Prod.fst).Nodup → GoMap.get? (l.foldl (fun m e => GoMap.set m e.1 (f e)) m) n =
      ((l.find? fun e => e.1 = n).map f).or (GoMap.get? m n)
  | [], m, _ => by simp
  | e :: l, m, h => by
    rw [List.foldl_cons, get?_stored f n l _ (List.nodup_cons.1 h).2, GoMap.get?_set]
    by_cases he : e.1 = n
    · have : l.find? (fun e => e.1 = n) = none := by
        rw [List.find?_eq_none]
        intro x hx hxn
        exact (List.nodup_cons.1 h).1 (List.mem_map.2 ⟨x, hx, by rw [he]; exact of_decide_eq_true hxn⟩)
      simp [this, he]
    · simp [he]

theorem fileTable_nodup : (fileTable.map Prod.fst).Nodup := by decide +kernel

theorem mem_fileTable {e : Bytes × Bytes} : e ∈ fileTable ↔ FileFn e.1 e.2 := by
  obtain ⟨n, mk⟩ := e
  constructor
  · intro h
    simp only [fileTable, List.mem_cons, List.not_mem_nil, or_false, Prod.mk.injEq] at h
    rcases h with ⟨rfl, rfl⟩ | ⟨rfl, rfl⟩ | ⟨rfl, rfl⟩ | ⟨rfl, rfl⟩ | ⟨rfl, rfl⟩ | ⟨rfl, rfl⟩ | ⟨rfl, rfl⟩ | ⟨rfl, rfl⟩ |
      ⟨rfl, rfl⟩ | ⟨rfl, rfl⟩ <;> constructor
  · intro h
    have key : ∀ n mk, FileFn n mk → fileTable.contains (n, mk) = true := by
      intro n mk h
      cases h <;> decide +kernel
    exact List.contains_iff_mem.1 (key _ _ h)

theorem core_no_file {n mk d : Bytes} : GoMap.get? coreTable n ≠ some (.file mk d) := by
  intro h
  have hm : (n, FnId.file mk d) ∈ coreTable := GoMap.get?_mem h
  have : ∀ e ∈ coreTable, (match e.2 with | .go _ => true | .file _ _ => false) = true := by decide +kernel
  exact absurd (this _ hm) (by simp)

/-- The table of all functions, by name. -/
theorem get?_core {d : Bytes} {rest : List Bytes} {m : GoMap Bytes FnId} (h : coreFunctions (some (d :: rest)) = .ok m) (n : Bytes) :
    (∀ mk, FileFn n mk → GoMap.get? m n = some (.file mk d)) ∧
      ((∀ mk, ¬FileFn n mk) → GoMap.get? m n = GoMap.get? coreTable n) := by
  cases h
  constructor
  · intro mk hf
    rw [get?_stored (fun e => FnId.file e.2 d) n fileTable coreTable fileTable_nodup]
    have : fileTable.find? (fun e => e.1 = n) = some (n, mk) := by
      cases hf <;> decide +kernel
    rw [this]; rfl
  · intro hf
    rw [get?_stored (fun e => FnId.file e.2 d) n fileTable coreTable fileTable_nodup]
    have : fileTable.find? (fun e => e.1 = n) = none := by
      rw [List.find?_eq_none]
      intro x hx hxn
      have := mem_fileTable.1 hx
      rw [show x.1 = n from of_decide_eq_true hxn] at this
      exact hf _ this
    rw [this]; rfl

/-- **C118, in part.**  With a base directory every function of files is there and reads below the first one given;
further arguments are without effect.  Missing: an empty list of base directories (`C118_violated`). -/
theorem C118_partial {d : Bytes} {rest : List Bytes} : ∃ m, coreFunctions (some (d :: rest)) = .ok m ∧
    coreFunctions (some [d]) = .ok m ∧
    (∀ n mk d', GoMap.get? m n = some (.file mk d') ↔ FileFn n mk ∧ d' = d) := by
  refine ⟨_, rfl, rfl, ?_⟩
  intro n mk d'
  have key := get?_core (d := d) (rest := rest) rfl n
  constructor
  · intro h
    by_cases hf : ∃ mk, FileFn n mk
    · obtain ⟨mk', hf⟩ := hf
      rw [key.1 _ hf] at h
      cases h
      exact ⟨hf, rfl⟩
    · rw [key.2 fun mk h => hf ⟨mk, h⟩] at h
      exact absurd h core_no_file
  · rintro ⟨hf, rfl⟩
    exact key.1 _ hf

example : ∃ m, coreFunctions (some [b "/etc", b "/tmp"]) = .ok m ∧
    GoMap.get? m (b "file") = some (.file (b "funcs.MakeFileFunc(_, false)") (b "/etc")) :=
  ⟨_, rfl, by decide +kernel⟩

/-- Without a base directory no function reads files. -/
theorem C118_without : ∃ m, coreFunctions none = .ok m ∧ ∀ n mk d, GoMap.get? m n ≠ some (.file mk d) :=
  ⟨_, rfl, fun _ _ _ => core_no_file⟩

/-- All other functions are the same for all base directories. -/
theorem C118_others {base base' : Option (List Bytes)} {m m' : GoMap Bytes FnId} (h : coreFunctions base = .ok m)
    (h' : coreFunctions base' = .ok m') {n : Bytes} (hn : ∀ mk, ¬FileFn n mk) : GoMap.get? m n = GoMap.get? m' n := by
  have key : ∀ {base m}, coreFunctions base = .ok m → GoMap.get? m n = GoMap.get? coreTable n := by
    intro base m h
    match base, h with
    | none, h => cases h; rfl
    | some [], h => cases h
    | some (d :: rest), h => exact (get?_core h n).2 hn
  rw [key h, key h']

example : (∀ mk, ¬FileFn (b "upper") mk) ∧ GoMap.get? coreTable (b "upper") = some (.go (b "stdlib.UpperFunc")) := by
  refine ⟨fun mk h => ?_, by decide +kernel⟩
  generalize hx : b "upper" = x at h
  cases h <;> exact absurd hx (by decide +kernel)

/-- **C118 fails**: a list of base directories that is there but empty panics; it is the only one. -/
theorem C118_violated (base : Option (List Bytes)) : coreFunctions base = .error .panic ↔ base = some [] := by
  match base with
  | none => simp [coreFunctions]
  | some [] => simp [coreFunctions]
  | some (d :: rest) => simp [coreFunctions]

/-! ## The functions after `DefaultTreeFunctions` -/

theorem get?_mapped {α β : Type} (f : α → β) (n : Bytes) : ∀ m : GoMap Bytes α,
    GoMap.get? (m.map fun e => (e.1, f e.2)) n = (GoMap.get? m n).map f
  | [] => rfl
  | (k, v) :: m => by
    simp only [List.map_cons, GoMap.get?]
    by_cases h : k = n
    · simp [h]
    · simp [h, get?_mapped f n m]

/-- After `DefaultTreeFunctions` the functions of files read below the working directory, whatever functions the caller
has registered; all other functions of the table are the built-in ones, and of the caller's functions exactly those
with other names are kept. -/
theorem C118_defaults (run : FnId → HclFn) {ord : GoMap Bytes HclFn → GoMap Bytes HclFn} (ho : ∀ m, (ord m).Perm m)
    (t : GoMap Bytes HclFn) : ∃ t', defaultTreeFuncs run ord (.hcl (some t)) = .ok (.hcl (some t')) ∧
      (∀ n mk, FileFn n mk → GoMap.get? t' n = some (run (.file mk (b ".")))) ∧
      (∀ n f, GoMap.get? coreTable n = some f → GoMap.get? t' n = some (run f)) ∧
      (∀ n, GoMap.get? coreTable n = none → (∀ mk, ¬FileFn n mk) → GoMap.get? t' n = GoMap.get? t n) := by
  obtain ⟨core, hc⟩ : ∃ m, coreFunctions (some [b "."]) = .ok m := ⟨_, rfl⟩
  have key := get?_core hc
  have hnd : (GoMap.keys (core.map fun e => (e.1, run e.2))).Nodup := by
    have : GoMap.keys (core.map fun e => (e.1, run e.2)) = GoMap.keys core := by
      simp [GoMap.keys, Function.comp_def]
    rw [this]
    cases hc
    decide +kernel
  obtain ⟨t', h1, h2, h3⟩ := C82_partial (t := t) hnd (ho _)
  have hin : ∀ {n f}, GoMap.get? core n = some f → GoMap.get? t' n = some (run f) := by
    intro n f h
    have hg : GoMap.get? (core.map fun e => (e.1, run e.2)) n = some (run f) := by rw [get?_mapped, h]; rfl
    rw [h3 n (GoMap.get?_isSome.1 (by rw [hg]; rfl)), hg]
  have hfile : ∀ n mk, FileFn n mk → GoMap.get? coreTable n = none := by
    intro n mk h
    cases h <;> decide +kernel
  refine ⟨t', ?_, fun n mk h => hin ((key n).1 mk h), fun n f h => hin ?_, fun n h hf => h2 n ?_⟩
  · rw [defaultTreeFuncs, hc]
    exact h1
  · rw [(key n).2 (fun mk hf => by rw [hfile n mk hf] at h; cases h)]
    exact h
  · intro hm
    have hs := GoMap.get?_isSome.2 hm
    rw [get?_mapped, (key n).2 hf, h] at hs
    cases hs

/-- The function `file` of the caller, which reads below another directory, is replaced. -/
example (run : FnId → HclFn) (mine : HclFn) : ∃ t',
    defaultTreeFuncs run id (.hcl (some [(b "file", mine), (b "mine", mine)])) = .ok (.hcl (some t')) ∧
      GoMap.get? t' (b "file") = some (run (.file (b "funcs.MakeFileFunc(_, false)") (b "."))) ∧
      GoMap.get? t' (b "mine") = some mine := by
  obtain ⟨t', h1, h2, _, h4⟩ := C118_defaults run (ord := id) (fun m => .refl _) [(b "file", mine), (b "mine", mine)]
  refine ⟨t', h1, h2 _ _ .file, ?_⟩
  rw [h4 _ (by decide +kernel)]
  · rw [GoMap.get?, if_neg (by decide +kernel), GoMap.get?, if_pos rfl]
  · intro mk h
    generalize hx : b "mine" = x at h
    cases h <;> exact absurd hx (by decide +kernel)

end Verif.Fn
