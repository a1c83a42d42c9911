import Verif.Spec.File
import Verif.Props.Encoding
import Verif.Lemmas.Utf8
import Verif.Lemmas.Path
set_option linter.unusedSimpArgs false
/-!
# Properties of the functions that read files

C88: errors do not show sensitive arguments.  C89: the contents are those of the file.  C90: `fileexists` and `file` agree.
C91: `fileset` lists the regular files.
-/
namespace Verif.File
open Path Funcs

/-! ## Examples of file systems -/

/-- `/w/a` holds a text, `/w/bin` other bytes, `/w/d` is a directory, `/w/x` may not be opened, `/w/a/b` goes through a
file; nothing else exists. -/
def exampleFS : FS where
  stat q :=
    if q = b "/w/a" ∨ q = b "/w/bin" ∨ q = b "/w/x" then .ok .regular
    else if q = b "/w/d" then .ok .directory
    else if q = b "/w/a/b" then .error (.other (b "not a directory"))
    else .error .notExist
  openRead q :=
    if q = b "/w/a" then .ok (.ok (b "text"))
    else if q = b "/w/bin" then .ok (.ok [0xFF])
    else if q = b "/w/x" then .error (.other (b "permission denied"))
    else if q = b "/w/d" then .ok (.error (b "is a directory"))
    else if q = b "/w/a/b" then .error (.other (b "not a directory"))
    else .error .notExist

/-- The same with a second directory that cannot be told from the first. -/
def twinFS : FS where
  stat q := if q = b "/w/d" ∨ q = b "/w/e" then .ok .directory else .error .notExist
  openRead q := if q = b "/w/d" ∨ q = b "/w/e" then .ok (.error (b "is a directory")) else .error .notExist

/-! ## C88: secrecy of the arguments in errors -/

theorem redact_eq {quote : Bytes → Bytes} {x y : Bytes} {ms : List (List Mark)} (h : ∃ m ∈ ms, sensitiveMark ∈ m) :
    redactIfSensitive quote x ms = redactIfSensitive quote y ms := by
  have : ms.any (fun m => decide (sensitiveMark ∈ m)) = true := by
    obtain ⟨m, hm, h⟩ := h
    exact List.any_eq_true.2 ⟨m, hm, by simpa using h⟩
  rw [redactIfSensitive, redactIfSensitive, if_pos this, if_pos this]

/-- `fileexists` gives nothing away of a sensitive path beyond the answer of the operating system. -/
theorem C88_fileexists {quote : Bytes → Bytes} {fs : FS} {home : Option Bytes} {base p p' : Bytes} {ms : List Mark}
    (hs : sensitiveMark ∈ ms) (ha : Alike fs home base p p') :
    fileExists quote fs home base ⟨p, ms⟩ = fileExists quote fs home base ⟨p', ms⟩ := by
  have hr : ∀ x y, redactIfSensitive quote x [ms] = redactIfSensitive quote y [ms] := fun x y =>
    redact_eq ⟨ms, by simp, hs⟩
  unfold fileExists
  unfold Alike at ha
  simp only
  cases h1 : openPath home base p with
  | none =>
    cases h2 : openPath home base p' with
    | none => rfl
    | some q' => rw [h1, h2] at ha; exact ha.elim
  | some q =>
    cases h2 : openPath home base p' with
    | none => rw [h1, h2] at ha; exact ha.elim
    | some q' =>
      rw [h1, h2] at ha
      simp only [ha.1, hr q q']

/-- `file` and `filebase64` give nothing away of a sensitive path where there is no file, and where there is one that can
be read. -/
theorem C88_file_partial {nfc quote : Bytes → Bytes} {fs : FS} {home : Option Bytes} {base p p' : Bytes} {ms : List Mark}
    {enc : Bool} (hs : sensitiveMark ∈ ms) (ha : Alike fs home base p p')
    (ho : ∀ q, openPath home base p = some q → fs.openRead q = .error .notExist ∨ ∃ src, fs.openRead q = .ok (.ok src)) :
    file nfc quote fs home base enc ⟨p, ms⟩ = file nfc quote fs home base enc ⟨p', ms⟩ := by
  have hr : ∀ x y, redactIfSensitive quote x [ms] = redactIfSensitive quote y [ms] := fun x y =>
    redact_eq ⟨ms, by simp, hs⟩
  have hread : readFileBytes quote fs home base p ms = readFileBytes quote fs home base p' ms := by
    unfold Alike at ha
    unfold readFileBytes openFile
    cases h1 : openPath home base p with
    | none =>
      cases h2 : openPath home base p' with
      | none => rfl
      | some q' => rw [h1, h2] at ha; exact ha.elim
    | some q =>
      cases h2 : openPath home base p' with
      | none => rw [h1, h2] at ha; exact ha.elim
      | some q' =>
        rw [h1, h2] at ha
        rcases ho q h1 with h | ⟨src, h⟩
        · have h' := ha.2 ▸ h
          simp only [h, h', hr p p']
        · have h' := ha.2 ▸ h
          simp only [h, h']
  unfold file
  simp only [hread, hr p p']

/-- Where opening or reading fails for another reason than a missing file, the message contains the path. -/
theorem C88_file_violated : ∃ (fs : FS) (base p p' : Bytes), Alike fs none base p p' ∧
    ∀ nfc quote enc, file nfc quote fs none base enc ⟨p, [sensitiveMark]⟩ ≠ file nfc quote fs none base enc ⟨p', [sensitiveMark]⟩ := by
  refine ⟨twinFS, b "/w", b "d", b "e", ⟨rfl, rfl⟩, ?_⟩
  intro nfc quote enc
  have h1 : file nfc quote twinFS none (b "/w") enc ⟨b "d", [sensitiveMark]⟩ =
      .error (b "failed to read file: read /w/d: is a directory") := rfl
  have h2 : file nfc quote twinFS none (b "/w") enc ⟨b "e", [sensitiveMark]⟩ =
      .error (b "failed to read file: read /w/e: is a directory") := rfl
  rw [h1, h2]
  decide

/-- The hashes of files show the path in every error, also where there is no file. -/
theorem C88_hash_violated : ∃ (fs : FS) (base p p' : Bytes), Alike fs none base p p' ∧ fs.Consistent ∧
    ∀ nfc h enc, fileHash nfc h enc fs none base ⟨p, [sensitiveMark]⟩ ≠ fileHash nfc h enc fs none base ⟨p', [sensitiveMark]⟩ := by
  refine ⟨⟨fun _ => .error .notExist, fun _ => .error .notExist⟩, b "/w", b "k1", b "k2", ⟨rfl, rfl⟩, ?_, ?_⟩
  · intro q; exact ⟨fun _ => rfl, fun _ => rfl⟩
  · intro nfc h enc
    have h1 : fileHash nfc h enc ⟨fun _ => .error .notExist, fun _ => .error .notExist⟩ none (b "/w") ⟨b "k1", [sensitiveMark]⟩ =
        .error (b "open /w/k1: no such file or directory") := rfl
    have h2 : fileHash nfc h enc ⟨fun _ => .error .notExist, fun _ => .error .notExist⟩ none (b "/w") ⟨b "k2", [sensitiveMark]⟩ =
        .error (b "open /w/k2: no such file or directory") := rfl
    rw [h1, h2]
    decide

/-- `fileset` shows a sensitive path where a match has gone, for example a link to nowhere. -/
theorem C88_fileset_violated : ∃ (fs : FS) (glob : Bytes → Except Bytes (List Bytes)) (base p p' : Bytes),
    ∀ nfc quote rel, fileset nfc quote fs glob rel base ⟨p, [sensitiveMark]⟩ ⟨b "*", []⟩ ≠
      fileset nfc quote fs glob rel base ⟨p', [sensitiveMark]⟩ ⟨b "*", []⟩ := by
  refine ⟨⟨fun _ => .error .notExist, fun _ => .error .notExist⟩, fun x => .ok [x], b "/w", b "d", b "e", ?_⟩
  intro nfc quote rel
  have h1 : fileset nfc quote ⟨fun _ => .error .notExist, fun _ => .error .notExist⟩ (fun x => .ok [x]) rel (b "/w")
      ⟨b "d", [sensitiveMark]⟩ ⟨b "*", []⟩ =
      .error (b "failed to stat (sensitive value): stat /w/d/*: no such file or directory") := rfl
  have h2 : fileset nfc quote ⟨fun _ => .error .notExist, fun _ => .error .notExist⟩ (fun x => .ok [x]) rel (b "/w")
      ⟨b "e", [sensitiveMark]⟩ ⟨b "*", []⟩ =
      .error (b "failed to stat (sensitive value): stat /w/e/*: no such file or directory") := rfl
  rw [h1, h2]
  decide

/-- `fileset` with a sensitive argument gives nothing away where the pattern is bad: the error does not depend on the path or
the pattern. -/
theorem C88_fileset_partial {nfc quote : Bytes → Bytes} {fs : FS} {glob : Bytes → Except Bytes (List Bytes)} {rel : Bytes → Bytes → Except Bytes Bytes}
    {base e : Bytes} {p p' pat pat' : Marked Bytes} (hm : p'.marks = p.marks ∧ pat'.marks = pat.marks)
    (hs : sensitiveMark ∈ p.marks ∨ sensitiveMark ∈ pat.marks)
    (h : glob (globPath base p.v pat.v) = .error e) (h' : glob (globPath base p'.v pat'.v) = .error e) :
    fileset nfc quote fs glob rel base p pat = fileset nfc quote fs glob rel base p' pat' := by
  unfold globPath at h h'
  unfold fileset
  simp only [h, h', hm.1, hm.2]
  rw [redact_eq (quote := quote) (ms := [p.marks, pat.marks]) (y := join (if isAbs p'.v = true then p'.v else join base p'.v) pat'.v)]
  rcases hs with h | h
  · exact ⟨_, by simp, h⟩
  · exact ⟨_, by simp, h⟩

/-- `uuidv5` shows its namespace, `rsadecrypt` its ciphertext, whether sensitive or not. -/
theorem C88_crypto_violated {U R O : Type} :
    (∀ nfc known parse sum e ns name, known ns.v = none → parse ns.v = .error e →
      uuidv5 (U := U) nfc known parse sum ns name = .error (b "uuidv5() doesn't support namespace " ++ ns.v ++ b " (" ++ e ++ b ")")) ∧
    (∀ nfc quote parse showT decrypt cipher key, ¬ (∃ s, Reads s (cipher.v.filter fun c => c ≠ 10 ∧ c ≠ 13)) →
      rsaDecrypt (R := R) (O := O) nfc quote parse showT decrypt cipher key =
        .error (b "failed to decode input " ++ quote cipher.v ++ b ": cipher text must be base64-encoded")) := by
  refine ⟨?_, ?_⟩
  · intro nfc known parse sum e ns name h1 h2
    simp only [uuidv5, h1, h2]
  · intro nfc quote parse showT decrypt cipher key h
    have : b64Decode cipher.v = none := by
      cases hd : b64Decode cipher.v with
      | none => rfl
      | some s => exact absurd ⟨s, reads_decodeQ hd⟩ h
    simp only [rsaDecrypt, this]

/-- A private key that is not an RSA key is printed in the error, with all its fields as `%t` shows them: different
keys give different errors. -/
theorem C88_key_violated {R O : Type} (nfc quote : Bytes → Bytes) (parse : Bytes → RawKey R O) (showT : O → Bytes)
    (decrypt : R → Bytes → Except Bytes Bytes) (hinj : ∀ k k', showT k = showT k' → k = k') (key key' : Bytes) (k k' : O)
    (hk : parse key = .other k) (hk' : parse key' = .other k') (hne : k ≠ k') :
    rsaDecrypt nfc quote parse showT decrypt ⟨[], []⟩ ⟨key, [sensitiveMark]⟩ ≠
      rsaDecrypt nfc quote parse showT decrypt ⟨[], []⟩ ⟨key', [sensitiveMark]⟩ := by
  have hd : b64Decode [] = some [] := rfl
  simp only [rsaDecrypt, hd, hk, hk']
  intro e
  exact hne (hinj _ _ (List.append_cancel_left (Except.error.inj e)))

/-- All results carry the marks of their arguments. -/
theorem C88_marks {nfc quote h enc' : Bytes → Bytes} {fs : FS} {home : Option Bytes} {base : Bytes} {path : Marked Bytes} :
    (∀ enc r, file nfc quote fs home base enc path = .ok r → r.marks = path.marks) ∧
    (∀ r, fileExists quote fs home base path = .ok r → r.marks = path.marks) ∧
    (∀ r, fileHash nfc h enc' fs home base path = .ok r → r.marks = path.marks) ∧
    (∀ glob rel pat r, fileset nfc quote fs glob rel base path pat = .ok r → r.marks = path.marks ++ pat.marks) := by
  refine ⟨?_, ?_, ?_, ?_⟩
  · intro enc r he
    unfold file at he
    split at he
    · cases he
    · split at he
      · cases he; rfl
      · split at he
        · cases he; rfl
        · cases he
  · intro r he
    unfold fileExists at he
    split at he
    · cases he
    · split at he <;> cases he <;> rfl
  · intro r he
    unfold fileHash at he
    split at he <;> cases he
    rfl
  · intro glob rel pat r he
    unfold fileset at he
    simp only at he
    split at he
    · cases he
    · rename_i ms _
      cases hl : setLoop nfc quote fs (rel (if isAbs path.v = true then path.v else join base path.v)) [path.marks, pat.marks] ms with
      | error e => rw [hl] at he; cases he
      | ok l => rw [hl] at he; cases he; rfl

example : Alike exampleFS none (b "/w") (b "nope") (b "../none") ∧ sensitiveMark ∈ [sensitiveMark] ∧
    (∀ q, openPath none (b "/w") (b "nope") = some q → exampleFS.openRead q = .error .notExist ∨
      ∃ src, exampleFS.openRead q = .ok (.ok src)) := by
  refine ⟨⟨rfl, rfl⟩, by simp, ?_⟩
  intro q hq
  left
  rw [show openPath none (b "/w") (b "nope") = some (b "/w/nope") from by decide +kernel] at hq
  cases hq
  decide +kernel
example : fileExists id exampleFS none (b "/w") ⟨b "d", [sensitiveMark]⟩ =
    .error (b "(sensitive value) is a directory, not a file") := by decide +kernel
example : fileExists id exampleFS none (b "/w") ⟨b "a/b", []⟩ = .error (b "failed to stat /w/a/b") := by decide +kernel

/-! ## C89: contents -/

theorem readFileBytes_eq {quote : Bytes → Bytes} {fs : FS} {home : Option Bytes} {base p src : Bytes} {ms : List Mark} :
    readFileBytes quote fs home base p ms = .ok src ↔ Holds fs home base p src := by
  unfold readFileBytes openFile Holds
  cases h1 : openPath home base p with
  | none => simp
  | some q =>
    cases h2 : fs.openRead q with
    | error e => cases e <;> simp [h2]
    | ok r =>
      cases r with
      | error e => simp [h2]
      | ok s => simp [h2]

/-- `filebase64` gives a text exactly for the files that can be read, and that text encodes exactly the bytes of the
file. -/
theorem C89_base64 {nfc quote : Bytes → Bytes} (hn : FixesAscii nfc) {fs : FS} {home : Option Bytes} {base : Bytes} {path r : Marked Bytes} :
    file nfc quote fs home base true path = .ok r ↔
      ∃ src, Holds fs home base path.v src ∧ Encodes src r.v ∧ r.marks = path.marks := by
  unfold file
  constructor
  · intro h
    split at h
    · cases h
    · rename_i src hs
      cases h
      exact ⟨src, readFileBytes_eq.1 hs, (C23_encode hn _ _).1 rfl, rfl⟩
  · rintro ⟨src, hs, he, hm⟩
    rw [readFileBytes_eq.2 hs]
    simp only [if_true]
    obtain ⟨v, ms⟩ := r
    simp only at he hm
    subst hm
    rw [← (C23_encode hn src v).2 he]
    rfl

/-- `file` gives a text exactly for the files that can be read and hold UTF-8; the text is that of the file, in normal
form. -/
theorem C89_file {nfc quote : Bytes → Bytes} {fs : FS} {home : Option Bytes} {base : Bytes} {path r : Marked Bytes} :
    file nfc quote fs home base false path = .ok r ↔
      ∃ src, Holds fs home base path.v src ∧ IsUtf8 src ∧ r = ⟨nfc src, path.marks⟩ := by
  unfold file
  constructor
  · intro h
    split at h
    · cases h
    · rename_i src hs
      rw [if_neg (by simp)] at h
      split at h
      · rename_i hu
        cases h
        exact ⟨src, readFileBytes_eq.1 hs, (utf8Valid_iff _).1 hu, rfl⟩
      · cases h
  · rintro ⟨src, hs, he, rfl⟩
    rw [readFileBytes_eq.2 hs]
    simp only
    rw [if_neg (by simp), if_pos ((utf8Valid_iff _).2 he)]

/-- `base64decode(filebase64(p))` is `file(p)`: both give the same text, or both give none. -/
theorem C89_agree {nfc quote : Bytes → Bytes} (hn : FixesAscii nfc) {fs : FS} {home : Option Bytes} {base : Bytes} {path : Marked Bytes} {t : Bytes} :
    (∃ r, file nfc quote fs home base true path = .ok r ∧ base64Decode nfc r.v = .ok t) ↔
      file nfc quote fs home base false path = .ok ⟨t, path.marks⟩ := by
  rw [C89_file]
  constructor
  · rintro ⟨r, h1, h2⟩
    obtain ⟨src, hs, he, _⟩ := (C89_base64 hn).1 h1
    rw [base64Decode, he.decode] at h2
    simp only at h2
    split at h2
    · rename_i hu
      cases h2
      exact ⟨src, hs, (utf8Valid_iff _).1 hu, rfl⟩
    · cases h2
  · rintro ⟨src, hs, hu, e⟩
    cases e
    refine ⟨⟨base64Encode nfc src, path.marks⟩, (C89_base64 hn).2 ⟨src, hs, (C23_encode hn _ _).1 rfl, rfl⟩, ?_⟩
    rw [base64Decode, ((C23_encode hn _ _).1 rfl).decode]
    simp only
    rw [if_pos ((utf8Valid_iff _).2 hu)]

/-- The hash of a file is that of its bytes. For a text in normal form it is the hash of what `file` gives. -/
theorem C89_hash_partial {nfc quote h enc : Bytes → Bytes} {fs : FS} {home : Option Bytes} {base src : Bytes} {path r : Marked Bytes}
    (hs : Holds fs home base path.v src) (hn : nfc src = src)
    (hf : file nfc quote fs home base false path = .ok r) :
    fileHash nfc h enc fs home base path = .ok (stringHash nfc h enc r) := by
  obtain ⟨src', ⟨q', hq', hs'⟩, _, rfl⟩ := C89_file.1 hf
  obtain ⟨q, hq, ho⟩ := hs
  rw [hq] at hq'
  cases hq'
  rw [ho] at hs'
  cases hs'
  unfold fileHash openFile
  simp only [hq, ho, stringHash, hn]

/-- For a text that is not in normal form they differ, with every hash that tells it from its normal form. -/
theorem C89_hash_violated : ∃ (nfc : Bytes → Bytes) (fs : FS) (base : Bytes) (path : Marked Bytes) (src : Bytes) (r : Marked Bytes),
    (∀ x, nfc (nfc x) = nfc x) ∧ FixesAscii nfc ∧ Holds fs none base path.v src ∧ file nfc id fs none base false path = .ok r ∧
    ∀ h : Bytes → Bytes, h src ≠ h (nfc src) →
      fileHash nfc h b64Encode fs none base path ≠ .ok (stringHash nfc h b64Encode r) := by
  -- the KELVIN SIGN, `E2 84 AA`, is normalised to `K`
  have hfix : FixesAscii (fun x => if x = [0xE2, 0x84, 0xAA] then b "K" else x) := by
    intro t ht
    show (if _ then _ else _) = _
    rw [if_neg]
    rintro rfl
    exact absurd (ht 0xE2 (by simp)) (by decide)
  refine ⟨fun x => if x = [0xE2, 0x84, 0xAA] then b "K" else x, ⟨fun _ => .ok .regular, fun _ => .ok (.ok [0xE2, 0x84, 0xAA])⟩,
    b "/w", ⟨b "a", []⟩, [0xE2, 0x84, 0xAA], ⟨b "K", []⟩, ?_, hfix, ⟨b "/w/a", by decide +kernel, rfl⟩, by decide +kernel, ?_⟩
  · intro x
    simp only
    by_cases h : x = [0xE2, 0x84, 0xAA]
    · subst h; decide
    · rw [if_neg h, if_neg h]
  · intro h hi e
    have h1 : openFile ⟨fun _ => .ok .regular, fun _ => .ok (.ok [0xE2, 0x84, 0xAA])⟩ none (b "/w") (b "a") =
      .ok (b "/w/a", .ok [0xE2, 0x84, 0xAA]) := rfl
    simp only [fileHash, stringHash, h1, Except.ok.injEq, Marked.mk.injEq, and_true] at e
    have hb : ∀ x, (fun x => if x = [0xE2, 0x84, 0xAA] then b "K" else x) (b64Encode x) = b64Encode x := fun x =>
      hfix _ fun c hc => ((encodes_encode _).ascii c hc).1
    have := congrArg b64Decode ((hb _).symm.trans (Eq.trans e (hb _)))
    rw [(encodes_encode _).decode, (encodes_encode _).decode] at this
    exact hi (Option.some.inj this)

example : Holds exampleFS none (b "/w") (b "./a") (b "text") ∧ FixesAscii id ∧
    file id id exampleFS none (b "/w") false ⟨b "./a", []⟩ = .ok ⟨b "text", []⟩ ∧
    file id id exampleFS none (b "/w") true ⟨b "bin", []⟩ = .ok ⟨b "/w==", []⟩ :=
  ⟨⟨b "/w/a", by decide +kernel, by decide +kernel⟩, fun _ _ => rfl, by decide +kernel, by decide +kernel⟩

/-! ## C90: fileexists and file -/

/-- If `fileexists` says no, `file` says that there is no file; if it says yes, the file is a regular one and `file` does not
say so. -/
theorem C90_agree {nfc quote : Bytes → Bytes} {fs : FS} (hc : fs.Consistent) {home : Option Bytes} {base : Bytes} {path : Marked Bytes}
    {enc : Bool} {r : Marked Bool} (h : fileExists quote fs home base path = .ok r) :
    (r.v = false → file nfc quote fs home base enc path =
        .error (b "no file exists at " ++ redactIfSensitive quote path.v [path.marks] ++ noFileHint)) ∧
    (r.v = true → ∃ q, openPath home base path.v = some q ∧ fs.stat q = .ok .regular ∧ fs.openRead q ≠ .error .notExist) := by
  unfold fileExists at h
  split at h
  · cases h
  · rename_i q hq
    split at h
    · rename_i hst
      cases h
      refine ⟨fun _ => ?_, fun e => by cases e⟩
      have ho := (hc q).2 hst
      simp only [file, readFileBytes, openFile, hq, ho]
    · cases h
    · rename_i hst
      cases h
      refine ⟨fun e => (by cases e), fun _ => ⟨q, hq, hst, ?_⟩⟩
      intro ho
      rw [(hc q).1 ho] at hst
      cases hst
    · cases h

/-- `fileexists` answers exactly for regular files and where there is no file. -/
theorem C90_answers_partial {quote : Bytes → Bytes} {fs : FS} {home : Option Bytes} {base : Bytes} {path : Marked Bytes} :
    (∃ r, fileExists quote fs home base path = .ok r) ↔
      ∃ q, openPath home base path.v = some q ∧ (fs.stat q = .ok .regular ∨ fs.stat q = .error .notExist) := by
  unfold fileExists
  cases hq : openPath home base path.v with
  | none => simp
  | some q =>
    cases hs : fs.stat q with
    | error e => cases e <;> simp [hs]
    | ok k => cases k <;> simp [hs]

/-- It does not answer for a directory, although that is no file, nor for a path below a file. -/
theorem C90_violated : ∃ (fs : FS) (base p p' : Bytes), fs.Consistent ∧ fs.stat p = .ok .directory ∧
    (∀ quote r, fileExists quote fs none base ⟨p, []⟩ ≠ .ok r) ∧ (∀ quote r, fileExists quote fs none base ⟨p', []⟩ ≠ .ok r) := by
  refine ⟨exampleFS, b "/w", b "/w/d", b "a/b", ?_, by decide +kernel, ?_, ?_⟩
  · intro q
    simp only [exampleFS]
    constructor
    · intro h
      split at h
      · cases h
      rename_i h1
      split at h
      · cases h
      rename_i h2
      split at h
      · cases h
      rename_i h3
      split at h
      · cases h
      rename_i h4
      split at h
      · cases h
      rename_i h5
      simp [h1, h2, h3, h4, h5]
    · intro h
      split at h
      · cases h
      rename_i h1
      split at h
      · cases h
      rename_i h2
      split at h
      · cases h
      rename_i h3
      have ⟨h4, h5, h6⟩ : q ≠ b "/w/a" ∧ q ≠ b "/w/bin" ∧ q ≠ b "/w/x" := by
        refine ⟨fun e => h1 (Or.inl e), fun e => h1 (Or.inr (Or.inl e)), fun e => h1 (Or.inr (Or.inr e))⟩
      simp [h2, h3, h4, h5, h6]
  · intro quote r h
    obtain ⟨q, hq, hs⟩ := C90_answers_partial.1 ⟨r, h⟩
    rw [show openPath none (b "/w") (b "/w/d") = some (b "/w/d") from by decide +kernel] at hq
    cases hq
    exact absurd hs (by decide +kernel)
  · intro quote r h
    obtain ⟨q, hq, hs⟩ := C90_answers_partial.1 ⟨r, h⟩
    rw [show openPath none (b "/w") (b "a/b") = some (b "/w/a/b") from by decide +kernel] at hq
    cases hq
    exact absurd hs (by decide +kernel)

example : fileExists id exampleFS none (b "/w") ⟨b "d/../a", []⟩ = .ok ⟨true, []⟩ := by decide +kernel
example : fileExists id exampleFS none (b "/w") ⟨b "zz", []⟩ = .ok ⟨false, []⟩ := by decide +kernel

/-! ## C91: fileset -/

theorem setLoop_mem {nfc quote : Bytes → Bytes} {fs : FS} {rel : Bytes → Except Bytes Bytes} {mk : List (List Mark)} :
    ∀ {ms l : List Bytes}, setLoop nfc quote fs rel mk ms = .ok l →
      ∀ x, x ∈ l ↔ ∃ m ∈ ms, fs.stat m = .ok .regular ∧ ∃ y, rel m = .ok y ∧ x = nfc y
  | [], l, h, x => by cases h; simp
  | m :: ms, l, h, x => by
    unfold setLoop at h
    split at h
    · cases h
    · rename_i hst
      split at h
      · cases h
      · rename_i r hr
        cases hl : setLoop nfc quote fs rel mk ms with
        | error e => rw [hl] at h; cases h
        | ok l' =>
          rw [hl] at h
          cases h
          rw [List.mem_cons, setLoop_mem hl x]
          constructor
          · rintro (rfl | ⟨m', hm, hx⟩)
            · exact ⟨m, by simp, hst, r, hr, rfl⟩
            · exact ⟨m', by simp [hm], hx⟩
          · rintro ⟨m', hm, hx⟩
            rcases List.mem_cons.1 hm with rfl | hm
            · obtain ⟨_, y, hy, rfl⟩ := hx
              rw [hr] at hy
              cases hy
              exact Or.inl rfl
            · exact Or.inr ⟨m', hm, hx⟩
    · rename_i k hk1 hk2
      rw [setLoop_mem h x]
      constructor
      · rintro ⟨m', hm, hx⟩; exact ⟨m', by simp [hm], hx⟩
      · rintro ⟨m', hm, hx⟩
        rcases List.mem_cons.1 hm with rfl | hm
        · exact absurd (hk2.symm.trans hx.1) (by simpa using hk1)
        · exact ⟨m', hm, hx⟩

theorem setLoop_ok {nfc quote : Bytes → Bytes} {fs : FS} {rel : Bytes → Except Bytes Bytes} {mk : List (List Mark)} :
    ∀ {ms : List Bytes}, (∃ l, setLoop nfc quote fs rel mk ms = .ok l) ↔
      ∀ m ∈ ms, ∃ k, fs.stat m = .ok k ∧ (k = .regular → ∃ y, rel m = .ok y)
  | [] => by simp [setLoop]
  | m :: ms => by
    have ih := setLoop_ok (nfc := nfc) (quote := quote) (fs := fs) (rel := rel) (mk := mk) (ms := ms)
    rw [List.forall_mem_cons, ← ih]
    cases hs : fs.stat m with
    | error e =>
      have : ∃ x, setLoop nfc quote fs rel mk (m :: ms) = .error x := by rw [setLoop, hs]; exact ⟨_, rfl⟩
      obtain ⟨x, this⟩ := this
      simp [this]
    | ok k =>
      by_cases hk : k = .regular
      · subst hk
        cases hr : rel m with
        | error e =>
          have : ∃ x, setLoop nfc quote fs rel mk (m :: ms) = .error x := by rw [setLoop, hs]; simp only [hr]; exact ⟨_, rfl⟩
          obtain ⟨x, this⟩ := this
          simp [this]
        | ok y =>
          have : setLoop nfc quote fs rel mk (m :: ms) = (setLoop nfc quote fs rel mk ms).map fun l => nfc y :: l := by
            rw [setLoop, hs]; simp only [hr]
          rw [this]
          cases setLoop nfc quote fs rel mk ms <;> simp [Except.map]
      · have : setLoop nfc quote fs rel mk (m :: ms) = setLoop nfc quote fs rel mk ms := by
          rw [setLoop, hs]
          cases k <;> first | rfl | exact absurd rfl hk
        rw [this]
        simp [hk]

/-- `fileset` lists exactly the regular files among the matches, by their names relative to the directory. -/
theorem C91_elements {nfc quote : Bytes → Bytes} {fs : FS} {glob : Bytes → Except Bytes (List Bytes)} {rel : Bytes → Bytes → Except Bytes Bytes}
    {base : Bytes} {path pat : Marked Bytes} {r : Marked (List Bytes)} (h : fileset nfc quote fs glob rel base path pat = .ok r) :
    ∃ ms, glob (globPath base path.v pat.v) = .ok ms ∧ ∀ x, x ∈ r.v ↔ ∃ m ∈ ms, fs.stat m = .ok .regular ∧
      ∃ y, rel (if Absolute path.v then path.v else join base path.v) m = .ok y ∧ x = nfc y := by
  unfold fileset at h
  simp only at h
  cases hg : glob (globPath base path.v pat.v) with
  | error e =>
    have hg' := hg
    unfold globPath at hg'
    rw [hg'] at h; cases h
  | ok ms =>
    have hg' := hg
    unfold globPath at hg'
    rw [hg'] at h
    refine ⟨ms, rfl, ?_⟩
    simp only at h
    have hd : (if Absolute path.v then path.v else join base path.v) = if isAbs path.v = true then path.v else join base path.v := by
      by_cases h : Absolute path.v
      · rw [if_pos h, if_pos (isAbs_iff.2 h)]
      · rw [if_neg h, if_neg (by rw [isAbs_false h]; simp)]
    rw [hd]
    cases hl : setLoop nfc quote fs (rel (if isAbs path.v = true then path.v else join base path.v)) [path.marks, pat.marks] ms with
    | error e => rw [hl] at h; cases h
    | ok l => rw [hl] at h; cases h; exact setLoop_mem hl

/-- It gives a set where all matches can be looked at and trimmed. -/
theorem C91_answers_partial {nfc quote : Bytes → Bytes} {fs : FS} {glob : Bytes → Except Bytes (List Bytes)} {rel : Bytes → Bytes → Except Bytes Bytes}
    {base : Bytes} {path pat : Marked Bytes} {ms : List Bytes} (hg : glob (globPath base path.v pat.v) = .ok ms) :
    (∃ r, fileset nfc quote fs glob rel base path pat = .ok r) ↔
      ∀ m ∈ ms, ∃ k, fs.stat m = .ok k ∧ (k = .regular → ∃ y, rel (if Absolute path.v then path.v else join base path.v) m = .ok y) := by
  have hd : (if Absolute path.v then path.v else join base path.v) = if isAbs path.v = true then path.v else join base path.v := by
    by_cases h : Absolute path.v
    · rw [if_pos h, if_pos (isAbs_iff.2 h)]
    · rw [if_neg h, if_neg (by rw [isAbs_false h]; simp)]
  rw [hd]
  unfold fileset
  unfold globPath at hg
  simp only [hg]
  rw [← setLoop_ok (nfc := nfc) (quote := quote) (mk := [path.marks, pat.marks])]
  cases hl : setLoop nfc quote fs (rel (if isAbs path.v = true then path.v else join base path.v)) [path.marks, pat.marks] ms with
  | error e => simp [Except.map]
  | ok l => simp [Except.map]

/-- One match that cannot be looked at, such as a link to nowhere, and there is no set at all. -/
theorem C91_violated : ∃ (fs : FS) (glob : Bytes → Except Bytes (List Bytes)) (rel : Bytes → Bytes → Except Bytes Bytes),
    glob (b "/w/*") = .ok [b "/w/a", b "/w/link"] ∧ fs.stat (b "/w/a") = .ok .regular ∧
    ∀ nfc quote r, fileset nfc quote fs glob rel (b "/w") ⟨[], []⟩ ⟨b "*", []⟩ ≠ .ok r := by
  refine ⟨exampleFS, fun _ => .ok [b "/w/a", b "/w/link"], fun _ _ => .ok (b "a"), rfl, by decide +kernel, ?_⟩
  intro nfc quote r h
  have := (C91_answers_partial (nfc := nfc) (quote := quote) (fs := exampleFS) (glob := fun _ => .ok [b "/w/a", b "/w/link"])
    (rel := fun _ _ => .ok (b "a")) (base := b "/w") (path := ⟨[], []⟩) (pat := ⟨b "*", []⟩) rfl).1 ⟨r, h⟩ (b "/w/link") (by simp)
  obtain ⟨k, hk, _⟩ := this
  rw [show exampleFS.stat (b "/w/link") = .error .notExist from by decide +kernel] at hk
  cases hk

example : fileset id id exampleFS (fun _ => .ok [b "/w/a", b "/w/d", b "/w/bin"]) (fun d m => .ok (m.drop (d.length + 1)))
    (b "/w") ⟨[], []⟩ ⟨b "*", []⟩ = .ok ⟨[b "a", b "bin"], []⟩ := by decide +kernel
end Verif.File
