import Verif.Lemmas.Text
import Verif.Props.Encoding
/-!
# C99-C102: replace, the text encodings, the conversions

C99: `replace(str, substr, rep)` replaces each occurrence of `substr`.  It does so for every `substr` that is not of the form
`/…/` (`C99_partial`, `C99_empty`); one of that form is a regular expression (`C99_violated`).

C100: the errors do not show sensitive arguments.  They show a regular expression and the name of a character set
(`C100_violated_pattern`, `C100_violated_charset`), but not the text that is encoded or decoded (`C100_partial`); the
conversions do not show a sensitive value (`C102_secret`).

C101: `textdecodebase64` inverts `textencodebase64`.  It does for the texts without U+FFFD, and only for these
(`C101_partial`, `C101_violated`).
-/
namespace Verif.Text
open Verif.Funcs

/-- A text that is not of the form `/…/` and not empty: the text is cut at its occurrences from left to right, which can be
done in one way only; the result has the replacement in their place and carries the marks of all arguments. -/
theorem C99_partial (nfc : Bytes → Bytes) (re : Engine) {str substr rep : Marked Bytes} (hne : substr.v ≠ []) (hs : ¬ Slashed substr.v) :
    ∃ ps, Cut substr.v str.v ps ∧ (∀ qs, Cut substr.v str.v qs → qs = ps) ∧
      ∃ ms, replace nfc re str substr rep = .ok ⟨nfc (glue rep.v ps), ms⟩ ∧
        ∀ m, m ∈ ms ↔ m ∈ str.marks ∨ m ∈ substr.marks ∨ m ∈ rep.marks := by
  have hs' : slashed substr.v = false := by
    cases h : slashed substr.v with
    | false => rfl
    | true => exact absurd (slashed_iff.1 h) hs
  obtain ⟨ps, h1, h2⟩ := replaceLoop_cut hne rep.v str.v.length str.v (Nat.le_refl _)
  refine ⟨ps, h1, fun qs hq => hq.unique h1, str.marks ++ substr.marks ++ rep.marks, ?_, ?_⟩
  · unfold replace replaceImpl
    rw [hs', if_neg (by simp)]
    simp only [Except.map, replaceAll, if_neg hne]
    by_cases he : substr.v = rep.v
    · rw [if_pos he, ← he, glue_cut h1]
    · rw [if_neg he, h2]
  · intro m; simp

example : Cut (b "ab") (b "xabyababz") [b "x", b "y", b "", b "z"] ∧ ¬ Slashed (b "ab") ∧
    replace id (fun e => .error e) ⟨b "xabyababz", [b "m"]⟩ ⟨b "ab", []⟩ ⟨b "-", []⟩ = .ok ⟨b "x-y--z", [b "m"]⟩ := by
  refine ⟨?_, fun h => absurd (slashed_iff.2 h) (by decide), by decide +kernel⟩
  obtain ⟨ps, h1, h2⟩ := replaceLoop_cut (old := b "ab") (by decide) (b "ab") 9 (b "xabyababz") (by decide)
  exact .more (p := b "x") (r := b "yababz") (by
      intro u v h
      exact (cutFirst_some (old := b "ab") (s := b "xab") (r := []) (by decide) (by decide +kernel)).2 u v h)
    (.more (p := b "y") (r := b "abz") (by
      intro u v h
      exact (cutFirst_some (old := b "ab") (s := b "yab") (r := []) (by decide) (by decide +kernel)).2 u v h)
    (.more (p := b "") (r := b "z") (by
      intro u v h
      exact (cutFirst_some (old := b "ab") (s := b "ab") (r := []) (by decide) (by decide +kernel)).2 u v h)
    (.last (cutFirst_none (by decide) (by decide +kernel)))))

/-- An overlapping occurrence is not replaced twice. -/
example : replace id (fun e => .error e) ⟨b "aaa", []⟩ ⟨b "aa", []⟩ ⟨b "b", []⟩ = .ok ⟨b "ba", []⟩ := by decide +kernel

/-- Without an occurrence the text stays, and replacing a text by itself changes nothing. -/
theorem C99_same (nfc : Bytes → Bytes) (re : Engine) {str substr rep : Marked Bytes} (hs : ¬ Slashed substr.v)
    (h : rep.v = substr.v ∨ (substr.v ≠ [] ∧ ¬ Occurs substr.v str.v)) :
    ∃ ms, replace nfc re str substr rep = .ok ⟨nfc str.v, ms⟩ := by
  have hs' : slashed substr.v = false := by
    cases h : slashed substr.v with
    | false => rfl
    | true => exact absurd (slashed_iff.1 h) hs
  rcases h with h | ⟨hne, h⟩
  · unfold replace replaceImpl
    rw [hs', if_neg (by simp)]
    simp only [Except.map, replaceAll, if_pos h.symm]
    exact ⟨_, rfl⟩
  · obtain ⟨ps, _, h2, ms, h3, _⟩ := C99_partial nfc re (str := str) (rep := rep) hne hs
    rw [← h2 _ (.last h)] at h3
    exact ⟨ms, h3⟩

example : ¬ Slashed (b "/") ∧ ¬ Occurs (b "/") (b "abc") := by
  exact ⟨fun h => absurd (slashed_iff.2 h) (by decide), cutFirst_none (by decide) (by decide +kernel)⟩

/-- The empty text: the replacement is put before each character and at the end. -/
theorem C99_empty (nfc : Bytes → Bytes) (re : Engine) {cs : List Nat} (hc : ∀ c ∈ cs, IsScalar c) {ms₁ ms₂ : List Mark} {rep : Marked Bytes} :
    replace nfc re ⟨cs.flatMap utf8Encode, ms₁⟩ ⟨[], ms₂⟩ rep =
      .ok ⟨nfc (rep.v ++ cs.flatMap fun c => utf8Encode c ++ rep.v), ms₁ ++ ms₂ ++ rep.marks⟩ := by
  unfold replace replaceImpl
  simp only [slashed, List.length_nil, gt_iff_lt, Nat.not_lt_zero, decide_false, Bool.false_and, Bool.false_eq_true, if_false,
    Except.map, replaceAll, if_true]
  by_cases he : ([] : Bytes) = rep.v
  · rw [if_pos he, ← he]; simp
  · rw [if_neg he, spread_utf8 rep.v cs hc _ (Nat.le_refl _)]

example : (∀ c ∈ [97, 0x4E16, 0x1F600], IsScalar c) ∧
    replace id (fun e => .error e) ⟨b "a世😀", []⟩ ⟨b "", []⟩ ⟨b "-", []⟩ = .ok ⟨b "-a-世-😀-", []⟩ := by
  constructor
  · intro c hc
    simp only [List.mem_cons, List.not_mem_nil, or_false] at hc
    unfold IsScalar
    omega
  · decide +kernel

/-- A text of the form `/…/` is not replaced literally: `replace("a//b", "//", "/")` is not `"a/b"` with any engine for
regular expressions whose empty expression matches everywhere. -/
theorem C99_violated {nfc : Bytes → Bytes} (hn : FixesAscii nfc) {re : Engine} (he : EmptyMatches re) :
    ∃ (str substr rep : Bytes) (ps : List Bytes), substr ≠ [] ∧ Cut substr str ps ∧
      replace nfc re ⟨str, []⟩ ⟨substr, []⟩ ⟨rep, []⟩ = .ok ⟨b "/a/////b/", []⟩ ∧ b "/a/////b/" ≠ nfc (glue rep ps) := by
  obtain ⟨f, h1, h2⟩ := he
  refine ⟨b "a//b", b "//", b "/", [b "a", b "b"], by decide, ?_, ?_, ?_⟩
  · exact .more (p := b "a") (r := b "b") (by
      intro u v h
      exact (cutFirst_some (old := b "//") (s := b "a//") (r := []) (by decide) (by decide +kernel)).2 u v h)
      (.last (cutFirst_none (by decide) (by decide +kernel)))
  · have : ((b "//").drop 1).dropLast = [] := by decide
    have hsl : slashed (b "//") = true := by decide
    unfold replace replaceImpl
    simp only [hsl, if_true, this, h1, Except.map]
    rw [h2 (b "a//b") (b "/") (by decide) (by decide), hn _ (by decide)]
    decide
  · rw [hn _ (by decide)]
    decide

/-- An engine that knows the empty expression only. -/
def demoEngine : Engine := fun p => if p = [] then .ok fun s r => r ++ s.flatMap fun c => c :: r else .error (b "error parsing regexp: " ++ p)

example : FixesAscii id ∧ EmptyMatches demoEngine := ⟨fun _ _ => rfl, _, rfl, fun _ _ _ _ => rfl⟩

/-! ## C100 -/

/-- The error for a regular expression that is wrong is the error of `regexp`, which shows the expression, whether it is
sensitive or not. -/
theorem C100_violated_pattern {nfc : Bytes → Bytes} {re : Engine} {p p' e e' : Bytes} (h : re p = .error e) (h' : re p' = .error e')
    (hd : e ≠ e') (str rep : Marked Bytes) :
    ∃ s s' : Bytes, Slashed s ∧ Slashed s' ∧ replace nfc re str ⟨s, [sensitiveMark]⟩ rep = .error e ∧
      replace nfc re str ⟨s', [sensitiveMark]⟩ rep = .error e' ∧ e ≠ e' := by
  have key : ∀ p e, re p = .error e → replace nfc re str ⟨47 :: (p ++ [47]), [sensitiveMark]⟩ rep = .error e := by
    intro p e h
    unfold replace replaceImpl
    rw [if_pos (slashed_iff.2 ⟨p, rfl⟩)]
    simp only [slashed_inner, h, Except.map]
  exact ⟨_, _, ⟨p, rfl⟩, ⟨p', rfl⟩, key p e h, key p' e' h', hd⟩

example : demoEngine (b "[key1") = .error (b "error parsing regexp: [key1") ∧ demoEngine (b "[key2") = .error (b "error parsing regexp: [key2") :=
  ⟨rfl, rfl⟩

/-- The name of a character set that is not known is shown, whether it is sensitive or not. -/
theorem C100_violated_charset {C : Type} {nfc quote off : Bytes → Bytes} {cs : Charsets C} {e e' : Bytes} (h : cs.find e = none)
    (h' : cs.find e' = none) (hq : quote e ≠ quote e') (s : Marked Bytes) :
    textEncode nfc quote cs s ⟨e, [sensitiveMark]⟩ ≠ textEncode nfc quote cs s ⟨e', [sensitiveMark]⟩ ∧
      textDecode nfc quote off cs s ⟨e, [sensitiveMark]⟩ ≠ textDecode nfc quote off cs s ⟨e', [sensitiveMark]⟩ := by
  constructor
  · unfold textEncode textEncodeImpl
    simp only [h, h', Except.map, notSupported]
    intro hc
    simp only [Except.error.injEq] at hc
    exact hq (List.append_cancel_right hc)
  · unfold textDecode textDecodeImpl
    simp only [h, h', Except.map, notSupported]
    intro hc
    simp only [Except.error.injEq] at hc
    exact hq (List.append_cancel_right hc)

/-- A character set that writes and reads the bytes as they are. -/
def demoSets : Charsets Unit where
  find e := if e = b "utf-8" then some () else none
  name _ := some (b "UTF-8")
  enc _ s := some s
  dec _ s := some s

example : demoSets.find (b "key1") = none ∧ demoSets.find (b "key2") = none ∧ demoSets.find (b "utf-8") = some () := by decide

/-- The errors of `textencodebase64` and `textdecodebase64` do not depend on the text beyond the kind of the failure, and, if
the text is not base64, the place of the first wrong symbol. -/
theorem C100_partial {C : Type} {nfc quote off : Bytes → Bytes} {cs : Charsets C} {e : Marked Bytes} :
    (∀ (s s' : Marked Bytes) m m', textEncode nfc quote cs s e = .error m → textEncode nfc quote cs s' e = .error m' → m = m') ∧
    (∀ (t t' : Marked Bytes) m m', (b64Decode t.v = none ↔ b64Decode t'.v = none) → (b64Decode t.v = none → off t.v = off t'.v) →
      textDecode nfc quote off cs t e = .error m → textDecode nfc quote off cs t' e = .error m' → m = m') := by
  constructor
  · intro s s' m m' h h'
    unfold textEncode textEncodeImpl at h h'
    cases hf : cs.find e.v with
    | none =>
      simp only [hf, Except.map, Except.error.injEq] at h h'
      rw [← h, ← h']
    | some c =>
      simp only [hf] at h h'
      cases he : cs.enc c s.v <;> cases he' : cs.enc c s'.v <;> simp only [he, Except.map, Except.error.injEq, reduceCtorEq] at h <;>
        simp only [he', Except.map, Except.error.injEq, reduceCtorEq] at h'
      rw [← h, ← h']
  · intro t t' m m' hb ho h h'
    unfold textDecode textDecodeImpl at h h'
    cases hf : cs.find e.v with
    | none =>
      simp only [hf, Except.map, Except.error.injEq] at h h'
      rw [← h, ← h']
    | some c =>
      simp only [hf] at h h'
      cases hd : b64Decode t.v with
      | none =>
        simp only [hd, hb.1 hd, Except.map, Except.error.injEq] at h h'
        rw [← h, ← h', ho hd]
      | some x =>
        cases hd' : b64Decode t'.v with
        | none => rw [hb.2 hd'] at hd; cases hd
        | some x' =>
          have key : ∀ (t : Marked Bytes) (x : Bytes) m, Except.map (fun r => (⟨r, t.marks ++ e.marks⟩ : Marked Bytes))
              (match cs.dec c x with
                | none => Except.error (b "the given string contains symbols that are not defined for " ++ encName cs c e.v)
                | some d => if hasErrorRune d then .error (b "the given string contains symbols that are not defined for " ++ encName cs c e.v)
                  else .ok (nfc d)) = .error m → m = b "the given string contains symbols that are not defined for " ++ encName cs c e.v := by
            intro t x m h
            cases hx : cs.dec c x with
            | none =>
              simp only [hx, Except.map, Except.error.injEq] at h
              exact h.symm
            | some d =>
              simp only [hx] at h
              cases hr : hasErrorRune d with
              | true =>
                simp only [hr, if_true, Except.map, Except.error.injEq] at h
                exact h.symm
              | false =>
                simp only [hr, Bool.false_eq_true, if_false, Except.map, reduceCtorEq] at h
          simp only [hd] at h
          simp only [hd'] at h'
          rw [key t x m h, key t' x' m' h']

example : textDecode id id (fun _ => b "0") demoSets ⟨b "!", [sensitiveMark]⟩ ⟨b "utf-8", []⟩ =
    .error (b "the given value is has an invalid base64 symbol at offset 0") ∧
    textDecode id id (fun _ => b "0") demoSets ⟨b "/w==", [sensitiveMark]⟩ ⟨b "utf-8", []⟩ =
    .error (b "the given string contains symbols that are not defined for UTF-8") := by decide +kernel

/-! ## C101 -/

/-- Encoding and then decoding gives back exactly the texts without U+FFFD: for a text of characters that is normalised and
that the character set can write and read back, the result is the text with all marks if U+FFFD is not among its
characters, and an error otherwise. -/
theorem C101_partial {C : Type} {nfc quote off : Bytes → Bytes} (hn : FixesAscii nfc) {cs : Charsets C} {c : C} {e : Marked Bytes}
    (hf : cs.find e.v = some c) {us : List Nat} (hu : ∀ u ∈ us, IsScalar u) {ms : List Mark}
    (hk : cs.Keeps c (us.flatMap utf8Encode)) (hnf : nfc (us.flatMap utf8Encode) = us.flatMap utf8Encode) :
    ∃ t, textEncode nfc quote cs ⟨us.flatMap utf8Encode, ms⟩ e = .ok t ∧
      (0xFFFD ∉ us → ∃ ms', textDecode nfc quote off cs t e = .ok ⟨us.flatMap utf8Encode, ms'⟩ ∧ ∀ m, m ∈ ms' ↔ m ∈ ms ∨ m ∈ e.marks) ∧
      (0xFFFD ∈ us → ∃ m, textDecode nfc quote off cs t e = .error m) := by
  obtain ⟨x, hx, hx'⟩ := hk
  have he := encodes_encode x
  have hasc : nfc (b64Encode x) = b64Encode x := hn _ fun c hc => (he.ascii c hc).1
  refine ⟨⟨b64Encode x, ms ++ e.marks⟩, ?_, ?_, ?_⟩
  · unfold textEncode textEncodeImpl
    simp only [hf, hx, Except.map, hasc]
  · intro hno
    have hr : hasErrorRune (us.flatMap utf8Encode) = false := by
      cases hr : hasErrorRune (us.flatMap utf8Encode) with
      | false => rfl
      | true => exact absurd ((hasErrorRune_utf8 hu).1 hr) hno
    refine ⟨ms ++ e.marks ++ e.marks, ?_, by intro m; simp⟩
    unfold textDecode textDecodeImpl
    simp only [hf, he.decode, hx', hr, Bool.false_eq_true, if_false, Except.map, hnf]
  · intro hin
    have hr := (hasErrorRune_utf8 hu).2 hin
    unfold textDecode textDecodeImpl
    simp only [hf, he.decode, hx', hr, if_true, Except.map]
    exact ⟨_, rfl⟩

example : FixesAscii id ∧ demoSets.find (b "utf-8") = some () ∧ (∀ u ∈ [72, 0x4E16], IsScalar u) ∧
    demoSets.Keeps () ([72, 0x4E16].flatMap utf8Encode) ∧
    textEncode id id demoSets ⟨b "H世", []⟩ ⟨b "utf-8", []⟩ = .ok ⟨b "SOS4lg==", []⟩ ∧
    textDecode id id id demoSets ⟨b "SOS4lg==", []⟩ ⟨b "utf-8", []⟩ = .ok ⟨b "H世", []⟩ := by
  refine ⟨fun _ _ => rfl, by decide, ?_, ⟨_, rfl, rfl⟩, by decide +kernel, by decide +kernel⟩
  intro c hc
  simp only [List.mem_cons, List.not_mem_nil, or_false] at hc
  unfold IsScalar
  omega

/-- A text with U+FFFD does not come back, with any character set that could keep it. -/
theorem C101_violated {C : Type} {nfc quote off : Bytes → Bytes} (hn : FixesAscii nfc) {cs : Charsets C} {c : C} {e : Marked Bytes}
    (hf : cs.find e.v = some c) (hk : cs.Keeps c fffd) (hnf : nfc fffd = fffd) :
    ∃ t m, textEncode nfc quote cs ⟨fffd, []⟩ e = .ok t ∧ textDecode nfc quote off cs t e = .error m := by
  have hs : [0xFFFD].flatMap utf8Encode = fffd := by simp [fffd]
  obtain ⟨t, h1, _, h2⟩ := C101_partial (quote := quote) (off := off) hn hf (us := [0xFFFD]) (ms := []) (by simp [IsScalar]) (by rw [hs]; exact hk)
    (by rw [hs]; exact hnf)
  rw [hs] at h1
  obtain ⟨m, h2⟩ := h2 (by simp)
  exact ⟨t, m, h1, h2⟩

example : demoSets.Keeps () fffd := ⟨_, rfl, rfl⟩

/-- `base64gzip` gives the base64 encoding of the compressed text with the marks of the text; so if the compression can be
undone, no two texts give the same result. -/
theorem C101_gzip {nfc gzip : Bytes → Bytes} (hn : FixesAscii nfc) (s : Marked Bytes) :
    Encodes (gzip s.v) (base64Gzip nfc gzip s).v ∧ (base64Gzip nfc gzip s).marks = s.marks ∧
      ∀ (gunzip : Bytes → Option Bytes), (∀ x, gunzip (gzip x) = some x) →
        ∀ s' : Marked Bytes, (base64Gzip nfc gzip s').v = (base64Gzip nfc gzip s).v → s'.v = s.v := by
  have key : ∀ s : Marked Bytes, Encodes (gzip s.v) (base64Gzip nfc gzip s).v := by
    intro s
    have he := encodes_encode (gzip s.v)
    unfold base64Gzip
    rw [hn _ fun c hc => (he.ascii c hc).1]
    exact he
  refine ⟨key s, rfl, ?_⟩
  intro gunzip hg s' heq
  have h1 := (key s').decode
  rw [heq, (key s).decode] at h1
  have h2 := hg s.v
  rw [Option.some.inj h1, hg s'.v] at h2
  exact Option.some.inj h2

example : (base64Gzip id id ⟨b "Hi", [sensitiveMark]⟩).v = b "SGk=" ∧ ∀ x, (some : Bytes → Option Bytes) (id x) = some x :=
  ⟨by decide +kernel, fun _ => rfl⟩

/-! ## C102 -/

variable {A R : Type}

/-- The errors of `tostring`, `tonumber`, `tobool`, `tolist`, … do not depend on a value that is sensitive at any depth,
beyond its type. -/
theorem C102_secret (cv : Convert A R) (quote : Bytes → Bytes) {want : Ty} {x y : ToArg A} (ht : x.ty = y.ty)
    (hx : sensitiveMark ∈ x.deepMarks) (hy : sensitiveMark ∈ y.deepMarks) {m m' : Bytes}
    (h : toFunc cv quote want x = .error m) (h' : toFunc cv quote want y = .error m') : m = m' := by
  unfold toFunc at h h'
  rw [← ht] at h'
  cases htt : toType cv want x.ty with
  | error e =>
    simp only [htt, Except.error.injEq] at h h'
    rw [← h, ← h']
  | ok ret =>
    simp only [htt] at h h'
    have key : ∀ z : ToArg A, z.ty = x.ty → sensitiveMark ∈ z.deepMarks → ∀ m, (match z.val with
        | .unk => Except.ok (cv.unknown ret z.deepMarks)
        | _ => match cv.conv z ret with
          | none => .error (toError cv quote want z)
          | some r => .ok r) = .error m → m = b "cannot convert this sensitive " ++ cv.friendly x.ty ++ b " to " ++ cv.friendly want := by
      intro z hz hs m hm
      cases hv : z.val with
      | unk => simp [hv] at hm
      | null =>
        simp only [hv] at hm
        cases hc : cv.conv z ret with
        | none =>
          simp only [hc, Except.error.injEq, toError, if_pos hs, hz] at hm
          exact hm.symm
        | some r => simp [hc] at hm
      | val a =>
        simp only [hv] at hm
        cases hc : cv.conv z ret with
        | none =>
          simp only [hc, Except.error.injEq, toError, if_pos hs, hz] at hm
          exact hm.symm
        | some r => simp [hc] at hm
    rw [key x rfl hx m h, key y ht.symm hy m' h']

/-- A conversion of strings to booleans, with which the examples are computed. -/
def demoConvert : Convert Unit Bool where
  can got want := got = .string && want = .bool
  conv x _ := match x.val with
    | .val (.inl s) => if s = b "true" then some true else if s = b "false" then some false else none
    | _ => none
  mismatch _ _ := b "?"
  friendly
    | .string => b "string"
    | .bool => b "bool"
    | _ => b "?"
  unknown _ _ := false

example : toFunc demoConvert id .bool ⟨.string, [sensitiveMark], .val (.inl (b "key1"))⟩ =
      .error (b "cannot convert this sensitive string to bool") ∧
    toFunc demoConvert id .bool ⟨.string, [], .val (.inl (b "key1"))⟩ =
      .error (b "cannot convert key1 to bool; only the strings \"true\" or \"false\" are allowed") ∧
    toFunc demoConvert id .bool ⟨.string, [sensitiveMark], .val (.inl (b "true"))⟩ = .ok true := by decide +kernel

/-- What is not a string is never shown: the errors for two values of one type, none sensitive, are the same unless they
are strings that were to become booleans or numbers. -/
theorem C102_values (cv : Convert A R) (quote : Bytes → Bytes) {want : Ty} {x y : ToArg A} (ht : x.ty = y.ty)
    (hx : sensitiveMark ∉ x.deepMarks) (hy : sensitiveMark ∉ y.deepMarks) (hs : x.ty = .string → want ≠ .bool ∧ want ≠ .number) {m m' : Bytes}
    (h : toFunc cv quote want x = .error m) (h' : toFunc cv quote want y = .error m') : m = m' := by
  unfold toFunc at h h'
  rw [← ht] at h'
  cases htt : toType cv want x.ty with
  | error e =>
    simp only [htt, Except.error.injEq] at h h'
    rw [← h, ← h']
  | ok ret =>
    simp only [htt] at h h'
    have key : ∀ z : ToArg A, z.ty = x.ty → sensitiveMark ∉ z.deepMarks → ∀ m, (match z.val with
        | .unk => Except.ok (cv.unknown ret z.deepMarks)
        | _ => match cv.conv z ret with
          | none => .error (toError cv quote want z)
          | some r => .ok r) = .error m → m = b "cannot convert " ++ cv.friendly x.ty ++ b " to " ++ cv.friendly want := by
      intro z hz hns m hm
      have he : toError cv quote want z = b "cannot convert " ++ cv.friendly x.ty ++ b " to " ++ cv.friendly want := by
        unfold toError
        rw [if_neg hns, if_neg, if_neg, hz]
        · rintro ⟨h1, h2⟩; exact (hs (hz ▸ h1)).2 h2
        · rintro ⟨h1, h2⟩; exact (hs (hz ▸ h1)).1 h2
      cases hv : z.val with
      | unk => simp [hv] at hm
      | null =>
        simp only [hv] at hm
        cases hc : cv.conv z ret with
        | none =>
          simp only [hc, Except.error.injEq, he] at hm
          exact hm.symm
        | some r => simp [hc] at hm
      | val a =>
        simp only [hv] at hm
        cases hc : cv.conv z ret with
        | none =>
          simp only [hc, Except.error.injEq, he] at hm
          exact hm.symm
        | some r => simp [hc] at hm
    rw [key x rfl hx m h, key y ht.symm hy m' h']

example : toFunc demoConvert id .bool ⟨.other (b "list"), [], .val (.inr ())⟩ = .error (b "cannot convert ? to bool") := by decide +kernel

/-- A value of the wanted type always passes the type function, one that cannot be converted never does; an unknown value
never leads to an error of the conversion. -/
theorem C102_type (cv : Convert A R) (quote : Bytes → Bytes) {want : Ty} {x : ToArg A} :
    (x.val = .unk → (x.ty = want ∨ cv.can x.ty want = true) → toFunc cv quote want x = .ok (cv.unknown want x.deepMarks)) ∧
    (x.ty ≠ want → cv.can x.ty want = false → ∃ m, toFunc cv quote want x = .error m) ∧
    (x.val ≠ .unk → (x.ty = want ∨ cv.can x.ty want = true) → ∀ r, toFunc cv quote want x = .ok r ↔ cv.conv x want = some r) := by
  have hok : (x.ty = want ∨ cv.can x.ty want = true) → toType cv want x.ty = .ok want := by
    intro h
    unfold toType
    by_cases h1 : x.ty = want
    · rw [if_pos h1]
    · rw [if_neg h1, if_pos (h.resolve_left h1)]
  refine ⟨?_, ?_, ?_⟩
  · intro hv h
    unfold toFunc
    simp only [hok h, hv]
  · intro h1 h2
    unfold toFunc toType
    rw [if_neg h1, h2]
    simp only [Bool.false_eq_true, if_false]
    split
    · exact ⟨_, rfl⟩
    · next heq => split at heq <;> cases heq
  · intro hv h r
    unfold toFunc
    simp only [hok h]
    cases hx : x.val with
    | unk => exact absurd hx hv
    | null => cases hc : cv.conv x want <;> simp
    | val a => cases hc : cv.conv x want <;> simp

example : toFunc demoConvert id .bool ⟨.string, [], .unk⟩ = .ok false ∧ (toFunc demoConvert id .bool ⟨.tuple (b "t"), [], .unk⟩).toOption = none := by
  decide +kernel

end Verif.Text
