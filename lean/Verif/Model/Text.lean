import Verif.Model.Funcs
import Verif.Model.Encoding
/-!
# replace, the text encodings and the conversions

Model of `internal/lang/funcs/string.go` L93-128 `ReplaceFunc`, `internal/lang/funcs/encoding.go` L62-103
`TextEncodeBase64Func`, L106-150 `TextDecodeBase64Func`, L154-180 `Base64GzipFunc` and `internal/lang/funcs/conversion.go`
L24-99 `MakeToFunc`, on known arguments.  The parameters of the first four do not allow marks, so `function.Call` takes
the marks off and puts all of them on the result; an error has no marks.

External code, modelled as recalled: `strings.Replace`, `bytes.ContainsRune`, `encoding/base64`.  External code that is a
parameter: `regexp`, `golang.org/x/text` (character sets), `compress/gzip`, `strconv.Quote`, the NFC normalisation of
`cty.StringVal`, the offset in `base64.CorruptInputError`, `convert.Convert`.
-/
namespace Verif.Text
open Verif.Funcs

/-! ## strings.Replace -/

/-- `strings.Index` for a text that is not empty: what is before the first occurrence and what is after it. -/
def cutFirst (old : Bytes) : Bytes → Option (Bytes × Bytes)
  | [] => if old = [] then some ([], []) else none
  | c :: r =>
    if hasPrefix (c :: r) old then some ([], (c :: r).drop old.length)
    else (cutFirst old r).map fun p => (c :: p.1, p.2)

/-- The loop of `strings.Replace` for an `old` that is not empty; `n` bounds the number of replacements (`strings.Count`). -/
def replaceLoop (old new : Bytes) : Nat → Bytes → Bytes
  | 0, s => s
  | n + 1, s =>
    match cutFirst old s with
    | none => s
    | some (p, r) => p ++ new ++ replaceLoop old new n r

/-- `utf8.DecodeRuneInString`: the number of bytes of the first character; 1 for a byte that does not begin one. -/
def runeWidth : Bytes → Nat
  | [] => 0
  | c0 :: rest =>
    if utf8Cont 0xC2 0xDF c0 then
      match rest with
      | c1 :: _ => if utf8Cont 0x80 0xBF c1 then 2 else 1
      | _ => 1
    else if utf8Cont 0xE0 0xEF c0 then
      match rest with
      | c1 :: c2 :: _ =>
        if utf8Cont (if c0 = 0xE0 then 0xA0 else 0x80) (if c0 = 0xED then 0x9F else 0xBF) c1 && utf8Cont 0x80 0xBF c2 then 3 else 1
      | _ => 1
    else if utf8Cont 0xF0 0xF4 c0 then
      match rest with
      | c1 :: c2 :: c3 :: _ =>
        if utf8Cont (if c0 = 0xF0 then 0x90 else 0x80) (if c0 = 0xF4 then 0x8F else 0xBF) c1 && utf8Cont 0x80 0xBF c2
          && utf8Cont 0x80 0xBF c3 then 4 else 1
      | _ => 1
    else 1

/-- The loop of `strings.Replace` for an empty `old`, after the first round: `new` after each character. -/
def spread (new : Bytes) : Nat → Bytes → Bytes
  | 0, s => s
  | n + 1, s =>
    match s with
    | [] => []
    | _ => s.take (runeWidth s) ++ new ++ spread new n (s.drop (runeWidth s))

/-- `strings.Replace(s, old, new, -1)` -/
def replaceAll (s old new : Bytes) : Bytes :=
  if old = new then s
  else if old = [] then new ++ spread new s.length s
  else replaceLoop old new s.length s

/-! ## replace -/

/-- `regexp.Compile`, then `ReplaceAllString`: an error with its text, or what is done to a string with a replacement. -/
abbrev Engine := Bytes → Except Bytes (Bytes → Bytes → Bytes)

/-- internal/lang/funcs/string.go L115 -/
def slashed (substr : Bytes) : Bool :=
  decide (substr.length > 1) && (substr.head? == some 47) && (substr.getLast? == some 47)

/-- internal/lang/funcs/string.go L109-127 -/
def replaceImpl (nfc : Bytes → Bytes) (re : Engine) (str substr rep : Bytes) : Except Bytes Bytes :=
  if slashed substr then
    match re ((substr.drop 1).dropLast) with                                 -- L116
    | .error e => .error e                                                   -- L117-119
    | .ok f => .ok (nfc (f str rep))                                         -- L121
  else .ok (nfc (replaceAll str substr rep))                                 -- L124

/-- internal/lang/funcs/string.go L93-128 -/
def replace (nfc : Bytes → Bytes) (re : Engine) (str substr rep : Marked Bytes) : Except Bytes (Marked Bytes) :=
  (replaceImpl nfc re str.v substr.v rep.v).map fun r => ⟨r, str.marks ++ substr.marks ++ rep.marks⟩

/-! ## Character sets -/

/-- `golang.org/x/text`: the character sets of the index `ianaindex.IANA`. -/
structure Charsets (C : Type) where
  /-- `IANA.Encoding`; `none` if there is an error or the encoding is nil. -/
  find : Bytes → Option C
  /-- `IANA.Name` -/
  name : C → Option Bytes
  /-- `NewEncoder().Bytes` -/
  enc : C → Bytes → Option Bytes
  /-- `NewDecoder().Bytes` -/
  dec : C → Bytes → Option Bytes

/-- internal/lang/funcs/encoding.go L78, L122 -/
def notSupported (quote : Bytes → Bytes) (e : Bytes) : Bytes :=
  quote e ++ b " is not a supported IANA encoding name or alias in this Terraform version"

/-- internal/lang/funcs/encoding.go L81-84, L125-128 -/
def encName {C : Type} (cs : Charsets C) (c : C) (given : Bytes) : Bytes := (cs.name c).getD given

/-- internal/lang/funcs/encoding.go L75-102 -/
def textEncodeImpl {C : Type} (nfc quote : Bytes → Bytes) (cs : Charsets C) (s e : Bytes) : Except Bytes Bytes :=
  match cs.find e with
  | none => .error (notSupported quote e)                                                                   -- L77-79
  | some c =>
    match cs.enc c s with
    | none => .error (b "the given string contains characters that cannot be represented in " ++ encName cs c e)   -- L88-98
    | some x => .ok (nfc (b64Encode x))                                                                     -- L101

/-- `bytes.ContainsRune(s, utf8.RuneError)`: the character U+FFFD, or bytes that are not UTF-8. -/
def hasErrorRune (s : Bytes) : Bool := !utf8Valid s || containsB s [0xEF, 0xBF, 0xBD]

/-- internal/lang/funcs/encoding.go L119-149; `off` is the number in `base64.CorruptInputError` (the only error of
`base64`, so that L136-137 cannot happen). -/
def textDecodeImpl {C : Type} (nfc quote : Bytes → Bytes) (off : Bytes → Bytes) (cs : Charsets C) (t e : Bytes) : Except Bytes Bytes :=
  match cs.find e with
  | none => .error (notSupported quote e)                                                                   -- L121-123
  | some c =>
    match b64Decode t with
    | none => .error (b "the given value is has an invalid base64 symbol at offset " ++ off t)              -- L132-135
    | some x =>
      match cs.dec c x with
      | none => .error (b "the given string contains symbols that are not defined for " ++ encName cs c e)  -- L144-146
      | some d =>
        if hasErrorRune d then .error (b "the given string contains symbols that are not defined for " ++ encName cs c e)
        else .ok (nfc d)                                                                                    -- L148

/-- internal/lang/funcs/encoding.go L62-103 -/
def textEncode {C : Type} (nfc quote : Bytes → Bytes) (cs : Charsets C) (s e : Marked Bytes) : Except Bytes (Marked Bytes) :=
  (textEncodeImpl nfc quote cs s.v e.v).map fun r => ⟨r, s.marks ++ e.marks⟩

/-- internal/lang/funcs/encoding.go L106-150 -/
def textDecode {C : Type} (nfc quote off : Bytes → Bytes) (cs : Charsets C) (t e : Marked Bytes) : Except Bytes (Marked Bytes) :=
  (textDecodeImpl nfc quote off cs t.v e.v).map fun r => ⟨r, t.marks ++ e.marks⟩

/-- internal/lang/funcs/encoding.go L154-180; `gzip` is what the writer has put into the buffer (writing to memory does
not fail). -/
def base64Gzip (nfc gzip : Bytes → Bytes) (s : Marked Bytes) : Marked Bytes := ⟨nfc (b64Encode (gzip s.v)), s.marks⟩

/-! ## Conversions -/

/-- A type as far as the errors of the conversions tell types apart. -/
inductive Ty where
  | string
  | number
  | bool
  | tuple (name : Bytes)
  | object (name : Bytes)
  | other (name : Bytes)
deriving DecidableEq

/-- A value for a conversion: its type, its marks at any depth, and what it is.  `A` is the type of values that are not
strings. -/
structure ToArg (A : Type) where
  ty : Ty
  deepMarks : List Mark
  val : K (Bytes ⊕ A)

/-- `convert` -/
structure Convert (A R : Type) where
  /-- `GetConversionUnsafe` finds a conversion. -/
  can : Ty → Ty → Bool
  /-- `Convert`; the result carries the marks of the value. -/
  conv : ToArg A → Ty → Option R
  /-- `MismatchMessage` -/
  mismatch : Ty → Ty → Bytes
  /-- `FriendlyName`, `FriendlyNameForConstraint` -/
  friendly : Ty → Bytes
  /-- An unknown value of a type. -/
  unknown : Ty → List Mark → R

variable {A R : Type} (cv : Convert A R) (quote : Bytes → Bytes)

/-- internal/lang/funcs/conversion.go L42-62: the type function. -/
def toType (want : Ty) (got : Ty) : Except Bytes Ty :=
  if got = want then .ok want                                                                       -- L44-46
  else if cv.can got want then .ok want                                                             -- L47, L60-61
  else match got, want with
    | .tuple _, .tuple _ => .error (b "incompatible tuple type for conversion: " ++ cv.mismatch got want)      -- L52-53
    | .object _, .object _ => .error (b "incompatible object type for conversion: " ++ cv.mismatch got want)   -- L54-55
    | _, _ => .error (b "cannot convert " ++ cv.friendly got ++ b " to " ++ cv.friendly want)                  -- L56-57

/-- internal/lang/funcs/conversion.go L82-85, L88-91 -/
def what (x : ToArg A) : Bytes :=
  match x.val with
  | .val (.inl s) => quote s
  | _ => b "string"

/-- internal/lang/funcs/conversion.go L63-97: the error of the implementation. -/
def toError (want : Ty) (x : ToArg A) : Bytes :=
  if sensitiveMark ∈ x.deepMarks then b "cannot convert this sensitive " ++ cv.friendly x.ty ++ b " to " ++ cv.friendly want   -- L76-79
  else if x.ty = .string ∧ want = .bool then
    b "cannot convert " ++ what quote x ++ b " to bool; only the strings \"true\" or \"false\" are allowed"                     -- L81-86
  else if x.ty = .string ∧ want = .number then
    b "cannot convert " ++ what quote x ++ b " to number; given string must be a decimal representation of a number"             -- L87-92
  else b "cannot convert " ++ cv.friendly x.ty ++ b " to " ++ cv.friendly want                                                   -- L93-94

/-- internal/lang/funcs/conversion.go L24-99 `MakeToFunc(want)`, called.  `function.Call` returns an unknown value for an
unknown argument after the type function. -/
def toFunc (want : Ty) (x : ToArg A) : Except Bytes R :=
  match toType cv want x.ty with
  | .error e => .error e
  | .ok ret =>
    match x.val with
    | .unk => .ok (cv.unknown ret x.deepMarks)
    | _ =>
      match cv.conv x ret with
      | none => .error (toError cv quote want x)
      | some r => .ok r

end Verif.Text
