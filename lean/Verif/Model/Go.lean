/-!
# Go basics shared by all models

* Go strings are byte sequences: `Bytes = List UInt8`.
* A Go map is an association list with distinct keys; the list order is the order in
  which `range` visits the entries in the run under consideration.  Statements about
  all runs quantify over all permutations.
-/

namespace Verif

/-- A Go `string` or `[]byte`: an arbitrary byte sequence (not necessarily UTF-8). -/
abbrev Bytes := List UInt8

/-- The bytes of a Go string literal. -/
def b (s : String) : Bytes := s.toUTF8.data.toList

/-- A Go map, listed in iteration order. -/
abbrev GoMap (κ α : Type) := List (κ × α)

namespace GoMap
variable {κ α : Type} [DecidableEq κ]

/-- Go `m[k]` with the comma-ok form: `none` when the key is absent. -/
def get? : GoMap κ α → κ → Option α
  | [], _ => none
  | (k', v) :: m, k => if k' = k then some v else get? m k

/-- Go `m[k] = v`: overwrite in place, or a new entry. -/
def set : GoMap κ α → κ → α → GoMap κ α
  | [], k, v => [(k, v)]
  | (k', v') :: m, k, v => if k' = k then (k, v) :: m else (k', v') :: set m k v

/-- Go `delete(m, k)`. -/
def del (m : GoMap κ α) (k : κ) : GoMap κ α := m.filter (fun e => e.1 ≠ k)

/-- The keys in iteration order. -/
def keys (m : GoMap κ α) : List κ := m.map Prod.fst

end GoMap

/-- `utf8.RuneError`-free continuation byte test used by `unicode/utf8`. -/
def utf8Cont (lo hi : UInt8) (c : UInt8) : Bool := lo ≤ c && c ≤ hi

/-- Go standard library `unicode/utf8.ValidString` (external, modelled from the
documented encoding table: no surrogates, no overlong forms, at most U+10FFFF). -/
def utf8Valid : Bytes → Bool
  | [] => true
  | c0 :: rest =>
    if c0 < 0x80 then utf8Valid rest
    else if utf8Cont 0xC2 0xDF c0 then
      match rest with
      | c1 :: r => utf8Cont 0x80 0xBF c1 && utf8Valid r
      | _ => false
    else if utf8Cont 0xE0 0xEF c0 then
      match rest with
      | c1 :: c2 :: r =>
        utf8Cont (if c0 = 0xE0 then 0xA0 else 0x80) (if c0 = 0xED then 0x9F else 0xBF) c1
          && utf8Cont 0x80 0xBF c2 && utf8Valid r
      | _ => false
    else if utf8Cont 0xF0 0xF4 c0 then
      match rest with
      | c1 :: c2 :: c3 :: r =>
        utf8Cont (if c0 = 0xF0 then 0x90 else 0x80) (if c0 = 0xF4 then 0x8F else 0xBF) c1
          && utf8Cont 0x80 0xBF c2 && utf8Cont 0x80 0xBF c3 && utf8Valid r
      | _ => false
    else false

deriving instance DecidableEq for Except

end Verif
