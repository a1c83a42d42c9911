import Verif.Model.Text
import Verif.Spec.Encoding
import Verif.Spec.Utf8
/-!
# What replacing means, and which texts have no U+FFFD
-/
namespace Verif.Text
open Verif.Funcs

/-- `t` occurs in `s`. -/
def Occurs (t s : Bytes) : Prop := ∃ p q, s = p ++ t ++ q

/-- `p` and what follows: the first occurrence of `old` in `p ++ old` is the one at its end. -/
def FirstAtEnd (old p : Bytes) : Prop := ∀ u v, p ++ old = u ++ old ++ v → v = []

/-- The text cut at the occurrences of `old`, from left to right; in the last piece there is none. -/
inductive Cut (old : Bytes) : Bytes → List Bytes → Prop
  | last {s : Bytes} : ¬ Occurs old s → Cut old s [s]
  | more {p r : Bytes} {ps : List Bytes} : FirstAtEnd old p → Cut old r ps → Cut old (p ++ old ++ r) (p :: ps)

/-- The pieces with a text between each two of them. -/
def glue (new : Bytes) : List Bytes → Bytes
  | [] => []
  | [p] => p
  | p :: q :: r => p ++ new ++ glue new (q :: r)

/-- A pattern for a regular expression: `/…/`. -/
def Slashed (t : Bytes) : Prop := ∃ p, t = 47 :: (p ++ [47])

/-- The bytes of U+FFFD. -/
def fffd : Bytes := utf8Encode 0xFFFD

/-- A character set that can write `s` and reads it back. -/
def Charsets.Keeps {C : Type} (cs : Charsets C) (c : C) (s : Bytes) : Prop := ∃ x, cs.enc c s = some x ∧ cs.dec c x = some s

/-- Go's regular expressions: the empty one matches before each character and at the end, so that an ASCII text gets the
replacement (without `$`) there. -/
def EmptyMatches (re : Engine) : Prop :=
  ∃ f, re [] = .ok f ∧ ∀ s r : Bytes, (∀ c ∈ s, c < 128) → 36 ∉ r → f s r = r ++ s.flatMap fun c => c :: r

end Verif.Text
