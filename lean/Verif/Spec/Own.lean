import Verif.Model.Own
import Verif.Model.HclSyntax
/-!
# Heredocs

The lexer of `Model/HclSyntax` does not know heredocs.  For the one statement about them, this is the value of the first one,
marked with `EOT`, in a text: the lines up to a line that is `EOT` but for spaces in front of it.
-/
namespace Verif.HclS

/-- The lines of a text up to the marker. -/
def heredocLines : List Bytes → Option Bytes
  | [] => none
  | l :: r => if l.dropWhile (· = 32) = b "EOT" then some [] else (heredocLines r).map fun v => l ++ 10 :: v

/-- Split at newlines. -/
def linesOf : Bytes → List Bytes
  | [] => [[]]
  | c :: r =>
    if c = 10 then [] :: linesOf r
    else match linesOf r with
      | l :: ls => (c :: l) :: ls
      | [] => [[c]]

/-- The value of the first heredoc. -/
def heredoc : Bytes → Option Bytes
  | [] => none
  | c :: r => if (b "<<EOT\n").isPrefixOf (c :: r) then heredocLines (linesOf ((c :: r).drop 6)) else heredoc r

end Verif.HclS
