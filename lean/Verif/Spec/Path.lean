import Verif.Model.Go
/-!
# What a path denotes

A place in the file system is the list of names from the root, innermost first.  A path leads from a directory to a
place, step by step; symbolic links are not represented.
-/
namespace Verif.Path

/-- The parts of a path between its slashes. -/
def parts : Bytes → List Bytes
  | [] => [[]]
  | c :: p => if c = 47 then [] :: parts p else match parts p with
    | [] => [[c]]
    | w :: ws => (c :: w) :: ws

/-- One step from a place: nothing for an empty part and for `.`, up for `..` (at the root it stays there), down
otherwise. -/
def stepTo (d : List Bytes) (w : Bytes) : List Bytes :=
  if w = [] ∨ w = b "." then d else if w = b ".." then d.tail else w :: d

/-- Following the parts of a path from the directory `d`. -/
def walk (d : List Bytes) (p : Bytes) : List Bytes := (parts p).foldl stepTo d

/-- The place that a path denotes, seen from the directory `d`: a path with a leading slash starts at the root. -/
def place (d : List Bytes) (p : Bytes) : List Bytes := walk (if p.head? = some 47 then [] else d) p

/-- The place lies in the directory `d`, or is the directory. -/
def Below (d x : List Bytes) : Prop := ∃ l, x = l ++ d

/-- Following the parts never leads above the place where it starts; `n` is the depth reached below it. -/
def staysIn : Nat → List Bytes → Bool
  | _, [] => true
  | n, w :: ws =>
    if w = [] ∨ w = b "." then staysIn n ws
    else if w = b ".." then match n with
      | 0 => false
      | n + 1 => staysIn n ws
    else staysIn (n + 1) ws

/-- A path that starts with `~`: it is meant from the home directory. -/
def Tilde (p : Bytes) : Prop := p.head? = some 126
instance (p : Bytes) : Decidable (Tilde p) := inferInstanceAs (Decidable (_ = _))
/-- An absolute path: it is meant from the root. -/
def Absolute (p : Bytes) : Prop := p.head? = some 47
instance (p : Bytes) : Decidable (Absolute p) := inferInstanceAs (Decidable (_ = _))
end Verif.Path
