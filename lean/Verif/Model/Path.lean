import Verif.Model.Go
/-!
# Paths

Model of the path functions of `internal/lang/funcs/filesystem.go` (`basename`, `dirname`, `abspath`, `pathexpand` and
the path that the file functions open).

External code, modelled as recalled (it is not on the machine): `path/filepath` for Unix (`Clean`, `Join`, `Base`,
`Dir`, `IsAbs`, `Abs`) and `homedir.Expand`.  The home directory and the working directory are parameters.
-/
namespace Verif.Path

/-- The separator `/`. -/
def sep : UInt8 := 47
/-- The dot. -/
def dot : UInt8 := 46

/-- Whether the rest of a path is at its end or at a separator. -/
def atEnd : Bytes → Bool
  | [] => true
  | c :: _ => c = sep

/-- `filepath.Clean`: back up over the last element of the output, which is kept in reverse; `dotdot` is the length
that must stay. -/
def backtrack (dotdot : Nat) : Bytes → Bytes
  | [] => []
  | c :: out => if out.length > dotdot ∧ c ≠ sep then backtrack dotdot out else out

/-- `filepath.Clean`, the loop.  `out` is the output in reverse.  Each round takes at least one byte of the path, so the
length of the path is enough `fuel`. -/
def cleanLoop (rooted : Bool) : Nat → Bytes → Bytes → Nat → Bytes
  | 0, _, out, _ => out
  | _ + 1, [], out, _ => out
  | fuel + 1, c :: p, out, dotdot =>
    if c = sep then cleanLoop rooted fuel p out dotdot
    else if c = dot ∧ atEnd p then cleanLoop rooted fuel p out dotdot
    else if c = dot ∧ p.head? = some dot ∧ atEnd p.tail then
      if out.length > dotdot then cleanLoop rooted fuel p.tail (backtrack dotdot out) dotdot
      else if rooted then cleanLoop rooted fuel p.tail out dotdot
      else
        let out' := dot :: dot :: (if out.length > 0 then sep :: out else out)
        cleanLoop rooted fuel p.tail out' out'.length
    else
      let out' := if out.length ≠ (if rooted then 1 else 0) then sep :: out else out
      cleanLoop rooted fuel ((c :: p).dropWhile (· ≠ sep)) (((c :: p).takeWhile (· ≠ sep)).reverse ++ out') dotdot

/-- `filepath.IsAbs` -/
def isAbs (p : Bytes) : Bool := p.head? = some sep

/-- `filepath.Clean` -/
def clean (p : Bytes) : Bytes :=
  if p = [] then [dot]
  else
    let out := if isAbs p then cleanLoop true p.length p.tail [sep] 1 else cleanLoop false p.length p [] 0
    if out = [] then [dot] else out.reverse

/-- `filepath.Join` of two elements: empty ones are left out. -/
def join (a c : Bytes) : Bytes :=
  if a = [] then (if c = [] then [] else clean c)
  else if c = [] then clean a
  else clean (a ++ sep :: c)

/-- `filepath.Base`: trailing separators are removed, then everything up to the last separator. -/
def base (p : Bytes) : Bytes :=
  if p = [] then [dot]
  else
    let last := ((p.reverse.dropWhile (· = sep)).takeWhile (· ≠ sep)).reverse
    if last = [] then [sep] else last

/-- `filepath.Dir`: up to the last separator, cleaned. -/
def dir (p : Bytes) : Bytes := clean (p.reverse.dropWhile (· ≠ sep)).reverse

/-- `homedir.Expand`; `none` is an error. -/
def expand (home : Option Bytes) : Bytes → Option Bytes
  | [] => some []
  | c :: p =>
    if c ≠ 126 then some (c :: p)
    else match p with
      | [] => home.map fun h => join h []
      | d :: p => if d ≠ sep ∧ d ≠ 92 then none else home.map fun h => join h (d :: p)

/-- internal/lang/funcs/filesystem.go L402-416 `openFile`, L208-220 of `fileexists`: the path that is opened. -/
def openPath (home : Option Bytes) (baseDir path : Bytes) : Option Bytes :=
  (expand home path).map fun p => clean (if isAbs p then p else join baseDir p)

/-- internal/lang/funcs/filesystem.go L288-295 of `fileset`: the directory and the pattern, without `expand`. -/
def globPath (baseDir path pattern : Bytes) : Bytes :=
  join (if isAbs path then path else join baseDir path) pattern

/-- internal/lang/funcs/filesystem.go L337-351 `BasenameFunc` -/
def basename (nfc : Bytes → Bytes) (p : Bytes) : Bytes := nfc (base p)

/-- internal/lang/funcs/filesystem.go L353-367 `DirnameFunc` -/
def dirname (nfc : Bytes → Bytes) (p : Bytes) : Bytes := nfc (dir p)

/-- internal/lang/funcs/filesystem.go L369-383 `AbsPathFunc`; `filepath.Abs` joins with the working directory
(external). -/
def abspath (nfc : Bytes → Bytes) (cwd : Bytes) (p : Bytes) : Bytes :=
  nfc (if isAbs p then clean p else join cwd p)

/-- internal/lang/funcs/filesystem.go L385-400 `PathExpandFunc` -/
def pathexpand (nfc : Bytes → Bytes) (home : Option Bytes) (p : Bytes) : Option Bytes := (expand home p).map nfc

end Verif.Path
