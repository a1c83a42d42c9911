import Verif.Model.File
import Verif.Spec.Path
/-! What it means that the file system does not tell two paths apart. -/
namespace Verif.File
open Path

/-- The operating system answers alike for both paths: neither can be opened because of `~`, or both lead to files with
the same state and the same contents. -/
def Alike (fs : FS) (home : Option Bytes) (base p p' : Bytes) : Prop :=
  match openPath home base p, openPath home base p' with
  | none, none => True
  | some q, some q' => fs.stat q = fs.stat q' ∧ fs.openRead q = fs.openRead q'
  | _, _ => False

/-- A file system in which files are only missing for `open` if they are for `stat`. -/
def FS.Consistent (fs : FS) : Prop := ∀ q, fs.openRead q = .error .notExist ↔ fs.stat q = .error .notExist

/-- The path leads to a file with these contents. -/
def Holds (fs : FS) (home : Option Bytes) (base p src : Bytes) : Prop :=
  ∃ q, openPath home base p = some q ∧ fs.openRead q = .ok (.ok src)
end Verif.File
