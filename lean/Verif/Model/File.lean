import Verif.Model.Path
import Verif.Model.Funcs
import Verif.Model.Encoding
/-!
# Files

Model of `file`, `filebase64`, `fileexists`, `fileset` (`internal/lang/funcs/filesystem.go`), of the hashes of strings and
of files, `uuidv5` and `rsadecrypt` (`internal/lang/funcs/crypto.go`), with the texts of their errors.

External code: `os.Stat`, `os.Open` and reading are a parameter `FS`; the texts of their errors are those of
`fs.PathError`, as recalled.  `doublestar.Glob`, `filepath.Rel`, the hashes, `uuid` and the ciphers are parameters.
`function.Call` removes the marks of arguments that do not allow them and puts them on the result.

Simplifications: arguments are known and not null (see `Funcs.call`); the index of an `ArgError` is not represented.
-/
namespace Verif.File
open Path Funcs

/-- An error of the operating system: there is no file, or another reason. -/
inductive OsErr where
  | notExist
  | other (reason : Bytes)
deriving DecidableEq

/-- The type bits of a file mode. -/
inductive Kind where
  | regular | directory | device | pipe | socket | irregular
deriving DecidableEq

/-- The file system: what `os.Stat`, and `os.Open` with reading to the end, answer at a path. -/
structure FS where
  stat : Bytes → Except OsErr Kind
  /-- Opening fails; or it works, and reading fails or gives the contents. -/
  openRead : Bytes → Except OsErr (Except Bytes Bytes)

/-- `OsErr` as text. -/
def OsErr.text : OsErr → Bytes
  | .notExist => b "no such file or directory"
  | .other r => r

/-- `fs.PathError.Error` -/
def pathError (op path reason : Bytes) : Bytes := op ++ b " " ++ path ++ b ": " ++ reason

/-- What `openFile` reports. -/
inductive OpenErr where
  | expand
  | os (path : Bytes) (e : OsErr)

/-- internal/lang/funcs/filesystem.go L402-416 `openFile`, with the path that was opened. -/
def openFile (fs : FS) (home : Option Bytes) (baseDir path : Bytes) : Except OpenErr (Bytes × Except Bytes Bytes) :=
  match openPath home baseDir path with
  | none => .error .expand
  | some q => match fs.openRead q with
    | .error e => .error (.os q e)
    | .ok r => .ok (q, r)

/-- The text of an error of `openFile`; the reason why `~` is not expanded does not contain the path (external). -/
def OpenErr.text : OpenErr → Bytes
  | .expand => b "failed to expand ~"
  | .os q e => pathError (b "open") q e.text

/-- The hint of L423. -/
def noFileHint : Bytes := b "; this function works only with files that are distributed as part of the configuration source code, so if this file will be created by a resource in this configuration you must instead obtain this result from an attribute of that resource"

/-- internal/lang/funcs/filesystem.go L418-436 `readFileBytes` -/
def readFileBytes (quote : Bytes → Bytes) (fs : FS) (home : Option Bytes) (baseDir path : Bytes) (marks : List Mark) :
    Except Bytes Bytes :=
  match openFile fs home baseDir path with
  | .error (.os _ .notExist) => .error (b "no file exists at " ++ redactIfSensitive quote path [marks] ++ noFileHint)
  | .error e => .error e.text
  | .ok (q, .error reason) => .error (b "failed to read file: " ++ pathError (b "read") q reason)
  | .ok (_, .ok src) => .ok src

/-- The hint of L51. -/
def utf8Hint : Bytes := b " are not valid UTF-8; use the filebase64 function to obtain the Base64 encoded contents or the other file functions (e.g. filemd5, filesha256) to obtain file hashing results instead"

/-- internal/lang/funcs/filesystem.go L25-57 `MakeFileFunc` -/
def file (nfc quote : Bytes → Bytes) (fs : FS) (home : Option Bytes) (baseDir : Bytes) (encBase64 : Bool) (path : Marked Bytes) :
    Except Bytes (Marked Bytes) :=
  match readFileBytes quote fs home baseDir path.v path.marks with
  | .error e => .error e
  | .ok src =>
    if encBase64 then .ok ⟨nfc (b64Encode src), path.marks⟩
    else if utf8Valid src then .ok ⟨nfc src, path.marks⟩
    else .error (b "contents of " ++ redactIfSensitive quote path.v [path.marks] ++ utf8Hint)

/-- What L238-252 say about a file that is not regular. -/
def Kind.not : Kind → Bytes
  | .directory => b " is a directory, not a file"
  | .device => b " is a device node, not a regular file"
  | .pipe => b " is a named pipe, not a regular file"
  | .socket => b " is a unix domain socket, not a regular file"
  | _ => b " is not a regular file"

/-- internal/lang/funcs/filesystem.go L196-260 `MakeFileExistsFunc` -/
def fileExists (quote : Bytes → Bytes) (fs : FS) (home : Option Bytes) (baseDir : Bytes) (path : Marked Bytes) :
    Except Bytes (Marked Bool) :=
  match openPath home baseDir path.v with
  | none => .error OpenErr.expand.text
  | some q => match fs.stat q with
    | .error .notExist => .ok ⟨false, path.marks⟩
    | .error _ => .error (b "failed to stat " ++ redactIfSensitive quote q [path.marks])
    | .ok .regular => .ok ⟨true, path.marks⟩
    | .ok k => .error (redactIfSensitive quote q [path.marks] ++ k.not)

/-- internal/lang/funcs/filesystem.go L303-326, the loop of `fileset`; `rel` is `filepath.Rel(path, match)`. -/
def setLoop (nfc quote : Bytes → Bytes) (fs : FS) (rel : Bytes → Except Bytes Bytes) (markses : List (List Mark)) :
    List Bytes → Except Bytes (List Bytes)
  | [] => .ok []
  | m :: ms => match fs.stat m with
    | .error e => .error (b "failed to stat " ++ redactIfSensitive quote m markses ++ b ": " ++ pathError (b "stat") m e.text)
    | .ok .regular => match rel m with
      -- `match` has been assigned the result of `Rel`, which is empty
      | .error e => .error (b "failed to trim path of match " ++ redactIfSensitive quote [] markses ++ b ": " ++ e)
      | .ok r => (setLoop nfc quote fs rel markses ms).map fun l => nfc r :: l
    | .ok _ => setLoop nfc quote fs rel markses ms

/-- internal/lang/funcs/filesystem.go L264-335 `MakeFileSetFunc`.  The set is given as the list of its elements, in the order
of the matches and with repetitions.  `glob` is `doublestar.Glob`. -/
def fileset (nfc quote : Bytes → Bytes) (fs : FS) (glob : Bytes → Except Bytes (List Bytes))
    (rel : Bytes → Bytes → Except Bytes Bytes) (baseDir : Bytes) (path pattern : Marked Bytes) :
    Except Bytes (Marked (List Bytes)) :=
  let dir := if isAbs path.v then path.v else join baseDir path.v
  let full := join dir pattern.v
  match glob full with
  | .error e => .error (b "failed to glob pattern " ++ redactIfSensitive quote full [path.marks, pattern.marks] ++ b ": " ++ e)
  | .ok ms => (setLoop nfc quote fs (rel dir) [path.marks, pattern.marks] ms).map fun l =>
      ⟨l, path.marks ++ pattern.marks⟩

/-- internal/lang/funcs/crypto.go L224-242 `makeStringHashFunction`; `enc` is the encoding of the sum (hexadecimal or base64). -/
def stringHash (nfc h enc : Bytes → Bytes) (s : Marked Bytes) : Marked Bytes := ⟨nfc (enc (h s.v)), s.marks⟩

/-- internal/lang/funcs/crypto.go L244-271 `makeFileHashFunction` -/
def fileHash (nfc h enc : Bytes → Bytes) (fs : FS) (home : Option Bytes) (baseDir : Bytes) (path : Marked Bytes) :
    Except Bytes (Marked Bytes) :=
  match openFile fs home baseDir path.v with
  | .error e => .error e.text
  | .ok (q, .error reason) => .error (pathError (b "read") q reason)
  | .ok (_, .ok src) => .ok ⟨nfc (enc (h src)), path.marks⟩

/-- internal/lang/funcs/crypto.go L42-74 `UUIDV5Func`; `known` are the four names, `parse` is `uuid.Parse`, `sum` is `uuid.NewSHA1`
as text. -/
def uuidv5 {U : Type} (nfc : Bytes → Bytes) (known : Bytes → Option U) (parse : Bytes → Except Bytes U) (sum : U → Bytes → Bytes)
    (ns name : Marked Bytes) : Except Bytes (Marked Bytes) :=
  match known ns.v with
  | some u => .ok ⟨nfc (sum u name.v), ns.marks ++ name.marks⟩
  | none => match parse ns.v with
    | .ok u => .ok ⟨nfc (sum u name.v), ns.marks ++ name.marks⟩
    | .error e => .error (b "uuidv5() doesn't support namespace " ++ ns.v ++ b " (" ++ e ++ b ")")

/-- What `ssh.ParseRawPrivateKey` makes of a text: an RSA key, a key of another kind, or an error with the text that L169-178 give
it. -/
inductive RawKey (R O : Type) where
  | rsa (k : R)
  | other (k : O)
  | bad (msg : Bytes)

/-- internal/lang/funcs/crypto.go L145-192 `RsaDecryptFunc`; `showT` is the verb `%t` of `fmt` for a key, `quote` the verb `%q`. -/
def rsaDecrypt {R O : Type} (nfc quote : Bytes → Bytes) (parse : Bytes → RawKey R O) (showT : O → Bytes)
    (decrypt : R → Bytes → Except Bytes Bytes) (cipher key : Marked Bytes) : Except Bytes (Marked Bytes) :=
  match b64Decode cipher.v with
  | none => .error (b "failed to decode input " ++ quote cipher.v ++ b ": cipher text must be base64-encoded")
  | some c => match parse key.v with
    | .bad msg => .error msg
    | .other k => .error (b "invalid private key type " ++ showT k)
    | .rsa k => match decrypt k c with
      | .error e => .error (b "failed to decrypt: " ++ e)
      | .ok t => .ok ⟨nfc t, cipher.marks ++ key.marks⟩
end Verif.File
