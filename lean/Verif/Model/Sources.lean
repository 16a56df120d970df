import Verif.Model.Catalog

/-!
# The sources that come with the catalog (`jschon/catalog/__init__.py:26-67`)

What `json_loadf` and `json_loadr` give for a file name or a URL is a parameter.  `pathlib` is the one for POSIX.
-/

namespace Jschon

/-! ## `pathlib` -/

/-- A `pathlib.PurePosixPath`: its root (`/`, `//` or nothing) and its other parts. -/
structure PosixPath where
  root : List Char
  parts : List (List Char)
  deriving DecidableEq

/-- `text.split('/')` -/
def splitSlash : List Char → List (List Char)
  | [] => [[]]
  | c :: r =>
    if c = '/' then [] :: splitSlash r
    else
      match splitSlash r with
      | s :: ss => (c :: s) :: ss
      | [] => [[c]]

/-- The root of a path: exactly two leading slashes are kept. -/
def posixRoot : List Char → List Char
  | '/' :: '/' :: '/' :: _ => ['/']
  | '/' :: '/' :: _ => ['/', '/']
  | '/' :: _ => ['/']
  | _ => []

/-- `pathlib.Path(text)`: empty parts and `.` are left out. -/
def posixPath (t : List Char) : PosixPath :=
  ⟨posixRoot t, (splitSlash t).filter fun s => s ≠ [] ∧ s ≠ ['.']⟩

/-- `a / b`: if `b` is absolute, it is `b`. -/
def PosixPath.join (a b : PosixPath) : PosixPath :=
  if b.root = [] then ⟨a.root, a.parts ++ b.parts⟩ else b

/-- `'/'.join(parts)` -/
def joinSlash : List (List Char) → List Char
  | [] => []
  | [s] => s
  | s :: t :: r => s ++ '/' :: joinSlash (t :: r)

/-- `str(path)` -/
def PosixPath.str (p : PosixPath) : List Char :=
  if p.root = [] ∧ p.parts = [] then ['.'] else p.root ++ joinSlash p.parts

/-! ## Sources -/

/-- The name of the file that a `LocalSource` reads (`jschon/catalog/__init__.py:39-42`).  `None` and the empty
suffix are the same. -/
def localFile (dir suffix : String) (rel : String) : String :=
  String.ofList (((posixPath dir.toList).join (posixPath rel.toList)).str ++ suffix.toList)

/-- `LocalSource(dir, suffix=suffix)(rel)` (`jschon/catalog/__init__.py:34-53`), where `loadf` is `json_loadf`. -/
def localSource (loadf : String → Except Exc Value) (dir suffix : String) : Source := fun rel =>
  loadf (localFile dir suffix rel)

/-- `RemoteSource(base, suffix=suffix)(rel)` (`jschon/catalog/__init__.py:56-67`), where `loadr` is `json_loadr`. -/
def remoteSource (lib : UriLib) (loadr : String → Except Exc Value) (base : Uri) (suffix : String) : Source := fun rel =>
  match lib.resolve (lib.ofText rel) base with
  | none => .error .resolutionError
  | some u => loadr (u.str ++ suffix)

end Jschon
