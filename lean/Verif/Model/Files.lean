import Verif.Model.JsonText

/-!
# Files (`jschon/utils.py:35-50`, `jschon/json.py:37-44`, `:192-197`)

`open(path, 'w')` and `open(path)` are in text mode: the encoding is the one of the locale, and line ends are
translated.  `json.dump` writes the parts that `_make_iterencode` (`Lib/json/encoder.py`) yields, one by one; what was
written before an exception is in the file when `with` has closed it.

Simplifications: encodings without state; a file has one name; whether a file may be opened does not change; writing to
an open file does not fail for lack of space.
-/

namespace Jschon

/-- An encoding: the bytes of a character, if it has some, and the text of a sequence of bytes, if it is one. -/
structure Codec where
  encode : Char → Option (List Nat)
  decode : List Nat → Option (List Char)

/-- The platform. -/
structure Machine where
  /-- `locale.getpreferredencoding(False)` -/
  codec : Codec
  /-- `os.linesep` -/
  linesep : List Char
  mayRead : String → Bool
  mayWrite : String → Bool

/-- The files. -/
abbrev Disk := List (String × List Nat)

/-- What the functions here raise: `OSError` (FileNotFoundError, PermissionError and so on), or another exception. -/
inductive FileExc where
  | os
  | py (e : Exc)
  deriving DecidableEq

/-- The bytes of a text. -/
def Codec.bytes (c : Codec) : List Char → Option (List Nat)
  | [] => some []
  | a :: r =>
    match c.encode a, c.bytes r with
    | some x, some y => some (x ++ y)
    | _, _ => none

/-- Line ends as they are written (`newline=None`). -/
def Machine.newlinesOut (m : Machine) (t : List Char) : List Char :=
  t.flatMap fun c => if c = '\n' then m.linesep else [c]

/-- Line ends as they are read (`newline=None`, "universal newlines"). -/
def universal : List Char → List Char
  | [] => []
  | '\r' :: '\n' :: r => '\n' :: universal r
  | '\r' :: r => '\n' :: universal r
  | c :: r => c :: universal r

/-- `for chunk in iterable: fp.write(chunk)` (`Lib/json/__init__.py`, `dump`), after `old` was written.  A character
without encoding raises UnicodeEncodeError, which is a ValueError. -/
def Machine.writeChunks (m : Machine) (old : List Nat) : List (List Char) → List Nat × Except FileExc Unit
  | [] => (old, .ok ())
  | c :: cs =>
    match m.codec.bytes (m.newlinesOut c) with
    | none => (old, .error (.py .valueError))
    | some b => m.writeChunks (old ++ b) cs

/-- The parts for the items after the first one: a separator before each. -/
def chunkItems (g : Ref → List (List Char)) : List Ref → List (List Char)
  | [] => []
  | c :: cs => [',', ' '] :: g c ++ chunkItems g cs

/-- The parts for a member. -/
def chunkMember (g : Ref → List (List Char)) (m : String × Ref) : List (List Char) :=
  dumpStr m.1 :: [':', ' '] :: g m.2

/-- The parts for the members after the first one. -/
def chunkMembers (g : Ref → List (List Char)) : List (String × Ref) → List (List Char)
  | [] => []
  | m :: ms => [',', ' '] :: chunkMember g m ++ chunkMembers g ms

/-- The parts for `self.data`, where `_serialize_custom_obj` (`jschon/utils.py:73-77`) replaces the child instances by
their data. -/
def chunkData (lib : FloatLib) (g : Ref → List (List Char)) : JData → List (List Char)
  | .null => ["null".toList]
  | .bool b => [if b then "true".toList else "false".toList]
  | .num n => [dumpNum lib n]
  | .str s => [dumpStr s]
  | .arr [] => [['[', ']']]
  | .arr (c :: cs) => ['['] :: g c ++ chunkItems g cs ++ [[']']]
  | .obj [] => [['{', '}']]
  | .obj (m :: ms) => ['{'] :: chunkMember g m ++ chunkMembers g ms ++ [['}']]

/-- The parts for an instance, with fuel. -/
def chunkF (lib : FloatLib) : Nat → JHeap → Ref → List (List Char)
  | 0, _, _ => ["null".toList]
  | f + 1, h, r => chunkData lib (chunkF lib f h) (h.data r)

/-- `instance.dumpf(path)` (`jschon/json.py:192-197`, `jschon/utils.py:35-38`).  Opening empties the file. -/
def dumpfJson (m : Machine) (lib : FloatLib) (d : Disk) (h : JHeap) (r : Ref) (path : String) :
    Disk × Except FileExc Unit :=
  if m.mayWrite path then
    let p := m.writeChunks [] (chunkF lib h.next h r)
    (dset path p.1 d, p.2)
  else (d, .error .os)

/-- `json_loadf(path)` (`jschon/utils.py:46-49`).  Bytes that are no text raise UnicodeDecodeError, which is a
ValueError. -/
def jsonLoadf (m : Machine) (lib : FloatLib) (d : Disk) (path : String) : Except FileExc Loaded :=
  if m.mayRead path then
    match dlookup path d with
    | none => .error .os
    | some b =>
      match m.codec.decode b with
      | none => .error (.py .valueError)
      | some t =>
        match jsonLoads lib (universal t) with
        | .ok x => .ok x
        | .error e => .error (.py e)
  else .error .os

/-- `JSON.loadf(path)` (`jschon/json.py:37-44`); `none` where the value cannot be expressed in the model. -/
def loadfJson (m : Machine) (lib : FloatLib) (d : Disk) (h : JHeap) (path : String) :
    Except FileExc (Option (JHeap × Ref)) :=
  match jsonLoadf m lib d path with
  | .error e => .error e
  | .ok x => .ok (x.value.map (fun v => newJson h v none none))

end Jschon
