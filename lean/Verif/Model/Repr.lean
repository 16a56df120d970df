import Verif.Model.JsonText
import Verif.Model.Patch
import Verif.Model.RelPointer
import Verif.Model.Catalog

/-!
# The `__repr__` methods

`repr` of the built-in types is CPython's (`unicode_repr` in `Objects/unicodeobject.c`, `list_repr`,
`dict_repr`, `int.__repr__`, `float.__repr__`).  Simplifications: which characters that are not ASCII are
printable is given by a table `printable`; a JSON value is not part of itself, so `repr` meets no cycle;
the sign of a float zero is not kept.
-/

namespace Jschon

/-- `n` in lower-case hexadecimal, with `k` digits. -/
def lowHexN : Nat → Nat → List Char
  | 0, _ => []
  | k + 1, n => lowHexN k (n / 16) ++ [lowHex (n % 16)]

/-- A code point of a string that is written in the quotes `q` (`unicode_repr`). -/
def reprPoint (printable : Nat → Bool) (q : Char) (n : Nat) : List Char :=
  if n = q.toNat then ['\\', q]
  else if n = 0x5c then ['\\', '\\']
  else if n = 0x9 then ['\\', 't']
  else if n = 0xa then ['\\', 'n']
  else if n = 0xd then ['\\', 'r']
  else if n < 0x20 || n = 0x7f then ['\\', 'x'] ++ lowHexN 2 n
  else if n < 0x7f then [Char.ofNat n]
  else match if printable n then pointChar n else none with
    | some c => [c]
    | none =>
      if n ≤ 0xff then ['\\', 'x'] ++ lowHexN 2 n
      else if n ≤ 0xffff then ['\\', 'u'] ++ lowHexN 4 n
      else ['\\', 'U'] ++ lowHexN 8 n

/-- The quotes: single quotes, unless the string contains a single quote and no double quote
(`unicode_repr`). -/
def reprQuote (ns : List Nat) : Char := if ns.contains 0x27 && !ns.contains 0x22 then '"' else '\''

/-- `repr(s)` for a string. -/
def reprStr (printable : Nat → Bool) (ns : List Nat) : List Char :=
  let q := reprQuote ns
  q :: ns.flatMap (reprPoint printable q) ++ [q]

/-- `int.__repr__` -/
def reprInt (z : Int) : List Char :=
  if z < 0 then '-' :: (natStr z.natAbs).toList else (natStr z.natAbs).toList

mutual
/-- `repr(x)` for a JSON value in Python. -/
def reprLoaded (lib : FloatLib) (printable : Nat → Bool) : Loaded → List Char
  | .null => "None".toList
  | .bool b => if b then "True".toList else "False".toList
  | .int z => reprInt z
  | .flt q => lib.repr q
  | .inf neg => if neg then "-inf".toList else "inf".toList
  | .str ns => reprStr printable ns
  | .arr xs => '[' :: joinComma (reprItems lib printable xs) ++ [']']
  | .obj ms => '{' :: joinComma (reprMembers lib printable ms) ++ ['}']
/-- The items of a list. -/
def reprItems (lib : FloatLib) (printable : Nat → Bool) : List Loaded → List (List Char)
  | [] => []
  | x :: xs => reprLoaded lib printable x :: reprItems lib printable xs
/-- The items of a dict. -/
def reprMembers (lib : FloatLib) (printable : Nat → Bool) : List (List Nat × Loaded) → List (List Char)
  | [] => []
  | (k, x) :: ms =>
    (reprStr printable k ++ ':' :: ' ' :: reprLoaded lib printable x) :: reprMembers lib printable ms
end

mutual
/-- A value as the Python object it stands for. -/
def Value.toLoaded : Value → Loaded
  | .null => .null
  | .bool b => .bool b
  | .num (.int z) => .int z
  | .num (.flt q) => .flt q
  | .str s => .str (s.toList.map Char.toNat)
  | .arr xs => .arr (Value.toLoadeds xs)
  | .obj kvs => .obj (Value.toLoadedMems kvs)
/-- The items of an array. -/
def Value.toLoadeds : List Value → List Loaded
  | [] => []
  | x :: xs => x.toLoaded :: Value.toLoadeds xs
/-- The members of an object. -/
def Value.toLoadedMems : List (String × Value) → List (List Nat × Loaded)
  | [] => []
  | (k, x) :: kvs => (k.toList.map Char.toNat, x.toLoaded) :: Value.toLoadedMems kvs
end

/-- `repr(s)` for a string without lone surrogates. -/
def reprText (printable : Nat → Bool) (s : String) : List Char := reprStr printable (s.toList.map Char.toNat)

/-- `repr(pointer)` (`jschon/jsonpointer.py:183-185`). -/
def Ptr.repr (printable : Nat → Bool) (p : Ptr) : List Char :=
  "JSONPointer(".toList ++ reprText printable p.str ++ [')']

/-- `repr(pointer)` for a relative pointer (`jschon/jsonpointer.py:354-356`). -/
def RelPtr.repr (printable : Nat → Bool) (p : RelPtr) : List Char :=
  "RelativeJSONPointer(".toList ++ reprText printable p.str ++ [')']

/-- `repr(uri)` (`jschon/uri.py:22-23`). -/
def Uri.reprCall (printable : Nat → Bool) (u : Uri) : List Char :=
  "URI(".toList ++ reprText printable u.str ++ [')']

/-- `repr(instance)` (`jschon/json.py:203-205`), where `cls` is the name of the class. -/
def reprJson (lib : FloatLib) (printable : Nat → Bool) (cls : String) (h : JHeap) (r : Ref) :
    Except Exc (List Char) :=
  match jsonLoads lib (dumpsJson lib h r) with
  | .error e => .error e
  | .ok x => .ok (cls.toList ++ '(' :: reprLoaded lib printable x ++ [')'])

/-- `PatchOp.name` (`jschon/jsonpatch.py:24-30`). -/
def OpName.name : OpName → String
  | .add => "ADD" | .remove => "REMOVE" | .replace => "REPLACE"
  | .move => "MOVE" | .copy => "COPY" | .test => "TEST"

/-- `repr(op)` (`jschon/jsonpatch.py:32-33`). -/
def OpName.repr (o : OpName) : List Char := "PatchOp.".toList ++ o.name.toList

/-- `repr(operation)` (`jschon/jsonpatch.py:106-108`). -/
def PatchOp.repr (lib : FloatLib) (printable : Nat → Bool) (o : PatchOp) : List Char :=
  "JSONPatchOperation(op=".toList ++ o.op.repr ++ ", path=".toList ++ o.path.repr printable ++
    ", from_=".toList ++ (match o.from_ with | some p => p.repr printable | none => "None".toList) ++
    ", value=".toList ++ reprLoaded lib printable o.value.toLoaded ++ [')']

/-- `repr(patch)` (`jschon/jsonpatch.py:181-183`). -/
def reprPatch (lib : FloatLib) (printable : Nat → Bool) (ops : List PatchOp) : List Char :=
  "JSONPatch(*[".toList ++ joinComma (ops.map (PatchOp.repr lib printable)) ++ [']', ')']

end Jschon
