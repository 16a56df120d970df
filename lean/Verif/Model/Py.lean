/-!
# Python values, dicts and `int(str)`

The part of Python that `jschon` operates on.  Nothing here is jschon code except where a
`/repo` line is cited.
-/

namespace Jschon

/-- The exceptions that can leave the modelled functions (`jschon/exc.py:1-50`, and the built-in
exceptions that the code lets through). -/
inductive Exc where
  | ptrMalformed      -- JSONPointerMalformedError
  | ptrReference      -- JSONPointerReferenceError
  | relMalformed      -- RelativeJSONPointerMalformedError
  | relReference      -- RelativeJSONPointerReferenceError
  | jsonError         -- JSONError
  | patchError        -- JSONPatchError
  | schemaError       -- JSONSchemaError
  | catalogError      -- CatalogError
  | uriError          -- URIError
  | keyError | indexError | valueError | typeError | attributeError | assertionError
  | notImplementedError
  | reError           -- re.error
  | resolutionError   -- rfc3986.exceptions.ResolutionError
  deriving DecidableEq, Repr

/-- A Python number that `jschon/json.py:128` classifies as `"number"`: an `int`, or a finite
`float`, given by its exact (dyadic) rational value.  `nan` and the infinities are not modelled. -/
inductive Num where
  | int (z : Int)
  | flt (q : Rat)
  deriving DecidableEq, Repr

/-- The exact mathematical value; CPython compares `int` and `float` by it. -/
def Num.val : Num → Rat
  | .int z => (z : Rat)
  | .flt q => q

/-- JSON-compatible Python values (`jschon/json.py:21`): `None`, `bool`, `int`/`float`, `str`,
lists, and dicts with string keys in insertion order. -/
inductive Value where
  | null
  | bool (b : Bool)
  | num (n : Num)
  | str (s : String)
  | arr (xs : List Value)
  | obj (kvs : List (String × Value))

/-- `d[k]` / `k in d` on a dict. -/
def dlookup {β : Type} (k : String) : List (String × β) → Option β
  | [] => none
  | (k', v) :: r => if k = k' then some v else dlookup k r

/-- `d[k] = v`: overwrites in place, or appends a new entry (dicts keep insertion order). -/
def dset {β : Type} (k : String) (v : β) : List (String × β) → List (String × β)
  | [] => [(k, v)]
  | (k', v') :: r => if k = k' then (k', v) :: r else (k', v') :: dset k v r

/-- `del d[k]` (for a key that is present). -/
def derase {β : Type} (k : String) : List (String × β) → List (String × β)
  | [] => []
  | (k', v') :: r => if k = k' then r else (k', v') :: derase k r

/-- `d.keys()`. -/
def dkeys {β : Type} (d : List (String × β)) : List String := d.map Prod.fst

/-- `str(n)` for a non-negative int. -/
def natStr (n : Nat) : String := n.repr

/-- White space stripped by `int(str)` (observed from CPython: the ASCII control separators
`\x1c`-`\x1f` are not stripped). -/
def isIntSpace (c : Char) : Bool :=
  let n := c.toNat
  (9 ≤ n && n ≤ 13) || n == 0x20 || n == 0x85 || n == 0xa0 || n == 0x1680 ||
  (0x2000 ≤ n && n ≤ 0x200a) || n == 0x2028 || n == 0x2029 || n == 0x202f || n == 0x205f ||
  n == 0x3000

/-- Code points of the zeros of all Unicode decimal digit ranges (`Nd`), which `int(str)` accepts.
The first is ASCII `0`. -/
def ndZeros : List Nat :=
  [0x30, 0x660, 0x6f0, 0x7c0, 0x966, 0x9e6, 0xa66, 0xae6, 0xb66, 0xbe6, 0xc66, 0xce6, 0xd66, 0xde6,
   0xe50, 0xed0, 0xf20, 0x1040, 0x1090, 0x17e0, 0x1810, 0x1946, 0x19d0, 0x1a80, 0x1a90, 0x1b50,
   0x1bb0, 0x1c40, 0x1c50, 0xa620, 0xa8d0, 0xa900, 0xa9d0, 0xa9f0, 0xaa50, 0xabf0, 0xff10, 0x104a0,
   0x10d30, 0x11066, 0x110f0, 0x11136, 0x111d0, 0x112f0, 0x11450, 0x114d0, 0x11650, 0x116c0,
   0x11730, 0x118e0, 0x11950, 0x11c50, 0x11d50, 0x11da0, 0x16a60, 0x16ac0, 0x16b50, 0x1d7ce,
   0x1d7d8, 0x1d7e2, 0x1d7ec, 0x1d7f6, 0x1e140, 0x1e2f0, 0x1e950, 0x1fbf0]

/-- The value of a decimal digit character, if it is one. -/
def digitVal (c : Char) : Option Nat :=
  (ndZeros.find? (fun z => z ≤ c.toNat && c.toNat < z + 10)).map (fun z => c.toNat - z)

/-- Digits after the first; a single underscore may stand between two digits. -/
def intDigitsGo (acc : Nat) : List Char → Option Nat
  | [] => some acc
  | c :: cs =>
    match digitVal c with
    | some d => intDigitsGo (acc * 10 + d) cs
    | none =>
      if c = '_' then
        match cs with
        | [] => none
        | c' :: cs' =>
          match digitVal c' with
          | some d => intDigitsGo (acc * 10 + d) cs'
          | none => none
      else none

/-- The unsigned part of an integer literal. -/
def intDigits : List Char → Option Nat
  | [] => none
  | c :: cs =>
    match digitVal c with
    | some d => intDigitsGo d cs
    | none => none

/-- `int(s)`; `none` is `ValueError`.  Simplification: no 4300-digit limit. -/
def pyInt (s : String) : Option Int :=
  let body := ((s.toList.dropWhile isIntSpace).reverse.dropWhile isIntSpace).reverse
  match body with
  | '-' :: r => (intDigits r).map (fun n => -(n : Int))
  | '+' :: r => (intDigits r).map (fun n => (n : Int))
  | r => (intDigits r).map (fun n => (n : Int))

/-- Python list indexing `xs[i]` with an int: negative indices count from the end;
`none` is `IndexError`. -/
def pyIndex {α : Type} (xs : List α) (i : Int) : Option α :=
  if 0 ≤ i then xs[i.toNat]?
  else if 0 ≤ (xs.length : Int) + i then xs[((xs.length : Int) + i).toNat]?
  else none

end Jschon
