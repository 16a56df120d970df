import Verif.Model.JsonHeap

/-!
# `jschon/utils.py`: JSON text

`json_loads` and `json_dumps` call the standard library; modelled is what CPython's `json` module does
with the arguments that `jschon/utils.py` passes: `parse_constant=_parse_invalid_const` for reading,
`ensure_ascii=False, allow_nan=False, default=_serialize_custom_obj` for writing
(`Lib/json/decoder.py`, `Lib/json/encoder.py`, `Modules/_json.c`).

Simplifications: a text is a list of Unicode scalar values (a Python `str` may also contain lone
surrogates; the strings that reading makes may contain them here, too); no 4300-digit limit; the sign of
a float zero is not kept; the message and position of a `JSONDecodeError`, which is a `ValueError`, are
not modelled; recursion is by fuel that suffices for every text (`C75_reads`).
-/

namespace Jschon

/-- Conversion between floats and decimals (CPython's `float(str)` and `float.__repr__`). -/
structure FloatLib where
  /-- The float nearest to an exact number, `none` if that is an infinity. -/
  round : Rat → Option Rat
  /-- `float.__repr__` of the float with the exact value given. -/
  repr : Rat → List Char

/-- The Python value that `json.loads` makes of a text.  In contrast to `Value` it may contain an
infinity (of a number too large for a float) and strings with lone surrogates: strings are lists of code
points. -/
inductive Loaded where
  | null
  | bool (b : Bool)
  | int (z : Int)
  | flt (q : Rat)
  | inf (negative : Bool)
  | str (cs : List Nat)
  | arr (xs : List Loaded)
  | obj (kvs : List (List Nat × Loaded))

/-! ## Reading -/

/-- `WHITESPACE_STR` (`Lib/json/decoder.py`), `IS_WHITESPACE` (`Modules/_json.c`). -/
def isJsonSpace (c : Char) : Bool := c = ' ' || c = '\t' || c = '\n' || c = '\r'

/-- Skips white space. -/
def skipSpace (s : List Char) : List Char := s.dropWhile isJsonSpace

/-- An ASCII digit. -/
def isDecDigit (c : Char) : Bool := '0' ≤ c && c ≤ '9'

/-- The number that ASCII digits stand for (`int(numstr)`). -/
def digitsNat (ds : List Char) : Nat := ds.foldl (fun n c => n * 10 + (c.toNat - 48)) 0

/-- The exact value of a number with digits `ip` before and `fp` after the point and exponent `e`. -/
def decimalOf (neg : Bool) (ip fp : List Char) (e : Int) : Rat :=
  let m : Rat := (digitsNat (ip ++ fp) : Nat)
  let x : Int := e - fp.length
  let a : Rat := if 0 ≤ x then m * 10 ^ x.toNat else m / 10 ^ (-x).toNat
  if neg then -a else a

/-- `float(numstr)`. -/
def floatOf (lib : FloatLib) (d : Rat) : Loaded :=
  match lib.round d with
  | some q => .flt q
  | none => .inf (d < 0)

/-- The fraction, if a point and a digit follow (`_match_number_unicode`, `Modules/_json.c`). -/
def scanFrac : List Char → Option (List Char) × List Char
  | '.' :: d :: r => if isDecDigit d then (some (d :: r.takeWhile isDecDigit), r.dropWhile isDecDigit) else (none, '.' :: d :: r)
  | r => (none, r)

/-- The optional sign of an exponent. -/
def scanSign : List Char → Bool × List Char
  | '-' :: r => (true, r)
  | '+' :: r => (false, r)
  | r => (false, r)

/-- The exponent, if there is one with a digit; otherwise nothing is consumed. -/
def scanExp : List Char → Option Int × List Char
  | [] => (none, [])
  | c :: r =>
    if c = 'e' ∨ c = 'E' then
      let p := scanSign r
      match p.2.takeWhile isDecDigit with
      | [] => (none, c :: r)
      | d :: ds =>
        let n : Int := (digitsNat (d :: ds) : Nat)
        (some (if p.1 then -n else n), p.2.dropWhile isDecDigit)
    else (none, c :: r)

/-- The number whose integer part has been read: an `int` unless there is a fraction or exponent. -/
def scanTail (lib : FloatLib) (neg : Bool) (ip r : List Char) : Loaded × List Char :=
  let p := scanFrac r
  let q := scanExp p.2
  match p.1, q.1 with
  | none, none => (.int (if neg then -(digitsNat ip : Int) else (digitsNat ip : Int)), q.2)
  | fp, e => (floatOf lib (decimalOf neg ip (fp.getD []) (e.getD 0)), q.2)

/-- `_match_number_unicode` (`Modules/_json.c`) after the optional sign. -/
def scanUnsigned (lib : FloatLib) (neg : Bool) : List Char → Except Exc (Loaded × List Char)
  | [] => .error .valueError
  | c :: r =>
    if c = '0' then .ok (scanTail lib neg ['0'] r)
    else if isDecDigit c then .ok (scanTail lib neg (c :: r.takeWhile isDecDigit) (r.dropWhile isDecDigit))
    else .error .valueError

/-- `_match_number_unicode` (`Modules/_json.c`). -/
def scanNumber (lib : FloatLib) : List Char → Except Exc (Loaded × List Char)
  | '-' :: r => scanUnsigned lib true r
  | r => scanUnsigned lib false r

/-- The value of a hexadecimal digit. -/
def hexDigitVal (c : Char) : Option Nat :=
  if isDecDigit c then some (c.toNat - 48)
  else if 'a' ≤ c ∧ c ≤ 'f' then some (c.toNat - 87)
  else if 'A' ≤ c ∧ c ≤ 'F' then some (c.toNat - 55)
  else none

/-- Four hexadecimal digits. -/
def scanHex : List Char → Option (Nat × List Char)
  | a :: b :: c :: d :: r =>
    match hexDigitVal a, hexDigitVal b, hexDigitVal c, hexDigitVal d with
    | some a, some b, some c, some d => some (((a * 16 + b) * 16 + c) * 16 + d, r)
    | _, _, _, _ => none
  | _ => none

/-- A high surrogate. -/
def isHigh (n : Nat) : Bool := 0xd800 ≤ n && n ≤ 0xdbff

/-- A low surrogate. -/
def isLow (n : Nat) : Bool := 0xdc00 ≤ n && n ≤ 0xdfff

/-- What follows `\u`: four hexadecimal digits; a high surrogate is joined to a low one that follows as
another escape (`scanstring_unicode`, `Modules/_json.c`). -/
def scanUni (s : List Char) : Option (Nat × List Char) :=
  match scanHex s with
  | none => none
  | some (n, r) =>
    if isHigh n then
      match r with
      | '\\' :: 'u' :: r' =>
        match scanHex r' with
        | none => none
        | some (m, r'') =>
          if isLow m then some (0x10000 + (n - 0xd800) * 0x400 + (m - 0xdc00), r'') else some (n, r)
      | _ => some (n, r)
    else some (n, r)

/-- What follows a backslash (`BACKSLASH`, `Lib/json/decoder.py`). -/
def scanEscape : List Char → Option (Nat × List Char)
  | [] => none
  | c :: r =>
    if c = '"' ∨ c = '\\' ∨ c = '/' then some (c.toNat, r)
    else if c = 'b' then some (0x8, r)
    else if c = 'f' then some (0xc, r)
    else if c = 'n' then some (0xa, r)
    else if c = 'r' then some (0xd, r)
    else if c = 't' then some (0x9, r)
    else if c = 'u' then scanUni r
    else none

/-- `scanstring(s, end, strict=True)` after the opening quote. -/
def scanChars : Nat → List Char → Option (List Nat × List Char)
  | 0, _ => none
  | _ + 1, [] => none
  | f + 1, c :: r =>
    if c = '"' then some ([], r)
    else if c = '\\' then
      match scanEscape r with
      | none => none
      | some (n, r') => (scanChars f r').map (fun p => (n :: p.1, p.2))
    else if c.toNat ≤ 0x1f then none
    else (scanChars f r).map (fun p => (c.toNat :: p.1, p.2))

/-- A string literal after the opening quote, or `JSONDecodeError`. -/
def scanString (s : List Char) : Except Exc (List Nat × List Char) :=
  match scanChars (s.length + 1) s with
  | some p => .ok p
  | none => .error .valueError

/-- `_parse_invalid_const(c)` (`jschon/utils.py:66-70`). -/
def parseInvalidConst (_c : List Char) : Except Exc Loaded := .error .valueError

/-- `rval[key] = val` (`PyDict_SetItem` in `_parse_object_unicode`). -/
def setMember (k : List Nat) (v : Loaded) : List (List Nat × Loaded) → List (List Nat × Loaded)
  | [] => [(k, v)]
  | (k', v') :: r => if k = k' then (k', v) :: r else (k', v') :: setMember k v r

mutual
/-- `scan_once` (`scan_once_unicode`, `Modules/_json.c`). -/
def scanOnce (lib : FloatLib) : Nat → List Char → Except Exc (Loaded × List Char)
  | 0, _ => .error .valueError
  | f + 1, s =>
    match s with
    | '"' :: r =>
      match scanString r with
      | .ok (cs, r') => .ok (.str cs, r')
      | .error e => .error e
    | '{' :: r =>
      match skipSpace r with
      | '}' :: r' => .ok (.obj [], r')
      | r' => scanMembers lib f [] r'
    | '[' :: r =>
      match skipSpace r with
      | ']' :: r' => .ok (.arr [], r')
      | r' => scanItems lib f r'
    | 'n' :: 'u' :: 'l' :: 'l' :: r => .ok (.null, r)
    | 't' :: 'r' :: 'u' :: 'e' :: r => .ok (.bool true, r)
    | 'f' :: 'a' :: 'l' :: 's' :: 'e' :: r => .ok (.bool false, r)
    | 'N' :: 'a' :: 'N' :: r => (parseInvalidConst "NaN".toList).map (·, r)
    | 'I' :: 'n' :: 'f' :: 'i' :: 'n' :: 'i' :: 't' :: 'y' :: r =>
      (parseInvalidConst "Infinity".toList).map (·, r)
    | '-' :: 'I' :: 'n' :: 'f' :: 'i' :: 'n' :: 'i' :: 't' :: 'y' :: r =>
      (parseInvalidConst "-Infinity".toList).map (·, r)
    | s => scanNumber lib s
/-- The items of an array up to the closing bracket (`_parse_array_unicode`, `Modules/_json.c`). -/
def scanItems (lib : FloatLib) : Nat → List Char → Except Exc (Loaded × List Char)
  | 0, _ => .error .valueError
  | f + 1, s =>
    match scanOnce lib f s with
    | .error e => .error e
    | .ok (v, r) =>
      match skipSpace r with
      | ']' :: r' => .ok (.arr [v], r')
      | ',' :: r' =>
        match scanItems lib f (skipSpace r') with
        | .ok (.arr vs, r'') => .ok (.arr (v :: vs), r'')
        | .ok _ => .error .valueError
        | .error e => .error e
      | _ => .error .valueError
/-- The members of an object up to the closing brace, entered into the dict `d`
(`_parse_object_unicode`, `Modules/_json.c`). -/
def scanMembers (lib : FloatLib) : Nat → List (List Nat × Loaded) → List Char →
    Except Exc (Loaded × List Char)
  | 0, _, _ => .error .valueError
  | f + 1, d, s =>
    match s with
    | '"' :: r =>
      match scanString r with
      | .error e => .error e
      | .ok (k, r1) =>
        match skipSpace r1 with
        | ':' :: r2 =>
          match scanOnce lib f (skipSpace r2) with
          | .error e => .error e
          | .ok (v, r3) =>
            match skipSpace r3 with
            | '}' :: r4 => .ok (.obj (setMember k v d), r4)
            | ',' :: r4 => scanMembers lib f (setMember k v d) (skipSpace r4)
            | _ => .error .valueError
        | _ => .error .valueError
    | _ => .error .valueError
end

/-- `json_loads(s)` (`jschon/utils.py:61-63`): `json.loads`, which refuses a byte order mark, then
`JSONDecoder.decode`, which refuses anything but white space after the value. -/
def jsonLoads (lib : FloatLib) (s : List Char) : Except Exc Loaded :=
  match s with
  | '\ufeff' :: _ => .error .valueError
  | _ =>
    match scanOnce lib (2 * s.length + 1) (skipSpace s) with
    | .error e => .error e
    | .ok (v, r) =>
      match skipSpace r with
      | [] => .ok v
      | _ :: _ => .error .valueError

/-- A code point that is not a surrogate, as a character. -/
def pointChar (n : Nat) : Option Char :=
  if h : n.isValidChar then some (Char.ofNatAux n h) else none

/-- A string without lone surrogates. -/
def pointsStr (cs : List Nat) : Option String := (cs.mapM pointChar).map String.ofList

mutual
/-- The value, if it has no infinities and no lone surrogates (which `Value` cannot express). -/
def Loaded.value : Loaded → Option Value
  | .null => some .null
  | .bool b => some (.bool b)
  | .int z => some (.num (.int z))
  | .flt q => some (.num (.flt q))
  | .inf _ => none
  | .str cs => (pointsStr cs).map .str
  | .arr xs => (Loaded.values xs).map .arr
  | .obj kvs => (Loaded.members kvs).map .obj
/-- The values of the items. -/
def Loaded.values : List Loaded → Option (List Value)
  | [] => some []
  | x :: xs =>
    match x.value, Loaded.values xs with
    | some v, some vs => some (v :: vs)
    | _, _ => none
/-- The values of the members. -/
def Loaded.members : List (List Nat × Loaded) → Option (List (String × Value))
  | [] => some []
  | (k, x) :: kvs =>
    match pointsStr k, x.value, Loaded.members kvs with
    | some k, some v, some vs => some ((k, v) :: vs)
    | _, _, _ => none
end

/-- `JSON.loads(s)` (`jschon/json.py:55-62`); `none` where the value cannot be expressed in the model. -/
def loadsJson (lib : FloatLib) (h : JHeap) (s : List Char) : Except Exc (Option (JHeap × Ref)) :=
  match jsonLoads lib s with
  | .error e => .error e
  | .ok x => .ok (x.value.map (fun v => newJson h v none none))

/-! ## Writing -/

/-- A lower-case hexadecimal digit. -/
def lowHex (n : Nat) : Char := if n < 10 then Char.ofNat (n + 48) else Char.ofNat (n + 87)

/-- `ESCAPE_DCT` with `ensure_ascii=False` (`Lib/json/encoder.py`, `escape_unicode` in
`Modules/_json.c`). -/
def escapeChar (c : Char) : List Char :=
  if c = '"' then ['\\', '"']
  else if c = '\\' then ['\\', '\\']
  else if c.toNat = 0x8 then ['\\', 'b']
  else if c.toNat = 0xc then ['\\', 'f']
  else if c.toNat = 0xa then ['\\', 'n']
  else if c.toNat = 0xd then ['\\', 'r']
  else if c.toNat = 0x9 then ['\\', 't']
  else if c.toNat ≤ 0x1f then ['\\', 'u', '0', '0', lowHex (c.toNat / 16), lowHex (c.toNat % 16)]
  else [c]

/-- A string literal. -/
def dumpStr (s : String) : List Char := '"' :: s.toList.flatMap escapeChar ++ ['"']

/-- `int.__repr__` and `float.__repr__`. -/
def dumpNum (lib : FloatLib) : Num → List Char
  | .int z => if z < 0 then '-' :: (natStr z.natAbs).toList else (natStr z.natAbs).toList
  | .flt q => lib.repr q

/-- `', '.join(xs)` -/
def joinComma : List (List Char) → List Char
  | [] => []
  | [x] => x
  | x :: xs => x ++ ',' :: ' ' :: joinComma xs

/-- The text of `self.data`, where `_serialize_custom_obj` (`jschon/utils.py:73-77`) replaces the child
instances by their data. -/
def dumpData (lib : FloatLib) (g : Ref → List Char) : JData → List Char
  | .null => "null".toList
  | .bool b => if b then "true".toList else "false".toList
  | .num n => dumpNum lib n
  | .str s => dumpStr s
  | .arr cs => '[' :: joinComma (cs.map g) ++ [']']
  | .obj ms => '{' :: joinComma (ms.map (fun m => dumpStr m.1 ++ ':' :: ' ' :: g m.2)) ++ ['}']

/-- The text of an instance, with fuel. -/
def dumpF (lib : FloatLib) : Nat → JHeap → Ref → List Char
  | 0, _, _ => "null".toList
  | f + 1, h, r => dumpData lib (dumpF lib f h) (h.data r)

/-- `self.dumps()` and `str(self)` (`jschon/json.py:199-201`, `:207-209`, `jschon/utils.py:41-43`). -/
def dumpsJson (lib : FloatLib) (h : JHeap) (r : Ref) : List Char := dumpF lib h.next h r

end Jschon
