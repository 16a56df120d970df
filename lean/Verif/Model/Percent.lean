import Verif.Model.Pointer

/-!
# Percent-encoding: `urllib.parse.quote` / `unquote` as used in `jschon/jsonpointer.py`

`quote` and `unquote` belong to the Python standard library; they are modelled here after
CPython 3.11 `Lib/urllib/parse.py` (`quote`, `quote_from_bytes`, `unquote`, `unquote_to_bytes`) and
its UTF-8 codec.  Bytes are natural numbers below 256.
-/

namespace Jschon

/-- UTF-8 encoding of one code point. -/
def utf8EncNat (n : Nat) : List Nat :=
  if n < 0x80 then [n]
  else if n < 0x800 then [0xC0 + n / 0x40, 0x80 + n % 0x40]
  else if n < 0x10000 then [0xE0 + n / 0x1000, 0x80 + n / 0x40 % 0x40, 0x80 + n % 0x40]
  else [0xF0 + n / 0x40000, 0x80 + n / 0x1000 % 0x40, 0x80 + n / 0x40 % 0x40, 0x80 + n % 0x40]

/-- `s.encode('utf-8')`.  A Lean string has no lone surrogates, on which Python would raise
UnicodeEncodeError. -/
def utf8Enc (s : List Char) : List Nat := s.flatMap (fun c => utf8EncNat c.toNat)

/-- A continuation byte. -/
def isCont (b : Nat) : Bool := 0x80 ≤ b && b < 0xC0

/-- Is `b2` acceptable as second byte after the lead byte `b1` of a 3- or 4-byte sequence? -/
def isSecond (b1 b2 : Nat) : Bool :=
  isCont b2 && (b1 != 0xE0 || 0xA0 ≤ b2) && (b1 != 0xED || b2 < 0xA0) &&
  (b1 != 0xF0 || 0x90 ≤ b2) && (b1 != 0xF4 || b2 < 0x90)

/-- U+FFFD, the replacement character. -/
def replChar : Char := Char.ofNat 0xFFFD

/-- `bs.decode('utf-8', errors='replace')`: CPython replaces each maximal ill-formed subpart by one
U+FFFD. -/
def utf8Dec : List Nat → List Char
  | [] => []
  | b1 :: r1 =>
    if b1 < 0x80 then Char.ofNat b1 :: utf8Dec r1
    else if b1 < 0xC2 then replChar :: utf8Dec r1
    else if b1 < 0xE0 then
      match r1 with
      | [] => [replChar]
      | b2 :: r2 =>
        if isCont b2 then Char.ofNat ((b1 - 0xC0) * 0x40 + (b2 - 0x80)) :: utf8Dec r2
        else replChar :: utf8Dec (b2 :: r2)
    else if b1 < 0xF0 then
      match r1 with
      | [] => [replChar]
      | b2 :: r2 =>
        if isSecond b1 b2 then
          match r2 with
          | [] => [replChar]
          | b3 :: r3 =>
            if isCont b3 then
              Char.ofNat ((b1 - 0xE0) * 0x1000 + (b2 - 0x80) * 0x40 + (b3 - 0x80)) :: utf8Dec r3
            else replChar :: utf8Dec (b3 :: r3)
        else replChar :: utf8Dec (b2 :: r2)
    else if b1 < 0xF5 then
      match r1 with
      | [] => [replChar]
      | b2 :: r2 =>
        if isSecond b1 b2 then
          match r2 with
          | [] => [replChar]
          | b3 :: r3 =>
            if isCont b3 then
              match r3 with
              | [] => [replChar]
              | b4 :: r4 =>
                if isCont b4 then
                  Char.ofNat ((b1 - 0xF0) * 0x40000 + (b2 - 0x80) * 0x1000 + (b3 - 0x80) * 0x40 +
                    (b4 - 0x80)) :: utf8Dec r4
                else replChar :: utf8Dec (b4 :: r4)
            else replChar :: utf8Dec (b3 :: r3)
        else replChar :: utf8Dec (b2 :: r2)
    else replChar :: utf8Dec r1

/-- The characters `quote` leaves alone: `_ALWAYS_SAFE` of `urllib.parse` and the `safe` argument
at `jschon/jsonpointer.py:255`. -/
def safeChars : List Char :=
  "ABCDEFGHIJKLMNOPQRSTUVWXYZabcdefghijklmnopqrstuvwxyz0123456789_.-~".toList ++
  "/!$&'()*+,;=".toList

/-- The hexadecimal digits of `'%{:02X}'`. -/
def hexChars : List Char := "0123456789ABCDEF".toList

/-- `Quoter.__missing__` for one byte. -/
def quoteByte (b : Nat) : List Char :=
  if Char.ofNat b ∈ safeChars then [Char.ofNat b]
  else ['%', hexChars.getD (b / 16) '0', hexChars.getD (b % 16) '0']

/-- `urllib.parse.quote(s, safe="/!$&'()*+,;=")`. -/
def pyQuote (s : List Char) : List Char := (utf8Enc s).flatMap quoteByte

/-- The value of a hexadecimal digit, either case (`_hexdig` of `urllib.parse`). -/
def hexVal (c : Char) : Option Nat :=
  let n := c.toNat
  if 48 ≤ n && n ≤ 57 then some (n - 48)
  else if 65 ≤ n && n ≤ 70 then some (n - 55)
  else if 97 ≤ n && n ≤ 102 then some (n - 87)
  else none

/-- `unquote_to_bytes(s)` for an ASCII string: `%XX` with two hexadecimal digits becomes a byte,
everything else is kept. -/
def unquoteBytes : List Char → List Nat
  | [] => []
  | c :: r =>
    if c = '%' then
      match r with
      | a :: b :: r' =>
        match hexVal a, hexVal b with
        | some x, some y => (16 * x + y) :: unquoteBytes r'
        | _, _ => c.toNat :: unquoteBytes (a :: b :: r')
      | [a] => [c.toNat, a.toNat]
      | [] => [c.toNat]
    else c.toNat :: unquoteBytes r

/-- The loop of `unquote`: decode each maximal ASCII run (collected in `run`), keep the rest. -/
def unquoteGo (run : List Char) : List Char → List Char
  | [] => utf8Dec (unquoteBytes run)
  | c :: r =>
    if c.toNat < 0x80 then unquoteGo (run ++ [c]) r
    else utf8Dec (unquoteBytes run) ++ c :: unquoteGo [] r

/-- `urllib.parse.unquote(s)`. -/
def pyUnquote (s : List Char) : List Char :=
  if '%' ∈ s then unquoteGo [] s else s

/-- `p.uri_fragment()` (`jschon/jsonpointer.py:234-255`). -/
def Ptr.uriFragment (p : Ptr) : String := String.ofList (pyQuote p.str.toList)

/-- `JSONPointer.parse_uri_fragment(value)` (`jschon/jsonpointer.py:223-233`). -/
def Ptr.parseUriFragment (value : String) : Except Exc Ptr :=
  Ptr.parse (String.ofList (pyUnquote value.toList))

end Jschon
