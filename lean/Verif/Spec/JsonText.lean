import Verif.Model.JsonText

/-!
# JSON text: RFC 8259

The grammar of RFC 8259, with the value that each text denotes.  No scanner, no position, no fuel: a text
is any concatenation of parts that the grammar allows.
-/

namespace Jschon.Spec
open Jschon

/-- `ws` (RFC 8259, section 2). -/
inductive Ws : List Char → Prop
  | nil : Ws []
  | space {s} : Ws s → Ws (' ' :: s)
  | tab {s} : Ws s → Ws ('\t' :: s)
  | lf {s} : Ws s → Ws ('\n' :: s)
  | cr {s} : Ws s → Ws ('\r' :: s)

/-- `DIGIT` and its value. -/
inductive Digit : Char → Nat → Prop
  | d0 : Digit '0' 0
  | d1 : Digit '1' 1
  | d2 : Digit '2' 2
  | d3 : Digit '3' 3
  | d4 : Digit '4' 4
  | d5 : Digit '5' 5
  | d6 : Digit '6' 6
  | d7 : Digit '7' 7
  | d8 : Digit '8' 8
  | d9 : Digit '9' 9

/-- `1*DIGIT` (or none) and the digits' values. -/
inductive Digits : List Char → List Nat → Prop
  | nil : Digits [] []
  | cons {c n s ns} : Digit c n → Digits s ns → Digits (c :: s) (n :: ns)

/-- The natural number with these decimal digits. -/
def whole : List Nat → Nat
  | [] => 0
  | n :: ns => n * 10 ^ ns.length + whole ns

/-- The number with these decimal digits after the point. -/
def fraction : List Nat → Rat
  | [] => 0
  | n :: ns => (n + fraction ns) / 10

/-- `int` (section 6): no superfluous zero in front. -/
inductive IntPart : List Char → List Nat → Prop
  | zero : IntPart ['0'] [0]
  | pos {c n s ns} : Digit c n → n ≠ 0 → Digits s ns → IntPart (c :: s) (n :: ns)

/-- `[ frac ]` and the digits after the point. -/
inductive FracPart : List Char → List Nat → Prop
  | none : FracPart [] []
  | some {s ns} : Digits s ns → s ≠ [] → FracPart ('.' :: s) ns

/-- `[ exp ]` and the power of ten. -/
inductive ExpPart : List Char → Rat → Prop
  | none : ExpPart [] 1
  | plain {c s ns} : c = 'e' ∨ c = 'E' → Digits s ns → s ≠ [] → ExpPart (c :: s) (10 ^ whole ns)
  | plus {c s ns} : c = 'e' ∨ c = 'E' → Digits s ns → s ≠ [] → ExpPart (c :: '+' :: s) (10 ^ whole ns)
  | minus {c s ns} : c = 'e' ∨ c = 'E' → Digits s ns → s ≠ [] → ExpPart (c :: '-' :: s) (1 / 10 ^ whole ns)

/-- `[ minus ]` and the sign. -/
inductive Minus : List Char → Int → Prop
  | none : Minus [] 1
  | some : Minus ['-'] (-1)

/-- A number without fraction and exponent denotes an `int`. -/
inductive IntText : List Char → Int → Prop
  | mk {m σ s ns} : Minus m σ → IntPart s ns → IntText (m ++ s) (σ * whole ns)

/-- A number with a fraction or an exponent, and its exact value. -/
inductive DecText : List Char → Rat → Prop
  | mk {m σ s ns f fs e x} : Minus m σ → IntPart s ns → FracPart f fs → ExpPart e x → ¬ (f = [] ∧ e = []) →
      DecText (m ++ s ++ f ++ e) (σ * ((whole ns + fraction fs) * x))

/-- `HEXDIG` and its value. -/
inductive Hex : Char → Nat → Prop
  | dec {c n} : Digit c n → Hex c n
  | a : Hex 'a' 10
  | b : Hex 'b' 11
  | c : Hex 'c' 12
  | d : Hex 'd' 13
  | e : Hex 'e' 14
  | f : Hex 'f' 15
  | A : Hex 'A' 10
  | B : Hex 'B' 11
  | C : Hex 'C' 12
  | D : Hex 'D' 13
  | E : Hex 'E' 14
  | F : Hex 'F' 15

/-- `4HEXDIG` and its value. -/
inductive Hex4 : List Char → Nat → Prop
  | mk {a b c d i j k l} : Hex a i → Hex b j → Hex c k → Hex d l →
      Hex4 [a, b, c, d] (4096 * i + 256 * j + 16 * k + l)

/-- The escape sequences of two characters and the code points they stand for. -/
inductive Escape : Char → Nat → Prop
  | quote : Escape '"' 0x22
  | backslash : Escape '\\' 0x5c
  | slash : Escape '/' 0x2f
  | b : Escape 'b' 0x8
  | f : Escape 'f' 0xc
  | n : Escape 'n' 0xa
  | r : Escape 'r' 0xd
  | t : Escape 't' 0x9

/-- The content of a string literal, as UTF-16 code units where it is escaped and as code points where it
is not (section 7). -/
inductive StrUnit where
  | char (c : Char)
  | short (n : Nat)
  | unit (n : Nat)

/-- `*char`: characters except the quotation mark, the backslash and U+0000 to U+001F; escapes. -/
inductive Units : List Char → List StrUnit → Prop
  | nil : Units [] []
  | char {c s us} : c ≠ '"' → c ≠ '\\' → 0x20 ≤ c.toNat → Units s us → Units (c :: s) (.char c :: us)
  | short {c n s us} : Escape c n → Units s us → Units ('\\' :: c :: s) (.short n :: us)
  | unit {h n s us} : Hex4 h n → Units s us → Units ('\\' :: 'u' :: h ++ s) (.unit n :: us)

/-- The code points: an escaped high surrogate and an escaped low surrogate after it are one. -/
inductive Points : List StrUnit → List Nat → Prop
  | nil : Points [] []
  | char {c us ns} : Points us ns → Points (.char c :: us) (c.toNat :: ns)
  | short {n us ns} : Points us ns → Points (.short n :: us) (n :: ns)
  | pair {a b us ns} : a < 0x400 → b < 0x400 → Points us ns →
      Points (.unit (0xd800 + a) :: .unit (0xdc00 + b) :: us) ((0x10000 + 0x400 * a + b) :: ns)
  | unit {n us ns} : ¬ ((0xd800 ≤ n ∧ n < 0xdc00) ∧ ∃ b vs, us = .unit (0xdc00 + b) :: vs ∧ b < 0x400) →
      Points us ns → Points (.unit n :: us) (n :: ns)

/-- `string` (section 7). -/
inductive StringText : List Char → List Nat → Prop
  | mk {s us ns} : Units s us → Points us ns → StringText ('"' :: s ++ ['"']) ns

/-- `v` is the last value of the name `k`. -/
def LastValue (ms : List (List Nat × Loaded)) (k : List Nat) (v : Loaded) : Prop :=
  ∃ pre post, ms = pre ++ (k, v) :: post ∧ ∀ w, (k, w) ∉ post

/-- The dict that the members of an object make: a name that occurs several times has its last value, at
the place of its first occurrence. -/
inductive Merged : List (List Nat × Loaded) → List (List Nat × Loaded) → Prop
  | nil : Merged [] []
  | cons {k v w ms d} : LastValue ((k, v) :: ms) k w → Merged (ms.filter (fun m => m.1 ≠ k)) d →
      Merged ((k, v) :: ms) ((k, w) :: d)

mutual
/-- `value` and what it denotes (sections 3 to 7). -/
inductive Denoted (lib : FloatLib) : List Char → Loaded → Prop
  | null : Denoted lib "null".toList .null
  | true : Denoted lib "true".toList (.bool true)
  | false : Denoted lib "false".toList (.bool false)
  | int {s z} : IntText s z → Denoted lib s (.int z)
  | flt {s d q} : DecText s d → lib.round d = some q → Denoted lib s (.flt q)
  | inf {s d} : DecText s d → lib.round d = none → Denoted lib s (.inf (decide (d < 0)))
  | str {s ns} : StringText s ns → Denoted lib s (.str ns)
  | arr0 {w} : Ws w → Denoted lib ('[' :: w ++ [']']) (.arr [])
  | arr {s xs} : Elements lib s xs → Denoted lib ('[' :: s ++ [']']) (.arr xs)
  | obj0 {w} : Ws w → Denoted lib ('{' :: w ++ ['}']) (.obj [])
  | obj {s ms d} : Members lib s ms → Merged ms d → Denoted lib ('{' :: s ++ ['}']) (.obj d)
/-- `value *( value-separator value )`, with white space. -/
inductive Elements (lib : FloatLib) : List Char → List Loaded → Prop
  | one {w s w' x} : Ws w → Denoted lib s x → Ws w' → Elements lib (w ++ s ++ w') [x]
  | more {w s w' x t xs} : Ws w → Denoted lib s x → Ws w' → Elements lib t xs →
      Elements lib (w ++ s ++ w' ++ ',' :: t) (x :: xs)
/-- `member *( value-separator member )`, with white space. -/
inductive Members (lib : FloatLib) : List Char → List (List Nat × Loaded) → Prop
  | one {w n k w' v s x w''} : Ws w → StringText n k → Ws w' → Ws v → Denoted lib s x → Ws w'' →
      Members lib (w ++ n ++ w' ++ ':' :: v ++ s ++ w'') [(k, x)]
  | more {w n k w' v s x w'' t ms} : Ws w → StringText n k → Ws w' → Ws v → Denoted lib s x → Ws w'' →
      Members lib t ms → Members lib (w ++ n ++ w' ++ ':' :: v ++ s ++ w'' ++ ',' :: t) ((k, x) :: ms)
end

/-- `JSON-text = ws value ws` (section 2). -/
inductive JsonText (lib : FloatLib) : List Char → Loaded → Prop
  | mk {w s w' x} : Ws w → Denoted lib s x → Ws w' → JsonText lib (w ++ s ++ w') x

/-- What is assumed of the float conversion: rounding gives floats, and `float.__repr__` gives a number
with a fraction or an exponent that is read as the same float. -/
structure FloatOk (lib : FloatLib) : Prop where
  round : ∀ d q, lib.round d = some q → lib.round q = some q
  repr : ∀ q, lib.round q = some q → ∃ d, DecText (lib.repr q) d ∧ lib.round d = some q

/-- The numbers of kind `float` in a value are floats. -/
inductive Floats (lib : FloatLib) : Value → Prop
  | null : Floats lib .null
  | bool {b} : Floats lib (.bool b)
  | int {z} : Floats lib (.num (.int z))
  | flt {q} : lib.round q = some q → Floats lib (.num (.flt q))
  | str {s} : Floats lib (.str s)
  | arr {xs} : (∀ x ∈ xs, Floats lib x) → Floats lib (.arr xs)
  | obj {kvs} : (∀ kv ∈ kvs, Floats lib kv.2) → Floats lib (.obj kvs)

/-- The code points of a string. -/
def points (s : String) : List Nat := s.toList.map Char.toNat

/-- `x` is the value `v`. -/
inductive Is : Loaded → Value → Prop
  | null : Is .null .null
  | bool {b} : Is (.bool b) (.bool b)
  | int {z} : Is (.int z) (.num (.int z))
  | flt {q} : Is (.flt q) (.num (.flt q))
  | str {s} : Is (.str (points s)) (.str s)
  | arr {xs vs} : xs.length = vs.length → (∀ (i : Nat) x v, xs[i]? = some x → vs[i]? = some v → Is x v) →
      Is (.arr xs) (.arr vs)
  | obj {ms kvs} : ms.length = kvs.length →
      (∀ (i : Nat) k x l v, ms[i]? = some (k, x) → kvs[i]? = some (l, v) → k = points l) →
      (∀ (i : Nat) k x l v, ms[i]? = some (k, x) → kvs[i]? = some (l, v) → Is x v) →
      Is (.obj ms) (.obj kvs)

end Jschon.Spec
