import Verif.Model.Py

/-!
# The texts that `int()` accepts

Python's language reference, "Integer literals" (with digits of any script and leading zeros), and the
documentation of `int`: a sign is optional, white space around is ignored, and single underscores may stand
between digits.
-/

namespace Jschon.Spec

/-- A character that stands for a decimal digit (Unicode category `Nd`; the digits of a script follow
its zero). -/
def DigitChar (c : Char) (d : Nat) : Prop := d < 10 ∧ ∃ z ∈ ndZeros, c.toNat = z + d

/-- White space, without the control characters from U+001C to U+001F. -/
def SpaceChar (c : Char) : Prop :=
  c.toNat ∈ [9, 10, 11, 12, 13, 0x20, 0x85, 0xa0, 0x1680, 0x2000, 0x2001, 0x2002, 0x2003, 0x2004, 0x2005, 0x2006,
    0x2007, 0x2008, 0x2009, 0x200a, 0x2028, 0x2029, 0x202f, 0x205f, 0x3000]

/-- Digits, with single underscores between them. -/
inductive DigitsText : List Char → Nat → Prop
  | one {c d} : DigitChar c d → DigitsText [c] d
  | more {l n c d} : DigitsText l n → DigitChar c d → DigitsText (l ++ [c]) (10 * n + d)
  | under {l n c d} : DigitsText l n → DigitChar c d → DigitsText (l ++ ['_', c]) (10 * n + d)

/-- An optional sign and digits. -/
inductive SignedText : List Char → Int → Prop
  | plain {l n} : DigitsText l n → SignedText l n
  | plus {l n} : DigitsText l n → SignedText ('+' :: l) n
  | minus {l n} : DigitsText l n → SignedText ('-' :: l) (-n)

/-- The text `s` denotes the integer `i`. -/
def PyIntText (s : String) (i : Int) : Prop :=
  ∃ pre body post, s.toList = pre ++ body ++ post ∧ (∀ c ∈ pre, SpaceChar c) ∧ (∀ c ∈ post, SpaceChar c) ∧
    SignedText body i

/-- The spellings of an array index that `int(key)` accepts. -/
def PyIndexSpelling (k : String) (n : Nat) : Prop := PyIntText k n

end Jschon.Spec
