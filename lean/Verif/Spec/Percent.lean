import Verif.Spec.Uri

/-!
# Percent-encoded text (RFC 3986, 2.1 and 2.5)
-/

namespace Jschon.Spec

/-- The value of a hexadecimal digit, in either case. -/
inductive HexValue : Char → Nat → Prop
  | digit {d} : d < 10 → HexValue (Char.ofNat ('0'.toNat + d)) d
  | upper {d} : d < 6 → HexValue (Char.ofNat ('A'.toNat + d)) (10 + d)
  | lower {d} : d < 6 → HexValue (Char.ofNat ('a'.toNat + d)) (10 + d)

/-- Octets, each as a percent sign and two hexadecimal digits. -/
inductive PctOctets : List UInt8 → List Char → Prop
  | nil : PctOctets [] []
  | cons {o bs a b x y r} : HexValue a x → HexValue b y → o.toNat = 16 * x + y → PctOctets bs r →
      PctOctets (o :: bs) ('%' :: a :: b :: r)

/-- `PctStands e t`: the text `e` stands for the text `t`.  A character stands for itself, or is written as its UTF-8
octets; a percent sign that is not followed by two hexadecimal digits stands for itself. -/
inductive PctStands : List Char → List Char → Prop
  | nil : PctStands [] []
  | char {c r t} : c ≠ '%' → PctStands r t → PctStands (c :: r) (c :: t)
  | octets {c e r t} : PctOctets (String.utf8EncodeChar c) e → PctStands r t → PctStands (e ++ r) (c :: t)
  | stray {r t} : (¬ ∃ a b x y z, r = a :: b :: z ∧ HexValue a x ∧ HexValue b y) → PctStands r t →
      PctStands ('%' :: r) ('%' :: t)

/-- The characters that are left as they are in a fragment. -/
def FragmentSafe (c : Char) : Prop := Unreserved c ∨ SubDelim c ∨ c = '/'

/-- `FragmentText t e`: `e` is the text `t` with all other characters written as octets, in upper case. -/
inductive FragmentText : List Char → List Char → Prop
  | nil : FragmentText [] []
  | char {c r e} : FragmentSafe c → FragmentText r e → FragmentText (c :: r) (c :: e)
  | octets {c o r e} : ¬ FragmentSafe c → PctOctets (String.utf8EncodeChar c) o →
      (∀ a ∈ o, a = '%' ∨ HexDigit a) → FragmentText r e → FragmentText (c :: r) (o ++ e)

end Jschon.Spec
