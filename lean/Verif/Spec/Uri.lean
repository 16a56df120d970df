/-!
# RFC 3986, section 3.5: the `fragment` production
-/

namespace Jschon.Spec

/-- `unreserved = ALPHA / DIGIT / "-" / "." / "_" / "~"`. -/
def Unreserved (c : Char) : Prop :=
  ('a' ≤ c ∧ c ≤ 'z') ∨ ('A' ≤ c ∧ c ≤ 'Z') ∨ ('0' ≤ c ∧ c ≤ '9') ∨
  c = '-' ∨ c = '.' ∨ c = '_' ∨ c = '~'

/-- `sub-delims`. -/
def SubDelim (c : Char) : Prop :=
  c ∈ ['!', '$', '&', '\'', '(', ')', '*', '+', ',', ';', '=']

/-- `HEXDIG` (upper case). -/
def HexDigit (c : Char) : Prop := ('0' ≤ c ∧ c ≤ '9') ∨ ('A' ≤ c ∧ c ≤ 'F')

/-- `fragment = *( pchar / "/" / "?" )` with
`pchar = unreserved / pct-encoded / sub-delims / ":" / "@"`. -/
inductive Fragment : List Char → Prop
  | nil : Fragment []
  | char {c r} : Unreserved c ∨ SubDelim c ∨ c ∈ [':', '@', '/', '?'] → Fragment r →
      Fragment (c :: r)
  | pct {a b r} : HexDigit a → HexDigit b → Fragment r → Fragment ('%' :: a :: b :: r)

end Jschon.Spec
