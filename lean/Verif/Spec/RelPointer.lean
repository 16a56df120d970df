import Verif.Spec.Pointer

/-!
# Relative JSON Pointer grammar (draft-bhutton-relative-json-pointer)

```
relative-json-pointer =  non-negative-integer [index-manipulation] json-pointer
relative-json-pointer =/ non-negative-integer [index-manipulation] "#"
index-manipulation    =  ( "+" / "-" ) positive-integer
non-negative-integer  =  %x30 / %x31-39 *( %x30-39 )
```
-/

namespace Jschon.Spec

/-- `%x31-39 *( %x30-39 )`. -/
def PosInteger (s : List Char) : Prop :=
  ∃ c r, s = c :: r ∧ '1' ≤ c ∧ c ≤ '9' ∧ ∀ d ∈ r, '0' ≤ d ∧ d ≤ '9'

/-- `non-negative-integer`. -/
def NonNegInteger (s : List Char) : Prop := s = ['0'] ∨ PosInteger s

/-- `[ index-manipulation ]`. -/
def IndexManip (s : List Char) : Prop :=
  s = [] ∨ ∃ n, PosInteger n ∧ (s = '+' :: n ∨ s = '-' :: n)

/-- `relative-json-pointer`. -/
def RelText (s : List Char) : Prop :=
  ∃ a b c, s = a ++ b ++ c ∧ NonNegInteger a ∧ IndexManip b ∧ (c = ['#'] ∨ PointerText c)

end Jschon.Spec
