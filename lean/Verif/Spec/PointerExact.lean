import Verif.Spec.IntText
import Verif.Spec.JsonHeap

/-!
# What a JSON Pointer finds in a JSON instance

On an instance, a token that meets an array is read by `int()` and used as a Python index, so a negative
integer counts from the end; nothing is checked beforehand.
-/

namespace Jschon.Spec

/-- What becomes of an evaluation. -/
inductive WalkEnd where
  /-- the value `w`, at the location `loc`, whose indices are spelled without ornament -/
  | found (loc : List String) (w : Value)
  /-- a member or an item that does not exist, or a scalar -/
  | missing
  /-- a token that is not an integer meets an array -/
  | noInt

/-- The same outcome, for a location one step further up. -/
def WalkEnd.under (k : String) : WalkEnd → WalkEnd
  | .found loc w => .found (k :: loc) w
  | .missing => .missing
  | .noInt => .noInt

/-- Neither an array nor an object. -/
inductive ScalarValue : Value → Prop
  | null : ScalarValue .null
  | bool {b} : ScalarValue (.bool b)
  | num {n} : ScalarValue (.num n)
  | str {s} : ScalarValue (.str s)

/-- Following the tokens from a value. -/
inductive Walks : Value → List String → WalkEnd → Prop
  | here {v} : Walks v [] (.found [] v)
  | member {kvs k w ks o} : (k, w) ∈ kvs → Walks w ks o → Walks (.obj kvs) (k :: ks) (o.under k)
  | noMember {kvs k ks} : (∀ w, (k, w) ∉ kvs) → Walks (.obj kvs) (k :: ks) .missing
  | item {l x r k i ks o} : PyIntText k i → IndexAt i l.length r.length → Walks x ks o →
      Walks (.arr (l ++ x :: r)) (k :: ks) (o.under (toString l.length))
  | noItem {xs k i ks} : PyIntText k i → (xs.length ≤ i ∨ i < -(xs.length : Int)) →
      Walks (.arr xs) (k :: ks) .missing
  | noInt {xs k ks} : (¬ ∃ i, PyIntText k i) → Walks (.arr xs) (k :: ks) .noInt
  | scalar {v k ks} : ScalarValue v → Walks v (k :: ks) .missing

end Jschon.Spec
