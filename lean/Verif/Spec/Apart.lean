import Verif.Model.Patch
import Verif.Spec.Patch
import Verif.Spec.IntText

/-!
# Places that part (C102)
-/

namespace Jschon.Spec

/-- Pointers that part: after what they have in common, the next keys differ. -/
def Apart (p q : List String) : Prop := ∃ c a b r s, p = c ++ a :: r ∧ q = c ++ b :: s ∧ a ≠ b

/-- The pointers of an operation are for places inside the value at `ks`. -/
def Inside (ks : List String) (o : PatchOp) : Prop :=
  (∃ r, r ≠ [] ∧ o.path.keys = ks ++ r) ∧ ∀ f, o.from_ = some f → ∃ r, r ≠ [] ∧ f.keys = ks ++ r

/-- The operation as seen from the value at `ks`: the first keys of its pointers are left out. -/
def seenFrom (ks : List String) (o : PatchOp) : PatchOp :=
  { o with path := ⟨o.path.keys.drop ks.length⟩, from_ := o.from_.map fun f => ⟨f.keys.drop ks.length⟩ }

/-- The last key is no odd spelling of a number. -/
def PlainLast (p : Ptr) : Prop := ∀ ks k n, p.keys = ks ++ [k] → PyIntText k n → k = toString n

end Jschon.Spec
