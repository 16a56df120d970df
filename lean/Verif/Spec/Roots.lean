import Verif.Spec.Construct

/-!
# The resource that a schema belongs to
-/

namespace Jschon
namespace Spec

/-- The instance is an object with the member `$id`. -/
def HasId (w : World) (x : Nat) : Prop := ∃ ms j, w.heap.data x = .obj ms ∧ ("$id", j) ∈ ms

/-- `x` is on the way from `a` down to `s`, both included. -/
def OnWay (w : World) (a x s : Nat) : Prop := Within w.heap a x ∧ Within w.heap x s

/-- `q` is the schema nearest to `s`, among `s` and what contains it, that has `$id`; if there is none, it is
the root of the document. -/
structure ResourceRoot (w : World) (root s q : Nat) : Prop where
  way : OnWay w root q s
  schema : w.isSchema q = true
  top : HasId w q ∨ q = root
  nearest : ∀ x, OnWay w q x s → w.isSchema x = true → x ≠ q → ¬ HasId w x

/-- `q` is the nearest schema that contains `s`. -/
structure ParentSchema (w : World) (s q : Nat) : Prop where
  way : Within w.heap q s
  schema : w.isSchema q = true
  ne : q ≠ s
  nearest : ∀ x, OnWay w q x s → w.isSchema x = true → x = q ∨ x = s

/-- The values of `$id` in the document are strings. -/
def IdTexts (w : World) (root : Nat) : Prop :=
  ∀ x ms j, SchemaIn w root x → w.heap.data x = .obj ms → ("$id", j) ∈ ms → ∃ t, w.heap.data j = .str t

end Spec
end Jschon
