import Verif.Model.Schema

/-!
# Which keywords take others into account

`Attends a b`: keyword `a` acts in a way that depends on whether `b` stands in the same schema.
-/

namespace Jschon.Spec

/-- Keywords that `unevaluatedProperties` and `unevaluatedItems` beside them pay no heed to: they
evaluate no members and no items of the instance, or are such keywords themselves. -/
def Unheeded : Kw → Prop
  | .assert _ | .format _ _ | .static _ _ | .annot _ _ _ | .contentSchema _ | .unknown _ _ | .propertyNames _
  | .minContains _ | .maxContains _ | .unevaluatedProperties _ | .unevaluatedItems _
  | .unevaluatedItems9 _ => True
  | _ => False

/-- The verdict of the first keyword depends on whether the second one is beside it. -/
def Attends : Kw → Kw → Prop
  | .then_ _, .if_ _ | .else_ _, .if_ _ | .additionalProperties _, .properties _
  | .additionalProperties _, .patternProperties _ | .items _, .prefixItems _ | .contains _, .minContains _
  | .minContains _, .contains _ | .maxContains _, .contains _ | .additionalItems _, .items9Array _ => True
  | .unevaluatedProperties _, k | .unevaluatedItems _, k | .unevaluatedItems9 _, k => ¬ Unheeded k
  | _, _ => False

/-- No keyword of one list attends to one of the other list. -/
def Unrelated (k1 k2 : List Kw) : Prop := ∀ a ∈ k1, ∀ b ∈ k2, ¬ Attends a b ∧ ¬ Attends b a

end Jschon.Spec
