import Verif.Spec.JsonSchema

/-!
# Schemas with other subschemas
-/

namespace Jschon.Spec

/-- The keyword with other subschemas and targets of `$ref`. -/
def substKw (σ : SRef → SRef) : Kw → Kw
  | .allOf ss => .allOf (ss.map σ)
  | .anyOf ss => .anyOf (ss.map σ)
  | .oneOf ss => .oneOf (ss.map σ)
  | .not_ t => .not_ (σ t)
  | .if_ t => .if_ (σ t)
  | .then_ t => .then_ (σ t)
  | .else_ t => .else_ (σ t)
  | .dependentSchemas ps => .dependentSchemas (ps.map fun p => (p.1, σ p.2))
  | .prefixItems ss => .prefixItems (ss.map σ)
  | .items t => .items (σ t)
  | .contains t => .contains (σ t)
  | .properties ps => .properties (ps.map fun p => (p.1, σ p.2))
  | .patternProperties ps => .patternProperties (ps.map fun p => (p.1, σ p.2))
  | .additionalProperties t => .additionalProperties (σ t)
  | .propertyNames t => .propertyNames (σ t)
  | .items9 t => .items9 (σ t)
  | .items9Array ss => .items9Array (ss.map σ)
  | .additionalItems t => .additionalItems (σ t)
  | .ref t => .ref (σ t)
  | kw => kw

/-- What the subschemas of a schema that is evaluated on `v` are evaluated on: `v`, its members and items,
and the names of members. -/
def PartOrSelf (v x : Value) : Prop :=
  x = v ∨ (∃ n, (n, x) ∈ members v) ∨ x ∈ elems v ∨ ∃ n, HasMember v n ∧ x = .str n

end Jschon.Spec
