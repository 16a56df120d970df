import Verif.Spec.Conditions

/-!
# Schemas whose in-place references do not form cycles
-/

namespace Jschon.Spec

/-- The schemas that a keyword may apply to the instance itself, in any dynamic scope. -/
def MayInPlace (st : Store) : Kw → SRef → Prop
  | .allOf ss, t | .anyOf ss, t | .oneOf ss, t => t ∈ ss
  | .not_ u, t | .if_ u, t | .then_ u, t | .else_ u, t | .ref u, t => t = u
  | .dependentSchemas ps, t => ∃ n, (n, t) ∈ ps
  | .dynamicRef u frag dynamic, t => t = u ∨ dynamic = true ∧ ∃ b, DynAnchor st b frag t
  | .recursiveRef u, t => t = u ∨ RecAnchor st u ∧ RecAnchor st t
  | _, _ => False

/-- The ranks, all less than `bound`, decrease along in-place applications: no cycle of references
applies to one and the same instance. -/
structure Ranked (st : Store) (rank : SRef → Nat) (bound : Nat) : Prop where
  lt : ∀ s, rank s < bound
  decreases : ∀ s kws kw t, st.obj s = .obj kws → kw ∈ kws → MayInPlace st kw t → rank t < rank s

end Jschon.Spec
