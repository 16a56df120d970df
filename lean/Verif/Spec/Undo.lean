import Verif.Spec.Put

/-!
# Deletion of what was added
-/

namespace Jschon

namespace Spec

/-- The deletion is of what the addition added: of an item at that index, or of a member that was not there. -/
def Undoes (d : JData) : SubPut → Cut → Prop
  | .item, .index n => ∃ cs, d = .arr cs ∧ n = cs.length
  | .insert i, .index n => n = i
  | .member k, .name k' => k' = k ∧ ∀ ms, d = .obj ms → k ∉ ms.map Prod.fst
  | _, _ => False

end Spec

end Jschon
