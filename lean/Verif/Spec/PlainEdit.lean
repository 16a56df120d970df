import Verif.Model.PlainEdit
import Verif.Spec.Construct
import Verif.Spec.JsonHeap

/-!
# Edits inside the values of keywords
-/

namespace Jschon.Spec

/-- The class of the keyword has no `__init__` of its own and makes no schemas: it keeps nothing of the value
but its JSON instance, which is read at evaluation. -/
def PlainShape (shape : KwShape) : Prop := shape = .plain ∨ shape = .unknown

/-- `x` is the JSON instance of such a keyword of a schema, or is in it. -/
def InPlain (w : World) (x : Nat) : Prop :=
  ∃ s k o ks, (k, o) ∈ w.keywords s ∧ k ≠ "$id" ∧ PlainShape o.shape ∧ Reach w.heap o.json ks x

/-- The second world is the first one after any number of calls, successful or not, of methods of such
instances, and of reading `path` and `value` of any instances, schemas included, in between. -/
inductive PlainEdited (w : World) : World → Prop
  | refl : PlainEdited w w
  | call {w' r} (op : JOp) : PlainEdited w w' → op.receiver = some r → InPlain w' r → op.ArgsOk w'.heap →
      op.InRange w'.heap → PlainEdited w (w'.editJson op)
  | read {w' r op} : PlainEdited w w' → op = .path r ∨ op = .value r → r < w'.heap.next →
      PlainEdited w (w'.editJson op)

end Jschon.Spec
