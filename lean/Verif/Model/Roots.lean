import Verif.Model.Construct
import Verif.Model.JsonHeap

/-!
# The schemas that contain a schema (`jschon/jsonschema.py:222-261`)

The loops have a bound on the number of steps; a parent is older than its children, so that the number
of the instance is enough.
-/

namespace Jschon

/-- The loop of `JSONSchema.parentschema` (`jschon/jsonschema.py:228-232`). -/
def World.schemaAbove (w : World) : Nat → Option Nat → Option Nat
  | 0, _ => none
  | _ + 1, none => none
  | n + 1, some p => if w.isSchema p then some p else w.schemaAbove n (w.heap.parent p)

/-- `JSONSchema.parentschema` (`jschon/jsonschema.py:222-232`) -/
def World.parentschema (w : World) (s : Nat) : Option Nat := w.schemaAbove s (w.heap.parent s)

/-- `'$id' in schema.keywords` -/
def World.hasIdKw (w : World) (s : Nat) : Bool := decide ("$id" ∈ dkeys (w.keywords s))

/-- `ancestor.parentschema` as the condition of a loop (`jschon/jsonschema.py:244`, `:259`): a schema is
true or false as its data are (`JSON.__bool__`, `jschon/json.py:211-213`). -/
def World.trueParent (w : World) (s : Nat) : Option Nat :=
  match w.parentschema s with
  | none => none
  | some q => if boolJson w.heap q then some q else none

/-- The loop of `JSONSchema.resource_rootschema` (`jschon/jsonschema.py:244-248`). -/
def World.resourceUp (w : World) : Nat → Nat → Nat
  | 0, a => a
  | n + 1, a =>
    match w.trueParent a with
    | none => a
    | some q => if w.hasIdKw q then q else w.resourceUp n q

/-- `JSONSchema.resource_rootschema` (`jschon/jsonschema.py:235-248`) -/
def World.resourceRoot (w : World) (s : Nat) : Nat := if w.hasIdKw s then s else w.resourceUp (s + 1) s

/-- The loop of `JSONSchema.document_rootschema` (`jschon/jsonschema.py:259-261`). -/
def World.documentUp (w : World) : Nat → Nat → Nat
  | 0, a => a
  | n + 1, a =>
    match w.trueParent a with
    | none => a
    | some q => w.documentUp n q

/-- `JSONSchema.document_rootschema` (`jschon/jsonschema.py:251-261`) -/
def World.documentRoot (w : World) (s : Nat) : Nat := w.documentUp (s + 1) s

end Jschon
