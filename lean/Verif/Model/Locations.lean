import Verif.Model.Decode
import Verif.Model.Output

/-!
# Where a result is in the documents (`jschon/jsonschema.py:438-442`, `:502-513`)

The two facts about a result that `Verif/Model/Output.lean` has as parameters, for the schemas of a
world.
-/

namespace Jschon

/-- `Result.schema_node` (`jschon/jsonschema.py:438-442`): `relpath.evaluate(schema)`. -/
def World.schemaNode (w : World) (info : RInfo) : Except Exc Nat :=
  resolveJson w.heap info.relpath info.schema

/-- The pointer in `Result.absolute_uri` (`jschon/jsonschema.py:508-512`): an absent and an empty fragment
are both falsy. -/
def relKeys (u : Uri) (relpath : List String) : Except Exc (List String) :=
  match u.fragment with
  | none | some "" => .ok relpath
  | some f =>
    match Ptr.parseUriFragment f with
    | .error e => .error e
    | .ok p => .ok (p.keys ++ relpath)

/-- `Result.absolute_uri` (`jschon/jsonschema.py:502-513`) -/
def World.absoluteUri (w : World) (info : RInfo) : Except Exc (Option Uri) :=
  match info.refschema with
  | some t => w.canonicalUri t
  | none =>
    match w.canonicalUri info.schema with
    | .error e => .error e
    | .ok none => .ok none
    | .ok (some u) =>
      match relKeys u info.relpath with
      | .error e => .error e
      | .ok ks => .ok (some (u.withFragment (Ptr.uriFragment ⟨ks⟩)))

/-- `str(node.absolute_uri)`, as `jschon/output.py` writes it.  Simplification: where `absolute_uri`
raises, so does the output formatter; here the text is then empty. -/
def World.uriText (w : World) (info : RInfo) : String :=
  match w.absoluteUri info with
  | .ok (some u) => u.str
  | .ok none => "None"
  | .error _ => ""

/-- `isinstance(node.schema_node, JSONSchema)` (`jschon/output.py:132`). -/
def World.atSchema (w : World) (info : RInfo) : Bool :=
  match w.schemaNode info with
  | .ok x => w.isSchema x
  | .error _ => false

end Jschon
