import Verif.Model.Decode
import Verif.Model.Eval

/-!
# `JSONSchema.validate` (`jschon/jsonschema.py:187-189`)

The schema is the instance that its metaschema evaluates.  A metaschema is a schema of the cache `__meta__`; whether
`get_metaschema` returns one, and which keywords it then has, is what the environment says (`CEnv.metaschema`).  If it
does return one, then the one that it returns is the one that the cache has (`jschon/catalog/__init__.py:254-265`).
-/

namespace Jschon
open Spec

/-- `schema.validate()` (`jschon/jsonschema.py:187-189`) with `schema.metaschema` (`:263-269`).  The metaschema that
`cached_property` keeps is the one of the catalog (`Model/Keeping` is without this).  Undefined if evaluation does not
end within the bound, and if the metaschema is not in the cache. -/
def World.validate [Dialect] (E : CEnv) (w : World) (env : Env) (n : Nat) (s : Nat) : Option (Except Exc RNode) :=
  match w.metaUri s with
  | none => some (.error .schemaError)
  | some u =>
    match E.metaschema u with
    | .error e => some (.error e)
    | .ok _ =>
      match cacheGet w.caches "__meta__" u with
      | none => none
      | some m => (evaluate (w.store E "__meta__") env n m ⟨(readPath w.heap s).2.keys, val w.heap s⟩).map .ok

end Jschon
