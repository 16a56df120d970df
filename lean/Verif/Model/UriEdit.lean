import Verif.Model.Construct

/-!
# Changes of the URIs of schemas
-/

namespace Jschon

/-- What a program may do to the URIs of schemas and to the caches: `schema.uri = value`
(`jschon/jsonschema.py:307-316`), `catalog.add_schema(uri, schema, cacheid=id)` and
`catalog.del_schema(uri, cacheid=id)` (`jschon/catalog/__init__.py:281-311`), and `schema.metaschema_uri = value`
(`jschon/jsonschema.py:283-285`).  The property `metaschema`, which is cached, is in `Model/Keeping`. -/
inductive UriEdit where
  | uri (s : Nat) (u : Option Uri)
  | add (id : String) (u : Uri) (s : Nat)
  | del (id : String) (u : Uri)
  | metaUri (s : Nat) (u : Option Uri)

/-- The effect of the edit. -/
def UriEdit.step (lib : UriLib) : UriEdit → World → World
  | .uri s (some u), w => w.putUri lib s u
  | .uri s none, w =>
    { w.setInfo s (fun i => { i with uri := none }) with caches := delOld w.caches (w.cacheid s) (w.uri s) }
  | .add id u s, w => { w with caches := addSchema w.caches id u s }
  | .del id u, w => { w with caches := delSchema w.caches id u }
  | .metaUri s u, w => w.setInfo s fun i => { i with metaUri := u }

end Jschon
