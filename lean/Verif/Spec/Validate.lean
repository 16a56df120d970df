import Verif.Model.Validate
import Verif.Spec.Shelf
import Verif.Spec.Twin

/-!
# What `validate` should do
-/

namespace Jschon.Spec

/-- The metaschema of a document: the one that `$schema` names, otherwise the one that the constructor is given. -/
def NamesMeta (lib : UriLib) (given : Option Uri) (doc : Value) (u : Uri) : Prop :=
  (∃ kvs t, doc = .obj kvs ∧ ("$schema", .str t) ∈ kvs ∧ u = lib.ofText t) ∨
    ((∀ kvs, doc = .obj kvs → "$schema" ∉ dkeys kvs) ∧ given = some u)

/-- Only `$schema` is constructed with the class that sets the metaschema of the schema. -/
def SchemaOnly (m : Meta) : Prop := ∀ c ∈ m.classes, c.shape = .schema → c.key = "$schema"

end Jschon.Spec
