import Verif.Model.PlainEdit
import Verif.Model.SchemaEdit

/-!
# Deletion of subschemas

What becomes of the keywords of a schema from which subschemas are deleted, as in `del schema['properties']['a']`
and `del schema['allOf'][0]`.
-/

namespace Jschon.Spec

/-- What is deleted from an array or an object. -/
inductive Cut where
  | name (k : String)
  | index (i : Int)

/-- `del x[k]`, `del x[i]` -/
def Cut.op (r : Nat) : Cut → JOp
  | .name k => .delKey r k
  | .index i => .delIdx r i

/-- What is left of an array.  A negative index counts from the end; if there is no such item, nothing is
deleted. -/
def Cut.items : Cut → List Nat → List Nat
  | .index i, cs =>
    if 0 ≤ i then cs.eraseIdx i.toNat
    else if 0 ≤ (cs.length : Int) + i then cs.eraseIdx ((cs.length : Int) + i).toNat
    else cs
  | .name _, cs => cs

/-- What is left of an object. -/
def Cut.members : Cut → List (String × Nat) → List (String × Nat)
  | .name k, ms => ms.filter fun m => decide (m.1 ≠ k)
  | .index _, ms => ms

/-- What is left of a keyword with subschemas. -/
def Cut.kw (c : Cut) : Kw → Kw
  | .allOf cs => .allOf (c.items cs)
  | .anyOf cs => .anyOf (c.items cs)
  | .oneOf cs => .oneOf (c.items cs)
  | .prefixItems cs => .prefixItems (c.items cs)
  | .items9Array cs => .items9Array (c.items cs)
  | .properties ms => .properties (c.members ms)
  | .patternProperties ms => .patternProperties (c.members ms)
  | .dependentSchemas ms => .dependentSchemas (c.members ms)
  | kw => kw

/-- What is left of a schema, if something is deleted from the keyword of that name. -/
def Cut.obj (key : String) (c : Cut) : SchemaObj → SchemaObj
  | .bool b => .bool b
  | .obj kws => .obj (kws.map fun kw => if kw.key = key then c.kw kw else kw)

/-- The store, after something is deleted from a keyword of a schema. -/
def Store.cut (st : Store) (s : Nat) (key : String) (c : Cut) : Store :=
  { st with obj := fun x => if x = s then c.obj key (st.obj x) else st.obj x }

/-- The store after several deletions, the last one first in the list. -/
def Store.cuts (st : Store) : List (Nat × String × Cut) → Store
  | [] => st
  | (s, key, c) :: cs => Store.cut (Store.cuts st cs) s key c

/-- The keyword has its subschemas in an array or in an object. -/
def Holds (shape : KwShape) : Prop :=
  shape = .arrayOfSubschemas ∨ shape = .objectOfSubschemas ∨ shape = .subschemaOrArray

/-- The second world is the first one after any number of such deletions, successful or not. -/
inductive Pruned (w : World) : World → List (Nat × String × Cut) → Prop
  | refl : Pruned w w []
  | cut {w' cuts s key o} (c : Cut) : Pruned w w' cuts → (key, o) ∈ w'.keywords s → Holds o.shape →
      w'.isSchema o.json = false → Pruned w (w'.editJson (c.op o.json)) ((s, key, c) :: cuts)

end Jschon.Spec
