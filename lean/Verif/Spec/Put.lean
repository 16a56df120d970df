import Verif.Model.Put
import Verif.Spec.Cut
import Verif.Spec.SchemaEdit

/-!
# A schema with a subschema that was added
-/

namespace Jschon
open Spec

namespace Spec

/-- An array with an item more, or with another one in the place of that item. -/
def plusItem (c : Nat) : SubPut → List Nat → List Nat
  | .item, cs => cs ++ [c]
  | .index i, cs => cs.take i ++ c :: cs.drop (i + 1)
  | .insert i, cs => cs.take i ++ c :: cs.drop i
  | .member _, cs => cs

/-- An object with that member, in the place of the old one if there was one. -/
def plusMember (c : Nat) : SubPut → List (String × Nat) → List (String × Nat)
  | .member k, ms =>
    if k ∈ ms.map Prod.fst then ms.map fun m => if m.1 = k then (k, c) else m else ms ++ [(k, c)]
  | .item, ms => ms
  | .index _, ms => ms
  | .insert _, ms => ms

/-- A keyword with that subschema. -/
def plusKw (a : SubPut) (c : Nat) : Kw → Kw
  | .allOf cs => .allOf (plusItem c a cs)
  | .anyOf cs => .anyOf (plusItem c a cs)
  | .oneOf cs => .oneOf (plusItem c a cs)
  | .prefixItems cs => .prefixItems (plusItem c a cs)
  | .items9Array cs => .items9Array (plusItem c a cs)
  | .properties ms => .properties (plusMember c a ms)
  | .patternProperties ms => .patternProperties (plusMember c a ms)
  | .dependentSchemas ms => .dependentSchemas (plusMember c a ms)
  | kw => kw

/-- The schema, with that subschema in the keyword of that name. -/
def plusObj (key : String) (a : SubPut) (c : Nat) : SchemaObj → SchemaObj
  | .bool b => .bool b
  | .obj kws => .obj (kws.map fun kw => if kw.key = key then plusKw a c kw else kw)

/-- The store, with the subschema `c` added to a keyword of the schema `s`. -/
def Store.plus (st : Store) (s : Nat) (key : String) (a : SubPut) (c : Nat) : Store :=
  { st with obj := fun x => if x = s then plusObj key a c (st.obj x) else st.obj x }

/-- The key that the new child gets. -/
def _root_.Jschon.SubPut.key (w : World) (j : Nat) : SubPut → String
  | .item => match w.heap.data j with | .arr cs => natStr cs.length | _ => ""
  | .index i => natStr i
  | .insert i => natStr i
  | .member k => k

/-- The deletion is not of a negative index, which leaves wrong keys. -/
def Cut.Forward : Cut → Prop
  | .name _ => True
  | .index i => 0 ≤ i

/-- The world after any number of constructions and calls of `get_schema`, as in `KHistory`, and of additions to and
deletions from the arrays and objects of subschemas of keywords, successful or not. -/
inductive PutHistory [Dialect] : World → Prop
  | start : PutHistory .empty
  | new {E n cid uri metaUri doc w w' r} : PutHistory w → CEnvOk E → KindedEnv E → doc.WF →
      (∀ u, uri = some u → ∀ q, w.uri q = some u → w.cacheid q ≠ cid) →
      newDocument E n cid uri metaUri doc w = some (w', r) → PutHistory w'
  | get {E n u metaUri cid w w' r} : PutHistory w → CEnvOk E → KindedEnv E →
      getSchema E n u metaUri cid w = some (w', r) → PutHistory w'
  | put {E s key o a v w w' r} : PutHistory w → CEnvOk E → KindedEnv E → v.WF → (key, o) ∈ w.keywords s →
      Holds o.shape → w.isSchema o.json = false → putSubschema E o.json a v w = some (w', r) → PutHistory w'
  | cut {s key o w} (c : Cut) : PutHistory w → (key, o) ∈ w.keywords s → Holds o.shape → w.isSchema o.json = false →
      c.Forward → PutHistory (w.editJson (c.op o.json))

end Spec

end Jschon
