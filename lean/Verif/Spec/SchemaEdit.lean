import Verif.Model.SchemaEdit
import Verif.Spec.Construct

/-!
# What becomes of a schema that is edited
-/

namespace Jschon.Spec

/-- The value of a keyword of that class is of the kind that evaluation expects under that name: a
schema, an array or an object of schemas, or plain JSON. -/
def Kinded [Dialect] (key : String) (shape : KwShape) : Prop :=
  match dlookup key kwForms with
  | some (.one _) => shape = .subschema
  | some (.many _) => shape = .arrayOfSubschemas
  | some (.named _) => shape = .objectOfSubschemas
  | some (.either _ _) => shape = .subschemaOrArray
  | _ => key = "$defs" ∨
      shape ∉ ([.subschema, .arrayOfSubschemas, .objectOfSubschemas, .subschemaOrArray] : List KwShape)

/-- The metaschemas of the catalog have such classes. -/
def KindedEnv [Dialect] (E : CEnv) : Prop :=
  ∀ u m, E.metaschema u = .ok m → ∀ key c, getKwclass m key = .ok c → Kinded c.key c.shape

/-- The world after any number of constructions and calls of `get_schema`, as in `CHistory`, with such
metaschemas. -/
inductive KHistory [Dialect] : World → Prop
  | start : KHistory .empty
  | new {E n cid uri metaUri doc w w' r} : KHistory w → CEnvOk E → KindedEnv E → doc.WF →
      (∀ u, uri = some u → ∀ q, w.uri q = some u → w.cacheid q ≠ cid) →
      newDocument E n cid uri metaUri doc w = some (w', r) → KHistory w'
  | get {E n u metaUri cid w w' r} : KHistory w → CEnvOk E → KindedEnv E →
      getSchema E n u metaUri cid w = some (w', r) → KHistory w'

/-- The second world is the first one after any number of calls of methods that change schemas,
successful or not; the list says which members were to be deleted. -/
inductive Edited (w : World) : World → List (Nat × String) → Prop
  | refl : Edited w w []
  | other {w' gone s} {op : SOp} : Edited w w' gone → w'.isSchema s = true → (∀ k, op ≠ .delItem k) →
      Edited w (op.step w' s).1 gone
  | delete {w' gone s k} : Edited w w' gone → w'.isSchema s = true →
      Edited w (SOp.step w' s (.delItem k)).1 ((s, k) :: gone)

/-- The names of the keywords that a dynamic or recursive reference looks for. -/
def anchorKeys : List String := ["$dynamicAnchor", "$recursiveAnchor"]

/-- The same schema object without the anchors that are gone. -/
def withoutAnchors (gone : List (Nat × String)) (x : Nat) : SchemaObj → SchemaObj
  | .bool b => .bool b
  | .obj kws => .obj (kws.filter fun
      | .static k _ => !(decide (k ∈ anchorKeys) && decide ((x, k) ∈ gone))
      | _ => true)

/-- The same store without the anchors that are gone. -/
def Store.withoutAnchors (gone : List (Nat × String)) (st : Store) : Store :=
  { st with obj := fun x => Spec.withoutAnchors gone x (st.obj x) }

/-- The fragment is no JSON pointer, however it is resolved. -/
def NoPointer (E : CEnv) (f : String) : Prop :=
  ∀ b u g, E.lib.resolve (E.lib.ofText ("#" ++ f)) (E.lib.ofText b) = some u → u.fragment = some g →
    g ≠ "" → ∃ e, Ptr.parseUriFragment g = .error e

end Jschon.Spec
