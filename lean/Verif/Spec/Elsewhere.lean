import Verif.Spec.Island
import Verif.Spec.Construct
import Verif.Model.Decode

/-!
# What evaluation looks up, and histories in other caches
-/

namespace Jschon.Spec

/-- What evaluation of a schema may involve, dynamic references included: the schema, the subschemas and
the targets of references of what is involved, and what the dynamic references that are involved find in the
resources that are involved. -/
inductive Involves (st : Store) (s : SRef) : SRef → Prop
  | refl : Involves st s s
  | step {x kws kw t} : Involves st s x → st.obj x = .obj kws → kw ∈ kws → Subschema kw t → Involves st s t
  | dyn {x kws t f y b u} : Involves st s x → st.obj x = .obj kws → .dynamicRef t f true ∈ kws →
      Involves st s y → st.base y = some b → st.lookup b f = some u → Involves st s u

/-- The URI `u` is looked up when a dynamic reference that is involved looks for its anchor. -/
def Consulted (E : CEnv) (st : Store) (s : SRef) (u : Uri) : Prop :=
  ∃ x kws t f y b, Involves st s x ∧ st.obj x = .obj kws ∧ .dynamicRef t f true ∈ kws ∧
    Involves st s y ∧ st.base y = some b ∧ E.lib.resolve (E.lib.ofText ("#" ++ f)) (E.lib.ofText b) = some u

/-- The second world is the first one after any number of constructions of schemas and calls of `get_schema`, as in
`CAfter`, all of them with cache identifiers other than `id`. -/
inductive CElsewhere (id : String) (w : World) : World → Prop
  | refl : CElsewhere id w w
  | new {E n cid uri metaUri doc w' w'' r} : CElsewhere id w w' → cid ≠ id → CEnvOk E → doc.WF →
      (∀ u, uri = some u → ∀ q, w'.uri q = some u → w'.cacheid q ≠ cid) →
      newDocument E n cid uri metaUri doc w' = some (w'', r) → CElsewhere id w w''
  | get {E n u metaUri cid w' w'' r} : CElsewhere id w w' → cid ≠ id → CEnvOk E →
      getSchema E n u metaUri cid w' = some (w'', r) → CElsewhere id w w''

end Jschon.Spec
