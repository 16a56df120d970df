import Verif.Model.Eval

/-!
# Groups of schemas that stand by themselves
-/

namespace Jschon.Spec

/-- The schemas that a keyword has as subschemas, or that its reference was resolved to. -/
def Subschema : Kw → SRef → Prop
  | .allOf ss, t | .anyOf ss, t | .oneOf ss, t | .prefixItems ss, t | .items9Array ss, t => t ∈ ss
  | .if_ u, t | .then_ u, t | .else_ u, t | .not_ u, t | .items u, t | .unevaluatedItems u, t
  | .contains u, t | .additionalProperties u, t | .unevaluatedProperties u, t | .propertyNames u, t
  | .items9 u, t | .additionalItems u, t | .unevaluatedItems9 u, t
  | .ref u, t | .dynamicRef u _ _, t | .recursiveRef u, t => t = u
  | .dependentSchemas ps, t | .properties ps, t | .patternProperties ps, t => ∃ n, (n, t) ∈ ps
  | _, _ => False

/-- The schemas that evaluation of `s` may involve: `s`, their subschemas and the targets of their
references. -/
inductive Uses (st : Store) (s : SRef) : SRef → Prop
  | refl : Uses st s s
  | step {x kws kw t} : Uses st s x → st.obj x = .obj kws → kw ∈ kws → Subschema kw t → Uses st s t

/-- Among them there is no dynamic reference to a dynamic anchor. -/
def Static (st : Store) (s : SRef) : Prop :=
  ∀ x kws t f, Uses st s x → st.obj x = .obj kws → .dynamicRef t f true ∉ kws

/-- A group of schemas that contains the subschemas of its schemas, the targets of their references,
and, if one of them has a dynamic reference, the anchors of that name in their resources. -/
structure Island (P : SRef → Prop) (st : Store) : Prop where
  closed : ∀ s kws kw t, P s → st.obj s = .obj kws → kw ∈ kws → Subschema kw t → P t
  dyn : ∀ s kws t f, P s → st.obj s = .obj kws → .dynamicRef t f true ∈ kws →
    ∀ x b u, P x → st.base x = some b → st.lookup b f = some u → P u

/-- The stores agree on the schemas of the group: on their keywords and, if one of them has a dynamic
reference, on the anchors of that name in their resources. -/
structure SameOn (P : SRef → Prop) (st st' : Store) : Prop where
  obj : ∀ s, P s → st'.obj s = st.obj s
  dyn : ∀ s kws t f, P s → st.obj s = .obj kws → .dynamicRef t f true ∈ kws →
    ∀ x, P x → st'.base x = st.base x ∧ ∀ b, st.base x = some b → st'.lookup b f = st.lookup b f

end Jschon.Spec
