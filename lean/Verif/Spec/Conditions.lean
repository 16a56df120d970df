import Verif.Spec.JsonSchema

/-!
# Conditions on schemas

The points at which jschon differs from the specification, as conditions on the schema under which
they do not matter.
-/

namespace Jschon.Spec

/-- The schemas that a keyword applies to the instance itself, leaving out `not`. -/
def InPlace (R : Rules) (sc : List SRef) : Kw → SRef → Prop
  | .allOf ss, t | .anyOf ss, t | .oneOf ss, t => t ∈ ss
  | .if_ u, t | .then_ u, t | .else_ u, t | .ref u, t => t = u
  | .dependentSchemas ps, t => ∃ n, (n, t) ∈ ps
  | .dynamicRef u frag dynamic, t => t = if dynamic then R.dyn sc u frag else u
  | .recursiveRef u, t => t = R.recr sc u
  | _, _ => False

/-- The schemas that a keyword applies to the instance or to parts of it. -/
def Applies (R : Rules) (sc : List SRef) : Kw → SRef → Prop
  | .not_ u, t | .items u, t | .unevaluatedItems u, t | .contains u, t | .additionalProperties u, t
  | .unevaluatedProperties u, t | .propertyNames u, t | .items9 u, t | .additionalItems u, t
  | .unevaluatedItems9 u, t => t = u
  | .prefixItems ss, t | .items9Array ss, t => t ∈ ss
  | .properties ps, t | .patternProperties ps, t => ∃ n, (n, t) ∈ ps
  | kw, t => InPlace R sc kw t

/-- The keyword is one of those that evaluate members or items by themselves. -/
def Annotates : Kw → Prop
  | .properties _ | .patternProperties _ | .additionalProperties _ | .unevaluatedProperties _
  | .prefixItems _ | .items _ | .contains _ | .unevaluatedItems _
  | .items9 _ | .items9Array _ | .additionalItems _ | .unevaluatedItems9 _ => True
  | _ => False

/-- The keyword is `unevaluatedProperties` or `unevaluatedItems`. -/
def IsUneval : Kw → Prop
  | .unevaluatedProperties _ | .unevaluatedItems _ | .unevaluatedItems9 _ => True
  | _ => False

section
variable (R : Rules) (st : Store) (root : SRef)

/-- The dynamic scopes (innermost first) in which schemas are applied, starting from `root`. -/
inductive Reach : List SRef → Prop
  | root : Reach [root]
  | step {s sc kws kw t} : Reach (s :: sc) → st.obj s = .obj kws → kw ∈ kws →
      Applies R (s :: sc) kw t → Reach (t :: s :: sc)

/-- The scopes whose innermost schema has `unevaluatedProperties` or `unevaluatedItems`, or is applied
in place, not under `not`, by one that has. -/
inductive Watched : List SRef → Prop
  | here {s sc kws kw} : Reach R st root (s :: sc) → st.obj s = .obj kws → kw ∈ kws → IsUneval kw →
      Watched (s :: sc)
  | sub {s sc kws kw t} : Watched (s :: sc) → st.obj s = .obj kws → kw ∈ kws →
      InPlace R (s :: sc) kw t → Watched (t :: s :: sc)

/-- The scopes whose innermost schema has a keyword that evaluates members or items, or applies in
place a schema that has. -/
inductive Loud : List SRef → Prop
  | here {s sc kws kw} : st.obj s = .obj kws → kw ∈ kws → Annotates kw → Loud (s :: sc)
  | sub {s sc kws kw t} : st.obj s = .obj kws → kw ∈ kws → (InPlace R (s :: sc) kw t ∨ kw = .not_ t) →
      Loud (t :: s :: sc) → Loud (s :: sc)

/-- Schemas for which jschon's notion of evaluated members and items makes no difference. -/
structure Regular : Prop where
  /-- Where it matters what is evaluated, a schema under `not` evaluates nothing. -/
  quiet_not : ∀ s sc kws t, Watched R st root (s :: sc) → st.obj s = .obj kws → .not_ t ∈ kws →
    ¬ Loud R st (t :: s :: sc)
  /-- Where it matters what is evaluated, a 2019-09 `items` is not the boolean `true`. -/
  items_true : ∀ s sc kws t, Watched R st root (s :: sc) → st.obj s = .obj kws → .items9 t ∈ kws →
    st.obj t ≠ .bool true
  /-- The array form of a 2019-09 `items` is not empty (so says the metaschema). -/
  items_array : ∀ s sc kws ss, Reach R st root (s :: sc) → st.obj s = .obj kws → .items9Array ss ∈ kws →
    ss ≠ []

end

/-- Among the schema resources of the scope that have a dynamic anchor of that name, none is entered
again after another one has been entered. -/
def NoReentry (st : Store) (frag : String) (sc : List SRef) : Prop :=
  ∀ x y z b c, List.Sublist [x, y, z] sc → st.base x = some b → st.base y = some c →
    st.base z = some b → (∃ t, DynAnchor st b frag t) → (∃ t, DynAnchor st c frag t) → c = b

/-- `w` occurs inside `v` or is `v`. -/
inductive Within : Value → Value → Prop
  | refl {v} : Within v v
  | elem {w x xs} : Within w x → x ∈ xs → Within w (.arr xs)
  | member {w n x kvs} : Within w x → (n, x) ∈ kvs → Within w (.obj kvs)

/-! ## Schemas without dynamic references -/

/-- No reference depends on the dynamic scope. -/
def StaticKw (st : Store) : Kw → Prop
  | .dynamicRef _ _ dynamic => dynamic = false
  | .recursiveRef t => ¬ RecAnchor st t
  | _ => True

/-- No reference in the store depends on the dynamic scope. -/
def StaticStore (st : Store) : Prop := ∀ s kws, st.obj s = .obj kws → ∀ kw ∈ kws, StaticKw st kw

/-! ## Keywords that have no say -/

/-- The keyword has no say in the verdict. -/
def Neutral : Kw → Prop
  | .annot _ _ _ | .unknown _ _ | .contentSchema _ => True
  | .static key _ => key ≠ "$dynamicAnchor" ∧ key ≠ "$recursiveAnchor"
  | .format _ enabled => enabled = false
  | _ => False

/-- The lists have the same keywords, apart from those that have no say. -/
def SameKws (kws kws' : List Kw) : Prop := ∀ kw, ¬ Neutral kw → (kw ∈ kws ↔ kw ∈ kws')

/-- The stores have the same schemas, apart from the order of keywords and keywords that have no say. -/
structure SameStore (st st' : Store) : Prop where
  base : st.base = st'.base
  lookup : st.lookup = st'.lookup
  bool : ∀ s b, st.obj s = .bool b ↔ st'.obj s = .bool b
  obj : ∀ s kws kws', st.obj s = .obj kws → st'.obj s = .obj kws' → SameKws kws kws'

/-- The stores have the same schemas, up to the order of the keywords in each. -/
structure Permuted (st st' : Store) : Prop where
  base : st.base = st'.base
  lookup : st.lookup = st'.lookup
  bool : ∀ s b, st.obj s = .bool b ↔ st'.obj s = .bool b
  obj : ∀ s kws kws', st.obj s = .obj kws → st'.obj s = .obj kws' → kws'.Perm kws

/-! ## Keywords that constrain one type -/

/-- The type that the specification says a keyword constrains, if it is one type only. -/
def constrains : Kw → Option JType
  | .assert (.multipleOf _) | .assert (.maximum _) | .assert (.exclusiveMaximum _)
  | .assert (.minimum _) | .assert (.exclusiveMinimum _) => some .number
  | .assert (.maxLength _) | .assert (.minLength _) | .assert (.pattern _) => some .string
  | .assert (.maxItems _) | .assert (.minItems _) | .assert (.uniqueItems _)
  | .maxContains _ | .minContains _ | .prefixItems _ | .items _ | .unevaluatedItems _ | .contains _
  | .items9 _ | .items9Array _ | .additionalItems _ | .unevaluatedItems9 _ => some .array
  | .assert (.maxProperties _) | .assert (.minProperties _) | .assert (.required _)
  | .assert (.dependentRequired _) | .dependentSchemas _ | .properties _ | .patternProperties _
  | .additionalProperties _ | .unevaluatedProperties _ | .propertyNames _ => some .object
  | _ => none

end Jschon.Spec
