import Verif.Spec.Reports

/-!
# Which annotations and errors an evaluation gathers

A keyword applies subschemas to the instance or to parts of it.  It does so either on a result of its own for
each subschema, which has a label, or on the result of the keyword itself.  The annotations and errors of the
whole are those of the keywords reached through results that are valid (invalid).
-/

namespace Jschon.Spec

section
variable (R : Rules) (env : Env) (st : Store) (M : Meaning) (sc : List SRef) (kws : List Kw) (v : Value)

/-- `w` is the item of `v` at position `k`, which is at `rel`. -/
def AtItem (k : Nat) (rel : List String) (w : Value) : Prop := (elems v)[k]? = some w ∧ rel = [k.repr]

/-- `w` is the member of `v` with name `n`, which is at `rel`. -/
def AtMember (n : String) (rel : List String) (w : Value) : Prop := (n, w) ∈ members v ∧ rel = [n]

/-- The keyword applies the schema `t` to the value `w`, at the place `rel` in `v`: on a result with the given
label, or on its own result (`none`). -/
def AppliesAt : Kw → Option String → SRef → List String → Value → Prop
  | .allOf ss, l, t, rel, w | .anyOf ss, l, t, rel, w | .oneOf ss, l, t, rel, w =>
      (∃ k : Nat, ss[k]? = some t ∧ l = some k.repr) ∧ rel = [] ∧ w = v
  | .not_ u, l, t, rel, w | .if_ u, l, t, rel, w | .ref u, l, t, rel, w =>
      l = none ∧ t = u ∧ rel = [] ∧ w = v
  | .then_ u, l, t, rel, w => (∃ c, Kw.if_ c ∈ kws ∧ M.valid sc c v) ∧ l = none ∧ t = u ∧ rel = [] ∧ w = v
  | .else_ u, l, t, rel, w => (∃ c, Kw.if_ c ∈ kws ∧ ¬ M.valid sc c v) ∧ l = none ∧ t = u ∧ rel = [] ∧ w = v
  | .dynamicRef u frag dynamic, l, t, rel, w =>
      l = none ∧ t = (if dynamic then R.dyn sc u frag else u) ∧ rel = [] ∧ w = v
  | .recursiveRef u, l, t, rel, w => l = none ∧ t = R.recr sc u ∧ rel = [] ∧ w = v
  | .dependentSchemas ps, l, t, rel, w => (∃ n, (n, t) ∈ ps ∧ HasMember v n ∧ l = some n) ∧ rel = [] ∧ w = v
  | .properties ps, l, t, rel, w => ∃ n, (n, t) ∈ ps ∧ l = some n ∧ AtMember v n rel w
  | .patternProperties ps, l, t, rel, w =>
      ∃ n re, (re, t) ∈ ps ∧ env.search re n = true ∧ l = some re ∧ AtMember v n rel w
  | .additionalProperties u, l, t, rel, w => l = none ∧ t = u ∧ ∃ n, ¬ Named env kws n ∧ AtMember v n rel w
  | .unevaluatedProperties u, l, t, rel, w => l = none ∧ t = u ∧
      ∃ n, (¬ ∃ kw ∈ kws, ObsEv R env st M sc kws v kw (.name n)) ∧ AtMember v n rel w
  | .propertyNames u, l, t, rel, w => l = none ∧ t = u ∧ ∃ n, HasMember v n ∧ rel = [n] ∧ w = .str n
  | .prefixItems ss, l, t, rel, w | .items9Array ss, l, t, rel, w =>
      ∃ k : Nat, ss[k]? = some t ∧ l = some k.repr ∧ AtItem v k rel w
  | .items u, l, t, rel, w => l = none ∧ t = u ∧ ∃ k, BeyondPrefix kws k ∧ AtItem v k rel w
  | .contains u, l, t, rel, w => l = none ∧ t = u ∧ ∃ k, AtItem v k rel w
  | .unevaluatedItems u, l, t, rel, w | .unevaluatedItems9 u, l, t, rel, w => l = none ∧ t = u ∧
      ∃ k, (¬ ∃ kw ∈ kws, ObsEv R env st M sc kws v kw (.item k)) ∧ AtItem v k rel w
  | .items9 u, l, t, rel, w => l = none ∧ t = u ∧ (∃ ks, st.obj u = .obj ks) ∧ ∃ k, AtItem v k rel w
  | .additionalItems u, l, t, rel, w => l = none ∧ t = u ∧
      ∃ ss, Kw.items9Array ss ∈ kws ∧ ss ≠ [] ∧ KwHolds R env M sc kws v (.items9Array ss) ∧
        ∃ k, ss.length ≤ k ∧ AtItem v k rel w
  | _, _, _, _, _ => False

/-- When the result of a keyword is valid: `if` has the verdict of its schema, although it asserts nothing. -/
def ResultValid : Kw → Prop
  | .if_ t => M.valid sc t v
  | .contains t => Contained R env M sc kws v t
  | kw => ObsHolds R env st M sc kws v kw

end

/-- Something in a result tree that may carry an annotation or an error: the result of a keyword, or the
labelled result of a schema. -/
inductive Source
  | keyword (scope : List SRef) (kws : List Kw) (kw : Kw)
  | schema (label : String) (t : SRef)

/-- A source, for the value at a place in the instance; `at_` is the schema object whose keyword it is. -/
structure Mark where
  place : List String
  value : Value
  at_ : SRef
  source : Source

/-- The same, seen from higher up in the instance. -/
def Mark.under (rel : List String) (m : Mark) : Mark := { m with place := rel ++ m.place }

/-- What applying the schema `s` to `v`, in scope `sc`, brings to light: with `good`, through valid results; else
through invalid ones. -/
inductive Emits (R : Rules) (env : Env) (st : Store) (M : Meaning) (good : Prop) :
    List SRef → SRef → Value → Mark → Prop
  /-- The result of a keyword. -/
  | here {sc s v kws kw} : st.obj s = .obj kws → kw ∈ kws → kw.types.contains v.type = true →
      ¬ Silent R env st M (s :: sc) kws v kw →
      (ResultValid R env st M (s :: sc) kws v kw ↔ good) →
      Emits R env st M good sc s v ⟨[], v, s, .keyword (s :: sc) kws kw⟩
  /-- What a subschema brings to light on the result of the keyword: nothing is asked of the subschema. -/
  | own {sc s v kws kw t rel w m} : st.obj s = .obj kws → kw ∈ kws → kw.types.contains v.type = true →
      (ResultValid R env st M (s :: sc) kws v kw ↔ good) →
      AppliesAt R env st M (s :: sc) kws v kw none t rel w → Emits R env st M good (s :: sc) t w m →
      Emits R env st M good sc s v (m.under rel)
  /-- What a subschema brings to light on a result for itself. -/
  | sub {sc s v kws kw l t rel w m} : st.obj s = .obj kws → kw ∈ kws → kw.types.contains v.type = true →
      (ResultValid R env st M (s :: sc) kws v kw ↔ good) →
      AppliesAt R env st M (s :: sc) kws v kw (some l) t rel w → (M.valid (s :: sc) t w ↔ good) →
      Emits R env st M good (s :: sc) t w m → Emits R env st M good sc s v (m.under rel)
  /-- The result for a subschema itself. -/
  | label {sc s v kws kw l t rel w} : st.obj s = .obj kws → kw ∈ kws → kw.types.contains v.type = true →
      (ResultValid R env st M (s :: sc) kws v kw ↔ good) →
      AppliesAt R env st M (s :: sc) kws v kw (some l) t rel w → (M.valid (s :: sc) t w ↔ good) →
      Emits R env st M good sc s v ⟨rel, w, s, .schema l t⟩

/-- What a source is called. -/
def Source.name : Source → String
  | .keyword _ _ kw => kw.key
  | .schema l _ => l

/-- The annotation and the error of a source: as `Reports` says, and for a schema a message if it is `false`. -/
def Mark.Carries (R : Rules) (env : Env) (st : Store) (M : Meaning) (m : Mark) (a e : Value) : Prop :=
  match m.source with
  | .keyword scope kws kw => Reports R env st M scope kws m.value kw a e
  | .schema _ t => Told (st.obj t ≠ .bool false) a e

/-- The meaning to which unrolling settles. -/
def settled (f : Nat → Meaning) : Meaning where
  valid sc s v := ∃ n, ∀ m, n ≤ m → (f m).valid sc s v
  ev sc s v pt := ∃ n, ∀ m, n ≤ m → (f m).ev sc s v pt

/-- The schemas of the `items` keyword of 2019-09, where it has one schema rather than an array, are booleans. -/
def PlainItems (st : Store) : Prop :=
  ∀ s kws t, st.obj s = .obj kws → Kw.items9 t ∈ kws → ∃ b, st.obj t = .bool b

end Jschon.Spec
