import Verif.Spec.JsonSchema

/-!
# The meaning that jschon gives to schemas

It differs from `Spec.step` in what counts as evaluated:

* the keywords of a schema that is *not* valid still count under `not` (each keyword that holds by
  itself counts), because `NotKeyword.evaluate` marks as valid the result that holds them;
* a keyword counts only if it holds by itself (this makes no difference when the schema is valid);
* a boolean `items` of 2019-09 evaluates nothing;
* `additionalItems` applies only if the array form of `items` holds and is not empty.

`Verif/Props` relates the two meanings: they give the same verdicts on schemas in which these points
cannot matter.
-/

namespace Jschon.Spec

section
variable (R : Rules) (env : Env) (st : Store) (M : Meaning)

/-- What a keyword other than `unevaluatedProperties` and `unevaluatedItems` evaluates. -/
def ObsEv (sc : List SRef) (kws : List Kw) (v : Value) : Kw → Pt → Prop
  | .properties ps, .name n => KwHolds R env M sc kws v (.properties ps) ∧ ∃ t, (n, t) ∈ ps
  | .patternProperties ps, .name n => KwHolds R env M sc kws v (.patternProperties ps) ∧
      ∃ re t, (re, t) ∈ ps ∧ env.search re n = true
  | .additionalProperties t, .name n => KwHolds R env M sc kws v (.additionalProperties t) ∧
      ¬ Named env kws n
  | .prefixItems ss, .item k => KwHolds R env M sc kws v (.prefixItems ss) ∧ k < ss.length
  | .items t, .item _ => KwHolds R env M sc kws v (.items t) ∧
      ∃ j, j < (elems v).length ∧ BeyondPrefix kws j
  | .contains t, .item k => R.dialect = .d2020 ∧ ∃ x, (elems v)[k]? = some x ∧ M.valid sc t x
  | .items9 t, .item _ => (∃ ks, st.obj t = .obj ks) ∧ KwHolds R env M sc kws v (.items9 t)
  | .items9Array ss, .item k => KwHolds R env M sc kws v (.items9Array ss) ∧ k < ss.length
  | .additionalItems t, .item _ => ∃ ss, Kw.items9Array ss ∈ kws ∧ ss ≠ [] ∧
      KwHolds R env M sc kws v (.items9Array ss) ∧
      KwHolds R env M sc kws v (.additionalItems t) ∧ ss.length < (elems v).length
  | .allOf ss, pt => (∀ t ∈ ss, M.valid sc t v) ∧ ∃ t ∈ ss, M.ev sc t v pt
  | .anyOf ss, pt => ∃ t ∈ ss, M.valid sc t v ∧ M.ev sc t v pt
  | .oneOf ss, pt => KwHolds R env M sc kws v (.oneOf ss) ∧ ∃ t ∈ ss, M.valid sc t v ∧ M.ev sc t v pt
  | .not_ t, pt => ¬ M.valid sc t v ∧ M.ev sc t v pt
  | .if_ t, pt => M.valid sc t v ∧ M.ev sc t v pt
  | .then_ t, pt => (∃ c, Kw.if_ c ∈ kws ∧ M.valid sc c v) ∧ M.valid sc t v ∧ M.ev sc t v pt
  | .else_ t, pt => (∃ c, Kw.if_ c ∈ kws ∧ ¬ M.valid sc c v) ∧ M.valid sc t v ∧ M.ev sc t v pt
  | .dependentSchemas ps, pt => KwHolds R env M sc kws v (.dependentSchemas ps) ∧
      ∃ p ∈ ps, HasMember v p.1 ∧ M.ev sc p.2 v pt
  | .ref t, pt => M.valid sc t v ∧ M.ev sc t v pt
  | .dynamicRef t frag dynamic, pt =>
      M.valid sc (if dynamic then R.dyn sc t frag else t) v ∧
      M.ev sc (if dynamic then R.dyn sc t frag else t) v pt
  | .recursiveRef t, pt => M.valid sc (R.recr sc t) v ∧ M.ev sc (R.recr sc t) v pt
  | _, _ => False

/-- When each keyword passes. -/
def ObsHolds (sc : List SRef) (kws : List Kw) (v : Value) : Kw → Prop
  | .unevaluatedProperties t => ∀ n x, (n, x) ∈ members v →
      (¬ ∃ k ∈ kws, ObsEv R env st M sc kws v k (.name n)) → M.valid sc t x
  | .unevaluatedItems t | .unevaluatedItems9 t => ∀ (k : Nat) x, (elems v)[k]? = some x →
      (¬ ∃ kw ∈ kws, ObsEv R env st M sc kws v kw (.item k)) → M.valid sc t x
  | .items9 t => match st.obj t with
      | .bool _ => elems v ≠ [] → M.valid sc t v
      | .obj _ => KwHolds R env M sc kws v (.items9 t)
  | .additionalItems t => ∀ ss, Kw.items9Array ss ∈ kws → ss ≠ [] →
      KwHolds R env M sc kws v (.items9Array ss) →
      ∀ (k : Nat) x, (elems v)[k]? = some x → ss.length ≤ k → M.valid sc t x
  | k => KwHolds R env M sc kws v k

/-- One unrolling of the meaning that jschon gives to schemas. -/
def obsStep : Meaning where
  valid sc s v := match st.obj s with
    | .bool b => b = true
    | .obj kws => ∀ kw ∈ kws, ObsHolds R env st M (s :: sc) kws v kw
  ev sc s v pt := match st.obj s with
    | .bool _ => False
    | .obj kws => (∃ kw ∈ kws, ObsEv R env st M (s :: sc) kws v kw pt) ∨
        (match pt with
         | .name _ => ∃ t, Kw.unevaluatedProperties t ∈ kws ∧
             ObsHolds R env st M (s :: sc) kws v (.unevaluatedProperties t)
         | .item _ => ∃ t, (Kw.unevaluatedItems t ∈ kws ∨ Kw.unevaluatedItems9 t ∈ kws) ∧
             ObsHolds R env st M (s :: sc) kws v (.unevaluatedItems t))

end

/-- The meaning after `n` unrollings. -/
def obsUnroll (R : Rules) (env : Env) (st : Store) : Nat → Meaning
  | 0 => ⟨fun _ _ _ => False, fun _ _ _ _ => False⟩
  | n + 1 => obsStep R env st (obsUnroll R env st n)

end Jschon.Spec
