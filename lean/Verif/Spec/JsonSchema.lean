import Verif.Model.Schema
import Verif.Spec.Dialect
import Verif.Spec.Value

/-!
# The meaning of schemas

What a schema says about a value, as the JSON Schema specifications put it: keyword by keyword, as
propositions, with no evaluation order, no result objects and no state.  From the model only the
abstract syntax of schemas (`Kw`, `SchemaObj`, `Store`) is used.

A schema may refer to itself, so the meaning is given by unrolling: `unroll n` is right for every
schema and value for which `n` nested subschema applications suffice.
-/

namespace Jschon.Spec

/-- The items of an array, and nothing for another value. -/
def elems : Value → List Value
  | .arr xs => xs
  | _ => []

/-- The members of an object, and nothing for another value. -/
def members : Value → List (String × Value)
  | .obj kvs => kvs
  | _ => []

/-- The object has a member of that name. -/
def HasMember (v : Value) (name : String) : Prop := ∃ x, (name, x) ∈ members v

/-! ## Assertions -/

/-- The value is of the type that a `type` keyword names. -/
def HasType (v : Value) : String → Prop
  | "null" => v = .null
  | "boolean" => ∃ b, v = .bool b
  | "number" => ∃ n, v = .num n
  | "integer" => ∃ n, v = .num n ∧ ∃ z : Int, n.val = z
  | "string" => ∃ s, v = .str s
  | "array" => ∃ xs, v = .arr xs
  | "object" => ∃ kvs, v = .obj kvs
  | _ => False

/-- The number as written: an integer, or the decimal text of a float (`dec` gives the value of the
text). -/
def asWritten (dec : Rat → Rat) : Num → Rat
  | .int z => z
  | .flt q => dec q

/-- `n` is an integer multiple of `m`. -/
def IsMultiple (dec : Rat → Rat) (n m : Num) : Prop :=
  ∃ k : Int, asWritten dec n = k * asWritten dec m

/-- What each assertion keyword demands.  `mult n m` is the meaning of "multiple of". -/
def AssertHolds (env : Env) (mult : Num → Num → Prop) : Assertion → Value → Prop
  | .type_ types, v => ∃ t ∈ types, HasType v t
  | .enum ws, v => ∃ w ∈ ws, Same v w
  | .const w, v => Same v w
  | .multipleOf m, v => ∀ n, v = .num n → mult n m
  | .maximum m, v => ∀ n, v = .num n → n.val ≤ m.val
  | .exclusiveMaximum m, v => ∀ n, v = .num n → n.val < m.val
  | .minimum m, v => ∀ n, v = .num n → m.val ≤ n.val
  | .exclusiveMinimum m, v => ∀ n, v = .num n → m.val < n.val
  | .maxLength m, v => ∀ s, v = .str s → (s.length : Rat) ≤ m.val
  | .minLength m, v => ∀ s, v = .str s → m.val ≤ (s.length : Rat)
  | .pattern re, v => ∀ s, v = .str s → env.search re s = true
  | .maxItems m, v => ∀ xs, v = .arr xs → (xs.length : Rat) ≤ m.val
  | .minItems m, v => ∀ xs, v = .arr xs → m.val ≤ (xs.length : Rat)
  | .uniqueItems b, v => b = true → ∀ xs, v = .arr xs →
      ∀ (j k : Nat) x y, j < k → xs[j]? = some x → xs[k]? = some y → ¬ Same x y
  | .maxProperties m, v => ∀ kvs, v = .obj kvs → (kvs.length : Rat) ≤ m.val
  | .minProperties m, v => ∀ kvs, v = .obj kvs → m.val ≤ (kvs.length : Rat)
  | .required names, v => ∀ kvs, v = .obj kvs → ∀ name ∈ names, HasMember v name
  | .dependentRequired ps, v => ∀ kvs, v = .obj kvs →
      ∀ p ∈ ps, HasMember v p.1 → ∀ name ∈ p.2, HasMember v name

/-! ## Applicators -/

/-- A member (by name) or an item (by index) of the instance. -/
inductive Pt where
  | name (n : String)
  | item (k : Nat)

/-- The instance has this member or item. -/
def Pt.In (v : Value) : Pt → Prop
  | .name n => HasMember v n
  | .item k => k < (elems v).length

/-- The meaning of all schemas: whether a value is valid against a schema, and whether a schema
evaluates a member or item of the value it is applied to.  The first argument is the dynamic scope,
the schemas entered so far, innermost first. -/
structure Meaning where
  valid : List SRef → SRef → Value → Prop
  ev : List SRef → SRef → Value → Pt → Prop

/-- What the dialects, and jschon, disagree about. -/
structure Rules where
  /-- Whether `contains` counts as evaluating the items that match (2020-12). -/
  dialect : Dialect
  /-- The meaning of "multiple of". -/
  mult : Num → Num → Prop
  /-- The schema that a dynamic `$dynamicRef` refers to, given the dynamic scope, the schema it
  refers to statically and the fragment. -/
  dyn : List SRef → SRef → String → SRef
  /-- The schema that a `$recursiveRef` refers to, given the dynamic scope and the schema it refers to
  statically. -/
  recr : List SRef → SRef → SRef

open Classical in
/-- The number of items valid against a schema. -/
noncomputable def matching (M : Meaning) (sc : List SRef) (t : SRef) (v : Value) : Nat :=
  (elems v).countP (fun x => decide (M.valid sc t x))

/-- `properties` and `patternProperties` among the keywords that apply to a name. -/
def Named (env : Env) (kws : List Kw) (name : String) : Prop :=
  (∃ ps t, Kw.properties ps ∈ kws ∧ (name, t) ∈ ps) ∨
  (∃ ps re t, Kw.patternProperties ps ∈ kws ∧ (re, t) ∈ ps ∧ env.search re name = true)

/-- The item is beyond `prefixItems`, if that keyword is present. -/
def BeyondPrefix (kws : List Kw) (k : Nat) : Prop :=
  ∀ ss, Kw.prefixItems ss ∈ kws → ss.length ≤ k

section
variable (R : Rules) (env : Env) (M : Meaning)

/-- Whether a keyword, in a schema with keywords `kws`, evaluates a member or item of `v`, supposing
that the schema is valid.  `unevaluatedProperties` and `unevaluatedItems` are treated in `step`. -/
def KwEv (sc : List SRef) (kws : List Kw) (v : Value) : Kw → Pt → Prop
  | .properties ps, .name n => ∃ t, (n, t) ∈ ps
  | .patternProperties ps, .name n => ∃ re t, (re, t) ∈ ps ∧ env.search re n = true
  | .additionalProperties _, .name n => ¬ Named env kws n
  | .prefixItems ss, .item k => k < ss.length
  | .items _, .item k => BeyondPrefix kws k
  | .contains t, .item k => R.dialect = .d2020 ∧ ∃ x, (elems v)[k]? = some x ∧ M.valid sc t x
  | .items9 _, .item _ => True
  | .items9Array ss, .item k => k < ss.length
  | .additionalItems _, .item k => ∃ ss, Kw.items9Array ss ∈ kws ∧ ss.length ≤ k
  | .allOf ss, pt => ∃ t ∈ ss, M.valid sc t v ∧ M.ev sc t v pt
  | .anyOf ss, pt => ∃ t ∈ ss, M.valid sc t v ∧ M.ev sc t v pt
  | .oneOf ss, pt => ∃ t ∈ ss, M.valid sc t v ∧ M.ev sc t v pt
  | .if_ t, pt => M.valid sc t v ∧ M.ev sc t v pt
  | .then_ t, pt => (∃ c, Kw.if_ c ∈ kws ∧ M.valid sc c v) ∧ M.valid sc t v ∧ M.ev sc t v pt
  | .else_ t, pt => (∃ c, Kw.if_ c ∈ kws ∧ ¬ M.valid sc c v) ∧ M.valid sc t v ∧ M.ev sc t v pt
  | .dependentSchemas ps, pt =>
      ∃ p ∈ ps, HasMember v p.1 ∧ M.valid sc p.2 v ∧ M.ev sc p.2 v pt
  | .ref t, pt => M.valid sc t v ∧ M.ev sc t v pt
  | .dynamicRef t frag dynamic, pt =>
      M.valid sc (if dynamic then R.dyn sc t frag else t) v ∧
      M.ev sc (if dynamic then R.dyn sc t frag else t) v pt
  | .recursiveRef t, pt => M.valid sc (R.recr sc t) v ∧ M.ev sc (R.recr sc t) v pt
  | _, _ => False

/-- What each keyword demands of `v`, in a schema with keywords `kws`. -/
def KwHolds (sc : List SRef) (kws : List Kw) (v : Value) : Kw → Prop
  | .assert a => AssertHolds env R.mult a v
  | .allOf ss => ∀ t ∈ ss, M.valid sc t v
  | .anyOf ss => ∃ t ∈ ss, M.valid sc t v
  | .oneOf ss => ∃ (j : Nat) (t : SRef), ss[j]? = some t ∧ M.valid sc t v ∧
      ∀ (k : Nat) (u : SRef), ss[k]? = some u → M.valid sc u v → k = j
  | .not_ t => ¬ M.valid sc t v
  | .if_ _ => True
  | .then_ t => ∀ c, Kw.if_ c ∈ kws → M.valid sc c v → M.valid sc t v
  | .else_ t => ∀ c, Kw.if_ c ∈ kws → ¬ M.valid sc c v → M.valid sc t v
  | .dependentSchemas ps => ∀ p ∈ ps, HasMember v p.1 → M.valid sc p.2 v
  | .properties ps => ∀ n t x, (n, t) ∈ ps → (n, x) ∈ members v → M.valid sc t x
  | .patternProperties ps => ∀ re t n x, (re, t) ∈ ps → (n, x) ∈ members v →
      env.search re n = true → M.valid sc t x
  | .additionalProperties t => ∀ n x, (n, x) ∈ members v → ¬ Named env kws n → M.valid sc t x
  | .propertyNames t => ∀ n, HasMember v n → M.valid sc t (.str n)
  | .unevaluatedProperties t => ∀ n x, (n, x) ∈ members v →
      (¬ ∃ k ∈ kws, KwEv R env M sc kws v k (.name n)) → M.valid sc t x
  | .prefixItems ss => ∀ (k : Nat) t x, ss[k]? = some t → (elems v)[k]? = some x → M.valid sc t x
  | .items t => ∀ (k : Nat) x, (elems v)[k]? = some x → BeyondPrefix kws k → M.valid sc t x
  | .contains t => (∃ xs, v = .arr xs) → (∀ m, Kw.minContains m ∉ kws) → 1 ≤ matching M sc t v
  | .minContains m => (∃ xs, v = .arr xs) → ∀ t, Kw.contains t ∈ kws →
      m.val ≤ (matching M sc t v : Rat)
  | .maxContains m => (∃ xs, v = .arr xs) → ∀ t, Kw.contains t ∈ kws →
      (matching M sc t v : Rat) ≤ m.val
  | .unevaluatedItems t | .unevaluatedItems9 t => ∀ (k : Nat) x, (elems v)[k]? = some x →
      (¬ ∃ kw ∈ kws, KwEv R env M sc kws v kw (.item k)) → M.valid sc t x
  | .items9 t => ∀ x ∈ elems v, M.valid sc t x
  | .items9Array ss => ∀ (k : Nat) t x, ss[k]? = some t → (elems v)[k]? = some x → M.valid sc t x
  | .additionalItems t => ∀ ss, Kw.items9Array ss ∈ kws →
      ∀ (k : Nat) x, (elems v)[k]? = some x → ss.length ≤ k → M.valid sc t x
  | .ref t => M.valid sc t v
  | .dynamicRef t frag dynamic => M.valid sc (if dynamic then R.dyn sc t frag else t) v
  | .recursiveRef t => M.valid sc (R.recr sc t) v
  | .format attr enabled => enabled = true → v.type ∈ env.fmtTypes attr → env.fmtOk attr v = true
  | .static _ _ | .annot _ _ _ | .contentSchema _ | .unknown _ _ => True

/-- One unrolling: a value is valid against an object schema iff each keyword holds; the schema
evaluates what a keyword evaluates, and with `unevaluatedProperties` (`unevaluatedItems`) all members
(items). -/
def step (st : Store) : Meaning where
  valid sc s v := match st.obj s with
    | .bool b => b = true
    | .obj kws => ∀ kw ∈ kws, KwHolds R env M (s :: sc) kws v kw
  ev sc s v pt := match st.obj s with
    | .bool _ => False
    | .obj kws => (∃ kw ∈ kws, KwEv R env M (s :: sc) kws v kw pt) ∨
        (match pt with
         | .name _ => ∃ t, Kw.unevaluatedProperties t ∈ kws
         | .item _ => ∃ t, Kw.unevaluatedItems t ∈ kws ∨ Kw.unevaluatedItems9 t ∈ kws)

end

/-- The meaning after `n` unrollings. -/
def unroll (R : Rules) (env : Env) (st : Store) : Nat → Meaning
  | 0 => ⟨fun _ _ _ => False, fun _ _ _ _ => False⟩
  | n + 1 => step R env (unroll R env st n) st

/-- The value is valid against the schema: so it is after every sufficiently long unrolling. -/
def Accepts (R : Rules) (env : Env) (st : Store) (s : SRef) (v : Value) : Prop :=
  ∃ n, ∀ m, n ≤ m → (unroll R env st m).valid [] s v

/-- The value is invalid against the schema: so it is after every sufficiently long unrolling. -/
def Rejects (R : Rules) (env : Env) (st : Store) (s : SRef) (v : Value) : Prop :=
  ∃ n, ∀ m, n ≤ m → ¬ (unroll R env st m).valid [] s v

/-! ## Dynamic references -/

/-- The schema resource with base URI `b` has a dynamic anchor of that name, at schema `t`. -/
def DynAnchor (st : Store) (b frag : String) (t : SRef) : Prop :=
  st.lookup b frag = some t ∧ frag ≠ "" ∧
    (st.obj t).getStatic "$dynamicAnchor" = some (.str frag)

/-- `t` is the schema with the dynamic anchor `frag` in the outermost schema resource of the dynamic
scope that has one, or `dflt` if none has one. -/
inductive Outermost (st : Store) (frag : String) (sc : List SRef) (dflt : SRef) : SRef → Prop
  | found {inner outer s b t} : sc = inner ++ s :: outer → st.base s = some b →
      DynAnchor st b frag t →
      (∀ s' ∈ outer, ∀ b', st.base s' = some b' → ∀ t', ¬ DynAnchor st b' frag t') →
      Outermost st frag sc dflt t
  | none : (∀ s' ∈ sc, ∀ b', st.base s' = some b' → ∀ t', ¬ DynAnchor st b' frag t') →
      Outermost st frag sc dflt dflt

/-- The schema has `"$recursiveAnchor": true`. -/
def RecAnchor (st : Store) (s : SRef) : Prop :=
  (st.obj s).getStatic "$recursiveAnchor" = some (.bool true)

/-- What a `$recursiveRef` to `dflt` denotes: `dflt` unless that has a recursive anchor, in which case
it is the outermost schema of the dynamic scope with a recursive anchor. -/
inductive OutermostRec (st : Store) (sc : List SRef) (dflt : SRef) : SRef → Prop
  | static : ¬ RecAnchor st dflt → OutermostRec st sc dflt dflt
  | found {inner outer s} : RecAnchor st dflt → sc = inner ++ s :: outer → RecAnchor st s →
      (∀ s' ∈ outer, ¬ RecAnchor st s') → OutermostRec st sc dflt s
  | none : RecAnchor st dflt → (∀ s' ∈ sc, ¬ RecAnchor st s') → OutermostRec st sc dflt dflt

end Jschon.Spec
