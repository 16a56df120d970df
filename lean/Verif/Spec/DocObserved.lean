import Verif.Spec.Document

/-!
# The meaning that jschon gives to schema documents

As in `Verif/Spec/Document.lean`, the schema is the JSON value that was written down; as in
`Verif/Spec/Observed.lean`, the meaning is that of the code, for all documents, whether or not they touch upon
the points at which it differs from the specification:

* a member of a schema counts as evaluated by a keyword if that keyword holds by itself, and so the keywords of
  a schema that is *not* valid still count under `not`;
* `items` of 2020-12 evaluates all items as soon as it applies to one;
* a boolean `items` of 2019-09 evaluates nothing;
* `additionalItems` applies only if the array form of `items` holds and is not empty;
* a base URI that occurs twice in the dynamic scope is considered where it occurs first, innermost;
* the quotient of a multiple has at most 28 digits before the point.
-/

namespace Jschon.Spec

/- The dialect of the documents. -/
variable [dia : Dialect]

/-- `q` is what a dynamic reference with fragment `f` refers to in a dynamic scope (innermost first).  A base URI
that occurs several times in the scope counts only where it occurs first, innermost; of the places that count,
the outermost one with that dynamic anchor is taken. -/
inductive ODyn (L : Links) (f : String) (sc : List Site) (dflt : Site) : Site → Prop
  | found {inner outer p q} : sc = inner ++ p :: outer → L.dyn p.base f q → (∀ a ∈ inner, a.base ≠ p.base) →
      (∀ o1 p' o2, outer = o1 ++ p' :: o2 → ∀ q', L.dyn p'.base f q' →
        ∃ a ∈ inner ++ p :: o1, a.base = p'.base) → ODyn L f sc dflt q
  | none : (∀ p' ∈ sc, ∀ q', ¬ L.dyn p'.base f q') → ODyn L f sc dflt dflt

/-- What `$ref`, `$dynamicRef` or `$recursiveRef` with text `s` refers to in a dynamic scope (innermost first),
where `b` is the base URI. -/
inductive OTarget (lib : UriLib) (L : Links) (sc : List Site) (b : Uri) : String → String → Site → Prop
  | ref {s u} : L.refer b s u → OTarget lib L sc b "$ref" s u
  | static {s u} : dia = .d2020 → L.refer b s u → (∀ f, ¬ Dynamic lib s f u) → OTarget lib L sc b "$dynamicRef" s u
  | dynamic {s f u q} : dia = .d2020 → L.refer b s u → Dynamic lib s f u → ODyn L f sc u q →
      OTarget lib L sc b "$dynamicRef" s q
  | recursive {s u q} : dia = .d2019 → L.refer b s u → DOutermostRec sc u q → OTarget lib L sc b "$recursiveRef" s q

/-- `n` is an integer multiple of `m`, and the quotient has at most 28 digits before the point. -/
def ObsMultiple (dec : Rat → Rat) (n m : Num) : Prop :=
  asWritten dec m ≠ 0 ∧ IsMultiple dec n m ∧ asWritten dec n / asWritten dec m < 10 ^ 28 ∧
    -(10 ^ 28) < asWritten dec n / asWritten dec m

section
variable (env : Env) (enabled : String → Bool) (M : DMeaning) (sc : List Site)
/- `sub` is where the subschemas stand, and `target` is what the references refer to. -/
variable (sub : Value → Site) (target : String → String → Site → Prop)

/-- What the member `(k, w)` of a schema object with the members `kvs` demands of a value, apart from
`unevaluatedProperties` and `unevaluatedItems`. -/
structure OMet (kvs : List (String × Value)) (v : Value) (k : String) (w : Value) : Prop where
  assert : ∀ a, WrittenAs k w a → AssertHolds env (ObsMultiple env.dec) a v
  allOf : k = "allOf" → ∀ ss, w = .arr ss → ∀ t ∈ ss, M.valid sc (sub t) v
  anyOf : k = "anyOf" → ∀ ss, w = .arr ss → ∃ t ∈ ss, M.valid sc (sub t) v
  oneOf : k = "oneOf" → ∀ ss, w = .arr ss → ∃ (j : Nat) (t : Value), ss[j]? = some t ∧ M.valid sc (sub t) v ∧
    ∀ (k : Nat) (u : Value), ss[k]? = some u → M.valid sc (sub u) v → k = j
  not_ : k = "not" → ¬ M.valid sc (sub w) v
  then_ : k = "then" → ∀ c, ("if", c) ∈ kvs → M.valid sc (sub c) v → M.valid sc (sub w) v
  else_ : k = "else" → ∀ c, ("if", c) ∈ kvs → ¬ M.valid sc (sub c) v → M.valid sc (sub w) v
  dependentSchemas : k = "dependentSchemas" → ∀ ps, w = .obj ps → ∀ n t, (n, t) ∈ ps → HasMember v n →
    M.valid sc (sub t) v
  properties : k = "properties" → ∀ ps, w = .obj ps → ∀ n t x, (n, t) ∈ ps → (n, x) ∈ members v →
    M.valid sc (sub t) x
  patternProperties : k = "patternProperties" → ∀ ps, w = .obj ps → ∀ re t n x, (re, t) ∈ ps →
    (n, x) ∈ members v → env.search re n = true → M.valid sc (sub t) x
  additionalProperties : k = "additionalProperties" → ∀ n x, (n, x) ∈ members v → ¬ DNamed env kvs n →
    M.valid sc (sub w) x
  propertyNames : k = "propertyNames" → ∀ n, HasMember v n → M.valid sc (sub w) (.str n)
  prefixItems : k = "prefixItems" → dia = .d2020 → ∀ ss, w = .arr ss → ∀ (j : Nat) t x, ss[j]? = some t →
    (elems v)[j]? = some x → M.valid sc (sub t) x
  items : k = "items" → dia = .d2020 → ∀ (j : Nat) x, (elems v)[j]? = some x → DBeyond kvs j →
    M.valid sc (sub w) x
  itemsBool : k = "items" → dia = .d2019 → ∀ b, w = .bool b → elems v ≠ [] → M.valid sc (sub w) v
  itemsAll : k = "items" → dia = .d2019 → ∀ ms, w = .obj ms → ∀ x ∈ elems v, M.valid sc (sub w) x
  itemsEach : k = "items" → dia = .d2019 → ∀ ss, w = .arr ss → ∀ (j : Nat) t x, ss[j]? = some t →
    (elems v)[j]? = some x → M.valid sc (sub t) x
  additionalItems : k = "additionalItems" → dia = .d2019 → ∀ ss, ("items", .arr ss) ∈ kvs → ss ≠ [] →
    (∀ (j : Nat) t x, ss[j]? = some t → (elems v)[j]? = some x → M.valid sc (sub t) x) →
    ∀ (j : Nat) x, (elems v)[j]? = some x → ss.length ≤ j → M.valid sc (sub w) x
  contains : k = "contains" → (∃ xs, v = .arr xs) → (∀ m, ("minContains", m) ∉ kvs) → 1 ≤ dmatching M sc (sub w) v
  minContains : k = "minContains" → ∀ m t, w = .num m → ("contains", t) ∈ kvs → (∃ xs, v = .arr xs) →
    m.val ≤ (dmatching M sc (sub t) v : Rat)
  maxContains : k = "maxContains" → ∀ m t, w = .num m → ("contains", t) ∈ kvs → (∃ xs, v = .arr xs) →
    (dmatching M sc (sub t) v : Rat) ≤ m.val
  ref : ∀ s u, w = .str s → target k s u → M.valid sc u v
  format : k = "format" → ∀ a, w = .str a → enabled a = true → v.type ∈ env.fmtTypes a → env.fmtOk a v = true

/-- A keyword of the schema, other than `unevaluatedProperties` and `unevaluatedItems`, evaluates the
member or item. -/
inductive OEv (kvs : List (String × Value)) (v : Value) : Pt → Prop
  | properties {ps n t} : ("properties", .obj ps) ∈ kvs →
      OMet env enabled M sc sub target kvs v "properties" (.obj ps) → (n, t) ∈ ps → OEv kvs v (.name n)
  | patternProperties {ps n re t} : ("patternProperties", .obj ps) ∈ kvs →
      OMet env enabled M sc sub target kvs v "patternProperties" (.obj ps) → (re, t) ∈ ps →
      env.search re n = true → OEv kvs v (.name n)
  | additionalProperties {t n} : ("additionalProperties", t) ∈ kvs →
      OMet env enabled M sc sub target kvs v "additionalProperties" t → ¬ DNamed env kvs n → OEv kvs v (.name n)
  | prefixItems {ss k} : dia = .d2020 → ("prefixItems", .arr ss) ∈ kvs →
      OMet env enabled M sc sub target kvs v "prefixItems" (.arr ss) → k < ss.length → OEv kvs v (.item k)
  | items {t j k} : dia = .d2020 → ("items", t) ∈ kvs → OMet env enabled M sc sub target kvs v "items" t →
      j < (elems v).length → DBeyond kvs j → OEv kvs v (.item k)
  | contains {t x} {k : Nat} : dia = .d2020 → ("contains", t) ∈ kvs → (elems v)[k]? = some x →
      M.valid sc (sub t) x → OEv kvs v (.item k)
  | itemsAll {ms k} : dia = .d2019 → ("items", .obj ms) ∈ kvs →
      OMet env enabled M sc sub target kvs v "items" (.obj ms) → OEv kvs v (.item k)
  | itemsEach {ss k} : dia = .d2019 → ("items", .arr ss) ∈ kvs →
      OMet env enabled M sc sub target kvs v "items" (.arr ss) → k < ss.length → OEv kvs v (.item k)
  | additionalItems {t ss k} : dia = .d2019 → ("additionalItems", t) ∈ kvs → ("items", .arr ss) ∈ kvs → ss ≠ [] →
      OMet env enabled M sc sub target kvs v "items" (.arr ss) →
      OMet env enabled M sc sub target kvs v "additionalItems" t → ss.length < (elems v).length → OEv kvs v (.item k)
  | allOf {ss t pt} : ("allOf", .arr ss) ∈ kvs → OMet env enabled M sc sub target kvs v "allOf" (.arr ss) → t ∈ ss →
      M.ev sc (sub t) v pt → OEv kvs v pt
  | anyOf {ss t pt} : ("anyOf", .arr ss) ∈ kvs → t ∈ ss → M.valid sc (sub t) v → M.ev sc (sub t) v pt → OEv kvs v pt
  | oneOf {ss t pt} : ("oneOf", .arr ss) ∈ kvs → OMet env enabled M sc sub target kvs v "oneOf" (.arr ss) → t ∈ ss →
      M.valid sc (sub t) v → M.ev sc (sub t) v pt → OEv kvs v pt
  | not_ {t pt} : ("not", t) ∈ kvs → ¬ M.valid sc (sub t) v → M.ev sc (sub t) v pt → OEv kvs v pt
  | if_ {t pt} : ("if", t) ∈ kvs → M.valid sc (sub t) v → M.ev sc (sub t) v pt → OEv kvs v pt
  | then_ {c t pt} : ("then", t) ∈ kvs → ("if", c) ∈ kvs → M.valid sc (sub c) v → M.valid sc (sub t) v →
      M.ev sc (sub t) v pt → OEv kvs v pt
  | else_ {c t pt} : ("else", t) ∈ kvs → ("if", c) ∈ kvs → ¬ M.valid sc (sub c) v → M.valid sc (sub t) v →
      M.ev sc (sub t) v pt → OEv kvs v pt
  | dependentSchemas {ps n t pt} : ("dependentSchemas", .obj ps) ∈ kvs →
      OMet env enabled M sc sub target kvs v "dependentSchemas" (.obj ps) → (n, t) ∈ ps → HasMember v n →
      M.ev sc (sub t) v pt → OEv kvs v pt
  | ref {k s u pt} : (k, .str s) ∈ kvs → target k s u → M.valid sc u v → M.ev sc u v pt → OEv kvs v pt

/-- What the member `(k, w)` of a schema object with the members `kvs` demands of a value. -/
structure OHolds (kvs : List (String × Value)) (v : Value) (k : String) (w : Value) : Prop
    extends OMet env enabled M sc sub target kvs v k w where
  unevaluatedProperties : k = "unevaluatedProperties" → ∀ n x, (n, x) ∈ members v →
    ¬ OEv env enabled M sc sub target kvs v (.name n) → M.valid sc (sub w) x
  unevaluatedItems : k = "unevaluatedItems" → ∀ (j : Nat) x, (elems v)[j]? = some x →
    ¬ OEv env enabled M sc sub target kvs v (.item j) → M.valid sc (sub w) x

end

section
variable (lib : UriLib) (env : Env) (enabled : String → Bool) (L : Links)

/-- The member `(k, w)` of the schema `p`, which has the members `kvs`, is met by the value. -/
abbrev OMember (M : DMeaning) (sc : List Site) (p : Site) (kvs : List (String × Value)) (v : Value) (k : String)
    (w : Value) : Prop :=
  OHolds env enabled M (p :: sc) (site lib p.base) (OTarget lib L (p :: sc) p.base) kvs v k w

/-- One unrolling. -/
def ostep (M : DMeaning) : DMeaning where
  valid sc p v := match p.schema with
    | .bool b => b = true
    | .obj kvs => ∀ k w, (k, w) ∈ kvs → OMember lib env enabled L M sc p kvs v k w
    | _ => False
  ev sc p v pt := match p.schema with
    | .obj kvs => OEv env enabled M (p :: sc) (site lib p.base) (OTarget lib L (p :: sc) p.base) kvs v pt ∨
        (match pt with
         | .name _ => ∃ t, ("unevaluatedProperties", t) ∈ kvs ∧
             OMember lib env enabled L M sc p kvs v "unevaluatedProperties" t
         | .item _ => ∃ t, ("unevaluatedItems", t) ∈ kvs ∧
             OMember lib env enabled L M sc p kvs v "unevaluatedItems" t)
    | _ => False

/-- The meaning after `n` unrollings. -/
def ounroll : Nat → DMeaning
  | 0 => ⟨fun _ _ _ => False, fun _ _ _ _ => False⟩
  | n + 1 => ostep lib env enabled L (ounroll n)

/-- The code is to find the value valid: so it is after every sufficiently long unrolling. -/
def OAccepts (p : Site) (v : Value) : Prop := ∃ n, ∀ m, n ≤ m → (ounroll lib env enabled L m).valid [] p v

/-- The code is to find the value invalid: so it is after every sufficiently long unrolling. -/
def ORejects (p : Site) (v : Value) : Prop := ∃ n, ∀ m, n ≤ m → ¬ (ounroll lib env enabled L m).valid [] p v

end
end Jschon.Spec
