import Verif.Spec.JsonSchema
import Verif.Spec.Pointer
import Verif.Spec.Constructible
import Verif.Spec.Uri

/-!
# The meaning of schema documents

What a schema says about a value, with the schema given as the JSON value that was written down: no
schema objects, no construction, no resolved references.  A schema may refer to a part of its document
and so to itself, and the meaning is given by unrolling, as in `Verif/Spec/JsonSchema.lean`.

The documents considered are those of one dialect, 2019-09 or 2020-12, in which `$schema` occurs at most at
the root.  They may contain embedded schema resources (`$id`), anchors and dynamic or recursive anchors, and
references of all kinds to any schema of the documents considered.
-/

namespace Jschon.Spec

/- The dialect of the documents. -/
variable [dia : Dialect]

/-! ## Keywords by the form of their values -/

/-- Keywords whose value is a schema. -/
def oneKeys : List String :=
  ["not", "if", "then", "else", "contains", "additionalProperties", "propertyNames", "unevaluatedItems",
   "unevaluatedProperties"] ++
  match dia with
  | .d2019 => ["additionalItems"]
  | .d2020 => ["items"]

/-- Keywords whose value is an array of schemas. -/
def manyKeys : List String :=
  ["allOf", "anyOf", "oneOf"] ++
  match dia with
  | .d2019 => []
  | .d2020 => ["prefixItems"]

/-- Keywords whose value is a schema or an array of schemas. -/
def eitherKeys : List String :=
  match dia with
  | .d2019 => ["items"]
  | .d2020 => []

/-- The value `u` of the keyword is to be a schema. -/
def OneKey (k : String) (u : Value) : Prop := k ∈ oneKeys ∨ k ∈ eitherKeys ∧ ∀ us, u ≠ .arr us

/-- The value of the keyword, which is an array, is to be one of schemas. -/
def ManyKey (k : String) : Prop := k ∈ manyKeys ∨ k ∈ eitherKeys

/-- Keywords whose value is an object with schemas as members. -/
def namedKeys : List String := ["$defs", "dependentSchemas", "properties", "patternProperties"]

/-- Keywords that say nothing about validity. -/
def noteKeys : List String :=
  ["$comment", "title", "description", "default", "deprecated", "readOnly", "writeOnly", "examples",
   "contentMediaType", "contentEncoding", "contentSchema"]

/-- The names that the dialect defines. -/
def definedNames : List String :=
  oneKeys ++ manyKeys ++ eitherKeys ++ namedKeys ++ noteKeys ++
  ["type", "enum", "const", "multipleOf", "maximum", "exclusiveMaximum", "minimum", "exclusiveMinimum",
   "maxLength", "minLength", "pattern", "maxItems", "minItems", "uniqueItems", "maxProperties",
   "minProperties", "required", "dependentRequired", "maxContains", "minContains", "format", "$ref",
   "$schema", "$vocabulary", "$id", "$anchor"] ++
  match dia with
  | .d2019 => ["$recursiveRef", "$recursiveAnchor"]
  | .d2020 => ["$dynamicRef", "$dynamicAnchor"]

/-- How an assertion is written. -/
inductive WrittenAs : String → Value → Assertion → Prop
  | type {t} : WrittenAs "type" (.str t) (.type_ [t])
  | types {ts : List String} : WrittenAs "type" (.arr (ts.map .str)) (.type_ ts)
  | enum {vs} : WrittenAs "enum" (.arr vs) (.enum vs)
  | const {v} : WrittenAs "const" v (.const v)
  | multipleOf {m} : WrittenAs "multipleOf" (.num m) (.multipleOf m)
  | maximum {m} : WrittenAs "maximum" (.num m) (.maximum m)
  | exclusiveMaximum {m} : WrittenAs "exclusiveMaximum" (.num m) (.exclusiveMaximum m)
  | minimum {m} : WrittenAs "minimum" (.num m) (.minimum m)
  | exclusiveMinimum {m} : WrittenAs "exclusiveMinimum" (.num m) (.exclusiveMinimum m)
  | maxLength {m} : WrittenAs "maxLength" (.num m) (.maxLength m)
  | minLength {m} : WrittenAs "minLength" (.num m) (.minLength m)
  | pattern {re} : WrittenAs "pattern" (.str re) (.pattern re)
  | maxItems {m} : WrittenAs "maxItems" (.num m) (.maxItems m)
  | minItems {m} : WrittenAs "minItems" (.num m) (.minItems m)
  | uniqueItems {b} : WrittenAs "uniqueItems" (.bool b) (.uniqueItems b)
  | maxProperties {m} : WrittenAs "maxProperties" (.num m) (.maxProperties m)
  | minProperties {m} : WrittenAs "minProperties" (.num m) (.minProperties m)
  | required {ns : List String} : WrittenAs "required" (.arr (ns.map .str)) (.required ns)
  | dependentRequired {ps : List (String × List String)} :
      WrittenAs "dependentRequired" (.obj (ps.map fun p => (p.1, .arr (p.2.map .str)))) (.dependentRequired ps)

/-! ## Places -/

/-- A schema in its place: the base URI in it, and what is written there. -/
structure Site where
  base : Uri
  schema : Value

/-- The schema is an object with this member. -/
def Site.Has (p : Site) (k : String) (v : Value) : Prop := ∃ kvs, p.schema = .obj kvs ∧ (k, v) ∈ kvs

/-- The base URI in a schema that is written where `b` is the base URI (JSON Schema Core, 8.2.1). -/
def ownBase (lib : UriLib) (b : Uri) : Value → Uri
  | .obj kvs =>
    match dlookup "$id" kvs with
    | some (.str t) =>
      if lib.isAbsolute (lib.ofText t) then lib.ofText t else (lib.resolve (lib.ofText t) b).getD b
    | _ => b
  | _ => b

/-- The schema `v`, written where `b` is the base URI. -/
def site (lib : UriLib) (b : Uri) (v : Value) : Site := ⟨ownBase lib b v, v⟩

/-- The subschema of a schema at the end of a path. -/
inductive Stands (lib : UriLib) : Site → List String → Site → Prop
  | here {p} : Stands lib p [] p
  | one {b kvs k u ks q} : OneKey k u → (k, u) ∈ kvs → Stands lib (site lib b u) ks q →
      Stands lib ⟨b, .obj kvs⟩ (k :: ks) q
  | many {b kvs k us} {i : Nat} {u ks q} : ManyKey k → (k, .arr us) ∈ kvs → us[i]? = some u →
      Stands lib (site lib b u) ks q → Stands lib ⟨b, .obj kvs⟩ (k :: toString i :: ks) q
  | named {b kvs k ms n u ks q} : k ∈ namedKeys → (k, .obj ms) ∈ kvs → (n, u) ∈ ms →
      Stands lib (site lib b u) ks q → Stands lib ⟨b, .obj kvs⟩ (k :: n :: ks) q

/-- The schema at the end of a path in the `i`-th document. -/
def Located (lib : UriLib) (roots : List Site) (i : Nat) (ks : List String) (q : Site) : Prop :=
  ∃ p, roots[i]? = some p ∧ Stands lib p ks q

/-- It is a schema resource: a document, or a schema with `$id`. -/
def Resource (lib : UriLib) (roots : List Site) (i : Nat) (ks : List String) (q : Site) : Prop :=
  Located lib roots i ks q ∧ (ks = [] ∨ ∃ t, q.Has "$id" (.str t))

/-- The schema has an anchor of that name, of either kind. -/
def Anchored (q : Site) (f : String) : Prop :=
  q.Has "$anchor" (.str f) ∨ dia = .d2020 ∧ q.Has "$dynamicAnchor" (.str f)

/-! ## References -/

/-- A hexadecimal digit. -/
def hexDigit (n : Nat) : Char := "0123456789ABCDEF".toList.getD n '0'

/-- `pct-encoded` of RFC 3986. -/
def pctByte (b : Nat) : List Char := ['%', hexDigit (b / 16), hexDigit (b % 16)]

/-- The first text is a fragment that stands for the second: characters are written as they are, if the
syntax of fragments allows it, or as the percent-encoded bytes of their UTF-8 encoding. -/
inductive PctText : List Char → List Char → Prop
  | nil : PctText [] []
  | plain {c e p} : Unreserved c ∨ SubDelim c ∨ c ∈ [':', '@', '/', '?'] → PctText e p →
      PctText (c :: e) (c :: p)
  | coded {c e p} : PctText e p → PctText ((utf8EncNat c.toNat).flatMap pctByte ++ e) (c :: p)

/-- A name of the form that `$anchor` and `$dynamicAnchor` demand: a letter or `_`, followed by letters,
digits, `-`, `.` and `_` (JSON Schema Core, 8.2.2). -/
def AnchorText (t : String) : Prop :=
  ∃ c cs, t.toList = c :: cs ∧ (('a' ≤ c ∧ c ≤ 'z') ∨ ('A' ≤ c ∧ c ≤ 'Z') ∨ c = '_') ∧
    ∀ d ∈ cs, ('a' ≤ d ∧ d ≤ 'z') ∨ ('A' ≤ d ∧ d ≤ 'Z') ∨ ('0' ≤ d ∧ d ≤ '9') ∨ d = '-' ∨ d = '.' ∨ d = '_'

/-- The URI `r` that a reference `t` means where `b` is the base URI. -/
def RefUri (lib : UriLib) (b : Uri) (t : String) (r : Uri) : Prop :=
  (lib.isAbsolute (lib.ofText t).noFragment = true ∧ r = lib.ofText t) ∨
  (lib.isAbsolute (lib.ofText t).noFragment = false ∧ lib.resolve (lib.ofText t) b = some r)

/-- The schema that a URI is for: the fragment stands for a JSON pointer relative to the schema resource
with that base URI, or is the name of an anchor in it. -/
inductive Denotes (lib : UriLib) (roots : List Site) (r : Uri) : Site → Prop
  | pointer {i ks p ks' q} : Resource lib roots i ks p → p.base = r.noFragment →
      PctText (r.fragment.getD "").toList (textOf ks') → Stands lib p ks' q → Denotes lib roots r q
  | anchor {i ks q f} : Located lib roots i ks q → q.base = r.noFragment → r.fragment = some f →
      Anchored q f → Denotes lib roots r q

/-- The schemas considered, and how they refer to each other: what a reference refers to where `b` is the
base URI, and which schema has a dynamic anchor of a name in the resource with a given base URI. -/
structure Links where
  sites : Site → Prop
  refer : Uri → String → Site → Prop
  dyn : Uri → String → Site → Prop

/-- The links between the schemas of documents. -/
def links (lib : UriLib) (roots : List Site) : Links where
  sites q := ∃ i ks, Located lib roots i ks q
  refer b t q := ∃ r, RefUri lib b t r ∧ Denotes lib roots r q
  dyn b f q := (∃ i ks, Located lib roots i ks q) ∧ q.base = b ∧ dia = .d2020 ∧
    q.Has "$dynamicAnchor" (.str f)

/-- No two resources have the same URI, and no two schemas of a resource have anchors of the same name. -/
structure UniqueNames (lib : UriLib) (roots : List Site) : Prop where
  resource : ∀ i ks p j ls q, Resource lib roots i ks p → Resource lib roots j ls q → p.base = q.base →
    i = j ∧ ks = ls
  anchor : ∀ i ks p j ls q f, Located lib roots i ks p → Located lib roots j ls q → p.base = q.base →
    Anchored p f → Anchored q f → i = j ∧ ks = ls

/-- `q` is the schema with the dynamic anchor `f` in the outermost schema resource of the dynamic scope that
has one, or `dflt` if none has one (JSON Schema Core, 8.2.3.2). -/
inductive DOutermost (L : Links) (f : String) (sc : List Site) (dflt : Site) : Site → Prop
  | found {inner outer p q} : sc = inner ++ p :: outer → L.dyn p.base f q →
      (∀ p' ∈ outer, ∀ q', ¬ L.dyn p'.base f q') → DOutermost L f sc dflt q
  | none : (∀ p' ∈ sc, ∀ q', ¬ L.dyn p'.base f q') → DOutermost L f sc dflt dflt

/-- `$dynamicRef` with text `s`, which refers to `u` at first, is dynamic: it refers to a dynamic anchor. -/
def Dynamic (lib : UriLib) (s f : String) (u : Site) : Prop :=
  (lib.ofText s).fragment = some f ∧ u.Has "$dynamicAnchor" (.str f)

/-- The schema has a recursive anchor. -/
def Site.Recursive (p : Site) : Prop := p.Has "$recursiveAnchor" (.bool true)

/-- `q` is what `$recursiveRef` refers to in a dynamic scope, if it refers to `u` at first: that is `u` itself
unless `u` has a recursive anchor, in which case it is the outermost schema of the dynamic scope that has one
(JSON Schema Core 2019-09, 8.2.4.2). -/
inductive DOutermostRec (sc : List Site) (u : Site) : Site → Prop
  | static : ¬ u.Recursive → DOutermostRec sc u u
  | found {inner outer p} : u.Recursive → sc = inner ++ p :: outer → p.Recursive →
      (∀ p' ∈ outer, ¬ p'.Recursive) → DOutermostRec sc u p
  | none : u.Recursive → (∀ p' ∈ sc, ¬ p'.Recursive) → DOutermostRec sc u u

/-- What `$ref`, `$dynamicRef` or `$recursiveRef` with text `s` refers to in a dynamic scope (innermost first),
where `b` is the base URI. -/
inductive DTarget (lib : UriLib) (L : Links) (sc : List Site) (b : Uri) : String → String → Site → Prop
  | ref {s u} : L.refer b s u → DTarget lib L sc b "$ref" s u
  | static {s u} : dia = .d2020 → L.refer b s u → (∀ f, ¬ Dynamic lib s f u) → DTarget lib L sc b "$dynamicRef" s u
  | dynamic {s f u q} : dia = .d2020 → L.refer b s u → Dynamic lib s f u → DOutermost L f sc u q →
      DTarget lib L sc b "$dynamicRef" s q
  | recursive {s u q} : dia = .d2019 → L.refer b s u → DOutermostRec sc u q → DTarget lib L sc b "$recursiveRef" s q

/-! ## Meaning -/

/-- The meaning of all schemas: whether a value is valid against a schema, and whether a schema
evaluates a member or item of the value it is applied to.  The first argument is the dynamic scope, the
schemas entered so far, innermost first. -/
structure DMeaning where
  valid : List Site → Site → Value → Prop
  ev : List Site → Site → Value → Pt → Prop

section
variable (env : Env) (enabled : String → Bool) (M : DMeaning) (sc : List Site)
/- `sub` is where the subschemas stand, and `target` is what the references refer to. -/
variable (sub : Value → Site) (target : String → String → Site → Prop)

open Classical in
/-- The number of items valid against a schema. -/
noncomputable def dmatching (t : Site) (v : Value) : Nat :=
  (elems v).countP (fun x => decide (M.valid sc t x))

/-- `properties` or `patternProperties` applies to the name. -/
def DNamed (kvs : List (String × Value)) (n : String) : Prop :=
  (∃ ps t, ("properties", .obj ps) ∈ kvs ∧ (n, t) ∈ ps) ∨
  (∃ ps re t, ("patternProperties", .obj ps) ∈ kvs ∧ (re, t) ∈ ps ∧ env.search re n = true)

/-- The item is beyond `prefixItems`. -/
def DBeyond (kvs : List (String × Value)) (k : Nat) : Prop :=
  ∀ ss, ("prefixItems", .arr ss) ∈ kvs → ss.length ≤ k

/-- A keyword of the schema, other than `unevaluatedProperties` and `unevaluatedItems`, evaluates the
member or item, supposing that the value is valid against the schema. -/
inductive DEv (kvs : List (String × Value)) (v : Value) : Pt → Prop
  | properties {ps n t} : ("properties", .obj ps) ∈ kvs → (n, t) ∈ ps → DEv kvs v (.name n)
  | patternProperties {ps n re t} : ("patternProperties", .obj ps) ∈ kvs → (re, t) ∈ ps →
      env.search re n = true → DEv kvs v (.name n)
  | additionalProperties {t n} : ("additionalProperties", t) ∈ kvs → ¬ DNamed env kvs n →
      DEv kvs v (.name n)
  | prefixItems {ss k} : dia = .d2020 → ("prefixItems", .arr ss) ∈ kvs → k < ss.length → DEv kvs v (.item k)
  | items {t k} : dia = .d2020 → ("items", t) ∈ kvs → DBeyond kvs k → DEv kvs v (.item k)
  | contains {t x} {k : Nat} : dia = .d2020 → ("contains", t) ∈ kvs → (elems v)[k]? = some x →
      M.valid sc (sub t) x → DEv kvs v (.item k)
  | itemsAll {t k} : dia = .d2019 → ("items", t) ∈ kvs → (∀ ss, t ≠ .arr ss) → DEv kvs v (.item k)
  | itemsEach {ss k} : dia = .d2019 → ("items", .arr ss) ∈ kvs → k < ss.length → DEv kvs v (.item k)
  | additionalItems {t ss k} : dia = .d2019 → ("additionalItems", t) ∈ kvs → ("items", .arr ss) ∈ kvs →
      ss.length ≤ k → DEv kvs v (.item k)
  | allOf {ss t pt} : ("allOf", .arr ss) ∈ kvs → t ∈ ss → M.valid sc (sub t) v → M.ev sc (sub t) v pt → DEv kvs v pt
  | anyOf {ss t pt} : ("anyOf", .arr ss) ∈ kvs → t ∈ ss → M.valid sc (sub t) v → M.ev sc (sub t) v pt → DEv kvs v pt
  | oneOf {ss t pt} : ("oneOf", .arr ss) ∈ kvs → t ∈ ss → M.valid sc (sub t) v → M.ev sc (sub t) v pt → DEv kvs v pt
  | if_ {t pt} : ("if", t) ∈ kvs → M.valid sc (sub t) v → M.ev sc (sub t) v pt → DEv kvs v pt
  | then_ {c t pt} : ("then", t) ∈ kvs → ("if", c) ∈ kvs → M.valid sc (sub c) v → M.valid sc (sub t) v → M.ev sc (sub t) v pt →
      DEv kvs v pt
  | else_ {c t pt} : ("else", t) ∈ kvs → ("if", c) ∈ kvs → ¬ M.valid sc (sub c) v → M.valid sc (sub t) v → M.ev sc (sub t) v pt →
      DEv kvs v pt
  | dependentSchemas {ps n t pt} : ("dependentSchemas", .obj ps) ∈ kvs → (n, t) ∈ ps → HasMember v n →
      M.valid sc (sub t) v → M.ev sc (sub t) v pt → DEv kvs v pt
  | ref {k s u pt} : (k, .str s) ∈ kvs → target k s u → M.valid sc u v → M.ev sc u v pt → DEv kvs v pt

/-- What the members of a schema object demand of a value. -/
structure DHolds (kvs : List (String × Value)) (v : Value) : Prop where
  assert : ∀ k w a, (k, w) ∈ kvs → WrittenAs k w a → AssertHolds env (IsMultiple env.dec) a v
  allOf : ∀ ss, ("allOf", .arr ss) ∈ kvs → ∀ t ∈ ss, M.valid sc (sub t) v
  anyOf : ∀ ss, ("anyOf", .arr ss) ∈ kvs → ∃ t ∈ ss, M.valid sc (sub t) v
  oneOf : ∀ ss, ("oneOf", .arr ss) ∈ kvs → ∃ (j : Nat) (t : Value), ss[j]? = some t ∧ M.valid sc (sub t) v ∧
    ∀ (k : Nat) (u : Value), ss[k]? = some u → M.valid sc (sub u) v → k = j
  not_ : ∀ t, ("not", t) ∈ kvs → ¬ M.valid sc (sub t) v
  then_ : ∀ c t, ("if", c) ∈ kvs → ("then", t) ∈ kvs → M.valid sc (sub c) v → M.valid sc (sub t) v
  else_ : ∀ c t, ("if", c) ∈ kvs → ("else", t) ∈ kvs → ¬ M.valid sc (sub c) v → M.valid sc (sub t) v
  dependentSchemas : ∀ ps, ("dependentSchemas", .obj ps) ∈ kvs → ∀ n t, (n, t) ∈ ps → HasMember v n →
    M.valid sc (sub t) v
  properties : ∀ ps, ("properties", .obj ps) ∈ kvs → ∀ n t x, (n, t) ∈ ps → (n, x) ∈ members v →
    M.valid sc (sub t) x
  patternProperties : ∀ ps, ("patternProperties", .obj ps) ∈ kvs → ∀ re t n x, (re, t) ∈ ps →
    (n, x) ∈ members v → env.search re n = true → M.valid sc (sub t) x
  additionalProperties : ∀ t, ("additionalProperties", t) ∈ kvs → ∀ n x, (n, x) ∈ members v →
    ¬ DNamed env kvs n → M.valid sc (sub t) x
  propertyNames : ∀ t, ("propertyNames", t) ∈ kvs → ∀ n, HasMember v n → M.valid sc (sub t) (.str n)
  unevaluatedProperties : ∀ t, ("unevaluatedProperties", t) ∈ kvs → ∀ n x, (n, x) ∈ members v →
    ¬ DEv env M sc sub target kvs v (.name n) → M.valid sc (sub t) x
  prefixItems : dia = .d2020 → ∀ ss, ("prefixItems", .arr ss) ∈ kvs → ∀ (k : Nat) t x, ss[k]? = some t →
    (elems v)[k]? = some x → M.valid sc (sub t) x
  items : dia = .d2020 → ∀ t, ("items", t) ∈ kvs → ∀ (k : Nat) x, (elems v)[k]? = some x → DBeyond kvs k →
    M.valid sc (sub t) x
  itemsAll : dia = .d2019 → ∀ t, ("items", t) ∈ kvs → (∀ ss, t ≠ .arr ss) → ∀ x ∈ elems v, M.valid sc (sub t) x
  itemsEach : dia = .d2019 → ∀ ss, ("items", .arr ss) ∈ kvs → ∀ (k : Nat) t x, ss[k]? = some t →
    (elems v)[k]? = some x → M.valid sc (sub t) x
  additionalItems : dia = .d2019 → ∀ t ss, ("additionalItems", t) ∈ kvs → ("items", .arr ss) ∈ kvs →
    ∀ (k : Nat) x, (elems v)[k]? = some x → ss.length ≤ k → M.valid sc (sub t) x
  contains : ∀ t, ("contains", t) ∈ kvs → (∃ xs, v = .arr xs) → (∀ m, ("minContains", m) ∉ kvs) →
    1 ≤ dmatching M sc (sub t) v
  minContains : ∀ m t, ("minContains", .num m) ∈ kvs → ("contains", t) ∈ kvs → (∃ xs, v = .arr xs) →
    m.val ≤ (dmatching M sc (sub t) v : Rat)
  maxContains : ∀ m t, ("maxContains", .num m) ∈ kvs → ("contains", t) ∈ kvs → (∃ xs, v = .arr xs) →
    (dmatching M sc (sub t) v : Rat) ≤ m.val
  unevaluatedItems : ∀ t, ("unevaluatedItems", t) ∈ kvs → ∀ (k : Nat) x, (elems v)[k]? = some x →
    ¬ DEv env M sc sub target kvs v (.item k) → M.valid sc (sub t) x
  ref : ∀ k s u, (k, .str s) ∈ kvs → target k s u → M.valid sc u v
  format : ∀ a, ("format", .str a) ∈ kvs → enabled a = true → v.type ∈ env.fmtTypes a →
    env.fmtOk a v = true

end

section
variable (lib : UriLib) (env : Env) (enabled : String → Bool) (L : Links)

/-- One unrolling. -/
def dstep (M : DMeaning) : DMeaning where
  valid sc p v := match p.schema with
    | .bool b => b = true
    | .obj kvs => DHolds env enabled M (p :: sc) (site lib p.base) (DTarget lib L (p :: sc) p.base) kvs v
    | _ => False
  ev sc p v pt := match p.schema with
    | .obj kvs => DEv env M (p :: sc) (site lib p.base) (DTarget lib L (p :: sc) p.base) kvs v pt ∨
        (match pt with
         | .name _ => ∃ t, ("unevaluatedProperties", t) ∈ kvs
         | .item _ => ∃ t, ("unevaluatedItems", t) ∈ kvs)
    | _ => False

/-- The meaning after `n` unrollings. -/
def dunroll : Nat → DMeaning
  | 0 => ⟨fun _ _ _ => False, fun _ _ _ _ => False⟩
  | n + 1 => dstep lib env enabled L (dunroll n)

/-- The value is valid against the schema: so it is after every sufficiently long unrolling. -/
def DAccepts (p : Site) (v : Value) : Prop := ∃ n, ∀ m, n ≤ m → (dunroll lib env enabled L m).valid [] p v

/-- The value is invalid against the schema: so it is after every sufficiently long unrolling. -/
def DRejects (p : Site) (v : Value) : Prop := ∃ n, ∀ m, n ≤ m → ¬ (dunroll lib env enabled L m).valid [] p v

end

/-! ## Well-formed documents -/

/-- A base URI that references can be resolved against: absolute and normalized. -/
def Solid (lib : UriLib) (b : Uri) : Prop := lib.isAbsolute b = true ∧ lib.normal b = true

instance (lib : UriLib) (b : Uri) : Decidable (Solid lib b) := inferInstanceAs (Decidable (_ ∧ _))

/-- The text of an `$id`: a valid URI reference without fragment, which is absolute and normalized or becomes
that by resolution. -/
def IdText (lib : UriLib) (t : String) : Prop :=
  lib.valid (lib.ofText t) = true ∧ (lib.ofText t).fragment = none ∧
  (lib.isAbsolute (lib.ofText t) = true → Solid lib (lib.ofText t)) ∧
  (lib.isAbsolute (lib.ofText t) = false → ∀ b, Solid lib b → b.fragment = none →
    ∃ r, lib.resolve (lib.ofText t) b = some r ∧ Solid lib r.noFragment ∧ r.fragment = none)

mutual
/-- A schema below the root of a document, where `b` is the base URI: a boolean, or an object whose members
are as the metaschema demands. -/
inductive SchemaForm (E : CEnv) (L : Links) : Uri → Value → Prop
  | bool {b v} : SchemaForm E L b (.bool v)
  | obj {b kvs} : (∀ kv ∈ kvs, MemberForm E L (ownBase E.lib b (.obj kvs)) kv.1 kv.2) →
      SchemaForm E L b (.obj kvs)
/-- A member of a schema object in which `b` is the base URI. -/
inductive MemberForm (E : CEnv) (L : Links) : Uri → String → Value → Prop
  | assert {b k v a} : WrittenAs k v a → (∀ re, a = .pattern re → E.reOk re = true) → MemberForm E L b k v
  | one {b k v} : OneKey k v → SchemaForm E L b v → MemberForm E L b k v
  | many {b k vs} : ManyKey k → (∀ v ∈ vs, SchemaForm E L b v) → MemberForm E L b k (.arr vs)
  | named {b k ms} : k ∈ namedKeys → (∀ kv ∈ ms, SchemaForm E L b kv.2) → MemberForm E L b k (.obj ms)
  | count {b k m} : k = "minContains" ∨ k = "maxContains" → MemberForm E L b k (.num m)
  | format {b a} : (E.fmtEnabled a = true → E.fmtKnown a = true) → MemberForm E L b "format" (.str a)
  | id {b t} : IdText E.lib t → MemberForm E L b "$id" (.str t)
  | anchor {b k t} : k = "$anchor" ∨ dia = .d2020 ∧ k = "$dynamicAnchor" → AnchorText t → MemberForm E L b k (.str t)
  | ref {b t q} : L.refer b t q → MemberForm E L b "$ref" (.str t)
  | dynamicRef {b t q kvs} : dia = .d2020 → L.refer b t q → q.schema = .obj kvs →
      MemberForm E L b "$dynamicRef" (.str t)
  | recursiveAnchor {b v} : dia = .d2019 → MemberForm E L b "$recursiveAnchor" (.bool v)
  | recursiveRef {b q} : dia = .d2019 → L.refer b "#" q → MemberForm E L b "$recursiveRef" (.str "#")
  | note {b k v} : k ∈ noteKeys → MemberForm E L b k v
  | unknown {b k v} : k ∉ definedNames → k ≠ "" → '\x00' ∉ k.toList → MemberForm E L b k v
end

/-- The metaschema of the dialect that the library ships. -/
def dialectMeta : Meta :=
  match dia with
  | .d2019 => meta2019
  | .d2020 => meta2020

/-- A metaschema with the keyword classes of the dialect: the one that the library ships, that of `next`, which
has another class for `$id`, or any other that has the same vocabularies. -/
structure OfDialect (m : Meta) : Prop where
  same : ∀ k, k ≠ "$id" → getKwclass m k = getKwclass dialectMeta k
  id : ∃ shape, getKwclass m "$id" = .ok ⟨"$id", shape, []⟩ ∧ (shape = .id ∨ shape = .idNext)

/-- A document of the dialect.  `mo` is the metaschema that is given by other means than `$schema`. -/
inductive DocForm (E : CEnv) (mo : Option Meta) (L : Links) : Site → Prop
  | bool {b v} : DocForm E mo L ⟨b, .bool v⟩
  | obj {b kvs m} : MetaFor E mo kvs (some m) → OfDialect m →
      (∀ kv ∈ kvs, kv.1 = "$schema" ∨ MemberForm E L b kv.1 kv.2) → DocForm E mo L ⟨b, .obj kvs⟩

/-- A document, given the URI with which it is constructed: its `$id`, if any, is relative to this URI. -/
def docSite (lib : UriLib) (w : World) (uri : Option Uri) (doc : Value) : Site :=
  site lib (uri.getD (lib.uuid w.uris)) doc

/-- What is assumed of `rfc3986` (RFC 3986, 5.2.2): references that consist of a fragment are not absolute,
and they resolve to the base with that fragment, if that is normalized; an absolute and normalized URI, with or
without an anchor after it, is what it reads as; UUIDs are such URIs. -/
structure SiteLib (lib : UriLib) : Prop where
  relative : ∀ f : String, Fragment f.toList → lib.isAbsolute (lib.ofText ("#" ++ f)).noFragment = false
  resolve : ∀ (f : String) b, Fragment f.toList → Solid lib b → b.fragment = none →
    lib.resolve (lib.ofText ("#" ++ f)) b = some (b.withFragment f)
  text : ∀ b, Solid lib b → b.fragment = none → lib.ofText b.str = b
  anchor : ∀ b (f : String), Solid lib b → b.fragment = none → AnchorText f →
    lib.ofText (b.str ++ "#" ++ f) = b.withFragment f
  uuid : ∀ l, (lib.uuid l).fragment = none ∧ Solid lib (lib.uuid l)

end Jschon.Spec
