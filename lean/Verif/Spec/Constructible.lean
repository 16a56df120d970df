import Verif.Model.Construct

/-!
# Documents that are schemas, as far as construction is concerned
-/

namespace Jschon.Spec

/-- The metaschema in force in a schema object, given the one in force around it. -/
def MetaFor (E : CEnv) (mo : Option Meta) (kvs : List (String × Value)) (mo' : Option Meta) : Prop :=
  (dlookup "$schema" kvs = none ∧ mo' = mo) ∨
  ∃ t m, dlookup "$schema" kvs = some (.str t) ∧
    (E.lib.ofText t).validate E.lib true true true true = .ok () ∧
    E.metaschema (E.lib.ofText t) = .ok m ∧ mo' = some m

/-- Conditions on documents: which keyword classes may occur, and which base URIs. -/
structure Allowed where
  cls : KwCls → Prop
  base : Uri → Prop := fun _ => True

/-- `$id`, if present, is a URI that the metaschema in force allows and that, where a base URI is allowed,
is or resolves to one that is allowed. -/
def IdFor (E : CEnv) (A : Allowed) (mo : Option Meta) (kvs : List (String × Value)) : Prop :=
  dlookup "$id" kvs = none ∨
  ∃ t m, dlookup "$id" kvs = some (.str t) ∧ mo = some m ∧
    (E.lib.ofText t).validate E.lib false false m.knownCore (!m.knownCore) = .ok () ∧
    (E.lib.isAbsolute (E.lib.ofText t) = true → A.base (E.lib.ofText t).noFragment) ∧
    (E.lib.isAbsolute (E.lib.ofText t) = false → ∀ b, A.base b →
      ∃ r, E.lib.resolve (E.lib.ofText t) b = some r ∧ A.base r.noFragment)

/-- No references. -/
def noRefs : Allowed where
  cls c := c.shape ≠ .ref ∧ c.shape ≠ .dynamicRef ∧ c.shape ≠ .recursiveRef

/-- The keyword classes that accept every value. -/
def Lenient (shape : KwShape) : Prop := shape = .plain ∨ shape = .unknown ∨ shape = .vocabulary

mutual
/-- A boolean, or an object whose members are fine for the metaschema in force and of the classes
allowed. -/
inductive Fine (E : CEnv) (A : Allowed) : Option Meta → Value → Prop
  | bool {mo b} : Fine E A mo (.bool b)
  | obj {mo mo' kvs} : MetaFor E mo kvs mo' → IdFor E A mo' kvs → (∀ kv ∈ kvs, FineMember E A mo' kv.1 kv.2) → Fine E A mo (.obj kvs)
/-- A member of a schema object. -/
inductive FineMember (E : CEnv) (A : Allowed) : Option Meta → String → Value → Prop
  | boot {mo k v} : k = "$schema" ∨ k = "$vocabulary" ∨ k = "$id" → FineMember E A mo k v
  | kw {m k c v} : getKwclass m k = .ok c → A.cls c → FineValue E A m c.shape v →
      FineMember E A (some m) k v
/-- The value of a keyword of a particular class. -/
inductive FineValue (E : CEnv) (A : Allowed) : Meta → KwShape → Value → Prop
  | lenient {m shape v} : Lenient shape → FineValue E A m shape v
  | schema {m shape v} : shape = .subschema ∨ shape = .subschemaOrArray → Fine E A (some m) v →
      FineValue E A m shape v
  | array {m shape xs} : shape = .arrayOfSubschemas ∨ shape = .subschemaOrArray →
      (∀ x ∈ xs, Fine E A (some m) x) → FineValue E A m shape (.arr xs)
  | object {m kvs} : (∀ kv ∈ kvs, Fine E A (some m) kv.2) → FineValue E A m .objectOfSubschemas (.obj kvs)
  | anchor {m shape t} : shape = .anchor ∨ shape = .dynamicAnchor →
      FineValue E A m shape (.str t)
  | pattern {m t} : E.reOk t = true → FineValue E A m .pattern (.str t)
  | format {m t} : (E.fmtEnabled t = true → E.fmtKnown t = true) → FineValue E A m .format (.str t)
  | ref {m shape t} : shape = .ref ∨ shape = .dynamicRef → FineValue E A m shape (.str t)
  | recursive {m} : FineValue E A m .recursiveRef (.str "#")
end

/-- No keyword class depends on itself, directly or not. -/
def Ordered (m : Meta) : Prop :=
  ∃ rank : String → Nat, ∀ c ∈ m.classes, c.deps.Nodup ∧ ∀ d ∈ c.deps, rank d < rank c.key

end Jschon.Spec
