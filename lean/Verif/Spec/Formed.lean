import Verif.Model.Construct

/-!
# Documents that have the form of a schema

The conditions that the keyword classes impose on the values of keywords.  Unlike `Spec/Constructible` this admits
everything that can get through: where an array of schemas is expected, a string passes too, and `format` may be
any scalar.
-/

namespace Jschon.Spec

/-- The classes that a keyword may have: those of `_bootstrap`, and those of the metaschemas of the catalog. -/
inductive ClassOf (E : CEnv) : String → KwShape → Prop
  | schema : ClassOf E "$schema" .schema
  | vocabulary : ClassOf E "$vocabulary" .vocabulary
  | id {u m} : E.metaschema u = .ok m → ClassOf E "$id" (if m.knownCore then .id else .idNext)
  | kw {u m k c} : E.metaschema u = .ok m → getKwclass m k = .ok c → ClassOf E k c.shape

/-- Not a string, an array or an object. -/
inductive BareValue : Value → Prop
  | null : BareValue .null
  | bool {b} : BareValue (.bool b)
  | num {n} : BareValue (.num n)

mutual
/-- A value that has the form of a schema. -/
inductive Formed (E : CEnv) : Value → Prop
  | bool {b} : Formed E (.bool b)
  | obj {kvs} : (∀ kv ∈ kvs, FormedMember E kv.1 kv.2) → Formed E (.obj kvs)
/-- A member of a schema object: there is a class for it, which accepts its value. -/
inductive FormedMember (E : CEnv) : String → Value → Prop
  | mk {k shape v} : ClassOf E k shape → FormedValue E shape v → FormedMember E k v
/-- A value that a keyword class accepts. -/
inductive FormedValue (E : CEnv) : KwShape → Value → Prop
  | any {shape v} : shape = .plain ∨ shape = .unknown ∨ shape = .vocabulary → FormedValue E shape v
  | schema {shape v} : shape = .subschema ∨ shape = .subschemaOrArray → Formed E v → FormedValue E shape v
  | array {shape xs} : shape = .arrayOfSubschemas ∨ shape = .subschemaOrArray → (∀ x ∈ xs, Formed E x) →
      FormedValue E shape (.arr xs)
  | text {shape t} : shape = .arrayOfSubschemas ∨ shape = .subschemaOrArray → FormedValue E shape (.str t)
  | object {kvs} : (∀ kv ∈ kvs, Formed E kv.2) → FormedValue E .objectOfSubschemas (.obj kvs)
  | metaUri {t} : (E.lib.ofText t).validate E.lib true true true true = .ok () → FormedValue E .schema (.str t)
  | id {t} : (E.lib.ofText t).validate E.lib false false true false = .ok () → FormedValue E .id (.str t)
  | idNext {t} : (E.lib.ofText t).validate E.lib false false false true = .ok () → FormedValue E .idNext (.str t)
  | name {shape t} : shape = .anchor ∨ shape = .dynamicAnchor ∨ shape = .ref ∨ shape = .dynamicRef →
      FormedValue E shape (.str t)
  | recursive : FormedValue E .recursiveRef (.str "#")
  | pattern {t} : E.reOk t = true → FormedValue E .pattern (.str t)
  | format {t} : (E.fmtEnabled t = true → E.fmtKnown t = true) → FormedValue E .format (.str t)
  | noFormat {v} : BareValue v → FormedValue E .format v
end

/-- `SchemaPlace E v x`: the value `x` stands in `v` where a schema is expected, whatever metaschemas of the catalog are
in force. -/
inductive SchemaPlace (E : CEnv) : Value → Value → Prop
  | self {v} : SchemaPlace E v v
  | one {kvs k v x} : (k, v) ∈ kvs → (∀ shape, ClassOf E k shape → shape = .subschema) → SchemaPlace E v x →
      SchemaPlace E (.obj kvs) x
  | array {kvs k xs v x} : (k, .arr xs) ∈ kvs → (∀ shape, ClassOf E k shape → shape = .arrayOfSubschemas) → v ∈ xs →
      SchemaPlace E v x → SchemaPlace E (.obj kvs) x
  | object {kvs k ms n v x} : (k, .obj ms) ∈ kvs → (∀ shape, ClassOf E k shape → shape = .objectOfSubschemas) →
      (n, v) ∈ ms → SchemaPlace E v x → SchemaPlace E (.obj kvs) x

end Jschon.Spec
