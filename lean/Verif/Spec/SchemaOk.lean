import Verif.Model.KwOrder
import Verif.Spec.KwOrder
import Verif.Spec.JsonSchema

/-!
# Stores that come from schemas

What construction guarantees of the schema objects in a store: each object has the keywords of one
dialect, each at most once, in an order that respects dependencies (C29); a keyword class that is
selected by an exact name is not also obtained from another class.
-/

namespace Jschon

open Spec

/-- The values inside an assertion keyword are dicts with distinct keys. -/
def Assertion.WF : Assertion → Prop
  | .enum vs => ∀ w ∈ vs, w.WF
  | .const w => w.WF
  | _ => True

/-- Names with a meaning of their own, which no annotation keyword or unknown keyword has. -/
def reserved : Dialect → List String
  | .d2020 => ["if", "contains", "maxContains", "prefixItems", "items", "unevaluatedItems",
      "properties", "patternProperties", "additionalProperties", "unevaluatedProperties"]
  | .d2019 => ["if", "contains", "maxContains", "items", "additionalItems", "unevaluatedItems",
      "properties", "patternProperties", "additionalProperties", "unevaluatedProperties"]

/-- The keyword belongs to the dialect and comes from a JSON document. -/
def Kw.Ok (d : Dialect) : Kw → Prop
  | .assert a => a.WF
  | .static k _ | .annot k _ _ | .unknown k _ => k ∉ reserved d
  | .prefixItems _ | .items _ | .unevaluatedItems _ | .dynamicRef _ _ _ => d = .d2020
  | .items9 _ | .items9Array _ | .additionalItems _ | .unevaluatedItems9 _ | .recursiveRef _ => d = .d2019
  | .properties ps | .patternProperties ps | .dependentSchemas ps => (dkeys ps).Nodup
  | _ => True

/-- The keywords of a schema object, in evaluation order. -/
structure KwsOk (d : Dialect) (kws : List Kw) : Prop where
  nodup : (kws.map Kw.key).Nodup
  ok : ∀ kw ∈ kws, kw.Ok d
  deps : DepsFirst Kw.key (Kw.dependsOn (decide (d = .d2019))) kws

/-- The store holds schema objects of dialect `d`. -/
def StoreOk (d : Dialect) (st : Store) : Prop := ∀ s kws, st.obj s = .obj kws → KwsOk d kws

end Jschon
