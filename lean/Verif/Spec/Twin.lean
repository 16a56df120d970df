import Verif.Spec.DocObserved

/-!
# Values and documents that do not differ as JSON

Equality in the JSON data model (`Spec.Same`) does not tell `1` from `1.0`, nor `{"a": …, "b": …}` from
`{"b": …, "a": …}`.  `Spec.Twin` is that equality, except that two equal numbers must also be written as the same
decimal number: the float `1e23` equals the integer `99999999999999991611392`, but is not written like that.
-/

namespace Jschon.Spec

/-- Equality in the JSON data model, for numbers that are written alike. -/
inductive Twin (dec : Rat → Rat) : Value → Value → Prop
  | null : Twin dec .null .null
  | bool {b} : Twin dec (.bool b) (.bool b)
  | num {m n : Num} : m.val = n.val → asWritten dec m = asWritten dec n → Twin dec (.num m) (.num n)
  | str {s} : Twin dec (.str s) (.str s)
  | arr {xs ys : List Value} : xs.length = ys.length →
      (∀ (i : Nat) (x y : Value), xs[i]? = some x → ys[i]? = some y → Twin dec x y) →
      Twin dec (.arr xs) (.arr ys)
  | obj {as bs : List (String × Value)} :
      (∀ k, dlookup k as = none ↔ dlookup k bs = none) →
      (∀ k v w, dlookup k as = some v → dlookup k bs = some w → Twin dec v w) →
      Twin dec (.obj as) (.obj bs)

/-- The floats in a value that are whole numbers are written exactly. -/
inductive ExactFloats (dec : Rat → Rat) : Value → Prop
  | null : ExactFloats dec .null
  | bool {b} : ExactFloats dec (.bool b)
  | int {z} : ExactFloats dec (.num (.int z))
  | flt {q : Rat} : (∀ z : Int, q = z → dec q = q) → ExactFloats dec (.num (.flt q))
  | str {s} : ExactFloats dec (.str s)
  | arr {xs} : (∀ x ∈ xs, ExactFloats dec x) → ExactFloats dec (.arr xs)
  | obj {kvs : List (String × Value)} : (∀ kv ∈ kvs, ExactFloats dec kv.2) → ExactFloats dec (.obj kvs)

/-- Format validators do not tell equal values apart. -/
def FormatsAlike (env : Env) (enabled : String → Bool) : Prop :=
  ∀ a v w, enabled a = true → Same v w → env.fmtOk a v = env.fmtOk a w

/-- Schemas in their places with the same base URI, equal as JSON. -/
structure TwinSite (dec : Rat → Rat) (p q : Site) : Prop where
  base : p.base = q.base
  twin : Twin dec p.schema q.schema
  wf : p.schema.WF
  wf' : q.schema.WF

/-- The same for lists of schemas. -/
inductive TwinSites (dec : Rat → Rat) : List Site → List Site → Prop
  | nil : TwinSites dec [] []
  | cons {p q ps qs} : TwinSite dec p q → TwinSites dec ps qs → TwinSites dec (p :: ps) (q :: qs)

end Jschon.Spec
