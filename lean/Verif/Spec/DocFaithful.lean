import Verif.Spec.Document
import Verif.Spec.Standard

/-!
# Documents for which jschon follows the specification

The points at which jschon differs from the specification, as conditions on documents and an instance.
-/

namespace Jschon.Spec

variable [dia : Dialect]

/-- The keywords that evaluate members or items by themselves. -/
def markNames : List String :=
  ["properties", "patternProperties", "additionalProperties", "unevaluatedProperties", "items", "contains",
   "unevaluatedItems"] ++
  match dia with
  | .d2019 => ["additionalItems"]
  | .d2020 => ["prefixItems"]

section
variable (lib : UriLib) (L : Links)

/-- The schemas that a schema applies to the instance itself, leaving out `not`; for dynamic and
recursive references, those that it may apply in any dynamic scope of schemas of the documents. -/
inductive DInPlace (p : Site) : Site → Prop
  | many {k ss t} : k = "allOf" ∨ k = "anyOf" ∨ k = "oneOf" → p.Has k (.arr ss) → t ∈ ss →
      DInPlace p (site lib p.base t)
  | one {k t} : k = "if" ∨ k = "then" ∨ k = "else" → p.Has k t → DInPlace p (site lib p.base t)
  | dependentSchemas {ps n t} : p.Has "dependentSchemas" (.obj ps) → (n, t) ∈ ps → DInPlace p (site lib p.base t)
  | ref {k s sc q} : p.Has k (.str s) → (∀ x ∈ sc, L.sites x) → DTarget lib L sc p.base k s q → DInPlace p q

/-- `not` -/
def DNot (p q : Site) : Prop := ∃ t, p.Has "not" t ∧ q = site lib p.base t

/-- The schemas with `unevaluatedProperties` or `unevaluatedItems`, and those that they apply in
place, not under `not`. -/
inductive DWatched : Site → Prop
  | here {p k u} : L.sites p → p.Has k u → k = "unevaluatedProperties" ∨ k = "unevaluatedItems" → DWatched p
  | sub {p q} : DWatched p → DInPlace lib L p q → DWatched q

/-- The schemas with a keyword that evaluates members or items, and those that apply such a schema in
place. -/
inductive DLoud : Site → Prop
  | here {p k u} : p.Has k u → k ∈ markNames → DLoud p
  | sub {p q} : DInPlace lib L p q ∨ DNot lib p q → DLoud q → DLoud p

/-- The schemas that a schema applies to the instance or to parts of it, in a dynamic scope. -/
inductive DApplies (sc : List Site) (p : Site) : Site → Prop
  | one {k t} : OneKey k t → p.Has k t → DApplies sc p (site lib p.base t)
  | many {k ss t} : ManyKey k → p.Has k (.arr ss) → t ∈ ss → DApplies sc p (site lib p.base t)
  | named {k ps n t} : k ∈ namedKeys → k ≠ "$defs" → p.Has k (.obj ps) → (n, t) ∈ ps →
      DApplies sc p (site lib p.base t)
  | ref {k s q} : p.Has k (.str s) → DTarget lib L sc p.base k s q → DApplies sc p q

/-- The dynamic scopes (innermost first) in which schemas are applied, starting from `root`. -/
inductive DScope (root : Site) : List Site → Prop
  | root : DScope root [root]
  | step {p sc q} : DScope root (p :: sc) → DApplies lib L (p :: sc) p q → DScope root (q :: p :: sc)

/-- Among the schema resources of the scope that have a dynamic anchor of that name, none is entered
again after another one has been entered. -/
def DNoReentry (f : String) (sc : List Site) : Prop :=
  ∀ x y z, List.Sublist [x, y, z] sc → x.base = z.base → (∃ t, L.dyn x.base f t) → (∃ t, L.dyn y.base f t) →
    y.base = x.base

/-- What jschon requires of a schema and a value in order to follow the specification. -/
structure DFaithful (root : Site) (env : Env) (v : Value) : Prop where
  /-- Where it matters what is evaluated, a schema under `not` evaluates nothing. -/
  quiet_not : ∀ p q, DWatched lib L p → DNot lib p q → ¬ DLoud lib L q
  /-- `$dynamicRef` is applied only in scopes that do not return to a schema resource. -/
  dyn : dia = .d2020 → ∀ p sc s f u, DScope lib L root (p :: sc) → p.Has "$dynamicRef" (.str s) → L.refer p.base s u →
    Dynamic lib s f u → DNoReentry L f (p :: sc)
  /-- Where it matters what is evaluated, `items` of 2019-09 is not `true`, which jschon ignores. -/
  items_true : dia = .d2019 → ∀ p, DWatched lib L p → ¬ p.Has "items" (.bool true)
  /-- An array `items` of 2019-09 has an element: jschon ignores `additionalItems` if not. -/
  items_array : dia = .d2019 → ∀ p ss, L.sites p → p.Has "items" (.arr ss) → ss ≠ []
  /-- The quotients of `multipleOf` are small enough. -/
  mult : ∀ p m n, L.sites p → p.Has "multipleOf" (.num m) → Within (.num n) v → SmallQuotient env.dec n m

/-- The ranks, all less than `bound`, decrease along in-place applications: no cycle of references
applies to one and the same instance. -/
structure DRanked (rank : Site → Nat) (bound : Nat) : Prop where
  lt : ∀ p, L.sites p → rank p < bound
  decreases : ∀ p q, L.sites p → DInPlace lib L p q ∨ DNot lib p q → rank q < rank p

end
end Jschon.Spec
