import Verif.Spec.Results
import Verif.Model.Pointer

/-!
# Nested outputs, as a specification
-/

namespace Jschon.Spec

mutual
/-- The results from which no child has the verdict `v`, reached from a result with the verdict `v`
through children with the verdict `v`; in order. -/
def tips (v : Bool) : RNode → List RNode
  | .mk info cs => if cs.any (fun e => e.2.info.valid == v) then tipsOf v cs else [.mk info cs]
/-- The same below the children with the verdict `v`. -/
def tipsOf (v : Bool) : List ((String × List String) × RNode) → List RNode
  | [] => []
  | (_, c) :: r => if c.info.valid = v then tips v c ++ tipsOf v r else tipsOf v r
end

mutual
/-- The innermost units of a unit whose nested units are under `key`, in order.  A unit with nested
units has at least two. -/
inductive Leaves (key : String) : Value → List Value → Prop
  | leaf {o} : member key o = none → Leaves key o [o]
  | node {o us ls} : member key o = some (.arr us) → 2 ≤ us.length → LeavesAll key us ls →
      Leaves key o ls
inductive LeavesAll (key : String) : List Value → List Value → Prop
  | nil : LeavesAll key [] []
  | cons {u us l ls} : Leaves key u l → LeavesAll key us ls → LeavesAll key (u :: us) (l ++ ls)
end

/-- A unit about a result: its locations, and its message if it has one. -/
structure About (uri : RInfo → String) (msg : String) (m : Value) (info : RInfo) (u : Value) :
    Prop where
  instance_ : member "instanceLocation" u = some (.str (Ptr.mk info.inst.path).str)
  keyword : member "keywordLocation" u = some (.str (Ptr.mk info.path).str)
  absolute : member "absoluteKeywordLocation" u = some (.str (uri info))
  silent : m = .null → member msg u = none
  message : m ≠ .null → member msg u = some m

mutual
/-- The topmost results of schemas, in order. -/
def firsts (isSchema : RInfo → Bool) : RNode → List RNode
  | .mk info cs => if isSchema info then [.mk info cs] else firstsOf isSchema cs
def firstsOf (isSchema : RInfo → Bool) : List ((String × List String) × RNode) → List RNode
  | [] => []
  | (_, c) :: r => firsts isSchema c ++ firstsOf isSchema r
end

/-- The results of schemas just below a result, under the children that have its verdict. -/
def inner (isSchema : RInfo → Bool) (r : RNode) : List RNode :=
  r.children.flatMap fun e => if e.2.info.valid = r.info.valid then firsts isSchema e.2 else []

/-- The message of a child: its annotation if the parent is valid, its error otherwise. -/
def saying (valid : Bool) (info : RInfo) : Value := if valid then info.annotation else info.error

mutual
/-- A unit of the hierarchical format for a result of a schema. -/
inductive HierUnit (uri : RInfo → String) (isSchema : RInfo → Bool) : RNode → Value → Prop
  | mk {r o us} :
      member "valid" o = some (.bool r.info.valid) →
      member "evaluationPath" o = some (.str (Ptr.mk r.info.path).str) →
      member "schemaLocation" o = some (.str (uri r.info)) →
      member "instanceLocation" o = some (.str (Ptr.mk r.info.inst.path).str) →
      member "details" o = (if us.isEmpty then none else some (.arr us)) →
      HierUnits uri isSchema (inner isSchema r) us →
      (∀ k a, (member (if r.info.valid then "annotations" else "errors") o).bind (member k) = some a →
        a ≠ .null ∧ ∃ e ∈ r.children, e.2.info.key.getD "" = k ∧ saying r.info.valid e.2.info = a) →
      (∀ e ∈ r.children, saying r.info.valid e.2.info ≠ .null →
        ∃ a, (member (if r.info.valid then "annotations" else "errors") o).bind
          (member (e.2.info.key.getD "")) = some a) →
      member (if r.info.valid then "errors" else "annotations") o = none →
      HierUnit uri isSchema r o
/-- A unit for each of the results, in order. -/
inductive HierUnits (uri : RInfo → String) (isSchema : RInfo → Bool) :
    List RNode → List Value → Prop
  | nil : HierUnits uri isSchema [] []
  | cons {r rs o os} : HierUnit uri isSchema r o → HierUnits uri isSchema rs os →
      HierUnits uri isSchema (r :: rs) (o :: os)
end

end Jschon.Spec
