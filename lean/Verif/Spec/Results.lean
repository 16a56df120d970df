import Verif.Model.Eval
import Verif.Spec.Pointer

/-!
# Result trees and outputs, as a specification
-/

namespace Jschon.Spec

/-- `n` is `r` or a result below it. -/
inductive InTree (r : RNode) : RNode → Prop
  | self : InTree r r
  | child {n e} : InTree r n → e ∈ n.children → InTree r e.2

/-- `n` is `r` or a result below it, and `P` holds at every result on the way, ends included. -/
inductive Along (P : RNode → Prop) (r : RNode) : RNode → Prop
  | self : P r → Along P r r
  | child {n e} : Along P r n → e ∈ n.children → P e.2 → Along P r e.2

/-- The path denotes `v` in the document, or denotes the name of a member (as `propertyNames` gives it
to its subschema). -/
def Locates (doc : Value) (path : List String) (v : Value) : Prop :=
  Designates doc path v ∨
  ∃ p k kvs, path = p ++ [k] ∧ Designates doc p (.obj kvs) ∧ k ∈ dkeys kvs ∧ v = .str k

/-- The member of a JSON object; `none` if it is absent or this is no object. -/
def member (k : String) : Value → Option Value
  | .obj kvs => dlookup k kvs
  | _ => none

/-- An output unit that reports an annotation. -/
def AnnotationUnit (u : Value) : Prop :=
  (∃ a, a ≠ .null ∧ member "annotation" u = some a) ∧ member "error" u = none

/-- An output unit that reports an error. -/
def ErrorUnit (u : Value) : Prop :=
  (∃ a, a ≠ .null ∧ member "error" u = some a) ∧ member "annotation" u = none

mutual
/-- The "valid" members of an output unit and of the units nested in its "annotations" or "errors", in
order. -/
def unitVerdicts : Value → List Value
  | .obj kvs => memberVerdicts kvs
  | _ => []
def memberVerdicts : List (String × Value) → List Value
  | [] => []
  | (k, v) :: r =>
    (if k = "valid" then [v]
     else if k = "annotations" ∨ k = "errors" then nestedVerdicts v else []) ++ memberVerdicts r
def nestedVerdicts : Value → List Value
  | .arr xs => listVerdicts xs
  | _ => []
def listVerdicts : List Value → List Value
  | [] => []
  | x :: xs => unitVerdicts x ++ listVerdicts xs
end

mutual
/-- The results of a tree, parents before children. -/
def preorder : RNode → List RNode
  | .mk info cs => .mk info cs :: preorders cs
def preorders : List ((String × List String) × RNode) → List RNode
  | [] => []
  | (_, c) :: r => preorder c ++ preorders r
end

end Jschon.Spec
