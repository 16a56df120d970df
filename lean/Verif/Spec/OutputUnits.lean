import Verif.Spec.Outputs

/-!
# What results say, as a specification
-/

namespace Jschon.Spec

mutual
/-- The results that are reached from a result, itself included, through results with the verdict `v`; parents
before children. -/
def reached (v : Bool) : RNode → List RNode
  | .mk info cs => if info.valid = v then .mk info cs :: reachedOf v cs else []
def reachedOf (v : Bool) : List ((String × List String) × RNode) → List RNode
  | [] => []
  | (_, c) :: r => reached v c ++ reachedOf v r
end

/-- What a result says with the verdict `v`: its annotation or its error, unless that is `None`. -/
def told (v : Bool) (info : RInfo) : Option Value :=
  match saying v info with
  | .null => none
  | a => some a

/-- The result is one that is asked for: for the keyword, and the location in the instance, if these are given. -/
def Asked (path : Option (List String)) (key : Option String) (info : RInfo) : Prop :=
  (∀ k, key = some k → info.key = some k) ∧ ∀ p, path = some p → info.inst.path = p

instance (path : Option (List String)) (key : Option String) (info : RInfo) : Decidable (Asked path key info) := by
  unfold Asked
  cases path <;> cases key <;> simp only [reduceCtorEq, false_implies, implies_true, Option.some.injEq, forall_eq'] <;>
    infer_instance

/-- The keyword is one of those that are asked for, if there are such. -/
def AskedFor (keys : Option (List String)) (info : RInfo) : Prop :=
  ∀ ks, keys = some ks → ∃ k ∈ ks, info.key = some k

instance (keys : Option (List String)) (info : RInfo) : Decidable (AskedFor keys info) := by
  unfold AskedFor
  cases keys <;> simp only [reduceCtorEq, false_implies, implies_true, Option.some.injEq, forall_eq'] <;> infer_instance

/-- The unit of the basic output that reports what a result says. -/
def basicUnit (uri : RInfo → String) (v : Bool) (info : RInfo) (a : Value) : Value :=
  .obj [("instanceLocation", .str (Ptr.mk info.inst.path).str), ("keywordLocation", .str (Ptr.mk info.path).str),
    ("absoluteKeywordLocation", .str (uri info)), (if v then "annotation" else "error", a)]

/-- The members of a unit of the verbose output: the verdict and the locations of the result, what it says, and the
units of its children, if any. -/
def verboseMember (uri : RInfo → String) (info : RInfo) (us : List Value) (k : String) : Option Value :=
  if k = "valid" then some (.bool info.valid)
  else if k = "instanceLocation" then some (.str (Ptr.mk info.inst.path).str)
  else if k = "keywordLocation" then some (.str (Ptr.mk info.path).str)
  else if k = "absoluteKeywordLocation" then some (.str (uri info))
  else if k = (if info.valid then "annotation" else "error") then told info.valid info
  else if k = (if info.valid then "annotations" else "errors") then (if us.isEmpty then none else some (.arr us))
  else none

mutual
/-- A unit of the verbose output for a result. -/
inductive VerboseUnit (uri : RInfo → String) : RNode → Value → Prop
  | mk {info cs o us} : (∀ k, member k o = verboseMember uri info us k) → VerboseUnits uri cs us →
      VerboseUnit uri (.mk info cs) o
/-- A unit for each child, in order. -/
inductive VerboseUnits (uri : RInfo → String) : List ((String × List String) × RNode) → List Value → Prop
  | nil : VerboseUnits uri [] []
  | cons {k c r o os} : VerboseUnit uri c o → VerboseUnits uri r os → VerboseUnits uri ((k, c) :: r) (o :: os)
end

end Jschon.Spec
