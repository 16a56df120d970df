import Verif.Spec.JsonHeap
import Verif.Spec.IntText

/-!
# What the keys of the items of an array become

Every item has its key as a label.  The code renumbers by slices with the index as it was given, so that a
negative index, or one beyond the end, puts the labels out of step with the positions.
-/

namespace Jschon.Spec

/-- The keys of the items denote the integers. -/
def Labelled (h : JHeap) (cs : List Ref) (zs : List Int) : Prop :=
  cs.length = zs.length ∧
  ∀ (j : Nat) c z, cs[j]? = some c → zs[j]? = some z → ∃ k, h.key c = some k ∧ PyIntText k z

/-- Where the slice `[i:]` of a list of `n` items begins. -/
def SliceFrom (n : Nat) (i : Int) (m : Nat) : Prop := SliceBound n 0 (some i) m

/-- `del a[i]`: the item goes, and those in the slice `[i:]` of what is left are counted down. -/
inductive DelLabels (i : Int) : List Int → List Int → Prop
  | mk {l r : List Int} {z m} : IndexAt i l.length r.length → SliceFrom (l ++ r).length i m →
      DelLabels i (l ++ z :: r) ((l ++ r).take m ++ ((l ++ r).drop m).map (fun z => z - 1))

/-- `a.insert(i, x)`: the new item is labelled `i`, and those in the slice `[i + 1:]` of the new list are
counted up. -/
inductive InsertLabels (i : Int) : List Int → List Int → Prop
  | mk {l r : List Int} {m} : SliceFrom (l ++ r).length i l.length →
      SliceFrom (l ++ i :: r).length (i + 1) m →
      InsertLabels i (l ++ r) ((l ++ i :: r).take m ++ ((l ++ i :: r).drop m).map (fun z => z + 1))

/-- `a[i] = x`: the new item is labelled `i`. -/
inductive SetLabels (i : Int) : List Int → List Int → Prop
  | mk {l r : List Int} {z} : IndexAt i l.length r.length → SetLabels i (l ++ z :: r) (l ++ i :: r)

/-- Every label is the position. -/
def InStep (zs : List Int) : Prop := ∀ (j : Nat) z, zs[j]? = some z → z = j

end Jschon.Spec
