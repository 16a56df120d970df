import Verif.Spec.Value

/-!
# The order of numbers and strings
-/

namespace Jschon.Spec

/-- `a` comes before `b` in the order by code points: it is a proper initial part of `b`, or the first
code points that differ are in that order. -/
inductive Precedes : List Char → List Char → Prop
  | prefix {a c r} : Precedes a (a ++ c :: r)
  | differ {p x y r s} : x.toNat < y.toNat → Precedes (p ++ x :: r) (p ++ y :: s)

/-- `a < b` for numbers, by exact value, and for strings. -/
inductive Less : Value → Value → Prop
  | num {a b : Num} : a.val < b.val → Less (.num a) (.num b)
  | str {a b : String} : Precedes a.toList b.toList → Less (.str a) (.str b)

/-- Both are numbers, or both are strings. -/
inductive Comparable : Value → Value → Prop
  | num {a b} : Comparable (.num a) (.num b)
  | str {a b} : Comparable (.str a) (.str b)

end Jschon.Spec
