import Verif.Model.Equality

/-!
# `jschon/json.py:291-325`: the comparison operators of JSON instances

An instance is represented by its value, as in `Verif/Model/Equality.lean`.  The other operand is an
instance or a plain value; for numbers and strings, which are documented, it makes no difference,
since `self.data` is the plain value.  Arrays of instances are compared as Python compares lists, by the
first items that are not equal; the documentation does not promise it.
-/

namespace Jschon

/-- `>=`, `>`, `<=`, `<`. -/
inductive Cmp where
  | ge | gt | le | lt
  deriving DecidableEq

/-- The comparison of two Python numbers; a bool is an int. -/
def cmpNum : Cmp → Rat → Rat → Bool
  | .ge, a, b => decide (b ≤ a)
  | .gt, a, b => decide (b < a)
  | .le, a, b => decide (a ≤ b)
  | .lt, a, b => decide (a < b)

/-- The comparison of two Python strings: by the first code points that differ, otherwise by
length. -/
def cmpStr (op : Cmp) : List Char → List Char → Bool
  | a :: as, b :: bs => if a = b then cmpStr op as bs else cmpNum op (a.toNat : Rat) (b.toNat : Rat)
  | as, bs => cmpNum op (as.length : Rat) (bs.length : Rat)

/-- The number that a bool is. -/
def boolNum : Bool → Rat
  | true => 1
  | false => 0

mutual
/-- `JSON(a) >= JSON(b)` and the like (`jschon/json.py:291-325`): the comparison of the data. -/
def jsonCmp (op : Cmp) : Value → Value → Except Exc Bool
  | .num a, .num b => .ok (cmpNum op a.val b.val)
  | .bool a, .bool b => .ok (cmpNum op (boolNum a) (boolNum b))
  | .bool a, .num b => .ok (cmpNum op (boolNum a) b.val)
  | .num a, .bool b => .ok (cmpNum op a.val (boolNum b))
  | .str a, .str b => .ok (cmpStr op a.toList b.toList)
  | .arr xs, .arr ys => jsonCmpItems op xs ys
  | _, _ => .error .typeError
/-- The comparison of two lists of instances. -/
def jsonCmpItems (op : Cmp) : List Value → List Value → Except Exc Bool
  | x :: xs, y :: ys => if jsonEq x y then jsonCmpItems op xs ys else jsonCmp op x y
  | xs, ys => .ok (cmpNum op (xs.length : Rat) (ys.length : Rat))
end

end Jschon
