import Verif.Model.Py

/-!
# `jschon/json.py`: equality of JSON instances

A JSON instance is represented by its value (`Verif/Model/JsonHeap.lean` treats instances as
objects and relates them to their values).
-/

namespace Jschon

/-- The type names of `jschon/json.py:89-91`. -/
inductive JType where
  | null | boolean | number | string | array | object
  deriving DecidableEq, Repr

/-- `JSON(v).type` (`jschon/json.py:120-151`). -/
def Value.type : Value → JType
  | .null => .null
  | .bool _ => .boolean
  | .num _ => .number
  | .str _ => .string
  | .arr _ => .array
  | .obj _ => .object

/-- `self.keys() == other.keys()`: `collections.abc.Set.__eq__` on two key views, that is equal
length and every key of the first is in the second. -/
def keysEq {β : Type} (a b : List (String × β)) : Bool :=
  a.length == b.length && a.all (fun kv => (dlookup kv.1 b).isSome)

mutual
/-- `JSON(a) == JSON(b)` (`jschon/json.py:277-289`).  For instances of different type `__eq__`
returns NotImplemented on both sides, and Python falls back to identity, which is false for two
different instances of different type. -/
def jsonEq : Value → Value → Bool
  | .null, .null => true
  | .bool a, .bool b => a == b
  | .num a, .num b => a.val == b.val
  | .str a, .str b => a == b
  | .arr xs, .arr ys => xs.length == ys.length && jsonEqItems xs ys
  | .obj as, .obj bs => keysEq as bs && jsonEqMembers as bs
  | _, _ => false
/-- `all(item == other[i] for i, item in enumerate(self))` -/
def jsonEqItems : List Value → List Value → Bool
  | [], _ => true
  | x :: xs, y :: ys => jsonEq x y && jsonEqItems xs ys
  | _ :: _, [] => false      -- IndexError; unreachable, the lengths are equal
/-- `all(item == other[k] for k, item in self.items())` -/
def jsonEqMembers : List (String × Value) → List (String × Value) → Bool
  | [], _ => true
  | (k, v) :: r, bs =>
    (match dlookup k bs with
     | some w => jsonEq v w
     | none => false)        -- KeyError; unreachable, the keys are equal
    && jsonEqMembers r bs
end

/-- `JSON(a) != JSON(b)`: the default `__ne__`, the negation of `__eq__`. -/
def jsonNe (a b : Value) : Bool := !jsonEq a b

end Jschon
