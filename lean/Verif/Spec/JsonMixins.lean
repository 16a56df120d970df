import Verif.Spec.JsonHeap
import Verif.Model.JsonMixins
import Verif.Spec.Value

/-!
# What the methods of `list` and `dict` do to plain values
-/

namespace Jschon

/-- `x.extend(ws)` on a list. -/
inductive PyExtend (ws : List Value) : Value → Value → Prop
  | mk {xs} : PyExtend ws (.arr xs) (.arr (xs ++ ws))

/-- `x.reverse()` on a list. -/
inductive PyReverse : Value → Value → Prop
  | mk {xs} : PyReverse (.arr xs) (.arr xs.reverse)

/-- `x.clear()` on a list. -/
inductive PyClear : Value → Value → Prop
  | mk {xs} : PyClear (.arr xs) (.arr [])

/-- `x.update(kws)` on a dict: the assignments in order. -/
inductive PyUpdate : List (String × Value) → Value → Value → Prop
  | nil {d} : PyUpdate [] (.obj d) (.obj d)
  | cons {k w kws a b c} : PySetKey k w a b → PyUpdate kws b c → PyUpdate ((k, w) :: kws) a c

/-- `list(v)` for a plain value: the items, the keys or the characters. -/
inductive PyIter : Value → List Value → Prop
  | arr {xs} : PyIter (.arr xs) xs
  | obj {kvs} : PyIter (.obj kvs) (kvs.map (fun kv => .str kv.1))
  | str {s} : PyIter (.str s) (s.toList.map (fun c => .str (String.singleton c)))

/-- The values that an iterable argument yields, none of which contains instance `r`. -/
def JIter.Yields (h : JHeap) (r : Ref) : JIter → List Value → Prop
  | .list os, ws => (∀ o ∈ os, o.Ok h) ∧ (∀ x, JArg.json x ∈ os → ¬ Within h x r) ∧ ws = os.map (·.val h)
  | .json s, ws => s < h.next ∧ (s = r ∨ ¬ Within h s r) ∧ PyIter (val h s) ws

/-- The members that an argument of `update` has, none of which contains instance `r`. -/
def JPairs.Yields (h : JHeap) (r : Ref) : JPairs → List (String × Value) → Prop
  | .pairs kos, kws => (∀ ko ∈ kos, ko.2.Ok h) ∧ (∀ k x, (k, JArg.json x) ∈ kos → ¬ Within h x r) ∧
      kws = kos.map (fun ko => (ko.1, ko.2.val h))
  | .json s, kws => s < h.next ∧ (s = r ∨ ¬ Within h s r) ∧ val h s = .obj kws

end Jschon
