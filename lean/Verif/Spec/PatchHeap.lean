import Verif.Model.PatchHeap

/-!
# Heaps of Python objects: reachability, denotation
-/

namespace Jschon.Spec

/-- The object at `a` can be reached from `p`. -/
inductive Reaches (h : PHeap) : PV → Nat → Prop
  | here {a} : Reaches h (.ref a) a
  | step {a q b} : q ∈ (h.cell a).kids → Reaches h q b → Reaches h (.ref a) b

/-- `p` is allocated. -/
def PV.Below (n : Nat) : PV → Prop
  | .sc _ => True
  | .ref a => a < n

/-- There are no dangling references. -/
def Closed (h : PHeap) : Prop := ∀ a, a < h.next → ∀ q ∈ (h.cell a).kids, PV.Below h.next q

mutual
/-- The object `p` has value `v`, and `fp` lists the addresses of its lists and dicts, one entry for
each occurrence.  With `fp.Nodup` no list or dict occurs twice in it. -/
inductive Owns (h : PHeap) : PV → Value → List Nat → Prop
  | sc {s : Scalar} : Owns h (.sc s) s.val []
  | list {a ps vs fp} : h.cell a = .list ps → OwnsAll h ps vs fp → Owns h (.ref a) (.arr vs) (a :: fp)
  | dict {a ms kvs fp} : h.cell a = .dict ms → dkeys ms = dkeys kvs →
      OwnsAll h (ms.map Prod.snd) (kvs.map Prod.snd) fp → Owns h (.ref a) (.obj kvs) (a :: fp)
/-- `Owns` for a sequence of objects. -/
inductive OwnsAll (h : PHeap) : List PV → List Value → List Nat → Prop
  | nil : OwnsAll h [] [] []
  | cons {p ps v vs f fs} : Owns h p v f → OwnsAll h ps vs fs →
      OwnsAll h (p :: ps) (v :: vs) (f ++ fs)
end

/-- `p` is a document with value `v` in which no list or dict occurs twice (as `json.loads` makes
them). -/
def Tree (h : PHeap) (p : PV) (v : Value) : Prop :=
  ∃ fp, Owns h p v fp ∧ fp.Nodup ∧ ∀ a ∈ fp, a < h.next

/-- The patch `os` has the operations `vos`: the same names and pointers, and values without an
occurrence of the same list or dict twice in one value. -/
inductive PatchDenotes (h : PHeap) : List POp → List PatchOp → Prop
  | nil : PatchDenotes h [] []
  | cons {o vo os vos} : o.op = vo.op → o.path = vo.path → o.from_ = vo.from_ →
      Tree h o.value vo.value → PatchDenotes h os vos → PatchDenotes h (o :: os) (vo :: vos)

end Jschon.Spec
