import Verif.Model.Patch
import Verif.Model.JsonHeap

/-!
# `JSONPatch` as a `MutableSequence` (`jschon/jsonpatch.py:139-173`)

Indices that are neither `int` nor `slice` (TypeError) and slices with a step are not modelled.
-/

namespace Jschon

/-- An operation, or a dict that describes one. -/
inductive OpArg where
  | op (o : PatchOp)
  | dict (d : List (String × Value))

/-- `operation if isinstance(operation, JSONPatchOperation) else JSONPatchOperation(**operation)`
(`jschon/jsonpatch.py:157-158`, `:171-172`). -/
def OpArg.convert : OpArg → Except Exc PatchOp
  | .op o => .ok o
  | .dict d => PatchOp.ofDict d

/-- `patch[index]` for an int (`jschon/jsonpatch.py:149-150`). -/
def patchItem (p : List PatchOp) (i : Int) : Except Exc PatchOp :=
  match pyIndex p i with
  | some o => .ok o
  | none => .error .indexError

/-- `patch[i:j]` (`jschon/jsonpatch.py:151-152`); `none` is an omitted bound. -/
def patchSlice (p : List PatchOp) (i j : Option Int) : List PatchOp :=
  (p.take ((j.map (sliceBound p.length)).getD p.length)).drop ((i.map (sliceBound p.length)).getD 0)

/-- `patch[index] = operation` (`jschon/jsonpatch.py:155-159`): the patch afterwards, and the result. -/
def patchSetItem (p : List PatchOp) (i : Int) (a : OpArg) : List PatchOp × Except Exc Unit :=
  match a.convert with
  | .error e => (p, .error e)
  | .ok o =>
    match pyPos p.length i with
    | some n => (p.set n o, .ok ())
    | none => (p, .error .indexError)

/-- `del patch[index]` (`jschon/jsonpatch.py:161-163`). -/
def patchDelItem (p : List PatchOp) (i : Int) : List PatchOp × Except Exc Unit :=
  match pyPos p.length i with
  | some n => (p.eraseIdx n, .ok ())
  | none => (p, .error .indexError)

/-- `patch.insert(index, operation)` (`jschon/jsonpatch.py:169-173`). -/
def patchInsert (p : List PatchOp) (i : Int) (a : OpArg) : List PatchOp × Except Exc Unit :=
  match a.convert with
  | .error e => (p, .error e)
  | .ok o => (p.insertIdx (sliceBound p.length i) o, .ok ())

end Jschon
