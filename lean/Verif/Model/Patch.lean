import Verif.Model.Pointer
import Verif.Model.Equality

/-!
# `jschon/jsonpatch.py`, as functions on values

The Python functions mutate the list or dict found at the parent location and return the document.
Here the mutation is the functional update `updateAt`.  `Verif/Model/PatchHeap.lean` models the
mutation itself, with references and `deepcopy`, and `Verif/Proof/PatchHeap.lean` relates the two.
-/

namespace Jschon

/-- The effect on a document of `f` mutating the object that `JSONPointer(ks).evaluate` finds
(`jschon/jsonpointer.py:199-219`).  `ks` is resolved as in `resolvePlain`. -/
def updateAt (f : Value → Except Exc Value) : List String → Value → Except Exc Value
  | [], v => f v
  | k :: ks, .obj kvs =>
    match dlookup k kvs with
    | some v =>
      match updateAt f ks v with
      | .ok v' => .ok (.obj (dset k v' kvs))
      | .error e => .error e
    | none => .error .ptrReference
  | k :: ks, .arr xs =>
    if jsonIndexRe.fullmatch k.toList then
      match pyInt k with
      | none => .error .valueError
      | some i =>
        match pyIndex xs i with
        | some v =>
          match updateAt f ks v with
          | .ok v' => .ok (.arr (xs.set i.toNat v'))
          | .error e => .error e
        | none => .error .ptrReference
    else .error .ptrReference
  | _ :: _, _ => .error .ptrReference

/-- `NodeType` with the index (`jschon/jsonpatch.py:186-191`). -/
inductive NodeT where
  | root
  | item (i : Nat)
  | itemNew (i : Nat)
  | prop (k : String)
  | propNew (k : String)
  deriving DecidableEq, Repr

/-- The array branch of `Node.__init__` for a sequence of length `n`
(`jschon/jsonpatch.py:208-219`). -/
def nodeSeq (n : Nat) (key : String) : Except Exc NodeT :=
  if key = "-" then .ok (.itemNew n)
  else
    match pyInt key with
    | none => .error .patchError
    | some i =>
      if i = (n : Int) then .ok (.itemNew n)
      else if 0 ≤ i ∧ i < (n : Int) then .ok (.item i.toNat)
      else .error .patchError

/-- `Node.__init__` once the parent is known (`jschon/jsonpatch.py:208-227`).  A string is a
`Sequence`, so it takes the array branch; another scalar reaches `assert False`. -/
def nodeKind (parent : Value) (key : String) : Except Exc NodeT :=
  match parent with
  | .arr xs => nodeSeq xs.length key
  | .str s => nodeSeq s.length key
  | .obj kvs => .ok (if (dlookup key kvs).isSome then .prop key else .propNew key)
  | _ => .error .assertionError

/-- `JSONPointerError` is the base class of the pointer exceptions (`jschon/exc.py`). -/
def isPtrErr : Exc → Bool
  | .ptrMalformed | .ptrReference => true
  | _ => false

/-- `Node(document, path)` (`jschon/jsonpatch.py:194-227`). -/
def patchNode (doc : Value) (path : Ptr) : Except Exc NodeT :=
  if path.len = 0 then .ok .root
  else
    match (path.slice none (some (-1))).evaluate doc with
    | .error e => .error (if isPtrErr e then .patchError else e)
    | .ok parent =>
      match path.item (-1) with
      | some key => nodeKind parent key
      | none => .error .indexError

/-- `parent.insert(i, value)`; a `str` has no such method. -/
def seqInsert (i : Nat) (value : Value) : Value → Except Exc Value
  | .arr xs => .ok (.arr (xs.insertIdx i value))
  | _ => .error .attributeError

/-- `parent[i] = value`; a `str` does not support it. -/
def seqSet (i : Nat) (value : Value) : Value → Except Exc Value
  | .arr xs => .ok (.arr (xs.set i value))
  | _ => .error .typeError

/-- `del parent[i]`; a `str` does not support it. -/
def seqDel (i : Nat) : Value → Except Exc Value
  | .arr xs => .ok (.arr (xs.eraseIdx i))
  | _ => .error .typeError

/-- `parent[k] = value` on a dict. -/
def mapSet (k : String) (value : Value) : Value → Except Exc Value
  | .obj kvs => .ok (.obj (dset k value kvs))
  | _ => .error .typeError

/-- `del parent[k]` on a dict. -/
def mapDel (k : String) : Value → Except Exc Value
  | .obj kvs => .ok (.obj (derase k kvs))
  | _ => .error .typeError

/-- The keys of the parent location, `path[:-1]`. -/
def parentKeys (path : Ptr) : List String := (path.slice none (some (-1))).keys

/-- `add(document, path, value)` (`jschon/jsonpatch.py:230-247`). -/
def patchAdd (doc : Value) (path : Ptr) (value : Value) : Except Exc Value :=
  match patchNode doc path with
  | .error e => .error e
  | .ok .root => .ok value
  | .ok (.item i) => updateAt (seqInsert i value) (parentKeys path) doc
  | .ok (.itemNew i) => updateAt (seqInsert i value) (parentKeys path) doc
  | .ok (.prop k) => updateAt (mapSet k value) (parentKeys path) doc
  | .ok (.propNew k) => updateAt (mapSet k value) (parentKeys path) doc

/-- `remove(document, path)` (`jschon/jsonpatch.py:250-265`). -/
def patchRemove (doc : Value) (path : Ptr) : Except Exc Value :=
  match patchNode doc path with
  | .error e => .error e
  | .ok .root => .ok .null
  | .ok (.item i) => updateAt (seqDel i) (parentKeys path) doc
  | .ok (.prop k) => updateAt (mapDel k) (parentKeys path) doc
  | .ok _ => .error .patchError

/-- `replace(document, path, value)` (`jschon/jsonpatch.py:268-285`). -/
def patchReplace (doc : Value) (path : Ptr) (value : Value) : Except Exc Value :=
  match patchNode doc path with
  | .error e => .error e
  | .ok .root => .ok value
  | .ok (.item i) => updateAt (seqSet i value) (parentKeys path) doc
  | .ok (.prop k) => updateAt (mapSet k value) (parentKeys path) doc
  | .ok _ => .error .patchError

/-- `move(document, path, from_)` (`jschon/jsonpatch.py:288-300`). -/
def patchMove (doc : Value) (path from_ : Ptr) : Except Exc Value :=
  match from_.evaluate doc with
  | .error e => .error (if isPtrErr e then .patchError else e)
  | .ok value =>
    match patchRemove doc from_ with
    | .error e => .error e
    | .ok doc' => patchAdd doc' path value

/-- `copy(document, path, from_)` (`jschon/jsonpatch.py:303-314`). -/
def patchCopy (doc : Value) (path from_ : Ptr) : Except Exc Value :=
  match from_.evaluate doc with
  | .error e => .error (if isPtrErr e then .patchError else e)
  | .ok value => patchAdd doc path value

/-- `test(document, path, value)` (`jschon/jsonpatch.py:317-332`).  `path.evaluate(document)` at
line 325 is outside any `try`. -/
def patchTest (doc : Value) (path : Ptr) (value : Value) : Except Exc Value :=
  match patchNode doc path with
  | .error e => .error e
  | .ok .root | .ok (.item _) | .ok (.prop _) =>
    match path.evaluate doc with
    | .error e => .error e
    | .ok v => if jsonNe v value then .error .patchError else .ok doc
  | .ok _ => .error .patchError

/-- `PatchOp` (`jschon/jsonpatch.py:24-30`). -/
inductive OpName where
  | add | remove | replace | move | copy | test
  deriving DecidableEq, Repr

/-- `PatchOp.value`. -/
def OpName.str : OpName → String
  | .add => "add" | .remove => "remove" | .replace => "replace"
  | .move => "move" | .copy => "copy" | .test => "test"

/-- `PatchOp(op)`; `none` is ValueError. -/
def OpName.ofStr (s : String) : Option OpName :=
  if s = "add" then some .add
  else if s = "remove" then some .remove
  else if s = "replace" then some .replace
  else if s = "move" then some .move
  else if s = "copy" then some .copy
  else if s = "test" then some .test
  else none

/-- A JSONPatchOperation instance (`jschon/jsonpatch.py:58-66`). -/
structure PatchOp where
  op : OpName
  path : Ptr
  value : Value
  from_ : Option Ptr

/-- `operation.apply(document)` (`jschon/jsonpatch.py:68-82`).  A `move` or `copy` without `from`
calls a method of `None`. -/
def PatchOp.apply (o : PatchOp) (doc : Value) : Except Exc Value :=
  match o.op with
  | .add => patchAdd doc o.path o.value
  | .remove => patchRemove doc o.path
  | .replace => patchReplace doc o.path o.value
  | .move =>
    match o.from_ with
    | some f => patchMove doc o.path f
    | none => .error .attributeError
  | .copy =>
    match o.from_ with
    | some f => patchCopy doc o.path f
    | none => .error .attributeError
  | .test => patchTest doc o.path o.value

/-- The loop of `JSONPatch.evaluate` (`jschon/jsonpatch.py:127-130`). -/
def patchApplyAll : List PatchOp → Value → Except Exc Value
  | [], doc => .ok doc
  | o :: os, doc =>
    match o.apply doc with
    | .ok doc' => patchApplyAll os doc'
    | .error e => .error e

/-- `JSONPatch(*ops).evaluate(document)` (`jschon/jsonpatch.py:124-130`); `deepcopy` does not change
the value. -/
def patchEvaluate (ops : List PatchOp) (doc : Value) : Except Exc Value := patchApplyAll ops doc

/-- `operation.asdict()` (`jschon/jsonpatch.py:84-95`); `str(None)` is `"None"`. -/
def PatchOp.asdict (o : PatchOp) : List (String × Value) :=
  [("op", .str o.op.str), ("path", .str o.path.str)] ++
  (match o.op with
   | .add | .replace | .test => [("value", o.value)]
   | .move | .copy => [("from", .str (match o.from_ with | some f => f.str | none => "None"))]
   | .remove => [])

/-- `JSONPatchOperation(**d)` (`jschon/jsonpatch.py:39-66`), for a dict whose `path`, `from` and
`from_` members, if present, are strings (other types are passed through by the constructor and are
not modelled: TypeError here). -/
def PatchOp.ofDict (d : List (String × Value)) : Except Exc PatchOp :=
  match dlookup "op" d, dlookup "path" d with
  | some (.str op), some (.str path) =>
    match OpName.ofStr op with
    | none => .error .valueError
    | some o =>
      match Ptr.parse path with
      | .error e => .error e
      | .ok p =>
        let value := (dlookup "value" d).getD .null
        let from_ : Option Value :=
          match dlookup "from_" d with
          | some (.str f) => some (.str f)
          | _ => dlookup "from" d
        match from_ with
        | none => .ok ⟨o, p, value, none⟩
        | some .null => .ok ⟨o, p, value, none⟩
        | some (.str f) =>
          match Ptr.parse f with
          | .error e => .error e
          | .ok q => .ok ⟨o, p, value, some q⟩
        | some _ => .error .typeError
  | some (.str _), some _ => .error .typeError
  | some _, some _ => .error .valueError
  | _, _ => .error .typeError

/-- `op == other` (`jschon/jsonpatch.py:97-104`). -/
def PatchOp.eq (a b : PatchOp) : Bool :=
  a.op == b.op && a.path.eq b.path &&
  (match a.from_, b.from_ with
   | some p, some q => p.eq q
   | none, none => true
   | _, _ => false) &&
  jsonEq a.value b.value

/-- `patch == other` (`jschon/jsonpatch.py:175-179`): equality of two lists of operations. -/
def patchEq : List PatchOp → List PatchOp → Bool
  | [], [] => true
  | a :: as, b :: bs => a.eq b && patchEq as bs
  | _, _ => false

/-- `patch.aslist()` (`jschon/jsonpatch.py:132-137`). -/
def patchAslist (ops : List PatchOp) : List (List (String × Value)) := ops.map PatchOp.asdict

/-- `JSONPatch(*dicts)` (`jschon/jsonpatch.py:114-122`). -/
def patchOfDicts : List (List (String × Value)) → Except Exc (List PatchOp)
  | [] => .ok []
  | d :: ds =>
    match PatchOp.ofDict d with
    | .error e => .error e
    | .ok o =>
      match patchOfDicts ds with
      | .error e => .error e
      | .ok os => .ok (o :: os)

end Jschon
