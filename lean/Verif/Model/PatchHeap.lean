import Verif.Model.Patch

/-!
# `jschon/jsonpatch.py`, on a heap of Python lists and dicts

The functions of `jschon/jsonpatch.py` mutate lists and dicts in place and use `deepcopy`.  Here a
list or dict is a cell of a heap, and a document is a reference, so that aliasing, sharing and
cycles are all possible.
-/

namespace Jschon

/-- Immutable Python objects of JSON-compatible values; their identity is not observable. -/
inductive Scalar where
  | null
  | bool (b : Bool)
  | num (n : Num)
  | str (s : String)

/-- The value of a scalar. -/
def Scalar.val : Scalar → Value
  | .null => .null
  | .bool b => .bool b
  | .num n => .num n
  | .str s => .str s

/-- A Python object: a scalar, or a reference to a list or dict. -/
inductive PV where
  | sc (s : Scalar)
  | ref (a : Nat)

/-- The content of a list or dict object. -/
inductive Cell where
  | list (ps : List PV)
  | dict (ms : List (String × PV))

/-- The objects that a list or dict holds. -/
def Cell.kids : Cell → List PV
  | .list ps => ps
  | .dict ms => ms.map Prod.snd

/-- The heap: the cells with addresses below `next` are allocated. -/
structure PHeap where
  next : Nat
  cell : Nat → Cell

/-- In-place mutation of the object at `a`. -/
def PHeap.setCell (h : PHeap) (a : Nat) (c : Cell) : PHeap :=
  { h with cell := fun b => if b = a then c else h.cell b }

/-- Renaming of addresses. -/
def PV.shift (n : Nat) : PV → PV
  | .sc s => .sc s
  | .ref a => .ref (n + a)

/-- Renaming of addresses. -/
def Cell.shift (n : Nat) : Cell → Cell
  | .list ps => .list (ps.map (PV.shift n))
  | .dict ms => .dict (ms.map (fun m => (m.1, m.2.shift n)))

/-- `copy.deepcopy(p)`: new objects, one for each object reachable from `p`, with the same sharing
(and cycles) as the originals.  Addresses are not observable, so the copy of the object at `a` is put
at `next + a`; the copies of objects that are not reachable from `p` are garbage. -/
def PHeap.deepcopy (h : PHeap) (p : PV) : PHeap × PV :=
  (⟨h.next + h.next, fun a => if a < h.next then h.cell a else (h.cell (a - h.next)).shift h.next⟩,
   p.shift h.next)

/-- `JSONPointer(ks).evaluate(p)` for a plain document (`jschon/jsonpointer.py:199-219`), as
`resolvePlain`. -/
def resolvePV (h : PHeap) : List String → PV → Except Exc PV
  | [], p => .ok p
  | _ :: _, .sc _ => .error .ptrReference
  | k :: ks, .ref a =>
    match h.cell a with
    | .dict ms =>
      match dlookup k ms with
      | some q => resolvePV h ks q
      | none => .error .ptrReference
    | .list ps =>
      if jsonIndexRe.fullmatch k.toList then
        match pyInt k with
        | none => .error .valueError
        | some i =>
          match pyIndex ps i with
          | some q => resolvePV h ks q
          | none => .error .ptrReference
      else .error .ptrReference

/-- `Node.__init__` once the parent is known (`jschon/jsonpatch.py:208-227`). -/
def nodeKindPV (h : PHeap) (parent : PV) (key : String) : Except Exc NodeT :=
  match parent with
  | .sc (.str s) => nodeSeq s.length key
  | .sc _ => .error .assertionError
  | .ref a =>
    match h.cell a with
    | .list ps => nodeSeq ps.length key
    | .dict ms => .ok (if (dlookup key ms).isSome then .prop key else .propNew key)

/-- `Node(document, path)` with its `parent` (`jschon/jsonpatch.py:194-227`). -/
def nodePV (h : PHeap) (doc : PV) (path : Ptr) : Except Exc (NodeT × PV) :=
  if path.len = 0 then .ok (.root, .sc .null)
  else
    match resolvePV h (path.slice none (some (-1))).keys doc with
    | .error e => .error (if isPtrErr e then .patchError else e)
    | .ok parent =>
      match path.item (-1) with
      | some key =>
        match nodeKindPV h parent key with
        | .ok t => .ok (t, parent)
        | .error e => .error e
      | none => .error .indexError

/-- `parent.insert(i, value)`. -/
def insertPV (h : PHeap) (parent : PV) (i : Nat) (v : PV) : PHeap × Except Exc Unit :=
  match parent with
  | .ref a =>
    match h.cell a with
    | .list ps => (h.setCell a (.list (ps.insertIdx i v)), .ok ())
    | .dict _ => (h, .error .attributeError)
  | .sc _ => (h, .error .attributeError)

/-- `parent[i] = value` for an int. -/
def setItemPV (h : PHeap) (parent : PV) (i : Nat) (v : PV) : PHeap × Except Exc Unit :=
  match parent with
  | .ref a =>
    match h.cell a with
    | .list ps => (h.setCell a (.list (ps.set i v)), .ok ())
    | .dict _ => (h, .error .typeError)
  | .sc _ => (h, .error .typeError)

/-- `del parent[i]` for an int. -/
def delItemPV (h : PHeap) (parent : PV) (i : Nat) : PHeap × Except Exc Unit :=
  match parent with
  | .ref a =>
    match h.cell a with
    | .list ps => (h.setCell a (.list (ps.eraseIdx i)), .ok ())
    | .dict _ => (h, .error .typeError)
  | .sc _ => (h, .error .typeError)

/-- `parent[k] = value` for a str. -/
def setKeyPV (h : PHeap) (parent : PV) (k : String) (v : PV) : PHeap × Except Exc Unit :=
  match parent with
  | .ref a =>
    match h.cell a with
    | .dict ms => (h.setCell a (.dict (dset k v ms)), .ok ())
    | .list _ => (h, .error .typeError)
  | .sc _ => (h, .error .typeError)

/-- `del parent[k]` for a str. -/
def delKeyPV (h : PHeap) (parent : PV) (k : String) : PHeap × Except Exc Unit :=
  match parent with
  | .ref a =>
    match h.cell a with
    | .dict ms => (h.setCell a (.dict (derase k ms)), .ok ())
    | .list _ => (h, .error .typeError)
  | .sc _ => (h, .error .typeError)

/-- `return document` after the mutation. -/
def thenDoc (doc : PV) (x : PHeap × Except Exc Unit) : PHeap × Except Exc PV :=
  match x.2 with
  | .ok () => (x.1, .ok doc)
  | .error e => (x.1, .error e)

/-- `add(document, path, value)` (`jschon/jsonpatch.py:230-247`). -/
def addPV (h : PHeap) (doc : PV) (path : Ptr) (value : PV) : PHeap × Except Exc PV :=
  match nodePV h doc path with
  | .error e => (h, .error e)
  | .ok (t, parent) =>
    let h1 := (h.deepcopy value).1
    let v := (h.deepcopy value).2
    match t with
    | .root => (h1, .ok v)
    | .item i => thenDoc doc (insertPV h1 parent i v)
    | .itemNew i => thenDoc doc (insertPV h1 parent i v)
    | .prop k => thenDoc doc (setKeyPV h1 parent k v)
    | .propNew k => thenDoc doc (setKeyPV h1 parent k v)

/-- `remove(document, path)` (`jschon/jsonpatch.py:250-265`). -/
def removePV (h : PHeap) (doc : PV) (path : Ptr) : PHeap × Except Exc PV :=
  match nodePV h doc path with
  | .error e => (h, .error e)
  | .ok (t, parent) =>
    match t with
    | .root => (h, .ok (.sc .null))
    | .item i => thenDoc doc (delItemPV h parent i)
    | .prop k => thenDoc doc (delKeyPV h parent k)
    | _ => (h, .error .patchError)

/-- `replace(document, path, value)` (`jschon/jsonpatch.py:268-285`). -/
def replacePV (h : PHeap) (doc : PV) (path : Ptr) (value : PV) : PHeap × Except Exc PV :=
  match nodePV h doc path with
  | .error e => (h, .error e)
  | .ok (t, parent) =>
    let h1 := (h.deepcopy value).1
    let v := (h.deepcopy value).2
    match t with
    | .root => (h1, .ok v)
    | .item i => thenDoc doc (setItemPV h1 parent i v)
    | .prop k => thenDoc doc (setKeyPV h1 parent k v)
    | _ => (h1, .error .patchError)

/-- `move(document, path, from_)` (`jschon/jsonpatch.py:288-300`). -/
def movePV (h : PHeap) (doc : PV) (path from_ : Ptr) : PHeap × Except Exc PV :=
  match resolvePV h from_.keys doc with
  | .error e => (h, .error (if isPtrErr e then .patchError else e))
  | .ok value =>
    match removePV h doc from_ with
    | (h1, .error e) => (h1, .error e)
    | (h1, .ok doc') => addPV h1 doc' path value

/-- `copy(document, path, from_)` (`jschon/jsonpatch.py:303-314`). -/
def copyPV (h : PHeap) (doc : PV) (path from_ : Ptr) : PHeap × Except Exc PV :=
  match resolvePV h from_.keys doc with
  | .error e => (h, .error (if isPtrErr e then .patchError else e))
  | .ok value => addPV h doc path value

/-- The value of an object, down to `fuel` levels of nesting. -/
def readPV (h : PHeap) : Nat → PV → Value
  | _, .sc s => s.val
  | 0, .ref _ => .null
  | n + 1, .ref a =>
    match h.cell a with
    | .list ps => .arr (ps.map (readPV h n))
    | .dict ms => .obj (ms.map (fun m => (m.1, readPV h n m.2)))

/-- `test(document, path, value)` (`jschon/jsonpatch.py:317-332`).  `JSON(…)` reads the whole object;
in a heap without cycles the nesting is not deeper than the number of cells.  (On a cyclic object
Python exceeds its recursion limit instead.) -/
def testPV (h : PHeap) (doc : PV) (path : Ptr) (value : PV) : PHeap × Except Exc PV :=
  match nodePV h doc path with
  | .error e => (h, .error e)
  | .ok (t, _) =>
    match t with
    | .root | .item _ | .prop _ =>
      match resolvePV h path.keys doc with
      | .error e => (h, .error e)
      | .ok q =>
        if jsonNe (readPV h h.next q) (readPV h h.next value) then (h, .error .patchError)
        else (h, .ok doc)
    | _ => (h, .error .patchError)

/-- A JSONPatchOperation instance; `value` is the object passed by the caller, not a copy
(`jschon/jsonpatch.py:58-66`). -/
structure POp where
  op : OpName
  path : Ptr
  value : PV
  from_ : Option Ptr

/-- `operation.apply(document)` (`jschon/jsonpatch.py:68-82`). -/
def POp.apply (o : POp) (h : PHeap) (doc : PV) : PHeap × Except Exc PV :=
  match o.op with
  | .add => addPV h doc o.path o.value
  | .remove => removePV h doc o.path
  | .replace => replacePV h doc o.path o.value
  | .move =>
    match o.from_ with
    | some f => movePV h doc o.path f
    | none => (h, .error .attributeError)
  | .copy =>
    match o.from_ with
    | some f => copyPV h doc o.path f
    | none => (h, .error .attributeError)
  | .test => testPV h doc o.path o.value

/-- The loop of `JSONPatch.evaluate` (`jschon/jsonpatch.py:128-130`). -/
def applyAllPV : List POp → PHeap → PV → PHeap × Except Exc PV
  | [], h, doc => (h, .ok doc)
  | o :: os, h, doc =>
    match o.apply h doc with
    | (h1, .ok doc') => applyAllPV os h1 doc'
    | (h1, .error e) => (h1, .error e)

/-- `JSONPatch(*ops).evaluate(document)` (`jschon/jsonpatch.py:124-130`). -/
def evaluatePV (ops : List POp) (h : PHeap) (doc : PV) : PHeap × Except Exc PV :=
  applyAllPV ops (h.deepcopy doc).1 (h.deepcopy doc).2

end Jschon
