import Verif.Model.RelPointer
import Verif.Model.Equality
import Verif.Model.Patch

/-!
# `jschon/json.py`: JSON instances as mutable objects

A heap of JSON nodes with parent links, keys and the two cached properties `path` and `value`.
Every method returns the new heap and its outcome, so that the effects of a method that raises are
kept.  Modelled: nodes of class `JSON` (no `itemclass`), int indices on arrays and str keys on
objects (an int index on an object would make a non-string dict key, a slice on an array is not
used by the modelled methods).

Python recursion over the tree has no bound; here it takes a fuel argument, always `h.next`.  The
proofs show that this is enough for every heap that the operations can produce.
-/

namespace Jschon

/-- The identity of a JSON instance.  Later instances have greater numbers. -/
notation "Ref" => Nat

/-- `self.data` (`jschon/json.py:93-106`), which determines `self.type`. -/
inductive JData where
  | null
  | bool (b : Bool)
  | num (n : Num)
  | str (s : String)
  | arr (items : List Ref)
  | obj (members : List (String × Ref))

/-- A JSON instance (`jschon/json.py:64-151`); `pathC` and `valueC` are the values that
`cached_property` keeps for `path` and `value`. -/
structure JNode where
  data : JData
  parent : Option Ref
  key : Option String
  pathC : Option Ptr := none
  valueC : Option Value := none

/-- The instances created so far: those numbered below `next`. -/
structure JHeap where
  next : Nat
  node : Ref → Option JNode

/-- No instances. -/
def JHeap.empty : JHeap := ⟨0, fun _ => none⟩

/-- Attribute assignment on instance `r`. -/
def JHeap.alter (h : JHeap) (r : Ref) (f : JNode → JNode) : JHeap :=
  ⟨h.next, fun x => if x = r then (h.node x).map f else h.node x⟩

/-- Creation of an instance, with number `h.next`. -/
def JHeap.push (h : JHeap) (n : JNode) : JHeap :=
  ⟨h.next + 1, fun x => if x = h.next then some n else h.node x⟩

/-- `r.data = d`. -/
def JHeap.setData (h : JHeap) (r : Ref) (d : JData) : JHeap := h.alter r (fun n => { n with data := d })

/-- `r.data`. -/
def JHeap.data (h : JHeap) (r : Ref) : JData := ((h.node r).map JNode.data).getD .null

/-- `r.parent`. -/
def JHeap.parent (h : JHeap) (r : Ref) : Option Ref := (h.node r).bind JNode.parent

/-- `r.key`. -/
def JHeap.key (h : JHeap) (r : Ref) : Option String := (h.node r).bind JNode.key

/-- The child instances. -/
def JData.kids : JData → List Ref
  | .arr cs => cs
  | .obj ms => ms.map Prod.snd
  | _ => []

/-! ## Construction -/

mutual
/-- The part of `__init__` that computes `self.data` for instance `r` (`jschon/json.py:120-151`). -/
def buildData (h : JHeap) (r : Ref) : Value → JHeap × JData
  | .null => (h, .null)
  | .bool b => (h, .bool b)
  | .num n => (h, .num n)
  | .str s => (h, .str s)
  | .arr xs => let p := buildItems h r 0 xs; (p.1, .arr p.2)
  | .obj kvs => let p := buildMembers h r kvs; (p.1, .obj p.2)
/-- `[JSON(v, parent=self, key=str(i)) for i, v in enumerate(value)]` (`jschon/json.py:138-141`). -/
def buildItems (h : JHeap) (r : Ref) (i : Nat) : List Value → JHeap × List Ref
  | [] => (h, [])
  | x :: xs =>
    let c := h.next
    let h1 := h.push { data := .null, parent := some r, key := some (natStr i) }
    let p := buildData h1 c x
    let q := buildItems (p.1.setData c p.2) r (i + 1) xs
    (q.1, c :: q.2)
/-- `{k: JSON(v, parent=self, key=k) for k, v in value.items()}` (`jschon/json.py:145-148`). -/
def buildMembers (h : JHeap) (r : Ref) : List (String × Value) → JHeap × List (String × Ref)
  | [] => (h, [])
  | (k, x) :: kvs =>
    let c := h.next
    let h1 := h.push { data := .null, parent := some r, key := some k }
    let p := buildData h1 c x
    let q := buildMembers (p.1.setData c p.2) r kvs
    (q.1, (k, c) :: q.2)
end

/-- `JSON(v, parent=parent, key=key)` (`jschon/json.py:64-151`). -/
def newJson (h : JHeap) (v : Value) (parent : Option Ref) (key : Option String) : JHeap × Ref :=
  let c := h.next
  let p := buildData (h.push { data := .null, parent := parent, key := key }) c v
  (p.1.setData c p.2, c)

/-- `self.__init__(v, parent=self.parent, key=self.key, ...)` (`jschon/json.py:338-344`,
`:387-393`, `:422-428`): the data of an existing instance is computed anew. -/
def reinit (h : JHeap) (r : Ref) (v : Value) : JHeap :=
  let p := buildData h r v
  p.1.setData r p.2

/-! ## The cached properties -/

/-- The loop of `path` (`jschon/json.py:156-161`).  A child always has a key. -/
def walkKeys : Nat → JHeap → Ref → List String
  | 0, _, _ => []
  | f + 1, h, r =>
    match h.parent r with
    | none => []
    | some p => walkKeys f h p ++ [(h.key r).getD ""]

/-- `self.path` (`jschon/json.py:153-161`). -/
def readPath (h : JHeap) (r : Ref) : JHeap × Ptr :=
  match (h.node r).bind JNode.pathC with
  | some p => (h, p)
  | none =>
    let p : Ptr := ⟨walkKeys h.next h r⟩
    (h.alter r (fun n => { n with pathC := some p }), p)

/-- `[item.value for item in self.data]` -/
def readItems (rd : JHeap → Ref → JHeap × Value) (h : JHeap) : List Ref → JHeap × List Value
  | [] => (h, [])
  | c :: cs =>
    let p := rd h c
    let q := readItems rd p.1 cs
    (q.1, p.2 :: q.2)

/-- `{key: item.value for key, item in self.data.items()}` -/
def readMembers (rd : JHeap → Ref → JHeap × Value) (h : JHeap) :
    List (String × Ref) → JHeap × List (String × Value)
  | [] => (h, [])
  | (k, c) :: ms =>
    let p := rd h c
    let q := readMembers rd p.1 ms
    (q.1, (k, p.2) :: q.2)

/-- `self.value` (`jschon/json.py:163-170`), with fuel. -/
def readValueF : Nat → JHeap → Ref → JHeap × Value
  | 0, h, _ => (h, .null)
  | f + 1, h, r =>
    match h.node r with
    | none => (h, .null)
    | some n =>
      match n.valueC with
      | some v => (h, v)
      | none =>
        let p : JHeap × Value :=
          match n.data with
          | .null => (h, .null)
          | .bool b => (h, .bool b)
          | .num x => (h, .num x)
          | .str s => (h, .str s)
          | .arr cs => let p := readItems (readValueF f) h cs; (p.1, .arr p.2)
          | .obj ms => let p := readMembers (readValueF f) h ms; (p.1, .obj p.2)
        (p.1.alter r (fun n => { n with valueC := some p.2 }), p.2)

/-- `self.value`. -/
def readValue (h : JHeap) (r : Ref) : JHeap × Value := readValueF h.next h r

/-- `self._invalidate_path()` (`jschon/json.py:172-182`), with fuel. -/
def invalPathF : Nat → JHeap → Ref → JHeap
  | 0, h, _ => h
  | f + 1, h, r =>
    let h1 := h.alter r (fun n => { n with pathC := none })
    (h1.data r).kids.foldl (invalPathF f) h1

/-- `self._invalidate_path()`. -/
def invalPath (h : JHeap) (r : Ref) : JHeap := invalPathF h.next h r

/-- `self._invalidate_value()` (`jschon/json.py:184-190`), with fuel. -/
def invalValueF : Nat → JHeap → Ref → JHeap
  | 0, h, _ => h
  | f + 1, h, r =>
    let h1 := h.alter r (fun n => { n with valueC := none })
    match h1.parent r with
    | none => h1
    | some p => invalValueF f h1 p

/-- `self._invalidate_value()`. -/
def invalValue (h : JHeap) (r : Ref) : JHeap := invalValueF h.next h r

/-! ## Item access -/

/-- An argument that is a JSON instance or a plain Python value. -/
inductive JArg where
  | plain (v : Value)
  | json (r : Ref)

/-- `obj.value if isinstance(obj, JSON) else obj`. -/
def argValue (h : JHeap) : JArg → JHeap × Value
  | .plain v => (h, v)
  | .json r => readValue h r

/-- The position that index `i` denotes in a list of length `n`; `none` is IndexError. -/
def pyPos (n : Nat) (i : Int) : Option Nat :=
  if 0 ≤ i then (if i.toNat < n then some i.toNat else none)
  else if 0 ≤ (n : Int) + i then some ((n : Int) + i).toNat
  else none

/-- `self[i]` (`jschon/json.py:229-234`).  A dict has no int key.  On a string, for which this is not supported, the
code returns a str or raises IndexError; here it is TypeError, as for the other types. -/
def getIdx (h : JHeap) (r : Ref) (i : Int) : Except Exc Ref :=
  match h.data r with
  | .arr cs => match pyIndex cs i with | some c => .ok c | none => .error .indexError
  | .obj _ => .error .keyError
  | _ => .error .typeError

/-- `self[k]` (`jschon/json.py:229-234`). -/
def getKey (h : JHeap) (r : Ref) (k : String) : Except Exc Ref :=
  match h.data r with
  | .obj ms => match dlookup k ms with | some c => .ok c | none => .error .keyError
  | _ => .error .typeError

/-- `self[i] = obj` (`jschon/json.py:236-247`): the child is constructed before the assignment is
tried. -/
def setIdx (h : JHeap) (r : Ref) (i : Int) (o : JArg) : JHeap × Except Exc Unit :=
  let a := argValue h o
  let b := newJson a.1 a.2 (some r) (some (intStr i))
  match b.1.data r with
  | .arr cs =>
    match pyPos cs.length i with
    | some n => (invalValue (b.1.setData r (.arr (cs.set n b.2))) r, .ok ())
    | none => (b.1, .error .indexError)
  | _ => (b.1, .error .typeError)

/-- `self[k] = obj` (`jschon/json.py:236-247`). -/
def setKey (h : JHeap) (r : Ref) (k : String) (o : JArg) : JHeap × Except Exc Unit :=
  let a := argValue h o
  let b := newJson a.1 a.2 (some r) (some k)
  match b.1.data r with
  | .obj ms => (invalValue (b.1.setData r (.obj (dset k b.2 ms))) r, .ok ())
  | _ => (b.1, .error .typeError)

/-- `for item in items: item.key = str(int(item.key) + d); item._invalidate_path()`
(`jschon/json.py:257-259`, `:273-275`). -/
def shiftKeys (d : Int) (h : JHeap) : List Ref → JHeap × Except Exc Unit
  | [] => (h, .ok ())
  | c :: cs =>
    match h.key c with
    | none => (h, .error .typeError)
    | some k =>
      match pyInt k with
      | none => (h, .error .valueError)
      | some z =>
        shiftKeys d (invalPath (h.alter c (fun n => { n with key := some (intStr (z + d)) })) c) cs

/-- `del self[i]` on an array (`jschon/json.py:249-259`). -/
def delIdx (h : JHeap) (r : Ref) (i : Int) : JHeap × Except Exc Unit :=
  match h.data r with
  | .arr cs =>
    match pyPos cs.length i with
    | none => (h, .error .indexError)
    | some n =>
      let cs' := cs.eraseIdx n
      let h1 := invalValue (h.setData r (.arr cs')) r
      shiftKeys (-1) h1 (cs'.drop (sliceBound cs'.length i))
  | .obj _ => (h, .error .keyError)
  | _ => (h, .error .typeError)

/-- `del self[k]` on an object (`jschon/json.py:249-255`). -/
def delKey (h : JHeap) (r : Ref) (k : String) : JHeap × Except Exc Unit :=
  match h.data r with
  | .obj ms =>
    match dlookup k ms with
    | none => (h, .error .keyError)
    | some _ => (invalValue (h.setData r (.obj (derase k ms))) r, .ok ())
  | _ => (h, .error .typeError)

/-- `self.insert(i, obj)` (`jschon/json.py:261-275`); `list.insert` clamps the index.  The
attribute `self.data.insert` is looked up before the child is constructed. -/
def insertIdx (h : JHeap) (r : Ref) (i : Int) (o : JArg) : JHeap × Except Exc Unit :=
  match h.data r with
  | .arr cs =>
    let a := argValue h o
    let b := newJson a.1 a.2 (some r) (some (intStr i))
    let cs' := List.insertIdx cs (sliceBound cs.length i) b.2
    let h1 := invalValue (b.1.setData r (.arr cs')) r
    shiftKeys 1 h1 (cs'.drop (sliceBound cs'.length (i + 1)))
  | _ => (h, .error .attributeError)

/-- `len(self)` (`jschon/json.py:215-220`). -/
def lenJson (h : JHeap) (r : Ref) : Except Exc Nat :=
  match h.data r with
  | .str s => .ok s.length
  | .arr cs => .ok cs.length
  | .obj ms => .ok ms.length
  | _ => .error .typeError

/-- `self.type` (`jschon/json.py:120-148`), set together with `self.data`. -/
def typeJson (h : JHeap) (r : Ref) : JType :=
  match h.data r with
  | .null => .null
  | .bool _ => .boolean
  | .num _ => .number
  | .str _ => .string
  | .arr _ => .array
  | .obj _ => .object

/-- `bool(self)` (`jschon/json.py:211-213`): Python truth of `self.data`. -/
def boolJson (h : JHeap) (r : Ref) : Bool :=
  match h.data r with
  | .null => false
  | .bool b => b
  | .num n => n.val != 0
  | .str s => s.length != 0
  | .arr cs => cs.length != 0
  | .obj ms => ms.length != 0

/-- `list(self)` (`jschon/json.py:222-227`) for an object: the keys in order; `self.keys()` is a view
of it. -/
def keysJson (h : JHeap) (r : Ref) : Except Exc (List String) :=
  match h.data r with
  | .obj ms => .ok (dkeys ms)
  | _ => .error .typeError

/-- `self.append(obj)`: the mixin of `MutableSequence`, `self.insert(len(self), obj)`. -/
def appendJson (h : JHeap) (r : Ref) (o : JArg) : JHeap × Except Exc Unit :=
  match lenJson h r with
  | .error e => (h, .error e)
  | .ok n => insertIdx h r n o

/-- `self.pop(i)`: the mixin of `MutableSequence`, `v = self[i]; del self[i]; return v`.  Without an
argument `i` is -1. -/
def popIdx (h : JHeap) (r : Ref) (i : Int) : JHeap × Except Exc Ref :=
  match getIdx h r i with
  | .error e => (h, .error e)
  | .ok c =>
    match delIdx h r i with
    | (h1, .ok ()) => (h1, .ok c)
    | (h1, .error e) => (h1, .error e)

/-! ## Pointers on JSON instances -/

/-- `resolve` in `JSONPointer.evaluate` (`jschon/jsonpointer.py:199-219`), for a JSON instance.  The
index regex (line 213) binds only to the last alternative of the `or`, so it is not consulted
here. -/
def resolveJson (h : JHeap) : List String → Ref → Except Exc Ref
  | [], r => .ok r
  | k :: ks, r =>
    match h.data r with
    | .obj ms =>
      match dlookup k ms with
      | some c => resolveJson h ks c
      | none => .error .ptrReference                   -- KeyError, caught at line 216
    | .arr cs =>
      match pyInt k with
      | none => .error .valueError                     -- int(key), not caught
      | some i =>
        match pyIndex cs i with
        | some c => resolveJson h ks c
        | none => .error .ptrReference                 -- IndexError, caught at line 216
    | _ => .error .ptrReference

/-- The result of `RelativeJSONPointer.evaluate`. -/
inductive RelOut where
  | idx (i : Int)
  | key (k : Option String)
  | node (r : Ref)
  deriving DecidableEq

/-- `for _ in range(up)` (`jschon/jsonpointer.py:369-372`). -/
def relUp (h : JHeap) : Nat → Ref → Except Exc Ref
  | 0, r => .ok r
  | n + 1, r =>
    match h.parent r with
    | none => .error .relReference
    | some p => relUp h n p

/-- `int(node.key)` -/
def intKey (h : JHeap) (r : Ref) : Except Exc Int :=
  match h.key r with
  | none => .error .typeError
  | some k => match pyInt k with | none => .error .valueError | some z => .ok z

/-- The index adjustment (`jschon/jsonpointer.py:374-382`). -/
def relOver (h : JHeap) (over : Int) (r : Ref) : Except Exc Ref :=
  if over = 0 then .ok r
  else
    match h.parent r with
    | none => .error .relReference
    | some p =>
      match h.data p with
      | .arr cs =>
        match intKey h r with
        | .error e => .error e
        | .ok z =>
          if z + over < 0 ∨ z + over ≥ cs.length then .error .relReference
          else match pyIndex cs (z + over) with
            | some c => .ok c
            | none => .error .indexError
      | _ => .error .relReference

/-- `RelativeJSONPointer.evaluate(document)` (`jschon/jsonpointer.py:358-391`). -/
def relEvaluate (h : JHeap) (p : RelPtr) (r : Ref) : Except Exc RelOut :=
  match relUp h p.up.toNat r with
  | .error e => .error e
  | .ok r1 =>
    match relOver h p.over r1 with
    | .error e => .error e
    | .ok r2 =>
      if p.index then
        match h.parent r2 with
        | none => .error .relReference
        | some q =>
          match h.data q with
          | .arr _ => match intKey h r2 with | .error e => .error e | .ok z => .ok (.idx z)
          | _ => .ok (.key (h.key r2))
      else
        match p.path with
        | none => .error .attributeError
        | some path =>
          match resolveJson h path.keys r2 with
          | .ok t => .ok (.node t)
          | .error e => .error (if e = .ptrReference then .relReference else e)

/-! ## In-place add, remove, replace -/

/-- `self.add(path, obj)` (`jschon/json.py:327-374`), for a JSONPointer `path`. -/
def jsonAdd (h : JHeap) (r : Ref) (path : Ptr) (o : JArg) : JHeap × Except Exc Unit :=
  if path.len = 0 then
    let a := argValue h o
    (invalValue (reinit a.1 r a.2) r, .ok ())
  else
    match resolveJson h (path.slice none (some (-1))).keys r with
    | .error e => (h, .error (if isPtrErr e then .jsonError else e))
    | .ok p =>
      match path.item (-1) with
      | none => (h, .error .indexError)
      | some k =>
        match h.data p with
        | .arr cs =>
          match nodeSeq cs.length k with
          | .ok (.item i) => insertIdx h p i o
          | .ok (.itemNew i) => insertIdx h p i o
          | _ => (h, .error .jsonError)
        | .obj _ => setKey h p k o
        | _ => ((readPath h p).1, .error .jsonError)

/-- `self.remove(path)` (`jschon/json.py:376-409`).  For another type of the parent nothing is
done. -/
def jsonRemove (h : JHeap) (r : Ref) (path : Ptr) : JHeap × Except Exc Unit :=
  if path.len = 0 then (invalValue (reinit h r .null) r, .ok ())
  else
    match resolveJson h path.keys r with
    | .error e => (h, .error (if isPtrErr e then .jsonError else e))
    | .ok t =>
      match h.parent t with
      | none => (h, .error .attributeError)
      | some p =>
        match h.data p with
        | .arr _ =>
          match intKey h t with
          | .error e => (h, .error e)
          | .ok z => delIdx h p z
        | .obj _ => delKey h p ((h.key t).getD "")
        | _ => (h, .ok ())

/-- `self.replace(path, obj)` (`jschon/json.py:411-444`). -/
def jsonReplace (h : JHeap) (r : Ref) (path : Ptr) (o : JArg) : JHeap × Except Exc Unit :=
  if path.len = 0 then
    let a := argValue h o
    (invalValue (reinit a.1 r a.2) r, .ok ())
  else
    match resolveJson h path.keys r with
    | .error e => (h, .error (if isPtrErr e then .jsonError else e))
    | .ok t =>
      match h.parent t with
      | none => (h, .error .attributeError)
      | some p =>
        match h.data p with
        | .arr _ =>
          match intKey h t with
          | .error e => (h, .error e)
          | .ok z => setIdx h p z o
        | .obj _ => setKey h p ((h.key t).getD "") o
        | _ => (h, .ok ())

/-! ## Histories -/

/-- A method call on a JSON instance. -/
inductive JOp where
  | new (v : Value)
  | newChild (v : Value) (parent : Ref) (key : String)
  | path (r : Ref)
  | value (r : Ref)
  | setIdx (r : Ref) (i : Int) (o : JArg)
  | setKey (r : Ref) (k : String) (o : JArg)
  | delIdx (r : Ref) (i : Int)
  | delKey (r : Ref) (k : String)
  | insert (r : Ref) (i : Int) (o : JArg)
  | append (r : Ref) (o : JArg)
  | pop (r : Ref) (i : Int)
  | add (r : Ref) (p : Ptr) (o : JArg)
  | remove (r : Ref) (p : Ptr)
  | replace (r : Ref) (p : Ptr) (o : JArg)

/-- The heap after a method call, whether it returned or raised. -/
def JOp.step (h : JHeap) : JOp → JHeap
  | .new v => (newJson h v none none).1
  | .newChild v p k => (newJson h v (some p) (some k)).1
  | .path r => (readPath h r).1
  | .value r => (readValue h r).1
  | .setIdx r i o => (Jschon.setIdx h r i o).1
  | .setKey r k o => (Jschon.setKey h r k o).1
  | .delIdx r i => (Jschon.delIdx h r i).1
  | .delKey r k => (Jschon.delKey h r k).1
  | .insert r i o => (insertIdx h r i o).1
  | .append r o => (appendJson h r o).1
  | .pop r i => (popIdx h r i).1
  | .add r p o => (jsonAdd h r p o).1
  | .remove r p => (jsonRemove h r p).1
  | .replace r p o => (jsonReplace h r p o).1

end Jschon
