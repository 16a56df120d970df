import Verif.Spec.JsonHeap

/-!
# `jschon/json.py:33`: the methods that `JSON` inherits

`class JSON(MutableSequence, MutableMapping)` defines `__getitem__`, `__setitem__`, `__delitem__`,
`__len__`, `__iter__` and `insert`; the other container methods come from CPython's
`_collections_abc.py`, those of `MutableSequence` and `Sequence` before those of `MutableMapping` and
`Mapping`.  They are written here as that module writes them, on the modelled item access.

`append` and `pop(i)` are in `Verif/Model/JsonHeap.lean`; `remove` is overridden by
`jschon/json.py:376-409`.
-/

namespace Jschon

/-- A call that may raise, followed by another. -/
def thenJ {α β : Type} (p : JHeap × Except Exc α) (f : JHeap → α → JHeap × Except Exc β) :
    JHeap × Except Exc β :=
  match p with
  | (h, .ok a) => f h a
  | (h, .error e) => (h, .error e)

/-! ## `MutableSequence` -/

/-- An iterable: a Python list, or a JSON instance. -/
inductive JIter where
  | list (os : List JArg)
  | json (s : Ref)

/-- `iter(values)`; for an instance `iter(self.data)` (`jschon/json.py:222-227`). -/
def JIter.args (h : JHeap) : JIter → Except Exc (List JArg)
  | .list os => .ok os
  | .json s =>
    match h.data s with
    | .arr cs => .ok (cs.map .json)
    | .obj ms => .ok ((dkeys ms).map (fun k => .plain (.str k)))
    | .str t => .ok (t.toList.map (fun c => .plain (.str (String.singleton c))))
    | _ => .error .typeError

/-- `for v in values: self.append(v)` -/
def appendAll (r : Ref) : List JArg → JHeap → JHeap × Except Exc Unit
  | [], h => (h, .ok ())
  | o :: os, h => thenJ (appendJson h r o) fun h1 _ => appendAll r os h1

/-- `self.extend(values)`, and `self += values`.  When `values` is `self` a copy of the list is
iterated; the data of another instance is not changed by the loop. -/
def extendJson (h : JHeap) (r : Ref) (values : JIter) : JHeap × Except Exc Unit :=
  match values.args h with
  | .error e => (h, .error e)
  | .ok os => appendAll r os h

/-- `self[i], self[j] = self[j], self[i]` -/
def swapJson (h : JHeap) (r : Ref) (i j : Int) : JHeap × Except Exc Unit :=
  match getIdx h r j with
  | .error e => (h, .error e)
  | .ok a =>
    match getIdx h r i with
    | .error e => (h, .error e)
    | .ok b => thenJ (setIdx h r i (.json a)) fun h1 _ => setIdx h1 r j (.json b)

/-- The rest of `for i in range(n//2): self[i], self[n-i-1] = self[n-i-1], self[i]`, with `k`
rounds left. -/
def reverseLoop (r : Ref) (n : Nat) : Nat → Nat → JHeap → JHeap × Except Exc Unit
  | 0, _, h => (h, .ok ())
  | k + 1, i, h =>
    thenJ (swapJson h r i ((n : Int) - i - 1)) fun h1 _ => reverseLoop r n k (i + 1) h1

/-- `self.reverse()` -/
def reverseJson (h : JHeap) (r : Ref) : JHeap × Except Exc Unit :=
  match lenJson h r with
  | .error e => (h, .error e)
  | .ok n => reverseLoop r n (n / 2) 0 h

/-- `while True: self.pop()`, with a bound on the number of rounds. -/
def clearLoop (r : Ref) : Nat → JHeap → JHeap × Except Exc Unit
  | 0, h => (h, .error .indexError)
  | k + 1, h => thenJ (popIdx h r (-1)) fun h1 _ => clearLoop r k h1

/-- `self.clear()`: the loop, with `except IndexError: pass`.  The loop ends when the list is empty.
(On a non-empty string `self[-1]` is a str, and its deletion raises TypeError; on an empty one it
raises IndexError.) -/
def clearJson (h : JHeap) (r : Ref) : JHeap × Except Exc Unit :=
  match h.data r with
  | .str s => (h, if s.length = 0 then .ok () else .error .typeError)
  | d =>
    match clearLoop r (d.kids.length + 1) h with
    | (h1, .error .indexError) => (h1, .ok ())
    | p => p

/-! ## `Sequence` -/

/-- `v is value or v == value`, where `v` is an instance. -/
def sameItem (h : JHeap) (o : JArg) (c : Ref) : Bool :=
  (match o with | .json x => x == c | .plain _ => false) || jsonEq (val h c) (o.val h)

/-- `value in self`: `for v in self: if v is value or v == value: return True`.  The items of an object
are its names; `str.__eq__` gives way to `JSON.__eq__` when `value` is an instance. -/
def containsJson (h : JHeap) (r : Ref) (o : JArg) : Except Exc Bool :=
  match h.data r with
  | .arr cs => .ok (cs.any (sameItem h o))
  | .obj ms => .ok ((dkeys ms).any (fun k => jsonEq (.str k) (o.val h)))
  | .str t => .ok (t.toList.any (fun c => jsonEq (.str (String.singleton c)) (o.val h)))
  | _ => .error .typeError

/-- The loop of `index` on a list, from position `i`. -/
def indexFrom (h : JHeap) (o : JArg) : Nat → List Ref → Except Exc Nat
  | _, [] => .error .valueError          -- self[i] raises IndexError, the loop ends
  | i, c :: cs => if sameItem h o c then .ok i else indexFrom h o (i + 1) cs

/-- `self.index(value)`.  On an object `self[0]` raises KeyError. -/
def indexJson (h : JHeap) (r : Ref) (o : JArg) : Except Exc Nat :=
  match h.data r with
  | .arr cs => indexFrom h o 0 cs
  | .obj _ => .error .keyError
  | .str t =>                            -- self[i] is a str
    match t.toList.findIdx? (fun c => jsonEq (.str (String.singleton c)) (o.val h)) with
    | some i => .ok i
    | none => .error .valueError
  | _ => .error .typeError

/-- `self.count(value)`: `sum(1 for v in self if v is value or v == value)`. -/
def countJson (h : JHeap) (r : Ref) (o : JArg) : Except Exc Nat :=
  match h.data r with
  | .arr cs => .ok (cs.countP (sameItem h o))
  | .obj ms => .ok ((dkeys ms).countP (fun k => jsonEq (.str k) (o.val h)))
  | .str t => .ok (t.toList.countP (fun c => jsonEq (.str (String.singleton c)) (o.val h)))
  | _ => .error .typeError

/-! ## `MutableMapping` -/

/-- `self.pop(k)`: `MutableSequence.pop` with a str. -/
def popKey (h : JHeap) (r : Ref) (k : String) : JHeap × Except Exc Ref :=
  match getKey h r k with
  | .error e => (h, .error e)
  | .ok c => thenJ (delKey h r k) fun h1 _ => (h1, .ok c)

/-- `self.popitem()`: the first name and its instance.  (The first item of an array is not an index of
a list.) -/
def popItem (h : JHeap) (r : Ref) : JHeap × Except Exc (String × Ref) :=
  match h.data r with
  | .obj [] => (h, .error .keyError)
  | .obj ((k, _) :: _) =>
    match getKey h r k with
    | .error e => (h, .error e)
    | .ok c => thenJ (delKey h r k) fun h1 _ => (h1, .ok (k, c))
  | .arr [] => (h, .error .keyError)
  | .str s => (h, .error (if s.length = 0 then .keyError else .typeError))
  | _ => (h, .error .typeError)

/-- The argument of `update`: a dict or a list of pairs, or a JSON instance. -/
inductive JPairs where
  | pairs (kos : List (String × JArg))
  | json (s : Ref)

/-- `for key, value in other: self[key] = value` -/
def setAll (r : Ref) : List (String × JArg) → JHeap → JHeap × Except Exc Unit
  | [], h => (h, .ok ())
  | (k, o) :: kos, h => thenJ (setKey h r k o) fun h1 _ => setAll r kos h1

/-- `for key in other: self[key] = other[key]`, where `other` is an instance. -/
def setFrom (r s : Ref) : List String → JHeap → JHeap × Except Exc Unit
  | [], h => (h, .ok ())
  | k :: ks, h =>
    match getKey h s k with
    | .error e => (h, .error e)
    | .ok c => thenJ (setKey h r k (.json c)) fun h1 _ => setFrom r s ks h1

/-- `self.update(other)`.  Every instance is a `Mapping`; the items of an array are not indices of a
list, and the characters of a string are not indices of a string. -/
def updateJson (h : JHeap) (r : Ref) : JPairs → JHeap × Except Exc Unit
  | .pairs kos => setAll r kos h
  | .json s =>
    match h.data s with
    | .obj ms => setFrom r s (dkeys ms) h
    | .arr [] => (h, .ok ())
    | .str t => (h, if t.length = 0 then .ok () else .error .typeError)
    | _ => (h, .error .typeError)

/-- What `get`, `setdefault` and `pop` return: an instance, or the default as it was given. -/
abbrev JOut := JArg

/-- `self.setdefault(k, default)` -/
def setDefault (h : JHeap) (r : Ref) (k : String) (o : JArg) : JHeap × Except Exc JOut :=
  match getKey h r k with
  | .ok c => (h, .ok (.json c))
  | .error .keyError => thenJ (setKey h r k o) fun h1 _ => (h1, .ok o)
  | .error e => (h, .error e)

/-- `self.get(k, default)` -/
def getDefault (h : JHeap) (r : Ref) (k : String) (o : JArg) : Except Exc JOut :=
  match getKey h r k with
  | .ok c => .ok (.json c)
  | .error .keyError => .ok o
  | .error e => .error e

/-- `list(self.items())`: `for key in self: yield (key, self[key])`. -/
def itemsJson (h : JHeap) (r : Ref) : Except Exc (List (String × Ref)) :=
  match h.data r with
  | .obj ms => (dkeys ms).mapM (fun k => (getKey h r k).map (fun c => (k, c)))
  | .arr [] => .ok []
  | .str t => if t.length = 0 then .ok [] else .error .typeError
  | _ => .error .typeError

end Jschon
