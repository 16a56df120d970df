import Verif.Model.JsonHeap
import Verif.Spec.Patch

/-!
# What a heap of JSON instances means

The content of an instance and its location, read off `data` alone: no cached property, no parent
link and no key is consulted.
-/

namespace Jschon

/-- The value that `d` stands for, given the values of the children. -/
def dataVal (g : Ref → Value) : JData → Value
  | .null => .null
  | .bool b => .bool b
  | .num n => .num n
  | .str s => .str s
  | .arr cs => .arr (cs.map g)
  | .obj ms => .obj (ms.map (fun m => (m.1, g m.2)))

/-- The content of an instance, to a given depth. -/
def content : Nat → JHeap → Ref → Value
  | 0, _, _ => .null
  | f + 1, h, r => dataVal (content f h) (h.data r)

/-- The current content of an instance.  (A heap with `n` instances has depth at most `n`.) -/
def val (h : JHeap) (r : Ref) : Value := content h.next h r

/-- `c` is the member, or item, of `d` with key, or index, `k`. -/
def ChildD (d : JData) (k : String) (c : Ref) : Prop :=
  match d with
  | .arr cs => ∃ i : Nat, k = natStr i ∧ cs[i]? = some c
  | .obj ms => (k, c) ∈ ms
  | _ => False

/-- `c` is currently the child of `r` with key, or index, `k`. -/
def Child (h : JHeap) (r : Ref) (k : String) (c : Ref) : Prop := ChildD (h.data r) k c

/-- `c` is currently at location `ks` relative to `r`. -/
inductive Reach (h : JHeap) : Ref → List String → Ref → Prop
  | here {r} : Reach h r [] r
  | step {r k c ks d} : Child h r k c → Reach h c ks d → Reach h r (k :: ks) d

/-- `x` is `r` or below `r`. -/
def Within (h : JHeap) (r x : Ref) : Prop := ∃ ks, Reach h r ks x

/-! ## What Python says of a plain value -/

/-- The JSON type name of a value. -/
inductive HasType : Value → JType → Prop
  | null : HasType .null .null
  | bool {b} : HasType (.bool b) .boolean
  | num {n} : HasType (.num n) .number
  | str {s} : HasType (.str s) .string
  | arr {xs} : HasType (.arr xs) .array
  | obj {kvs} : HasType (.obj kvs) .object

/-- `len(v)`, where it is defined. -/
inductive HasLen : Value → Nat → Prop
  | str {s} : HasLen (.str s) s.toList.length
  | arr {xs} : HasLen (.arr xs) xs.length
  | obj {kvs} : HasLen (.obj kvs) kvs.length

/-- The falsy values: `None`, `False`, zero, and the empty string, list and dict. -/
inductive Falsy : Value → Prop
  | null : Falsy .null
  | bool : Falsy (.bool false)
  | int : Falsy (.num (.int 0))
  | flt : Falsy (.num (.flt 0))
  | str : Falsy (.str "")
  | arr : Falsy (.arr [])
  | obj : Falsy (.obj [])

/-! ## Histories of calls -/

/-- The value that an argument stands for. -/
def JArg.val (h : JHeap) : JArg → Value
  | .plain v => v
  | .json r => Jschon.val h r

/-- An argument that is JSON-compatible, or an existing instance. -/
def JArg.Ok (h : JHeap) : JArg → Prop
  | .plain v => v.WF
  | .json r => r < h.next

/-- The index of an insertion is between 0 and the length. -/
def InsertOk (h : JHeap) (r : Ref) (i : Int) : Prop :=
  ∀ cs, h.data r = .arr cs → 0 ≤ i ∧ i ≤ cs.length

/-- The arguments of the call exist: instances of the heap and JSON-compatible values. -/
def JOp.ArgsOk (h : JHeap) : JOp → Prop
  | .new v => v.WF
  | .newChild v p _ => v.WF ∧ p < h.next
  | .path r | .value r | .delIdx r _ | .delKey r _ | .pop r _ | .remove r _ => r < h.next
  | .setIdx r _ o | .setKey r _ o | .insert r _ o | .append r o | .add r _ o | .replace r _ o =>
    r < h.next ∧ o.Ok h

/-- Indices are not negative, and insertion is not beyond the end. -/
def JOp.InRange (h : JHeap) : JOp → Prop
  | .setIdx _ i _ | .delIdx _ i | .pop _ i => 0 ≤ i
  | .insert r i _ => InsertOk h r i
  | _ => True

/-- The heaps that sequences of calls produce. -/
inductive History : JHeap → Prop
  | start : History JHeap.empty
  | call {h} (op : JOp) : History h → op.ArgsOk h → History (op.step h)

/-- The heaps that sequences of calls with in-range indices produce. -/
inductive InRangeHistory : JHeap → Prop
  | start : InRangeHistory JHeap.empty
  | call {h} (op : JOp) : InRangeHistory h → op.ArgsOk h → op.InRange h → InRangeHistory (op.step h)

/-- The instance whose method is called. -/
def JOp.receiver : JOp → Option Ref
  | .new _ | .newChild _ _ _ => none
  | .path r | .value r | .setIdx r _ _ | .setKey r _ _ | .delIdx r _ | .delKey r _ | .insert r _ _
  | .append r _ | .pop r _ | .add r _ _ | .remove r _ | .replace r _ _ => some r

/-- `h'` comes after `h` by some sequence of calls. -/
inductive Later (h : JHeap) : JHeap → Prop
  | refl : Later h h
  | call {h'} (op : JOp) : Later h h' → op.ArgsOk h' → Later h (op.step h')

/-- The documents below `a` and `b` have no instance in common. -/
def Apart (h : JHeap) (a b : Ref) : Prop := ∀ x, Within h a x → ¬ Within h b x

/-! ## Pointers on instances -/

/-- No token other than the decimal numeral of an index meets an array on the way. -/
def IndexSafe : Value → List String → Prop
  | _, [] => True
  | .arr xs, k :: ks => ∃ n : Nat, k = toString n ∧ ∀ w, xs[n]? = some w → IndexSafe w ks
  | .obj kvs, k :: ks => ∀ w, dlookup k kvs = some w → IndexSafe w ks
  | _, _ :: _ => True

/-- What a relative pointer yields: an index, a member name, or a location. -/
inductive RelResult where
  | idx (n : Nat)
  | key (k : String)
  | loc (ks : List String)

/-- The index adjustment of a relative pointer, at location `base` of `doc`. -/
def OverBy (doc : Value) (base : List String) (o : Int) (base' : List String) : Prop :=
  (o = 0 ∧ base' = base) ∨
  (o ≠ 0 ∧ ∃ b n n' xs, base = b ++ [toString n] ∧ Spec.Designates doc b (.arr xs) ∧
    ((n' : Nat) : Int) = (n : Nat) + o ∧ n' < xs.length ∧ base' = b ++ [toString n'])

/-- Relative JSON Pointer evaluation (draft-bhutton-relative-json-pointer, section 4) from location
`loc` of `doc`: up `u` levels, `o` items over, then the index or key, or a pointer. -/
def RelEval (doc : Value) (loc : List String) (u : Nat) (o : Int) (ref : RelRef) (res : RelResult) :
    Prop :=
  ∃ base d base', loc = base ++ d ∧ d.length = u ∧ OverBy doc base o base' ∧
    match ref with
    | .hash => ∃ b k, base' = b ++ [k] ∧
        ((∃ xs n, Spec.Designates doc b (.arr xs) ∧ k = toString n ∧ res = .idx n) ∨
         (∃ kvs, Spec.Designates doc b (.obj kvs) ∧ res = .key k))
    | .ptr p => ∃ v, Spec.Designates doc (base' ++ p.keys) v ∧ res = .loc (base' ++ p.keys)

/-- A result of `evaluate` is the given one, in the document with root `a`. -/
def RelMatches (h : JHeap) (a : Ref) : RelOut → RelResult → Prop
  | .idx z, .idx n => z = (n : Int)
  | .key k, .key k' => k = some k'
  | .node t, .loc ks => Reach h a ks t
  | _, _ => False

/-! ## Edits of plain Python values -/

/-- Index `i` of a list of `l.length + 1 + r.length` items is the one after `l`. -/
def IndexAt (i : Int) (l r : Nat) : Prop := i = l ∨ i = -(r : Int) - 1

/-- `x[i] = w` on a list. -/
inductive PySet (i : Int) (w : Value) : Value → Value → Prop
  | mk {l x} {r : List Value} : IndexAt i l.length r.length →
      PySet i w (.arr (l ++ x :: r)) (.arr (l ++ w :: r))

/-- `del x[i]` on a list. -/
inductive PyDel (i : Int) : Value → Value → Prop
  | mk {l x} {r : List Value} : IndexAt i l.length r.length →
      PyDel i (.arr (l ++ x :: r)) (.arr (l ++ r))

/-- `x.insert(i, w)` on a list: a negative index counts from the end, and an index out of range
stands for the nearer end. -/
inductive PyInsert (i : Int) (w : Value) : Value → Value → Prop
  | mk {l r : List Value} : (i = l.length ∨ (i < 0 ∧ i = -(r.length : Int)) ∨
      (r = [] ∧ i > l.length) ∨ (l = [] ∧ i < -(r.length : Int))) →
      PyInsert i w (.arr (l ++ r)) (.arr (l ++ w :: r))

/-- `x[k] = w` on a dict. -/
inductive PySetKey (k : String) (w : Value) : Value → Value → Prop
  | old {l x r} : k ∉ dkeys l → PySetKey k w (.obj (l ++ (k, x) :: r)) (.obj (l ++ (k, w) :: r))
  | new {l} : k ∉ dkeys l → PySetKey k w (.obj l) (.obj (l ++ [(k, w)]))

/-- `del x[k]` on a dict. -/
inductive PyDelKey (k : String) : Value → Value → Prop
  | mk {l x r} : k ∉ dkeys l → PyDelKey k (.obj (l ++ (k, x) :: r)) (.obj (l ++ r))

end Jschon
