import Verif.Spec.IntText
import Verif.Spec.Patch

/-!
# Which exception a patch operation raises

The code accepts what `int()` accepts for an index, and takes a string for a sequence.
-/

namespace Jschon.Spec

/-- The key is the index of an item of a sequence of length `n`. -/
def HasItem (k : String) (n : Nat) : Prop := ∃ i, PyIndexSpelling k i ∧ i < n

/-- The key is a place where an item can be inserted. -/
def HasPlace (k : String) (n : Nat) : Prop := k = "-" ∨ ∃ i, PyIndexSpelling k i ∧ i ≤ n

/-- Neither a mapping nor a sequence. -/
inductive NoContainer : Value → Prop
  | null : NoContainer .null
  | bool {b} : NoContainer (.bool b)
  | num {n} : NoContainer (.num n)

/-- Adding a child `k` to the value raises `e`. -/
inductive AddFails (k : String) : Value → Exc → Prop
  | arr {xs} : ¬ HasPlace k xs.length → AddFails k (.arr xs) .patchError
  | strOut {s} : ¬ HasPlace k s.length → AddFails k (.str s) .patchError
  | strIn {s} : HasPlace k s.length → AddFails k (.str s) .attributeError
  | other {v} : NoContainer v → AddFails k v .assertionError

/-- Removing or replacing the child `k` of the value raises `e`. -/
inductive ChangeFails (k : String) : Value → Exc → Prop
  | obj {kvs} : (∀ w, (k, w) ∉ kvs) → ChangeFails k (.obj kvs) .patchError
  | arr {xs} : ¬ HasItem k xs.length → ChangeFails k (.arr xs) .patchError
  | strOut {s} : ¬ HasItem k s.length → ChangeFails k (.str s) .patchError
  | strIn {s} : HasItem k s.length → ChangeFails k (.str s) .typeError
  | other {v} : NoContainer v → ChangeFails k v .assertionError

/-- Testing the child `k` of the value against another value raises `e`. -/
inductive TestFails (value : Value) (k : String) : Value → Exc → Prop
  | obj {kvs} : (∀ w, (k, w) ∉ kvs) → TestFails value k (.obj kvs) .patchError
  | member {kvs w} : (k, w) ∈ kvs → ¬ Same w value → TestFails value k (.obj kvs) .patchError
  | arr {xs} : ¬ HasItem k xs.length → TestFails value k (.arr xs) .patchError
  | item {l w r} : RfcIndex k l.length → ¬ Same w value → TestFails value k (.arr (l ++ w :: r)) .patchError
  | spelled {xs} : HasItem k xs.length → (∀ n, ¬ RfcIndex k n) → TestFails value k (.arr xs) .ptrReference
  | strOut {s} : ¬ HasItem k s.length → TestFails value k (.str s) .patchError
  | strIn {s} : HasItem k s.length → TestFails value k (.str s) .ptrReference
  | other {v} : NoContainer v → TestFails value k v .assertionError

/-- The operation with the local failures `H` raises `e` at a location: there is no parent, or the parent is one
for which `H` says so. -/
inductive Raises (H : String → Value → Exc → Prop) (doc : Value) : List String → Exc → Prop
  | noParent {ks k} : (¬ ∃ v, Designates doc ks v) → Raises H doc (ks ++ [k]) .patchError
  | here {ks k v e} : Designates doc ks v → H k v e → Raises H doc (ks ++ [k]) e

end Jschon.Spec
