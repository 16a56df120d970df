import Verif.Spec.Pointer
import Verif.Spec.Value

/-!
# RFC 6902 (JSON Patch), as relations between documents

`At R doc ks doc'`: `doc'` is `doc` with the value `v` at location `ks` replaced by some `v'` with
`R v v'`, and every other location unchanged (the order of object members included).
-/

namespace Jschon.Spec

/-- An edit at one location. -/
inductive At (R : Value → Value → Prop) : Value → List String → Value → Prop
  | here {v v'} : R v v' → At R v [] v'
  | member {l r k w ks w'} : k ∉ dkeys l → At R w ks w' →
      At R (.obj (l ++ (k, w) :: r)) (k :: ks) (.obj (l ++ (k, w') :: r))
  | item {l r : List Value} {w ks w'} : At R w ks w' →
      At R (.arr (l ++ w :: r)) (toString l.length :: ks) (.arr (l ++ w' :: r))

/-- RFC 6901 array index: the decimal numeral without leading zeros. -/
def RfcIndex (k : String) (n : Nat) : Prop := k = toString n

variable (idx : String → Nat → Prop)

/-- Section 4.1 at the parent of the target; `idx` says which tokens denote which index. -/
inductive AddHere (v : Value) (k : String) : Value → Value → Prop
  | newMember {kvs} : k ∉ dkeys kvs → AddHere v k (.obj kvs) (.obj (kvs ++ [(k, v)]))
  | oldMember {l w r} : k ∉ dkeys l →
      AddHere v k (.obj (l ++ (k, w) :: r)) (.obj (l ++ (k, v) :: r))
  | insert {l r : List Value} : idx k l.length → AddHere v k (.arr (l ++ r)) (.arr (l ++ v :: r))
  | append {l} : k = "-" → AddHere v k (.arr l) (.arr (l ++ [v]))

/-- Section 4.2 at the parent of the target. -/
inductive RemoveHere (k : String) : Value → Value → Prop
  | member {l w r} : k ∉ dkeys l → RemoveHere k (.obj (l ++ (k, w) :: r)) (.obj (l ++ r))
  | item {l w} {r : List Value} : idx k l.length → RemoveHere k (.arr (l ++ w :: r)) (.arr (l ++ r))

/-- Section 4.3 at the parent of the target. -/
inductive ReplaceHere (v : Value) (k : String) : Value → Value → Prop
  | member {l w r} : k ∉ dkeys l →
      ReplaceHere v k (.obj (l ++ (k, w) :: r)) (.obj (l ++ (k, v) :: r))
  | item {l w} {r : List Value} : idx k l.length →
      ReplaceHere v k (.arr (l ++ w :: r)) (.arr (l ++ v :: r))

/-- An operation given by what it does to the whole document and to the parent of the target. -/
inductive Op (root : Value → Prop) (here : String → Value → Value → Prop) :
    Value → List String → Value → Prop
  | root {doc doc'} : root doc' → Op root here doc [] doc'
  | target {doc doc' ks k} : At (here k) doc ks doc' → Op root here doc (ks ++ [k]) doc'

/-- Section 4.1: add. -/
def Add (v : Value) : Value → List String → Value → Prop := Op (· = v) (AddHere idx v)

/-- Section 4.2: remove.  The RFC leaves open what removing the whole document yields; jschon
yields `null`. -/
def Remove : Value → List String → Value → Prop := Op (· = .null) (RemoveHere idx)

/-- Section 4.3: replace. -/
def Replace (v : Value) : Value → List String → Value → Prop := Op (· = v) (ReplaceHere idx v)

/-- Section 4.4: move, "functionally identical to a remove operation on the from location, followed
immediately by an add operation at the target location with the value that was just removed"; the
from location must not be a proper prefix of the path location. -/
def Move (doc : Value) (path from_ : List String) (doc' : Value) : Prop :=
  (¬ ∃ r, r ≠ [] ∧ path = from_ ++ r) ∧
  ∃ v mid, Designates doc from_ v ∧ Remove idx doc from_ mid ∧ Add idx v mid path doc'

/-- Section 4.5: copy. -/
def Copy (doc : Value) (path from_ : List String) (doc' : Value) : Prop :=
  ∃ v, Designates doc from_ v ∧ Add idx v doc path doc'

/-- Section 4.6: test. -/
def Test (doc : Value) (path : List String) (value : Value) : Prop :=
  ∃ v, Designates doc path v ∧ Same v value

end Jschon.Spec
