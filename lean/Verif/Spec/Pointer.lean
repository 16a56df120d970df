import Verif.Model.Py

/-!
# RFC 6901, as a specification

Independent of the model in `Verif/Model/Pointer.lean`: the ABNF of section 3, the encoding of a
key, and what a pointer designates in a document (section 4).
-/

namespace Jschon.Spec

/-- `reference-token = *( unescaped / escaped )`, with
`unescaped = %x00-2E / %x30-7D / %x7F-10FFFF` and `escaped = "~" ( "0" / "1" )`. -/
inductive RefToken : List Char → Prop
  | nil : RefToken []
  | unescaped {c t} : c ≠ '/' → c ≠ '~' → RefToken t → RefToken (c :: t)
  | tilde {t} : RefToken t → RefToken ('~' :: '0' :: t)
  | slash {t} : RefToken t → RefToken ('~' :: '1' :: t)

/-- `json-pointer = *( "/" reference-token )`. -/
inductive PointerText : List Char → Prop
  | nil : PointerText []
  | cons {tok rest} : RefToken tok → PointerText rest → PointerText ('/' :: tok ++ rest)

/-- The RFC 6901 encoding of one character of a key. -/
def encodeChar (c : Char) : List Char :=
  if c = '~' then ['~', '0'] else if c = '/' then ['~', '1'] else [c]

/-- The RFC 6901 text of a key sequence: each key preceded by `/`, with `~` written `~0` and `/`
written `~1`. -/
def textOf (keys : List String) : List Char :=
  keys.flatMap (fun k => '/' :: k.toList.flatMap encodeChar)

/-- `Designates doc keys v`: the pointer with these reference tokens designates `v` in `doc`
(section 4).  An array is indexed by the decimal numeral of the position without leading zeros. -/
inductive Designates : Value → List String → Value → Prop
  | here {v} : Designates v [] v
  | member {kvs k ks w v} : dlookup k kvs = some w → Designates w ks v →
      Designates (.obj kvs) (k :: ks) v
  | item {xs : List Value} {i : Nat} {ks w v} : xs[i]? = some w → Designates w ks v →
      Designates (.arr xs) (toString i :: ks) v

/-- The position in a sequence of length `len` that a bound of a Python slice stands for, where
`omittedAt` is the position for an omitted bound. -/
inductive SliceBound (len omittedAt : Nat) : Option Int → Nat → Prop
  | omitted : SliceBound len omittedAt none omittedAt
  | fromStart (k : Nat) : SliceBound len omittedAt (some k) (min k len)
  | fromEnd (k : Nat) : 0 < k → SliceBound len omittedAt (some (-k)) (len - k)

end Jschon.Spec
