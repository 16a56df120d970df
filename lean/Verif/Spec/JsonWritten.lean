import Verif.Spec.JsonText

/-!
# The very text that `dumps` gives (C74)

JSON text leaves a choice of white space and escapes.  This says which choice is made.
-/

namespace Jschon.Spec

/-- The characters with an escape of two characters, and its second one. -/
def shortEscapes : List (Char × Char) :=
  [('"', '"'), ('\\', '\\'), ('\x08', 'b'), ('\x0c', 'f'), ('\n', 'n'), ('\r', 'r'), ('\t', 't')]

/-- How a character of a string is written: some have short escapes, the other control characters are written in
hexadecimal notation, in lower case, and all others as they are. -/
inductive WrittenChar : Char → List Char → Prop
  | short {c e} : (c, e) ∈ shortEscapes → WrittenChar c ['\\', e]
  | control {c a b} : c ∉ shortEscapes.map Prod.fst → c.toNat < 32 → ['0', '1'][c.toNat / 16]? = some a →
      "0123456789abcdef".toList[c.toNat % 16]? = some b → WrittenChar c ['\\', 'u', '0', '0', a, b]
  | plain {c} : c ∉ shortEscapes.map Prod.fst → 32 ≤ c.toNat → WrittenChar c [c]

inductive WrittenChars : List Char → List Char → Prop
  | nil : WrittenChars [] []
  | cons {c cs s t} : WrittenChar c s → WrittenChars cs t → WrittenChars (c :: cs) (s ++ t)

/-- Texts with `, ` between them. -/
inductive Separated : List (List Char) → List Char → Prop
  | none : Separated [] []
  | one {s} : Separated [s] s
  | more {s r rs t} : Separated (r :: rs) t → Separated (s :: r :: rs) (s ++ ", ".toList ++ t)

/-- The text that is written for a string, with the quotes. -/
def WrittenStr (s : String) (t : List Char) : Prop := ∃ u, WrittenChars s.toList u ∧ t = '"' :: u ++ ['"']

mutual
/-- The text that is written for a value: there is a space after `,` and `:`, and nowhere else.  Members are in their
order. -/
inductive Written (lib : FloatLib) : Value → List Char → Prop
  | null : Written lib .null "null".toList
  | true : Written lib (.bool true) "true".toList
  | false : Written lib (.bool false) "false".toList
  | nat {n : Nat} : Written lib (.num (.int n)) (natStr n).toList
  | neg {n : Nat} : 0 < n → Written lib (.num (.int (-n))) ('-' :: (natStr n).toList)
  | flt {q} : Written lib (.num (.flt q)) (lib.repr q)
  | str {s t} : WrittenStr s t → Written lib (.str s) t
  | arr {xs ts t} : WrittenItems lib xs ts → Separated ts t → Written lib (.arr xs) ('[' :: t ++ [']'])
  | obj {kvs ts t} : WrittenMembers lib kvs ts → Separated ts t → Written lib (.obj kvs) ('{' :: t ++ ['}'])
inductive WrittenItems (lib : FloatLib) : List Value → List (List Char) → Prop
  | nil : WrittenItems lib [] []
  | cons {x xs t ts} : Written lib x t → WrittenItems lib xs ts → WrittenItems lib (x :: xs) (t :: ts)
inductive WrittenMembers (lib : FloatLib) : List (String × Value) → List (List Char) → Prop
  | nil : WrittenMembers lib [] []
  | cons {k x kvs s t ts} : WrittenStr k s → Written lib x t → WrittenMembers lib kvs ts →
      WrittenMembers lib ((k, x) :: kvs) ((s ++ ": ".toList ++ t) :: ts)
end

end Jschon.Spec
