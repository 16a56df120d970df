import Verif.Spec.JsonText
import Verif.Model.Patch

/-!
# Python literals and calls

What a Python literal stands for (The Python Language Reference, 2.4 "Literals", 6.2 "Atoms").  Left out
are spellings that are never written here: prefixes and triple quotes, octal and named escapes and the
escaped line end, digits with underscores, sets and tuples, blanks elsewhere than after a comma or a colon.
-/

namespace Jschon.Spec

/-- Hexadecimal digits and their value. -/
inductive HexDigits : List Char → Nat → Prop
  | nil : HexDigits [] 0
  | snoc {s n c d} : HexDigits s n → Hex c d → HexDigits (s ++ [c]) (16 * n + d)

/-- What follows the backslash of an escape sequence, and its code point. -/
inductive PyEscape : List Char → Nat → Prop
  | backslash : PyEscape ['\\'] 0x5c
  | quote : PyEscape ['\''] 0x27
  | dquote : PyEscape ['"'] 0x22
  | a : PyEscape ['a'] 0x7
  | b : PyEscape ['b'] 0x8
  | f : PyEscape ['f'] 0xc
  | n : PyEscape ['n'] 0xa
  | r : PyEscape ['r'] 0xd
  | t : PyEscape ['t'] 0x9
  | v : PyEscape ['v'] 0xb
  | hex {h n} : HexDigits h n → h.length = 2 → PyEscape ('x' :: h) n
  | short {h n} : HexDigits h n → h.length = 4 → PyEscape ('u' :: h) n
  | long {h n} : HexDigits h n → h.length = 8 → n < 0x110000 → PyEscape ('U' :: h) n

/-- What stands between quotes `q`, and the code points. -/
inductive PyChars (q : Char) : List Char → List Nat → Prop
  | nil : PyChars q [] []
  | char {c s ns} : c ≠ q → c ≠ '\\' → c ≠ '\n' → c ≠ '\r' → c.toNat ≠ 0 → PyChars q s ns →
      PyChars q (c :: s) (c.toNat :: ns)
  | escape {e n s ns} : PyEscape e n → PyChars q s ns → PyChars q ('\\' :: e ++ s) (n :: ns)

/-- A string literal. -/
inductive PyString : List Char → List Nat → Prop
  | mk {q s ns} : q = '\'' ∨ q = '"' → PyChars q s ns → PyString (q :: s ++ [q]) ns

mutual
/-- A literal and its value; a minus sign may precede a number. -/
inductive PyLit (lib : FloatLib) : List Char → Loaded → Prop
  | none : PyLit lib "None".toList .null
  | true : PyLit lib "True".toList (.bool true)
  | false : PyLit lib "False".toList (.bool false)
  | int {s z} : IntText s z → PyLit lib s (.int z)
  | flt {s d q} : DecText s d → lib.round d = some q → PyLit lib s (.flt q)
  | str {s ns} : PyString s ns → PyLit lib s (.str ns)
  | list0 : PyLit lib ['[', ']'] (.arr [])
  | list {s xs} : PyItems lib s xs → PyLit lib ('[' :: s ++ [']']) (.arr xs)
  | dict0 : PyLit lib ['{', '}'] (.obj [])
  | dict {s ms d} : PyPairs lib s ms → Merged ms d → PyLit lib ('{' :: s ++ ['}']) (.obj d)
/-- The items of a list display. -/
inductive PyItems (lib : FloatLib) : List Char → List Loaded → Prop
  | one {s x} : PyLit lib s x → PyItems lib s [x]
  | more {s x w t xs} : PyLit lib s x → (∀ c ∈ w, c = ' ') → PyItems lib t xs →
      PyItems lib (s ++ ',' :: w ++ t) (x :: xs)
/-- The items of a dict display. -/
inductive PyPairs (lib : FloatLib) : List Char → List (List Nat × Loaded) → Prop
  | one {n k w s x} : PyString n k → (∀ c ∈ w, c = ' ') → PyLit lib s x → PyPairs lib (n ++ ':' :: w ++ s) [(k, x)]
  | more {n k w s x w' t ms} : PyString n k → (∀ c ∈ w, c = ' ') → PyLit lib s x → (∀ c ∈ w', c = ' ') →
      PyPairs lib t ms → PyPairs lib (n ++ ':' :: w ++ s ++ ',' :: w' ++ t) ((k, x) :: ms)
end

/-- The call of `name` with the string literal of `t`. -/
inductive CallOn (name : String) (t : String) : List Char → Prop
  | mk {s} : PyString s (points t) → CallOn name t (name.toList ++ '(' :: s ++ [')'])

/-- The call of `name` with a literal. -/
inductive LitCall (lib : FloatLib) (name : String) (x : Loaded) : List Char → Prop
  | mk {s} : PyLit lib s x → LitCall lib name x (name.toList ++ '(' :: s ++ [')'])

/-- The member of the enumeration. -/
inductive OpConst : OpName → List Char → Prop
  | add : OpConst .add "PatchOp.ADD".toList
  | remove : OpConst .remove "PatchOp.REMOVE".toList
  | replace : OpConst .replace "PatchOp.REPLACE".toList
  | move : OpConst .move "PatchOp.MOVE".toList
  | copy : OpConst .copy "PatchOp.COPY".toList
  | test : OpConst .test "PatchOp.TEST".toList

/-- A call that makes a pointer with the text `t`, or `None`. -/
inductive FromArg : Option String → List Char → Prop
  | none : FromArg none "None".toList
  | some {t s} : CallOn "JSONPointer" t s → FromArg (some t) s

/-- The arguments of `JSONPatchOperation`, the pointers by their text. -/
structure OpArgs where
  op : OpName
  path : String
  from_ : Option String
  value : Loaded

/-- The call of `JSONPatchOperation` with four keyword arguments. -/
inductive OpCall (lib : FloatLib) : OpArgs → List Char → Prop
  | mk {op path from_ x o p f v} : OpConst op o → CallOn "JSONPointer" path p → FromArg from_ f → PyLit lib v x →
      OpCall lib ⟨op, path, from_, x⟩
        ("JSONPatchOperation(op=".toList ++ o ++ ", path=".toList ++ p ++ ", from_=".toList ++ f ++
          ", value=".toList ++ v ++ [')'])

/-- Calls, separated by commas. -/
inductive OpCalls (lib : FloatLib) : List OpArgs → List Char → Prop
  | nil : OpCalls lib [] []
  | one {a s} : OpCall lib a s → OpCalls lib [a] s
  | more {a b as s t} : OpCall lib a s → OpCalls lib (b :: as) t → OpCalls lib (a :: b :: as) (s ++ ", ".toList ++ t)

/-- The call of `JSONPatch` with the operations. -/
inductive PatchCall (lib : FloatLib) : List OpArgs → List Char → Prop
  | mk {as s} : OpCalls lib as s → PatchCall lib as ("JSONPatch(*[".toList ++ s ++ "])".toList)

end Jschon.Spec
