import Verif.Model.Regex

/-! # The language of a regular expression (independent of the matcher) -/

namespace Jschon

/-- `Matches r s`: the string `s` belongs to the language of `r`. -/
inductive Re.Matches : Re → List Char → Prop
  | eps : Matches .eps []
  | cls {p c} : p c = true → Matches (.cls p) [c]
  | altL {a b s} : Matches a s → Matches (.alt a b) s
  | altR {a b s} : Matches b s → Matches (.alt a b) s
  | seq {a b s t} : Matches a s → Matches b t → Matches (.seq a b) (s ++ t)
  | starNil {a} : Matches (.star a) []
  | starCons {a s t} : Matches a s → Matches (.star a) t → Matches (.star a) (s ++ t)

end Jschon
