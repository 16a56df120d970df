/-!
# Regular expressions

`re.fullmatch` for the fragment of Python's `re` syntax that `jschon/jsonpointer.py:25-32` uses:
character classes, alternation, concatenation, star and option.  The matcher works by Brzozowski
derivatives; `Verif/Proof/Regex.lean` proves that it decides membership in the language.
-/

namespace Jschon

/-- Regular expression syntax; `cls p` is a character class. -/
inductive Re where
  | fail
  | eps
  | cls (p : Char → Bool)
  | alt (a b : Re)
  | seq (a b : Re)
  | star (a : Re)

namespace Re

/-- A single literal character. -/
def chr (c : Char) : Re := .cls (fun d => d == c)

/-- `a?` -/
def opt (a : Re) : Re := .alt a .eps

/-- Does the expression match the empty string? -/
def nullable : Re → Bool
  | .fail => false
  | .eps => true
  | .cls _ => false
  | .alt a b => a.nullable || b.nullable
  | .seq a b => a.nullable && b.nullable
  | .star _ => true

/-- The derivative by one character. -/
def deriv (c : Char) : Re → Re
  | .fail => .fail
  | .eps => .fail
  | .cls p => if p c then .eps else .fail
  | .alt a b => .alt (a.deriv c) (b.deriv c)
  | .seq a b => if a.nullable then .alt (.seq (a.deriv c) b) (b.deriv c) else .seq (a.deriv c) b
  | .star a => .seq (a.deriv c) (.star a)

/-- `re.compile(r).fullmatch(s) is not None`. -/
def fullmatch (r : Re) : List Char → Bool
  | [] => r.nullable
  | c :: cs => (r.deriv c).fullmatch cs

end Re
end Jschon
