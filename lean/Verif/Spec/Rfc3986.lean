import Verif.Spec.Uri

/-!
# URI references and their resolution, by RFC 3986

Texts are lists of characters.
-/

namespace Jschon.Spec

/-- Text of unreserved characters, sub-delims, the other given ones and percent-encodings in upper case. -/
inductive UriChars (other : List Char) : List Char → Prop
  | nil : UriChars other []
  | char {c r} : Unreserved c ∨ SubDelim c ∨ c ∈ other → UriChars other r → UriChars other (c :: r)
  | pct {a b r} : HexDigit a → HexDigit b → UriChars other r → UriChars other ('%' :: a :: b :: r)

/-- A path (3.3). -/
def PathChars : List Char → Prop := UriChars [':', '@', '/']

/-- A query with the question mark before it, or nothing (3.4). -/
def QueryPart (q : List Char) : Prop := q = [] ∨ ∃ t, q = '?' :: t ∧ UriChars [':', '@', '/', '?'] t

/-- A host and a port, in lower case (3.2). -/
def HostText (a : List Char) : Prop :=
  ∀ c ∈ a, (Unreserved c ∨ SubDelim c ∨ c ∈ [':', '[', ']']) ∧ ¬ ('A' ≤ c ∧ c ≤ 'Z')

/-- A scheme in lower case (3.1). -/
def SchemeText (s : List Char) : Prop :=
  (∃ c t, s = c :: t ∧ 'a' ≤ c ∧ c ≤ 'z') ∧
  ∀ c ∈ s, ('a' ≤ c ∧ c ≤ 'z') ∨ ('0' ≤ c ∧ c ≤ '9') ∨ c = '+' ∨ c = '.' ∨ c = '-'

/-- No segment of the path is `.` or `..`. -/
def NoDotSegment (p : List Char) : Prop :=
  ∀ x s y, p = x ++ (s ++ y) → (x = [] ∨ ∃ z, x = z ++ ['/']) → (y = [] ∨ ∃ z, y = '/' :: z) → s ≠ ['.'] ∧ s ≠ ['.', '.']

/-- A relative reference without fragment (4.2), in normal form but for dot segments.  Without an authority it
has no empty segments except at the end. -/
inductive RelativeRef : List Char → Prop
  | network {a p q} : HostText a → PathChars p → (p = [] ∨ ∃ t, p = '/' :: t) → QueryPart q →
      RelativeRef ('/' :: '/' :: (a ++ (p ++ q)))
  | path {p q} : PathChars p → (∀ x y, p ≠ x ++ '/' :: '/' :: y) → (∀ s r, p = s ++ ':' :: r → '/' ∈ s) →
      QueryPart q → RelativeRef (p ++ q)

/-- An absolute URI without fragment (4.3), in normal form (6.2.2). -/
inductive AbsoluteUri : List Char → Prop
  | network {s a p q} : SchemeText s → HostText a → PathChars p → (p = [] ∨ ∃ t, p = '/' :: t) → NoDotSegment p →
      QueryPart q → AbsoluteUri (s ++ ':' :: '/' :: '/' :: (a ++ (p ++ q)))
  | path {s p q} : SchemeText s → PathChars p → (∀ t, p ≠ '/' :: '/' :: t) → NoDotSegment p →
      QueryPart q → AbsoluteUri (s ++ ':' :: (p ++ q))

/-! ## Resolution -/

/-- The last segment is removed, with the slash before it, if any. -/
inductive WithoutLast : List Char → List Char → Prop
  | slash {o s} : '/' ∉ s → WithoutLast (o ++ '/' :: s) o
  | none {s} : '/' ∉ s → WithoutLast s []

/-- `remove_dot_segments` (5.2.4): from an input buffer and an output buffer to the result. -/
inductive Removes : List Char → List Char → List Char → Prop
  | done {o} : Removes [] o o
  | up {i o r} : Removes i o r → Removes ('.' :: '.' :: '/' :: i) o r
  | here {i o r} : Removes i o r → Removes ('.' :: '/' :: i) o r
  | this {i o r} : Removes ('/' :: i) o r → Removes ('/' :: '.' :: '/' :: i) o r
  | thisEnd {o r} : Removes ['/'] o r → Removes ['/', '.'] o r
  | parent {i o o' r} : WithoutLast o o' → Removes ('/' :: i) o' r → Removes ('/' :: '.' :: '.' :: '/' :: i) o r
  | parentEnd {o o' r} : WithoutLast o o' → Removes ['/'] o' r → Removes ['/', '.', '.'] o r
  | dot {o r} : Removes [] o r → Removes ['.'] o r
  | dots {o r} : Removes [] o r → Removes ['.', '.'] o r
  | move {s i o r} : s ≠ [] → '/' ∉ s.tail → (i = [] ∨ ∃ t, i = '/' :: t) →
      s ∉ [['.'], ['.', '.'], ['/', '.'], ['/', '.', '.']] → Removes i (o ++ s) r → Removes (s ++ i) o r

/-- The components of a reference. -/
structure UriParts where
  scheme : Option (List Char)
  authority : Option (List Char)
  path : List Char
  query : Option (List Char)
  fragment : Option (List Char)

/-- The paths merged (5.2.3). -/
inductive Merges (b : UriParts) (p : List Char) : List Char → Prop
  | root {a} : b.authority = some a → b.path = [] → Merges b p ('/' :: p)
  | last {d s} : (b.authority = none ∨ b.path ≠ []) → b.path = d ++ '/' :: s → '/' ∉ s → Merges b p (d ++ '/' :: p)
  | only : (b.authority = none ∨ b.path ≠ []) → '/' ∉ b.path → Merges b p p

/-- `t` is `r` resolved against `b` (5.2.2). -/
inductive ResolvesTo (r b : UriParts) : UriParts → Prop
  | scheme {s p} : r.scheme = some s → Removes r.path [] p →
      ResolvesTo r b ⟨some s, r.authority, p, r.query, r.fragment⟩
  | authority {a p} : r.scheme = none → r.authority = some a → Removes r.path [] p →
      ResolvesTo r b ⟨b.scheme, some a, p, r.query, r.fragment⟩
  | query {q} : r.scheme = none → r.authority = none → r.path = [] → r.query = some q →
      ResolvesTo r b ⟨b.scheme, b.authority, b.path, some q, r.fragment⟩
  | fragment : r.scheme = none → r.authority = none → r.path = [] → r.query = none →
      ResolvesTo r b ⟨b.scheme, b.authority, b.path, b.query, r.fragment⟩
  | rooted {t p} : r.scheme = none → r.authority = none → r.path = '/' :: t → Removes r.path [] p →
      ResolvesTo r b ⟨b.scheme, b.authority, p, r.query, r.fragment⟩
  | merged {m p} : r.scheme = none → r.authority = none → r.path ≠ [] → (∀ t, r.path ≠ '/' :: t) →
      Merges b r.path m → Removes m [] p → ResolvesTo r b ⟨b.scheme, b.authority, p, r.query, r.fragment⟩

/-- Components that a text can have (3). -/
structure UriGrammar (c : UriParts) : Prop where
  scheme : ∀ s, c.scheme = some s → (∃ x t, s = x :: t ∧ (('a' ≤ x ∧ x ≤ 'z') ∨ ('A' ≤ x ∧ x ≤ 'Z'))) ∧
    ∀ x ∈ s, ('a' ≤ x ∧ x ≤ 'z') ∨ ('A' ≤ x ∧ x ≤ 'Z') ∨ ('0' ≤ x ∧ x ≤ '9') ∨ x = '+' ∨ x = '.' ∨ x = '-'
  authority : ∀ a, c.authority = some a → (∀ x ∈ a, x ≠ '/' ∧ x ≠ '?' ∧ x ≠ '#') ∧ (c.path = [] ∨ ∃ t, c.path = '/' :: t)
  path : ∀ x ∈ c.path, x ≠ '?' ∧ x ≠ '#'
  /-- a path that begins with two slashes is not used without an authority -/
  slashes : c.authority = none → ∀ t, c.path ≠ '/' :: '/' :: t
  /-- nor a colon in the first segment without a scheme -/
  colon : c.scheme = none → c.authority = none → ∀ s r, c.path = s ++ ':' :: r → '/' ∈ s
  query : ∀ q, c.query = some q → '#' ∉ q

/-- Text of unreserved characters, sub-delims, the other given ones and percent-encodings. -/
inductive UriAnyCase (other : List Char) : List Char → Prop
  | nil : UriAnyCase other []
  | char {c r} : Unreserved c ∨ SubDelim c ∨ c ∈ other → UriAnyCase other r → UriAnyCase other (c :: r)
  | pct {a b r} : HexDigit a ∨ ('a' ≤ a ∧ a ≤ 'f') → HexDigit b ∨ ('a' ≤ b ∧ b ≤ 'f') → UriAnyCase other r →
      UriAnyCase other ('%' :: a :: b :: r)

/-- The components have characters that they may have.  Of the structure of an authority nothing is said. -/
structure ValidParts (c : UriParts) : Prop where
  grammar : UriGrammar c
  authority : ∀ a, c.authority = some a → UriAnyCase [':', '@', '[', ']'] a
  path : UriAnyCase [':', '@', '/'] c.path
  query : ∀ q, c.query = some q → UriAnyCase [':', '@', '/', '?'] q
  fragment : ∀ f, c.fragment = some f → UriAnyCase [':', '@', '/', '?'] f

/-- The components are in normal form (6.2.2), but for encodings that need not be. -/
structure NormalParts (c : UriParts) : Prop where
  scheme : ∀ s, c.scheme = some s → ∀ x ∈ s, ¬ ('A' ≤ x ∧ x ≤ 'Z')
  authority : ∀ a, c.authority = some a → ∀ x ∈ a, ¬ ('A' ≤ x ∧ x ≤ 'Z')
  path : PathChars c.path ∧ NoDotSegment c.path
  query : ∀ q, c.query = some q → UriChars [':', '@', '/', '?'] q
  fragment : ∀ f, c.fragment = some f → UriChars [':', '@', '/', '?'] f

/-- The text of components (5.3). -/
inductive TextOf : UriParts → List Char → Prop
  | scheme {s a p q f t} : TextOf ⟨none, a, p, q, f⟩ t → TextOf ⟨some s, a, p, q, f⟩ (s ++ ':' :: t)
  | authority {a p q f t} : TextOf ⟨none, none, p, q, f⟩ t → TextOf ⟨none, some a, p, q, f⟩ ('/' :: '/' :: (a ++ t))
  | query {p q f t} : TextOf ⟨none, none, [], none, f⟩ t → TextOf ⟨none, none, p, some q, f⟩ (p ++ '?' :: (q ++ t))
  | fragment {p f} : TextOf ⟨none, none, p, none, some f⟩ (p ++ '#' :: f)
  | path {p} : TextOf ⟨none, none, p, none, none⟩ p

end Jschon.Spec
