import Verif.Model.Catalog

/-!
# URIs by RFC 3986

`jschon/uri.py` leaves the work to the package `rfc3986`, which is not part of the repository; in the other
models it is a parameter (`UriLib`).  Here is that parameter as RFC 3986 has it: Appendix B for the components
of a reference, 5.3 for its text, 5.2 for resolution, 6.2.2 for normalization.  As the package does, and 5.2.1
allows, the base is normalized before resolution.  The package percent-encodes characters that a component
must not have; here they make the reference invalid.
-/

namespace Jschon.Rfc

/-- The components of a URI reference, which are the attributes of `URI` (`jschon/uri.py:40-58`). -/
structure Parts where
  scheme : Option (List Char)
  authority : Option (List Char)
  path : List Char
  query : Option (List Char)
  fragment : Option (List Char)
  deriving DecidableEq

/-! ## Components and text -/

def isAlpha (c : Char) : Bool := ('a' ≤ c && c ≤ 'z') || ('A' ≤ c && c ≤ 'Z')

def isDecimal (c : Char) : Bool := '0' ≤ c && c ≤ '9'

/-- A character of a scheme, after the first one (3.1). -/
def schemeChar (c : Char) : Bool := isAlpha c || isDecimal c || c == '+' || c == '.' || c == '-'

/-- The scheme, if any, and what follows it. -/
def splitScheme (t : List Char) : Option (List Char) × List Char :=
  if (t.head?.map isAlpha).getD false then
    match t.dropWhile schemeChar with
    | ':' :: r => (some (t.takeWhile schemeChar), r)
    | _ => (none, t)
  else (none, t)

/-- The authority, if any, and what follows it. -/
def splitAuthority : List Char → Option (List Char) × List Char
  | '/' :: '/' :: r => (some (r.takeWhile fun c => c ∉ ['/', '?', '#']), r.dropWhile fun c => c ∉ ['/', '?', '#'])
  | t => (none, t)

/-- The query, if any, and what follows it. -/
def splitQuery : List Char → Option (List Char) × List Char
  | '?' :: r => (some (r.takeWhile fun c => c ∉ ['#']), r.dropWhile fun c => c ∉ ['#'])
  | t => (none, t)

/-- The fragment, if any. -/
def splitFragment : List Char → Option (List Char)
  | '#' :: r => some r
  | _ => none

/-- The components of a text: `rfc3986.uri_reference(value)` (`jschon/uri.py:17`; RFC 3986, Appendix B). -/
def split (t : List Char) : Parts :=
  let s := splitScheme t
  let a := splitAuthority s.2
  let q := splitQuery (a.2.dropWhile fun c => c ∉ ['?', '#'])
  ⟨s.1, a.1, a.2.takeWhile fun c => c ∉ ['?', '#'], q.1, splitFragment q.2⟩

/-- The text of a component, if present, with what marks it. -/
def mark (before after : List Char) : Option (List Char) → List Char
  | none => []
  | some x => before ++ x ++ after

/-- The text of a reference: `uriref.unsplit()` (`jschon/uri.py:20`; RFC 3986, 5.3). -/
def Parts.text (r : Parts) : List Char :=
  mark [] [':'] r.scheme ++ (mark ['/', '/'] [] r.authority ++ (r.path ++ (mark ['?'] [] r.query ++
    mark ['#'] [] r.fragment)))

/-! ## Dot segments -/

/-- The segments of a path, each with the slash before it. -/
def pieces : List Char → List (List Char)
  | [] => []
  | c :: r =>
    match pieces r with
    | ('/' :: p) :: ps => [c] :: ('/' :: p) :: ps
    | p :: ps => (c :: p) :: ps
    | [] => [[c]]

/-- Leading `./` and `../` are removed (RFC 3986, 5.2.4, A and D). -/
def strip : List Char → List Char
  | ['.'] => []
  | ['.', '.'] => []
  | '.' :: '/' :: r => strip r
  | '.' :: '.' :: '/' :: r => strip r
  | p => p

/-- The remaining segments of the input are moved to the output, whose last segment comes first (RFC 3986,
5.2.4, B, C and E). -/
def dotLoop (out : List (List Char)) : List (List Char) → List (List Char)
  | [] => out.reverse
  | p :: ps =>
    if p = ['/', '.'] then
      if ps = [] then dotLoop (['/'] :: out) ps else dotLoop out ps
    else if p = ['/', '.', '.'] then
      if ps = [] then dotLoop (['/'] :: out.tail) ps else dotLoop out.tail ps
    else dotLoop (p :: out) ps

/-- `remove_dot_segments` (RFC 3986, 5.2.4). -/
def dots (p : List Char) : List Char := (dotLoop [] (pieces (strip p))).flatten

/-! ## Normalization -/

def isHex (c : Char) : Bool := isDecimal c || ('a' ≤ c && c ≤ 'f') || ('A' ≤ c && c ≤ 'F')

/-- A hexadecimal digit in upper case. -/
def upHex : Char → Char
  | 'a' => 'A'
  | 'b' => 'B'
  | 'c' => 'C'
  | 'd' => 'D'
  | 'e' => 'E'
  | 'f' => 'F'
  | c => c

/-- The hexadecimal digits of percent-encodings in upper case, where up to `n` digits are expected. -/
def upperFrom : Nat → List Char → List Char
  | n, c :: r =>
    if c = '%' then c :: upperFrom 2 r
    else if n ≠ 0 ∧ isHex c = true then upHex c :: upperFrom (n - 1) r
    else c :: upperFrom 0 r
  | _, [] => []

/-- The hexadecimal digits of percent-encodings in upper case. -/
def pctUpper (l : List Char) : List Char := upperFrom 0 l

/-- The host in lower case; the port has no letters. -/
def normalAuthority (a : List Char) : List Char :=
  if '@' ∈ a then pctUpper (a.takeWhile (· ≠ '@')) ++ (a.dropWhile (· ≠ '@')).map Char.toLower
  else a.map Char.toLower

/-- `uriref.normalize()` (`jschon/uri.py:118`; RFC 3986, 6.2.2). -/
def Parts.normalize (r : Parts) : Parts :=
  ⟨r.scheme.map (·.map Char.toLower), r.authority.map normalAuthority, dots (pctUpper r.path), r.query.map pctUpper,
    r.fragment.map pctUpper⟩

/-! ## Resolution -/

/-- `merge` (RFC 3986, 5.2.3): the path of the reference instead of the last segment of the base. -/
def merge (base : Parts) (path : List Char) : List Char :=
  if base.authority.isSome && base.path.isEmpty then '/' :: path
  else (base.path.reverse.dropWhile (· ≠ '/')).reverse ++ path

/-- `r.resolve_with(b)` (`jschon/uri.py:66-70`; RFC 3986, 5.2.2) for a base that has been normalized. -/
def Parts.resolve (r b : Parts) : Parts :=
  match r.scheme, r.authority with
  | some s, a => ⟨some s, a, dots r.path, r.query, r.fragment⟩
  | none, some a => ⟨b.scheme, some a, dots r.path, r.query, r.fragment⟩
  | none, none =>
    if r.path = [] then ⟨b.scheme, b.authority, b.path, if r.query.isSome then r.query else b.query, r.fragment⟩
    else if r.path.head? = some '/' then ⟨b.scheme, b.authority, dots r.path, r.query, r.fragment⟩
    else ⟨b.scheme, b.authority, dots (merge b r.path), r.query, r.fragment⟩

/-! ## Syntax -/

/-- `unreserved` and `sub-delims` (2.2, 2.3). -/
def plain (c : Char) : Bool := isAlpha c || isDecimal c || "-._~!$&'()*+,;=".toList.contains c

/-- A text of plain characters, the other given ones, and percent-encodings, where `n` hexadecimal digits are
expected first. -/
def formedFrom (other : List Char) : Nat → List Char → Bool
  | 0, c :: r => if c = '%' then formedFrom other 2 r else (plain c || other.contains c) && formedFrom other 0 r
  | n + 1, c :: r => isHex c && formedFrom other n r
  | n, [] => n == 0

/-- A text of plain characters, the other given ones, and percent-encodings. -/
def wellFormed (other l : List Char) : Bool := formedFrom other 0 l

/-- The components have the characters that they may have (3.2 to 3.5).  Of the structure of an authority
nothing is demanded. -/
def Parts.wellFormed (r : Parts) : Bool :=
  (r.authority.map (Rfc.wellFormed [':', '@', '[', ']'])).getD true && Rfc.wellFormed [':', '@', '/'] r.path &&
  (r.query.map (Rfc.wellFormed [':', '@', '/', '?'])).getD true &&
  (r.fragment.map (Rfc.wellFormed [':', '@', '/', '?'])).getD true

/-- A colon is in the first segment of a reference only if that has a scheme (4.2). -/
def Parts.noColon (r : Parts) : Bool :=
  r.scheme.isSome || r.authority.isSome || !(r.path.takeWhile (· ≠ '/')).contains ':'

/-! ## The library -/

/-- `URI(value)` (`jschon/uri.py:16-17`): the text before the first `#`, and what follows it. -/
def ofText (t : String) : Uri :=
  ⟨String.ofList (t.toList.takeWhile (· ≠ '#')),
    match t.toList.dropWhile (· ≠ '#') with
    | [] => none
    | _ :: f => some (String.ofList f)⟩

/-- The components of a URI. -/
def partsOf (u : Uri) : Parts := { split u.base.toList with fragment := u.fragment.map (·.toList) }

/-- The URI with these components. -/
def ofParts (r : Parts) : Uri :=
  ⟨String.ofList { r with fragment := none }.text, r.fragment.map String.ofList⟩

/-- What jschon takes from `rfc3986` (`jschon/uri.py:16-123`), by RFC 3986; `uuid` stands for `uuid4`. -/
def lib (uuid : List Uri → Uri) : UriLib where
  ofText := ofText
  valid u := (partsOf u).wellFormed && (partsOf u).noColon
  hasScheme u := (partsOf u).scheme.isSome
  normal u := (partsOf u).normalize = partsOf u
  dirPath u := (partsOf u).path.getLast? = some '/'
  isAbsolute u := (partsOf u).scheme.isSome && (partsOf u).wellFormed && u.base.toList.all (· ≠ '#') && u.fragment.isNone
  same u v := partsOf u = partsOf v || (partsOf u).normalize = (partsOf v).normalize
  resolve u b := if (partsOf b).scheme.isSome then some (ofParts ((partsOf u).resolve (partsOf b).normalize)) else none
  uuid := uuid

end Jschon.Rfc
