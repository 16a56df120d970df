import Verif.Model.Pointer

/-!
# `jschon/jsonpointer.py`: RelativeJSONPointer, construction and text

Evaluation is in `Verif/Model/JsonHeap.lean`, because it follows parent links.
-/

namespace Jschon

/-- `str(z)` for an int. -/
def intStr (z : Int) : String :=
  if z < 0 then String.ofList ('-' :: (natStr z.natAbs).toList) else natStr z.natAbs

/-- `JSON_INDEX_MANIP_RE = r'((\+|-)[1-9][0-9]*)?'` (`jschon/jsonpointer.py:27`). -/
def indexManipRe : Re :=
  .opt (.seq (.cls (fun c => c == '+' || c == '-'))
    (.seq (.cls (fun c => '1' ≤ c && c ≤ '9')) (.star (.cls (fun c => '0' ≤ c && c ≤ '9')))))

/-- The `ref` group of `RELATIVE_JSON_POINTER_RE` (`jschon/jsonpointer.py:31`). -/
def relRefRe : Re := .alt (.chr '#') jsonPointerRe

/-- All ways to cut a list in two. -/
def cuts : List Char → List (List Char × List Char)
  | [] => [([], [])]
  | c :: cs => ([], c :: cs) :: (cuts cs).map (fun p => (c :: p.1, p.2))

/-- `RelativeJSONPointer._regex.fullmatch(s)` with its groups `up`, `over`, `ref`
(`jschon/jsonpointer.py:28-32`, `:286`, `:313-316`): the first cut of `s` in three parts that match the three
groups.  `Verif/Proof/RelPointer.lean` proves there is at most one, so the order of the search does
not matter. -/
def relMatch (s : List Char) : Option (List Char × List Char × List Char) :=
  (((cuts s).filter (fun p => jsonIndexRe.fullmatch p.1)).flatMap (fun p =>
    ((cuts p.2).filter (fun q => indexManipRe.fullmatch q.1 && relRefRe.fullmatch q.2)).map
      (fun q => (p.1, q.1, q.2)))).head?

/-- The `ref` argument: a JSONPointer or the literal `'#'`. -/
inductive RelRef where
  | hash
  | ptr (p : Ptr)
  deriving DecidableEq

/-- A RelativeJSONPointer instance (`jschon/jsonpointer.py:310-333`). -/
structure RelPtr where
  up : Int
  over : Int
  path : Option Ptr
  index : Bool
  overStr : String
  deriving DecidableEq

/-- `RelativeJSONPointer(value)` (`jschon/jsonpointer.py:312-319`, `:326-331`).  The two `int(...)` calls and the
inner `JSONPointer(ref)` could raise; their exceptions are passed on. -/
def RelPtr.parse (value : String) : Except Exc RelPtr :=
  match relMatch value.toList with
  | none => .error .relMalformed
  | some (up, over, ref) =>
    match pyInt (String.ofList up) with
    | none => .error .valueError
    | some u =>
      match (if over = [] then some 0 else pyInt (String.ofList over)) with
      | none => .error .valueError
      | some o =>
        let ostr :=
          if o = 0 then ""
          else if o < 0 then String.ofList over
          else String.ofList ('+' :: (intStr o).toList)
        if ref = ['#'] then .ok ⟨u, o, none, true, ostr⟩
        else
          match Ptr.parse (String.ofList ref) with
          | .ok p => .ok ⟨u, o, some p, false, ostr⟩
          | .error e => .error e

/-- `RelativeJSONPointer(up=…, over=…, ref=…)` (`jschon/jsonpointer.py:321-331`). -/
def RelPtr.make (up over : Int) (ref : RelRef) : RelPtr :=
  let ostr :=
    if over = 0 then ""
    else if over < 0 then intStr over
    else String.ofList ('+' :: (intStr over).toList)
  match ref with
  | .hash => ⟨up, over, none, true, ostr⟩
  | .ptr p => ⟨up, over, some p, false, ostr⟩

/-- `p == q` (`jschon/jsonpointer.py:335-342`). -/
def RelPtr.eq (p q : RelPtr) : Bool :=
  p.up == q.up && p.over == q.over && p.index == q.index && p.path == q.path

/-- `hash(p)` (`jschon/jsonpointer.py:344-346`), for some hash of the tuple. -/
def RelPtr.hash (h : Int × Int × Bool × Option Ptr → Int) (p : RelPtr) : Int :=
  h (p.up, p.over, p.index, p.path)

/-- `str(p)` (`jschon/jsonpointer.py:348-352`).  With `index` false and no path (only possible when
`ref` is neither a pointer nor `'#'`) Python prints `None`; that argument is not modelled. -/
def RelPtr.str (p : RelPtr) : String :=
  if p.index then String.ofList ((intStr p.up).toList ++ p.overStr.toList ++ ['#'])
  else
    String.ofList ((intStr p.up).toList ++ p.overStr.toList ++
      (match p.path with | some q => q.str.toList | none => "None".toList))

end Jschon
