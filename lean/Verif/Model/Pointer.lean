import Verif.Model.Py
import Verif.Model.Regex

/-!
# `jschon/jsonpointer.py`: JSONPointer
-/

namespace Jschon

/-- `s.replace(old, new)` for a non-empty `old`: left to right, non-overlapping.  `skip` counts the
characters of a match that are still to be dropped. -/
def pyReplaceGo (old new : List Char) : Nat → List Char → List Char
  | _, [] => []
  | skip + 1, _ :: cs => pyReplaceGo old new skip cs
  | 0, c :: cs =>
    if old.isPrefixOf (c :: cs) then new ++ pyReplaceGo old new (old.length - 1) cs
    else c :: pyReplaceGo old new 0 cs

/-- `s.replace(old, new)` on character lists. -/
def pyReplace (old new s : List Char) : List Char := pyReplaceGo old new 0 s

/-- `s.split(sep)` for a one-character separator. -/
def pySplit (sep : Char) : List Char → List (List Char)
  | [] => [[]]
  | c :: cs =>
    if c = sep then [] :: pySplit sep cs
    else
      match pySplit sep cs with
      | [] => [[c]]          -- unreachable: a split is never empty
      | t :: ts => (c :: t) :: ts

/-- `JSONPointer.escape` (`jschon/jsonpointer.py:258-264`), on characters. -/
def escapeL (k : List Char) : List Char :=
  pyReplace ['/'] ['~', '1'] (pyReplace ['~'] ['~', '0'] k)

/-- `JSONPointer.unescape` (`jschon/jsonpointer.py:267-273`), on characters. -/
def unescapeL (t : List Char) : List Char :=
  pyReplace ['~', '0'] ['~'] (pyReplace ['~', '1'] ['/'] t)

/-- `JSONPointer.escape` (`jschon/jsonpointer.py:258-264`). -/
def ptrEscape (k : String) : String := String.ofList (escapeL k.toList)

/-- `JSONPointer.unescape` (`jschon/jsonpointer.py:267-273`). -/
def ptrUnescape (t : String) : String := String.ofList (unescapeL t.toList)

/-- `JSON_POINTER_RE = '(/([^~/]|(~[01]))*)*'` (`jschon/jsonpointer.py:25`). -/
def jsonPointerRe : Re :=
  .star (.seq (.chr '/')
    (.star (.alt (.cls (fun c => !(c == '~' || c == '/')))
                 (.seq (.chr '~') (.cls (fun c => c == '0' || c == '1'))))))

/-- `JSON_INDEX_RE = '0|([1-9][0-9]*)'` (`jschon/jsonpointer.py:26`). -/
def jsonIndexRe : Re :=
  .alt (.chr '0')
    (.seq (.cls (fun c => '1' ≤ c && c ≤ '9')) (.star (.cls (fun c => '0' ≤ c && c ≤ '9'))))

/-- A `JSONPointer` instance: its `_keys` (`jschon/jsonpointer.py:94`).  Two instances are equal
iff their keys are (`jschon/jsonpointer.py:149-153`). -/
structure Ptr where
  keys : List String
  deriving DecidableEq

/-- One constructor argument: an RFC 6901 string, or an iterable of unescaped keys (which includes
another pointer).  Arguments of other types (TypeError) are not modelled. -/
inductive PtrArg where
  | text (s : String)
  | keys (ks : List String)

/-- One iteration of the loop at `jschon/jsonpointer.py:96-106`: the keys it appends. -/
def ptrArgKeys : PtrArg → Except Exc (List String)
  | .text s =>
    if jsonPointerRe.fullmatch s.toList then
      .ok (((pySplit '/' s.toList).drop 1).map (fun t => ptrUnescape (String.ofList t)))
    else .error .ptrMalformed
  | .keys ks => .ok ks

/-- The loop at `jschon/jsonpointer.py:96-109`. -/
def ptrNewGo (acc : List String) : List PtrArg → Except Exc (List String)
  | [] => .ok acc
  | a :: as =>
    match ptrArgKeys a with
    | .ok ks => ptrNewGo (acc ++ ks) as
    | .error e => .error e

/-- `JSONPointer(*values)` (`jschon/jsonpointer.py:84-111`). -/
def Ptr.new (args : List PtrArg) : Except Exc Ptr :=
  match ptrNewGo [] args with
  | .ok ks => .ok ⟨ks⟩
  | .error e => .error e

/-- `JSONPointer(s)` for a string argument. -/
def Ptr.parse (s : String) : Except Exc Ptr := Ptr.new [.text s]

/-- `str(p)` (`jschon/jsonpointer.py:179-181`). -/
def Ptr.str (p : Ptr) : String :=
  String.ofList ((p.keys.map (fun k => '/' :: (ptrEscape k).toList)).flatten)

/-- `p / key` for a string (`jschon/jsonpointer.py:143-144`). -/
def Ptr.divKey (p : Ptr) (k : String) : Except Exc Ptr := Ptr.new [.keys p.keys, .keys [k]]

/-- `p / iterable` (`jschon/jsonpointer.py:145-146`). -/
def Ptr.divKeys (p : Ptr) (ks : List String) : Except Exc Ptr := Ptr.new [.keys p.keys, .keys ks]

/-- A Python slice bound: clamp a possibly negative index into `[0, n]`. -/
def sliceBound (n : Nat) (i : Int) : Nat :=
  if i < 0 then ((n : Int) + i).toNat else min i.toNat n

/-- `p[i:j]` (`jschon/jsonpointer.py:125-126`); `none` is an omitted bound. -/
def Ptr.slice (p : Ptr) (i j : Option Int) : Ptr :=
  let n := p.keys.length
  let a := (i.map (sliceBound n)).getD 0
  let b := (j.map (sliceBound n)).getD n
  ⟨(p.keys.take b).drop a⟩

/-- `p[i]` (`jschon/jsonpointer.py:123-124`); `none` is IndexError. -/
def Ptr.item (p : Ptr) (i : Int) : Option String := pyIndex p.keys i

/-- `len(p)` (`jschon/jsonpointer.py:129-131`). -/
def Ptr.len (p : Ptr) : Nat := p.keys.length

/-- `p == q` (`jschon/jsonpointer.py:149-153`). -/
def Ptr.eq (p q : Ptr) : Bool := p.keys == q.keys

/-- `p <= q` (`jschon/jsonpointer.py:155-163`). -/
def Ptr.le (p q : Ptr) : Bool := p.keys == q.keys.take p.keys.length

/-- `p < q` (`jschon/jsonpointer.py:165-173`). -/
def Ptr.lt (p q : Ptr) : Bool :=
  decide (p.keys.length < q.keys.length) && p.keys == q.keys.take p.keys.length

/-- `hash(p)` (`jschon/jsonpointer.py:175-177`): some hash function of the tuple of keys. -/
def Ptr.hash (h : List String → Int) (p : Ptr) : Int := h p.keys

/-- `resolve` in `JSONPointer.evaluate` (`jschon/jsonpointer.py:199-219`), for a document made of
plain Python dicts, lists and scalars (`isjson` is false throughout).  A string is a `Sequence`
but is excluded at line 212. -/
def resolvePlain : List String → Value → Except Exc Value
  | [], v => .ok v
  | k :: ks, .obj kvs =>
    match dlookup k kvs with
    | some v => resolvePlain ks v
    | none => .error .ptrReference                     -- KeyError, caught at line 216
  | k :: ks, .arr xs =>
    if jsonIndexRe.fullmatch k.toList then
      match pyInt k with
      | none => .error .valueError                     -- int(key), not caught
      | some i =>
        match pyIndex xs i with
        | some v => resolvePlain ks v
        | none => .error .ptrReference                 -- IndexError, caught at line 216
    else .error .ptrReference
  | _ :: _, _ => .error .ptrReference

/-- `p.evaluate(document)` for a plain Python document (`jschon/jsonpointer.py:187-221`). -/
def Ptr.evaluate (p : Ptr) (doc : Value) : Except Exc Value := resolvePlain p.keys doc

end Jschon
