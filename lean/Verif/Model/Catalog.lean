import Verif.Model.Pointer

/-!
# The catalog: sources and schema caches (`jschon/catalog/__init__.py`, `jschon/uri.py`)

Construction of schemas, and with it the slow path of `get_schema`, is in
`Verif/Model/Construct.lean`.
-/

namespace Jschon

/-! ## Dicts with other keys than strings -/

/-- `d[k]`, `none` for KeyError. -/
def alookup {κ β : Type} [DecidableEq κ] (k : κ) : List (κ × β) → Option β
  | [] => none
  | (k', v) :: r => if k = k' then some v else alookup k r

/-- `d[k] = v` -/
def aset {κ β : Type} [DecidableEq κ] (k : κ) (v : β) : List (κ × β) → List (κ × β)
  | [] => [(k, v)]
  | (k', v') :: r => if k = k' then (k', v) :: r else (k', v') :: aset k v r

/-- `d.pop(k, None)` -/
def apop {κ β : Type} [DecidableEq κ] (k : κ) : List (κ × β) → List (κ × β)
  | [] => []
  | (k', v') :: r => if k = k' then r else (k', v') :: apop k r

/-! ## URIs -/

/-- A `URI` (`jschon/uri.py:15-92`): everything before the fragment, and the fragment.  Equality is
equality of the two parts, as in a dict lookup (the hash of a URI is that of its components). -/
structure Uri where
  base : String
  fragment : Option String
  deriving DecidableEq, Repr

/-- `str(uri)` (`jschon/uri.py:19-20`) -/
def Uri.str (u : Uri) : String :=
  match u.fragment with
  | none => u.base
  | some f => u.base ++ "#" ++ f

/-- `uri.copy(fragment=False)` (`jschon/uri.py:70-92`) -/
def Uri.noFragment (u : Uri) : Uri := ⟨u.base, none⟩

/-- `uri.copy(fragment=f)` (`jschon/uri.py:70-92`) -/
def Uri.withFragment (u : Uri) (f : String) : Uri := ⟨u.base, some f⟩

/-- What jschon takes from the package `rfc3986`, which is not part of the repository. -/
structure UriLib where
  /-- `rfc3986.uri_reference(text)`: the part before the first `#`, recomposed. -/
  ofText : String → Uri
  /-- The components of the URI have the syntax of RFC 3986. -/
  valid : Uri → Bool
  /-- The URI has a scheme. -/
  hasScheme : Uri → Bool
  /-- The URI equals its normalization. -/
  normal : Uri → Bool
  /-- The path is not empty and ends with a slash. -/
  dirPath : Uri → Bool
  /-- `self.is_absolute()`: a scheme, and no fragment. -/
  isAbsolute : Uri → Bool
  /-- `self._uriref == other._uriref`: the same components, or the same after normalization. -/
  same : Uri → Uri → Bool
  /-- `self.resolve_with(base)`; `none` when `ResolutionError` is raised. -/
  resolve : Uri → Uri → Option Uri
  /-- `URI(f'urn:uuid:{uuid4()}')`, when the schemas that exist have the given URIs. -/
  uuid : List Uri → Uri

/-- `uri.validate(...)` (`jschon/uri.py:94-123`) -/
def Uri.validate (lib : UriLib) (u : Uri) (requireScheme requireNormalized : Bool)
    (allowFragment allowNonEmptyFragment : Bool) : Except Exc Unit :=
  if !lib.valid u || (requireScheme && !lib.hasScheme u) then .error .uriError
  else if requireNormalized && !lib.normal u then .error .uriError
  else if !allowFragment && u.fragment.isSome then .error .uriError
  else if !allowNonEmptyFragment && !(u.fragment = none || u.fragment = some "") then .error .uriError
  else .ok ()

/-! ## Sources -/

/-- A `Source`: called with a relative path, it returns a document or raises
(`jschon/catalog/__init__.py:26-67`). -/
abbrev Source := String → Except Exc Value

/-- `catalog.add_uri_source(base_uri, source)` (`jschon/catalog/__init__.py:102-129`): the new value
of `_uri_sources`. -/
def addUriSource (lib : UriLib) (srcs : List (String × Source)) (base : Option Uri) (src : Source) :
    Except Exc (List (String × Source)) :=
  match base with
  | none => .ok (dset "" src srcs)
  | some u =>
    match u.validate lib true true false true with
    | .error _ => .error .catalogError
    | .ok () => if lib.dirPath u then .ok (dset u.str src srcs) else .error .catalogError

/-- `candidates` of `load_json`, sorted (`jschon/catalog/__init__.py:148-154`).  Python's sort is
stable, and so is `mergeSort`. -/
def sourceCandidates (srcs : List (String × Source)) (uristr : String) : List (String × Source) :=
  (srcs.filter (fun ps => ps.1.toList.isPrefixOf uristr.toList)).mergeSort
    (fun a b => decide (b.1.length ≤ a.1.length))

/-- `catalog.load_json(uri)` (`jschon/catalog/__init__.py:131-164`).  Whatever the source raises
becomes a CatalogError. -/
def loadJson (lib : UriLib) (srcs : List (String × Source)) (u : Uri) : Except Exc Value :=
  match u.validate lib true true false true with
  | .error _ => .error .catalogError
  | .ok () =>
    match sourceCandidates srcs u.str with
    | [] => .error .catalogError
    | (p, src) :: _ =>
      match src (String.ofList (u.str.toList.drop p.length)) with
      | .ok v => .ok v
      | .error _ => .error .catalogError

/-! ## Schema caches -/

/-- `catalog._schema_cache`: cache identifier to URI to schema object
(`jschon/catalog/__init__.py:95`).  Identifiers are taken to be strings. -/
abbrev Caches := List (String × List (Uri × Nat))

/-- `catalog._schema_cache[cacheid][uri]`, `none` for KeyError. -/
def cacheGet (cs : Caches) (id : String) (u : Uri) : Option Nat :=
  (alookup id cs).bind (alookup u)

/-- `catalog.add_schema(uri, schema, cacheid=id)` (`jschon/catalog/__init__.py:281-297`) -/
def addSchema (cs : Caches) (id : String) (u : Uri) (s : Nat) : Caches :=
  aset id (aset u s ((alookup id cs).getD [])) cs

/-- `catalog.del_schema(uri, cacheid=id)` (`jschon/catalog/__init__.py:299-311`) -/
def delSchema (cs : Caches) (id : String) (u : Uri) : Caches :=
  match alookup id cs with
  | none => cs
  | some c => aset id (apop u c) cs

/-- `catalog._schema_cache.pop(id, None)` (`jschon/catalog/__init__.py:391`) -/
def popCache (cs : Caches) (id : String) : Caches := apop id cs

/-- `with catalog.cache(id) as cacheid: body` (`jschon/catalog/__init__.py:370-391`), for a body that
does anything to the caches and returns or raises.  Without an argument the identifier is a new UUID,
here an argument too. -/
def cacheBlock {α : Type} (id : String) (body : Caches → Caches × Except Exc α) (cs : Caches) :
    Caches × Except Exc α :=
  if (alookup id cs).isSome then (cs, .error .catalogError)
  else
    let r := body cs
    (popCache r.1 id, r.2)

/-- A call that changes the caches. -/
inductive CacheOp where
  | add (id : String) (u : Uri) (s : Nat)
  | del (id : String) (u : Uri)
  | pop (id : String)

/-- The caches after the call. -/
def CacheOp.step (cs : Caches) : CacheOp → Caches
  | .add id u s => addSchema cs id u s
  | .del id u => delSchema cs id u
  | .pop id => popCache cs id

/-- A program that uses the caches: calls, exceptions, sequencing, and `with catalog.cache(id)` blocks
nested in any way. -/
inductive CacheProg where
  | call (op : CacheOp)
  | raise (e : Exc)
  | seq (p q : CacheProg)
  | block (id : String) (p : CacheProg)

/-- The caches when the program ends, and whether it raised. -/
def CacheProg.run : CacheProg → Caches → Caches × Except Exc Unit
  | .call op, cs => (op.step cs, .ok ())
  | .raise e, cs => (cs, .error e)
  | .seq p q, cs =>
    match p.run cs with
    | (cs', .ok ()) => q.run cs'
    | (cs', .error e) => (cs', .error e)
  | .block id p, cs => cacheBlock id p.run cs

end Jschon
