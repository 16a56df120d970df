import Verif.Model.Catalog
import Verif.Model.JsonHeap
import Verif.Model.KwOrder
import Verif.Model.Percent
import Verif.Model.Patch

/-!
# Construction of schemas (`jschon/jsonschema.py`, `jschon/vocabulary/*.py`, `jschon/catalog/__init__.py`)

`JSONSchema` objects are JSON instances (nodes of the heap of `Verif/Model/JsonHeap.lean`) that carry
further attributes.  Construction runs on a world: the heap, those attributes, and the schema caches of
the catalog.  What is done before an exception is raised stays done.

Not modelled: metaschemas are not constructed here; `catalog.get_metaschema` is a parameter that
returns the keyword classes of a metaschema or raises.  A schema whose `$schema`, `$id`, `$ref`,
`$dynamicRef`, `$anchor` or `$dynamicAnchor` is not a string is outside the model.
-/

namespace Jschon

/-! ## Keyword classes -/

/-- What the `__init__` of a keyword class does, as far as the classes differ. -/
inductive KwShape where
  | plain                 -- only `Keyword.__init__`
  | subschema             -- `(Keyword, Subschema)`
  | arrayOfSubschemas     -- `(Keyword, ArrayOfSubschemas)`
  | objectOfSubschemas    -- `(Keyword, ObjectOfSubschemas)`
  | subschemaOrArray      -- `(Keyword, Subschema, ArrayOfSubschemas)`
  | schema                -- `SchemaKeyword`, core.py:22-34
  | vocabulary            -- `VocabularyKeyword`, core.py:37-62
  | id                    -- `IdKeyword`, core.py:65-79
  | idNext                -- `IdKeyword_Next`, future.py:11-26
  | ref                   -- `RefKeyword`, core.py:82-103
  | anchor                -- `AnchorKeyword`, core.py:106-118
  | dynamicRef            -- `DynamicRefKeyword`, core.py:121-169
  | dynamicAnchor         -- `DynamicAnchorKeyword`, core.py:172-184
  | recursiveRef          -- `RecursiveRefKeyword_2019_09`, legacy.py:16-48
  | pattern               -- `PatternKeyword`, validation.py:132-142
  | format                -- `FormatKeyword`, format.py:14-32
  | unknown               -- `_UnknownKeyword`, vocabulary/__init__.py:162-165
  deriving DecidableEq, Repr

/-- A keyword class: its key, its constructor and its dependencies. -/
structure KwCls where
  key : String
  shape : KwShape
  deps : List String := []
  deriving DecidableEq, Repr

/-- What construction uses of a `Metaschema` (`jschon/vocabulary/__init__.py:27-108`): `kwclasses`, and
whether `core_vocabulary` is that of 2019-09 or 2020-12 (`jschon/jsonschema.py:140-147`). -/
structure Meta where
  classes : List KwCls
  knownCore : Bool := true

/-- The dependencies of `unevaluatedItems` and `unevaluatedProperties` in both drafts
(`applicator.py:193-206`, `:349-363`). -/
def unevalDeps : List String := ["if", "then", "else", "allOf", "anyOf", "oneOf", "not", "$ref"]

/-- The keyword classes that both drafts have (`jschon/catalog/_2020_12.py:18-108`,
`_2019_09.py:19-107`). -/
def commonClasses : List KwCls :=
  [⟨"$schema", .schema, []⟩, ⟨"$vocabulary", .vocabulary, []⟩, ⟨"$id", .id, []⟩, ⟨"$ref", .ref, []⟩,
   ⟨"$anchor", .anchor, []⟩, ⟨"$defs", .objectOfSubschemas, []⟩, ⟨"$comment", .plain, []⟩,
   ⟨"allOf", .arrayOfSubschemas, []⟩, ⟨"anyOf", .arrayOfSubschemas, []⟩,
   ⟨"oneOf", .arrayOfSubschemas, []⟩, ⟨"not", .subschema, []⟩, ⟨"if", .subschema, []⟩,
   ⟨"then", .subschema, ["if"]⟩, ⟨"else", .subschema, ["if"]⟩,
   ⟨"dependentSchemas", .objectOfSubschemas, []⟩, ⟨"contains", .subschema, []⟩,
   ⟨"properties", .objectOfSubschemas, []⟩, ⟨"patternProperties", .objectOfSubschemas, []⟩,
   ⟨"additionalProperties", .subschema, ["properties", "patternProperties"]⟩,
   ⟨"propertyNames", .subschema, []⟩,
   ⟨"type", .plain, []⟩, ⟨"enum", .plain, []⟩, ⟨"const", .plain, []⟩, ⟨"multipleOf", .plain, []⟩,
   ⟨"maximum", .plain, []⟩, ⟨"exclusiveMaximum", .plain, []⟩, ⟨"minimum", .plain, []⟩,
   ⟨"exclusiveMinimum", .plain, []⟩, ⟨"maxLength", .plain, []⟩, ⟨"minLength", .plain, []⟩,
   ⟨"pattern", .pattern, []⟩, ⟨"maxItems", .plain, []⟩, ⟨"minItems", .plain, []⟩,
   ⟨"uniqueItems", .plain, []⟩, ⟨"maxContains", .plain, ["contains"]⟩,
   ⟨"minContains", .plain, ["contains", "maxContains"]⟩, ⟨"maxProperties", .plain, []⟩,
   ⟨"minProperties", .plain, []⟩, ⟨"required", .plain, []⟩, ⟨"dependentRequired", .plain, []⟩,
   ⟨"format", .format, []⟩, ⟨"title", .plain, []⟩, ⟨"description", .plain, []⟩,
   ⟨"default", .plain, []⟩, ⟨"deprecated", .plain, []⟩, ⟨"readOnly", .plain, []⟩,
   ⟨"writeOnly", .plain, []⟩, ⟨"examples", .plain, []⟩, ⟨"contentMediaType", .plain, []⟩,
   ⟨"contentEncoding", .plain, []⟩, ⟨"contentSchema", .plain, ["contentMediaType"]⟩]

/-- The metaschema of 2020-12 (`jschon/catalog/_2020_12.py`). -/
def meta2020 : Meta where
  classes := commonClasses ++
    [⟨"$dynamicRef", .dynamicRef, []⟩, ⟨"$dynamicAnchor", .dynamicAnchor, []⟩,
     ⟨"prefixItems", .arrayOfSubschemas, []⟩, ⟨"items", .subschema, ["prefixItems"]⟩,
     ⟨"unevaluatedItems", .subschema,
       ["prefixItems", "items", "contains"] ++ unevalDeps ++ ["$dynamicRef"]⟩,
     ⟨"unevaluatedProperties", .subschema,
       ["properties", "patternProperties", "additionalProperties", "if", "then", "else",
        "dependentSchemas", "allOf", "anyOf", "oneOf", "not", "$ref", "$dynamicRef"]⟩]

/-- The metaschema of 2019-09 (`jschon/catalog/_2019_09.py`). -/
def meta2019 : Meta where
  classes := commonClasses ++
    [⟨"$recursiveRef", .recursiveRef, []⟩, ⟨"$recursiveAnchor", .plain, []⟩,
     ⟨"items", .subschemaOrArray, []⟩, ⟨"additionalItems", .subschema, ["items"]⟩,
     ⟨"unevaluatedItems", .subschema, ["items", "additionalItems"] ++ unevalDeps ++ ["$recursiveRef"]⟩,
     ⟨"unevaluatedProperties", .subschema,
       ["properties", "patternProperties", "additionalProperties", "if", "then", "else",
        "dependentSchemas", "allOf", "anyOf", "oneOf", "not", "$ref", "$recursiveRef"]⟩]

/-- `metaschema.get_kwclass(key)` (`jschon/vocabulary/__init__.py:93-108`).  For an unknown key,
`key[0]` fails if it is empty, and `type()` refuses a name with a null character.  That the class is
kept for later calls makes no difference. -/
def getKwclass (m : Meta) (key : String) : Except Exc KwCls :=
  match m.classes.find? (fun c => c.key = key) with
  | some c => .ok c
  | none =>
    if key = "" then .error .indexError
    else if '\x00' ∈ key.toList then .error .valueError
    else .ok ⟨key, .unknown, []⟩

/-! ## The world -/

/-- A keyword object (`jschon/vocabulary/__init__.py:142-151`) with the attributes that `resolve` sets
(`core.py:87-88`, `:127-129`). -/
structure KwObj where
  shape : KwShape
  json : Nat
  refschema : Option Nat := none
  dynamic : Bool := false

/-- The attributes that a `JSONSchema` has besides those of a `JSON` (`jschon/jsonschema.py:58-72`). -/
structure SInfo where
  cacheid : String
  uri : Option Uri
  metaUri : Option Uri
  keywords : List (String × KwObj) := []

/-- JSON instances, which of them are `JSONSchema` instances, and the schema caches. -/
structure World where
  heap : JHeap
  info : Nat → Option SInfo
  caches : Caches

/-- Nothing constructed yet. -/
def World.empty : World := ⟨.empty, fun _ => none, []⟩

/-- What construction uses besides: the package `rfc3986`, the catalog's sources and metaschemas,
`re.compile`, and the enabled formats. -/
structure CEnv where
  lib : UriLib
  sources : List (String × Source)
  /-- `catalog.get_metaschema(uri)` -/
  metaschema : Uri → Except Exc Meta
  /-- `re.compile(text)` succeeds. -/
  reOk : String → Bool
  /-- `catalog.is_format_enabled(name)` -/
  fmtEnabled : String → Bool
  /-- `name in _format_validators` -/
  fmtKnown : String → Bool

/-- A computation on the world: it returns or raises.  `none` stands for a computation that does not
end within the fuel given to it, or that is outside the model. -/
def M (α : Type) : Type := World → Option (World × Except Exc α)

namespace M
def ret {α : Type} (a : α) : M α := fun w => some (w, .ok a)
def raise {α : Type} (e : Exc) : M α := fun w => some (w, .error e)
def unmodelled {α : Type} : M α := fun _ => none
def andThen {α β : Type} (m : M α) (f : α → M β) : M β := fun w =>
  match m w with
  | none => none
  | some (w', .ok a) => f a w'
  | some (w', .error e) => some (w', .error e)
/-- Read something off the world. -/
def read {α : Type} (f : World → α) : M α := fun w => some (w, .ok (f w))
/-- Change the world. -/
def change (f : World → World) : M Unit := fun w => some (f w, .ok ())
/-- Raise, or return, what a pure function gives. -/
def ofExcept {α : Type} (r : Except Exc α) : M α := fun w => some (w, r)
/-- `for a in as: f(a)` -/
def each {α : Type} (f : α → M Unit) : List α → M Unit
  | [] => ret ()
  | a :: as => andThen (f a) (fun _ => each f as)
end M

instance : Monad M where
  pure := M.ret
  bind := M.andThen

/-! ## Attributes -/

/-- `schema._uri` -/
def World.uri (w : World) (s : Nat) : Option Uri := (w.info s).bind SInfo.uri

/-- The URIs of all schemas. -/
def World.uris (w : World) : List Uri := (List.range w.heap.next).filterMap w.uri

/-- `schema.cacheid` -/
def World.cacheid (w : World) (s : Nat) : String := ((w.info s).map SInfo.cacheid).getD ""

/-- `schema.keywords` -/
def World.keywords (w : World) (s : Nat) : List (String × KwObj) :=
  ((w.info s).map SInfo.keywords).getD []

/-- `isinstance(node, JSONSchema)` -/
def World.isSchema (w : World) (s : Nat) : Bool := (w.info s).isSome

/-- The nearest value of an attribute, going up from a node; a node that is not a `JSONSchema` has
none.  (`parentschema`, `jschon/jsonschema.py:222-232`, skips such nodes.)  The first argument bounds
the number of steps; a parent is older than its children. -/
def World.nearest (w : World) (attr : SInfo → Option Uri) : Nat → Nat → Option Uri
  | 0, _ => none
  | n + 1, s =>
    match (w.info s).bind attr with
    | some u => some u
    | none =>
      match w.heap.parent s with
      | none => none
      | some p => w.nearest attr n p

/-- `schema.base_uri` (`jschon/jsonschema.py:287-297`) -/
def World.baseUri (w : World) (s : Nat) : Option Uri :=
  (w.nearest SInfo.uri (s + 1) s).map Uri.noFragment

/-- `schema.metaschema_uri` (`jschon/jsonschema.py:271-281`) -/
def World.metaUri (w : World) (s : Nat) : Option Uri := w.nearest SInfo.metaUri (s + 1) s

/-- The keys of `JSONPointer.parse_uri_fragment(uri.fragment or '')` -/
def fragmentKeys (u : Uri) : Except Exc (List String) :=
  match Ptr.parseUriFragment (u.fragment.getD "") with
  | .error e => .error e
  | .ok ptr => .ok ptr.keys

/-- The loop of `canonical_uri` (`jschon/jsonschema.py:328-340`): `keys` lead from `node` to the
schema. -/
def World.canonicalUp (w : World) : Nat → Nat → List String → Except Exc (Option Uri)
  | 0, _, _ => .ok none
  | n + 1, s, keys =>
    match w.heap.parent s with
    | none => .ok none
    | some p =>
      let keys := (w.heap.key s).getD "" :: keys
      match w.uri p with
      | none => w.canonicalUp n p keys
      | some u =>
        match fragmentKeys u with
        | .error e => .error e
        | .ok ks => .ok (some (u.withFragment (Ptr.uriFragment ⟨ks ++ keys⟩)))

/-- `schema.canonical_uri` (`jschon/jsonschema.py:318-340`) -/
def World.canonicalUri (w : World) (s : Nat) : Except Exc (Option Uri) :=
  match w.uri s with
  | some u => .ok (some u)
  | none => w.canonicalUp (s + 1) s []

/-! ## Steps of construction -/

/-- Assignment to attributes of a schema. -/
def World.setInfo (w : World) (s : Nat) (f : SInfo → SInfo) : World :=
  { w with info := fun x => if x = s then (w.info x).map f else w.info x }

/-- The beginning of `JSONSchema.__init__` (`jschon/jsonschema.py:58-99`), up to the assignment of
`parent` and `key`. -/
def newSchemaNode (cacheid : String) (uri metaUri : Option Uri) (parent : Option Nat)
    (key : Option String) : M Nat := fun w =>
  let s := w.heap.next
  some ({ heap := w.heap.push { data := .null, parent := parent, key := key }
          info := fun x => if x = s then some { cacheid, uri, metaUri } else w.info x
          caches := match uri with
            | none => w.caches
            | some u => addSchema w.caches cacheid u s }, .ok s)

/-- The beginning of `JSON.__init__` (`jschon/json.py:89-118`). -/
def newJsonNode (parent : Option Nat) (key : Option String) : M Nat := fun w =>
  some ({ w with heap := w.heap.push { data := .null, parent := parent, key := key } },
    .ok w.heap.next)

/-- `node.data = d` -/
def setDataM (s : Nat) (d : JData) : M Unit := .change fun w => { w with heap := w.heap.setData s d }

/-- `JSON(value, parent=parent, key=key)` -/
def newJsonM (v : Value) (parent : Option Nat) (key : Option String) : M Nat := fun w =>
  let p := newJson w.heap v parent key
  some ({ w with heap := p.1 }, .ok p.2)

/-- `if self._uri is not None: catalog.del_schema(self._uri, ...)` (`jschon/jsonschema.py:310-311`) -/
def delOld (cs : Caches) (cid : String) : Option Uri → Caches
  | none => cs
  | some o => delSchema cs cid o

/-- The world after `schema.uri = u` for a URI (`jschon/jsonschema.py:307-316`). -/
def World.putUri (lib : UriLib) (s : Nat) (u : Uri) (w : World) : World :=
  if ((w.uri s).map (fun o => lib.same o u)).getD false then w
  else
    { w.setInfo s (fun i => { i with uri := some u }) with
      caches := addSchema (delOld w.caches (w.cacheid s) (w.uri s)) (w.cacheid s) u s }

/-- `schema.uri = u` -/
def setUri (lib : UriLib) (s : Nat) (u : Uri) : M Unit := .change (World.putUri lib s u)

/-- `URI(value)` resolved against the base URI of `s`, unless `absolute` (`core.py:72-77`, `:91-96`,
`:132-137`). -/
def resolveUri (E : CEnv) (s : Nat) (u : Uri) (absolute : Bool) : M Uri :=
  if absolute then pure u
  else do
    match ← M.read (fun w => w.baseUri s) with
    | none => M.raise .schemaError
    | some b =>
      match E.lib.resolve u b with
      | none => M.raise .resolutionError
      | some r => pure r

/-- `catalog.add_schema(URI(f'{base_uri}#{value}'), parentschema, ...)` (`core.py:113-118`,
`:179-184`) -/
def addAnchor (E : CEnv) (s : Nat) (t : String) : M Unit := do
  match ← M.read (fun w => w.baseUri s) with
  | none => M.raise .schemaError
  | some b => .change fun w =>
      { w with caches := addSchema w.caches (w.cacheid s) (E.lib.ofText (b.str ++ "#" ++ t)) s }

/-- The part of the `__init__` of a keyword class that follows `Keyword.__init__`. -/
def initKw (E : CEnv) (s : Nat) (shape : KwShape) (v : Value) : M Unit :=
  match shape, v with
  | .schema, .str t =>
    let u := E.lib.ofText t
    match u.validate E.lib true true true true with
    | .error _ => M.raise .schemaError
    | .ok () => .change fun w => w.setInfo s (fun i => { i with metaUri := some u })
  | .id, .str t =>
    let u := E.lib.ofText t
    match u.validate E.lib false false true false with
    | .error e => M.raise e
    | .ok () => do
      let r ← resolveUri E s u (E.lib.isAbsolute u)
      setUri E.lib s r
  | .idNext, .str t =>
    let u := E.lib.ofText t
    match u.validate E.lib false false false true with
    | .error e => M.raise e
    | .ok () => do
      let r ← resolveUri E s u (E.lib.isAbsolute u)
      setUri E.lib s r
  | .anchor, .str t => addAnchor E s t
  | .dynamicAnchor, .str t => addAnchor E s t
  | .ref, .str _ => pure ()
  | .dynamicRef, .str _ => pure ()
  | .recursiveRef, .str t => if t = "#" then pure () else M.raise .schemaError
  | .recursiveRef, _ => M.raise .schemaError
  | .pattern, .str t => if E.reOk t then pure () else M.raise .reError
  | .pattern, _ => M.raise .typeError
  | .format, .str t =>
    if E.fmtEnabled t && !E.fmtKnown t then M.raise .keyError else pure ()
  | .format, .arr _ => M.raise .typeError
  | .format, .obj _ => M.raise .typeError
  | .format, _ => pure ()
  | .vocabulary, _ => pure ()
  | .plain, _ | .subschema, _ | .arrayOfSubschemas, _ | .objectOfSubschemas, _
  | .subschemaOrArray, _ | .unknown, _ => pure ()
  | _, _ => M.unmodelled

/-- A constructor of the JSON instance for a member of a schema object: given the keyword class's way
of doing it and the schema. -/
abbrev KwBuild := KwShape → Nat → M Nat

/-- `kw = kwclass(self, value[key]); self.keywords[key] = kw; self.data[key] = kw.json`
(`jschon/jsonschema.py:134-138`, `:149-151`, `:116-119`). -/
def addKeyword (E : CEnv) (s : Nat) (shape : KwShape) (key : String) (v : Value) (build : KwBuild) :
    M Unit := do
  let j ← build shape s
  initKw E s shape v
  .change fun w =>
    let w := w.setInfo s (fun i => { i with keywords := dset key { shape, json := j } i.keywords })
    match w.heap.data s with
    | .obj ms => { w with heap := w.heap.setData s (.obj (dset key j ms)) }
    | _ => w

/-- `self.metaschema` (`jschon/jsonschema.py:263-269`) -/
def getMeta (E : CEnv) (s : Nat) : M Meta := do
  match ← M.read (fun w => w.metaUri s) with
  | none => M.raise .schemaError
  | some u => M.ofExcept (E.metaschema u)

/-- `if key in value: ...` of `_bootstrap` (`jschon/jsonschema.py:133-138`). -/
def bootOne (E : CEnv) (s : Nat) (kvs : List (String × Value)) (builds : List (String × KwBuild))
    (key : String) (shape : KwShape) : M Unit :=
  match dlookup key kvs, dlookup key builds with
  | some v, some b => addKeyword E s shape key v b
  | _, _ => pure ()

/-- `self._bootstrap(value)` (`jschon/jsonschema.py:127-151`) -/
def bootstrap (E : CEnv) (s : Nat) (kvs : List (String × Value)) (builds : List (String × KwBuild)) :
    M Unit := do
  bootOne E s kvs builds "$schema" .schema
  bootOne E s kvs builds "$vocabulary" .vocabulary
  if (dlookup "$id" kvs).isSome then do
    let m ← getMeta E s
    bootOne E s kvs builds "$id" (if m.knownCore then .id else .idNext)
  else pure ()

/-- The comprehension that makes `kwclasses` (`jschon/jsonschema.py:110-114`). -/
def kwClasses (E : CEnv) (s : Nat) : List String → M (List KwCls)
  | [] => pure []
  | k :: ks => do
    let known ← M.read (fun w => (dlookup k (w.keywords s)).isSome)
    if known then kwClasses E s ks
    else do
      let m ← getMeta E s
      let c ← M.ofExcept (getKwclass m k)
      let cs ← kwClasses E s ks
      pure (c :: cs)

/-- One iteration of the loop over the keyword classes (`jschon/jsonschema.py:116-119`). -/
def addClass (E : CEnv) (s : Nat) (kvs : List (String × Value)) (builds : List (String × KwBuild))
    (c : KwCls) : M Unit :=
  match dlookup c.key kvs, dlookup c.key builds with
  | some v, some b => addKeyword E s c.shape c.key v b
  | _, _ => M.raise .keyError

/-- `if self.parent is None and self.uri is None: self.uri = URI(f'urn:uuid:{uuid4()}')`
(`jschon/jsonschema.py:104-105`) -/
def nameAnonymous (E : CEnv) (s : Nat) : M Unit := do
  let anonymous ← M.read (fun w => (w.heap.parent s).isNone && (w.uri s).isNone)
  if anonymous then M.read World.uris >>= fun inUse => setUri E.lib s (E.lib.uuid inUse)
  else pure ()

/-- `for kwclass in self._resolve_dependencies(kwclasses): ...` (`jschon/jsonschema.py:116-119`).  An
endless `_resolve_dependencies` is `unmodelled`. -/
def addClasses (E : CEnv) (s : Nat) (kvs : List (String × Value)) (builds : List (String × KwBuild))
    (classes : List KwCls) : M Unit :=
  match resolveDependencies KwCls.key KwCls.deps classes with
  | none => M.unmodelled
  | some order => M.each (addClass E s kvs builds) order

/-- The branch of `JSONSchema.__init__` for a mapping (`jschon/jsonschema.py:101-119`), without the
final `_resolve_references`. -/
def initObject (E : CEnv) (s : Nat) (kvs : List (String × Value)) (builds : List (String × KwBuild)) :
    M Unit := do
  setDataM s (.obj [])
  nameAnonymous E s
  bootstrap E s kvs builds
  let classes ← kwClasses E s (dkeys kvs)
  addClasses E s kvs builds classes

/-- The branch of `JSONSchema.__init__` for a boolean (`jschon/jsonschema.py:101-103`). -/
def boolSchema (cacheid : String) (uri metaUri : Option Uri) (parent : Option Nat)
    (key : Option String) (b : Bool) : M Nat := do
  let s ← newSchemaNode cacheid uri metaUri parent key
  setDataM s (.bool b)
  pure s

/-- The branch of `JSONSchema.__init__` for a mapping. -/
def objSchema (E : CEnv) (cacheid : String) (uri metaUri : Option Uri) (parent : Option Nat)
    (key : Option String) (kvs : List (String × Value)) (builds : List (String × KwBuild)) : M Nat := do
  let s ← newSchemaNode cacheid uri metaUri parent key
  initObject E s kvs builds
  pure s

mutual
/-- `JSONSchema(value, ...)` (`jschon/jsonschema.py:27-125`), without the final `_resolve_references`. -/
def newSchema (E : CEnv) (cacheid : String) (uri metaUri : Option Uri) (parent : Option Nat)
    (key : Option String) : Value → M Nat
  | .bool b => boolSchema cacheid uri metaUri parent key b
  | .obj kvs => objSchema E cacheid uri metaUri parent key kvs (kwBuilds E cacheid kvs)
  | .null | .num _ | .str _ | .arr _ => do
    let _ ← newSchemaNode cacheid uri metaUri parent key
    M.raise .typeError
/-- The constructors for the members of a schema object. -/
def kwBuilds (E : CEnv) (cacheid : String) : List (String × Value) → List (String × KwBuild)
  | [] => []
  | (k, v) :: r => (k, kwBuild E cacheid k v) :: kwBuilds E cacheid r
/-- `Keyword.__init__` (`jschon/vocabulary/__init__.py:142-151`) with the mixins (`:168-221`).  A value
that no mixin accepts reaches `SubschemaMixin.jsonify`.  A string is a `Sequence`. -/
def kwBuild (E : CEnv) (cacheid : String) (k : String) : Value → KwBuild
  | .bool b, shape, s =>
    match shape with
    | .subschema | .subschemaOrArray => boolSchema cacheid none none (some s) (some k) b
    | .arrayOfSubschemas | .objectOfSubschemas => M.raise .notImplementedError
    | _ => newJsonM (.bool b) (some s) (some k)
  | .obj kvs, shape, s =>
    match shape with
    | .subschema | .subschemaOrArray =>
      objSchema E cacheid none none (some s) (some k) kvs (kwBuilds E cacheid kvs)
    | .arrayOfSubschemas => M.raise .notImplementedError
    | .objectOfSubschemas => do
      let j ← newJsonNode (some s) (some k)
      let ms ← newMembers E cacheid j kvs
      setDataM j (.obj ms)
      pure j
    | _ => newJsonM (.obj kvs) (some s) (some k)
  | .arr xs, shape, s =>
    match shape with
    | .arrayOfSubschemas | .subschemaOrArray => do
      let j ← newJsonNode (some s) (some k)
      let cs ← newItems E cacheid j 0 xs
      setDataM j (.arr cs)
      pure j
    | .subschema | .objectOfSubschemas => M.raise .notImplementedError
    | _ => newJsonM (.arr xs) (some s) (some k)
  | .str t, shape, s =>
    match shape with
    | .subschema | .objectOfSubschemas => M.raise .notImplementedError
    | _ => newJsonM (.str t) (some s) (some k)
  | v, shape, s =>
    match shape with
    | .subschema | .objectOfSubschemas | .arrayOfSubschemas | .subschemaOrArray =>
      M.raise .notImplementedError
    | _ => newJsonM v (some s) (some k)
/-- `[JSONSchema(v, parent=self, key=str(i), ...) for i, v in enumerate(value)]`
(`jschon/json.py:138-141`) -/
def newItems (E : CEnv) (cacheid : String) (j : Nat) (i : Nat) : List Value → M (List Nat)
  | [] => pure []
  | v :: vs => do
    let c ← newSchema E cacheid none none (some j) (some (natStr i)) v
    let cs ← newItems E cacheid j (i + 1) vs
    pure (c :: cs)
/-- `{k: JSONSchema(v, parent=self, key=k, ...) for k, v in value.items()}`
(`jschon/json.py:145-148`) -/
def newMembers (E : CEnv) (cacheid : String) (j : Nat) : List (String × Value) → M (List (String × Nat))
  | [] => pure []
  | (k, v) :: r => do
    let c ← newSchema E cacheid none none (some j) (some k) v
    let cs ← newMembers E cacheid j r
    pure ((k, c) :: cs)
end

/-! ## References -/

/-- A constructor of schema documents: `JSONSchema(doc, cacheid=…, uri=…, metaschema_uri=…)`. -/
abbrev NewDoc := String → Option Uri → Option Uri → Value → M Nat

/-- `JSONPointer.parse_uri_fragment(fragment).evaluate(schema)` -/
def World.evalFragment (w : World) (f : String) (s : Nat) : Except Exc Nat :=
  match Ptr.parseUriFragment f with
  | .error e => .error e
  | .ok ptr => resolveJson w.heap ptr.keys s

/-- `schema = JSONPointer.parse_uri_fragment(uri.fragment).evaluate(schema)`, if there is a non-empty
fragment (`jschon/catalog/__init__.py:358-363`). -/
def followFragment (u : Uri) (s : Nat) : M Nat :=
  match u.fragment with
  | none => pure s
  | some f =>
    if f = "" then pure s
    else do
      match ← M.read (fun w => w.evalFragment f s) with
      | .ok t => pure t
      | .error e => M.raise (if isPtrErr e then .catalogError else e)

/-- The end of `get_schema` (`jschon/catalog/__init__.py:358-368`). -/
def getSchemaEnd (u : Uri) (s : Nat) : M Nat := do
  let t ← followFragment u s
  if ← M.read (fun w => w.isSchema t) then pure t else M.raise .catalogError

/-- `cache[base_uri]`, if the URI has a fragment (`jschon/catalog/__init__.py:340-344`). -/
def baseCached (w : World) (cacheid : String) (u : Uri) : Option Nat :=
  if u.fragment.isSome then cacheGet w.caches cacheid u.noFragment else none

/-- The part of `get_schema` that loads a document (`jschon/catalog/__init__.py:346-368`). -/
def loadSchema (E : CEnv) (newDoc : NewDoc) (u : Uri) (metaUri : Option Uri) (cacheid : String) :
    M Nat := do
  let doc ← M.ofExcept (loadJson E.lib E.sources u.noFragment)
  let s ← newDoc cacheid (some u.noFragment) metaUri doc
  match ← M.read (fun w => cacheGet w.caches cacheid u) with
  | some t => pure t
  | none => getSchemaEnd u s

/-- `catalog.get_schema(uri, metaschema_uri=…, cacheid=…)` (`jschon/catalog/__init__.py:313-368`),
given the constructor of schema documents. -/
def getSchemaWith (E : CEnv) (newDoc : NewDoc) (u : Uri) (metaUri : Option Uri) (cacheid : String) :
    M Nat := do
  match ← M.read (fun w => cacheGet w.caches cacheid u) with
  | some s => pure s
  | none =>
    match ← M.read (fun w => baseCached w cacheid u) with
    | some s => getSchemaEnd u s
    | none => loadSchema E newDoc u metaUri cacheid

/-- `self.refschema = t`, `self.dynamic = d` -/
def setRef (s : Nat) (key : String) (t : Nat) (d : Bool) : M Unit := .change fun w =>
  w.setInfo s (fun i => { i with keywords := i.keywords.map (fun kv =>
    if kv.1 = key then (kv.1, { kv.2 with refschema := some t, dynamic := d }) else kv) })

/-- `refschema.get("$dynamicAnchor")` and the comparison with the fragment (`core.py:142-143`).  On a
boolean schema, `get` raises TypeError; an empty string is false. -/
def isDynamic (w : World) (t : Nat) (frag : Option String) : Except Exc Bool :=
  match w.heap.data t with
  | .obj ms =>
    match dlookup "$dynamicAnchor" ms with
    | none => .ok false
    | some j =>
      match w.heap.data j with
      | .str a => .ok (a ≠ "" && frag = some a)
      | _ => .ok false
  | _ => .error .typeError

/-- The URI that `kw.resolve()` looks up, and the fragment of the reference (`core.py:91-96`,
`:132-137`, `legacy.py:26-30`). -/
def refUri (E : CEnv) (s : Nat) (kw : KwObj) : M (Uri × Option String) :=
  match kw.shape with
  | .recursiveRef => do
    match ← M.read (fun w => w.baseUri s) with
    | none => M.raise .schemaError
    | some b => pure (b, none)
  | _ => do
    match ← M.read (fun w => w.heap.data kw.json) with
    | .str text =>
      resolveUri E s (E.lib.ofText text) (E.lib.isAbsolute (E.lib.ofText text).noFragment) >>= fun r =>
        pure (r, (E.lib.ofText text).fragment)
    | _ => M.unmodelled

/-- `self.dynamic` after `kw.resolve()` (`core.py:142-143`). -/
def refDynamic (shape : KwShape) (t : Nat) (frag : Option String) : M Bool :=
  if shape = .dynamicRef then M.read (fun w => isDynamic w t frag) >>= M.ofExcept else pure false

/-- `kw.resolve()` (`core.py:90-99`, `:131-143`, `legacy.py:26-32`). -/
def resolveKw (E : CEnv) (newDoc : NewDoc) (s : Nat) (key : String) (kw : KwObj) : M Unit := do
  let metaUri ← M.read (fun w => w.metaUri s)
  let cid ← M.read (fun w => w.cacheid s)
  let r ← refUri E s kw
  let t ← getSchemaWith E newDoc r.1 metaUri cid
  let d ← refDynamic kw.shape t r.2
  setRef s key t d

/-- `hasattr(kw, 'resolve')` -/
def KwShape.isRef : KwShape → Bool
  | .ref | .dynamicRef | .recursiveRef => true
  | _ => false

/-- `if isinstance(item, JSONSchema): item._resolve_references()` -/
def resolveItem (resolve : Nat → M Unit) (c : Nat) : M Unit := do
  if ← M.read (fun w => w.isSchema c) then resolve c else pure ()

/-- One iteration of the loop of `_resolve_references`. -/
def resolveOne (E : CEnv) (newDoc : NewDoc) (resolve : Nat → M Unit) (s : Nat) (kv : String × KwObj) :
    M Unit :=
  if kv.2.shape.isRef then resolveKw E newDoc s kv.1 kv.2
  else do
    if ← M.read (fun w => w.isSchema kv.2.json) then resolve kv.2.json
    else M.read (fun w => (w.heap.data kv.2.json).kids) >>= M.each (resolveItem resolve)

/-- `JSONSchema(doc, cacheid=…, uri=…, metaschema_uri=…)` (`jschon/jsonschema.py:27-125`), given
`_resolve_references`. -/
def newDocWith (E : CEnv) (resolve : Nat → M Unit) : NewDoc := fun cacheid uri metaUri doc => do
  let s ← newSchema E cacheid uri metaUri none none doc
  resolve s
  pure s

/-- `schema._resolve_references()` (`jschon/jsonschema.py:153-166`).  The first argument bounds the
depth of the schema plus the number of documents that load each other. -/
def resolveReferences (E : CEnv) : Nat → Nat → M Unit
  | 0, _ => M.unmodelled
  | n + 1, s => do
    let kws ← M.read (fun w => w.keywords s)
    M.each (resolveOne E (newDocWith E (resolveReferences E n)) (resolveReferences E n) s) kws

/-- `JSONSchema(doc, cacheid=…, uri=…, metaschema_uri=…)` -/
def newDocument (E : CEnv) (n : Nat) : NewDoc := newDocWith E (resolveReferences E n)

/-- `catalog.get_schema(uri, metaschema_uri=…, cacheid=…)` -/
def getSchema (E : CEnv) (n : Nat) : Uri → Option Uri → String → M Nat :=
  getSchemaWith E (newDocument E n)

end Jschon
