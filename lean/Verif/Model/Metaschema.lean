import Verif.Model.Vocabulary

/-!
# Creating and getting metaschemas (`jschon/catalog/__init__.py:191-265`, `jschon/vocabulary/__init__.py:27-91`)

The cache `'__meta__'` and the metaschemas in it, with the steps of `Metaschema.__init__` up to the end
of `_bootstrap`.  What follows is left open: the other keywords (modelled for schemas in general in
`Verif/Model/Construct.lean`), and the evaluation of the metaschema against its own metaschema.
Keyword arguments of `create_metaschema` are not modelled.  A `$schema` or `$id` that is not a string is
outside the model.
-/

namespace Jschon

/-- A schema in the cache `'__meta__'`, as far as the functions below use it. -/
structure MetaObj where
  /-- `isinstance(schema, Metaschema)` -/
  isMeta : Bool
  /-- `bool(schema)`, that is, `bool(schema.data)` (`jschon/json.py:211-213`) -/
  filled : Bool
  /-- `schema._uri` -/
  uri : Uri
  /-- `schema._metaschema_uri` -/
  metaUri : Option Uri
  /-- `schema.core_vocabulary` -/
  core : Vocab
  /-- `schema.kwclasses` -/
  kwclasses : List (String × KwCls)

/-- The schemas that were put into the cache `'__meta__'`, and the cache. -/
structure MetaState where
  objs : List MetaObj
  cache : List (Uri × Nat)

/-- Assignment to attributes of a schema. -/
def MetaState.change (st : MetaState) (i : Nat) (f : MetaObj → MetaObj) : MetaState :=
  { st with objs := st.objs.modify i f }

/-- What the functions below use. -/
structure MetaEnv where
  lib : UriLib
  sources : List (String × Source)
  vocabs : Vocabs
  /-- `str(catalog.get_metaschema(uri).core_vocabulary.uri)`, for the metaschema of a metaschema. -/
  coreOf : MetaState → Uri → MetaState × Except Exc String
  /-- The construction of the keywords other than `$schema`, `$vocabulary` and `$id`, and the resolution
  of references (`jschon/jsonschema.py:110-122`). -/
  rest : MetaState → Nat → List (String × Value) → MetaState × Except Exc Unit
  /-- `metaschema.validate().valid` -/
  valid : MetaState → Nat → MetaState × Except Exc Bool

/-- A step: the new state, and the result; `none` for what is outside the model. -/
abbrev MetaStep (α : Type) := Option (MetaState × Except Exc α)

/-- `SchemaKeyword(self, value["$schema"])` and the storing of the keyword (`core.py:26-34`,
`jschon/jsonschema.py:133-138`) -/
def metaSchemaKw (E : MetaEnv) (st : MetaState) (i : Nat) (doc : List (String × Value)) : MetaStep Unit :=
  match dlookup "$schema" doc with
  | none => some (st, .ok ())
  | some (.str t) =>
    match (E.lib.ofText t).validate E.lib true true true true with
    | .error _ => some (st, .error .schemaError)
    | .ok () =>
      some (st.change i (fun o => { o with metaUri := some (E.lib.ofText t), filled := true }), .ok ())
  | some _ => none

/-- `VocabularyKeyword(self, value["$vocabulary"])` and the storing of the keyword (`core.py:41-62`,
`jschon/jsonschema.py:133-138`) -/
def metaVocabularyKw (E : MetaEnv) (st : MetaState) (i : Nat) (core : Vocab) (doc : List (String × Value)) :
    MetaState × Except Exc Unit :=
  match dlookup "$vocabulary" doc with
  | none => (st, .ok ())
  | some v =>
    match vocabularyKw E.lib E.vocabs core [] v with
    | (d, .error e) => (st.change i (fun o => { o with kwclasses := d }), .error e)
    | (d, .ok ()) => (st.change i (fun o => { o with kwclasses := d, filled := true }), .ok ())

/-- `parentschema.uri = uri` (`jschon/jsonschema.py:307-316`) in the cache `'__meta__'` -/
def metaSetUri (lib : UriLib) (st : MetaState) (i : Nat) (u : Uri) : MetaState :=
  match st.objs[i]? with
  | none => st
  | some o =>
    if lib.same o.uri u then st
    else { objs := st.objs.modify i (fun o => { o with uri := u })
           cache := aset u i (apop o.uri st.cache) }

/-- `IdKeyword(self, value["$id"])`, or `IdKeyword_Next`, and the storing of the keyword
(`core.py:65-79`, `future.py:15-26`, `jschon/jsonschema.py:140-151`) -/
def metaIdKw (E : MetaEnv) (st : MetaState) (i : Nat) (doc : List (String × Value)) : MetaStep Unit :=
  match dlookup "$id" doc with
  | none => some (st, .ok ())
  | some v =>
    match (st.objs[i]?).bind MetaObj.metaUri with
    | none => some (st, .error .schemaError)
    | some mu =>
      match E.coreOf st mu with
      | (st, .error e) => some (st, .error e)
      | (st, .ok c) =>
        match v with
        | .str t =>
          let known := decide (c = "https://json-schema.org/draft/2019-09/vocab/core" ∨
            c = "https://json-schema.org/draft/2020-12/vocab/core")
          let u := E.lib.ofText t
          match u.validate E.lib false false known (!known) with
          | .error e => some (st, .error e)
          | .ok () =>
            match (if E.lib.isAbsolute u then some u
              else (st.objs[i]?).bind (fun o => E.lib.resolve u o.uri.noFragment)) with
            | none => some (st, .error .resolutionError)
            | some r => some ((metaSetUri E.lib st i r).change i (fun o => { o with filled := true }), .ok ())
        | _ => none

/-- `catalog.create_metaschema(uri, default_core_vocabulary_uri, *default_vocabulary_uris)` once the
document and the core vocabulary are there: the constructor (`jschon/vocabulary/__init__.py:81-91`,
`jschon/jsonschema.py:58-125`), and the validation (`jschon/catalog/__init__.py:225-238`). -/
def buildMeta (E : MetaEnv) (st : MetaState) (uri : Uri) (doc : List (String × Value)) (core : Vocab)
    (defaults : List Vocab) : MetaStep Nat :=
  let i := st.objs.length
  let st := { objs := st.objs ++ [⟨true, false, uri, none, core, []⟩], cache := aset uri i st.cache : MetaState }
  match metaSchemaKw E st i doc with
  | none => none
  | some (st, .error e) => some (st, .error e)
  | some (st, .ok ()) =>
    match metaVocabularyKw E st i core doc with
    | (st, .error e) => some (st, .error e)
    | (st, .ok ()) =>
      match metaIdKw E st i doc with
      | none => none
      | some (st, .error e) => some (st, .error e)
      | some (st, .ok ()) =>
        let st := st.change i (fun o => { o with kwclasses := addVocabs doc core defaults o.kwclasses })
        match E.rest st i doc with
        | (st, .error e) => some (st, .error e)
        | (st, .ok ()) =>
          match E.valid st i with
          | (st, .error e) => some (st, .error e)
          | (st, .ok true) => some (st, .ok i)
          | (st, .ok false) => some (st, .error .catalogError)

/-- `[self.get_vocabulary(vocab_uri) for vocab_uri in default_vocabulary_uris]` -/
def getVocabularies (vs : Vocabs) : List Uri → Except Exc (List Vocab)
  | [] => .ok []
  | u :: us =>
    match getVocabulary vs u with
    | .error e => .error e
    | .ok v =>
      match getVocabularies vs us with
      | .error e => .error e
      | .ok r => .ok (v :: r)

/-- `self.get_vocabulary(default_core_vocabulary_uri) if default_core_vocabulary_uri else None`: the
empty URI is falsy (`jschon/uri.py:25-26`). -/
def getDefaultCore (vs : Vocabs) : Option Uri → Except Exc (Option Vocab)
  | none => .ok none
  | some u =>
    if u.str = "" then .ok none
    else match getVocabulary vs u with
      | .error e => .error e
      | .ok v => .ok (some v)

/-- `catalog.create_metaschema(uri, default_core_vocabulary_uri, *default_vocabulary_uris)`
(`jschon/catalog/__init__.py:191-238`).  A document that is not an object has no `get`. -/
def createMetaschema (E : MetaEnv) (st : MetaState) (uri : Uri) (core : Option Uri) (defaults : List Uri) :
    MetaStep Nat :=
  match loadJson E.lib E.sources uri with
  | .error e => some (st, .error e)
  | .ok v =>
    match getDefaultCore E.vocabs core with
    | .error e => some (st, .error e)
    | .ok core =>
      match getVocabularies E.vocabs defaults with
      | .error e => some (st, .error e)
      | .ok defaults =>
        match v with
        | .obj doc =>
          match chooseCore E.lib E.vocabs doc core with
          | .error e => some (st, .error e)
          | .ok core => buildMeta E st uri doc core defaults
        | _ => some (st, .error .attributeError)

/-- `catalog.get_metaschema(uri)` (`jschon/catalog/__init__.py:240-265`) -/
def getMetaschema (E : MetaEnv) (st : MetaState) (uri : Uri) : MetaStep Nat :=
  match (alookup uri st.cache).bind (fun i => (st.objs[i]?).map (fun o => (i, o))) with
  | some (i, o) =>
    if o.filled then
      if o.isMeta then some (st, .ok i) else some (st, .error .catalogError)
    else createMetaschema E st uri none []
  | none => createMetaschema E st uri none []

end Jschon
