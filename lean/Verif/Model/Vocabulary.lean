import Verif.Model.Construct

/-!
# Vocabularies and the keyword tables of metaschemas (`jschon/vocabulary/__init__.py`, `jschon/catalog/*.py`)

How a catalog keeps vocabularies, how a `Metaschema` chooses its core vocabulary, and which keyword
classes it ends up with.
-/

namespace Jschon

/-- A `Vocabulary` (`jschon/vocabulary/__init__.py:111-124`): its URI and the dict `kwclasses`. -/
structure Vocab where
  uri : Uri
  kwclasses : List (String × KwCls)

/-- `d.update(e)` on dicts. -/
def dupdate {β : Type} (d e : List (String × β)) : List (String × β) :=
  e.foldl (fun d p => dset p.1 p.2 d) d

/-- `Vocabulary(uri, *kwclasses)` (`jschon/vocabulary/__init__.py:116-120`) -/
def newVocab (uri : Uri) (classes : List KwCls) : Vocab :=
  ⟨uri, dupdate [] (classes.map (fun c => (c.key, c)))⟩

/-- `catalog._vocabularies` (`jschon/catalog/__init__.py:92`) -/
abbrev Vocabs := List (Uri × Vocab)

/-- `catalog.create_vocabulary(uri, *kwclasses)` (`jschon/catalog/__init__.py:166-178`) -/
def createVocabulary (vs : Vocabs) (uri : Uri) (classes : List KwCls) : Vocabs :=
  aset uri (newVocab uri classes) vs

/-- `catalog.get_vocabulary(uri)` (`jschon/catalog/__init__.py:180-189`) -/
def getVocabulary (vs : Vocabs) (uri : Uri) : Except Exc Vocab :=
  match alookup uri vs with
  | some v => .ok v
  | none => .error .catalogError

/-- `bool(value)` for a JSON-compatible Python value. -/
def truthy : Value → Bool
  | .null => false
  | .bool b => b
  | .num n => decide (n.val ≠ 0)
  | .str s => decide (s ≠ "")
  | .arr xs => !xs.isEmpty
  | .obj kvs => !kvs.isEmpty

/-- What `_CORE_VOCAB_RE` begins with (`jschon/vocabulary/__init__.py:35`). -/
def corePrefix : List Char := "https://json-schema.org/draft/".toList

/-- What follows `[^/]+` in `_CORE_VOCAB_RE`. -/
def coreSuffix : List Char := "/vocab/core".toList

/-- `re.match(r'https://json-schema\.org/draft/[^/]+/vocab/core$', text)`
(`jschon/vocabulary/__init__.py:35`, `:69`).  `[^/]+` takes everything up to the next slash, as a slash
has to follow.  `$` also matches before a final newline. -/
def isCoreText (text : String) : Bool :=
  corePrefix.isPrefixOf text.toList &&
    (let rest := text.toList.drop corePrefix.length
     let name := rest.takeWhile (fun c => c ≠ '/')
     let tail := rest.dropWhile (fun c => c ≠ '/')
     !name.isEmpty && (tail == coreSuffix || tail == coreSuffix ++ ['\n']))

/-- `if len(possible_cores) == 1: ... else: raise` (`jschon/vocabulary/__init__.py:68-78`) -/
def pickFrom (lib : UriLib) (vs : Vocabs) (names : List String) (other : Exc) : Except Exc Vocab :=
  match names.filter isCoreText with
  | [t] => getVocabulary vs (lib.ofText t)
  | _ => .error other

/-- The item, if it is a string. -/
def asStr : Value → Option String
  | .str t => some t
  | _ => none

/-- The body of `if vocabularies := value.get("$vocabulary")` (`jschon/vocabulary/__init__.py:68-78`).
Only an object has `keys()`, only an iterable can be filtered, and `re.match` wants strings. -/
def pickCore (lib : UriLib) (vs : Vocabs) : Value → Except Exc Vocab
  | .obj kvs => pickFrom lib vs (dkeys kvs) .schemaError
  | .arr xs =>
    if xs.all (fun x => (asStr x).isSome) then pickFrom lib vs (xs.filterMap asStr) .attributeError
    else .error .typeError
  | .str _ => .error .attributeError
  | .null | .bool _ | .num _ => .error .typeError

/-- The choice of `core_vocabulary` in `Metaschema.__init__` (`jschon/vocabulary/__init__.py:64-82`) -/
def chooseCore (lib : UriLib) (vs : Vocabs) (doc : List (String × Value)) (default : Option Vocab) :
    Except Exc Vocab :=
  match (dlookup "$vocabulary" doc).filter truthy with
  | some v => pickCore lib vs v
  | none =>
    match default with
    | some c => .ok c
    | none => .error .schemaError

/-- The loop of `VocabularyKeyword.__init__` (`jschon/vocabulary/core.py:50-62`): the new value of
`kwclasses`, and how the loop ends. -/
def vocabLoop (lib : UriLib) (vs : Vocabs) (d : List (String × KwCls)) :
    List (String × Value) → List (String × KwCls) × Except Exc Unit
  | [] => (d, .ok ())
  | (t, required) :: r =>
    let u := lib.ofText t
    match u.validate lib true true true true with
    | .error _ => (d, .error .schemaError)
    | .ok () =>
      match getVocabulary vs u with
      | .ok v => vocabLoop lib vs (dupdate d v.kwclasses) r
      | .error _ => if truthy required then (d, .error .schemaError) else vocabLoop lib vs d r

/-- `a in b` for strings. -/
def isPart (a : List Char) : List Char → Bool
  | [] => a.isEmpty
  | c :: r => a.isPrefixOf (c :: r) || isPart a r

/-- `VocabularyKeyword.__init__` for a metaschema with the given core vocabulary
(`jschon/vocabulary/core.py:41-62`): the new value of `kwclasses`, and how it ends.  What is not an
object is searched with `in`, or cannot be; it cannot be subscripted with a string. -/
def vocabularyKw (lib : UriLib) (vs : Vocabs) (core : Vocab) (d : List (String × KwCls)) :
    Value → List (String × KwCls) × Except Exc Unit
  | .obj kvs =>
    match dlookup core.uri.str kvs with
    | some (.bool true) => vocabLoop lib vs d kvs
    | _ => (d, .error .schemaError)
  | .arr xs =>
    if xs.any (fun x => decide (asStr x = some core.uri.str)) then (d, .error .typeError)
    else (d, .error .schemaError)
  | .str t =>
    if isPart core.uri.str.toList t.toList then (d, .error .typeError) else (d, .error .schemaError)
  | .null | .bool _ | .num _ => (d, .error .typeError)

/-- What `Metaschema._bootstrap` does after `super()._bootstrap` (`jschon/vocabulary/__init__.py:85-91`). -/
def addVocabs (doc : List (String × Value)) (core : Vocab) (defaults : List Vocab)
    (d : List (String × KwCls)) : List (String × KwCls) :=
  let d := dupdate d core.kwclasses
  if (dlookup "$vocabulary" doc).isSome then d
  else defaults.foldl (fun d v => dupdate d v.kwclasses) d

/-- `kwclasses` of a new metaschema after `_bootstrap` (`jschon/vocabulary/__init__.py:81-91`,
`jschon/jsonschema.py:127-138`), given its core vocabulary.  What `$schema` and `$id` do has no
influence on it, except that it may raise. -/
def metaTable (lib : UriLib) (vs : Vocabs) (doc : List (String × Value)) (core : Vocab)
    (defaults : List Vocab) : Except Exc (List (String × KwCls)) :=
  match dlookup "$vocabulary" doc with
  | none => .ok (addVocabs doc core defaults [])
  | some v =>
    match vocabularyKw lib vs core [] v with
    | (_, .error e) => .error e
    | (d, .ok ()) => .ok (addVocabs doc core defaults d)

/-- `str(core_vocabulary.uri) in (...)` (`jschon/jsonschema.py:141-144`) -/
def knownCoreUri (u : Uri) : Bool :=
  decide (u.str = "https://json-schema.org/draft/2019-09/vocab/core" ∨
    u.str = "https://json-schema.org/draft/2020-12/vocab/core")

/-- What schema construction uses of a metaschema with the given document and arguments
(`jschon/vocabulary/__init__.py:37-91`). -/
def newMeta (lib : UriLib) (vs : Vocabs) (doc : List (String × Value)) (core : Option Vocab)
    (defaults : List Vocab) : Except Exc Meta :=
  match chooseCore lib vs doc core with
  | .error e => .error e
  | .ok c =>
    match metaTable lib vs doc c defaults with
    | .error e => .error e
    | .ok d => .ok ⟨d.map Prod.snd, knownCoreUri c.uri⟩

/-! ## The vocabularies that come with jschon -/

/-- The core classes of all drafts (`_2020_12.py:18-29`, `_2019_09.py:19-30`, `_next.py:19-30`). -/
def coreBase : List KwCls :=
  [⟨"$schema", .schema, []⟩, ⟨"$vocabulary", .vocabulary, []⟩, ⟨"$ref", .ref, []⟩,
   ⟨"$anchor", .anchor, []⟩, ⟨"$defs", .objectOfSubschemas, []⟩, ⟨"$comment", .plain, []⟩]

/-- `$dynamicRef` and `$dynamicAnchor` (`core.py:121-184`) -/
def coreDynamic : List KwCls := [⟨"$dynamicRef", .dynamicRef, []⟩, ⟨"$dynamicAnchor", .dynamicAnchor, []⟩]

/-- The applicators of all drafts (`_2020_12.py:31-48`, `_2019_09.py:32-51`). -/
def applicatorBase : List KwCls :=
  [⟨"allOf", .arrayOfSubschemas, []⟩, ⟨"anyOf", .arrayOfSubschemas, []⟩,
   ⟨"oneOf", .arrayOfSubschemas, []⟩, ⟨"not", .subschema, []⟩, ⟨"if", .subschema, []⟩,
   ⟨"then", .subschema, ["if"]⟩, ⟨"else", .subschema, ["if"]⟩,
   ⟨"dependentSchemas", .objectOfSubschemas, []⟩, ⟨"contains", .subschema, []⟩,
   ⟨"properties", .objectOfSubschemas, []⟩, ⟨"patternProperties", .objectOfSubschemas, []⟩,
   ⟨"additionalProperties", .subschema, ["properties", "patternProperties"]⟩,
   ⟨"propertyNames", .subschema, []⟩]

/-- `PrefixItemsKeyword`, `ItemsKeyword` (`applicator.py:137-187`) -/
def applicatorItems : List KwCls :=
  [⟨"prefixItems", .arrayOfSubschemas, []⟩, ⟨"items", .subschema, ["prefixItems"]⟩]

/-- `UnevaluatedItemsKeyword`, `UnevaluatedPropertiesKeyword` (`_2020_12.py:50-54`) -/
def unevaluatedClasses : List KwCls :=
  [⟨"unevaluatedItems", .subschema,
     ["prefixItems", "items", "contains"] ++ unevalDeps ++ ["$dynamicRef"]⟩,
   ⟨"unevaluatedProperties", .subschema,
     ["properties", "patternProperties", "additionalProperties", "if", "then", "else",
      "dependentSchemas", "allOf", "anyOf", "oneOf", "not", "$ref", "$dynamicRef"]⟩]

/-- The applicators of 2019-09 only (`_2019_09.py:32-51`). -/
def applicator2019 : List KwCls :=
  [⟨"items", .subschemaOrArray, []⟩, ⟨"additionalItems", .subschema, ["items"]⟩,
   ⟨"unevaluatedItems", .subschema, ["items", "additionalItems"] ++ unevalDeps ++ ["$recursiveRef"]⟩,
   ⟨"unevaluatedProperties", .subschema,
     ["properties", "patternProperties", "additionalProperties", "if", "then", "else",
      "dependentSchemas", "allOf", "anyOf", "oneOf", "not", "$ref", "$recursiveRef"]⟩]

/-- The validation vocabulary (`_2020_12.py:56-78`; the same classes in `_2019_09.py`, `_next.py`). -/
def validationClasses : List KwCls :=
  [⟨"type", .plain, []⟩, ⟨"enum", .plain, []⟩, ⟨"const", .plain, []⟩, ⟨"multipleOf", .plain, []⟩,
   ⟨"maximum", .plain, []⟩, ⟨"exclusiveMaximum", .plain, []⟩, ⟨"minimum", .plain, []⟩,
   ⟨"exclusiveMinimum", .plain, []⟩, ⟨"maxLength", .plain, []⟩, ⟨"minLength", .plain, []⟩,
   ⟨"pattern", .pattern, []⟩, ⟨"maxItems", .plain, []⟩, ⟨"minItems", .plain, []⟩,
   ⟨"uniqueItems", .plain, []⟩, ⟨"maxContains", .plain, ["contains"]⟩,
   ⟨"minContains", .plain, ["contains", "maxContains"]⟩, ⟨"maxProperties", .plain, []⟩,
   ⟨"minProperties", .plain, []⟩, ⟨"required", .plain, []⟩, ⟨"dependentRequired", .plain, []⟩]

/-- The format vocabulary (`_2020_12.py:80-83`) -/
def formatClasses : List KwCls := [⟨"format", .format, []⟩]

/-- The meta-data vocabulary (`_2020_12.py:85-94`) -/
def metaDataClasses : List KwCls :=
  [⟨"title", .plain, []⟩, ⟨"description", .plain, []⟩, ⟨"default", .plain, []⟩,
   ⟨"deprecated", .plain, []⟩, ⟨"readOnly", .plain, []⟩, ⟨"writeOnly", .plain, []⟩,
   ⟨"examples", .plain, []⟩]

/-- The content vocabulary (`_2020_12.py:96-101`) -/
def contentClasses : List KwCls :=
  [⟨"contentMediaType", .plain, []⟩, ⟨"contentEncoding", .plain, []⟩,
   ⟨"contentSchema", .plain, ["contentMediaType"]⟩]

/-- The calls of `create_vocabulary` in `jschon/catalog/_2020_12.py:18-101`. -/
def shipped2020 : List (String × List KwCls) :=
  [("https://json-schema.org/draft/2020-12/vocab/core", coreBase ++ [⟨"$id", .id, []⟩] ++ coreDynamic),
   ("https://json-schema.org/draft/2020-12/vocab/applicator", applicatorBase ++ applicatorItems),
   ("https://json-schema.org/draft/2020-12/vocab/unevaluated", unevaluatedClasses),
   ("https://json-schema.org/draft/2020-12/vocab/validation", validationClasses),
   ("https://json-schema.org/draft/2020-12/vocab/format-annotation", formatClasses),
   ("https://json-schema.org/draft/2020-12/vocab/meta-data", metaDataClasses),
   ("https://json-schema.org/draft/2020-12/vocab/content", contentClasses)]

/-- The calls of `create_vocabulary` in `jschon/catalog/_2019_09.py:19-101`. -/
def shipped2019 : List (String × List KwCls) :=
  [("https://json-schema.org/draft/2019-09/vocab/core",
      coreBase ++ [⟨"$id", .id, []⟩, ⟨"$recursiveRef", .recursiveRef, []⟩, ⟨"$recursiveAnchor", .plain, []⟩]),
   ("https://json-schema.org/draft/2019-09/vocab/applicator", applicatorBase ++ applicator2019),
   ("https://json-schema.org/draft/2019-09/vocab/validation", validationClasses),
   ("https://json-schema.org/draft/2019-09/vocab/format", formatClasses),
   ("https://json-schema.org/draft/2019-09/vocab/meta-data", metaDataClasses),
   ("https://json-schema.org/draft/2019-09/vocab/content", contentClasses)]

/-- The calls of `create_vocabulary` in `jschon/catalog/_next.py:19-102`. -/
def shippedNext : List (String × List KwCls) :=
  [("https://json-schema.org/draft/next/vocab/core", coreBase ++ [⟨"$id", .idNext, []⟩] ++ coreDynamic),
   ("https://json-schema.org/draft/next/vocab/applicator", applicatorBase ++ applicatorItems),
   ("https://json-schema.org/draft/next/vocab/unevaluated", unevaluatedClasses),
   ("https://json-schema.org/draft/next/vocab/validation", validationClasses),
   ("https://json-schema.org/draft/next/vocab/format-annotation", formatClasses),
   ("https://json-schema.org/draft/next/vocab/meta-data", metaDataClasses),
   ("https://json-schema.org/draft/next/vocab/content", contentClasses)]

/-- The metaschema of `next` (`jschon/catalog/_next.py`): the classes of 2020-12, except for `$id`. -/
def metaNext : Meta where
  classes := ⟨"$id", .idNext, []⟩ :: meta2020.classes.filter (fun c => c.key ≠ "$id")
  knownCore := false

/-- `catalog._vocabularies` after calls of `create_vocabulary`. -/
def createAll (vs : Vocabs) (calls : List (Uri × List KwCls)) : Vocabs :=
  calls.foldl (fun vs c => createVocabulary vs c.1 c.2) vs

/-- The calls, with `URI(text)` for the text. -/
def callsOf (lib : UriLib) (calls : List (String × List KwCls)) : List (Uri × List KwCls) :=
  calls.map (fun c => (lib.ofText c.1, c.2))

end Jschon
