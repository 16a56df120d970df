import Verif.Model.Metaschema

/-!
# Catalogs and their names (`jschon/__init__.py:27-57`, `jschon/catalog/__init__.py:70-96`)

`create_catalog`, `Catalog(name)` and `Catalog.get_catalog(name)`.  A catalog is the number of its creation.
The enabled formats of a catalog are in `Verif/Model/Formats.lean`, its schema caches other than `'__meta__'` in
`Verif/Model/Construct.lean`.  Names are strings; the code takes anything hashable.
-/

namespace Jschon

/-- A `Catalog` (`jschon/catalog/__init__.py:83-96`). -/
structure CatalogObj where
  name : String
  /-- `_uri_sources` -/
  sources : List (String × Source)
  /-- `_vocabularies` -/
  vocabs : Vocabs
  /-- `_schema_cache['__meta__']`, and the schemas in it -/
  metas : MetaState

/-- What `Catalog.__init__` sets (`jschon/catalog/__init__.py:83-96`). -/
def CatalogObj.new (name : String) : CatalogObj := ⟨name, [], [], ⟨[], []⟩⟩

/-- The catalogs that were created, and `Catalog._catalog_registry` (`jschon/catalog/__init__.py:74`). -/
structure Catalogs where
  cats : List CatalogObj
  registry : List (String × Nat)

/-- No catalog was created. -/
def Catalogs.start : Catalogs := ⟨[], []⟩

/-- Registration of the catalog that is created next (`jschon/catalog/__init__.py:88`): the catalog as it is in
the end, and the registry. -/
def Catalogs.enter (st : Catalogs) (c : CatalogObj) : Catalogs :=
  ⟨st.cats ++ [c], dset c.name st.cats.length st.registry⟩

/-- `Catalog(name)` -/
def newCatalog (st : Catalogs) (name : String) : Catalogs × Nat :=
  (st.enter (.new name), st.cats.length)

/-- `Catalog.get_catalog(name)` (`jschon/catalog/__init__.py:76-81`) -/
def getCatalog (st : Catalogs) (name : String) : Except Exc Nat :=
  match dlookup name st.registry with
  | some i => .ok i
  | none => .error .catalogError

/-- The arguments in the calls that `initialize` makes for a version. -/
structure Version where
  /-- the base URI of the source -/
  base : String
  /-- the directory of the source -/
  folder : String
  /-- the calls of `create_vocabulary` -/
  vocabs : List (String × List KwCls)
  /-- the arguments of `create_metaschema` -/
  schema : String
  core : String
  defaults : List String

/-- `_2019_09.initialize` (`jschon/catalog/_2019_09.py:13-108`) -/
def version2019 : Version where
  base := "https://json-schema.org/draft/2019-09/"
  folder := "json-schema-2019-09"
  vocabs := shipped2019
  schema := "https://json-schema.org/draft/2019-09/schema"
  core := "https://json-schema.org/draft/2019-09/vocab/core"
  defaults :=
    ["https://json-schema.org/draft/2019-09/vocab/applicator",
     "https://json-schema.org/draft/2019-09/vocab/validation",
     "https://json-schema.org/draft/2019-09/vocab/format",
     "https://json-schema.org/draft/2019-09/vocab/meta-data",
     "https://json-schema.org/draft/2019-09/vocab/content"]

/-- `_2020_12.initialize` (`jschon/catalog/_2020_12.py:12-112`) -/
def version2020 : Version where
  base := "https://json-schema.org/draft/2020-12/"
  folder := "json-schema-2020-12"
  vocabs := shipped2020
  schema := "https://json-schema.org/draft/2020-12/schema"
  core := "https://json-schema.org/draft/2020-12/vocab/core"
  defaults :=
    ["https://json-schema.org/draft/2020-12/vocab/applicator",
     "https://json-schema.org/draft/2020-12/vocab/unevaluated",
     "https://json-schema.org/draft/2020-12/vocab/validation",
     "https://json-schema.org/draft/2020-12/vocab/format-annotation",
     "https://json-schema.org/draft/2020-12/vocab/meta-data",
     "https://json-schema.org/draft/2020-12/vocab/content"]

/-- `_next.initialize` (`jschon/catalog/_next.py:13-113`) -/
def versionNext : Version where
  base := "https://json-schema.org/draft/next/"
  folder := "json-schema-next"
  vocabs := shippedNext
  schema := "https://json-schema.org/draft/next/schema"
  core := "https://json-schema.org/draft/next/vocab/core"
  defaults :=
    ["https://json-schema.org/draft/next/vocab/applicator",
     "https://json-schema.org/draft/next/vocab/unevaluated",
     "https://json-schema.org/draft/next/vocab/validation",
     "https://json-schema.org/draft/next/vocab/format-annotation",
     "https://json-schema.org/draft/next/vocab/meta-data",
     "https://json-schema.org/draft/next/vocab/content"]

/-- `version_initializers` (`jschon/__init__.py:41-45`) -/
def versionNamed (t : String) : Option Version :=
  dlookup t [("2019-09", version2019), ("2020-12", version2020), ("next", versionNext)]

/-- What the initialization depends on: `rfc3986`, the files, and what `Verif/Model/Metaschema.lean` leaves
open, for each catalog. -/
structure Package where
  lib : UriLib
  /-- `LocalSource(pathlib.Path(__file__).parent / folder, suffix='.json')` -/
  files : String → Source
  coreOf : CatalogObj → MetaState → Uri → MetaState × Except Exc String
  rest : CatalogObj → MetaState → Nat → List (String × Value) → MetaState × Except Exc Unit
  valid : CatalogObj → MetaState → Nat → MetaState × Except Exc Bool

/-- What the functions for metaschemas use in the catalog. -/
def Package.env (P : Package) (c : CatalogObj) : MetaEnv where
  lib := P.lib
  sources := c.sources
  vocabs := c.vocabs
  coreOf := P.coreOf c
  rest := P.rest c
  valid := P.valid c

/-- `initialize(catalog)` (`jschon/catalog/_2020_12.py:12-112`, and so in the other modules) -/
def initVersion (P : Package) (v : Version) (c : CatalogObj) : Option (CatalogObj × Except Exc Unit) :=
  match addUriSource P.lib c.sources (some (P.lib.ofText v.base)) (P.files v.folder) with
  | .error e => some (c, .error e)
  | .ok srcs =>
    let c := { c with sources := srcs, vocabs := createAll c.vocabs (callsOf P.lib v.vocabs) }
    match createMetaschema (P.env c) c.metas (P.lib.ofText v.schema) (some (P.lib.ofText v.core))
        (v.defaults.map P.lib.ofText) with
    | none => none
    | some (m, .error e) => some ({ c with metas := m }, .error e)
    | some (m, .ok _) => some ({ c with metas := m }, .ok ())

/-- `for version in versions: ...` (`jschon/__init__.py:46-53`).  A KeyError that `initialize` raises is
reported like a version that is not known. -/
def initVersions (P : Package) : List String → CatalogObj → Option (CatalogObj × Except Exc Unit)
  | [], c => some (c, .ok ())
  | t :: ts, c =>
    match versionNamed t with
    | none => some (c, .error .valueError)
    | some v =>
      match initVersion P v c with
      | none => none
      | some (c, .error e) => some (c, .error (if e = .keyError then .valueError else e))
      | some (c, .ok ()) => initVersions P ts c

/-- `create_catalog(*versions, name=name)` (`jschon/__init__.py:27-57`) -/
def createCatalog (P : Package) (st : Catalogs) (versions : List String) (name : String) :
    Option (Catalogs × Except Exc Nat) :=
  match initVersions P versions (.new name) with
  | none => none
  | some (c, .error e) => some (st.enter c, .error e)
  | some (c, .ok ()) => some (st.enter c, .ok st.cats.length)

/-- What a program does with catalogs. -/
inductive CatalogOp where
  | new (name : String)
  | create (versions : List String) (name : String)
  /-- whatever is done to the catalog that was created as number `i` (`add_uri_source`, `create_vocabulary` and
  so on); its name is not assigned to -/
  | change (i : Nat) (f : CatalogObj → CatalogObj) (keeps : ∀ c, (f c).name = c.name)

/-- One operation. -/
def Catalogs.step (P : Package) (st : Catalogs) : CatalogOp → Option Catalogs
  | .new name => some (newCatalog st name).1
  | .create versions name => (createCatalog P st versions name).map (·.1)
  | .change i f _ => some { st with cats := st.cats.modify i f }

/-- A sequence of operations. -/
def Catalogs.run (P : Package) : Catalogs → List CatalogOp → Option Catalogs
  | st, [] => some st
  | st, op :: ops => match st.step P op with
    | none => none
    | some st => st.run P ops

end Jschon
