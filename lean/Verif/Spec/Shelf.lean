import Verif.Spec.Suite

/-!
# Documents that are loaded when they are referred to
-/

namespace Jschon.Spec

variable [dia : Dialect]

/-- A document that a source of the catalog has: it is what is loaded with its URI, which is also the one that
it says it has, and it is one of the dialect, at least if a schema of the dialect refers to it. -/
structure OnShelf (E : CEnv) (L : Links) (p : Site) : Prop where
  obj : ∃ kvs, p.schema = .obj kvs
  wf : p.schema.WF
  absolute : Solid E.lib p.base
  plain : p.base.fragment = none
  loads : loadJson E.lib E.sources p.base = .ok p.schema
  own : ownBase E.lib p.base p.schema = p.base
  form : ∀ m, OfDialect m → DocForm E (some m) L p

/-- The document has a schema resource with that URI. -/
def HasResource (lib : UriLib) (d : Site) (b : Uri) : Prop :=
  ∃ ls o, Stands lib d ls o ∧ (ls = [] ∨ ∃ t, o.Has "$id" (.str t)) ∧ o.base = b

/-- The resources that the references of the document are to, other than `$recursiveRef`, are those of the document, those of documents
that are there, and documents that can be loaded. -/
def NearRefs (lib : UriLib) (there shelf : List Site) (p : Site) : Prop :=
  ∀ ks q k t r, Stands lib p ks q → k = "$ref" ∨ dia = .d2020 ∧ k = "$dynamicRef" → q.Has k (.str t) → RefUri lib q.base t r →
    (∃ d, (d = p ∨ d ∈ there) ∧ HasResource lib d r.noFragment) ∨ ∃ d ∈ shelf, d.base = r.noFragment

/-- Documents that can be loaded, and refer to each other. -/
structure Shelf (E : CEnv) (shelf : List Site) : Prop where
  each : ∀ p ∈ shelf, OnShelf E (links E.lib shelf) p
  near : ∀ p ∈ shelf, NearRefs E.lib [] shelf p
  unique : UniqueNames E.lib shelf

/-- A document that may be constructed, where others were constructed before and those of the shelf can be
loaded: as `Addition`, but the references may also lead to documents that can be loaded. -/
structure Arrival (E : CEnv) (w : World) (cid : String) (shelf there : List Site) (uri metaUri : Option Uri)
    (kvs : List (String × Value)) (p : Site) : Prop where
  wf : (Value.obj kvs).WF
  site : p = docSite E.lib w uri (.obj kvs)
  form : ∃ mo, DocForm E mo (links E.lib (shelf ++ there ++ [p])) p ∧
    ∀ m, mo = some m → ∃ u, metaUri = some u ∧ E.metaschema u = .ok m
  near : NearRefs E.lib there shelf p
  given : ∀ u, uri = some u → u.fragment = none ∧ Solid E.lib u ∧
    ∀ q, w.uri q = some u → w.cacheid q ≠ cid
  same : E.lib.same (uri.getD (E.lib.uuid w.uris)) p.base = true → uri.getD (E.lib.uuid w.uris) = p.base
  unique : UniqueNames E.lib (shelf ++ there ++ [p])
  free : ∀ v ks q, Stands E.lib p ks q → q.base = v.noFragment → cacheGet w.caches cid v = none

/-- A URI that `get_schema` can be asked for: it is for the schema `q`, and its document was constructed or can
be loaded. -/
structure Obtainable (E : CEnv) (shelf there : List Site) (metaUri : Option Uri) (r : Uri) (q : Site) : Prop where
  denotes : Denotes E.lib (shelf ++ there) r q
  near : (∃ d ∈ there, HasResource E.lib d r.noFragment) ∨ ∃ d ∈ shelf, d.base = r.noFragment
  form : ∃ u m, metaUri = some u ∧ E.metaschema u = .ok m ∧ OfDialect m

/-- The documents, with the schemas made from them, that were constructed in a cache, one after the other, where
those of the shelf can be loaded.  Between them, schemas may be obtained from the catalog, and anything may be
constructed or loaded, successfully or not, that does not change what the cache knows by the names of all these
documents. -/
inductive Stocked (E : CEnv) (cid : String) (shelf : List Site) : List (Nat × Site) → World → Prop
  | start {w} : CHistory w → Shelf E shelf →
      (∀ p ∈ shelf, ∀ v ks q, Stands E.lib p ks q → q.base = v.noFragment → cacheGet w.caches cid v = none) →
      Stocked E cid shelf [] w
  | add {docs w n uri metaUri kvs p w' s} : Stocked E cid shelf docs w →
      Arrival E w cid shelf (docs.map (·.2)) uri metaUri kvs p →
      newDocument E n cid uri metaUri (.obj kvs) w = some (w', .ok s) → Stocked E cid shelf (docs ++ [(s, p)]) w'
  | get {docs w n metaUri r q w' s} : Stocked E cid shelf docs w → Obtainable E shelf (docs.map (·.2)) metaUri r q →
      getSchema E n r metaUri cid w = some (w', .ok s) → Stocked E cid shelf docs w'
  | other {docs w w'} : Stocked E cid shelf docs w → CAfter w w' →
      (∀ p ∈ shelf ++ docs.map (·.2), ∀ ks q v, Stands E.lib p ks q → q.base = v.noFragment →
        cacheGet w'.caches cid v = cacheGet w.caches cid v) → Stocked E cid shelf docs w'

end Jschon.Spec
