import Verif.Spec.Document
import Verif.Spec.Construct
import Verif.Spec.Constructible

/-!
# Documents that refer to each other

Several documents, constructed one after the other.
-/

namespace Jschon.Spec

variable [dia : Dialect]

/-- A document that may be added to others: it is one of the dialect, its references lead to schemas of the
documents before it or to its own; its URI, if given, is an absolute URI that no schema of the cache has; no
two schemas have the same name; and nothing is cached with a URI of one of its schema resources. -/
structure Addition (E : CEnv) (w : World) (cid : String) (docs : List (Nat × Site)) (uri metaUri : Option Uri)
    (kvs : List (String × Value)) (p : Site) : Prop where
  wf : (Value.obj kvs).WF
  site : p = docSite E.lib w uri (.obj kvs)
  form : ∃ mo, DocForm E mo (links E.lib ((docs.map (·.2)) ++ [p])) p ∧
    ∀ m, mo = some m → ∃ u, metaUri = some u ∧ E.metaschema u = .ok m
  given : ∀ u, uri = some u → u.fragment = none ∧ Solid E.lib u ∧
    ∀ q, w.uri q = some u → w.cacheid q ≠ cid
  same : E.lib.same (uri.getD (E.lib.uuid w.uris)) p.base = true → uri.getD (E.lib.uuid w.uris) = p.base
  unique : UniqueNames E.lib ((docs.map (·.2)) ++ [p])
  free : ∀ v ks q, Stands E.lib p ks q → q.base = v.noFragment → cacheGet w.caches cid v = none

/-- The documents, with the schemas made from them, in the order in which they were constructed in a cache.
Between them, anything may be constructed or loaded, successfully or not, that does not change what the cache
knows by their names. -/
inductive Suite (E : CEnv) (cid : String) : List (Nat × Site) → World → Prop
  | start {w} : CHistory w → Suite E cid [] w
  | add {docs w n uri metaUri kvs p w' s} : Suite E cid docs w → Addition E w cid docs uri metaUri kvs p →
      newDocument E n cid uri metaUri (.obj kvs) w = some (w', .ok s) → Suite E cid (docs ++ [(s, p)]) w'
  | other {docs w w'} : Suite E cid docs w → CAfter w w' →
      (∀ s p ks q v, (s, p) ∈ docs → Stands E.lib p ks q → q.base = v.noFragment →
        cacheGet w'.caches cid v = cacheGet w.caches cid v) → Suite E cid docs w'

end Jschon.Spec
