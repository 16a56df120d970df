import Verif.Proof.DocVerdict
import Verif.Proof.ConstructDoc

/-!
# Construction of documents
-/

namespace Jschon
open Spec

/-- The document constructs, and its references are resolved. -/
theorem newDocument_local [dia : Dialect] {E : CEnv} (hE : CEnvOk E) (hO : ∀ u m, E.metaschema u = .ok m → Ordered m)
    (hL : SiteLib E.lib) {mo : Option Meta} {kvs : List (String × Value)} (hwf : (Value.obj kvs).WF)
    {cid : String} {uri metaUri : Option Uri} {w : World} {p : Site} (hp : p = docSite E.lib w uri (.obj kvs))
    (hf : DocForm E mo (links E.lib [p]) p) (pre : SPre w cid uri none)
    (hm : ∀ m, mo = some m → ∃ u, metaUri = some u ∧ E.metaschema u = .ok m)
    (hu : ∀ u, uri = some u → u.fragment = none ∧ Solid E.lib u)
    (hs : E.lib.same (uri.getD (E.lib.uuid w.uris)) p.base = true → uri.getD (E.lib.uuid w.uris) = p.base)
    (A : DocAlone E w.caches cid p) :
    ∃ N w1 w', (∀ n, N ≤ n → newDocument E n cid uri metaUri (.obj kvs) w = some (w', .ok w.heap.next)) ∧
      Grow w w1 ∧ DocDone E (links E.lib [p]) [(w.heap.next, p)] w.caches cid p.base w.heap.next kvs w1 w' := by
  subst hp
  obtain ⟨w1, s, h1, rfl, hg, D⟩ := returns_docMade hE hO hL hwf hf pre hm hu hs
  have F := D.finds A rfl
  obtain ⟨w', ⟨⟩, h2, hmid⟩ := settles_resolve D F _ D.corr (Nat.le_refl _) w1 D.mid
  refine ⟨w1.heap.next - w.heap.next, w1, w', fun n hn => ?_, hg, D, hmid, ?_, List.mem_singleton.2 rfl⟩
  · simp only [newDocument, newDocWith, Bind.bind, M.andThen, h1, h2 n hn, pure, M.ret]
  · exact (resolveReferences_ok hE _ _ _ _ _ D.ok D.isSchema (h2 _ (Nat.le_refl _))).2.2 rfl

end Jschon
