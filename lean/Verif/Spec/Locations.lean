import Verif.Spec.Results
import Verif.Spec.Construct

/-!
# Which part of a schema a result is about
-/

namespace Jschon.Spec

/-- `x` is found for a result of the tree `r` by starting at the schema `s`, following the key of each
result on the way, and going to the referenced schema at results of references. -/
inductive FoundAt (h : JHeap) (s : Nat) (r : RNode) : RNode → Nat → Prop
  | root : FoundAt h s r r s
  | child {m x e y} : FoundAt h s r m x → e ∈ m.children →
      Child h (m.info.refschema.getD x) e.1.1 y → FoundAt h s r e.2 y

/-- `u` consists of the URI of a schema that is cached under it, and a fragment with a JSON pointer that
leads from there to `x`. -/
def PointsTo (w : World) (cid : String) (u : Uri) (x : Nat) : Prop :=
  ∃ r ks, cacheGet w.caches cid u.noFragment = some r ∧ w.uri r = some u.noFragment ∧
    u.fragment = some (Ptr.uriFragment ⟨ks⟩) ∧ Reach w.heap r ks x

end Jschon.Spec
