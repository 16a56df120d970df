import Verif.Model.Keeping
import Verif.Spec.Construct

/-!
# What may happen between two reads of a metaschema
-/

namespace Jschon.Spec

/-- The second is the first after anything that happens to the world, and after any schemas have read their
metaschemas. -/
inductive KLater : Keeping → Keeping → Prop
  | refl {k} : KLater k k
  | read {k k' k'' E s r} : KLater k k' → k'.read E s = some (k'', r) → KLater k k''
  | any {k k' k''} : KLater k k' → (∀ s m, k'.kept s = some m → k''.kept s = some m) → KLater k k''

/-- Constructions, loads and reads of metaschemas, in which no metaschema takes the place of another one in the cache
of metaschemas. -/
inductive KHistories (E : CEnv) : Keeping → Prop
  | start : KHistories E ⟨.empty, fun _ => none⟩
  | grow {k w} (reads : Nat → Bool) : KHistories E k → CAfter k.world w →
      (∀ u m, cacheGet k.world.caches "__meta__" u = some m → cacheGet w.caches "__meta__" u = some m) →
      KHistories E (k.grow E w reads)
  | read {k k' s r} : KHistories E k → k.read E s = some (k', r) → KHistories E k'

end Jschon.Spec
