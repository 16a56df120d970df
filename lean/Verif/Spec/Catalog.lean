import Verif.Model.Catalog

/-!
# What the catalog should do

Sources: the registrations made so far, oldest first, decide.  Caches: the calls made so far, oldest
first, decide.
-/

namespace Jschon.Spec

/-- What a base URI must be to be registered: absolute and normalized, without a fragment, with a path
that ends with a slash; or absent, which stands for the empty prefix. -/
def Registrable (lib : UriLib) : Option Uri → Prop
  | none => True
  | some u => lib.valid u = true ∧ lib.hasScheme u = true ∧ lib.normal u = true ∧
      u.fragment = none ∧ lib.dirPath u = true

/-- The prefix that a base URI stands for. -/
def prefixOf : Option Uri → String
  | none => ""
  | some u => u.str

/-- After the calls (oldest first), `s` is the source in force for the prefix `p`: some call registered
it and no later one registered another source for `p`. -/
def InForce (lib : UriLib) (calls : List (Option Uri × Source)) (p : String) (s : Source) : Prop :=
  ∃ before u after, calls = before ++ (u, s) :: after ∧ Registrable lib u ∧ prefixOf u = p ∧
    ∀ c ∈ after, Registrable lib c.1 → prefixOf c.1 ≠ p

/-- `p` and its source `s` are to be used for the URI text `t`: no longer prefix has a source. -/
def Chosen (lib : UriLib) (calls : List (Option Uri × Source)) (t p : String) (s : Source) : Prop :=
  InForce lib calls p s ∧ p.toList <+: t.toList ∧
  ∀ p' s', InForce lib calls p' s' → p'.toList <+: t.toList → p'.length ≤ p.length

/-- The call ends what was cached for `u` in the cache `id`. -/
def Ends (id : String) (u : Uri) : CacheOp → Prop
  | .add id' u' _ => id' = id ∧ u' = u
  | .del id' u' => id' = id ∧ u' = u
  | .pop id' => id' = id

/-- After the calls (oldest first), `s` is what was cached last for `u` in the cache `id`, and it has
not been removed since. -/
def Cached (calls : List CacheOp) (id : String) (u : Uri) (s : Nat) : Prop :=
  ∃ before after, calls = before ++ .add id u s :: after ∧ ∀ c ∈ after, ¬ Ends id u c

/-- The cache that a call is for. -/
def callId : CacheOp → String
  | .add id _ _ => id
  | .del id _ => id
  | .pop id => id

/-- The program uses only caches of the blocks around each call, `ids` being those around the whole. -/
def Scoped : List String → CacheProg → Prop
  | ids, .call op => callId op ∈ ids
  | _, .raise _ => True
  | ids, .seq p q => Scoped ids p ∧ Scoped ids q
  | ids, .block id p => Scoped (id :: ids) p

/-- Since the cache `id` was last dropped, something has been added to it. -/
def InUse (calls : List CacheOp) (id : String) : Prop :=
  ∃ before u s after, calls = before ++ .add id u s :: after ∧ ∀ c ∈ after, c ≠ .pop id

end Jschon.Spec
