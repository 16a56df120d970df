import Verif.Model.Metaschema

/-!
# What getting a metaschema should do
-/

namespace Jschon.Spec

/-- What was in the cache is still in it, under the same URI, and no keyword class was lost. -/
structure MetaKept (st st' : MetaState) : Prop where
  cache : ∀ u i, alookup u st.cache = some i → alookup u st'.cache = some i
  objs : ∀ (i : Nat) (o : MetaObj), st.objs[i]? = some o → ∃ o', st'.objs[i]? = some o' ∧
    o'.isMeta = o.isMeta ∧ (o.filled = true → o'.filled = true) ∧ o'.uri = o.uri ∧
    ∀ k c, dlookup k o.kwclasses = some c → dlookup k o'.kwclasses = some c

/-- Getting the metaschema of a metaschema, constructing the keywords that come last, and validation
only add to the cache: in particular, no subschema takes the URI of a metaschema. -/
structure TameMeta (E : MetaEnv) : Prop where
  coreOf : ∀ st u, MetaKept st (E.coreOf st u).1
  rest : ∀ st i doc, MetaKept st (E.rest st i doc).1
  valid : ∀ st i, MetaKept st (E.valid st i).1

/-- The document says that its URI is `uri`, or does not say. -/
def NamesItself (lib : UriLib) (uri : Uri) (doc : List (String × Value)) : Prop :=
  ∀ t, dlookup "$id" doc = some (.str t) →
    ∀ r, (r = lib.ofText t ∨ lib.resolve (lib.ofText t) uri.noFragment = some r) → lib.same uri r = true

end Jschon.Spec
