import Verif.Model.Vocabulary
import Verif.Spec.JsonHeap

/-!
# What the vocabularies and the keyword table of a metaschema should be

A catalog is described by the vocabularies that were created in it, a metaschema by its document and
the arguments it was created with.
-/

namespace Jschon.Spec

/-- A list has the keyword class `c` for the key `k`: `c` is the last class in it with that key. -/
def LastWith (k : String) (c : KwCls) (l : List KwCls) : Prop :=
  ∃ pre post, l = pre ++ c :: post ∧ c.key = k ∧ ∀ c' ∈ post, c'.key ≠ k

/-- After the given calls of `create_vocabulary`, the vocabulary `u` consists of `cs`: they were given
by the last call for `u`. -/
def CreatedAs (calls : List (Uri × List KwCls)) (u : Uri) (cs : List KwCls) : Prop :=
  ∃ pre post, calls = pre ++ (u, cs) :: post ∧ ∀ c ∈ post, c.1 ≠ u

/-- No vocabulary `u` was created. -/
def NotCreated (calls : List (Uri × List KwCls)) (u : Uri) : Prop := ∀ c ∈ calls, c.1 ≠ u

/-- The URI is fit for a vocabulary: well-formed, with a scheme, normalized. -/
def FitUri (lib : UriLib) (u : Uri) : Prop :=
  lib.valid u = true ∧ lib.hasScheme u = true ∧ lib.normal u = true

/-- The URI of a core vocabulary: of the form `https://json-schema.org/draft/NAME/vocab/core`, where
`NAME` is not empty and has no slash; a newline may follow. -/
def CoreText (t : String) : Prop :=
  ∃ name : List Char, name ≠ [] ∧ '/' ∉ name ∧
    (t.toList = "https://json-schema.org/draft/".toList ++ name ++ "/vocab/core".toList ∨
     t.toList = "https://json-schema.org/draft/".toList ++ name ++ "/vocab/core\n".toList)

/-- The classes of the vocabularies that the entries of `$vocabulary` name, one vocabulary after the
other; a vocabulary that was not created contributes nothing. -/
inductive Gathers (lib : UriLib) (calls : List (Uri × List KwCls)) :
    List (String × Value) → List KwCls → Prop
  | nil : Gathers lib calls [] []
  | known {t r cs kvs rest} : FitUri lib (lib.ofText t) → CreatedAs calls (lib.ofText t) cs →
      Gathers lib calls kvs rest → Gathers lib calls ((t, r) :: kvs) (cs ++ rest)
  | unknown {t r kvs rest} : FitUri lib (lib.ofText t) → NotCreated calls (lib.ofText t) → Falsy r →
      Gathers lib calls kvs rest → Gathers lib calls ((t, r) :: kvs) rest

/-- An entry of `$vocabulary` that a metaschema cannot have: a URI that is not fit, or a vocabulary
that is required and was not created. -/
def BadEntry (lib : UriLib) (calls : List (Uri × List KwCls)) (e : String × Value) : Prop :=
  ¬ FitUri lib (lib.ofText e.1) ∨ (NotCreated calls (lib.ofText e.1) ∧ ¬ Falsy e.2)

end Jschon.Spec
