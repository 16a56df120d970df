import Verif.Model.Registry
import Verif.Spec.Metaschema
import Verif.Spec.Vocabulary

/-!
# What creating and getting catalogs should do
-/

namespace Jschon.Spec

/-- The names of the catalogs that the operations create, in order. -/
def namesOf : List CatalogOp → List String
  | [] => []
  | .new name :: ops => name :: namesOf ops
  | .create _ name :: ops => name :: namesOf ops
  | .change .. :: ops => namesOf ops

/-- The last occurrence of `name` is at position `i`. -/
def LastAt (names : List String) (name : String) (i : Nat) : Prop :=
  ∃ pre post, names = pre ++ name :: post ∧ pre.length = i ∧ name ∉ post

/-- The versions of JSON Schema that jschon knows. -/
def KnownVersion (t : String) (v : Version) : Prop :=
  (t = "2019-09" ∧ v = version2019) ∨ (t = "2020-12" ∧ v = version2020) ∨ (t = "next" ∧ v = versionNext)

/-- What is assumed of the files of the package and of `rfc3986`: it takes the URIs in the modules for what they
are, and the metaschema files have a `$schema` and name the URI they are created with.  Construction and
validation of metaschemas do nothing to other metaschemas. -/
structure SoundPackage (P : Package) : Prop where
  tame : ∀ c, TameMeta (P.env c)
  base : ∀ t v, KnownVersion t v → P.lib.ofText v.base = ⟨v.base, none⟩
  schema : ∀ t v, KnownVersion t v → P.lib.ofText v.schema = ⟨v.schema, none⟩
  vocab : ∀ t v, KnownVersion t v → ∀ p ∈ v.vocabs, P.lib.ofText p.1 = ⟨p.1, none⟩
  file : ∀ t v, KnownVersion t v → ∀ doc, P.files v.folder "schema" = .ok (.obj doc) →
    (dlookup "$schema" doc).isSome ∧ NamesItself P.lib ⟨v.schema, none⟩ doc

end Jschon.Spec
