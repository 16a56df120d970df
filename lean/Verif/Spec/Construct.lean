import Verif.Model.Construct
import Verif.Spec.JsonHeap

/-!
# What construction of schemas should do
-/

namespace Jschon
namespace Spec

/-- The two values differ at most in the order of the members of objects. -/
inductive Rearranged : Value → Value → Prop
  | null : Rearranged .null .null
  | bool {b} : Rearranged (.bool b) (.bool b)
  | num {n} : Rearranged (.num n) (.num n)
  | str {s} : Rearranged (.str s) (.str s)
  | arr {xs ys : List Value} : xs.length = ys.length →
      (∀ (i : Nat) (x y : Value), xs[i]? = some x → ys[i]? = some y → Rearranged x y) →
      Rearranged (.arr xs) (.arr ys)
  | obj {as bs : List (String × Value)} :
      (dkeys as).Perm (dkeys bs) →
      (∀ k v w, dlookup k as = some v → dlookup k bs = some w → Rearranged v w) →
      Rearranged (.obj as) (.obj bs)

end Spec

/-- What is assumed of `rfc3986` and of `uuid4`: a text with `#` in it is parsed into a URI with a
fragment, and a new UUID is not in use. -/
structure LibOk (lib : UriLib) : Prop where
  hash : ∀ a b : String, (lib.ofText (a ++ "#" ++ b)).fragment ≠ none
  uuid : ∀ l, lib.uuid l ∉ l

/-- Only `$id` is constructed with one of the two classes that set the URI of the schema. -/
def IdOnly (m : Meta) : Prop :=
  ∀ c ∈ m.classes, c.shape = .id ∨ c.shape = .idNext → c.key = "$id"

/-- What is assumed of the environment of construction. -/
structure CEnvOk (E : CEnv) : Prop where
  lib : LibOk E.lib
  ids : ∀ u m, E.metaschema u = .ok m → IdOnly m
  /-- sources give JSON values, in which objects have no duplicate members -/
  docs : ∀ u v, loadJson E.lib E.sources u = .ok v → v.WF

namespace Spec

/-- The world after any number of constructions of schemas and calls of `get_schema`, successful or
not, in which no schema is explicitly given a URI that another one of the same cache has. -/
inductive CHistory : World → Prop
  | start : CHistory .empty
  | new {E n cid uri metaUri doc w w' r} : CHistory w → CEnvOk E → doc.WF →
      (∀ u, uri = some u → ∀ q, w.uri q = some u → w.cacheid q ≠ cid) →
      newDocument E n cid uri metaUri doc w = some (w', r) → CHistory w'
  | get {E n u metaUri cid w w' r} : CHistory w → CEnvOk E →
      getSchema E n u metaUri cid w = some (w', r) → CHistory w'

/-- A URI that a document may have: what `$id` says, the one given, or a UUID. -/
def DocUri (E : CEnv) (w : World) (uri : Option Uri) (kvs : List (String × Value)) (u : Uri) : Prop :=
  u = uri.getD (E.lib.uuid w.uris) ∨ ∃ t, dlookup "$id" kvs = some (.str t) ∧ u = E.lib.ofText t

/-- The second world is the first one after any number of constructions of schemas and calls of
`get_schema`, as in `CHistory`. -/
inductive CAfter (w : World) : World → Prop
  | refl : CAfter w w
  | new {E n cid uri metaUri doc w' w'' r} : CAfter w w' → CEnvOk E → doc.WF →
      (∀ u, uri = some u → ∀ q, w'.uri q = some u → w'.cacheid q ≠ cid) →
      newDocument E n cid uri metaUri doc w' = some (w'', r) → CAfter w w''
  | get {E n u metaUri cid w' w'' r} : CAfter w w' → CEnvOk E →
      getSchema E n u metaUri cid w' = some (w'', r) → CAfter w w''

/-- `s` is a schema in the document with root `root`. -/
def SchemaIn (w : World) (root s : Nat) : Prop :=
  w.heap.parent root = none ∧ Within w.heap root s ∧ w.isSchema s = true

/-- A keyword that refers to a schema. -/
def Refers (o : KwObj) : Prop := o.shape = .ref ∨ o.shape = .dynamicRef ∨ o.shape = .recursiveRef

end Spec

end Jschon
