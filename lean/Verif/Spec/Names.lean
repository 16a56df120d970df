import Verif.Spec.Construct

/-!
# The URIs of schemas

What `$id`, `$anchor` and `$dynamicAnchor` say about the URIs under which a schema can be found.
-/

namespace Jschon
namespace Spec

/-- Keyword `k` of schema `x`, which is of class `sh`, has the text `t`. -/
def Says (w : World) (x : Nat) (k : String) (sh : KwShape) (t : String) : Prop :=
  ∃ o, (k, o) ∈ w.keywords x ∧ o.shape = sh ∧ w.heap.data o.json = .str t

/-- The classes of `$anchor` and `$dynamicAnchor`. -/
def AnchorShape (sh : KwShape) : Prop := sh = .anchor ∨ sh = .dynamicAnchor

/-- The URIs that are said to be of schema `x`: its own one, and its base URI with its anchors. -/
inductive Claims (lib : UriLib) (w : World) (x : Nat) : Uri → Prop
  | uri {v} : w.uri x = some v → Claims lib w x v
  | anchor {k sh t b} : Says w x k sh t → AnchorShape sh → w.baseUri x = some b →
      Claims lib w x (lib.ofText (b.str ++ "#" ++ t))

/-- `r` is what `$id` with text `t` means where `above` is the base URI. -/
def IdUri (lib : UriLib) (above : Option Uri) (t : String) (r : Uri) : Prop :=
  (lib.isAbsolute (lib.ofText t) = true ∧ r = lib.ofText t) ∨
  (lib.isAbsolute (lib.ofText t) = false ∧ ∃ b, above = some b ∧ lib.resolve (lib.ofText t) b = some r)

/-- The base URI of an instance: the URI of the nearest schema that has one, going up, without its
fragment. -/
inductive BaseUri (w : World) : Nat → Uri → Prop
  | own {x u} : w.uri x = some u → BaseUri w x u.noFragment
  | up {x p b} : w.uri x = none → w.heap.parent x = some p → BaseUri w p b → BaseUri w x b

/-- What a process can do to a catalog with the library `lib` of URIs, when URIs that are given for
schemas have no fragment. -/
inductive NamedHistory (lib : UriLib) : World → Prop
  | start : NamedHistory lib .empty
  | new {E n cid uri metaUri doc w w' r} : NamedHistory lib w → CEnvOk E → E.lib = lib → doc.WF →
      (∀ u, uri = some u → u.fragment = none ∧ ∀ q, w.uri q = some u → w.cacheid q ≠ cid) →
      newDocument E n cid uri metaUri doc w = some (w', r) → NamedHistory lib w'
  | get {E n u metaUri cid w w' r} : NamedHistory lib w → CEnvOk E → E.lib = lib →
      getSchema E n u metaUri cid w = some (w', r) → NamedHistory lib w'

/-- `v` is the URI of schema `x`, or its base URI with the text of `$anchor` or `$dynamicAnchor`. -/
inductive NameOf (lib : UriLib) (w : World) (x : Nat) : Uri → Prop
  | uri {v} : w.uri x = some v → NameOf lib w x v
  | anchor {k sh t b} : Says w x k sh t → AnchorShape sh → BaseUri w x b →
      NameOf lib w x (lib.ofText (b.str ++ "#" ++ t))

end Spec

open Spec in
/-- The schemas from `b` on are registered with the URIs that are said to be theirs, and with no
others; those with a parent have the URI that `$id` says, and without `$id` none.  What is registered
for schemas before `b` is in the caches `c0`, and nothing that is registered there with a fragment is
removed. -/
structure NamesOk (lib : UriLib) (c0 : Caches) (b : Nat) (w : World) : Prop where
  claim : ∀ cid v x, cacheGet w.caches cid v = some x → b ≤ x → w.cacheid x = cid ∧ Claims lib w x v
  cached : ∀ x v, b ≤ x → Claims lib w x v → ∃ y, b ≤ y ∧ cacheGet w.caches (w.cacheid x) v = some y
  noId : ∀ x p, b ≤ x → w.isSchema x = true → w.heap.parent x = some p → "$id" ∉ dkeys (w.keywords x) →
    w.uri x = none
  id : ∀ x p sh t, b ≤ x → w.heap.parent x = some p → Says w x "$id" sh t →
    ∃ r, w.uri x = some r ∧ IdUri lib (w.baseUri p) t r
  old : ∀ cid v x, cacheGet w.caches cid v = some x → x < b → cacheGet c0 cid v = some x
  kept : ∀ cid v x, v.fragment ≠ none → cacheGet c0 cid v = some x → ∃ y, cacheGet w.caches cid v = some y

end Jschon
