import Verif.Model.Validate
import Verif.Model.UriEdit

/-!
# The metaschemas that schemas keep (`jschon/jsonschema.py:263-269`)
-/

namespace Jschon
open Spec

/-- What `metaschema` returns if it has not been read before (`jschon/jsonschema.py:263-269`).  Undefined if the
metaschema that the catalog has for the URI is not in the cache `__meta__` (see `Model/Validate`). -/
def World.metaschema (E : CEnv) (w : World) (s : Nat) : Option (Except Exc Nat) :=
  match w.metaUri s with
  | none => some (.error .schemaError)
  | some u =>
    match E.metaschema u with
    | .error e => some (.error e)
    | .ok _ => (cacheGet w.caches "__meta__" u).map .ok

/-- A world, and the metaschemas that schemas have kept: `metaschema` is a `cached_property`
(`jschon/jsonschema.py:263`), which keeps what it returns in the `__dict__` of the schema, but no exceptions. -/
structure Keeping where
  world : World
  kept : Nat → Option Nat

/-- `schema.metaschema` (`jschon/jsonschema.py:263-269`). -/
def Keeping.read (E : CEnv) (k : Keeping) (s : Nat) : Option (Keeping × Except Exc Nat) :=
  match k.kept s with
  | some m => some (k, .ok m)
  | none =>
    match k.world.metaschema E s with
    | none => none
    | some (.error e) => some (k, .error e)
    | some (.ok m) => some ({ k with kept := fun x => if x = s then some m else k.kept x }, .ok m)

/-- `schema.validate()` (`jschon/jsonschema.py:187-189`). -/
def Keeping.validate [Dialect] (E : CEnv) (k : Keeping) (env : Env) (n : Nat) (s : Nat) :
    Option (Keeping × Except Exc RNode) :=
  match k.read E s with
  | none => none
  | some (k', .error e) => some (k', .error e)
  | some (k', .ok m) => (evaluate (k'.world.store E "__meta__") env n m
      ⟨(readPath k'.world.heap s).2.keys, val k'.world.heap s⟩).map fun r => (k', .ok r)

/-- Constructions have led to the world `w`, and those of the schemas in `reads` that were not there before have read
their metaschemas.  The constructor does if the value has members other than `$schema` and `$vocabulary`
(`jschon/jsonschema.py:113`, `:141`), after `$schema` has been set on the schema and on those above it; so what is read
is what would be read at the end.  Not so if the metaschema is one that has lost its URI in the meantime, because it has
another `$id`: nothing is kept here if the cache does not have the metaschema at the end. -/
def Keeping.grow (E : CEnv) (k : Keeping) (w : World) (reads : Nat → Bool) : Keeping where
  world := w
  kept s :=
    if s < k.world.heap.next then k.kept s
    else if reads s then
      match w.metaschema E s with
      | some (.ok m) => some m
      | _ => none
    else none

end Jschon
