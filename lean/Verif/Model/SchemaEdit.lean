import Verif.Model.Decode

/-!
# Edits of schemas

A `JSONSchema` is a `JSON`, and inherits the methods that change a document.  This file is about what
they do when they are called on a schema itself, and about what evaluation sees afterwards.
-/

namespace Jschon
open Spec

/-- The methods of `JSON` that change an instance. -/
inductive SOp where
  /-- `schema[k] = obj`, `schema[i] = obj` (`jschon/json.py:236-247`), and with them `update`,
  `setdefault` of a missing key, and `add`, `replace` of a member. -/
  | setItem (o : JArg)
  /-- `schema.insert(i, obj)` (`jschon/json.py:261-275`), and with it `append`. -/
  | insert (i : Int) (o : JArg)
  /-- `schema.add('', obj)`, `schema.replace('', obj)`, `schema.remove('')`
  (`jschon/json.py:347-355`, `:396-404`, `:426-442`). -/
  | reinit (v : Value)
  /-- `del schema[k]` (`jschon/json.py:249-259`), and with it `pop(k)` and `remove` of a member. -/
  | delItem (k : String)

/-- The effect of a method on the schema `s`.  `JSONSchema.__init__` does not call that of `JSON`
(`jschon/jsonschema.py:73`), and sets neither `itemclass` nor `itemkwargs`: what reads them raises
AttributeError, before anything is changed.  (So does `self.data.insert`, because `data` is a bool or a
dict.)  `__delitem__` reads neither; it changes `data`, but not `keywords`. -/
def SOp.step (w : World) (s : Nat) : SOp → World × Except Exc Unit
  | .setItem _ | .insert _ _ | .reinit _ => (w, .error .attributeError)
  | .delItem k => ({ w with heap := (delKey w.heap s k).1 }, (delKey w.heap s k).2)

/-- What evaluation sees of a keyword of a schema with the given `data`: `keywords` holds the keyword
(`jschon/jsonschema.py:198`), but `$dynamicAnchor` and `$recursiveAnchor` are looked up in `data`
(`core.py:160`, `legacy.py:36`, `:41`). -/
def Kw.seen (d : JData) : Kw → Bool
  | .static k _ =>
    !(k == "$dynamicAnchor" || k == "$recursiveAnchor") ||
      match d with
      | .obj ms => (dlookup k ms).isSome
      | _ => false
  | _ => true

/-- The schema object, as evaluation sees it. -/
def World.liveObj [Dialect] (E : CEnv) (w : World) (x : Nat) : SchemaObj :=
  match w.schemaObj E x with
  | .bool b => .bool b
  | .obj kws => .obj (kws.filter (Kw.seen (w.heap.data x)))

/-- The schemas of a world, as evaluation sees them, possibly after edits. -/
def World.liveStore [Dialect] (E : CEnv) (cacheid : String) (w : World) : Store :=
  { w.store E cacheid with obj := w.liveObj E }

end Jschon
