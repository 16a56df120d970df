import Verif.Model.Construct
import Verif.Spec.JsonHeap
import Verif.Spec.Dialect

/-!
# Constructed schemas as evaluation sees them

`Verif/Model/Construct.lean` ends with a world: JSON instances, of which some are schemas with keyword
objects.  `Verif/Model/Eval.lean` starts from a store of schemas whose keywords are given with their
values.  Here the store is read off the world: what the `evaluate` method of each keyword class finds in
`self.json`, `self.refschema`, `self.dynamic`, `self.fragment` and `self.validator`.

Simplifications: the keyword classes are those of one dialect, 2019-09 (`jschon/catalog/_2019_09.py`) or
2020-12 (`jschon/catalog/_2020_12.py`), for all schemas; for a keyword value of a form that the metaschema
forbids there is no keyword in the store.
-/

namespace Jschon
open Spec (Dialect)

/-- What `evaluate` of a keyword class reads. -/
inductive Form where
  | plain (f : Value → Option Kw)             -- `self.json.value`
  | one (f : Nat → Kw)                        -- the schema `self.json`
  | many (f : List Nat → Kw)                  -- the schemas in the array `self.json`
  | named (f : List (String × Nat) → Kw)      -- the schemas in the object `self.json`
  | either (f : Nat → Kw) (g : List Nat → Kw) -- the schema `self.json` or those in it, legacy.py:63-78
  | ref                                       -- `self.refschema`, core.py:101-103
  | recursiveRef                              -- `self.refschema`, legacy.py:34-48
  | dynamicRef                                -- `self.refschema`, `.dynamic`, `.fragment`, core.py:145-169
  | format                                    -- `self.json.value`, `self.validator`, format.py:17-32

/-- `self.json.value` is a number. -/
def numKw (f : Num → Kw) : Value → Option Kw
  | .num m => some (f m)
  | _ => none

/-- The strings in an array of strings. -/
def strings : List Value → Option (List String)
  | [] => some []
  | .str t :: r => (strings r).map (t :: ·)
  | _ :: _ => none

/-- `type` is a string or an array of strings (`validation.py:38-39`). -/
def typeKw : Value → Option Kw
  | .str t => some (.assert (.type_ [t]))
  | .arr vs => (strings vs).map fun ts => .assert (.type_ ts)
  | _ => none

/-- `enum` is an array (`validation.py:54`). -/
def enumKw : Value → Option Kw
  | .arr vs => some (.assert (.enum vs))
  | _ => none

/-- `pattern` is a string (`validation.py:139`). -/
def patternKw : Value → Option Kw
  | .str t => some (.assert (.pattern t))
  | _ => none

/-- `uniqueItems` is a boolean (`validation.py:168`). -/
def uniqueKw : Value → Option Kw
  | .bool b => some (.assert (.uniqueItems b))
  | _ => none

/-- `required` is an array of strings (`validation.py:238`). -/
def requiredKw : Value → Option Kw
  | .arr vs => (strings vs).map fun ts => .assert (.required ts)
  | _ => none

/-- The members of an object of arrays of strings. -/
def stringArrays : List (String × Value) → Option (List (String × List String))
  | [] => some []
  | (k, .arr vs) :: r => (strings vs).bind fun ts => (stringArrays r).map ((k, ts) :: ·)
  | _ :: _ => none

/-- `dependentRequired` is an object of arrays of strings (`validation.py:248-252`). -/
def dependentRequiredKw : Value → Option Kw
  | .obj kvs => (stringArrays kvs).map fun ps => .assert (.dependentRequired ps)
  | _ => none

/-- The form of a keyword that only annotates. -/
def annotForm (key : String) (stringOnly : Bool) : Form := .plain fun v => some (.annot key stringOnly v)

/-- The form of a keyword with `static = True`. -/
def staticForm (key : String) : Form := .plain fun v => some (.static key v)

/-- The form of `$defs`, of which evaluation does not even read the value (`core.py:187-189`,
`jsonschema.py:199`). -/
def defsForm : Form := .plain fun _ => some (.static "$defs" .null)

/-- The form of an assertion about numbers. -/
def numForm (f : Num → Kw) : Form := .plain (numKw f)

/-- What the keyword classes that both dialects have read (`jschon/catalog/_2020_12.py:18-108`,
`_2019_09.py:19-107`). -/
def commonForms : List (String × Form) :=
  [-- core.py:24, :39, :67, :108, :189, :194
   ("$schema", staticForm "$schema"), ("$vocabulary", staticForm "$vocabulary"),
   ("$id", staticForm "$id"), ("$anchor", staticForm "$anchor"),
   ("$defs", defsForm), ("$comment", staticForm "$comment"), ("$ref", .ref),
   -- applicator.py
   ("allOf", .many .allOf), ("anyOf", .many .anyOf), ("oneOf", .many .oneOf), ("not", .one .not_),
   ("if", .one .if_), ("then", .one .then_), ("else", .one .else_),
   ("dependentSchemas", .named .dependentSchemas), ("contains", .one .contains),
   ("properties", .named .properties), ("patternProperties", .named .patternProperties),
   ("additionalProperties", .one .additionalProperties),
   ("unevaluatedProperties", .one .unevaluatedProperties), ("propertyNames", .one .propertyNames),
   -- validation.py
   ("type", .plain typeKw), ("enum", .plain enumKw),
   ("const", .plain fun v => some (.assert (.const v))),
   ("multipleOf", numForm fun m => .assert (.multipleOf m)),
   ("maximum", numForm fun m => .assert (.maximum m)),
   ("exclusiveMaximum", numForm fun m => .assert (.exclusiveMaximum m)),
   ("minimum", numForm fun m => .assert (.minimum m)),
   ("exclusiveMinimum", numForm fun m => .assert (.exclusiveMinimum m)),
   ("maxLength", numForm fun m => .assert (.maxLength m)),
   ("minLength", numForm fun m => .assert (.minLength m)), ("pattern", .plain patternKw),
   ("maxItems", numForm fun m => .assert (.maxItems m)),
   ("minItems", numForm fun m => .assert (.minItems m)), ("uniqueItems", .plain uniqueKw),
   ("maxContains", numForm .maxContains), ("minContains", numForm .minContains),
   ("maxProperties", numForm fun m => .assert (.maxProperties m)),
   ("minProperties", numForm fun m => .assert (.minProperties m)), ("required", .plain requiredKw),
   ("dependentRequired", .plain dependentRequiredKw),
   -- format.py, annotation.py
   ("format", .format), ("title", annotForm "title" false), ("description", annotForm "description" false),
   ("default", annotForm "default" false), ("deprecated", annotForm "deprecated" false),
   ("readOnly", annotForm "readOnly" false), ("writeOnly", annotForm "writeOnly" false),
   ("examples", annotForm "examples" false), ("contentMediaType", annotForm "contentMediaType" true),
   ("contentEncoding", annotForm "contentEncoding" true),
   ("contentSchema", .plain fun v => some (.contentSchema v))]

/-- What the keyword classes read: 2019-09 (`jschon/catalog/_2019_09.py`) has `RecursiveRefKeyword_2019_09`,
`RecursiveAnchorKeyword_2019_09`, `ItemsKeyword_2019_09`, `AdditionalItemsKeyword_2019_09` and
`UnevaluatedItemsKeyword_2019_09` (`legacy.py:16-138`), 2020-12 has `$dynamicRef`, `$dynamicAnchor`
(`core.py:121-184`), `prefixItems`, `items` and `unevaluatedItems` (`applicator.py`). -/
def kwForms [dia : Dialect] : List (String × Form) :=
  match dia with
  | .d2019 => commonForms ++
    [("$recursiveRef", .recursiveRef), ("$recursiveAnchor", staticForm "$recursiveAnchor"),
     ("items", .either .items9 .items9Array), ("additionalItems", .one .additionalItems),
     ("unevaluatedItems", .one .unevaluatedItems9)]
  | .d2020 => commonForms ++
    [("$dynamicRef", .dynamicRef), ("$dynamicAnchor", staticForm "$dynamicAnchor"),
     ("prefixItems", .many .prefixItems), ("items", .one .items),
     ("unevaluatedItems", .one .unevaluatedItems)]

/-- The keyword that a keyword object is for evaluation, given the form of its class
(`vocabulary/__init__.py:162-165` if there is none). -/
def World.kwOfForm (E : CEnv) (w : World) (key : String) (o : KwObj) : Option Form → Option Kw
  | none => some (.unknown key (val w.heap o.json))
  | some (.plain f) => f (val w.heap o.json)
  | some (.one f) => some (f o.json)
  | some (.many f) =>
    match w.heap.data o.json with
    | .arr cs => some (f cs)
    | _ => none
  | some (.named f) =>
    match w.heap.data o.json with
    | .obj ms => some (f ms)
    | _ => none
  | some (.either f g) =>
    match w.heap.data o.json with
    | .arr cs => some (g cs)
    | _ => some (f o.json)
  | some .ref => o.refschema.map .ref
  | some .recursiveRef => o.refschema.map .recursiveRef
  | some .dynamicRef =>
    match w.heap.data o.json, o.refschema with
    | .str text, some t => some (.dynamicRef t ((E.lib.ofText text).fragment.getD "") o.dynamic)
    | _, _ => none
  | some .format =>
    match w.heap.data o.json with
    | .str a => some (.format a (E.fmtEnabled a))
    | _ => none

/-- The keyword that a keyword object is for evaluation. -/
def World.kwOf [Dialect] (E : CEnv) (w : World) (kv : String × KwObj) : Option Kw :=
  w.kwOfForm E kv.1 kv.2 (dlookup kv.1 kwForms)

/-- The schema object: `data` is a bool, or there are `keywords`, evaluated in that order
(`jschon/jsonschema.py:187-213`). -/
def World.schemaObj [Dialect] (E : CEnv) (w : World) (x : Nat) : SchemaObj :=
  match w.heap.data x with
  | .bool b => .bool b
  | _ => .obj ((w.keywords x).filterMap (w.kwOf E))

/-- The result of a computation that does not change the world in a way that matters. -/
def resultOf : Option (World × Except Exc Nat) → Option Nat
  | some (_, .ok t) => some t
  | _ => none

/-- The schemas of a world, as evaluation sees them; `cacheid` is that of the schema evaluated
(`core.py:155-158`).  No document is loaded. -/
def World.store [Dialect] (E : CEnv) (cacheid : String) (w : World) : Store where
  obj := w.schemaObj E
  base x := (w.baseUri x).map Uri.str
  lookup b frag :=
    match E.lib.resolve (E.lib.ofText ("#" ++ frag)) (E.lib.ofText b) with
    | none => none
    | some u => resultOf (getSchemaWith E (fun _ _ _ _ => M.raise .catalogError) u none cacheid w)

end Jschon
