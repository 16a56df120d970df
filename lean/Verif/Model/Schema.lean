import Verif.Model.Equality

/-!
# Schemas (`jschon/jsonschema.py`, `jschon/vocabulary/*.py`)

A `JSONSchema` object is a node of a store, referred to by a number (object identity).  A keyword
object holds references to the schema objects of its subschemas or of its resolved reference.

Simplification: a keyword is represented together with its value, already in the shape that the
metaschema demands (`allOf` holds a list of schemas, `maximum` a number, ...).  Keyword values of
another shape make jschon raise assorted Python errors and are not modelled.
-/

namespace Jschon

/-- A reference to a `JSONSchema` object. -/
notation "SRef" => Nat

/-- The keywords that assert something about the instance alone, without looking at siblings or
subschemas (`jschon/vocabulary/validation.py`, all but `maxContains` and `minContains`). -/
inductive Assertion where
  | type_ (types : List String)                       -- :33-46
  | enum (vs : List Value)                            -- :49-55
  | const (v : Value)                                 -- :58-63
  | multipleOf (m : Num)                              -- :66-75
  | maximum (m : Num)                                 -- :78-84
  | exclusiveMaximum (m : Num)                        -- :87-93
  | minimum (m : Num)                                 -- :96-102
  | exclusiveMinimum (m : Num)                        -- :105-111
  | maxLength (m : Num)                               -- :114-120
  | minLength (m : Num)                               -- :123-129
  | pattern (re : String)                             -- :132-142
  | maxItems (m : Num)                                -- :145-151
  | minItems (m : Num)                                -- :154-160
  | uniqueItems (b : Bool)                            -- :163-177
  | maxProperties (m : Num)                           -- :215-221
  | minProperties (m : Num)                           -- :224-230
  | required (names : List String)                    -- :233-240
  | dependentRequired (ps : List (String × List String))  -- :243-256

/-- A keyword object with the value it was created from. -/
inductive Kw where
  -- `jschon/vocabulary/validation.py`
  | assert (a : Assertion)
  | maxContains (m : Num)                             -- :180-189
  | minContains (m : Num)                             -- :192-212
  -- `jschon/vocabulary/applicator.py`
  | allOf (ss : List SRef)                            -- :28-40
  | anyOf (ss : List SRef)                            -- :43-55
  | oneOf (ss : List SRef)                            -- :58-74
  | not_ (t : SRef)                                   -- :77-86
  | if_ (t : SRef)                                    -- :89-94
  | then_ (t : SRef)                                  -- :97-105
  | else_ (t : SRef)                                  -- :108-116
  | dependentSchemas (ps : List (String × SRef))      -- :119-139
  | prefixItems (ss : List SRef)                      -- :142-160
  | items (t : SRef)                                  -- :163-187
  | unevaluatedItems (t : SRef)                       -- :190-245
  | contains (t : SRef)                               -- :248-263
  | properties (ps : List (String × SRef))            -- :266-285
  | patternProperties (ps : List (String × SRef))     -- :288-308
  | additionalProperties (t : SRef)                   -- :311-343
  | unevaluatedProperties (t : SRef)                  -- :346-390, and `legacy.py`:167-211, the same code
  | propertyNames (t : SRef)                          -- :393-405
  -- `jschon/vocabulary/legacy.py` (2019-09)
  | items9 (t : SRef)                                 -- :56-86, value a schema
  | items9Array (ss : List SRef)                      -- :56-86, value an array of schemas
  | additionalItems (t : SRef)                        -- :89-112
  | unevaluatedItems9 (t : SRef)                      -- :115-164
  | recursiveRef (t : SRef)                           -- :16-48
  -- `jschon/vocabulary/core.py`
  | ref (t : SRef)                                    -- :82-103
  | dynamicRef (t : SRef) (frag : String) (dynamic : Bool)  -- :121-169
  | static (key : String) (v : Value)                 -- the keywords with `static = True`
  -- `jschon/vocabulary/format.py`; `enabled` is `self.validator is not None`
  | format (attr : String) (enabled : Bool)           -- :14-32
  -- `jschon/vocabulary/annotation.py`
  | annot (key : String) (stringOnly : Bool) (v : Value)  -- :19-61
  | contentSchema (v : Value)                         -- :64-73
  -- `jschon/vocabulary/__init__.py`
  | unknown (key : String) (v : Value)                -- :162-165

/-- The `key` attribute of the keyword class. -/
def Assertion.key : Assertion → String
  | .type_ _ => "type" | .enum _ => "enum" | .const _ => "const" | .multipleOf _ => "multipleOf"
  | .maximum _ => "maximum" | .exclusiveMaximum _ => "exclusiveMaximum"
  | .minimum _ => "minimum" | .exclusiveMinimum _ => "exclusiveMinimum"
  | .maxLength _ => "maxLength" | .minLength _ => "minLength" | .pattern _ => "pattern"
  | .maxItems _ => "maxItems" | .minItems _ => "minItems" | .uniqueItems _ => "uniqueItems"
  | .maxProperties _ => "maxProperties" | .minProperties _ => "minProperties"
  | .required _ => "required" | .dependentRequired _ => "dependentRequired"

/-- The `key` attribute of the keyword class. -/
def Kw.key : Kw → String
  | .assert a => a.key
  | .maxContains _ => "maxContains" | .minContains _ => "minContains"
  | .allOf _ => "allOf" | .anyOf _ => "anyOf" | .oneOf _ => "oneOf" | .not_ _ => "not"
  | .if_ _ => "if" | .then_ _ => "then" | .else_ _ => "else"
  | .dependentSchemas _ => "dependentSchemas" | .prefixItems _ => "prefixItems"
  | .items _ => "items" | .unevaluatedItems _ => "unevaluatedItems" | .contains _ => "contains"
  | .properties _ => "properties" | .patternProperties _ => "patternProperties"
  | .additionalProperties _ => "additionalProperties"
  | .unevaluatedProperties _ => "unevaluatedProperties" | .propertyNames _ => "propertyNames"
  | .items9 _ => "items" | .items9Array _ => "items" | .additionalItems _ => "additionalItems"
  | .unevaluatedItems9 _ => "unevaluatedItems" | .recursiveRef _ => "$recursiveRef"
  | .ref _ => "$ref" | .dynamicRef _ _ _ => "$dynamicRef" | .static k _ => k
  | .format _ _ => "format" | .annot k _ _ => k | .contentSchema _ => "contentSchema"
  | .unknown k _ => k

/-- The `instance_types` attribute of the keyword class. -/
def Assertion.types : Assertion → List JType
  | .type_ _ | .enum _ | .const _ => [.null, .boolean, .number, .string, .array, .object]
  | .multipleOf _ | .maximum _ | .exclusiveMaximum _ | .minimum _ | .exclusiveMinimum _ => [.number]
  | .maxLength _ | .minLength _ | .pattern _ => [.string]
  | .maxItems _ | .minItems _ | .uniqueItems _ => [.array]
  | .maxProperties _ | .minProperties _ | .required _ | .dependentRequired _ => [.object]

/-- The `instance_types` attribute of the keyword class, empty when `static = True`
(`jschon/vocabulary/__init__.py:131-139`, and the classes). -/
def Kw.types : Kw → List JType
  | .assert a => a.types
  | .maxContains _ | .minContains _ | .prefixItems _ | .items _ | .unevaluatedItems _ | .contains _
  | .items9 _ | .items9Array _ | .additionalItems _ | .unevaluatedItems9 _ => [.array]
  | .dependentSchemas _ | .properties _ | .patternProperties _ | .additionalProperties _
  | .unevaluatedProperties _ | .propertyNames _ => [.object]
  | .static _ _ => []
  | .annot _ true _ | .contentSchema _ => [.string]
  | _ => [.null, .boolean, .number, .string, .array, .object]

/-- A `JSONSchema` object: `data` is a bool, or the schema has `keywords`
(`jschon/jsonschema.py:70-125`). -/
inductive SchemaObj where
  | bool (b : Bool)
  | obj (keywords : List Kw)

/-- `schema.get(key)` for the keys of static keywords (`$dynamicAnchor`, `$recursiveAnchor`): the
value of the keyword. -/
def SchemaObj.getStatic (key : String) : SchemaObj → Option Value
  | .bool _ => none
  | .obj kws => kws.findSome? (fun
      | .static k v => if k = key then some v else none
      | _ => none)

/-- The schema objects that exist, and what evaluation asks the catalog for. -/
structure Store where
  /-- The object. -/
  obj : SRef → SchemaObj
  /-- `schema.base_uri` (`jschon/jsonschema.py:287-297`), as a string. -/
  base : SRef → Option String
  /-- `catalog.get_schema(URI("#" + fragment).resolve(base))`; `none` is `CatalogError`.
  Simplification: no document is loaded by this call during evaluation (the base URI is that of a
  schema that exists already). -/
  lookup : String → String → Option SRef

/-- The parts of Python and of the catalog's configuration that evaluation uses. -/
structure Env where
  /-- `re.search(regex, text) is not None`.  Regexes that do not compile are not modelled. -/
  search : String → String → Bool
  /-- The rational value of the text `f'{x}'` of a float with the exact value given. -/
  dec : Rat → Rat
  /-- The instance types a format validator applies to (`_format_validators[attr][1]`). -/
  fmtTypes : String → List JType
  /-- Whether the validator accepts the value (does not raise `ValueError`). -/
  fmtOk : String → Value → Bool

end Jschon
