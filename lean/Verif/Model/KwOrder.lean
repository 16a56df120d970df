import Verif.Model.Schema

/-!
# Keyword ordering (`jschon/jsonschema.py:110-119`, `:168-185`)
-/

namespace Jschon

/-- The `depends_on` attribute of the keyword classes.  `legacy` selects
`UnevaluatedPropertiesKeyword_2019_09` (`jschon/vocabulary/legacy.py:167-184`) rather than
`UnevaluatedPropertiesKeyword` (`jschon/vocabulary/applicator.py:346-363`) for `unevaluatedProperties`. -/
def Kw.dependsOn (legacy : Bool) : Kw → List String
  | .maxContains _ => ["contains"]                                     -- validation.py:183
  | .minContains _ => ["contains", "maxContains"]                      -- validation.py:195
  | .then_ _ => ["if"]                                                 -- applicator.py:99
  | .else_ _ => ["if"]                                                 -- applicator.py:110
  | .items _ => ["prefixItems"]                                        -- applicator.py:166
  | .unevaluatedItems _ =>                                             -- applicator.py:193-206
    ["prefixItems", "items", "contains", "if", "then", "else", "allOf", "anyOf", "oneOf", "not",
     "$ref", "$dynamicRef"]
  | .additionalProperties _ => ["properties", "patternProperties"]     -- applicator.py:314
  | .unevaluatedProperties _ =>
    if legacy then
      ["properties", "patternProperties", "additionalProperties", "if", "then", "else",
       "dependentSchemas", "allOf", "anyOf", "oneOf", "not", "$ref", "$recursiveRef"]
    else
      ["properties", "patternProperties", "additionalProperties", "if", "then", "else",
       "dependentSchemas", "allOf", "anyOf", "oneOf", "not", "$ref", "$dynamicRef"]
  | .additionalItems _ => ["items"]                                    -- legacy.py:92
  | .unevaluatedItems9 _ =>                                            -- legacy.py:118-130
    ["items", "additionalItems", "if", "then", "else", "allOf", "anyOf", "oneOf", "not", "$ref",
     "$recursiveRef"]
  | .contentSchema _ => ["contentMediaType"]                           -- annotation.py:67
  | _ => []

/-- The first entry without outstanding dependencies, and the other entries. -/
def takeReady {α : Type} : List (α × List String) → Option (α × List (α × List String))
  | [] => none
  | (a, []) :: r => some (a, r)
  | e :: r => (takeReady r).map (fun p => (p.1, e :: p.2))

/-- The `while` loop of `_resolve_dependencies`.  The first argument bounds the number of rounds; a
round without an entry that is ready repeats for ever in Python, and gives `none` here. -/
def resolveLoop {α : Type} (key : α → String) : Nat → List (α × List String) → Option (List α)
  | _, [] => some []
  | 0, _ :: _ => none
  | n + 1, e :: es =>
    match takeReady (e :: es) with
    | none => none
    | some (a, rest) =>
      (resolveLoop key n (rest.map (fun p => (p.1, p.2.erase (key a))))).map (a :: ·)

/-- `JSONSchema._resolve_dependencies`: the keyword classes in document order, each with the
dependencies that are present.  A class is represented by its key. -/
def resolveDependencies {α : Type} (key : α → String) (deps : α → List String) (kws : List α) :
    Option (List α) :=
  resolveLoop key kws.length
    (kws.map (fun a => (a, (deps a).filter (fun d => (kws.map key).contains d))))

/-- The keywords of every schema object in the order in which they are constructed and evaluated
(`jschon/jsonschema.py:110-119`); `st` has them as written. -/
def Store.ordered (legacy : Bool) (st : Store) : Store :=
  { st with obj := fun s => match st.obj s with
      | .bool b => .bool b
      | .obj kws => .obj ((resolveDependencies Kw.key (Kw.dependsOn legacy) kws).getD []) }

end Jschon
