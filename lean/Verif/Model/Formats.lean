import Verif.Model.Construct
import Verif.Model.Eval
import Verif.Model.Pointer

/-!
# Formats: `jschon/vocabulary/format.py`, `jschon/formats.py`, `Catalog.enable_formats`

Simplification: a validator is called with the value of the instance; the code passes `instance.data`,
which for arrays and objects contains `JSON` instances.
-/

namespace Jschon

/-- An entry of `_format_validators` (`jschon/vocabulary/format.py:43-44`): the function, which returns or
raises, and the instance types. -/
structure Validator where
  run : Value → Except Exc Unit
  types : List JType

/-- `validate_json_pointer` (`jschon/formats.py:5-9`). -/
def validateJsonPointer : Value → Except Exc Unit
  | .str s => if jsonPointerRe.fullmatch s.toList then .ok () else .error .valueError
  | _ => .ok ()

/-- What `import jschon.formats` registers. -/
def jsonPointerValidator : Validator := ⟨validateJsonPointer, [.string]⟩

/-- `_format_validators`, whether `jschon.formats` has been imported, and `catalog._enabled_formats` of
every catalog. -/
structure FormatState where
  validators : List (String × Validator)
  imported : Bool
  enabled : Nat → List String

/-- Nothing registered or enabled (`jschon/vocabulary/format.py:44`, `jschon/catalog/__init__.py:96`). -/
def FormatState.start : FormatState := ⟨[], false, fun _ => []⟩

/-- `format_validator(attr, instance_types=types)(f)` (`jschon/vocabulary/format.py:47-66`). -/
def FormatState.register (st : FormatState) (attr : String) (v : Validator) : FormatState :=
  { st with validators := dset attr v st.validators }

/-- `import_module('jschon.formats')`: the module is executed the first time only. -/
def FormatState.importFormats (st : FormatState) : FormatState :=
  if st.imported then st else { st.register "json-pointer" jsonPointerValidator with imported := true }

/-- `catalog.enable_formats(*attrs)` (`jschon/catalog/__init__.py:267-274`). -/
def FormatState.enable (st : FormatState) (cat : Nat) (attrs : List String) : FormatState :=
  let st := st.importFormats
  { st with enabled := fun c => if c = cat then st.enabled c ++ attrs else st.enabled c }

/-- What a program does with formats. -/
inductive FormatOp where
  | register (attr : String) (v : Validator)
  | importFormats
  | enable (cat : Nat) (attrs : List String)

/-- One operation. -/
def FormatState.step (st : FormatState) : FormatOp → FormatState
  | .register a v => st.register a v
  | .importFormats => st.importFormats
  | .enable c as => st.enable c as

/-- The operations one after the other. -/
def FormatState.after (st : FormatState) (ops : List FormatOp) : FormatState := ops.foldl FormatState.step st

/-- A `FormatKeyword` instance. -/
structure FormatKw where
  attr : String
  validator : Option Validator

/-- `FormatKeyword.__init__` (`jschon/vocabulary/format.py:17-22`), for a string. -/
def newFormatKw (st : FormatState) (cat : Nat) (attr : String) : Except Exc FormatKw :=
  if attr ∈ st.enabled cat then
    match dlookup attr st.validators with
    | some v => .ok ⟨attr, some v⟩
    | none => .error .keyError
  else .ok ⟨attr, none⟩

/-- What `FormatKeyword.evaluate` does to the result: it annotates, and fails, passes or does not
assert. -/
inductive FormatVerdict where
  | fails | passes | noAssert
  deriving DecidableEq

/-- `FormatKeyword.evaluate(instance, result)` (`jschon/vocabulary/format.py:24-32`): exceptions other than
ValueError are not caught. -/
def FormatKw.evaluate (kw : FormatKw) (v : Value) : Except Exc FormatVerdict :=
  match kw.validator with
  | none => .ok .noAssert
  | some f =>
    if f.types.contains v.type then
      match f.run v with
      | .ok () => .ok .passes
      | .error .valueError => .ok .fails
      | .error e => .error e
    else .ok .noAssert

end Jschon
