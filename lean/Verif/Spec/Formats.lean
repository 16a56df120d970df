import Verif.Model.Formats

/-!
# Formats: what is enabled and which validator is in force
-/

namespace Jschon.Spec
open Jschon

/-- A catalog has been told to validate a format. -/
def FormatEnabled (ops : List FormatOp) (cat : Nat) (attr : String) : Prop :=
  ∃ attrs, FormatOp.enable cat attrs ∈ ops ∧ attr ∈ attrs

/-- The module of predefined formats is imported by an operation. -/
def Imports : FormatOp → Prop
  | .register _ _ => False
  | .importFormats => True
  | .enable _ _ => True

/-- At this point of a program the name is given a validator: by the program, or by the first operation that
imports the predefined formats. -/
inductive Registers : List FormatOp → FormatOp → String → Validator → Prop
  | own {pre a v} : Registers pre (.register a v) a v
  | predefined {pre op} : Imports op → (∀ o ∈ pre, ¬ Imports o) →
      Registers pre op "json-pointer" jsonPointerValidator

/-- The validator in force is the one that was given last. -/
def FormatInForce (ops : List FormatOp) (attr : String) (v : Validator) : Prop :=
  ∃ pre op post, ops = pre ++ op :: post ∧ Registers pre op attr v ∧
    ∀ pre' op' post', ops = pre' ++ op' :: post' → pre.length < pre'.length → ∀ w, ¬ Registers pre' op' attr w

end Jschon.Spec
