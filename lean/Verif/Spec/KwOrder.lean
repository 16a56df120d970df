import Verif.Model.Schema

/-!
# What an evaluation order must satisfy
-/

namespace Jschon.Spec

/-- In the list, each element comes after the elements it depends on. -/
def DepsFirst {α : Type} (key : α → String) (deps : α → List String) (l : List α) : Prop :=
  ∀ pre a post, l = pre ++ a :: post → ∀ b ∈ l, key b ∈ deps a → b ∈ pre

/-- Dependencies form no cycle: they are of strictly smaller rank. -/
def Acyclic {α : Type} (key : α → String) (deps : α → List String) (l : List α) : Prop :=
  ∃ rank : String → Nat, ∀ a ∈ l, ∀ d ∈ deps a, rank d < rank (key a)

end Jschon.Spec
