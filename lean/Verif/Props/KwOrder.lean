import Verif.Proof.KwOrder

/-!
# C29: keywords are evaluated after the keywords they depend on
-/

namespace Jschon

open Spec

/-- C29.  For the shipped vocabularies: whatever keywords a schema has and in whatever order they are
written, ordering them terminates, keeps each keyword exactly once, and puts each after those it
depends on. -/
theorem C29_order (legacy : Bool) (kws : List Kw) (hn : (kws.map Kw.key).Nodup) :
    ∃ out, resolveDependencies Kw.key (Kw.dependsOn legacy) kws = some out ∧
      out.Perm kws ∧ DepsFirst Kw.key (Kw.dependsOn legacy) out := by
  obtain ⟨out, h⟩ := resolveDependencies_isSome Kw.key (Kw.dependsOn legacy) kws
    (fun a _ => dependsOn_nodup legacy a) ⟨kwRank, fun a _ => kwRank_lt legacy a⟩
  exact ⟨out, h, resolveDependencies_spec _ _ _ _ hn h⟩

/-- C29 for custom vocabularies: if the dependencies form no cycle and no keyword lists a dependency
twice, the same holds. -/
theorem C29_custom {α : Type} (key : α → String) (deps : α → List String) (kws : List α)
    (hn : (kws.map key).Nodup) (hd : ∀ a ∈ kws, (deps a).Nodup) (ha : Acyclic key deps kws) :
    ∃ out, resolveDependencies key deps kws = some out ∧ out.Perm kws ∧ DepsFirst key deps out := by
  obtain ⟨out, h⟩ := resolveDependencies_isSome key deps kws hd ha
  exact ⟨out, h, resolveDependencies_spec _ _ _ _ hn h⟩

/-- `unevaluatedProperties` written first, and `then` before `if`. -/
example : (([.unevaluatedProperties 1, .then_ 2, .if_ 3, .properties [("a", 4)]] : List Kw).map
    Kw.key).Nodup := by decide

example : (resolveDependencies Kw.key (Kw.dependsOn false)
    [.unevaluatedProperties 1, .then_ 2, .if_ 3, .properties [("a", 4)]]).map (·.map Kw.key) =
    some ["if", "then", "properties", "unevaluatedProperties"] := by decide +kernel

/-- A custom vocabulary with a chain of dependencies. -/
example : Acyclic (fun s : String => s) (fun s => if s = "b" then ["a"] else if s = "c" then ["b"] else [])
    ["c", "b", "a"] := by
  refine ⟨fun s => if s = "a" then 0 else if s = "b" then 1 else 2, ?_⟩
  decide

/-- Cyclic dependencies: the loop never ends. -/
theorem C29_cycle : resolveDependencies (fun s : String => s)
    (fun s => if s = "a" then ["b"] else ["a"]) ["a", "b"] = none := by decide +kernel

end Jschon
