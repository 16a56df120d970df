import Verif.Proof.Under
import Verif.Proof.Demo
import Verif.Model.Locations

/-!
# C104: a part of a document is evaluated like a document
-/

namespace Jschon
open Spec

section
variable (st : Store) (env : Env) (n : Nat) (s : SRef)

/-- C104: the result of the evaluation of an instance at a place below `p` is the result that it has without `p`, with
`p` before all instance locations; if one evaluation does not end, neither does the other. -/
theorem C104_result (p q : List String) (v : Value) :
    evaluate st env n s ⟨p ++ q, v⟩ = (evaluate st env n s ⟨q, v⟩).map (resultUnder p) := by
  have h := under_evalSchema (p := p) st env n [s] s ⟨q, v⟩ (RNode.root s ⟨q, v⟩)
  rw [show resultUnder p (RNode.root s ⟨q, v⟩) = RNode.root s ⟨p ++ q, v⟩ by
    simp only [RNode.root, resultUnder, resultsUnder, instUnder]] at h
  exact h

/-- C104: so the result for a part of a document is the one for a document with its value. -/
theorem C104_document (p : List String) (v : Value) :
    evaluate st env n s ⟨p, v⟩ = (evaluate st env n s ⟨[], v⟩).map (resultUnder p) := by
  have h := C104_result st env n s p [] v
  rwa [List.append_nil] at h

/-- C104: the verdict on an instance depends on its value only. -/
theorem C104_verdict (p q : List String) (v : Value) :
    (evaluate st env n s ⟨p, v⟩).map RNode.valid = (evaluate st env n s ⟨q, v⟩).map RNode.valid := by
  rw [C104_document st env n s p v, C104_document st env n s q v]
  simp only [Option.map_map, Function.comp_def, under_valid]

end

/-- C104: what `collect_annotations` and `collect_errors` yield for a place is what they yield for the place without
`p`. -/
theorem C104_collected (p q : List String) (key : Option String) (r : RNode) :
    (resultUnder p r).annotations (some (p ++ q)) key = r.annotations (some q) key ∧
    (resultUnder p r).errors (some (p ++ q)) key = r.errors (some q) key ∧
    (resultUnder p r).annotations none key = r.annotations none key ∧
    (resultUnder p r).errors none key = r.errors none key :=
  ⟨under_annotations q key r, under_errors q key r, under_annotations' key r, under_errors' key r⟩

/-- C104: nothing is collected for other places. -/
theorem C104_nowhere_else (p q : List String) (hq : ¬ p <+: q) (key : Option String) (r : RNode) :
    (resultUnder p r).annotations (some q) key = [] ∧ (resultUnder p r).errors (some q) key = [] :=
  ⟨annotations_not_under hq key r, errors_not_under hq key r⟩

/-- C104: the basic output has `p` before all instance locations, and is otherwise the same.  The absolute keyword
location is any that does not depend on the instance, as the one of `World.uriText`. -/
theorem C104_basic (p : List String) {uri : RInfo → String} (hu : ∀ info i, uri { info with inst := i } = uri info)
    (keys : Option (List String)) (r : RNode) :
    outBasic uri keys (resultUnder p r) = .obj [("valid", .bool r.valid),
      (childKey r.valid, .arr ((basicVisit uri keys r.valid r).map (unitUnder p)))] := by
  simp only [outBasic, under_info, under_basicVisit hu, RNode.valid]

/-- The absolute keyword locations of C81 meet the hypothesis of `C104_basic`. -/
example (w : World) (info : RInfo) (i : Inst) : w.uriText { info with inst := i } = w.uriText info := rfl

/-- `{"unevaluatedProperties": false, "properties": {"a": {"type": "string"}}}` on a part of a document: nothing is
left over for `unevaluatedProperties`, which looks for annotations at the place of the part; the annotation of
`properties` is for the place of the part. -/
example : (evaluate (listStore [.obj [.properties [("a", 1)], .unevaluatedProperties 2],
      .obj [.assert (.type_ ["string"])], .bool false]) demoEnv 5 0
      ⟨["x", "0"], .obj [("a", .str "s")]⟩).map (fun r => (r.valid, (r.annotations (some ["x", "0"]) (some "properties")).map
        namesOf, (r.annotations (some []) (some "properties")).length)) = some (true, [["a"]], 0) := by
  decide +kernel

end Jschon
