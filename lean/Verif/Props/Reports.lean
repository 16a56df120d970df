import Verif.Proof.Reports
import Verif.Proof.Demo

/-!
# C85: what keywords annotate and report
-/

namespace Jschon

open Spec

section
variable {d : Dialect} {st : Store} {env : Env} {n : Nat} {s : SRef} {i : Inst} {r : RNode} {kws : List Kw} {kw : Kw}
variable (hstore : StoreOk d st) (hw : i.value.WF) (h : evaluate st env (n + 1) s i = some r)

include hstore hw h

/-- A keyword that applies to the type of the instance has a result with the annotation and the error that
`Reports` says, or has none, which is so only as `Silent` says.  The meaning of the subschemas is the observed
meaning (`C30_observed`). -/
theorem C85_keyword (hs : st.obj s = .obj kws) (hkw : kw ∈ kws) (ht : kw.types.contains i.value.type = true) :
    (∃ c, sibling r i kw.key = some c ∧
      Reports (codeRules st env d) env st (obsUnroll (codeRules st env d) env st n) [s] kws i.value kw
        c.info.annotation c.info.error) ∨
    (sibling r i kw.key = none ∧
      Silent (codeRules st env d) env st (obsUnroll (codeRules st env d) env st n) [s] kws i.value kw) := by
  refine body_reports (sc := [s]) (sc' := []) (evalSchema_ok hstore n) (evalSchema_errs n) hstore ?_ (.dup (.cons .nil)) hw
    ⟨rfl, rfl, rfl, rfl⟩ (fun e he => by cases he) hs hkw ht h
  intro t bb ht sc v pt
  cases n with
  | zero => exact id
  | succ n => simp [obsUnroll, obsStep, ht]

omit hstore hw

/-- A keyword that does not apply to the type of the instance has no result. -/
theorem C85_inapplicable (hok : KwsOk d kws) (hs : st.obj s = .obj kws) (hkw : kw ∈ kws)
    (ht : kw.types.contains i.value.type = false) : sibling r i kw.key = none := by
  obtain ⟨r1, hl, hch⟩ := evalBody_children hs h
  rw [sibling, hch]
  refine kwLoop_none (fun kw' hkw' hk => ?_) hl rfl
  have := hok.nodup
  obtain ⟨l1, l2, rfl⟩ := List.append_of_mem hkw
  simp only [List.map_append, List.map_cons, List.nodup_append, List.nodup_cons, List.mem_map] at this
  rcases List.mem_append.1 hkw' with hm | hm
  · exact absurd hk (this.2.2 _ ⟨kw', hm, rfl⟩ _ List.mem_cons_self)
  · rcases List.mem_cons.1 hm with rfl | hm
    · exact ht
    · exact absurd ⟨kw', hm, hk⟩ this.2.1.1

/-- The result of a schema has no annotation of its own, and an error only if the schema is `false`. -/
theorem C85_schema : r.info.annotation = .null ∧
    (st.obj s ≠ .bool false → r.info.error = .null) ∧ (st.obj s = .bool false → IsText r.info.error) := by
  obtain ⟨h1, h2, _, _⟩ := evalSchema_errs (n + 1) [s] s i (RNode.root s i) r h rfl
  exact ⟨by rw [(evalSchema_frame h).eq]; rfl, h1, h2⟩

end

/-! ## Cases -/

/-- `{"prefixItems": [{"const": 1}], "items": {"type": "string"}, "contains": {"const": 2}, "minContains": 0}`. -/
def reportsKws : List Kw := [.prefixItems [1], .items 2, .contains 3, .minContains (.int 0)]

def reportsStore : Store := listStore [.obj reportsKws, .obj [.assert (.const (.num (.int 1)))],
  .obj [.assert (.type_ ["string"])], .obj [.assert (.const (.num (.int 2)))]]

/-- `[1, "a", null, false]`. -/
def reportsInst : Inst := ⟨[], .arr [.num (.int 1), .str "a", .null, .bool false]⟩

example : StoreOk .d2020 reportsStore := listStore_ok (by
  intro kws hk
  simp only [List.mem_cons, SchemaObj.obj.injEq, List.not_mem_nil, or_false] at hk
  rcases hk with rfl | rfl | rfl | rfl <;>
    exact kwsOk_of (by decide) (by simp [reportsKws, Kw.Ok, Assertion.WF, Value.WF.num]) (by decide))

example : reportsInst.value.WF := by
  refine .arr (fun x hx => ?_)
  simp only [List.mem_cons, List.not_mem_nil, or_false] at hx
  rcases hx with rfl | rfl | rfl | rfl <;> constructor

/-- The integer or the list of integers of a value. -/
def intsOf : Value → Option (List Int)
  | .num (.int k) => some [k]
  | .arr xs => some (xs.filterMap fun | .num (.int k) => some k | _ => none)
  | _ => none

/-- `prefixItems` annotates with the last position, `items` reports the positions that fail, and `contains`
annotates with no position, its error gone by the grace of `minContains`. -/
example : (evaluate reportsStore demoEnv 2 0 reportsInst).map (fun r =>
    ["prefixItems", "items", "contains", "minContains"].map (fun k =>
      (sibling r reportsInst k).map (fun c => (intsOf c.info.annotation, intsOf c.info.error)))) =
    some [some (some [0], none), some (none, some [2, 3]), some (some [], none), some (none, none)] := by
  decide +kernel

/-- `{"if": {"const": 1}, "then": true}` leaves no result for `then` on `null`. -/
example : (evaluate (listStore [.obj [.if_ 1, .then_ 2], .obj [.assert (.const (.num (.int 1)))]]) demoEnv 2 0
    ⟨[], .null⟩).map (fun r => (sibling r ⟨[], .null⟩ "then").isSome) = some false := by decide +kernel

end Jschon
