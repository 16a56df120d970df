import Verif.Proof.Replace
import Verif.Proof.Demo

/-!
# C106: the verdict depends on the verdicts of subschemas only

Subschemas, and targets of `$ref`, may be replaced by others with the same verdicts, in schemas without
`unevaluatedProperties` and `unevaluatedItems`.  (`C106_needed`: those keywords tell them apart.)
-/

namespace Jschon

open Spec

section
variable {d : Dialect} {st : Store} {env : Env} (hst : Written d st) (hstat : StaticStore st)
include hst hstat

/-- A schema in which subschemas are replaced by others that have the same verdicts on the parts of the
instance has the same verdict. -/
theorem C106_replaced {n n' m : Nat} {s s' : SRef} {v : Value} (hw : v.WF) {b b' : Bool}
    {kws : List Kw} (hs : st.obj s = .obj kws) (hu : ∀ kw ∈ kws, ¬ IsUneval kw) {σ : SRef → SRef}
    (hs' : st.obj s' = .obj (kws.map (substKw σ)))
    (hσ : ∀ t, σ t ≠ t → ∀ x, PartOrSelf v x →
      ∃ f, verdictOf d env st m t x = some f ∧ verdictOf d env st m (σ t) x = some f)
    (h : verdictOf d env st n s v = some b) (h' : verdictOf d env st n' s' v = some b') : b' = b := by
  have hwx : ∀ x, PartOrSelf v x → x.WF := by
    rintro x (rfl | ⟨n, hx⟩ | hx | ⟨n, _, rfl⟩)
    · exact hw
    · cases hw <;> simp only [members, List.not_mem_nil] at hx
      rename_i hk; exact hk _ hx
    · cases hw <;> simp only [elems, List.not_mem_nil] at hx
      rename_i hk; exact hk _ hx
    · exact .str
  let N := n + n' + m + 1
  have e := written_unrolled hst (show n ≤ N by omega) hw hs h
  have e' := written_unrolled hst (show n' ≤ N by omega) hw hs' h'
  rw [Bool.eq_iff_iff, e, e', List.forall_mem_map]
  refine forall_congr' fun kw => forall_congr' fun hk => ?_
  rw [unrolled_scopeless hst hstat hs' (sc' := [s]) (List.mem_map.2 ⟨kw, hk, rfl⟩)]
  refine obsHolds_subst ?_ ?_ (hu kw hk)
  · intro t x hx
    by_cases ht : σ t = t
    · rw [ht]
    · obtain ⟨f, h1, h2⟩ := hσ t ht x hx
      rw [unrolled_verdict hst hstat (show m ≤ N by omega) (hwx x hx) h1,
        unrolled_verdict hst hstat (show m ≤ N by omega) (hwx x hx) h2]
  · intro t b hb x
    simp only [N, obsUnroll, obsStep, hb]

end

/-! ### Examples -/

/-- Schemas 0 and 1: `{"type": "string"}`, `{"$ref": ...}` to it.  In 2 the subschemas are 1, in 3 they are 0.
4 and 5 have the same verdicts, 6 and 7 differ in using the one or the other. -/
def replaceSchemas : List SchemaObj := [
  .obj [.assert (.type_ ["string"])], .obj [.ref 0],
  .obj [.properties [("a", 1)], .additionalProperties 1, .not_ 1],
  .obj [.properties [("a", 0)], .additionalProperties 0, .not_ 0],
  .obj [.properties [("a", 8)]], .bool true,
  .obj [.unevaluatedProperties 9, .allOf [4]], .obj [.unevaluatedProperties 9, .allOf [5]],
  .bool true, .bool false]

example : Written .d2020 (listStore replaceSchemas) ∧ StaticStore (listStore replaceSchemas) :=
  ⟨written_of (by decide), static_of (by decide)⟩

/-- The hypotheses of `C106_replaced` for schemas 2 and 3 and any string: the verdicts of 0 and 1 on `"s"`, which
has no parts. -/
example : ∀ x, PartOrSelf (.str "s") x → ∃ f,
    verdictOf .d2020 demoEnv (listStore replaceSchemas) 5 1 x = some f ∧
    verdictOf .d2020 demoEnv (listStore replaceSchemas) 5 0 x = some f := by
  rintro x (rfl | ⟨n, hx⟩ | hx | ⟨n, ⟨y, hx⟩, rfl⟩)
  · exact ⟨true, by decide +kernel, by decide +kernel⟩
  · cases hx
  · cases hx
  · cases hx

/-- And for `{"a": 1, "b": "s"}`. -/
example : ∀ x, PartOrSelf (.obj [("a", .num (.int 1)), ("b", .str "s")]) x → ∃ f,
    verdictOf .d2020 demoEnv (listStore replaceSchemas) 5 1 x = some f ∧
    verdictOf .d2020 demoEnv (listStore replaceSchemas) 5 0 x = some f := by
  rintro x (rfl | ⟨n, hx⟩ | hx | ⟨n, ⟨y, hx⟩, rfl⟩)
  · exact ⟨false, by decide +kernel, by decide +kernel⟩
  · simp only [members, List.mem_cons, Prod.mk.injEq, List.not_mem_nil, or_false] at hx
    rcases hx with ⟨_, rfl⟩ | ⟨_, rfl⟩
    · exact ⟨false, by decide +kernel, by decide +kernel⟩
    · exact ⟨true, by decide +kernel, by decide +kernel⟩
  · cases hx
  · simp only [members, List.mem_cons, Prod.mk.injEq, List.not_mem_nil, or_false] at hx
    rcases hx with ⟨rfl, _⟩ | ⟨rfl, _⟩ <;> exact ⟨true, by decide +kernel, by decide +kernel⟩

example : (SchemaObj.obj ([Kw.properties [("a", 1)], .additionalProperties 1, .not_ 1].map
    (substKw fun t => if t = 1 then 0 else t))) = (listStore replaceSchemas).obj 3 := rfl

/-- Not so beside `unevaluatedProperties`: that `{"properties": {"a": true}}` and `true` accept the same does
not make them interchangeable. -/
theorem C106_needed : ∃ (st : Store) (s s' : SRef) (kws : List Kw) (σ : SRef → SRef) (v : Value),
    Written .d2020 st ∧ StaticStore st ∧ st.obj s = .obj kws ∧ st.obj s' = .obj (kws.map (substKw σ)) ∧
    (∀ t, σ t ≠ t → ∀ x, PartOrSelf v x →
      ∃ f, verdictOf .d2020 demoEnv st 5 t x = some f ∧ verdictOf .d2020 demoEnv st 5 (σ t) x = some f) ∧
    v.WF ∧ verdictOf .d2020 demoEnv st 5 s v = some true ∧ verdictOf .d2020 demoEnv st 5 s' v = some false := by
  refine ⟨listStore replaceSchemas, 6, 7, _, fun t => if t = 4 then 5 else t, .obj [("a", .null)],
    written_of (by decide), static_of (by decide), rfl, rfl, ?_, .obj (by decide) (by simp [Value.WF.null]),
    by decide +kernel, by decide +kernel⟩
  intro t ht x hx
  by_cases h4 : t = 4
  · subst h4
    rcases hx with rfl | ⟨n, hx⟩ | hx | ⟨n, ⟨y, hx⟩, rfl⟩
    · exact ⟨true, by decide +kernel, by decide +kernel⟩
    · simp only [members, List.mem_cons, Prod.mk.injEq, List.not_mem_nil, or_false] at hx
      rw [hx.2]
      exact ⟨true, by decide +kernel, by decide +kernel⟩
    · cases hx
    · simp only [members, List.mem_cons, Prod.mk.injEq, List.not_mem_nil, or_false] at hx
      rw [hx.1]
      exact ⟨true, by decide +kernel, by decide +kernel⟩
  · exact absurd (if_neg h4) ht

end Jschon
