import Verif.Proof.Gather
import Verif.Proof.Demo

/-!
# C88: which annotations and errors an evaluation gathers
-/

namespace Jschon

open Spec

section
variable {d : Dialect} {st : Store} {env : Env} {n : Nat} {s : SRef} {i : Inst} {r : RNode}

/-- The meaning that jschon gives to schemas, however deep they go. -/
def observed (d : Dialect) (st : Store) (env : Env) : Meaning := settled (obsUnroll (codeRules st env d) env st)

variable (hstore : StoreOk d st) (hw : i.value.WF) (h : evaluate st env n s i = some r)

include hstore hw h

/-- The verdict is that of the meaning in terms of which the rest is said. -/
theorem C88_verdict : r.info.valid = true ↔ (observed d st env).valid [] s i.value :=
  ((settled_ok hstore n).sim [s] [] s i _ _ (.dup (.cons .nil)) hw ⟨rfl, rfl, rfl, rfl⟩ (fun e he => by cases he) h).1

theorem gathers_root {v : Bool} (hd : PlainItems st ∨ v = true) :
    (∀ x ∈ reachedOf v r.children, told v x.info ≠ none → ∃ m,
      Emits (codeRules st env d) env st (observed d st env) (v = true) [] s i.value m ∧
        Mirrors d st env (observed d st env) i m x.info) ∧
    (∀ m, Emits (codeRules st env d) env st (observed d st env) (v = true) [] s i.value m →
      ∃ x ∈ reachedOf v r.children, Mirrors d st env (observed d st env) i m x.info) :=
  evalSchema_gathers hstore hd n [s] [] s i _ r _ (.dup (.cons .nil)) hw ⟨rfl, rfl, rfl, rfl⟩
    (fun e he => by cases he) h rfl

theorem root_key : r.info.key = none := by
  rw [(evalSchema_frame h).eq]; rfl

omit hstore hw h in
theorem told_of_not_null {v : Bool} {info : RInfo} {a : Value} (ha : a ≠ .null) :
    told v info = some a ↔ saying v info = a := by
  rw [told]
  split
  · rename_i hs
    rw [hs]; exact ⟨fun h => (by cases h), fun h => absurd h.symm ha⟩
  · simp

omit hstore hw h in
theorem told_not_null {v : Bool} {info : RInfo} {a : Value} (h : told v info = some a) :
    saying v info = a ∧ a ≠ .null := by
  rw [told] at h
  split at h
  · cases h
  · rename_i hs; cases h; exact ⟨rfl, hs⟩

/-- Every result with something to say, reached through valid results, is that of a keyword or of a labelled
subschema that the specification gathers: its name, its place in the instance, its schema, its annotation and
its error are as the specification says; and every one that the specification gathers has such a result. -/
theorem C88_valid_results (hv : r.info.valid = true) :
    (∀ x ∈ reached true r, x.info.key ≠ none → told true x.info ≠ none → ∃ m,
      Emits (codeRules st env d) env st (observed d st env) True [] s i.value m ∧
        Mirrors d st env (observed d st env) i m x.info) ∧
    (∀ m, Emits (codeRules st env d) env st (observed d st env) True [] s i.value m →
      ∃ x ∈ reached true r, Mirrors d st env (observed d st env) i m x.info) := by
  obtain ⟨h1, h2⟩ := gathers_root (v := true) hstore hw h (.inr rfl)
  have hk := root_key hstore hw h
  rw [eq_self] at h1 h2
  constructor
  · intro x hx hkey ht
    rcases (reached_cases.1 hx).2 with rfl | hx
    · exact absurd hk hkey
    · exact h1 x hx ht
  · intro m hm
    obtain ⟨x, hx, hf⟩ := h2 m hm
    exact ⟨x, reached_cases.2 ⟨hv, .inr hx⟩, hf⟩

/-- An annotation is collected for a place and a name iff it is the annotation of something the specification
gathers there under that name. -/
theorem C88_annotations (hv : r.info.valid = true) (p : List String) (k : String) :
    (∀ a ∈ r.annotations (some (i.path ++ p)) (some k), ∃ m e,
      Emits (codeRules st env d) env st (observed d st env) True [] s i.value m ∧ m.place = p ∧
        m.source.name = k ∧ m.Carries (codeRules st env d) env st (observed d st env) a e ∧ a ≠ .null) ∧
    (∀ m, Emits (codeRules st env d) env st (observed d st env) True [] s i.value m → m.place = p →
      m.source.name = k → ∃ a e, m.Carries (codeRules st env d) env st (observed d st env) a e ∧
        (a ≠ .null → a ∈ r.annotations (some (i.path ++ p)) (some k))) := by
  obtain ⟨h1, h2⟩ := C88_valid_results hstore hw h hv
  rw [C87_annotations h]
  constructor
  · intro a ha
    obtain ⟨x, hx, hax⟩ := List.mem_filterMap.1 ha
    split at hax
    · rename_i hask
      obtain ⟨hs, hn⟩ := told_not_null hax
      have hk := hask.1 k rfl
      obtain ⟨m, hm, f1, f2, f3, f4⟩ := h1 x hx (by rw [hk]; intro h; cases h) (by rw [hax]; intro h; cases h)
      refine ⟨m, x.info.error, hm, ?_, ?_, ?_, hn⟩
      · have := hask.2 _ rfl
        rw [f2] at this
        exact List.append_cancel_left this
      · rw [hk] at f1
        exact (Option.some.inj f1).symm
      · rw [← hs]; exact f4
    · cases hax
  · rintro m hm rfl rfl
    obtain ⟨x, hx, f1, f2, f3, f4⟩ := h2 m hm
    refine ⟨_, _, f4, fun hn => List.mem_filterMap.2 ⟨x, hx, ?_⟩⟩
    rw [if_pos ⟨fun k hk => by cases hk; exact f1, fun p hp => by cases hp; rw [f2]⟩]
    exact (told_of_not_null hn).2 rfl

/-- Every result with something to say, reached through invalid results, is that of a keyword or of a labelled
subschema that the specification gathers, and conversely; for the 2020-12 dialect, and for 2019-09 if the schema of `items` is an array or a boolean. -/
theorem C88_invalid_results_partial (hd : PlainItems st) (hv : r.info.valid = false) :
    (∀ x ∈ reached false r, x.info.key ≠ none → told false x.info ≠ none → ∃ m,
      Emits (codeRules st env d) env st (observed d st env) False [] s i.value m ∧
        Mirrors d st env (observed d st env) i m x.info) ∧
    (∀ m, Emits (codeRules st env d) env st (observed d st env) False [] s i.value m →
      ∃ x ∈ reached false r, Mirrors d st env (observed d st env) i m x.info) := by
  obtain ⟨h1, h2⟩ := gathers_root (v := false) hstore hw h (.inl hd)
  have hk := root_key hstore hw h
  simp only [Bool.false_eq_true] at h1 h2
  constructor
  · intro x hx hkey ht
    rcases (reached_cases.1 hx).2 with rfl | hx
    · exact absurd hk hkey
    · exact h1 x hx ht
  · intro m hm
    obtain ⟨x, hx, hf⟩ := h2 m hm
    exact ⟨x, reached_cases.2 ⟨hv, .inr hx⟩, hf⟩

/-- An error is collected for a place and a name iff it is the error of something the specification gathers there
under that name.  This is for the 2020-12 dialect (`C88_2020`), and for 2019-09 if the schema of `items` is an array
or a boolean; else there may be more errors (`C88_spurious`). -/
theorem C88_errors_partial (hd : PlainItems st) (hv : r.info.valid = false) (p : List String) (k : String) :
    (∀ e ∈ r.errors (some (i.path ++ p)) (some k), ∃ m a,
      Emits (codeRules st env d) env st (observed d st env) False [] s i.value m ∧ m.place = p ∧
        m.source.name = k ∧ m.Carries (codeRules st env d) env st (observed d st env) a e ∧ e ≠ .null) ∧
    (∀ m, Emits (codeRules st env d) env st (observed d st env) False [] s i.value m → m.place = p →
      m.source.name = k → ∃ a e, m.Carries (codeRules st env d) env st (observed d st env) a e ∧
        (e ≠ .null → e ∈ r.errors (some (i.path ++ p)) (some k))) := by
  obtain ⟨h1, h2⟩ := C88_invalid_results_partial hstore hw h hd hv
  rw [C87_errors h]
  constructor
  · intro a ha
    obtain ⟨x, hx, hax⟩ := List.mem_filterMap.1 ha
    split at hax
    · rename_i hask
      obtain ⟨hs, hn⟩ := told_not_null hax
      have hk := hask.1 k rfl
      obtain ⟨m, hm, f1, f2, f3, f4⟩ := h1 x hx (by rw [hk]; intro h; cases h) (by rw [hax]; intro h; cases h)
      refine ⟨m, x.info.annotation, hm, ?_, ?_, ?_, hn⟩
      · have := hask.2 _ rfl
        rw [f2] at this
        exact List.append_cancel_left this
      · rw [hk] at f1
        exact (Option.some.inj f1).symm
      · rw [← hs]; exact f4
    · cases hax
  · rintro m hm rfl rfl
    obtain ⟨x, hx, f1, f2, f3, f4⟩ := h2 m hm
    refine ⟨_, _, f4, fun hn => List.mem_filterMap.2 ⟨x, hx, ?_⟩⟩
    rw [if_pos ⟨fun k hk => by cases hk; exact f1, fun p hp => by cases hp; rw [f2]⟩]
    exact (told_of_not_null hn).2 rfl

omit hw h in
/-- The condition holds of every store of the 2020-12 dialect. -/
theorem C88_2020 (hd : d = .d2020) : PlainItems st := by subst hd; exact plainItems_2020 hstore

omit hstore hw

/-- An invalid result has no annotations, and a valid one no errors. -/
theorem C88_other (path : Option (List String)) (key : Option String) :
    (r.info.valid = false → r.annotations path key = []) ∧ (r.info.valid = true → r.errors path key = []) := by
  constructor
  · intro hv
    rw [C87_annotations h]
    cases r; simp only [RNode.info_mk] at hv; simp [reached, hv]
  · intro hv
    rw [C87_errors h]
    cases r; simp only [RNode.info_mk] at hv; simp [reached, hv]

end

/-! ## Cases -/

/-- `{"anyOf": [{"properties": {"a": {"title": "t"}}}, {"title": "u", "const": 1}], "additionalProperties": {"default": 0}}`. -/
def tracesStore : Store := listStore [
  .obj [.anyOf [1, 3], .additionalProperties 4],
  .obj [.properties [("a", 2)]],
  .obj [.annot "title" false (.str "t")],
  .obj [.annot "title" false (.str "u"), .assert (.const (.num (.int 1)))],
  .obj [.annot "default" false (.num (.int 0))]]

/-- `{"a": null, "b": null}`. -/
def tracesInst : Inst := ⟨[], .obj [("a", .null), ("b", .null)]⟩

theorem tracesStore_ok : StoreOk .d2020 tracesStore := listStore_ok (by
  intro kws hk
  simp only [List.mem_cons, SchemaObj.obj.injEq, List.not_mem_nil, or_false] at hk
  rcases hk with rfl | rfl | rfl | rfl | rfl <;>
    exact kwsOk_of (by decide) (by simp [Kw.Ok, Assertion.WF, Value.WF.num, dkeys] <;> decide) (by decide))

example : tracesInst.value.WF := by
  refine .obj (by decide) (fun p hp => ?_)
  simp only [List.mem_cons, List.not_mem_nil, or_false] at hp
  rcases hp with rfl | rfl <;> exact .null

/-- The title at `/a` is found through a subschema; that of the second subschema is not, as it is invalid. -/
example : (evaluate tracesStore demoEnv 4 0 tracesInst).map (fun r => (r.info.valid,
    (r.annotations (some ["a"]) (some "title")).map (fun | .str a => a | _ => ""),
    (r.annotations (some []) (some "title")).length,
    (r.annotations (some ["b"]) (some "default")).length)) = some (true, ["t"], 0, 1) := by decide +kernel

/-- `{"additionalProperties": false, "allOf": [false]}`: the error of `additionalProperties` is at the top, and the first
subschema of `allOf` has one with its label. -/
example : (evaluate (listStore [.obj [.additionalProperties 1, .allOf [1]], .bool false]) demoEnv 3 0 tracesInst).map
    (fun r => (r.info.valid, (r.errors (some []) (some "additionalProperties")).length,
      (r.errors (some ["b"]) (some "additionalProperties")).length, (r.errors (some []) (some "0")).length)) =
    some (false, 1, 0, 1) := by decide +kernel

/-- With the 2019-09 dialect, the schemas of `{"items": [{"type": "string"}], "additionalItems": false}`. -/
def tupleStore : Store := listStore [
  .obj [.items9Array [1], .additionalItems 2],
  .obj [.assert (.type_ ["string"])],
  .bool false]

example : StoreOk .d2019 tupleStore ∧ PlainItems tupleStore := by
  constructor
  · refine listStore_ok (by
      intro kws hk
      simp only [List.mem_cons, SchemaObj.obj.injEq, List.not_mem_nil, or_false, reduceCtorEq] at hk
      rcases hk with rfl | rfl <;>
        exact kwsOk_of (by decide) (by simp [Kw.Ok, Assertion.WF, dkeys]) (by decide))
  · intro s kws t hs ht
    simp only [tupleStore, listStore, List.getD] at hs
    rcases s with _ | _ | _ | s <;> simp at hs <;> subst hs <;> simp at ht

/-- Of `["a", 1]`, the item beyond the first is reported. -/
example : (evaluate tupleStore demoEnv 3 0 ⟨[], .arr [.str "a", .num (.int 1)]⟩).map (fun r => (r.info.valid,
    (r.errors (some []) (some "additionalItems")).length)) = some (false, 1) := by decide +kernel

/-- With the 2019-09 dialect, the schemas of
`{"items": {"properties": {"a": {"type": "integer"}}, "unevaluatedProperties": false}}`. -/
def spuriousStore : Store := listStore [
  .obj [.items9 1],
  .obj [.properties [("a", 2)], .unevaluatedProperties 3],
  .obj [.assert (.type_ ["integer"])],
  .bool false]

/-- `[{"a": "x"}, {"a": 1}]`. -/
def spuriousInst : Inst := ⟨[], .arr [.obj [("a", .str "x")], .obj [("a", .num (.int 1))]]⟩

example : StoreOk .d2019 spuriousStore := listStore_ok (by
  intro kws hk
  simp only [List.mem_cons, SchemaObj.obj.injEq, List.not_mem_nil, or_false, reduceCtorEq] at hk
  rcases hk with rfl | rfl | rfl <;>
    exact kwsOk_of (by decide) (by simp [Kw.Ok, Assertion.WF, dkeys]) (by decide))

/-- With 2019-09, once an item has failed, `unevaluatedProperties` sees nothing evaluated in the items after it, and
reports an error for an item that satisfies the schema. -/
theorem C88_spurious :
    (evaluate spuriousStore demoEnv 5 0 spuriousInst).map (fun r => (r.info.valid,
      (r.errors (some ["1"]) (some "unevaluatedProperties")).length)) = some (false, 1) ∧
    (evaluate spuriousStore demoEnv 4 1 ⟨["1"], .obj [("a", .num (.int 1))]⟩).map (fun r => r.info.valid) =
      some true := by
  constructor <;> decide +kernel

end Jschon
