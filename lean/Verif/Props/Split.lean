import Verif.Proof.Split
import Verif.Props.Applicators

/-!
# C105: keywords act independently

A schema can be split: its verdict is the conjunction of the verdicts of schemas that share out its
keywords, provided that no keyword takes into account one that went elsewhere (`Spec.Attends`).
`C105_needed` shows that the condition cannot be dropped, `C105_exact` that no line of its table can.
-/

namespace Jschon

open Spec

section
variable {d : Dialect} {st : Store} {env : Env} (hst : Written d st) (hstat : StaticStore st)
  {n m : Nat} {s : SRef} {v : Value} (hw : v.WF) {b : Bool} (h : verdictOf d env st n s v = some b)
  {kws : List Kw} (hs : st.obj s = .obj kws)
include hst hstat hw h hs

/-- A schema whose keywords are distributed over schemas `ts`, such that no keyword attends to one in
another of them, is valid exactly where all of them are. -/
theorem C105_parts {ts : List SRef} {ks : SRef → List Kw} (hobj : ∀ t ∈ ts, st.obj t = .obj (ks t))
    (hall : ∀ kw, kw ∈ kws ↔ ∃ t ∈ ts, kw ∈ ks t)
    (hun : ∀ t ∈ ts, ∀ u ∈ ts, t ≠ u → Unrelated (ks t) (ks u))
    {f : SRef → Bool} (hf : ∀ t ∈ ts, verdictOf d env st m t v = some (f t)) :
    b = true ↔ ∀ t ∈ ts, f t = true := by
  have hsub : ∀ t ∈ ts, ∀ kw ∈ ks t, kw ∈ kws := fun t ht kw hk => (hall kw).2 ⟨t, ht, hk⟩
  have hpart : ∀ t ∈ ts, PartOf (ks t) kws := by
    refine fun t ht a ha b hab => ⟨fun hb => ?_, hsub t ht b⟩
    obtain ⟨u, hu, hbu⟩ := (hall b).1 hb
    by_cases htu : t = u
    · rwa [htu]
    · exact absurd hab (hun t ht u hu htu a ha b hbu).1
  have hone : ∀ t ∈ ts, _ := fun t ht => written_unrolled hst (Nat.le_max_right n m) hw (hobj t ht) (hf t ht)
  rw [written_unrolled hst (Nat.le_max_left n m) hw hs h]
  constructor
  · intro hk t ht
    refine (hone t ht).2 fun kw hkw => ?_
    rw [unrolled_scopeless hst hstat (hobj t ht) (sc' := [s]) hkw, ← obsHolds_part (hpart t ht) (hsub t ht) hkw]
    exact hk kw (hsub t ht kw hkw)
  · intro hv kw hk
    obtain ⟨t, ht, hkw⟩ := (hall kw).1 hk
    rw [obsHolds_part (hpart t ht) (hsub t ht) hkw, unrolled_scopeless hst hstat (hobj t ht) (sc' := [t]) hkw]
    exact (hone t ht).1 (hv t ht) kw hkw

/-- For two schemas. -/
theorem C105_split {t u : SRef} {k1 k2 : List Kw} (ht : st.obj t = .obj k1) (hu : st.obj u = .obj k2)
    (hp : kws.Perm (k1 ++ k2)) (hun : Unrelated k1 k2) {bt bu : Bool}
    (hbt : verdictOf d env st m t v = some bt) (hbu : verdictOf d env st m u v = some bu) :
    b = (bt && bu) := by
  by_cases htu : t = u
  · subst htu
    rw [ht] at hu; cases hu
    rw [hbt] at hbu; cases hbu
    have := C105_parts hst hstat hw h hs (m := m) (ts := [t]) (ks := fun _ => k1) (by simpa using ht)
      (fun kw => by simp [hp.mem_iff]) (by simp) (f := fun _ => bt) (by simpa using hbt)
    simp only [List.forall_mem_singleton] at this
    cases b <;> cases bt <;> simp_all
  · have := C105_parts hst hstat hw h hs (m := m) (ts := [t, u]) (ks := fun x => if x = t then k1 else k2)
      (by simp [ht, hu, Ne.symm htu]) (fun kw => by simp [hp.mem_iff, Ne.symm htu])
      (by
        have hun' : Unrelated k2 k1 := fun a ha b hb => ⟨(hun b hb a ha).2, (hun b hb a ha).1⟩
        simp [htu, Ne.symm htu, hun, hun']) (f := fun x => if x = t then bt else bu)
      (by simp [hbt, hbu, Ne.symm htu])
    simp only [List.forall_mem_cons, if_true, Ne.symm htu, if_false] at this
    cases b <;> cases bt <;> cases bu <;> simp_all

/-- Such parts may be put under `allOf`. -/
theorem C105_allOf {ts : List SRef} {ks : SRef → List Kw} (hobj : ∀ t ∈ ts, st.obj t = .obj (ks t))
    (hall : ∀ kw, kw ∈ kws ↔ ∃ t ∈ ts, kw ∈ ks t)
    (hun : ∀ t ∈ ts, ∀ u ∈ ts, t ≠ u → Unrelated (ks t) (ks u))
    {f : SRef → Bool} (hf : ∀ t ∈ ts, verdictOf d env st m t v = some (f t))
    {a : SRef} (ha : st.obj a = .obj [.allOf ts]) {n' : Nat} {b' : Bool}
    (h' : verdictOf d env st n' a v = some b') : b' = b := by
  have h1 := C105_parts hst hstat hw h hs hobj hall hun hf
  have h2 := C31_allOf hst hstat hw h' ha hf
  exact Bool.eq_iff_iff.2 (h2.trans h1.symm)

/-- A keyword that no other attends to, and that attends to no other, is decisive when it fails by
itself, and may be left out where it passes by itself. -/
theorem C105_one {t u : SRef} {kw : Kw} {rest : List Kw} (ht : st.obj t = .obj [kw])
    (hu : st.obj u = .obj rest) (hp : kws.Perm (kw :: rest))
    (hun : ∀ k ∈ rest, ¬ Attends kw k ∧ ¬ Attends k kw) {bt bu : Bool}
    (hbt : verdictOf d env st m t v = some bt) (hbu : verdictOf d env st m u v = some bu) :
    (bt = false → b = false) ∧ (bt = true → b = bu) := by
  have := C105_split hst hstat hw h hs ht hu (k1 := [kw]) hp
    (fun a ha b hb => by cases List.mem_singleton.1 ha; exact hun b hb) hbt hbu
  subst this
  exact ⟨fun h => by simp [h], fun h => by simp [h]⟩

/-- A schema is at least as strict as some of its keywords by themselves, if these attend to none of the
others (the others may attend to them). -/
theorem C105_stricter {t : SRef} {k1 : List Kw} (ht : st.obj t = .obj k1) (hsub : ∀ kw ∈ k1, kw ∈ kws)
    (hun : ∀ a ∈ k1, ∀ b ∈ kws, b ∉ k1 → ¬ Attends a b) {bt : Bool}
    (hbt : verdictOf d env st m t v = some bt) (hb : b = true) : bt = true := by
  have hpart : PartOf k1 kws := fun a ha b hab =>
    ⟨fun hb => Classical.byContradiction fun hn => hun a ha b hb hn hab, hsub b⟩
  rw [written_unrolled hst (Nat.le_max_left n m) hw hs h] at hb
  refine (written_unrolled hst (Nat.le_max_right n m) hw ht hbt).2 fun kw hkw => ?_
  rw [unrolled_scopeless hst hstat ht (sc' := [s]) hkw, ← obsHolds_part hpart hsub hkw]
  exact hb kw (hsub kw hkw)

end

/-! ### Examples -/

/-- Schemas 0 and 1: `{"type": "string"}`, `{"type": "number"}`.  Schema 2 has four keywords, which 3 and
4 share; 5 puts those under `allOf`.  6 and 7 distribute the keywords of 2 in another way. -/
def splitSchemas : List SchemaObj := [
  .obj [.assert (.type_ ["string"])], .obj [.assert (.type_ ["number"])],
  .obj [.additionalProperties 1, .assert (.minProperties (.int 2)), .properties [("ab", 0)], .propertyNames 0],
  .obj [.properties [("ab", 0)], .additionalProperties 1],
  .obj [.propertyNames 0, .assert (.minProperties (.int 2))],
  .obj [.allOf [3, 4]],
  .obj [.additionalProperties 1],
  .obj [.properties [("ab", 0)], .propertyNames 0, .assert (.minProperties (.int 2))]]

example : Written .d2020 (listStore splitSchemas) ∧ StaticStore (listStore splitSchemas) :=
  ⟨written_of (by decide), static_of (by decide)⟩

example : Unrelated [.properties [("ab", 0)], .additionalProperties 1]
    [.propertyNames 0, .assert (.minProperties (.int 2))] := by
  intro a ha b hb
  simp only [List.mem_cons, List.not_mem_nil, or_false] at ha hb
  rcases ha with rfl | rfl <;> rcases hb with rfl | rfl <;> exact ⟨id, id⟩

/-- On `{"ab": "s", "c": 1}` and on `{"ab": "s"}`. -/
example :
    ([2, 3, 4, 5].map fun s => verdictOf .d2020 demoEnv (listStore splitSchemas) 5 s
      (.obj [("ab", .str "s"), ("c", .num (.int 1))])) = [true, true, true, true].map some ∧
    ([2, 3, 4, 5].map fun s => verdictOf .d2020 demoEnv (listStore splitSchemas) 5 s
      (.obj [("ab", .str "s")])) = [false, true, false, false].map some := by
  decide +kernel

/-- The hypothesis of `C105_stricter` for schemas 7 and 2. -/
example : ∀ a ∈ [Kw.properties [("ab", 0)], .propertyNames 0, .assert (.minProperties (.int 2))],
    ∀ b, ¬ Attends a b := by
  intro a ha b
  simp only [List.mem_cons, List.not_mem_nil, or_false] at ha
  rcases ha with rfl | rfl | rfl <;> cases b <;> exact id

/-- Without the condition the claim would be false: `additionalProperties` attends to `properties`, and
alone it rejects what it accepts beside it. -/
theorem C105_needed : ¬ ∀ (st : Store), Written .d2020 st → StaticStore st → ∀ (s t u : SRef) (kws k1 k2 : List Kw),
    st.obj s = .obj kws → st.obj t = .obj k1 → st.obj u = .obj k2 → kws.Perm (k1 ++ k2) →
    ∀ (v : Value) (n : Nat) (b bt bu : Bool), v.WF → verdictOf .d2020 demoEnv st n s v = some b →
      verdictOf .d2020 demoEnv st n t v = some bt → verdictOf .d2020 demoEnv st n u v = some bu →
      b = (bt && bu) := by
  intro h
  have := h (listStore splitSchemas) (written_of (by decide)) (static_of (by decide)) 2 6 7 _ _ _ rfl rfl rfl
    (.cons _ (.trans (.swap _ _ _) (.cons _ (.swap _ _ _))))
    (.obj [("ab", .str "s"), ("c", .num (.int 1))]) 5 true false true
    (.obj (by decide) (by simp [Value.WF.str, Value.WF.num])) (by decide +kernel) (by decide +kernel) (by decide +kernel)
  cases this

/-- The two keywords, in one schema, can have another verdict than the conjunction of what they have
as schemas of their own. -/
def Interfere (d : Dialect) (a b : Kw) : Prop :=
  ∃ (subs : List SchemaObj) (v : Value) (x y z : Bool),
    let st := listStore (.obj [a, b] :: .obj [a] :: .obj [b] :: subs)
    Written d st ∧ StaticStore st ∧ v.WF ∧ verdictOf d demoEnv st 5 0 v = some x ∧
      verdictOf d demoEnv st 5 1 v = some y ∧ verdictOf d demoEnv st 5 2 v = some z ∧ x ≠ (y && z)

/-- `1` -/
def num1 : Value := .num (.int 1)

/-- `{"a": 1}` -/
def obj1 : Value := .obj [("a", num1)]

/-- `[1]` -/
def arr1 : Value := .arr [num1]

theorem obj1_wf : obj1.WF := .obj (by decide) (by simp [num1, Value.WF.num])
theorem arr1_wf : arr1.WF := .arr (by simp [num1, Value.WF.num])

/-- The table is exact: each line of it is about keywords that do interfere. -/
theorem C105_exact :
    Interfere .d2020 (.then_ 3) (.if_ 4) ∧ Interfere .d2020 (.else_ 3) (.if_ 3) ∧
    Interfere .d2020 (.additionalProperties 3) (.properties [("a", 4)]) ∧
    Interfere .d2020 (.additionalProperties 3) (.patternProperties [("a", 4)]) ∧
    Interfere .d2020 (.items 3) (.prefixItems [4]) ∧
    Interfere .d2020 (.contains 3) (.minContains (.int 0)) ∧
    Interfere .d2020 (.minContains (.int 2)) (.contains 4) ∧
    Interfere .d2020 (.maxContains (.int 0)) (.contains 4) ∧
    Interfere .d2019 (.additionalItems 3) (.items9Array [4]) ∧
    Interfere .d2020 (.unevaluatedProperties 3) (.properties [("a", 4)]) ∧
    Interfere .d2020 (.unevaluatedItems 3) (.contains 4) ∧
    Interfere .d2019 (.unevaluatedItems9 3) (.items9Array [4]) := by
  refine ⟨?_, ?_, ?_, ?_, ?_, ?_, ?_, ?_, ?_, ?_, ?_, ?_⟩
  · exact ⟨[.bool false, .bool true], num1, false, true, true, written_of (by decide), static_of (by decide), .num,
      by decide +kernel, by decide +kernel, by decide +kernel, by decide⟩
  · exact ⟨[.bool false, .bool true], num1, false, true, true, written_of (by decide), static_of (by decide), .num,
      by decide +kernel, by decide +kernel, by decide +kernel, by decide⟩
  · exact ⟨[.bool false, .bool true], obj1, true, false, true, written_of (by decide), static_of (by decide), obj1_wf,
      by decide +kernel, by decide +kernel, by decide +kernel, by decide⟩
  · exact ⟨[.bool false, .bool true], obj1, true, false, true, written_of (by decide), static_of (by decide), obj1_wf,
      by decide +kernel, by decide +kernel, by decide +kernel, by decide⟩
  · exact ⟨[.bool false, .bool true], arr1, true, false, true, written_of (by decide), static_of (by decide), arr1_wf,
      by decide +kernel, by decide +kernel, by decide +kernel, by decide⟩
  · exact ⟨[.bool false, .bool true], arr1, true, false, true, written_of (by decide), static_of (by decide), arr1_wf,
      by decide +kernel, by decide +kernel, by decide +kernel, by decide⟩
  · exact ⟨[.bool false, .bool true], arr1, false, true, true, written_of (by decide), static_of (by decide), arr1_wf,
      by decide +kernel, by decide +kernel, by decide +kernel, by decide⟩
  · exact ⟨[.bool false, .bool true], arr1, false, true, true, written_of (by decide), static_of (by decide), arr1_wf,
      by decide +kernel, by decide +kernel, by decide +kernel, by decide⟩
  · exact ⟨[.bool false, .bool true], (.arr [num1, num1]), false, true, true, written_of (by decide), static_of (by decide), (.arr (by simp [num1, Value.WF.num])),
      by decide +kernel, by decide +kernel, by decide +kernel, by decide⟩
  · exact ⟨[.bool false, .bool true], obj1, true, false, true, written_of (by decide), static_of (by decide), obj1_wf,
      by decide +kernel, by decide +kernel, by decide +kernel, by decide⟩
  · exact ⟨[.bool false, .bool true], arr1, true, false, true, written_of (by decide), static_of (by decide), arr1_wf,
      by decide +kernel, by decide +kernel, by decide +kernel, by decide⟩
  · exact ⟨[.bool false, .bool true], arr1, true, false, true, written_of (by decide), static_of (by decide), arr1_wf,
      by decide +kernel, by decide +kernel, by decide +kernel, by decide⟩

end Jschon
