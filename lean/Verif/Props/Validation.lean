import Verif.Proof.Written

/-!
# C30 and C34: the verdict is that of the JSON Schema specification

`st.ordered` is a store as constructed: the keywords of each schema put in evaluation order.
`Written d st` says that the schemas, as written, have keywords of dialect `d`, each at most once.
-/

namespace Jschon

open Spec

section
variable {d : Dialect} {st : Store} {env : Env} {R : Rules}

/-- C30, for schemas and values for which the points listed in `Spec.Faithful` do not matter: if
evaluation ends, the result is valid iff the specification accepts the value, and invalid iff the
specification rejects it.  References may form any graph.

Missing from the full claim: schemas that are not `Faithful`.  For them the claim is false, see the
theorems below. -/
theorem C30_verdict_partial (hst : Written d st) (hR : Standard R d env (st.ordered (decide (d = .d2019))))
    {s : SRef} {p : List String} {v : Value} (hv : v.WF)
    (hf : Faithful R env (st.ordered (decide (d = .d2019))) s v) {fuel : Nat} {r : RNode}
    (h : evaluate (st.ordered (decide (d = .d2019))) env fuel s ⟨p, v⟩ = some r) :
    (r.valid = true ↔ Accepts R env (st.ordered (decide (d = .d2019))) s v) ∧
    (r.valid = false ↔ Rejects R env (st.ordered (decide (d = .d2019))) s v) := by
  have key : ∀ m, fuel ≤ m → (r.valid = true ↔ (unroll R env _ m).valid [] s v) :=
    fun m hm => evaluate_spec (ordered_ok hst) hR hf hv h hm
  constructor
  · constructor
    · intro hr; exact ⟨fuel, fun m hm => (key m hm).1 hr⟩
    · rintro ⟨n, hn⟩
      exact (key (max fuel n) (Nat.le_max_left _ _)).2 (hn _ (Nat.le_max_right _ _))
  · constructor
    · intro hr; exact ⟨fuel, fun m hm hv => by rw [(key m hm).2 hv] at hr; cases hr⟩
    · rintro ⟨n, hn⟩
      have := mt (key (max fuel n) (Nat.le_max_left _ _)).1 (hn _ (Nat.le_max_right _ _))
      simpa using this

/-- C30, for every schema and value, with the meaning that jschon gives to schemas
(`Spec.obsUnroll`): the verdict is given by a declarative meaning, whatever the order of keywords, the
reference graph and the state of results. -/
theorem C30_observed (hst : Written d st) {s : SRef} {p : List String} {v : Value} (hv : v.WF)
    {fuel : Nat} {r : RNode}
    (h : evaluate (st.ordered (decide (d = .d2019))) env fuel s ⟨p, v⟩ = some r) {m : Nat} (hm : fuel ≤ m) :
    r.valid = true ↔ (obsUnroll (codeRules (st.ordered (decide (d = .d2019))) env d) env
      (st.ordered (decide (d = .d2019))) m).valid [] s v :=
  evaluate_obs (ordered_ok hst) hv h hm

end

/-! ### A recursive schema that meets the hypotheses -/

/-- `{"required": ["value"], "properties": {"value": {"type": "number"}, "children": {"items": {"$ref": "#"}}}}`,
with `properties` written last. -/
def treeSchemas : List SchemaObj := [
  .obj [.assert (.required ["value"]), .properties [("value", 1), ("children", 2)]],
  .obj [.assert (.type_ ["number"])],
  .obj [.items 3],
  .obj [.ref 0]]

/-- `{"value": 1, "children": [{"value": 2}, {"value": last}]}` -/
def treeValue (last : Value) : Value :=
  .obj [("value", .num (.int 1)),
    ("children", .arr [.obj [("value", .num (.int 2))], .obj [("value", last)]])]

example : Written .d2020 (listStore treeSchemas) := written_of (by decide)

example : ∃ R, Standard R .d2020 demoEnv ((listStore treeSchemas).ordered false) :=
  standard_exists _ _ _

example (R : Rules) (v : Value) : Faithful R demoEnv ((listStore treeSchemas).ordered false) 0 v :=
  faithful_plain (listStore_all (d := .d2020) (written_of (by decide)) (by
    simp [allKws, treeSchemas, PlainKw]))

example : (evaluate ((listStore treeSchemas).ordered false) demoEnv 10 0 ⟨[], treeValue (.num (.int 3))⟩).map RNode.valid
    = some true := by decide +kernel

example : (evaluate ((listStore treeSchemas).ordered false) demoEnv 10 0 ⟨[], treeValue (.str "x")⟩).map RNode.valid
    = some false := by decide +kernel

/-! ### C34 -/

section
variable {d : Dialect} {st : Store} {env : Env} {R : Rules}

/-- C34, for schemas and values for which the points listed in `Spec.Faithful` do not matter: with
`M` the meaning of subschemas according to the specification (unrolled far enough), the result is
valid iff the other keywords hold, and the subschema of `unevaluatedProperties` (`unevaluatedItems`)
accepts every member (item) that no keyword of the schema evaluates; in-place applicators evaluate
what those of their subschemas evaluate that accept the instance (`Spec.KwEv`).

Missing: schemas that are not `Faithful`, for which it is false (`C34_not_leak`). -/
theorem C34_unevaluated_partial (hst : Written d st)
    (hR : Standard R d env (st.ordered (decide (d = .d2019))))
    {s : SRef} {kws : List Kw} (hs : st.obj s = .obj kws) {p : List String} {v : Value} (hv : v.WF)
    (hf : Faithful R env (st.ordered (decide (d = .d2019))) s v) {fuel : Nat} {r : RNode}
    (h : evaluate (st.ordered (decide (d = .d2019))) env fuel s ⟨p, v⟩ = some r) {m : Nat} (hm : fuel ≤ m + 1)
    {M : Meaning} (hM : M = unroll R env (st.ordered (decide (d = .d2019))) m) :
    r.valid = true ↔
      (∀ kw ∈ kws, ¬ IsUneval kw → KwHolds R env M [s] kws v kw) ∧
      (∀ t, .unevaluatedProperties t ∈ kws → ∀ n x, (n, x) ∈ members v →
        (¬ ∃ kw ∈ kws, KwEv R env M [s] kws v kw (.name n)) → M.valid [s] t x) ∧
      (∀ t, (.unevaluatedItems t ∈ kws ∨ .unevaluatedItems9 t ∈ kws) →
        ∀ (k : Nat) x, (elems v)[k]? = some x →
        (¬ ∃ kw ∈ kws, KwEv R env M [s] kws v kw (.item k)) → M.valid [s] t x) := by
  have key := evaluate_spec (ordered_ok hst) hR hf hv h hm
  obtain ⟨out, h1, h2, _⟩ := ordered_obj hst hs
  simp only [unroll, step, h1, ← hM] at key
  rw [key]
  have hsame : SameKws out kws := fun kw _ => h2.mem_iff
  have hev : ∀ pt, (∃ kw ∈ out, KwEv R env M [s] out v kw pt) ↔ ∃ kw ∈ kws, KwEv R env M [s] kws v kw pt := by
    intro pt
    refine exists_congr fun kw => ?_
    rw [h2.mem_iff, kwEv_same hsame]
  have hkw : ∀ kw, ¬ IsUneval kw → (KwHolds R env M [s] out v kw ↔ KwHolds R env M [s] kws v kw) := by
    intro kw hu
    exact iff_of_eq (kwHolds_same hsame hu)
  constructor
  · intro hall
    refine ⟨fun kw hk hu => (hkw kw hu).1 (hall kw (h2.mem_iff.2 hk)), fun t ht n x hx hn => ?_,
      fun t ht k x hx hn => ?_⟩
    · have := hall _ (h2.mem_iff.2 ht)
      simp only [KwHolds] at this
      exact this n x hx (by rwa [hev])
    · rcases ht with ht | ht
      all_goals
        have := hall _ (h2.mem_iff.2 ht)
        simp only [KwHolds] at this
        exact this k x hx (by rwa [hev])
  · rintro ⟨ha, hp, hi⟩ kw hk
    have hk' := h2.mem_iff.1 hk
    cases kw
    case unevaluatedProperties t =>
      simp only [KwHolds, hev]; exact hp t hk'
    case unevaluatedItems t =>
      simp only [KwHolds, hev]; exact hi t (.inl hk')
    case unevaluatedItems9 t =>
      simp only [KwHolds, hev]; exact hi t (.inr hk')
    all_goals exact (hkw _ id).2 (ha _ hk' id)

/-- Next to `properties` and `patternProperties` only, `unevaluatedProperties` applies to the members
that they do not name, whatever the subschemas are. -/
theorem C34_adjacent (hst : Written d st) (hstat : StaticStore st) {n m : Nat} {s : SRef} {v : Value}
    (hw : v.WF) {b : Bool} (h : verdictOf d env st n s v = some b) {kws : List Kw}
    {ps qs : List (String × SRef)} {a : SRef} (hs : st.obj s = .obj kws)
    (hk : kws.Perm [.properties ps, .patternProperties qs, .unevaluatedProperties a])
    {f : SRef → String → Bool}
    (hf : ∀ t name x, (name, x) ∈ members v → verdictOf d env st m t x = some (f t name)) :
    b = true ↔ ∀ name, HasMember v name →
      (∀ t, (name, t) ∈ ps → f t name = true) ∧
      (∀ re t, (re, t) ∈ qs → env.search re name = true → f t name = true) ∧
      ((∀ t, (name, t) ∉ ps) → (∀ re t, (re, t) ∈ qs → env.search re name = false) → f a name = true) := by
  obtain ⟨M, hM, hb⟩ := written_step hst hstat m hw hs h
  have hM' : ∀ t name x, (name, x) ∈ members v → (M.valid [s] t x ↔ f t name = true) :=
    fun t name x hx => hM _ _ _ (members_wf hw _ hx) (hf _ _ _ hx) _
  simp only [hk.mem_iff, List.mem_cons, List.not_mem_nil, or_false, forall_eq_or_imp, forall_eq, ObsHolds,
    exists_eq_or_imp, exists_eq_left, ObsEv, or_false] at hb
  rw [hb]
  simp only [KwHolds]
  constructor
  · rintro ⟨h1, h2, h3⟩ name ⟨x, hx⟩
    refine ⟨fun t ht => (hM' _ _ _ hx).1 (h1 _ _ _ ht hx), fun re t ht hse => ?_, fun hp hq => ?_⟩
    · exact (hM' _ _ _ hx).1 (h2 _ _ _ _ ht hx hse)
    · refine (hM' _ _ _ hx).1 (h3 _ _ hx ?_)
      rintro (⟨_, t, ht⟩ | ⟨_, re, t, ht, hse⟩)
      · exact hp t ht
      · rw [hq re t ht] at hse; cases hse
  · intro h1
    have hp : ∀ n t x, (n, t) ∈ ps → (n, x) ∈ members v → M.valid [s] t x :=
      fun name t x ht hx => (hM' _ _ _ hx).2 ((h1 name ⟨x, hx⟩).1 t ht)
    have hq : ∀ re t n x, (re, t) ∈ qs → (n, x) ∈ members v → env.search re n = true → M.valid [s] t x :=
      fun re t name x ht hx hse => (hM' _ _ _ hx).2 ((h1 name ⟨x, hx⟩).2.1 re t ht hse)
    refine ⟨hp, hq, fun name x hx hn => (hM' _ _ _ hx).2 ((h1 name ⟨x, hx⟩).2.2 ?_ ?_)⟩
    · intro t ht; exact hn (.inl ⟨hp, t, ht⟩)
    · intro re t ht
      cases hse : env.search re name
      · rfl
      · exact absurd (.inr ⟨hq, re, t, ht, hse⟩) hn

end

/-- `{"unevaluatedProperties": false, "allOf": [{"properties": {"a": true}}],
"anyOf": [{"properties": {"b": true}, "required": ["c"]}, {"properties": {"d": true}}]}` -/
def unevalSchemas : List SchemaObj := [
  .obj [.unevaluatedProperties 4, .allOf [1], .anyOf [2, 3]],
  .obj [.properties [("a", 5)]], .obj [.properties [("b", 5)], .assert (.required ["c"])],
  .obj [.properties [("d", 5)]], .bool false, .bool true]

example : Written .d2020 (listStore unevalSchemas) := written_of (by decide)

example (R : Rules) (v : Value) : Faithful R demoEnv ((listStore unevalSchemas).ordered false) 0 v :=
  faithful_positive (listStore_all (d := .d2020) (written_of (by decide)) (by
    simp [allKws, unevalSchemas, PositiveKw]))

/-- `{"a": 1, "d": 1}` is accepted; `{"a": 1, "b": 1}` is not, because the subschema with `b` fails. -/
example : (verdictOf .d2020 demoEnv (listStore unevalSchemas) 5 0 (.obj [("a", .null), ("d", .null)]),
    verdictOf .d2020 demoEnv (listStore unevalSchemas) 5 0 (.obj [("a", .null), ("b", .null)])) =
    (some true, some false) := by decide +kernel

/-! ### Where the verdict differs from the specification -/

/-- `{"not": {"properties": {"a": true}, "required": ["b"]}, "unevaluatedProperties": false}` -/
def leakSchemas : List SchemaObj := [
  .obj [.not_ 1, .unevaluatedProperties 2],
  .obj [.properties [("a", 3)], .assert (.required ["b"])], .bool false, .bool true]

/-- The annotation of `properties` under `not` counts although the subschema fails: `{"a": 1}` is
accepted.  By the specification `a` is not evaluated, and the value is rejected. -/
theorem C30_not_leak :
    verdictOf .d2020 demoEnv (listStore leakSchemas) 5 0 (.obj [("a", .num (.int 1))]) = some true ∧
    ∀ R, Rejects R demoEnv ((listStore leakSchemas).ordered false) 0 (.obj [("a", .num (.int 1))]) := by
  refine ⟨by decide +kernel, fun R => ⟨2, fun m hm => ?_⟩⟩
  obtain ⟨k, rfl⟩ : ∃ k, m = k + 2 := ⟨m - 2, by omega⟩
  have h0 : ((listStore leakSchemas).ordered false).obj 0 = .obj [.not_ 1, .unevaluatedProperties 2] := by
    rfl
  have h2 : ((listStore leakSchemas).ordered false).obj 2 = .bool false := rfl
  intro hv
  simp only [unroll, step, h0] at hv
  have := hv (.unevaluatedProperties 2) (by simp)
  simp only [KwHolds] at this
  have := this "a" (.num (.int 1)) (by simp [members]) (by simp [KwEv])
  simp [h2] at this

theorem C34_not_leak : ∃ (st : Store) (s : SRef) (v : Value), Written .d2020 st ∧
    verdictOf .d2020 demoEnv st 5 s v = some true ∧ ∀ R, Rejects R demoEnv (st.ordered false) s v :=
  ⟨_, _, _, written_of (by decide), C30_not_leak⟩

end Jschon
