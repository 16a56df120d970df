import Verif.Proof.Written
import Verif.Proof.Halt

/-!
# C35 to C42: keywords by themselves, order, irrelevant keywords, termination
-/

namespace Jschon

open Spec

section
variable {d : Dialect} {st : Store} {env : Env}

/-! ### C35 -/

/-- An assertion keyword other than `multipleOf` decides its definition (`Spec.AssertHolds`, where
`mult` occurs only for `multipleOf`). -/
theorem C35_assertions (hst : Written d st) (hstat : StaticStore st) {n : Nat} {s : SRef} {a : Assertion}
    (hs : st.obj s = .obj [.assert a]) (ha : ∀ m, a ≠ .multipleOf m) {v : Value} (hw : v.WF) {b : Bool}
    (h : verdictOf d env st n s v = some b) (mult : Num → Num → Prop) :
    b = true ↔ AssertHolds env mult a v := by
  obtain ⟨M, _, hb⟩ := written_step hst hstat 0 hw hs h
  rw [hb, List.forall_mem_singleton]
  simp only [ObsHolds, KwHolds]
  cases a
  case multipleOf m => exact absurd rfl (ha m)
  all_goals exact Iff.rfl

/-! ### C42 -/

theorem C42_uniqueItems (hst : Written d st) (hstat : StaticStore st) {n : Nat} {s : SRef}
    (hs : st.obj s = .obj [.assert (.uniqueItems true)]) {xs : List Value} (hw : (Value.arr xs).WF) {b : Bool}
    (h : verdictOf d env st n s (.arr xs) = some b) :
    b = true ↔ ∀ (j k : Nat) x y, j < k → xs[j]? = some x → xs[k]? = some y → ¬ Same x y := by
  rw [C35_assertions hst hstat hs (by intro m h; cases h) hw h (fun _ _ => True)]
  simp only [AssertHolds, Value.arr.injEq]
  exact ⟨fun h => h trivial xs rfl, fun h _ _ he => he ▸ h⟩

/-! ### C41 -/

/-- What `multipleOf` computes, for a divisor that is not zero: the instance is an integer multiple,
and the quotient has at most 28 digits before the point. -/
theorem C41_exact (hst : Written d st) (hstat : StaticStore st) {n : Nat} {s : SRef} {k m : Num}
    (hs : st.obj s = .obj [.assert (.multipleOf m)]) (hm : asWritten env.dec m ≠ 0) {b : Bool}
    (h : verdictOf d env st n s (.num k) = some b) :
    b = true ↔ IsMultiple env.dec k m ∧ asWritten env.dec k / asWritten env.dec m < 10 ^ 28 ∧
      -(10 ^ 28) < asWritten env.dec k / asWritten env.dec m := by
  obtain ⟨M, _, hb⟩ := written_step hst hstat 0 .num hs h
  rw [hb, List.forall_mem_singleton]
  simp only [ObsHolds, KwHolds, AssertHolds, codeRules, Value.num.injEq, forall_eq', IsMultiple,
    asWritten_decimal] at hm ⊢
  exact decimalMultiple_iff hm

/-- C41, for quotients of at most 28 digits before the point.  Missing: larger quotients, for which
the claim is false (`C41_large_quotient`). -/
theorem C41_multipleOf_partial (hst : Written d st) (hstat : StaticStore st) {n : Nat} {s : SRef} {k m : Num}
    (hs : st.obj s = .obj [.assert (.multipleOf m)]) (hq : SmallQuotient env.dec k m) {b : Bool}
    (h : verdictOf d env st n s (.num k) = some b) : b = true ↔ IsMultiple env.dec k m := by
  obtain ⟨M, _, hb⟩ := written_step hst hstat 0 .num hs h
  rw [hb, List.forall_mem_singleton]
  simp only [ObsHolds, KwHolds, AssertHolds, codeRules, Value.num.injEq, forall_eq']
  exact codeMult_iff hq

/-! ### C36 -/

theorem Spec.Permuted.same {st st' : Store} (hp : Permuted st st') : SameStore st st' :=
  ⟨hp.base, hp.lookup, hp.bool, fun s kws kws' h h' _ _ => (hp.obj s kws kws' h h').mem_iff.symm⟩

theorem Spec.Permuted.written {st st' : Store} (hp : Permuted st st') (h : Written d st) : Written d st' := by
  intro s kws' hs
  cases ho : st.obj s with
  | bool b => rw [(hp.bool s b).1 ho] at hs; cases hs
  | obj kws =>
    have := hp.obj s kws kws' ho hs
    exact ⟨(this.map Kw.key).nodup_iff.2 (h s kws ho).1, fun kw hkw => (h s kws ho).2 kw (this.mem_iff.1 hkw)⟩

/-- Permuting the keywords of any schema objects does not change a verdict. -/
theorem C36_order (hst : Written d st) {st' : Store} (hp : Permuted st st') {n n' : Nat} {s : SRef}
    {v : Value} (hw : v.WF) {b b' : Bool} (h : verdictOf d env st n s v = some b)
    (h' : verdictOf d env st' n' s v = some b') : b = b' := by
  obtain ⟨r, hr, rfl⟩ := verdict_some h
  obtain ⟨r', hr', rfl⟩ := verdict_some h'
  have hst' := hp.written hst
  exact verdict_same (ordered_ok hst) (ordered_ok hst') (ordered_same hst hst' hp.same) hw rfl hr hr'

/-! ### C37 -/

/-- Adding, removing or changing keywords that have no say (`Spec.Neutral`: unknown keywords,
annotations, `$comment`, `$defs` and other static keywords except the anchors that dynamic references
look for, and `format` without a validator) in any schema objects does not change a verdict. -/
theorem C37_neutral (hst : Written d st) {st' : Store} (hst' : Written d st') (hp : SameStore st st')
    {n n' : Nat} {s : SRef} {v : Value} (hw : v.WF) {b b' : Bool}
    (h : verdictOf d env st n s v = some b) (h' : verdictOf d env st' n' s v = some b') : b = b' := by
  obtain ⟨r, hr, rfl⟩ := verdict_some h
  obtain ⟨r', hr', rfl⟩ := verdict_some h'
  exact verdict_same (ordered_ok hst) (ordered_ok hst') (ordered_same hst hst' hp) hw rfl hr hr'

/-- `format` asserts iff its attribute was enabled, and then only about instances of the validator's
types. -/
theorem C37_format (hst : Written d st) (hstat : StaticStore st) {n : Nat} {s : SRef} {attr : String}
    {enabled : Bool} (hs : st.obj s = .obj [.format attr enabled]) {v : Value} (hw : v.WF) {b : Bool}
    (h : verdictOf d env st n s v = some b) :
    b = false ↔ enabled = true ∧ v.type ∈ env.fmtTypes attr ∧ env.fmtOk attr v = false := by
  obtain ⟨M, _, hb⟩ := written_step hst hstat 0 hw hs h
  rw [List.forall_mem_singleton] at hb
  simp only [ObsHolds, KwHolds] at hb
  rw [← Bool.not_eq_true, hb]
  constructor
  · intro hn
    simp only [Classical.not_imp] at hn
    exact ⟨hn.1, hn.2.1, by simpa using hn.2.2⟩
  · rintro ⟨h1, h2, h3⟩ hall
    rw [hall h1 h2] at h3; cases h3

/-! ### C38 -/

/-- A keyword that constrains one type accepts every value of another type. -/
theorem C38_other_types (hst : Written d st) {s : SRef} {kw : Kw} (hs : st.obj s = .obj [kw]) {τ : JType}
    (hk : constrains kw = some τ) {v : Value} (hv : v.type ≠ τ) (fuel : Nat) :
    verdictOf d env st (fuel + 1) s v = some true := by
  have ht : kw.types.contains v.type = false := by
    cases kw
    case assert a => cases a <;> cases hk <;> cases v <;> first | rfl | exact absurd rfl hv
    all_goals cases hk <;> cases v <;> first | rfl | exact absurd rfl hv
  have ho : (st.ordered (decide (d = .d2019))).obj s = .obj [kw] := by
    obtain ⟨out, h1, h2, _⟩ := ordered_obj hst hs
    rw [h1, List.perm_singleton.1 h2]
  simp only [verdictOf, verdict, evaluate, evalSchema, evalBody, ho, kwLoop, ht]
  rfl

/-! ### C39 -/

theorem C39_true {s : SRef} (hs : st.obj s = .bool true) (v : Value) (fuel : Nat) :
    verdictOf d env st (fuel + 1) s v = some true := by
  simp [verdictOf, verdict, evaluate, evalSchema, evalBody, Store.ordered, hs, RNode.root, RNode.valid,
    RNode.info]

theorem C39_empty {s : SRef} (hs : st.obj s = .obj []) (v : Value) (fuel : Nat) :
    verdictOf d env st (fuel + 1) s v = some true := by
  simp [verdictOf, verdict, evaluate, evalSchema, evalBody, Store.ordered, hs, RNode.root, RNode.valid,
    RNode.info, resolveDependencies, resolveLoop, kwLoop, RNode.children]

theorem C39_false {s : SRef} (hs : st.obj s = .bool false) (v : Value) (fuel : Nat) :
    verdictOf d env st (fuel + 1) s v = some false := by
  simp [verdictOf, verdict, evaluate, evalSchema, evalBody, Store.ordered, hs, RNode.root, RNode.valid,
    RNode.info, RNode.fail]

/-! ### C40 -/

/-- If evaluation ends, it has a single outcome. -/
theorem C40_deterministic {n n' : Nat} {s : SRef} {i : Inst} {r r' : RNode}
    (h : evaluate st env n s i = some r) (h' : evaluate st env n' s i = some r') : r = r' :=
  evaluate_det h h'

/-- Evaluation ends on every value if references do not form a cycle of in-place applications. -/
theorem C40_terminates (hst : Written d st) {rank : SRef → Nat} {bound : Nat} (hr : Ranked st rank bound)
    (s : SRef) (i : Inst) :
    ∃ fuel r, evaluate (st.ordered (decide (d = .d2019))) env fuel s i = some r := by
  have hr' : Ranked (st.ordered (decide (d = .d2019))) rank bound := by
    refine ⟨hr.lt, fun s kws kw t ho hk hm => ?_⟩
    cases hs : st.obj s with
    | bool b => rw [ordered_bool.2 hs] at ho; cases ho
    | obj kws0 =>
      obtain ⟨out, h1, h2, _⟩ := ordered_obj hst hs
      rw [h1] at ho; cases ho
      refine hr.decreases s kws0 kw t hs (h2.mem_iff.1 hk) ?_
      cases kw
      case dynamicRef u frag dyn => 
        have e : (st.ordered (decide (d = .d2019))).lookup = st.lookup := rfl
        simpa only [MayInPlace, DynAnchor, getStatic_ordered hst, e] using hm
      case recursiveRef u => simpa only [MayInPlace, RecAnchor, getStatic_ordered hst] using hm
      all_goals exact hm
  obtain ⟨r, hr⟩ := evalSchema_halts hr' _ s i.value (Nat.lt_succ_self _) [s] i.path (RNode.root s i)
  exact ⟨_, r, hr⟩

/-- A store of `N` schemas, numbered so that subschemas come after the schema that contains them, with
no references, or none that leads back in place: evaluation ends on every value. -/
theorem C40_no_references (hst : Written d st) {N : Nat}
    (hN : ∀ s kws, st.obj s = .obj kws → s < N)
    (hsub : ∀ s kws kw, st.obj s = .obj kws → kw ∈ kws → ∀ t, MayInPlace st kw t → s < t)
    (s : SRef) (i : Inst) :
    ∃ fuel r, evaluate (st.ordered (decide (d = .d2019))) env fuel s i = some r := by
  refine C40_terminates hst (rank := fun s => N - s) (bound := N + 1) ⟨fun s => by omega, ?_⟩ s i
  intro s kws kw t ho hk hm
  have h1 := hN s kws ho
  have h2 := hsub s kws kw ho hk t hm
  omega

/-- Without the condition evaluation need not end: `{"$ref": "#"}` recurs for ever. -/
theorem C40_endless {s : SRef} (hs : st.obj s = .obj [.ref s]) (i : Inst) (fuel : Nat) :
    evaluate st env fuel s i = none := by
  have key : ∀ fuel sc r, evalSchema st env fuel sc s i r = none := by
    intro fuel
    induction fuel with
    | zero => intro sc r; rfl
    | succ n ih =>
      intro sc r
      have ht : (Kw.ref s).types.contains i.value.type = true := by cases i.value <;> rfl
      simp only [evalSchema, evalBody, hs, kwLoop, ht, withSub, evalKw, ih, if_true]
  exact key fuel _ _

end

/-! ### Schemas that meet the hypotheses, and counterexamples -/

def assertSchemas : List SchemaObj := [
  .obj [.assert (.type_ ["integer", "null"])], .obj [.assert (.enum [.num (.int 1), .str "a"])],
  .obj [.assert (.const (.num (.flt 1)))], .obj [.assert (.maximum (.int 3))],
  .obj [.assert (.exclusiveMinimum (.int 1))], .obj [.assert (.maxLength (.int 2))],
  .obj [.assert (.pattern "ab")], .obj [.assert (.minItems (.int 2))], .obj [.assert (.uniqueItems true)],
  .obj [.assert (.maxProperties (.int 1))], .obj [.assert (.required ["a"])],
  .obj [.assert (.dependentRequired [("a", ["b"])])], .obj [.assert (.multipleOf (.flt (1/100)))],
  .obj [.format "date" true], .obj [.assert (.multipleOf (.int 1))]]

example : Written .d2020 (listStore assertSchemas) ∧ StaticStore (listStore assertSchemas) :=
  ⟨written_of (by decide), static_of (by decide)⟩

/-- The verdicts on the integer 1. -/
example : (List.range 14).map (fun s => verdictOf .d2020 demoEnv (listStore assertSchemas) 1 s (.num (.int 1))) =
    [true, true, true, true, false, true, true, true, true, true, true, true, true, true].map some := by
  decide +kernel

/-- The verdicts on `[1, 1.0]`. -/
example : (List.range 14).map (fun s => verdictOf .d2020 demoEnv (listStore assertSchemas) 1 s
      (.arr [.num (.int 1), .num (.flt 1)])) =
    [false, false, false, true, true, true, true, true, false, true, true, true, true, true].map some := by
  decide +kernel

/-- The verdicts on `{"a": 1, "c": 2}`. -/
example : (List.range 14).map (fun s => verdictOf .d2020 demoEnv (listStore assertSchemas) 1 s
      (.obj [("a", .num (.int 1)), ("c", .num (.int 2))])) =
    [false, false, false, true, true, true, true, true, true, false, true, false, true, true].map some := by
  decide +kernel

/-- 19.99 is a multiple of 0.01. -/
example : SmallQuotient demoEnv.dec (.flt (1999/100)) (.flt (1/100)) ∧
    verdictOf .d2020 demoEnv (listStore assertSchemas) 1 12 (.num (.flt (1999/100))) = some true :=
  ⟨by unfold SmallQuotient; decide +kernel, by decide +kernel⟩

/-- 10^30 is a multiple of 1, but jschon says it is not. -/
theorem C41_large_quotient :
    verdictOf .d2020 demoEnv (listStore assertSchemas) 1 14 (.num (.int (10 ^ 30))) = some false ∧
    IsMultiple demoEnv.dec (.int (10 ^ 30)) (.int 1) :=
  ⟨by decide +kernel, 10 ^ 30, by decide +kernel⟩

/-- An enabled format with a validator that rejects. -/
example : verdictOf .d2020 { demoEnv with fmtTypes := fun _ => [.string], fmtOk := fun _ _ => false }
    (listStore assertSchemas) 1 13 (.str "x") = some false := by decide +kernel

/-- `{"items": {…}, "prefixItems": […], "unevaluatedItems": false, …}` in two orders, and with further
keywords that have no say. -/
def orderedSchemas : List SchemaObj := [
  .obj [.unevaluatedProperties 1, .assert (.minProperties (.int 1)), .anyOf [2, 3]],
  .bool false, .obj [.properties [("a", 4)]], .obj [.properties [("b", 4)]], .bool true]
def permutedSchemas : List SchemaObj := [
  .obj [.anyOf [2, 3], .unevaluatedProperties 1, .assert (.minProperties (.int 1))],
  .bool false, .obj [.properties [("a", 4)]], .obj [.properties [("b", 4)]], .bool true]
def annotatedSchemas : List SchemaObj := [
  .obj [.unknown "x-y" .null, .anyOf [2, 3], .static "$comment" (.str "hi"), .unevaluatedProperties 1,
    .annot "title" false (.str "t"), .format "date" false, .assert (.minProperties (.int 1))],
  .bool false, .obj [.properties [("a", 4)], .annot "contentEncoding" true (.str "t")],
  .obj [.properties [("b", 4)]], .bool true]

example : Written .d2020 (listStore orderedSchemas) ∧ Written .d2020 (listStore annotatedSchemas) :=
  ⟨written_of (by decide), written_of (by decide)⟩

example : Permuted (listStore orderedSchemas) (listStore permutedSchemas) where
  base := rfl
  lookup := rfl
  bool s b := match s with
    | 0 => by constructor <;> (intro h; cases h)
    | 1 | 2 | 3 | 4 | _ + 5 => Iff.rfl
  obj s kws kws' h h' := match s with
    | 0 => by cases h; cases h'; exact List.perm_append_comm (l₁ := [_]) (l₂ := [_, _])
    | 2 | 3 => by cases h; cases h'; exact .refl _
    | 1 | 4 | _ + 5 => by cases h

example : SameStore (listStore orderedSchemas) (listStore annotatedSchemas) where
  base := rfl
  lookup := rfl
  bool s b := match s with
    | 0 | 2 => by constructor <;> (intro h; cases h)
    | 1 | 3 | 4 | _ + 5 => Iff.rfl
  obj s kws kws' h h' kw hn := match s with
    | 0 => by
      cases h; cases h'
      simp only [List.mem_cons, List.not_mem_nil, or_false]
      constructor
      · rintro (h | h | h) <;> simp [h]
      · rintro (h | h | h | h | h | h | h) <;> subst h <;> first
          | (exact absurd trivial hn)
          | (exact absurd rfl hn)
          | (simp [Neutral] at hn; done)
          | simp
    | 2 => by
      cases h; cases h'
      simp only [List.mem_cons, List.not_mem_nil, or_false]
      constructor
      · intro h; exact .inl h
      · rintro (h | h)
        · exact h
        · subst h; exact absurd trivial hn
    | 3 => by cases h; cases h'; exact Iff.rfl
    | 1 | 4 | _ + 5 => by cases h

/-- The verdicts on `{"a": 1}` and `{"c": 1}`. -/
example : ([orderedSchemas, permutedSchemas, annotatedSchemas].map (fun l =>
      (verdictOf .d2020 demoEnv (listStore l) 5 0 (.obj [("a", .num (.int 1))]),
       verdictOf .d2020 demoEnv (listStore l) 5 0 (.obj [("c", .num (.int 1))])))) =
    List.replicate 3 (some true, some false) := by decide +kernel

/-- A keyword for numbers and a string. -/
example : constrains (.assert (.multipleOf (.int 1))) = some .number ∧ (Value.str "x").type ≠ .number :=
  ⟨rfl, by decide⟩

/-- The recursive schema `{"properties": {"next": {"$ref": "#"}}}`: the reference leads back, but to a
member. -/
def linkSchemas : List SchemaObj := [.obj [.properties [("next", 1)]], .obj [.ref 0]]

example : Ranked (listStore linkSchemas) (fun s => if s = 1 then 1 else 0) 2 where
  lt s := by split <;> omega
  decreases s kws kw t h hk hm := match s with
    | 0 => by
      cases h; simp only [List.mem_singleton] at hk; subst hk; exact hm.elim
    | 1 => by
      cases h; simp only [List.mem_singleton] at hk; subst hk; cases hm; decide
    | _ + 2 => by cases h

example : (listStore [.obj [.ref 0]]).obj 0 = .obj [.ref 0] := rfl

end Jschon
