import Verif.Proof.EvalKws4

/-!
# What each keyword computes: all keywords together
-/

namespace Jschon

open Spec

/-! ## Repetitions in the dynamic scope do not matter -/

theorem dynLoop_dup {st : Store} {frag : String} {x : SRef} {a : List SRef} {ch : List String} {f : SRef} :
    dynLoop st frag (x :: x :: a) ch f = dynLoop st frag (x :: a) ch f := by
  cases hb : st.base x with
  | none => simp only [dynLoop, hb]
  | some b =>
    by_cases hch : ch.contains b = true
    · simp only [dynLoop, hb, if_pos hch]
    · have hch2 : (b :: ch).contains b = true := by simp
      simp only [dynLoop, hb, hch2, if_neg hch, if_true]

theorem dynLoop_stut {st : Store} {frag : String} {a b : List SRef} (h : Stut a b) :
    ∀ ch f, dynLoop st frag a ch f = dynLoop st frag b ch f := by
  induction h with
  | nil => intro ch f; rfl
  | @cons x a b _ ih =>
    intro ch f
    simp only [dynLoop, ih]
  | dup _ ih => intro ch f; rw [dynLoop_dup, ih]

theorem recLoop_stut {st : Store} {a b : List SRef} (h : Stut a b) :
    ∀ f, recLoop st a f = recLoop st b f := by
  induction h with
  | nil => intro f; rfl
  | cons _ ih => intro f; simp only [recLoop, ih]
  | @dup x a b _ ih =>
    intro f
    rw [← ih]
    by_cases hx : isRecursiveAnchor st x = true <;> simp [recLoop, hx]

/-! ## Types -/

theorem type_arr {v : Value} (h : [JType.array].contains v.type = true) : ∃ xs, v = .arr xs := by
  cases v with
  | arr xs => exact ⟨xs, rfl⟩
  | _ => simp [Value.type] at h

theorem type_obj {v : Value} (h : [JType.object].contains v.type = true) : ∃ kvs, v = .obj kvs := by
  cases v with
  | obj kvs => exact ⟨kvs, rfl⟩
  | _ => simp [Value.type] at h

section
variable {d : Dialect} {st : Store} {env : Env} {rec : Rec} {M : Meaning} (hok : RecOk d rec M)
variable {a b : List SRef} {s : SRef} (hst : Stut (s :: a) (s :: b))
variable {i : Inst} (hw : i.value.WF) {c : RNode} {key : String} (hc : FreshFor c i key s)
variable {kws : List Kw} {parent parent' c' : RNode}

include hc

theorem kw_assert {x : Assertion} (hx : x.WF) (hw : i.value.WF)
    (h : evalKw st env rec (s :: a) (.assert x) i parent c = some (parent', c')) :
    Outcome d i c' (KwHolds (codeRules st env d) env M (s :: b) kws i.value (.assert x))
      (fun _ => False) := by
  simp only [evalKw, Option.some.injEq, Prod.mk.injEq] at h
  rw [← h.2]
  exact kw_check hc _ (assertion_ok_iff env x i.value hx hw)

theorem kw_static {k : String} {v : Value}
    (h : evalKw st env rec (s :: a) (.static k v) i parent c = some (parent', c')) :
    Outcome d i c' True (fun _ => False) := by
  simp only [evalKw, Option.some.injEq, Prod.mk.injEq] at h
  rw [← h.2]
  exact kw_leaf hc (Upd.refl _) hc.clean.discard (by simp [RNode.passed, hc.clean.valid])
    (.inl hc.clean.ann)

theorem annotated {v : Value} (hkey : key ∉ reserved d) :
    Outcome d i (c.annotate v).noassert True (fun _ => False) :=
  kw_leaf hc ((Upd.annotate _ _).trans (Upd.noassert _)) hc.clean.discard
    (by simp [RNode.passed, RNode.noassert]) (.inr hkey)

theorem kw_format {attr : String} {enabled : Bool} (hkey : key ∉ reserved d)
    (h : evalKw st env rec (s :: a) (.format attr enabled) i parent c = some (parent', c')) :
    Outcome d i c' (KwHolds (codeRules st env d) env M (s :: b) kws i.value (.format attr enabled))
      (fun _ => False) := by
  simp only [evalKw, Option.some.injEq, Prod.mk.injEq] at h
  rw [← h.2]
  by_cases he : (enabled && (env.fmtTypes attr).contains i.value.type) = true
  · rw [if_pos he]
    simp only [Bool.and_eq_true, List.contains_eq_mem, decide_eq_true_eq] at he
    refine kw_leaf hc ((Upd.annotate _ _).trans (Upd.ite (Upd.refl _) (Upd.fail _ _))) ?_ ?_ (.inr hkey)
    · split <;> exact hc.clean.discard
    · simp only [KwHolds, he, true_implies]
      split
      · rename_i hf; simp [RNode.passed, RNode.annotate, hc.clean.valid, hf]
      · rename_i hf
        simp only [RNode.passed, RNode.fail, RNode.annotate, RNode.info_mk, hc.clean.asrt, hf]
        simp
  · rw [if_neg he]
    refine (annotated hc hkey).congr ?_ (fun _ _ => Iff.rfl)
    simp only [Bool.and_eq_true, List.contains_eq_mem, decide_eq_true_eq] at he
    simp only [KwHolds, true_iff]
    exact fun h1 h2 => absurd ⟨h1, h2⟩ he

theorem kw_contentSchema {v : Value} (hkey : key ∉ reserved d)
    (h : evalKw st env rec (s :: a) (.contentSchema v) i parent c = some (parent', c')) :
    Outcome d i c' True (fun _ => False) := by
  simp only [evalKw, Option.some.injEq, Prod.mk.injEq] at h
  rw [← h.2]
  cases sibling parent i "contentMediaType" with
  | none => exact .discarded rfl trivial (fun _ _ => id)
  | some r => exact annotated hc hkey

omit hc

include hok hst hw

/-- Every keyword does what its meaning says, provided that the keywords it depends on did. -/
theorem kw_step {kw : Kw} (hkws : KwsOk d kws) (hobj : st.obj s = .obj kws)
    (hbool : ∀ t bb, st.obj t = .bool bb → ∀ sc v pt, ¬ M.ev sc t v pt)
    (hkw : kw ∈ kws) (hc : FreshFor c i kw.key s) (hty : kw.types.contains i.value.type = true)
    (hsib : ∀ key ∈ kw.dependsOn (decide (d = .d2019)),
      SibOk st env d M (s :: b) kws i s (sibling parent i key) key)
    (hann : ∀ pt, pt.In i.value → UnevalFor kw pt → (evs (Cover d pt) i.path parent ↔
      ∃ kw' ∈ kws, ObsEv (codeRules st env d) env st M (s :: b) kws i.value kw' pt))
    (h : evalKw st env rec (s :: a) kw i parent c = some (parent', c')) :
    StepOut st env d M (s :: b) kws i kw (Pass0 st env d M (s :: b) kws i kw) (remains c') := by
  have hko := hkws.ok kw hkw
  cases kw
  case assert x =>
    exact ((kw_assert (M := M) (b := b) (kws := kws) hc hko hw h).congr Iff.rfl (fun pt _ => by simp [ObsEv])).step
      (fun pt h => by cases pt <;> exact h) trivial
  case maxContains m => exact kw_maxContains hc hkws.ok (type_arr hty) (hsib _ (by simp [Kw.dependsOn])) h
  case minContains m =>
    exact (kw_minContains hc hkws.ok (type_arr hty) (hsib _ (by simp [Kw.dependsOn]))
      (hsib _ (by simp [Kw.dependsOn])) h).1
  case allOf ss => exact (kw_allOf hok hst hw hc h).step (fun pt h => by cases pt <;> exact h) trivial
  case anyOf ss => exact (kw_anyOf hok hst hw hc h).step (fun pt h => by cases pt <;> exact h) trivial
  case oneOf ss => exact (kw_oneOf hok hst hw hc h).step (fun pt h => by cases pt <;> exact h) trivial
  case not_ t => exact (kw_not hok hst hw hc h).step (fun pt h => by cases pt <;> exact h) trivial
  case if_ t =>
    obtain ⟨h1, h2, h3⟩ := kw_if (kws := kws) hok hst hw hc h
    exact h1.step (fun pt h => by cases pt <;> exact h) ⟨c', remains_some h2, h3⟩
  case then_ t => exact kw_then hok hst hw hc hkws.ok (hsib _ (by simp [Kw.dependsOn])) h
  case else_ t => exact kw_else hok hst hw hc hkws.ok (hsib _ (by simp [Kw.dependsOn])) h
  case dependentSchemas ps =>
    exact (kw_dependentSchemas hok hst hw hc hko (by cases d <;> simp [Kw.key, reserved]) h).step
      (fun pt h => by cases pt <;> exact h) trivial
  case prefixItems ss =>
    obtain ⟨h1, h2⟩ := kw_prefixItems (kws := kws) hok hst hw hc rfl hko h
    exact h1.step (fun pt h => by cases pt <;> exact h) (fun _ => ⟨c', remains_some h2⟩)
  case items t =>
    exact kw_items hok hst hw hc rfl hko hobj hkws (type_arr hty) (hsib _ (by simp [Kw.dependsOn])) h
  case unevaluatedItems t =>
    exact kw_unevaluatedItems hok hst hw hc rfl hko (fun k hk => hann (.item k) hk trivial) h
  case contains t =>
    have := kw_contains (kws := kws) hok hst hw hc rfl h
    have harr := type_arr hty
    simp only [Pass0, harr, true_implies]
    exact this
  case properties ps =>
    obtain ⟨h1, h2⟩ := kw_properties (kws := kws) hok hst hw hc rfl hko h
    exact h1.step (fun pt h => by cases pt <;> exact h) (fun _ => ⟨c', remains_some h2⟩)
  case patternProperties ps =>
    obtain ⟨h1, h2⟩ := kw_patternProperties (kws := kws) hok hst hw hc rfl h
    exact h1.step (fun pt h => by cases pt <;> exact h) (fun _ => ⟨c', remains_some h2⟩)
  case additionalProperties t =>
    exact kw_additionalProperties hok hst hw hc rfl hobj (type_obj hty)
      (hsib _ (by simp [Kw.dependsOn])) (hsib _ (by simp [Kw.dependsOn])) h
  case unevaluatedProperties t =>
    exact kw_unevaluatedProperties hok hst hw hc rfl (fun n hn => hann (.name n) hn trivial) h
  case propertyNames t =>
    exact ((kw_propertyNames (kws := kws) hok hst hw hc h).congr Iff.rfl (fun pt _ => by simp [ObsEv])).step
      (fun pt h => by cases pt <;> exact h) trivial
  case items9 t =>
    obtain ⟨h1, h2, h3⟩ := kw_items9 (kws := kws) hok hst hw hc rfl hko (hbool t) h
    exact h1.step (fun pt h => by cases pt <;> exact h) (by rw [remains_some h2]; exact h3)
  case items9Array ss =>
    obtain ⟨h1, h2, h3⟩ := kw_items9Array (kws := kws) hok hst hw hc rfl hko h
    exact h1.step (fun pt h => by cases pt <;> exact h) (by rw [remains_some h2]; exact h3)
  case additionalItems t =>
    exact kw_additionalItems hok hst hw hc rfl hko hkws (hsib _ (by simp [Kw.dependsOn])) h
  case unevaluatedItems9 t =>
    exact kw_unevaluatedItems9 hok hst hw hc rfl hko (fun k hk => hann (.item k) hk trivial) h
  case recursiveRef t =>
    simp only [evalKw] at h
    split at h
    · contradiction
    · rename_i c1 hr
      simp only [Option.some.injEq, Prod.mk.injEq] at h
      rw [recLoop_stut hst] at hr h
      exact (kw_ref_like hok hst hw hc hr (.inl h.2.symm)).step (kw := .recursiveRef t)
        (fun pt h => by cases pt <;> exact h) trivial
  case ref t =>
    simp only [evalKw] at h
    split at h
    · contradiction
    · rename_i c1 hr
      simp only [Option.some.injEq, Prod.mk.injEq] at h
      exact (kw_ref_like hok hst hw hc hr (.inl h.2.symm)).step (kw := .ref t)
        (fun pt h => by cases pt <;> exact h) trivial
  case dynamicRef t frag dyn =>
    simp only [evalKw] at h
    split at h
    · contradiction
    · rename_i c1 hr
      simp only [Option.some.injEq, Prod.mk.injEq] at h
      rw [dynLoop_stut hst] at hr h
      exact (kw_ref_like hok hst hw hc hr (.inl h.2.symm)).step (kw := .dynamicRef t frag dyn)
        (fun pt h => by cases pt <;> exact h) trivial
  case static k v =>
    exact ((kw_static hc h).congr Iff.rfl (fun pt _ => by simp [ObsEv])).step
      (fun pt h => by cases pt <;> exact h) trivial
  case format attr enabled =>
    exact ((kw_format (M := M) (b := b) (kws := kws) hc (by cases d <;> simp [Kw.key, reserved]) h).congr Iff.rfl
      (fun pt _ => by simp [ObsEv])).step (fun pt h => by cases pt <;> exact h) trivial
  case annot k so v =>
    simp only [evalKw, Option.some.injEq, Prod.mk.injEq] at h
    rw [← h.2]
    exact ((annotated hc hko).congr Iff.rfl (fun pt _ => by simp [ObsEv])).step
      (kw := .annot k so v) (fun pt h => by cases pt <;> exact h) trivial
  case contentSchema v =>
    exact ((kw_contentSchema hc (by cases d <;> simp [Kw.key, reserved]) h).congr Iff.rfl
      (fun pt _ => by simp [ObsEv])).step (kw := .contentSchema v) (fun pt h => by cases pt <;> exact h) trivial
  case unknown k v =>
    simp only [evalKw, Option.some.injEq, Prod.mk.injEq] at h
    rw [← h.2]
    exact ((annotated hc hko).congr Iff.rfl (fun pt _ => by simp [ObsEv])).step
      (kw := .unknown k v) (fun pt h => by cases pt <;> exact h) trivial

end

end Jschon
