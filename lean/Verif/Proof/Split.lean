import Verif.Spec.Split
import Verif.Proof.Written

/-!
# Some keywords of a schema by themselves
-/

namespace Jschon

open Spec

/-- The keywords `k1` among `kws` attend to no others of `kws`. -/
def PartOf (k1 kws : List Kw) : Prop := ∀ a ∈ k1, ∀ b, Attends a b → (b ∈ kws ↔ b ∈ k1)

section
variable {R : Rules} {env : Env} {st : Store} {M : Meaning} {sc : List SRef} {v : Value} {kws k1 : List Kw}

theorem unheeded_ev {k : Kw} (h : Unheeded k) (pt : Pt) : ¬ ObsEv R env st M sc kws v k pt := by
  cases k <;> first | exact absurd h id | (cases pt <;> exact id)

theorem named_part (P : PartOf k1 kws) {t : SRef} (h : Kw.additionalProperties t ∈ k1) (n : String) :
    Named env kws n = Named env k1 n := by
  simp only [Named, P _ h (.properties _) trivial, P _ h (.patternProperties _) trivial]

theorem kwHolds_part (P : PartOf k1 kws) {kw : Kw} (h : kw ∈ k1) (hu : ¬ IsUneval kw) :
    KwHolds R env M sc kws v kw = KwHolds R env M sc k1 v kw := by
  cases kw
  case unevaluatedProperties t => exact absurd trivial hu
  case unevaluatedItems t => exact absurd trivial hu
  case unevaluatedItems9 t => exact absurd trivial hu
  case then_ t => simp only [KwHolds, P _ h (.if_ _) trivial]
  case else_ t => simp only [KwHolds, P _ h (.if_ _) trivial]
  case additionalProperties t => simp only [KwHolds, named_part P h]
  case items t => simp only [KwHolds, BeyondPrefix, P _ h (.prefixItems _) trivial]
  case contains t => simp only [KwHolds, P _ h (.minContains _) trivial]
  case minContains t => simp only [KwHolds, P _ h (.contains _) trivial]
  case maxContains t => simp only [KwHolds, P _ h (.contains _) trivial]
  case additionalItems t => simp only [KwHolds, P _ h (.items9Array _) trivial]
  all_goals rfl

theorem obsEv_part (P : PartOf k1 kws) {kw : Kw} (h : kw ∈ k1) {pt : Pt} :
    ObsEv R env st M sc kws v kw pt = ObsEv R env st M sc k1 v kw pt := by
  cases kw
  case then_ t => simp only [ObsEv, P _ h (.if_ _) trivial]
  case else_ t => simp only [ObsEv, P _ h (.if_ _) trivial]
  case additionalProperties t => cases pt <;> simp only [ObsEv, named_part P h, kwHolds_part P h id]
  case items t => cases pt <;> simp only [ObsEv, BeyondPrefix, P _ h (.prefixItems _) trivial, kwHolds_part P h id]
  case additionalItems t =>
    cases pt with
    | name n => rfl
    | item k =>
      simp only [ObsEv, P _ h (.items9Array _) trivial, kwHolds_part P h id]
      rfl
  all_goals cases pt <;> rfl

theorem someEv_part (P : PartOf k1 kws) (hsub : ∀ kw ∈ k1, kw ∈ kws) {a : Kw} (h : a ∈ k1)
    (ha : ∀ b, ¬ Unheeded b → Attends a b) (pt : Pt) :
    (∃ kw ∈ kws, ObsEv R env st M sc kws v kw pt) = ∃ kw ∈ k1, ObsEv R env st M sc k1 v kw pt := by
  refine propext ⟨?_, ?_⟩
  · rintro ⟨kw, hk, he⟩
    have hk : kw ∈ k1 := (P _ h kw (ha kw fun hq => unheeded_ev hq _ he)).1 hk
    exact ⟨kw, hk, obsEv_part P hk ▸ he⟩
  · rintro ⟨kw, hk, he⟩
    exact ⟨kw, hsub kw hk, (obsEv_part P hk).symm ▸ he⟩

theorem obsHolds_part (P : PartOf k1 kws) (hsub : ∀ kw ∈ k1, kw ∈ kws) {kw : Kw} (h : kw ∈ k1) :
    ObsHolds R env st M sc kws v kw = ObsHolds R env st M sc k1 v kw := by
  cases kw
  case unevaluatedProperties t => simp only [ObsHolds, someEv_part P hsub h fun _ hb => hb]
  case unevaluatedItems t => simp only [ObsHolds, someEv_part P hsub h fun _ hb => hb]
  case unevaluatedItems9 t => simp only [ObsHolds, someEv_part P hsub h fun _ hb => hb]
  case items9 t =>
    simp only [ObsHolds]
    cases ho : st.obj t with
    | bool b => rfl
    | obj ks => exact kwHolds_part P h id
  case additionalItems t =>
    simp only [ObsHolds, P _ h (.items9Array _) trivial]
    rfl
  all_goals
    simp only [ObsHolds]
    exact kwHolds_part P h (by exact id)

end

section
variable {d : Dialect} {env : Env} {st : Store}

/-- A verdict in terms of a given unrolling. -/
theorem written_unrolled (hst : Written d st) {n m : Nat} (hm : n ≤ m) {s : SRef} {v : Value}
    (hw : v.WF) {kws : List Kw} (hobj : st.obj s = .obj kws) {b : Bool}
    (h : verdictOf d env st n s v = some b) :
    b = true ↔ ∀ kw ∈ kws, ObsHolds (codeRules (st.ordered (decide (d = .d2019))) env d) env 
      (st.ordered (decide (d = .d2019)))
      (obsUnroll (codeRules (st.ordered (decide (d = .d2019))) env d) env (st.ordered (decide (d = .d2019))) m)
      [s] kws v kw := by
  obtain ⟨out, h1, h2, _⟩ := ordered_obj hst hobj
  obtain ⟨r, hr, rfl⟩ := verdict_some h
  have := evaluate_obs (ordered_ok hst) hw hr (m := m + 1) (Nat.le_succ_of_le hm)
  simp only [obsUnroll, obsStep, h1] at this
  refine this.trans (forall_congr' fun kw => ?_)
  rw [h2.mem_iff, obsHolds_same (fun _ _ => Iff.rfl) (fun _ => Iff.rfl)
    ((sameStore_ordered hst).obj s kws out hobj h1)]

/-- The dynamic scope does not matter to the keywords of a schema. -/
theorem unrolled_scopeless (hst : Written d st) (hstat : StaticStore st) {m : Nat} {s : SRef} {kws : List Kw}
    (hobj : st.obj s = .obj kws) {sc sc' : List SRef} {v : Value} {kw : Kw} (hkw : kw ∈ kws) :
    ObsHolds (codeRules (st.ordered (decide (d = .d2019))) env d) env (st.ordered (decide (d = .d2019)))
      (obsUnroll (codeRules (st.ordered (decide (d = .d2019))) env d) env (st.ordered (decide (d = .d2019))) m)
      sc kws v kw =
    ObsHolds (codeRules (st.ordered (decide (d = .d2019))) env d) env (st.ordered (decide (d = .d2019)))
      (obsUnroll (codeRules (st.ordered (decide (d = .d2019))) env d) env (st.ordered (decide (d = .d2019))) m)
      sc' kws v kw := by
  obtain ⟨out, h1, h2, _⟩ := ordered_obj hst hobj
  rw [(obsUnroll_scopeless (static_ordered hst hstat) m).eq]
  exact obsHolds_scopeless (fun kw hk => static_ordered hst hstat s out h1 kw (h2.mem_iff.2 hk)) hkw

end

end Jschon
