import Verif.Spec.Observed
import Verif.Spec.Conditions

/-!
# The observed meaning and the specified one
-/

namespace Jschon

open Spec

theorem Spec.InPlace.applies {R : Rules} {sc : List SRef} {kw : Kw} {t : SRef} (h : InPlace R sc kw t) :
    Applies R sc kw t := by
  cases kw <;> first | exact h | exact h.elim

theorem Spec.Watched.reach {R : Rules} {st : Store} {root : SRef} {sc : List SRef} (h : Watched R st root sc) :
    Reach R st root sc := by
  induction h with
  | here h _ _ _ => exact h
  | sub _ ho hk hi ih => exact .step ih ho hk hi.applies

/-- The rules differ only where it does not matter. -/
structure RulesAgree (C R : Rules) (st : Store) (root : SRef) (D : Value → Prop) : Prop where
  dialect : C.dialect = R.dialect
  dyn : ∀ s sc kws t f, Reach R st root (s :: sc) → st.obj s = .obj kws → .dynamicRef t f true ∈ kws →
    C.dyn (s :: sc) t f = R.dyn (s :: sc) t f
  recr : ∀ s sc kws t, Reach R st root (s :: sc) → st.obj s = .obj kws → .recursiveRef t ∈ kws →
    C.recr (s :: sc) t = R.recr (s :: sc) t
  mult : ∀ s sc kws m n, Reach R st root (s :: sc) → st.obj s = .obj kws → .assert (.multipleOf m) ∈ kws →
    D (.num n) → (C.mult n m ↔ R.mult n m)
  elem : ∀ v x, D v → x ∈ elems v → D x
  member : ∀ v n x, D v → (n, x) ∈ members v → D x
  name : ∀ v n, D v → HasMember v n → D (.str n)

/-- The two meanings agree. -/
structure Agree (R : Rules) (st : Store) (root : SRef) (D : Value → Prop) (M1 M2 : Meaning) : Prop where
  valid : ∀ s sc v, Reach R st root (s :: sc) → D v → (M1.valid sc s v ↔ M2.valid sc s v)
  ev : ∀ s sc v pt, Watched R st root (s :: sc) → D v → pt.In v → M2.valid sc s v →
    (M1.ev sc s v pt ↔ M2.ev sc s v pt)
  quiet : ∀ s sc v pt, Reach R st root (s :: sc) → ¬ Loud R st (s :: sc) → ¬ M1.ev sc s v pt
  bool : ∀ t b, st.obj t = .bool b → ∀ sc v w, M2.valid sc t v → M2.valid sc t w ∧ b = true

section
variable {C R : Rules} {st : Store} {root : SRef} {D : Value → Prop} {M1 M2 : Meaning} {env : Env}
variable (hA : Agree R st root D M1 M2) (hR : RulesAgree C R st root D) (hreg : Regular R st root)
variable {s : SRef} {sc : List SRef} {kws : List Kw} {v : Value}
variable (hreach : Reach R st root (s :: sc)) (hobj : st.obj s = .obj kws) (hD : D v)

include hA hR hreach hobj hD

theorem matching_agree {t : SRef} (ht : Kw.contains t ∈ kws) :
    matching M1 (s :: sc) t v = matching M2 (s :: sc) t v := by
  unfold matching
  apply List.countP_congr
  intro x hx
  have := hA.valid t (s :: sc) x (.step hreach hobj ht rfl) (hR.elem v x hD hx)
  simp [this]

omit hA in
theorem assert_agree {a : Assertion} (ha : Kw.assert a ∈ kws) :
    AssertHolds env C.mult a v ↔ AssertHolds env R.mult a v := by
  cases a
  case multipleOf m =>
    simp only [AssertHolds]
    refine forall_congr' (fun n => ?_)
    constructor
    · intro h hv; subst hv; exact (hR.mult s sc kws m n hreach hobj ha hD).1 (h rfl)
    · intro h hv; subst hv; exact (hR.mult s sc kws m n hreach hobj ha hD).2 (h rfl)
  all_goals exact Iff.rfl

/-- Keywords that do not depend on what is evaluated hold alike. -/
theorem holds_agree {kw : Kw} (hkw : kw ∈ kws) (hu : ¬ IsUneval kw) :
    KwHolds C env M1 (s :: sc) kws v kw ↔ KwHolds R env M2 (s :: sc) kws v kw := by
  have V : ∀ kw ∈ kws, ∀ t x, Applies R (s :: sc) kw t → D x →
      (M1.valid (s :: sc) t x ↔ M2.valid (s :: sc) t x) :=
    fun kw hkw t x ha hx => hA.valid t (s :: sc) x (.step hreach hobj hkw ha) hx
  have hel := fun x => hR.elem v x hD
  have hmem := fun n x => hR.member v n x hD
  cases kw
  case assert a => exact assert_agree hR hreach hobj hD hkw
  case maxContains m =>
    simp only [KwHolds]
    refine imp_congr_right fun _ => forall_congr' fun t => ?_
    constructor
    · intro h ht; rw [← matching_agree hA hR hreach hobj hD ht]; exact h ht
    · intro h ht; rw [matching_agree hA hR hreach hobj hD ht]; exact h ht
  case minContains m =>
    simp only [KwHolds]
    refine imp_congr_right fun _ => forall_congr' fun t => ?_
    constructor
    · intro h ht; rw [← matching_agree hA hR hreach hobj hD ht]; exact h ht
    · intro h ht; rw [matching_agree hA hR hreach hobj hD ht]; exact h ht
  case contains t => simp only [KwHolds, matching_agree hA hR hreach hobj hD hkw]
  case allOf ss =>
    exact forall_congr' fun t => imp_congr_right fun ht => V _ hkw t v ht hD
  case anyOf ss =>
    simp only [KwHolds]
    exact exists_congr fun t => and_congr_right fun ht => V _ hkw t v ht hD
  case oneOf ss =>
    simp only [KwHolds]
    refine exists_congr fun j => exists_congr fun t => and_congr_right fun ht => ?_
    refine and_congr (V _ hkw t v (List.mem_of_getElem? ht) hD) ?_
    refine forall_congr' fun k => forall_congr' fun u => forall_congr' fun hu => ?_
    rw [V _ hkw u v (List.mem_of_getElem? hu) hD]
  case not_ t => simp only [KwHolds]; rw [V _ hkw t v rfl hD]
  case if_ t => exact Iff.rfl
  case then_ t =>
    simp only [KwHolds]
    refine forall_congr' fun c => forall_congr' fun hc => ?_
    rw [V _ hc c v rfl hD, V _ hkw t v rfl hD]
  case else_ t =>
    simp only [KwHolds]
    refine forall_congr' fun c => forall_congr' fun hc => ?_
    rw [V _ hc c v rfl hD, V _ hkw t v rfl hD]
  case dependentSchemas ps =>
    simp only [KwHolds]
    exact forall_congr' fun p => forall_congr' fun hp => imp_congr_right fun _ =>
      V _ hkw p.2 v ⟨p.1, hp⟩ hD
  case prefixItems ss =>
    simp only [KwHolds]
    exact forall_congr' fun k => forall_congr' fun t => forall_congr' fun x => forall_congr' fun ht =>
      forall_congr' fun hx => V _ hkw t x (List.mem_of_getElem? ht) (hel x (List.mem_of_getElem? hx))
  case items9Array ss =>
    simp only [KwHolds]
    exact forall_congr' fun k => forall_congr' fun t => forall_congr' fun x => forall_congr' fun ht =>
      forall_congr' fun hx => V _ hkw t x (List.mem_of_getElem? ht) (hel x (List.mem_of_getElem? hx))
  case items t =>
    simp only [KwHolds]
    exact forall_congr' fun k => forall_congr' fun x => forall_congr' fun hx => imp_congr_right fun _ =>
      V _ hkw t x rfl (hel x (List.mem_of_getElem? hx))
  case items9 t =>
    simp only [KwHolds]
    exact forall_congr' fun x => forall_congr' fun hx => V _ hkw t x rfl (hel x hx)
  case additionalItems t =>
    simp only [KwHolds]
    exact forall_congr' fun ss => imp_congr_right fun _ =>
      forall_congr' fun k => forall_congr' fun x => forall_congr' fun hx => imp_congr_right fun _ =>
        V _ hkw t x rfl (hel x (List.mem_of_getElem? hx))
  case properties ps =>
    simp only [KwHolds]
    exact forall_congr' fun n => forall_congr' fun t => forall_congr' fun x => forall_congr' fun ht =>
      forall_congr' fun hx => V _ hkw t x ⟨n, ht⟩ (hmem n x hx)
  case patternProperties ps =>
    simp only [KwHolds]
    exact forall_congr' fun re => forall_congr' fun t => forall_congr' fun n => forall_congr' fun x =>
      forall_congr' fun ht => forall_congr' fun hx => imp_congr_right fun _ =>
        V _ hkw t x ⟨re, ht⟩ (hmem n x hx)
  case additionalProperties t =>
    simp only [KwHolds]
    exact forall_congr' fun n => forall_congr' fun x => forall_congr' fun hx => imp_congr_right fun _ =>
        V _ hkw t x rfl (hmem n x hx)
  case propertyNames t =>
    simp only [KwHolds]
    exact forall_congr' fun n => forall_congr' fun hx =>
        V _ hkw t _ rfl (hR.name v n hD hx)
  case unevaluatedProperties t => exact absurd trivial hu
  case unevaluatedItems t => exact absurd trivial hu
  case unevaluatedItems9 t => exact absurd trivial hu
  case ref t => exact V _ hkw t v rfl hD
  case recursiveRef t =>
    simp only [KwHolds]
    rw [hR.recr s sc kws t hreach hobj hkw]
    exact V _ hkw _ v rfl hD
  case dynamicRef t f dy =>
    cases dy
    · exact V _ hkw t v rfl hD
    · simp only [KwHolds, if_true]
      rw [hR.dyn s sc kws t f hreach hobj hkw]
      exact V _ hkw _ v rfl hD
  all_goals exact Iff.rfl

include hreg

/-- If the keywords that do not depend on what is evaluated hold, the keywords evaluate alike. -/
theorem ev_agree (hwatch : Watched R st root (s :: sc))
    (hbase : ∀ kw ∈ kws, ¬ IsUneval kw → KwHolds R env M2 (s :: sc) kws v kw)
    {pt : Pt} (hpt : pt.In v) :
    (∃ kw ∈ kws, ObsEv C env st M1 (s :: sc) kws v kw pt) ↔
    ∃ kw ∈ kws, KwEv R env M2 (s :: sc) kws v kw pt := by
  have hbase1 : ∀ kw ∈ kws, ¬ IsUneval kw → KwHolds C env M1 (s :: sc) kws v kw :=
    fun kw hkw hu => (holds_agree hA hR hreach hobj hD hkw hu).2 (hbase kw hkw hu)
  have V : ∀ kw ∈ kws, ∀ t x, Applies R (s :: sc) kw t → D x →
      (M1.valid (s :: sc) t x ↔ M2.valid (s :: sc) t x) :=
    fun kw hkw t x ha hx => hA.valid t (s :: sc) x (.step hreach hobj hkw ha) hx
  have E : ∀ kw ∈ kws, ∀ t, InPlace R (s :: sc) kw t → M2.valid (s :: sc) t v →
      (M1.ev (s :: sc) t v pt ↔ M2.ev (s :: sc) t v pt) :=
    fun kw hkw t hi hv => hA.ev t (s :: sc) v pt (.sub hwatch hobj hkw hi) hD hpt hv
  have VE : ∀ kw ∈ kws, ∀ t, InPlace R (s :: sc) kw t →
      (M1.valid (s :: sc) t v ∧ M1.ev (s :: sc) t v pt ↔
        M2.valid (s :: sc) t v ∧ M2.ev (s :: sc) t v pt) := by
    intro kw hkw t hi
    rw [V kw hkw t v hi.applies hD]
    exact and_congr_right (E kw hkw t hi)
  constructor
  · rintro ⟨kw, hkw, h⟩
    cases kw
    case properties ps => cases pt with
      | name n => exact ⟨_, hkw, h.2⟩
      | item k => exact h.elim
    case patternProperties ps => cases pt with
      | name n => exact ⟨_, hkw, h.2⟩
      | item k => exact h.elim
    case additionalProperties t => cases pt with
      | name n => exact ⟨_, hkw, h.2⟩
      | item k => exact h.elim
    case prefixItems ss => cases pt with
      | name n => exact h.elim
      | item k => exact ⟨_, hkw, h.2⟩
    case items9Array ss => cases pt with
      | name n => exact h.elim
      | item k => exact ⟨_, hkw, h.2⟩
    case items t => cases pt with
      | name n => exact h.elim
      | item k =>
        by_cases hb : BeyondPrefix kws k
        · exact ⟨_, hkw, hb⟩
        · simp only [BeyondPrefix, Classical.not_forall] at hb
          obtain ⟨ss, hss, hk⟩ := hb
          exact ⟨_, hss, Nat.not_le.1 hk⟩
    case items9 t => cases pt with
      | name n => exact h.elim
      | item k => exact ⟨_, hkw, trivial⟩
    case additionalItems t => cases pt with
      | name n => exact h.elim
      | item k =>
        obtain ⟨ss, hss, _⟩ := h
        by_cases hb : ss.length ≤ k
        · exact ⟨_, hkw, ss, hss, hb⟩
        · exact ⟨_, hss, Nat.not_le.1 hb⟩
    case contains t => cases pt with
      | name n => exact h.elim
      | item k =>
        obtain ⟨hd, x, hx, hv⟩ := h
        refine ⟨_, hkw, hR.dialect ▸ hd, x, hx, ?_⟩
        exact (V _ hkw t x rfl (hR.elem v x hD (List.mem_of_getElem? hx))).1 hv
    case allOf ss =>
      obtain ⟨hall, t, ht, hev⟩ := h
      exact ⟨_, hkw, t, ht, (VE _ hkw t ht).1 ⟨hall t ht, hev⟩⟩
    case anyOf ss =>
      obtain ⟨t, ht, hev⟩ := h
      exact ⟨_, hkw, t, ht, (VE _ hkw t ht).1 hev⟩
    case oneOf ss =>
      obtain ⟨_, t, ht, hev⟩ := h
      exact ⟨_, hkw, t, ht, (VE _ hkw t ht).1 hev⟩
    case not_ t =>
      exact absurd h.2 (hA.quiet t (s :: sc) v pt (.step hreach hobj hkw rfl)
        (hreg.quiet_not s sc kws t hwatch hobj hkw))
    case if_ t => exact ⟨_, hkw, (VE _ hkw t rfl).1 h⟩
    case then_ t =>
      obtain ⟨⟨c, hc, hcv⟩, h⟩ := h
      exact ⟨_, hkw, ⟨c, hc, (V _ hc c v rfl hD).1 hcv⟩, (VE _ hkw t rfl).1 h⟩
    case else_ t =>
      obtain ⟨⟨c, hc, hcv⟩, h⟩ := h
      exact ⟨_, hkw, ⟨c, hc, fun hv => hcv ((V _ hc c v rfl hD).2 hv)⟩, (VE _ hkw t rfl).1 h⟩
    case dependentSchemas ps =>
      obtain ⟨hall, p, hp, hm, h⟩ := h
      exact ⟨_, hkw, p, hp, hm, (VE _ hkw p.2 ⟨p.1, hp⟩).1 ⟨hall p hp hm, h⟩⟩
    case ref t => exact ⟨_, hkw, (VE _ hkw t rfl).1 h⟩
    case recursiveRef t =>
      simp only [ObsEv] at h
      rw [hR.recr s sc kws t hreach hobj hkw] at h
      exact ⟨_, hkw, (VE _ hkw _ rfl).1 h⟩
    case dynamicRef t f dy =>
      cases dy
      · exact ⟨_, hkw, (VE _ hkw t rfl).1 h⟩
      · simp only [ObsEv, if_true] at h
        rw [hR.dyn s sc kws t f hreach hobj hkw] at h
        exact ⟨_, hkw, (VE _ hkw _ rfl).1 h⟩
    all_goals cases pt <;> exact h.elim
  · rintro ⟨kw, hkw, h⟩
    cases kw
    case properties ps => cases pt with
      | name n => exact ⟨_, hkw, hbase1 _ hkw id, h⟩
      | item k => exact h.elim
    case patternProperties ps => cases pt with
      | name n => exact ⟨_, hkw, hbase1 _ hkw id, h⟩
      | item k => exact h.elim
    case additionalProperties t => cases pt with
      | name n => exact ⟨_, hkw, hbase1 _ hkw id, h⟩
      | item k => exact h.elim
    case prefixItems ss => cases pt with
      | name n => exact h.elim
      | item k => exact ⟨_, hkw, hbase1 _ hkw id, h⟩
    case items9Array ss => cases pt with
      | name n => exact h.elim
      | item k => exact ⟨_, hkw, hbase1 _ hkw id, h⟩
    case items t => cases pt with
      | name n => exact h.elim
      | item k => exact ⟨_, hkw, hbase1 _ hkw id, k, hpt, h⟩
    case items9 t => cases pt with
      | name n => exact h.elim
      | item k =>
        have hb := hbase1 _ hkw id
        refine ⟨_, hkw, ?_, hb⟩
        cases ho : st.obj t with
        | obj ks => exact ⟨ks, rfl⟩
        | bool b =>
          exfalso
          have hk : k < (elems v).length := hpt
          have hx := (hbase _ hkw id : ∀ x ∈ elems v, M2.valid (s :: sc) t x) _ (List.getElem_mem hk)
          have := (hA.bool t b ho _ _ v hx).2
          subst this
          exact hreg.items_true s sc kws t hwatch hobj hkw ho
    case additionalItems t => cases pt with
      | name n => exact h.elim
      | item k =>
        obtain ⟨ss, hss, hk⟩ := h
        exact ⟨_, hkw, ss, hss, hreg.items_array s sc kws ss hreach hobj hss, hbase1 _ hss id,
          hbase1 _ hkw id, Nat.lt_of_le_of_lt hk hpt⟩
    case contains t => cases pt with
      | name n => exact h.elim
      | item k =>
        obtain ⟨hd, x, hx, hv⟩ := h
        refine ⟨_, hkw, hR.dialect.trans hd, x, hx, ?_⟩
        exact (V _ hkw t x rfl (hR.elem v x hD (List.mem_of_getElem? hx))).2 hv
    case allOf ss =>
      obtain ⟨t, ht, h⟩ := h
      exact ⟨_, hkw, hbase1 _ hkw id, t, ht, ((VE _ hkw t ht).2 h).2⟩
    case anyOf ss =>
      obtain ⟨t, ht, hev⟩ := h
      exact ⟨_, hkw, t, ht, (VE _ hkw t ht).2 hev⟩
    case oneOf ss =>
      obtain ⟨t, ht, hev⟩ := h
      exact ⟨_, hkw, hbase1 _ hkw id, t, ht, (VE _ hkw t ht).2 hev⟩
    case if_ t => exact ⟨_, hkw, (VE _ hkw t rfl).2 h⟩
    case then_ t =>
      obtain ⟨⟨c, hc, hcv⟩, h⟩ := h
      exact ⟨_, hkw, ⟨c, hc, (V _ hc c v rfl hD).2 hcv⟩, (VE _ hkw t rfl).2 h⟩
    case else_ t =>
      obtain ⟨⟨c, hc, hcv⟩, h⟩ := h
      exact ⟨_, hkw, ⟨c, hc, fun hv => hcv ((V _ hc c v rfl hD).1 hv)⟩, (VE _ hkw t rfl).2 h⟩
    case dependentSchemas ps =>
      obtain ⟨p, hp, hm, h⟩ := h
      exact ⟨_, hkw, hbase1 _ hkw id, p, hp, hm, ((VE _ hkw p.2 ⟨p.1, hp⟩).2 h).2⟩
    case ref t => exact ⟨_, hkw, (VE _ hkw t rfl).2 h⟩
    case recursiveRef t =>
      refine ⟨_, hkw, ?_⟩
      simp only [ObsEv]
      rw [hR.recr s sc kws t hreach hobj hkw]
      exact (VE _ hkw _ rfl).2 h
    case dynamicRef t f dy =>
      cases dy
      · exact ⟨_, hkw, (VE _ hkw t rfl).2 h⟩
      · refine ⟨_, hkw, ?_⟩
        simp only [ObsEv, if_true]
        rw [hR.dyn s sc kws t f hreach hobj hkw]
        exact (VE _ hkw _ rfl).2 h
    all_goals cases pt <;> exact h.elim

/-- If the keywords that do not depend on what is evaluated hold, the others hold alike. -/
theorem uneval_agree
    (hbase : ∀ kw ∈ kws, ¬ IsUneval kw → KwHolds R env M2 (s :: sc) kws v kw)
    {kw : Kw} (hkw : kw ∈ kws) (hu : IsUneval kw) :
    ObsHolds C env st M1 (s :: sc) kws v kw ↔ KwHolds R env M2 (s :: sc) kws v kw := by
  have hwatch : Watched R st root (s :: sc) := .here hreach hobj hkw hu
  have V : ∀ t x, Applies R (s :: sc) kw t → D x →
      (M1.valid (s :: sc) t x ↔ M2.valid (s :: sc) t x) :=
    fun t x ha hx => hA.valid t (s :: sc) x (.step hreach hobj hkw ha) hx
  have items : ∀ t, Applies R (s :: sc) kw t → (ObsHolds C env st M1 (s :: sc) kws v (.unevaluatedItems t) ↔
      KwHolds R env M2 (s :: sc) kws v (.unevaluatedItems t)) := by
    intro t ht
    simp only [ObsHolds, KwHolds]
    refine forall_congr' fun k => forall_congr' fun x => forall_congr' fun hx => ?_
    have hlt : k < (elems v).length := (List.getElem?_eq_some_iff.1 hx).1
    rw [ev_agree hA hR hreg hreach hobj hD hwatch hbase (pt := .item k) hlt,
      V t x ht (hR.elem v x hD (List.mem_of_getElem? hx))]
  cases kw
  case unevaluatedProperties t =>
    simp only [ObsHolds, KwHolds]
    refine forall_congr' fun n => forall_congr' fun x => forall_congr' fun hx => ?_
    rw [ev_agree hA hR hreg hreach hobj hD hwatch hbase (pt := .name n) ⟨x, hx⟩,
      V t x rfl (hR.member v n x hD hx)]
  case unevaluatedItems t => exact items t rfl
  case unevaluatedItems9 t => exact items t rfl
  all_goals exact absurd hu (by simp [IsUneval])

/-- The verdicts agree. -/
theorem valid_agree :
    (∀ kw ∈ kws, ObsHolds C env st M1 (s :: sc) kws v kw) ↔
    ∀ kw ∈ kws, KwHolds R env M2 (s :: sc) kws v kw := by
  have hplain : ∀ kw ∈ kws, ¬ IsUneval kw → (∀ t, kw ≠ .additionalItems t) →
      (ObsHolds C env st M1 (s :: sc) kws v kw ↔ KwHolds R env M2 (s :: sc) kws v kw) := by
    intro kw hkw hu hne
    refine Iff.trans ?_ (holds_agree hA hR hreach hobj hD hkw hu)
    cases kw
    case unevaluatedProperties t => exact absurd trivial hu
    case unevaluatedItems t => exact absurd trivial hu
    case unevaluatedItems9 t => exact absurd trivial hu
    case additionalItems t => exact absurd rfl (hne t)
    case items9 t =>
      simp only [ObsHolds]
      split
      · rename_i b hb
        simp only [KwHolds]
        have V := fun x hx => hA.valid t (s :: sc) x (.step hreach hobj hkw rfl) hx
        constructor
        · intro h x hx
          have := h (List.ne_nil_of_mem hx)
          rw [V v hD] at this
          rw [V x (hR.elem v x hD hx)]
          exact (hA.bool t b hb _ _ x this).1
        · intro h hne
          obtain ⟨x, hx⟩ := List.exists_mem_of_ne_nil _ hne
          have := h x hx
          rw [V x (hR.elem v x hD hx)] at this
          rw [V v hD]
          exact (hA.bool t b hb _ _ v this).1
      · exact Iff.rfl
    all_goals exact Iff.rfl
  have hall : (∀ kw ∈ kws, ¬ IsUneval kw → (∀ t, kw ≠ .additionalItems t) →
      KwHolds R env M2 (s :: sc) kws v kw) → ∀ t, Kw.additionalItems t ∈ kws →
      (ObsHolds C env st M1 (s :: sc) kws v (.additionalItems t) ↔
        KwHolds R env M2 (s :: sc) kws v (.additionalItems t)) := by
    intro hb t ht
    rw [← holds_agree hA hR hreach hobj hD ht id]
    simp only [ObsHolds, KwHolds]
    refine forall_congr' fun ss => forall_congr' fun hss => ?_
    have h1 := hreg.items_array s sc kws ss hreach hobj hss
    have h2 := (holds_agree (env := env) hA hR hreach hobj hD hss id).2 (hb _ hss id (by simp))
    simp only [KwHolds] at h2
    exact ⟨fun h => h h1 h2, fun h _ _ => h⟩
  have hbase : (∀ kw ∈ kws, ¬ IsUneval kw → (∀ t, kw ≠ .additionalItems t) →
      KwHolds R env M2 (s :: sc) kws v kw) →
      (∀ t, Kw.additionalItems t ∈ kws → KwHolds R env M2 (s :: sc) kws v (.additionalItems t)) →
      ∀ kw ∈ kws, ¬ IsUneval kw → KwHolds R env M2 (s :: sc) kws v kw := by
    intro h1 h2 kw hkw hu
    by_cases ha : ∃ t, kw = .additionalItems t
    · obtain ⟨t, rfl⟩ := ha; exact h2 t hkw
    · exact h1 kw hkw hu (fun t h => ha ⟨t, h⟩)
  constructor
  · intro h
    have h1 : ∀ kw ∈ kws, ¬ IsUneval kw → (∀ t, kw ≠ .additionalItems t) →
        KwHolds R env M2 (s :: sc) kws v kw :=
      fun kw hkw hu hne => (hplain kw hkw hu hne).1 (h kw hkw)
    have h2 := hbase h1 (fun t ht => (hall h1 t ht).1 (h _ ht))
    intro kw hkw
    by_cases hu : IsUneval kw
    · exact (uneval_agree hA hR hreg hreach hobj hD h2 hkw hu).1 (h kw hkw)
    · exact h2 kw hkw hu
  · intro h kw hkw
    by_cases hu : IsUneval kw
    · exact (uneval_agree hA hR hreg hreach hobj hD (fun kw hkw _ => h kw hkw) hkw hu).2 (h kw hkw)
    · by_cases ha : ∃ t, kw = .additionalItems t
      · obtain ⟨t, rfl⟩ := ha
        exact (hall (fun kw hkw _ _ => h kw hkw) t hkw).2 (h _ hkw)
      · exact (hplain kw hkw hu (fun t h => ha ⟨t, h⟩)).2 (h kw hkw)

end

/-- A schema that is not loud evaluates nothing. -/
theorem obsEv_quiet {C R : Rules} {st : Store} {root : SRef} {D : Value → Prop} {M1 M2 : Meaning}
    {env : Env} (hA : Agree R st root D M1 M2) (hR : RulesAgree C R st root D)
    {s : SRef} {sc : List SRef} {kws : List Kw} {v : Value} {pt : Pt} {kw : Kw}
    (hreach : Reach R st root (s :: sc)) (hobj : st.obj s = .obj kws)
    (hq : ¬ Loud R st (s :: sc)) (hkw : kw ∈ kws) :
    ¬ ObsEv C env st M1 (s :: sc) kws v kw pt := by
  have hself : ¬ Annotates kw := fun h => hq (.here hobj hkw h)
  have Q : ∀ t, (InPlace R (s :: sc) kw t ∨ kw = .not_ t) → ¬ M1.ev (s :: sc) t v pt := by
    intro t ht
    refine hA.quiet t (s :: sc) v pt (.step hreach hobj hkw ?_) (fun hl => hq (.sub hobj hkw ht hl))
    rcases ht with ht | rfl
    · exact ht.applies
    · rfl
  intro h
  cases kw
  case allOf ss => obtain ⟨_, t, ht, he⟩ := h; exact Q t (.inl ht) he
  case anyOf ss => obtain ⟨t, ht, _, he⟩ := h; exact Q t (.inl ht) he
  case oneOf ss => obtain ⟨_, t, ht, _, he⟩ := h; exact Q t (.inl ht) he
  case not_ t => exact Q t (.inr rfl) h.2
  case if_ t => exact Q t (.inl rfl) h.2
  case then_ t => exact Q t (.inl rfl) h.2.2
  case else_ t => exact Q t (.inl rfl) h.2.2
  case dependentSchemas ps => obtain ⟨_, p, hp, _, he⟩ := h; exact Q p.2 (.inl ⟨p.1, hp⟩) he
  case ref t => exact Q t (.inl rfl) h.2
  case recursiveRef t =>
    simp only [ObsEv] at h
    rw [hR.recr s sc kws t hreach hobj hkw] at h
    exact Q _ (.inl rfl) h.2
  case dynamicRef t f dy =>
    cases dy
    · exact Q t (.inl rfl) h.2
    · simp only [ObsEv, if_true] at h
      rw [hR.dyn s sc kws t f hreach hobj hkw] at h
      exact Q _ (.inl rfl) h.2
  case properties ps => exact hself trivial
  case patternProperties ps => exact hself trivial
  case additionalProperties t => exact hself trivial
  case prefixItems ss => exact hself trivial
  case items9Array ss => exact hself trivial
  case items t => exact hself trivial
  case items9 t => exact hself trivial
  case additionalItems t => exact hself trivial
  case contains t => exact hself trivial
  all_goals cases pt <;> exact h.elim

/-- One unrolling keeps the agreement. -/
theorem agree_step {C R : Rules} {st : Store} {root : SRef} {D : Value → Prop} {M1 M2 : Meaning}
    {env : Env} (hA : Agree R st root D M1 M2) (hR : RulesAgree C R st root D) (hreg : Regular R st root) :
    Agree R st root D (obsStep C env st M1) (step R env M2 st) := by
  refine ⟨?_, ?_, ?_, ?_⟩
  · intro s sc v hreach hD
    simp only [obsStep, step]
    cases hobj : st.obj s with
    | bool b => exact Iff.rfl
    | obj kws => exact valid_agree hA hR hreg hreach hobj hD
  · intro s sc v pt hw hD hpt hv
    have hreach := hw.reach
    simp only [obsStep, step] at hv ⊢
    cases hobj : st.obj s with
    | bool b => exact Iff.rfl
    | obj kws =>
      simp only [hobj] at hv
      simp only
      refine or_congr (ev_agree hA hR hreg hreach hobj hD hw (fun kw hkw _ => hv kw hkw) hpt) ?_
      have hob := (valid_agree (env := env) hA hR hreg hreach hobj hD).2 hv
      cases pt with
      | name n => exact exists_congr fun t => ⟨fun h => h.1, fun h => ⟨h, hob _ h⟩⟩
      | item k =>
        refine exists_congr fun t => ⟨fun h => h.1, fun h => ⟨h, ?_⟩⟩
        rcases h with h | h
        · exact hob _ h
        · exact hob (.unevaluatedItems9 t) h
  · intro s sc v pt hreach hq
    simp only [obsStep]
    cases hobj : st.obj s with
    | bool b => exact id
    | obj kws =>
      simp only
      rintro (⟨kw, hkw, h⟩ | h)
      · exact obsEv_quiet hA hR hreach hobj hq hkw h
      · cases pt with
        | name n =>
          obtain ⟨t, ht, _⟩ := h
          exact hq (.here hobj ht trivial)
        | item k =>
          obtain ⟨t, ht | ht, _⟩ := h
          · exact hq (.here hobj ht trivial)
          · exact hq (.here hobj ht trivial)
  · intro t b hb sc v w
    simp only [step, hb]
    exact fun h => ⟨h, h⟩

/-- The observed meaning agrees with the specified one. -/
theorem unroll_agree {C R : Rules} {st : Store} {root : SRef} {D : Value → Prop}
    {env : Env} (hR : RulesAgree C R st root D) (hreg : Regular R st root) (n : Nat) :
    Agree R st root D (obsUnroll C env st n) (unroll R env st n) := by
  induction n with
  | zero =>
    exact ⟨fun _ _ _ _ _ => Iff.rfl, fun _ _ _ _ _ _ _ _ => Iff.rfl, fun _ _ _ _ _ _ => id,
      fun _ _ _ _ _ _ h => h.elim⟩
  | succ n ih => exact agree_step ih hR hreg

end Jschon
