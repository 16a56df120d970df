import Verif.Proof.DocBridge
import Verif.Proof.DocVerdict
import Verif.Proof.EvalKws
import Verif.Spec.DocObserved
import Verif.Spec.Observed

/-!
# The observed meaning of schema objects and that of what was written
-/

namespace Jschon
open Spec

section
variable [dia : Dialect]
variable {lib : UriLib} {L : Links} {enabled : String → Bool} {C : Nat → Site → Prop} {b : Uri} {kws : List Kw}
  {kvs : List (String × Value)}

theorem Spec.OTarget.name {sc : List Site} {k s : String} {u : Site} (h : OTarget lib L sc b k s u) :
    k ∈ ["$ref", "$dynamicRef", "$recursiveRef"] := by
  cases h <;> decide

/-- Dynamic and recursive references are to the schemas made from what they refer to. -/
structure OAims (lib : UriLib) (L : Links) (enabled : String → Bool) (C : Nat → Site → Prop) (R : Rules) (sc : List SRef)
    (sc' : List Site) (b : Uri) : Prop where
  dyn : ∀ t f d s, KwReads lib L enabled C b "$dynamicRef" (.str s) (.dynamicRef t f d) →
    (∃ q, OTarget lib L sc' b "$dynamicRef" s q) ∧
    ∀ q, OTarget lib L sc' b "$dynamicRef" s q → C (if d then R.dyn sc t f else t) q
  recr : ∀ t s u, dia = .d2019 → L.refer b s u → (∀ u, L.refer b s u → C t u) →
    (∃ q, OTarget lib L sc' b "$recursiveRef" s q) ∧
    ∀ q, OTarget lib L sc' b "$recursiveRef" s q → C (R.recr sc t) q

/-- The store says of the schemas whether they are boolean. -/
def KindOk (C : Nat → Site → Prop) (st : Store) : Prop := ∀ s q, C s q →
  (∃ v, q.schema = .bool v ∧ st.obj s = .bool v) ∨ ∃ kvs kws, q.schema = .obj kvs ∧ st.obj s = .obj kws

variable {M : Meaning} {N : DMeaning} {env : Env} {R : Rules} {st : Store}

/-- Whether the keyword is `unevaluatedProperties` or `unevaluatedItems`. -/
def unevalKw : Kw → Bool
  | .unevaluatedProperties _ | .unevaluatedItems _ | .unevaluatedItems9 _ => true
  | _ => false

local macro "omet_none" : tactic => `(tactic| all_goals first
  | (intro e; exact absurd e (by decide))
  | (intro a h; exact absurd (written_name h) (by decide))
  | (intro s u _ h; exact absurd (Spec.OTarget.name h) (by decide))
  | skip)

/-- Members that demand nothing. -/
theorem omet_idle {sc' : List Site} {x : Value} {k : String} {v : Value} (h1 : k ∉ liveNames)
    (h2 : dia = .d2020 → k ∉ ["prefixItems", "$dynamicRef"])
    (h3 : dia = .d2019 → k ∉ ["additionalItems", "$recursiveRef"]) :
    OMet env enabled N sc' (site lib b) (OTarget lib L sc' b) kvs x k v := by
  constructor
  case assert => exact fun a h => absurd (List.mem_append_right _ (written_name h)) h1
  case ref =>
    intro s u _ h
    cases h with
    | ref => exact absurd (by decide) h1
    | static h => exact absurd (by decide) (h2 h)
    | dynamic h => exact absurd (by decide) (h2 h)
    | recursive h => exact absurd (by decide) (h3 h)
  case prefixItems => rintro rfl h; exact absurd (by decide) (h2 h)
  case additionalItems => rintro rfl h; exact absurd (by decide) (h3 h)
  all_goals (rintro rfl; exact absurd (by decide) h1)

theorem idle_omet {sc' : List Site} {x : Value} {k : String} {v : Value} (h : idleName k) :
    OMet env enabled N sc' (site lib b) (OTarget lib L sc' b) kvs x k v :=
  omet_idle (fun h' => not_idle h' h)
    (fun h20 h' => not_idle_of (idle_live20 h20 _ (by
      simp only [List.mem_cons, List.not_mem_nil, or_false] at h' ⊢
      rcases h' with h | h <;> simp only [h, true_or, or_true])) h)
    (fun h19 h' => not_idle_of (idle_live19 h19 _ (by
      simp only [List.mem_cons, List.not_mem_nil, or_false] at h' ⊢
      rcases h' with h | h <;> simp only [h, true_or, or_true])) h)

/-- A keyword passes if the member that it is for is met. -/
theorem ObjReads.omet_iff (O : ObjReads lib L enabled C b kws kvs) (A : DocAgree C M N) (hk : KindOk C st)
    (hmul : R.mult = ObsMultiple env.dec) {sc : List SRef} {sc' : List Site} (hsc : Scopes C sc sc')
    (T : OAims lib L enabled C R sc sc' b) (x : Value) {k : String} {v : Value} {kw : Kw}
    (hu : unevalKw kw = false) (hr : KwReads lib L enabled C b k v kw) :
    ObsHolds R env st M sc kws x kw ↔ OMet env enabled N sc' (site lib b) (OTarget lib L sc' b) kvs x k v := by
  cases kw <;> simp only [KwReads] at hr
  case unevaluatedProperties | unevaluatedItems | unevaluatedItems9 => cases hu
  case static =>
    obtain ⟨rfl, hr⟩ := hr
    refine ⟨fun _ => ?_, fun _ => trivial⟩
    rcases hr with h | ⟨h, -⟩
    · exact idle_omet h
    · refine omet_idle (fun h' => (idle_live _ h').2.2.2.2 h) (fun _ => ?_) (fun _ => ?_)
      all_goals
        simp only [anchorNames, List.mem_cons, List.not_mem_nil, or_false] at h ⊢
        rcases h with rfl | rfl | rfl <;> decide
  case annot => exact ⟨fun _ => idle_omet hr.2, fun _ => trivial⟩
  case unknown => exact ⟨fun _ => idle_omet hr.2, fun _ => trivial⟩
  case contentSchema =>
    subst hr
    exact ⟨fun _ => omet_idle (by decide) (fun _ => by decide) (fun _ => by decide), fun _ => trivial⟩
  all_goals simp only [ObsHolds, KwHolds]
  case assert a =>
    obtain ⟨hn, ⟨a0, ha0⟩, hr⟩ := hr
    rw [hmul]
    constructor
    · intro h
      constructor
      case assert => exact fun a' ha' => ((hr a' ha').iff _ _ _).1 h
      case ref =>
        intro s u _ h
        have := h.name
        simp only [List.mem_cons, List.not_mem_nil, or_false] at this
        rcases this with rfl | rfl | rfl <;> exact absurd hn (by decide)
      all_goals (rintro rfl; exact absurd hn (by decide))
    · exact fun H => ((hr a0 ha0).iff _ _ _).2 (H.assert _ ha0)
  case allOf =>
    obtain ⟨rfl, vs, rfl, hl⟩ := hr
    constructor
    · intro h
      constructor
      omet_none
      rintro - _ ⟨⟩ t ht
      obtain ⟨y, hy, hc⟩ := hl.mem' ht
      exact (A.valid hc hsc _).1 (h y hy)
    · intro H t ht
      obtain ⟨v, h1, hc⟩ := hl.mem ht
      exact (A.valid hc hsc _).2 (H.allOf rfl _ rfl _ h1)
  case anyOf =>
    obtain ⟨rfl, vs, rfl, hl⟩ := hr
    constructor
    · intro h
      constructor
      omet_none
      rintro - _ ⟨⟩
      obtain ⟨y, hy, h1⟩ := h
      obtain ⟨v, hv, hc⟩ := hl.mem hy
      exact ⟨v, hv, (A.valid hc hsc _).1 h1⟩
    · intro H
      obtain ⟨v, h1, h2⟩ := H.anyOf rfl _ rfl
      obtain ⟨t, ht, hc⟩ := hl.mem' h1
      exact ⟨t, ht, (A.valid hc hsc _).2 h2⟩
  case oneOf =>
    obtain ⟨rfl, vs, rfl, hl⟩ := hr
    constructor
    · intro h
      constructor
      omet_none
      rintro - _ ⟨⟩
      obtain ⟨j, y, hy, h1, h2⟩ := h
      obtain ⟨v, hv, hc⟩ := hl.get hy
      refine ⟨j, v, hv, (A.valid hc hsc _).1 h1, fun k u hu hk => ?_⟩
      obtain ⟨z, hz, hc'⟩ := hl.get' hu
      exact h2 k z hz ((A.valid hc' hsc _).2 hk)
    · intro H
      obtain ⟨j, v, h1, h2, h3⟩ := H.oneOf rfl _ rfl
      obtain ⟨t, ht, hc⟩ := hl.get' h1
      refine ⟨j, t, ht, (A.valid hc hsc _).2 h2, fun k u hu hk => ?_⟩
      obtain ⟨z, hz, hc'⟩ := hl.get hu
      exact h3 k z hz ((A.valid hc' hsc _).1 hk)
  case not_ =>
    obtain ⟨rfl, hc⟩ := hr
    constructor
    · intro h
      constructor
      omet_none
      exact fun _ h' => h ((A.valid hc hsc _).2 h')
    · exact fun H h => H.not_ rfl ((A.valid hc hsc _).1 h)
  case if_ =>
    obtain ⟨rfl, hc⟩ := hr
    refine ⟨fun _ => ?_, fun _ => trivial⟩
    constructor
    omet_none
  case then_ =>
    obtain ⟨rfl, hc⟩ := hr
    constructor
    · intro h
      constructor
      omet_none
      intro _ c hc' hv
      obtain ⟨z, h', hz⟩ := O.doc_if_ hc'
      exact (A.valid hc hsc _).1 (h z h' ((A.valid hz hsc _).2 hv))
    · intro H c h1 h2
      obtain ⟨_, c', hv', rfl, hc'⟩ := O.of_kw _ h1
      exact (A.valid hc hsc _).2 (H.then_ rfl _ hv' ((A.valid hc' hsc _).1 h2))
  case else_ =>
    obtain ⟨rfl, hc⟩ := hr
    constructor
    · intro h
      constructor
      omet_none
      intro _ c hc' hv
      obtain ⟨z, h', hz⟩ := O.doc_if_ hc'
      exact (A.valid hc hsc _).1 (h z h' fun hn => hv ((A.valid hz hsc _).1 hn))
    · intro H c h1 h2
      obtain ⟨_, c', hv', rfl, hc'⟩ := O.of_kw _ h1
      exact (A.valid hc hsc _).2 (H.else_ rfl _ hv' fun h => h2 ((A.valid hc' hsc _).2 h))
  case dependentSchemas =>
    obtain ⟨rfl, vs, rfl, hl⟩ := hr
    constructor
    · intro h
      constructor
      omet_none
      rintro - _ ⟨⟩ n t ht hn
      obtain ⟨y, hy, hc⟩ := hl.mem' ht
      exact (A.valid hc hsc _).1 (h _ hy hn)
    · rintro H ⟨n, t⟩ ht hn
      obtain ⟨v, h1, hc⟩ := hl.mem ht
      exact (A.valid hc hsc _).2 (H.dependentSchemas rfl _ rfl _ _ h1 hn)
  case properties =>
    obtain ⟨rfl, vs, rfl, hl⟩ := hr
    constructor
    · intro h
      constructor
      omet_none
      rintro - _ ⟨⟩ n t z ht hn
      obtain ⟨y, hy, hc⟩ := hl.mem' ht
      exact (A.valid hc hsc _).1 (h _ _ _ hy hn)
    · intro H n t y ht hn
      obtain ⟨v, h1, hc⟩ := hl.mem ht
      exact (A.valid hc hsc _).2 (H.properties rfl _ rfl _ _ _ h1 hn)
  case patternProperties =>
    obtain ⟨rfl, vs, rfl, hl⟩ := hr
    constructor
    · intro h
      constructor
      omet_none
      rintro - _ ⟨⟩ re t n z ht hn hre
      obtain ⟨y, hy, hc⟩ := hl.mem' ht
      exact (A.valid hc hsc _).1 (h _ _ _ _ hy hn hre)
    · intro H re t n y ht hn hre
      obtain ⟨v, h1, hc⟩ := hl.mem ht
      exact (A.valid hc hsc _).2 (H.patternProperties rfl _ rfl _ _ _ _ h1 hn hre)
  case additionalProperties =>
    obtain ⟨rfl, hc⟩ := hr
    constructor
    · intro h
      constructor
      omet_none
      exact fun _ n z hn hnn => (A.valid hc hsc _).1 (h n z hn fun h => hnn ((O.named_iff n).1 h))
    · exact fun H n y hn hnn =>
        (A.valid hc hsc _).2 (H.additionalProperties rfl _ _ hn fun h => hnn ((O.named_iff n).2 h))
  case propertyNames =>
    obtain ⟨rfl, hc⟩ := hr
    constructor
    · intro h
      constructor
      omet_none
      exact fun _ n hn => (A.valid hc hsc _).1 (h n hn)
    · exact fun H n hn => (A.valid hc hsc _).2 (H.propertyNames rfl _ hn)
  case prefixItems =>
    obtain ⟨rfl, h20, vs, rfl, hl⟩ := hr
    constructor
    · intro h
      constructor
      omet_none
      rintro - - _ ⟨⟩ k t z ht hz
      obtain ⟨y, hy, hc⟩ := hl.get' ht
      exact (A.valid hc hsc _).1 (h k y z hy hz)
    · intro H j t y ht hy
      obtain ⟨v, h1, hc⟩ := hl.get ht
      exact (A.valid hc hsc _).2 (H.prefixItems rfl h20 _ rfl _ _ _ h1 hy)
  case items =>
    obtain ⟨rfl, h20, hc⟩ := hr
    constructor
    · intro h
      constructor
      omet_none
      case items => exact fun _ _ k z hz hb => (A.valid hc hsc _).1 (h k z hz ((O.beyond_iff h20 k).2 hb))
      all_goals (intro _ e; rw [h20] at e; cases e)
    · exact fun H j y hy hb => (A.valid hc hsc _).2 (H.items rfl h20 _ _ hy ((O.beyond_iff h20 j).1 hb))
  case items9 t =>
    obtain ⟨rfl, h19, ha, hc⟩ := hr
    rcases hk _ _ hc with ⟨v', e1, e2⟩ | ⟨ms, ks, e1, e2⟩
    · simp only [e2]
      replace e1 : v = .bool v' := e1
      constructor
      · intro h
        constructor
        omet_none
        case items => intro _ e; rw [h19] at e; cases e
        case itemsBool => exact fun _ _ b _ hx => (A.valid hc hsc _).1 (h hx)
        case itemsAll => intro _ _ ms e; rw [e1] at e; cases e
        case itemsEach => intro _ _ ss e; exact absurd e (ha ss)
      · exact fun H hx => (A.valid hc hsc _).2 (H.itemsBool rfl h19 _ e1 hx)
    · simp only [e2]
      replace e1 : v = .obj ms := e1
      constructor
      · intro h
        constructor
        omet_none
        case items => intro _ e; rw [h19] at e; cases e
        case itemsBool => intro _ _ b e; rw [e1] at e; cases e
        case itemsAll => exact fun _ _ ms _ y hy => (A.valid hc hsc _).1 (h y hy)
        case itemsEach => intro _ _ ss e; exact absurd e (ha ss)
      · exact fun H y hy => (A.valid hc hsc _).2 (H.itemsAll rfl h19 _ e1 _ hy)
  case items9Array =>
    obtain ⟨rfl, h19, vs, rfl, hl⟩ := hr
    constructor
    · intro h
      constructor
      omet_none
      case items => intro _ e; rw [h19] at e; cases e
      case itemsBool => intro _ _ b e; cases e
      case itemsAll => intro _ _ b e; cases e
      case itemsEach =>
        rintro - - _ ⟨⟩ k t z ht hz
        obtain ⟨y, hy, hc⟩ := hl.get' ht
        exact (A.valid hc hsc _).1 (h k y z hy hz)
    · intro H j t y ht hy
      obtain ⟨v, h1, hc⟩ := hl.get ht
      exact (A.valid hc hsc _).2 (H.itemsEach rfl h19 _ rfl _ _ _ h1 hy)
  case additionalItems =>
    obtain ⟨rfl, h19, hc⟩ := hr
    constructor
    · intro h
      constructor
      omet_none
      intro _ _ ss hs hne he j z hz hj
      rcases O.doc_items9 h19 hs with ⟨y, h', e, -⟩ | ⟨ts, h', vs, e, hl⟩
      · exact absurd rfl (e _)
      · cases e
        refine (A.valid hc hsc _).1 (h ts h' ?_ ?_ j z hz (hl.1.symm ▸ hj))
        · rintro rfl
          exact hne (List.length_eq_zero_iff.1 hl.1.symm)
        · intro j t y ht hy
          obtain ⟨v, h1, hc⟩ := hl.get ht
          exact (A.valid hc hsc _).2 (he _ _ _ h1 hy)
    · intro H ts h1 hne he j y hy hj
      obtain ⟨_, v, hv', rfl, -, vs, rfl, hl⟩ := O.of_kw _ h1
      refine (A.valid hc hsc _).2 (H.additionalItems rfl h19 _ hv' ?_ ?_ _ _ hy (hl.1 ▸ hj))
      · rintro rfl
        exact hne (List.length_eq_zero_iff.1 hl.1)
      · intro k t z ht hz
        obtain ⟨y, hy, hc⟩ := hl.get' ht
        exact (A.valid hc hsc _).1 (he k y z hy hz)
  case contains =>
    obtain ⟨rfl, hc⟩ := hr
    rw [A.matching hc hsc]
    constructor
    · intro h
      constructor
      omet_none
      intro _ hx hm
      refine h hx fun m hk => ?_
      obtain ⟨_, v, hv, rfl, rfl⟩ := O.of_kw _ hk
      exact hm _ hv
    · intro H hx hm
      refine H.contains rfl hx fun m h => ?_
      obtain ⟨m', h', -⟩ := O.doc_minContains h
      exact hm _ h'
  case minContains =>
    obtain ⟨rfl, rfl⟩ := hr
    constructor
    · intro h
      constructor
      omet_none
      rintro - _ t ⟨⟩ ht hx
      obtain ⟨y, h', hc⟩ := O.doc_contains ht
      rw [← A.matching hc hsc]
      exact h hx _ h'
    · intro H hx t ht
      obtain ⟨_, v, hv', rfl, hc⟩ := O.of_kw _ ht
      rw [A.matching hc hsc]
      exact H.minContains rfl _ _ rfl hv' hx
  case maxContains =>
    obtain ⟨rfl, rfl⟩ := hr
    constructor
    · intro h
      constructor
      omet_none
      rintro - _ t ⟨⟩ ht hx
      obtain ⟨y, h', hc⟩ := O.doc_contains ht
      rw [← A.matching hc hsc]
      exact h hx _ h'
    · intro H hx t ht
      obtain ⟨_, v, hv', rfl, hc⟩ := O.of_kw _ ht
      rw [A.matching hc hsc]
      exact H.maxContains rfl _ _ rfl hv' hx
  case ref =>
    obtain ⟨rfl, s, u, rfl, h1, h2⟩ := hr
    constructor
    · intro h
      constructor
      omet_none
      rintro _ u' ⟨⟩ hu'
      generalize hk : "$ref" = k at hu'
      cases hu' with
      | ref hr => exact (A.valid (h2 _ hr) hsc _).1 h
      | static => exact absurd hk (by decide)
      | dynamic => exact absurd hk (by decide)
      | recursive => exact absurd hk (by decide)
    · exact fun H => (A.valid (h2 _ h1) hsc _).2 (H.ref _ _ rfl (.ref h1))
  case dynamicRef =>
    have hr' := hr
    obtain ⟨rfl, -, s, u, rfl, -⟩ := hr'
    obtain ⟨⟨q, hq⟩, h2⟩ := T.dyn _ _ _ _ hr
    constructor
    · intro h
      constructor
      omet_none
      rintro _ u' ⟨⟩ hu'
      exact (A.valid (h2 _ hu') hsc _).1 h
    · exact fun H => (A.valid (h2 _ hq) hsc _).2 (H.ref _ _ rfl hq)
  case recursiveRef =>
    obtain ⟨rfl, h19, s, u, rfl, h0, h1⟩ := hr
    obtain ⟨⟨q, hq⟩, h2⟩ := T.recr _ _ _ h19 h0 h1
    constructor
    · intro h
      constructor
      omet_none
      rintro _ u' ⟨⟩ hu'
      exact (A.valid (h2 _ hu') hsc _).1 h
    · exact fun H => (A.valid (h2 _ hq) hsc _).2 (H.ref _ _ rfl hq)
  case format =>
    obtain ⟨rfl, rfl, rfl⟩ := hr
    constructor
    · intro h
      constructor
      omet_none
      rintro - _ ⟨⟩ he ht
      exact h he ht
    · exact fun H he ht => H.format rfl _ rfl he ht

/-- What the keywords evaluate is what the members evaluate. -/
theorem ObjReads.oev_iff (O : ObjReads lib L enabled C b kws kvs) (A : DocAgree C M N) (hk : KindOk C st)
    (hd : R.dialect = dia) (hmul : R.mult = ObsMultiple env.dec) {sc : List SRef} {sc' : List Site}
    (hsc : Scopes C sc sc') (T : OAims lib L enabled C R sc sc' b) (x : Value) (pt : Pt) :
    (∃ kw ∈ kws, ObsEv R env st M sc kws x kw pt) ↔
      OEv env enabled N sc' (site lib b) (OTarget lib L sc' b) kvs x pt := by
  have met : ∀ {k v} (kw : Kw), unevalKw kw = false → KwReads lib L enabled C b k v kw →
      (ObsHolds R env st M sc kws x kw ↔ OMet env enabled N sc' (site lib b) (OTarget lib L sc' b) kvs x k v) :=
    fun kw h1 h2 => O.omet_iff A hk hmul hsc T x h1 h2
  have uniq : ∀ {v v'}, ("items", v) ∈ kvs → ("items", v') ∈ kvs → v = v' := by
    intro v v' h1 h2
    have e1 := dlookup_of_mem O.nodup h1
    have e2 := dlookup_of_mem O.nodup h2
    rw [e1] at e2; cases e2; rfl
  constructor
  · rintro ⟨kw, hk', he⟩
    obtain ⟨k, v, hv, hr⟩ := O.of_kw _ hk'
    have hr0 := hr
    cases kw <;> simp only [KwReads] at hr
    case allOf =>
      obtain ⟨rfl, vs, rfl, hl⟩ := hr
      obtain ⟨h0, t, h1, h3⟩ := he
      obtain ⟨v, h4, h5⟩ := hl.mem h1
      exact .allOf hv ((met _ rfl hr0).1 h0) h4 ((A.ev h5 hsc _ _).1 h3)
    case anyOf =>
      obtain ⟨rfl, vs, rfl, hl⟩ := hr
      obtain ⟨t, h1, h2, h3⟩ := he
      obtain ⟨v, h4, h5⟩ := hl.mem h1
      exact .anyOf hv h4 ((A.valid h5 hsc _).1 h2) ((A.ev h5 hsc _ _).1 h3)
    case oneOf =>
      obtain ⟨rfl, vs, rfl, hl⟩ := hr
      obtain ⟨h0, t, h1, h2, h3⟩ := he
      obtain ⟨v, h4, h5⟩ := hl.mem h1
      exact .oneOf hv ((met _ rfl hr0).1 h0) h4 ((A.valid h5 hsc _).1 h2) ((A.ev h5 hsc _ _).1 h3)
    case not_ =>
      obtain ⟨rfl, hc⟩ := hr
      exact .not_ hv (fun h => he.1 ((A.valid hc hsc _).2 h)) ((A.ev hc hsc _ _).1 he.2)
    case if_ =>
      obtain ⟨rfl, hc⟩ := hr
      exact .if_ hv ((A.valid hc hsc _).1 he.1) ((A.ev hc hsc _ _).1 he.2)
    case then_ =>
      obtain ⟨rfl, hc⟩ := hr
      obtain ⟨⟨c, h1, h2⟩, h3, h4⟩ := he
      obtain ⟨_, c', hv', rfl, hc'⟩ := O.of_kw _ h1
      exact .then_ hv hv' ((A.valid hc' hsc _).1 h2) ((A.valid hc hsc _).1 h3) ((A.ev hc hsc _ _).1 h4)
    case else_ =>
      obtain ⟨rfl, hc⟩ := hr
      obtain ⟨⟨c, h1, h2⟩, h3, h4⟩ := he
      obtain ⟨_, c', hv', rfl, hc'⟩ := O.of_kw _ h1
      exact .else_ hv hv' (fun h => h2 ((A.valid hc' hsc _).2 h)) ((A.valid hc hsc _).1 h3) ((A.ev hc hsc _ _).1 h4)
    case dependentSchemas =>
      obtain ⟨rfl, vs, rfl, hl⟩ := hr
      obtain ⟨h0, ⟨n, t⟩, h1, h2, h4⟩ := he
      obtain ⟨v, h5, h6⟩ := hl.mem h1
      exact .dependentSchemas hv ((met _ rfl hr0).1 h0) h5 h2 ((A.ev h6 hsc _ _).1 h4)
    case ref =>
      obtain ⟨rfl, s, u, rfl, h1, h2⟩ := hr
      exact .ref hv (.ref h1) ((A.valid (h2 _ h1) hsc _).1 he.1) ((A.ev (h2 _ h1) hsc _ _).1 he.2)
    case dynamicRef =>
      have hr' := hr
      obtain ⟨rfl, -, s, u, rfl, -⟩ := hr'
      obtain ⟨⟨q, hq⟩, h2⟩ := T.dyn _ _ _ _ hr
      exact .ref hv hq ((A.valid (h2 _ hq) hsc _).1 he.1) ((A.ev (h2 _ hq) hsc _ _).1 he.2)
    case recursiveRef =>
      obtain ⟨rfl, h19, s, u, rfl, h0, h1⟩ := hr
      obtain ⟨⟨q, hq⟩, h2⟩ := T.recr _ _ _ h19 h0 h1
      exact .ref hv hq ((A.valid (h2 _ hq) hsc _).1 he.1) ((A.ev (h2 _ hq) hsc _ _).1 he.2)
    case properties =>
      obtain ⟨rfl, vs, rfl, hl⟩ := hr
      cases pt with
      | item => cases he
      | name n =>
        obtain ⟨h0, t, ht⟩ := he
        obtain ⟨v, h, -⟩ := hl.mem ht
        exact .properties hv ((met _ rfl hr0).1 h0) h
    case patternProperties =>
      obtain ⟨rfl, vs, rfl, hl⟩ := hr
      cases pt with
      | item => cases he
      | name n =>
        obtain ⟨h0, re, t, ht, h2⟩ := he
        obtain ⟨v, h, -⟩ := hl.mem ht
        exact .patternProperties hv ((met _ rfl hr0).1 h0) h h2
    case additionalProperties =>
      obtain ⟨rfl, hc⟩ := hr
      cases pt with
      | item => cases he
      | name n => exact .additionalProperties hv ((met _ rfl hr0).1 he.1) fun h => he.2 ((O.named_iff n).2 h)
    case prefixItems =>
      obtain ⟨rfl, h20, vs, rfl, hl⟩ := hr
      cases pt with
      | name => cases he
      | item n => exact .prefixItems h20 hv ((met _ rfl hr0).1 he.1) (hl.1 ▸ he.2)
    case items =>
      obtain ⟨rfl, h20, hc⟩ := hr
      cases pt with
      | name => cases he
      | item n =>
        obtain ⟨h0, j, h1, h2⟩ := he
        exact .items h20 hv ((met _ rfl hr0).1 h0) h1 ((O.beyond_iff h20 j).1 h2)
    case items9 =>
      obtain ⟨rfl, h19, ha, hc⟩ := hr
      cases pt with
      | name => cases he
      | item n =>
        obtain ⟨⟨ks, e⟩, h0⟩ := he
        rcases hk _ _ hc with ⟨v', e1, e2⟩ | ⟨ms, ks', e1, e2⟩
        · rw [e] at e2; cases e2
        · cases show v = .obj ms from e1
          refine .itemsAll h19 hv ((met _ rfl hr0).1 ?_)
          simp only [ObsHolds, e]
          exact h0
    case items9Array =>
      obtain ⟨rfl, h19, vs, rfl, hl⟩ := hr
      cases pt with
      | name => cases he
      | item n => exact .itemsEach h19 hv ((met _ rfl hr0).1 he.1) (hl.1 ▸ he.2)
    case additionalItems =>
      obtain ⟨rfl, h19, hc⟩ := hr
      cases pt with
      | name => cases he
      | item n =>
        obtain ⟨ss, h1, hne, h2, h3, h4⟩ := he
        obtain ⟨_, v', hv', hr'⟩ := O.of_kw _ h1
        have hr1 := hr'
        obtain ⟨rfl, -, vs, rfl, hl⟩ := hr'
        refine .additionalItems h19 hv hv' ?_ ((met _ rfl hr1).1 h2) ((met _ rfl hr0).1 ?_) (hl.1 ▸ h4)
        · rintro rfl
          exact hne (List.length_eq_zero_iff.1 hl.1)
        · exact fun ts h _ _ => h3 ts h
    case contains =>
      obtain ⟨rfl, hc⟩ := hr
      cases pt with
      | name => cases he
      | item n =>
        obtain ⟨h20, y, h1, h2⟩ := he
        exact .contains (hd.symm.trans h20) hv h1 ((A.valid hc hsc _).1 h2)
    all_goals (cases pt <;> cases he)
  · intro h
    cases h with
    | properties h1 hm h2 =>
      obtain ⟨ts, h, vs, e, hl⟩ := O.doc_properties h1
      cases e
      obtain ⟨t, ht, -⟩ := hl.mem' h2
      exact ⟨_, h, (met (.properties ts) rfl ⟨rfl, _, rfl, hl⟩).2 hm, t, ht⟩
    | patternProperties h1 hm h2 h3 =>
      obtain ⟨ts, h, vs, e, hl⟩ := O.doc_patternProperties h1
      cases e
      obtain ⟨t, ht, -⟩ := hl.mem' h2
      exact ⟨_, h, (met (.patternProperties ts) rfl ⟨rfl, _, rfl, hl⟩).2 hm, _, t, ht, h3⟩
    | additionalProperties h1 hm h2 =>
      obtain ⟨t, h, hc⟩ := O.doc_additionalProperties h1
      exact ⟨_, h, (met (.additionalProperties t) rfl ⟨rfl, hc⟩).2 hm, fun h => h2 ((O.named_iff _).1 h)⟩
    | prefixItems h20 h1 hm h2 =>
      obtain ⟨ts, h, vs, e, hl⟩ := O.doc_prefixItems h20 h1
      cases e
      exact ⟨_, h, (met (.prefixItems ts) rfl ⟨rfl, h20, _, rfl, hl⟩).2 hm, show _ < ts.length from hl.1.symm ▸ h2⟩
    | items h20 h1 hm h2 h3 =>
      obtain ⟨t, h, hc⟩ := O.doc_items h20 h1
      exact ⟨_, h, (met (.items t) rfl ⟨rfl, h20, hc⟩).2 hm, _, h2, (O.beyond_iff h20 _).2 h3⟩
    | contains h20 h1 h2 h3 =>
      obtain ⟨t, h, hc⟩ := O.doc_contains h1
      exact ⟨_, h, hd.trans h20, _, h2, (A.valid hc hsc _).2 h3⟩
    | @itemsAll ms _ h19 h1 hm =>
      rcases O.doc_items9 h19 h1 with ⟨t, h, ha, hc⟩ | ⟨ts, h, vs, e, -⟩
      · rcases hk _ _ hc with ⟨v', e1, e2⟩ | ⟨ms', ks', e1, e2⟩
        · cases e1
        · have := (met (.items9 t) rfl ⟨rfl, h19, ha, hc⟩).2 hm
          simp only [ObsHolds, e2] at this
          exact ⟨_, h, ⟨_, e2⟩, this⟩
      · cases e
    | itemsEach h19 h1 hm h2 =>
      rcases O.doc_items9 h19 h1 with ⟨t, h, e, -⟩ | ⟨ts, h, vs, e, hl⟩
      · exact absurd rfl (e _)
      · cases e
        exact ⟨_, h, (met (.items9Array ts) rfl ⟨rfl, h19, _, rfl, hl⟩).2 hm, show _ < ts.length from hl.1.symm ▸ h2⟩
    | additionalItems h19 h1 h2 hne hm hm' h3 =>
      obtain ⟨t, h, hc⟩ := O.doc_additionalItems h19 h1
      rcases O.doc_items9 h19 h2 with ⟨t, h', e, -⟩ | ⟨ts, h', vs, e, hl⟩
      · exact absurd rfl (e _)
      · cases e
        have g0 : ts ≠ [] := by
          rintro rfl
          exact hne (List.length_eq_zero_iff.1 hl.1.symm)
        have g1 := (met (.items9Array ts) rfl ⟨rfl, h19, _, rfl, hl⟩).2 hm
        have g2 := (met (.additionalItems t) rfl ⟨rfl, h19, hc⟩).2 hm'
        refine ⟨_, h, ts, h', g0, g1, ?_, show ts.length < _ from hl.1.symm ▸ h3⟩
        intro ss hs j y hy hj
        obtain ⟨_, v', hv', rfl, -, vs', rfl, hl'⟩ := O.of_kw _ hs
        cases uniq h2 hv'
        exact g2 ts h' g0 g1 j y hy (by rw [hl.1, ← hl'.1]; exact hj)
    | allOf h1 hm h2 h4 =>
      obtain ⟨ts, h, vs, e, hl⟩ := O.doc_allOf h1
      cases e
      obtain ⟨t, ht, hc⟩ := hl.mem' h2
      exact ⟨_, h, (met (.allOf ts) rfl ⟨rfl, _, rfl, hl⟩).2 hm, t, ht, (A.ev hc hsc _ _).2 h4⟩
    | anyOf h1 h2 h3 h4 =>
      obtain ⟨ts, h, vs, e, hl⟩ := O.doc_anyOf h1
      cases e
      obtain ⟨t, ht, hc⟩ := hl.mem' h2
      exact ⟨_, h, t, ht, (A.valid hc hsc _).2 h3, (A.ev hc hsc _ _).2 h4⟩
    | oneOf h1 hm h2 h3 h4 =>
      obtain ⟨ts, h, vs, e, hl⟩ := O.doc_oneOf h1
      cases e
      obtain ⟨t, ht, hc⟩ := hl.mem' h2
      exact ⟨_, h, (met (.oneOf ts) rfl ⟨rfl, _, rfl, hl⟩).2 hm, t, ht, (A.valid hc hsc _).2 h3, (A.ev hc hsc _ _).2 h4⟩
    | not_ h1 h2 h3 =>
      obtain ⟨t, h, hc⟩ := O.doc_not_ h1
      exact ⟨_, h, fun h => h2 ((A.valid hc hsc _).1 h), (A.ev hc hsc _ _).2 h3⟩
    | if_ h1 h2 h3 =>
      obtain ⟨t, h, hc⟩ := O.doc_if_ h1
      exact ⟨_, h, (A.valid hc hsc _).2 h2, (A.ev hc hsc _ _).2 h3⟩
    | then_ h1 h2 h3 h4 h5 =>
      obtain ⟨t, h, hc⟩ := O.doc_then_ h1
      obtain ⟨t', h', hc'⟩ := O.doc_if_ h2
      exact ⟨_, h, ⟨t', h', (A.valid hc' hsc _).2 h3⟩, (A.valid hc hsc _).2 h4, (A.ev hc hsc _ _).2 h5⟩
    | else_ h1 h2 h3 h4 h5 =>
      obtain ⟨t, h, hc⟩ := O.doc_else_ h1
      obtain ⟨t', h', hc'⟩ := O.doc_if_ h2
      exact ⟨_, h, ⟨t', h', fun h => h3 ((A.valid hc' hsc _).1 h)⟩, (A.valid hc hsc _).2 h4, (A.ev hc hsc _ _).2 h5⟩
    | dependentSchemas h1 hm h2 h3 h5 =>
      obtain ⟨ts, h, vs, e, hl⟩ := O.doc_dependentSchemas h1
      cases e
      obtain ⟨t, ht, hc⟩ := hl.mem' h2
      exact ⟨_, h, (met (.dependentSchemas ts) rfl ⟨rfl, _, rfl, hl⟩).2 hm, (_, t), ht, h3, (A.ev hc hsc _ _).2 h5⟩
    | ref h1 h2 h3 h4 =>
      have dyn : dia = .d2020 → ∀ {s}, ("$dynamicRef", .str s) ∈ kvs → ∀ {q}, OTarget lib L sc' b "$dynamicRef" s q → N.valid sc' q x →
          N.ev sc' q x pt → ∃ kw ∈ kws, ObsEv R env st M sc kws x kw pt := by
        intro h20 s h1 q h2 h3 h4
        obtain ⟨t, f, d, h, hr⟩ := O.doc_dynamicRef h20 h1
        have hc := (T.dyn _ _ _ _ hr).2 _ h2
        exact ⟨_, h, (A.valid hc hsc _).2 h3, (A.ev hc hsc _ _).2 h4⟩
      have h2' := h2
      cases h2' with
      | ref hu =>
        obtain ⟨t, h, s, _, e, -, hc⟩ := O.doc_ref h1
        cases e
        have hc := hc _ hu
        exact ⟨_, h, (A.valid hc hsc _).2 h3, (A.ev hc hsc _ _).2 h4⟩
      | static h20 _ _ => exact dyn h20 h1 h2 h3 h4
      | dynamic h20 _ _ _ => exact dyn h20 h1 h2 h3 h4
      | recursive h19 hu hq =>
        obtain ⟨t, h, s, _, e, -, hc⟩ := O.doc_recursiveRef h19 h1
        cases e
        have hc := (T.recr _ _ _ h19 hu hc).2 _ h2
        exact ⟨_, h, (A.valid hc hsc _).2 h3, (A.ev hc hsc _ _).2 h4⟩

/-- All keywords: a keyword passes if the member that it is for is met. -/
theorem ObjReads.oholds_iff (O : ObjReads lib L enabled C b kws kvs) (A : DocAgree C M N) (hk : KindOk C st)
    (hd : R.dialect = dia) (hmul : R.mult = ObsMultiple env.dec) {sc : List SRef} {sc' : List Site}
    (hsc : Scopes C sc sc') (T : OAims lib L enabled C R sc sc' b) (x : Value) {k : String} {v : Value} {kw : Kw}
    (hr : KwReads lib L enabled C b k v kw) :
    ObsHolds R env st M sc kws x kw ↔ OHolds env enabled N sc' (site lib b) (OTarget lib L sc' b) kvs x k v := by
  have hev := O.oev_iff A hk hd hmul hsc T x
  by_cases hu : unevalKw kw = true
  · cases kw <;> simp only [unevalKw, Bool.false_eq_true] at hu
    case unevaluatedProperties =>
      obtain ⟨rfl, hc⟩ := hr
      constructor
      · intro h
        refine ⟨?_, fun _ n z hn hnn => (A.valid hc hsc _).1 (h n z hn fun h => hnn ((hev _).1 h)),
          fun e => absurd e (by decide)⟩
        constructor
        omet_none
      · exact fun H n y hn hnn => (A.valid hc hsc _).2 (H.unevaluatedProperties rfl _ _ hn fun h => hnn ((hev _).2 h))
    case unevaluatedItems =>
      obtain ⟨rfl, -, hc⟩ := hr
      constructor
      · intro h
        refine ⟨?_, fun e => absurd e (by decide),
          fun _ n z hn hnn => (A.valid hc hsc _).1 (h n z hn fun h => hnn ((hev _).1 h))⟩
        constructor
        omet_none
      · exact fun H n y hn hnn => (A.valid hc hsc _).2 (H.unevaluatedItems rfl _ _ hn fun h => hnn ((hev _).2 h))
    case unevaluatedItems9 =>
      obtain ⟨rfl, -, hc⟩ := hr
      constructor
      · intro h
        refine ⟨?_, fun e => absurd e (by decide),
          fun _ n z hn hnn => (A.valid hc hsc _).1 (h n z hn fun h => hnn ((hev _).1 h))⟩
        constructor
        omet_none
      · exact fun H n y hn hnn => (A.valid hc hsc _).2 (H.unevaluatedItems rfl _ _ hn fun h => hnn ((hev _).2 h))
  · have hu' : unevalKw kw = false := by simpa using hu
    refine (O.omet_iff A hk hmul hsc T x hu' hr).trans ⟨fun h => ⟨h, ?_, ?_⟩, fun h => h.toOMet⟩
    · rintro rfl
      have hi : ¬ idleName "unevaluatedProperties" := not_idle (by decide)
      have ha : "unevaluatedProperties" ∉ assertNames := by decide
      have hn : "unevaluatedProperties" ∉ anchorNames := by decide
      cases kw <;> simp only [KwReads, hi, ha, hn, false_and, and_false, or_self, String.reduceEq, true_and] at hr
      exact absurd rfl hu
    · rintro rfl
      have hi : ¬ idleName "unevaluatedItems" := not_idle (by decide)
      have ha : "unevaluatedItems" ∉ assertNames := by decide
      have hn : "unevaluatedItems" ∉ anchorNames := by decide
      cases kw <;> simp only [KwReads, hi, ha, hn, false_and, and_false, or_self, String.reduceEq, true_and] at hr
      · exact absurd rfl hu
      · exact absurd rfl hu

/-! ## Dynamic references -/

omit dia in
theorem snoc_split {α} {l a c : List α} {p x : α} (h : l ++ [p] = a ++ x :: c) :
    (c = [] ∧ l = a ∧ p = x) ∨ ∃ c', c = c' ++ [p] ∧ l = a ++ x :: c' := by
  rcases List.eq_nil_or_concat c with rfl | ⟨c', y, rfl⟩
  · have := List.append_inj' h rfl
    exact .inl ⟨rfl, this.1, by simpa using this.2⟩
  · rw [List.concat_eq_append, ← List.cons_append, ← List.append_assoc] at h
    have := List.append_inj' h rfl
    exact .inr ⟨c', by rw [List.concat_eq_append, show p = y by simpa using this.2], this.1⟩

omit dia in
/-- A base URI that occurred before, or one without the anchor, makes no difference. -/
theorem odyn_skip {f : String} {pre : List Site} {p u q : Site}
    (h : (∃ a ∈ pre, a.base = p.base) ∨ ∀ q', ¬ L.dyn p.base f q') : ODyn L f (pre ++ [p]) u q ↔ ODyn L f pre u q := by
  constructor
  · intro H
    cases H with
    | found h1 h2 h3 h4 =>
      rcases snoc_split h1 with ⟨rfl, rfl, rfl⟩ | ⟨c', rfl, rfl⟩
      · rcases h with ⟨a, ha, e⟩ | h
        · exact absurd e (h3 a ha)
        · exact absurd h2 (h _)
      · refine .found rfl h2 h3 fun o1 p' o2 e q' hq' => h4 o1 p' (o2 ++ [p]) ?_ q' hq'
        rw [e, List.append_assoc, List.cons_append]
    | none h1 => exact .none fun p' hp' => h1 p' (List.mem_append_left _ hp')
  · intro H
    cases H with
    | @found inner outer p0 _ h1 h2 h3 h4 =>
      subst h1
      refine .found (inner := inner) (p := p0) (outer := outer ++ [p]) (by simp) h2 h3 fun o1 p' o2 e q' hq' => ?_
      rcases snoc_split e with ⟨rfl, rfl, rfl⟩ | ⟨c', rfl, rfl⟩
      · rcases h with h | h
        · exact h
        · exact absurd hq' (h _)
      · exact h4 o1 p' c' rfl q' hq'
    | none h1 =>
      refine .none fun p' hp' q' hq' => ?_
      rcases List.mem_append.1 hp' with hp' | hp'
      · exact h1 p' hp' q' hq'
      · cases List.mem_singleton.1 hp'
        rcases h with ⟨a, ha, e⟩ | h
        · exact h1 a ha q' (e ▸ hq')
        · exact h q' hq'

omit dia in
/-- A new base URI with the anchor takes precedence. -/
theorem odyn_hit {f : String} {pre : List Site} {p u q q0 : Site} (h : ∀ a ∈ pre, a.base ≠ p.base)
    (h0 : L.dyn p.base f q0) : ODyn L f (pre ++ [p]) u q ↔ L.dyn p.base f q := by
  constructor
  · intro H
    cases H with
    | found h1 h2 h3 h4 =>
      rcases snoc_split h1 with ⟨rfl, rfl, rfl⟩ | ⟨c', rfl, rfl⟩
      · exact h2
      · obtain ⟨a, ha, e⟩ := h4 c' p [] rfl q0 h0
        exact absurd e (h a ha)
    | none h1 => exact absurd h0 (h1 p (by simp) q0)
  · intro hq
    exact .found (inner := pre) (outer := []) rfl hq h (fun o1 p' o2 e => by
      cases o1 <;> simp at e)

section
variable (S : StoreReads lib L enabled C st)
include S

/-- The loop over the dynamic scope finds what the reference refers to. -/
theorem StoreReads.dynLoop_odyn (h20 : dia = .d2020) {f : String} (hf : AnchorText f) {u : Site} {sc : List SRef}
    {rest : List Site} (hsc : Scopes C sc rest) : ∀ {pre : List Site} {checked : List String} {t : SRef},
    (∀ a ∈ pre, ∃ s, C s a) → (∀ x, x ∈ checked ↔ ∃ a ∈ pre, a.base.str = x) →
    ((∃ q, ODyn L f pre u q) ∧ ∀ q, ODyn L f pre u q → C t q) →
    (∃ q, ODyn L f (pre ++ rest) u q) ∧ ∀ q, ODyn L f (pre ++ rest) u q → C (dynLoop st f sc checked t) q := by
  induction hsc with
  | nil =>
    intro pre checked t _ _ h
    rw [List.append_nil]
    exact h
  | @cons s p sc rest hp hsc ih =>
    intro pre checked t hpre hch h
    have hpre' : ∀ a ∈ pre ++ [p], ∃ s, C s a := by
      intro a ha
      rcases List.mem_append.1 ha with ha | ha
      · exact hpre a ha
      · cases List.mem_singleton.1 ha; exact ⟨s, hp⟩
    have hch' : ∀ x, x ∈ p.base.str :: checked ↔ ∃ a ∈ pre ++ [p], a.base.str = x := by
      intro x
      rw [List.mem_cons, hch]
      constructor
      · rintro (rfl | ⟨a, ha, e⟩)
        · exact ⟨p, by simp, rfl⟩
        · exact ⟨a, List.mem_append_left _ ha, e⟩
      · rintro ⟨a, ha, e⟩
        rcases List.mem_append.1 ha with ha | ha
        · exact .inr ⟨a, ha, e⟩
        · cases List.mem_singleton.1 ha; exact .inl e.symm
    have step : ∀ {checked' t'}, (∀ x, x ∈ checked' ↔ ∃ a ∈ pre ++ [p], a.base.str = x) →
        ((∃ q, ODyn L f (pre ++ [p]) u q) ∧ ∀ q, ODyn L f (pre ++ [p]) u q → C t' q) →
        (∃ q, ODyn L f (pre ++ p :: rest) u q) ∧
          ∀ q, ODyn L f (pre ++ p :: rest) u q → C (dynLoop st f sc checked' t') q := by
      intro checked' t' hc ht
      have := ih hpre' hc ht
      rwa [List.append_assoc, List.singleton_append] at this
    have hb := S.base hp
    by_cases hc : p.base.str ∈ checked
    · obtain ⟨a, ha, e⟩ := (hch _).1 hc
      obtain ⟨sa, hsa⟩ := hpre a ha
      have e := S.text hsa hp e
      rw [dynLoop_cons.2.2.1 _ hb hc]
      refine step (fun x => ?_) ?_
      · rw [← hch']
        constructor
        · exact List.mem_cons_of_mem _
        · intro h
          rcases List.mem_cons.1 h with rfl | h
          · exact hc
          · exact h
      · have := fun q => odyn_skip (L := L) (f := f) (u := u) (q := q) (.inl ⟨a, ha, e⟩)
        simpa only [this] using h
    · have hnew : ∀ a ∈ pre, a.base ≠ p.base := fun a ha e => hc ((hch _).2 ⟨a, ha, by rw [e]⟩)
      by_cases hd : ∃ q0, L.dyn p.base f q0
      · obtain ⟨q0, h0⟩ := hd
        obtain ⟨t0, -, ht0⟩ := S.dynAnchor' hp h0
        rw [dynLoop_cons.1 _ hb hc t0 ht0]
        refine step hch' ?_
        have := fun q => odyn_hit (u := u) (q := q) hnew h0
        simp only [this]
        refine ⟨⟨q0, h0⟩, fun q hq => ?_⟩
        obtain ⟨t1, c1, ht1⟩ := S.dynAnchor' hp hq
        exact DynAnchor.unique ht0 ht1 ▸ c1
      · have hno : ∀ q', ¬ L.dyn p.base f q' := fun q' h => hd ⟨q', h⟩
        rw [dynLoop_cons.2.1 _ hb hc fun t ht => by
          obtain ⟨q, -, hq⟩ := S.dynAnchor h20 hp hf ht
          exact hno q hq]
        refine step hch' ?_
        have := fun q => odyn_skip (L := L) (f := f) (pre := pre) (u := u) (q := q) (.inr hno)
        simpa only [this] using h

omit S in
theorem Spec.OTarget.dyn {sc : List Site} {b : Uri} {s : String} {q : Site} (h : OTarget lib L sc b "$dynamicRef" s q) :
    (L.refer b s q ∧ ∀ f, ¬ Dynamic lib s f q) ∨ ∃ f u, L.refer b s u ∧ Dynamic lib s f u ∧ ODyn L f sc u q := by
  generalize hk : "$dynamicRef" = k at h
  cases h with
  | ref => exact absurd hk (by decide)
  | static _ h1 h2 => exact .inl ⟨h1, h2⟩
  | dynamic _ h1 h2 h3 => exact .inr ⟨_, _, h1, h2, h3⟩
  | recursive => exact absurd hk (by decide)

omit S in
theorem Spec.OTarget.recr {sc : List Site} {b : Uri} {s : String} {q : Site} (h : OTarget lib L sc b "$recursiveRef" s q) :
    dia = .d2019 ∧ ∃ u, L.refer b s u ∧ DOutermostRec sc u q := by
  generalize hk : "$recursiveRef" = k at h
  cases h with
  | ref => exact absurd hk (by decide)
  | static => exact absurd hk (by decide)
  | dynamic => exact absurd hk (by decide)
  | recursive h0 h1 h2 => exact ⟨h0, _, h1, h2⟩

theorem StoreReads.oaims {sc : List SRef} {sc' : List Site} (hsc : Scopes C sc sc') (b : Uri) :
    OAims lib L enabled C (codeRules st env dia) sc sc' b := by
  have odyn : dia = .d2020 → ∀ {f}, AnchorText f → ∀ {t u}, C t u → (∃ q, ODyn L f sc' u q) ∧
      ∀ q, ODyn L f sc' u q → C (dynLoop st f sc [] t) q := by
    intro h20 f hf t u hu
    have := S.dynLoop_odyn h20 hf (u := u) hsc (pre := []) (checked := []) (t := t) (by simp) (by simp) ?_
    · simpa only [List.nil_append] using this
    · refine ⟨⟨u, .none (by simp)⟩, fun q hq => ?_⟩
      cases hq with
      | found h => simp at h
      | none => exact hu
  refine ⟨?_, fun t s u h19 h1 h2 => ?_⟩
  rotate_left
  · refine ⟨?_, fun q hq => ?_⟩
    · obtain ⟨⟨q, hq⟩, -⟩ := S.outermostRec h19 hsc (h2 u h1) recr_outermost
      exact ⟨q, .recursive h19 h1 hq⟩
    · obtain ⟨-, u', g1, g2⟩ := hq.recr
      exact (S.outermostRec h19 hsc (h2 u' g1) recr_outermost).2 _ g2
  rintro t f d s ⟨-, h20, s', u, e, h1, hf, h2⟩
  cases e
  have h3 : ∀ {f' u}, L.refer b s u → Dynamic lib s f' u → d = true ∧ f = f' ∧ AnchorText f' ∧ C t u := by
    intro f' u hu hdy
    obtain ⟨c1, c2⟩ := h2 u hu
    exact ⟨c2.2 ⟨_, hdy⟩, by rw [hf, hdy.1]; rfl, S.anchor h20 c1 hdy.2, c1⟩
  refine ⟨?_, fun q hq => ?_⟩
  · by_cases hdy : ∃ f', Dynamic lib s f' u
    · obtain ⟨f', hdy⟩ := hdy
      obtain ⟨-, -, ha, hc⟩ := h3 h1 hdy
      obtain ⟨⟨q, hq⟩, -⟩ := odyn h20 ha hc
      exact ⟨q, .dynamic h20 h1 hdy hq⟩
    · exact ⟨u, .static h20 h1 fun f' h => hdy ⟨f', h⟩⟩
  · rcases hq.dyn with ⟨g1, g2⟩ | ⟨f', u, g1, g2, g3⟩
    · obtain ⟨c1, c2⟩ := h2 _ g1
      have : d = false := by
        cases d with
        | false => rfl
        | true => obtain ⟨f', h⟩ := c2.1 rfl; exact absurd h (g2 f')
      subst this
      exact c1
    · obtain ⟨rfl, rfl, ha, hc⟩ := h3 g1 g2
      exact (odyn h20 ha hc).2 _ g3

/-! ## Unrolling -/

omit S dia in
theorem codeMult_obs : codeMult env = ObsMultiple env.dec := by
  funext n m
  unfold codeMult ObsMultiple
  rw [← asWritten_decimal, ← asWritten_decimal]
  refine propext ?_
  by_cases h : asWritten env.dec m = 0
  · simp [decimalMultiple, h]
  · rw [decimalMultiple_iff h]
    exact ⟨fun h' => ⟨h, h'⟩, fun h' => h'.2⟩

/-- One unrolling. -/
theorem StoreReads.ostep (A : DocAgree C M N) :
    DocAgree C (obsStep (codeRules st env dia) env st M) (Spec.ostep lib env enabled L N) := by
  have hk : KindOk C st := fun s q h => (S.obj h).imp id fun ⟨kvs, kws, e1, e2, _⟩ => ⟨kvs, kws, e1, e2⟩
  constructor
  · intro t q h sc sc' hsc x
    have T := S.oaims (env := env) (.cons h hsc) q.base
    rcases S.obj h with ⟨b, e', e⟩ | ⟨kvs, kws, e', e, O⟩
    · simp only [obsStep, e, Spec.ostep, e']
    · simp only [obsStep, e, Spec.ostep, e']
      have hh := fun {k v kw} hr => O.oholds_iff (R := codeRules st env dia) (env := env) (st := st) A hk rfl codeMult_obs
        (.cons h hsc) T x (k := k) (v := v) (kw := kw) hr
      constructor
      · intro H k v hv
        obtain ⟨kw, h1, hr⟩ := O.of_doc _ _ hv
        exact (hh hr).1 (H kw h1)
      · intro H kw hkw
        obtain ⟨k, v, hv, hr⟩ := O.of_kw _ hkw
        exact (hh hr).2 (H k v hv)
  · intro t q h sc sc' hsc x pt
    have T := S.oaims (env := env) (.cons h hsc) q.base
    rcases S.obj h with ⟨b, e', e⟩ | ⟨kvs, kws, e', e, O⟩
    · simp only [obsStep, e, Spec.ostep, e']
    · simp only [obsStep, e, Spec.ostep, e']
      have hh := fun {k v kw} hr => O.oholds_iff (R := codeRules st env dia) (env := env) (st := st) A hk rfl codeMult_obs
        (.cons h hsc) T x (k := k) (v := v) (kw := kw) hr
      refine or_congr (O.oev_iff A hk rfl codeMult_obs (.cons h hsc) T x pt) ?_
      cases pt with
      | name n =>
        constructor
        · rintro ⟨t, ht, h'⟩
          obtain ⟨k, v, hv, hr⟩ := O.of_kw _ ht
          obtain ⟨rfl, -⟩ := id hr
          exact ⟨v, hv, (hh hr).1 h'⟩
        · rintro ⟨v, hv, h'⟩
          obtain ⟨t, ht, hc⟩ := O.doc_unevaluatedProperties hv
          exact ⟨t, ht, (hh (kw := .unevaluatedProperties t) ⟨rfl, hc⟩).2 h'⟩
      | item n =>
        constructor
        · rintro ⟨t, ht | ht, h'⟩
          · obtain ⟨k, v, hv, hr⟩ := O.of_kw _ ht
            obtain ⟨rfl, -⟩ := id hr
            exact ⟨v, hv, (hh hr).1 h'⟩
          · obtain ⟨k, v, hv, hr⟩ := O.of_kw _ ht
            obtain ⟨rfl, -⟩ := id hr
            exact ⟨v, hv, (hh (kw := .unevaluatedItems9 t) hr).1 h'⟩
        · rintro ⟨v, hv, h'⟩
          obtain ⟨t, ht, hc⟩ := O.doc_unevaluatedItems hv
          refine ⟨t, ht, ?_⟩
          rcases ht with ht | ht
          · obtain ⟨k, v', -, -, h20, -⟩ := O.of_kw _ ht
            exact (hh (kw := .unevaluatedItems t) ⟨rfl, h20, hc⟩).2 h'
          · obtain ⟨k, v', -, -, h19, -⟩ := O.of_kw _ ht
            exact (hh (kw := .unevaluatedItems9 t) ⟨rfl, h19, hc⟩).2 h'

/-- The unrollings agree. -/
theorem StoreReads.ounroll :
    ∀ n, DocAgree C (obsUnroll (codeRules st env dia) env st n) (Spec.ounroll lib env enabled L n)
  | 0 => ⟨fun _ _ _ _ _ => .rfl, fun _ _ _ _ _ _ => .rfl⟩
  | n + 1 => S.ostep (StoreReads.ounroll n)

/-- The verdict on a document in a store that has it, among other things. -/
theorem StoreReads.observed {root : Nat} {doc : Site}
    (hk : ∀ s q kws, C s q → st.obj s = .obj kws → KwsOk dia kws) (hr : C root doc) {i : Inst}
    (hw : i.value.WF) {n : Nat} {r : RNode}
    (h : evaluate st env n root i = some r) {m : Nat} (hm : n ≤ m) :
    r.valid = true ↔ (Spec.ounroll lib env enabled L m).valid [] doc i.value := by
  let P : Nat → Prop := fun s => ∃ q, C s q
  have S' := S.clearing
  have hstore : StoreOk dia (Jschon.clearing P st) := by
    intro s kws he
    by_cases hs : P s
    · rw [clearing_obj hs] at he
      obtain ⟨v, hv⟩ := hs
      exact hk s v kws hv he
    · simp only [Jschon.clearing, if_neg hs] at he
      cases he
      exact ⟨by simp, (fun _ h => by cases h), (fun pre a post e => by simp at e)⟩
  rw [evaluate_island S'.island StoreReads.sameOn ⟨doc, hr⟩] at h
  exact (evaluate_obs hstore hw h hm).trans ((S'.ounroll m).valid hr .nil _)

end
end
end Jschon
