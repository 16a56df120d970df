import Verif.Spec.Replace
import Verif.Proof.Split

/-!
# Keywords with other subschemas that are as good
-/

namespace Jschon

open Spec

section
variable {R : Rules} {env : Env} {st : Store} {M : Meaning} {sc : List SRef} {v : Value} {kws : List Kw}
  {σ : SRef → SRef}

theorem mem_subst_if {c : SRef} : Kw.if_ c ∈ kws.map (substKw σ) ↔ ∃ c', Kw.if_ c' ∈ kws ∧ σ c' = c := by
  rw [List.mem_map]
  constructor
  · rintro ⟨kw, hk, he⟩
    cases kw <;> simp only [substKw, reduceCtorEq, Kw.if_.injEq] at he
    exact ⟨_, hk, he⟩
  · rintro ⟨c', hk, rfl⟩
    exact ⟨_, hk, rfl⟩

theorem mem_subst_contains {c : SRef} :
    Kw.contains c ∈ kws.map (substKw σ) ↔ ∃ c', Kw.contains c' ∈ kws ∧ σ c' = c := by
  rw [List.mem_map]
  constructor
  · rintro ⟨kw, hk, he⟩
    cases kw <;> simp only [substKw, reduceCtorEq, Kw.contains.injEq] at he
    exact ⟨_, hk, he⟩
  · rintro ⟨c', hk, rfl⟩
    exact ⟨_, hk, rfl⟩

theorem mem_subst_minContains {c : Num} : Kw.minContains c ∈ kws.map (substKw σ) ↔ Kw.minContains c ∈ kws := by
  rw [List.mem_map]
  constructor
  · rintro ⟨kw, hk, he⟩
    cases kw <;> simp only [substKw, reduceCtorEq, Kw.minContains.injEq] at he
    rwa [he] at hk
  · intro hk
    exact ⟨_, hk, rfl⟩

theorem mem_subst_prefixItems {ss : List SRef} :
    Kw.prefixItems ss ∈ kws.map (substKw σ) ↔ ∃ ss', Kw.prefixItems ss' ∈ kws ∧ ss'.map σ = ss := by
  rw [List.mem_map]
  constructor
  · rintro ⟨kw, hk, he⟩
    cases kw <;> simp only [substKw, reduceCtorEq, Kw.prefixItems.injEq] at he
    exact ⟨_, hk, he⟩
  · rintro ⟨c', hk, rfl⟩
    exact ⟨_, hk, rfl⟩

theorem mem_subst_items9Array {ss : List SRef} :
    Kw.items9Array ss ∈ kws.map (substKw σ) ↔ ∃ ss', Kw.items9Array ss' ∈ kws ∧ ss'.map σ = ss := by
  rw [List.mem_map]
  constructor
  · rintro ⟨kw, hk, he⟩
    cases kw <;> simp only [substKw, reduceCtorEq, Kw.items9Array.injEq] at he
    exact ⟨_, hk, he⟩
  · rintro ⟨c', hk, rfl⟩
    exact ⟨_, hk, rfl⟩

theorem mem_subst_properties {ps : List (String × SRef)} : Kw.properties ps ∈ kws.map (substKw σ) ↔
    ∃ ps', Kw.properties ps' ∈ kws ∧ ps'.map (fun p => (p.1, σ p.2)) = ps := by
  rw [List.mem_map]
  constructor
  · rintro ⟨kw, hk, he⟩
    cases kw <;> simp only [substKw, reduceCtorEq, Kw.properties.injEq] at he
    exact ⟨_, hk, he⟩
  · rintro ⟨c', hk, rfl⟩
    exact ⟨_, hk, rfl⟩

theorem mem_subst_patternProperties {ps : List (String × SRef)} :
    Kw.patternProperties ps ∈ kws.map (substKw σ) ↔
    ∃ ps', Kw.patternProperties ps' ∈ kws ∧ ps'.map (fun p => (p.1, σ p.2)) = ps := by
  rw [List.mem_map]
  constructor
  · rintro ⟨kw, hk, he⟩
    cases kw <;> simp only [substKw, reduceCtorEq, Kw.patternProperties.injEq] at he
    exact ⟨_, hk, he⟩
  · rintro ⟨c', hk, rfl⟩
    exact ⟨_, hk, rfl⟩

theorem mem_subst_snd {ps : List (String × SRef)} {n : String} {t : SRef} :
    (n, t) ∈ ps.map (fun p => (p.1, σ p.2)) ↔ ∃ t', (n, t') ∈ ps ∧ σ t' = t := by
  simp only [List.mem_map, Prod.mk.injEq, Prod.exists]
  constructor
  · rintro ⟨_, t', h, rfl, h'⟩; exact ⟨t', h, h'⟩
  · rintro ⟨t', h, h'⟩; exact ⟨_, t', h, rfl, h'⟩

theorem named_subst (n : String) : Named env (kws.map (substKw σ)) n ↔ Named env kws n := by
  simp only [Named, mem_subst_properties, mem_subst_patternProperties]
  refine or_congr ⟨?_, ?_⟩ ⟨?_, ?_⟩
  · rintro ⟨_, t, ⟨ps, h, rfl⟩, ht⟩
    obtain ⟨t', ht', _⟩ := mem_subst_snd.1 ht
    exact ⟨ps, t', h, ht'⟩
  · rintro ⟨ps, t, h, ht⟩
    exact ⟨_, _, ⟨ps, h, rfl⟩, mem_subst_snd.2 ⟨t, ht, rfl⟩⟩
  · rintro ⟨_, re, t, ⟨ps, h, rfl⟩, ht, hs⟩
    obtain ⟨t', ht', _⟩ := mem_subst_snd.1 ht
    exact ⟨ps, re, t', h, ht', hs⟩
  · rintro ⟨ps, re, t, h, ht, hs⟩
    exact ⟨_, re, _, ⟨ps, h, rfl⟩, mem_subst_snd.2 ⟨t, ht, rfl⟩, hs⟩

theorem beyond_subst (k : Nat) : BeyondPrefix (kws.map (substKw σ)) k ↔ BeyondPrefix kws k := by
  simp only [BeyondPrefix, mem_subst_prefixItems]
  constructor
  · intro h ss hs; simpa using h _ ⟨ss, hs, rfl⟩
  · rintro h _ ⟨ss, hs, rfl⟩; simpa using h ss hs

variable (hM : ∀ t x, PartOrSelf v x → (M.valid sc (σ t) x ↔ M.valid sc t x))
include hM

theorem matching_subst (t : SRef) : matching M sc (σ t) v = matching M sc t v := by
  simp only [matching]
  refine List.countP_congr fun x hx => ?_
  simp only [decide_eq_true_eq]
  exact hM t x (.inr (.inr (.inl hx)))

theorem kwHolds_subst {kw : Kw} (hu : ¬ IsUneval kw) :
    KwHolds R env M sc (kws.map (substKw σ)) v (substKw σ kw) ↔ KwHolds R env M sc kws v kw := by
  have hv : ∀ t, M.valid sc (σ t) v ↔ M.valid sc t v := fun t => hM t v (.inl rfl)
  have hm : ∀ t n x, (n, x) ∈ members v → (M.valid sc (σ t) x ↔ M.valid sc t x) :=
    fun t n x h => hM t x (.inr (.inl ⟨n, h⟩))
  have he : ∀ t (k : Nat) x, (elems v)[k]? = some x → (M.valid sc (σ t) x ↔ M.valid sc t x) :=
    fun t k x h => hM t x (.inr (.inr (.inl (List.mem_of_getElem? h))))
  cases kw
  case unevaluatedProperties t => exact absurd trivial hu
  case unevaluatedItems t => exact absurd trivial hu
  case unevaluatedItems9 t => exact absurd trivial hu
  case allOf ss => simp only [substKw, KwHolds, List.forall_mem_map, hv]
  case anyOf ss =>
    simp only [substKw, KwHolds, List.mem_map]
    constructor
    · rintro ⟨_, ⟨t, ht, rfl⟩, hvt⟩; exact ⟨t, ht, (hv t).1 hvt⟩
    · rintro ⟨t, ht, hvt⟩; exact ⟨_, ⟨t, ht, rfl⟩, (hv t).2 hvt⟩
  case oneOf ss =>
    simp only [substKw, KwHolds, List.getElem?_map, Option.map_eq_some_iff]
    constructor
    · rintro ⟨j, _, ⟨t, ht, rfl⟩, hvt, h⟩
      exact ⟨j, t, ht, (hv t).1 hvt, fun k u hu hvu => h k _ ⟨u, hu, rfl⟩ ((hv u).2 hvu)⟩
    · rintro ⟨j, t, ht, hvt, h⟩
      refine ⟨j, _, ⟨t, ht, rfl⟩, (hv t).2 hvt, ?_⟩
      rintro k _ ⟨u, hu, rfl⟩ hvu
      exact h k u hu ((hv u).1 hvu)
  case not_ t => simp only [substKw, KwHolds, hv]
  case if_ t => exact Iff.rfl
  case then_ t =>
    simp only [substKw, KwHolds, mem_subst_if, forall_exists_index, and_imp, hv]
    constructor
    · intro h c hc hvc; exact h _ c hc rfl ((hv c).2 hvc)
    · rintro h _ c hc rfl hvc; exact h c hc ((hv c).1 hvc)
  case else_ t =>
    simp only [substKw, KwHolds, mem_subst_if, forall_exists_index, and_imp, hv]
    constructor
    · intro h c hc hvc; exact h _ c hc rfl (mt (hv c).1 hvc)
    · rintro h _ c hc rfl hvc; exact h c hc (mt (hv c).2 hvc)
  case dependentSchemas ps => simp only [substKw, KwHolds, List.forall_mem_map, hv]
  case properties ps =>
    simp only [substKw, KwHolds, mem_subst_snd]
    constructor
    · intro h n t x ht hx; exact (hm t n x hx).1 (h n _ x ⟨t, ht, rfl⟩ hx)
    · rintro h n _ x ⟨t, ht, rfl⟩ hx; exact (hm t n x hx).2 (h n t x ht hx)
  case patternProperties ps =>
    simp only [substKw, KwHolds, mem_subst_snd]
    constructor
    · intro h re t n x ht hx hs; exact (hm t n x hx).1 (h re _ n x ⟨t, ht, rfl⟩ hx hs)
    · rintro h re _ n x ⟨t, ht, rfl⟩ hx hs; exact (hm t n x hx).2 (h re t n x ht hx hs)
  case additionalProperties t =>
    simp only [substKw, KwHolds, named_subst]
    exact forall_congr' fun n => forall_congr' fun x => forall_congr' fun hx => by rw [hm t n x hx]
  case propertyNames t =>
    simp only [substKw, KwHolds]
    exact forall_congr' fun n => forall_congr' fun hn => hM t _ (.inr (.inr (.inr ⟨n, hn, rfl⟩)))
  case prefixItems ss =>
    simp only [substKw, KwHolds, List.getElem?_map, Option.map_eq_some_iff]
    constructor
    · intro h k t x ht hx; exact (he t k x hx).1 (h k _ x ⟨t, ht, rfl⟩ hx)
    · rintro h k _ x ⟨t, ht, rfl⟩ hx; exact (he t k x hx).2 (h k t x ht hx)
  case items9Array ss =>
    simp only [substKw, KwHolds, List.getElem?_map, Option.map_eq_some_iff]
    constructor
    · intro h k t x ht hx; exact (he t k x hx).1 (h k _ x ⟨t, ht, rfl⟩ hx)
    · rintro h k _ x ⟨t, ht, rfl⟩ hx; exact (he t k x hx).2 (h k t x ht hx)
  case items t =>
    simp only [substKw, KwHolds, beyond_subst]
    exact forall_congr' fun k => forall_congr' fun x => forall_congr' fun hx => by rw [he t k x hx]
  case contains t => simp only [substKw, KwHolds, mem_subst_minContains, matching_subst hM]
  case minContains t =>
    simp only [substKw, KwHolds, mem_subst_contains]
    constructor
    · intro h ha c hc; rw [← matching_subst hM]; exact h ha _ ⟨c, hc, rfl⟩
    · rintro h ha _ ⟨c, hc, rfl⟩; rw [matching_subst hM]; exact h ha c hc
  case maxContains t =>
    simp only [substKw, KwHolds, mem_subst_contains]
    constructor
    · intro h ha c hc; rw [← matching_subst hM]; exact h ha _ ⟨c, hc, rfl⟩
    · rintro h ha _ ⟨c, hc, rfl⟩; rw [matching_subst hM]; exact h ha c hc
  case items9 t =>
    simp only [substKw, KwHolds]
    exact forall_congr' fun x => forall_congr' fun hx => hM t x (.inr (.inr (.inl hx)))
  case additionalItems t =>
    simp only [substKw, KwHolds, mem_subst_items9Array]
    constructor
    · intro h ss hs k x hx hl; exact (he t k x hx).1 (h _ ⟨ss, hs, rfl⟩ k x hx (by simpa using hl))
    · rintro h _ ⟨ss, hs, rfl⟩ k x hx hl; exact (he t k x hx).2 (h ss hs k x hx (by simpa using hl))
  case ref t => exact hv t
  all_goals exact Iff.rfl

/-- `hB`: boolean schemas. -/
theorem obsHolds_subst (hB : ∀ t b, st.obj t = .bool b → ∀ x, (M.valid sc t x ↔ b = true))
    {kw : Kw} (hu : ¬ IsUneval kw) :
    ObsHolds R env st M sc (kws.map (substKw σ)) v (substKw σ kw) ↔ ObsHolds R env st M sc kws v kw := by
  have hitems : ∀ t, ObsHolds R env st M sc kws v (.items9 t) ↔ ∀ x ∈ elems v, M.valid sc t x := by
    intro t
    simp only [ObsHolds]
    cases ho : st.obj t with
    | obj ks => exact Iff.rfl
    | bool b =>
      simp only [hB t b ho]
      exact ⟨fun h x hx => h (List.ne_nil_of_mem hx), fun h hn =>
        let ⟨x, hx⟩ := List.exists_mem_of_ne_nil _ hn; h x hx⟩
  have hitems' : ∀ t, ObsHolds R env st M sc (kws.map (substKw σ)) v (.items9 t) ↔
      ∀ x ∈ elems v, M.valid sc t x := by
    intro t
    simp only [ObsHolds]
    cases ho : st.obj t with
    | obj ks => exact Iff.rfl
    | bool b =>
      simp only [hB t b ho]
      exact ⟨fun h x hx => h (List.ne_nil_of_mem hx), fun h hn =>
        let ⟨x, hx⟩ := List.exists_mem_of_ne_nil _ hn; h x hx⟩
  cases kw
  case items9 t =>
    rw [substKw, hitems, hitems']
    exact forall_congr' fun x => forall_congr' fun hx => hM t x (.inr (.inr (.inl hx)))
  case additionalItems t =>
    simp only [substKw, ObsHolds, mem_subst_items9Array]
    have he : ∀ t (k : Nat) x, (elems v)[k]? = some x → (M.valid sc (σ t) x ↔ M.valid sc t x) :=
      fun t k x h => hM t x (.inr (.inr (.inl (List.mem_of_getElem? h))))
    have ha : ∀ ss, KwHolds R env M sc (kws.map (substKw σ)) v (.items9Array (ss.map σ)) ↔
        KwHolds R env M sc kws v (.items9Array ss) := fun ss => kwHolds_subst hM (kw := .items9Array ss) id
    constructor
    · intro h ss hs hn hk k x hx hl
      exact (he t k x hx).1 (h _ ⟨ss, hs, rfl⟩ (by simpa using hn) ((ha ss).2 hk) k x hx (by simpa using hl))
    · rintro h _ ⟨ss, hs, rfl⟩ hn hk k x hx hl
      exact (he t k x hx).2 (h ss hs (by simpa using hn) ((ha ss).1 hk) k x hx (by simpa using hl))
  case unevaluatedProperties t => exact absurd trivial hu
  case unevaluatedItems t => exact absurd trivial hu
  case unevaluatedItems9 t => exact absurd trivial hu
  all_goals exact kwHolds_subst (R := R) (env := env) (kws := kws) hM hu

end

section
variable {d : Dialect} {st : Store} {env : Env} (hst : Written d st) (hstat : StaticStore st)
include hst hstat

theorem unrolled_verdict {n m : Nat} (hm : n ≤ m) {s : SRef} {v : Value} (hw : v.WF) {b : Bool}
    (h : verdictOf d env st n s v = some b) (sc : List SRef) :
    (obsUnroll (codeRules (st.ordered (decide (d = .d2019))) env d) env (st.ordered (decide (d = .d2019))) m).valid
      sc s v ↔ b = true := by
  obtain ⟨r, hr, rfl⟩ := verdict_some h
  rw [(obsUnroll_scopeless (static_ordered hst hstat) m sc).1]
  exact (evaluate_obs (ordered_ok hst) hw hr hm).symm

end

end Jschon
