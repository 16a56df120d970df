import Verif.Proof.Written

/-!
# C31, C32, C33: applicators

For schemas as written (`Written`) in which no reference depends on the dynamic scope
(`StaticStore`).  `f` gives the verdicts of subschemas, obtained by evaluating them by themselves;
`b` is the verdict of the schema `s` that consists of the keywords in question.
-/

namespace Jschon

open Spec

section
variable {d : Dialect} {st : Store} {env : Env} (hst : Written d st) (hstat : StaticStore st)
  {n m : Nat} {s : SRef} {v : Value} (hw : v.WF) {b : Bool} (h : verdictOf d env st n s v = some b)
include hst hstat hw h

/-! ### C31 -/

theorem C31_allOf {ss : List SRef} (hs : st.obj s = .obj [.allOf ss]) {f : SRef → Bool}
    (hf : ∀ t ∈ ss, verdictOf d env st m t v = some (f t)) :
    b = true ↔ ∀ t ∈ ss, f t = true := by
  obtain ⟨M, hM, hb⟩ := written_step hst hstat m hw hs h
  rw [hb, List.forall_mem_singleton]
  exact forall_congr' fun t => forall_congr' fun ht => hM _ _ _ hw (hf t ht) _

theorem C31_anyOf {ss : List SRef} (hs : st.obj s = .obj [.anyOf ss]) {f : SRef → Bool}
    (hf : ∀ t ∈ ss, verdictOf d env st m t v = some (f t)) :
    b = true ↔ ∃ t ∈ ss, f t = true := by
  obtain ⟨M, hM, hb⟩ := written_step hst hstat m hw hs h
  rw [hb, List.forall_mem_singleton]
  exact exists_congr fun t => and_congr_right fun ht => hM _ _ _ hw (hf t ht) _

/-- Exactly one position of the list holds a schema that matches. -/
theorem C31_oneOf {ss : List SRef} (hs : st.obj s = .obj [.oneOf ss]) {f : SRef → Bool}
    (hf : ∀ t ∈ ss, verdictOf d env st m t v = some (f t)) :
    b = true ↔ ss.countP f = 1 := by
  obtain ⟨M, hM, hb⟩ := written_step hst hstat m hw hs h
  rw [hb, List.forall_mem_singleton, ← one_iff_countP]
  simp only [ObsHolds, KwHolds]
  refine exists_congr fun j => exists_congr fun t => and_congr_right fun ht => ?_
  refine and_congr (hM _ _ _ hw (hf t (List.mem_of_getElem? ht)) _) ?_
  refine forall_congr' fun k => forall_congr' fun u => forall_congr' fun hu => ?_
  rw [hM _ _ _ hw (hf u (List.mem_of_getElem? hu))]

theorem C31_not {t : SRef} (hs : st.obj s = .obj [.not_ t]) {c : Bool}
    (hf : verdictOf d env st m t v = some c) : b = !c := by
  obtain ⟨M, hM, hb⟩ := written_step hst hstat m hw hs h
  rw [List.forall_mem_singleton] at hb
  have := hM _ _ _ hw hf [s]
  simp only [ObsHolds, KwHolds, this] at hb
  revert hb; cases b <;> cases c <;> simp

/-- The conditional, with the keywords written in any order. -/
theorem C31_if {kws : List Kw} {c t e : SRef} (hs : st.obj s = .obj kws)
    (hk : kws.Perm [.if_ c, .then_ t, .else_ e]) {fc ft fe : Bool}
    (hc : verdictOf d env st m c v = some fc) (ht : verdictOf d env st m t v = some ft)
    (he : verdictOf d env st m e v = some fe) : b = if fc then ft else fe := by
  obtain ⟨M, hM, hb⟩ := written_step hst hstat m hw hs h
  have hc := hM _ _ _ hw hc [s]
  have ht := hM _ _ _ hw ht [s]
  have he := hM _ _ _ hw he [s]
  simp only [hk.mem_iff, ObsHolds, KwHolds, List.mem_cons, List.not_mem_nil, or_false, forall_eq_or_imp,
    forall_eq, reduceCtorEq, Kw.if_.injEq, hc, ht, he, true_and] at hb
  revert hb; cases b <;> cases fc <;> cases ft <;> cases fe <;> simp

/-- `then` without `else`. -/
theorem C31_if_then {kws : List Kw} {c t : SRef} (hs : st.obj s = .obj kws)
    (hk : kws.Perm [.if_ c, .then_ t]) {fc ft : Bool}
    (hc : verdictOf d env st m c v = some fc) (ht : verdictOf d env st m t v = some ft) :
    b = (!fc || ft) := by
  obtain ⟨M, hM, hb⟩ := written_step hst hstat m hw hs h
  have hc := hM _ _ _ hw hc [s]
  have ht := hM _ _ _ hw ht [s]
  simp only [hk.mem_iff, ObsHolds, KwHolds, List.mem_cons, List.not_mem_nil, or_false, forall_eq_or_imp,
    forall_eq, reduceCtorEq, Kw.if_.injEq, hc, ht, true_and] at hb
  revert hb; cases b <;> cases fc <;> cases ft <;> simp

/-- `else` without `then`. -/
theorem C31_if_else {kws : List Kw} {c e : SRef} (hs : st.obj s = .obj kws)
    (hk : kws.Perm [.if_ c, .else_ e]) {fc fe : Bool}
    (hc : verdictOf d env st m c v = some fc) (he : verdictOf d env st m e v = some fe) :
    b = (fc || fe) := by
  obtain ⟨M, hM, hb⟩ := written_step hst hstat m hw hs h
  have hc := hM _ _ _ hw hc [s]
  have he := hM _ _ _ hw he [s]
  simp only [hk.mem_iff, ObsHolds, KwHolds, List.mem_cons, List.not_mem_nil, or_false, forall_eq_or_imp,
    forall_eq, reduceCtorEq, Kw.if_.injEq, hc, he, true_and] at hb
  revert hb; cases b <;> cases fc <;> cases fe <;> simp

/-- `then` and `else` without `if` do nothing. -/
theorem C31_no_if {kws : List Kw} {t e : SRef} (hs : st.obj s = .obj kws)
    (hk : kws.Perm [.then_ t, .else_ e]) : b = true := by
  obtain ⟨M, hM, hb⟩ := written_step hst hstat 0 hw hs h
  simp only [hk.mem_iff, ObsHolds, KwHolds, List.mem_cons, List.not_mem_nil, or_false, forall_eq_or_imp,
    forall_eq, reduceCtorEq, false_imp_iff, implies_true, and_self, iff_true] at hb
  exact hb

/-- A schema that only has a reference. -/
theorem C31_ref {t : SRef} (hs : st.obj s = .obj [.ref t]) {c : Bool}
    (hf : verdictOf d env st m t v = some c) : b = c := by
  obtain ⟨M, hM, hb⟩ := written_step hst hstat m hw hs h
  rw [List.forall_mem_singleton] at hb
  have := hM _ _ _ hw hf [s]
  simp only [ObsHolds, KwHolds, this] at hb
  revert hb; cases b <;> cases c <;> simp

/-! ### C32 -/

theorem C32_properties {ps : List (String × SRef)} (hs : st.obj s = .obj [.properties ps])
    {f : SRef → String → Bool}
    (hf : ∀ name t x, (name, t) ∈ ps → (name, x) ∈ members v →
      verdictOf d env st m t x = some (f t name)) :
    b = true ↔ ∀ name t, (name, t) ∈ ps → HasMember v name → f t name = true := by
  obtain ⟨M, hM, hb⟩ := written_step hst hstat m hw hs h
  rw [hb, List.forall_mem_singleton]
  simp only [ObsHolds, KwHolds]
  constructor
  · rintro h1 name t ht ⟨x, hx⟩
    exact (hM _ _ _ (members_wf hw _ hx) (hf _ _ _ ht hx) _).1 (h1 _ _ _ ht hx)
  · intro h1 name t x ht hx
    exact (hM _ _ _ (members_wf hw _ hx) (hf _ _ _ ht hx) _).2 (h1 _ _ ht ⟨x, hx⟩)

theorem C32_patternProperties {ps : List (String × SRef)} (hs : st.obj s = .obj [.patternProperties ps])
    {f : SRef → String → Bool}
    (hf : ∀ re name t x, (re, t) ∈ ps → (name, x) ∈ members v → env.search re name = true →
      verdictOf d env st m t x = some (f t name)) :
    b = true ↔ ∀ re name t, (re, t) ∈ ps → HasMember v name → env.search re name = true →
      f t name = true := by
  obtain ⟨M, hM, hb⟩ := written_step hst hstat m hw hs h
  rw [hb, List.forall_mem_singleton]
  simp only [ObsHolds, KwHolds]
  constructor
  · rintro h1 re name t ht ⟨x, hx⟩ hre
    exact (hM _ _ _ (members_wf hw _ hx) (hf _ _ _ _ ht hx hre) _).1 (h1 _ _ _ _ ht hx hre)
  · intro h1 re t name x ht hx hre
    exact (hM _ _ _ (members_wf hw _ hx) (hf _ _ _ _ ht hx hre) _).2 (h1 _ _ _ ht ⟨x, hx⟩ hre)

/-- The three keywords together: `properties` and `patternProperties` apply to the members they name,
`additionalProperties` to the others. -/
theorem C32_object {kws : List Kw} {ps qs : List (String × SRef)} {a : SRef} (hs : st.obj s = .obj kws)
    (hk : kws.Perm [.properties ps, .patternProperties qs, .additionalProperties a])
    {f : SRef → String → Bool}
    (hf : ∀ t name x, (name, x) ∈ members v → verdictOf d env st m t x = some (f t name)) :
    b = true ↔ ∀ name, HasMember v name →
      (∀ t, (name, t) ∈ ps → f t name = true) ∧
      (∀ re t, (re, t) ∈ qs → env.search re name = true → f t name = true) ∧
      ((∀ t, (name, t) ∉ ps) → (∀ re t, (re, t) ∈ qs → env.search re name = false) → f a name = true) := by
  obtain ⟨M, hM, hb⟩ := written_step hst hstat m hw hs h
  have hM' : ∀ t name x, (name, x) ∈ members v → (M.valid [s] t x ↔ f t name = true) :=
    fun t name x hx => hM _ _ _ (members_wf hw _ hx) (hf _ _ _ hx) _
  have hnamed : ∀ name, (¬ Named env kws name) ↔
      (∀ t, (name, t) ∉ ps) ∧ (∀ re t, (re, t) ∈ qs → env.search re name = false) := by
    intro name
    simp only [Named, hk.mem_iff, List.mem_cons, List.not_mem_nil, or_false, reduceCtorEq, false_or,
      Kw.properties.injEq, Kw.patternProperties.injEq, not_or]
    constructor
    · rintro ⟨h1, h2⟩
      refine ⟨fun t ht => h1 ⟨ps, t, rfl, ht⟩, fun re t ht => ?_⟩
      cases hse : env.search re name
      · rfl
      · exact absurd ⟨qs, re, t, rfl, ht, hse⟩ h2
    · rintro ⟨h1, h2⟩
      refine ⟨?_, ?_⟩
      · rintro ⟨_, t, rfl, ht⟩; exact h1 t ht
      · rintro ⟨_, re, t, rfl, ht, hse⟩; rw [h2 re t ht] at hse; cases hse
  simp only [hk.mem_iff, List.mem_cons, List.not_mem_nil, or_false, forall_eq_or_imp, forall_eq, ObsHolds,
    KwHolds] at hb
  rw [hb]
  constructor
  · rintro ⟨h1, h2, h3⟩ name ⟨x, hx⟩
    refine ⟨fun t ht => (hM' _ _ _ hx).1 (h1 _ _ _ ht hx), fun re t ht hse => ?_, fun hp hq => ?_⟩
    · exact (hM' _ _ _ hx).1 (h2 _ _ _ _ ht hx hse)
    · exact (hM' _ _ _ hx).1 (h3 _ _ hx ((hnamed name).2 ⟨hp, hq⟩))
  · intro h1
    refine ⟨fun name t x ht hx => ?_, fun re t name x ht hx hse => ?_, fun name x hx hn => ?_⟩
    · exact (hM' _ _ _ hx).2 ((h1 name ⟨x, hx⟩).1 t ht)
    · exact (hM' _ _ _ hx).2 ((h1 name ⟨x, hx⟩).2.1 re t ht hse)
    · exact (hM' _ _ _ hx).2 ((h1 name ⟨x, hx⟩).2.2 ((hnamed name).1 hn).1 ((hnamed name).1 hn).2)

/-- `additionalProperties` by itself applies to every member. -/
theorem C32_additionalProperties {t : SRef} (hs : st.obj s = .obj [.additionalProperties t])
    {f : String → Bool} (hf : ∀ name x, (name, x) ∈ members v → verdictOf d env st m t x = some (f name)) :
    b = true ↔ ∀ name, HasMember v name → f name = true := by
  obtain ⟨M, hM, hb⟩ := written_step hst hstat m hw hs h
  rw [hb, List.forall_mem_singleton]
  simp only [ObsHolds, KwHolds, Named, List.mem_singleton, reduceCtorEq, false_and, exists_const, or_self,
    not_false_eq_true, true_imp_iff]
  constructor
  · rintro h1 name ⟨x, hx⟩
    exact (hM _ _ _ (members_wf hw _ hx) (hf _ _ hx) _).1 (h1 _ _ hx)
  · intro h1 name x hx
    exact (hM _ _ _ (members_wf hw _ hx) (hf _ _ hx) _).2 (h1 _ ⟨x, hx⟩)

/-- `propertyNames` applies to the names themselves. -/
theorem C32_propertyNames {t : SRef} (hs : st.obj s = .obj [.propertyNames t]) {f : String → Bool}
    (hf : ∀ name, HasMember v name → verdictOf d env st m t (.str name) = some (f name)) :
    b = true ↔ ∀ name, HasMember v name → f name = true := by
  obtain ⟨M, hM, hb⟩ := written_step hst hstat m hw hs h
  rw [hb, List.forall_mem_singleton]
  exact forall_congr' fun name => forall_congr' fun hn => hM _ _ _ .str (hf _ hn) _

/-- `dependentSchemas` applies to the whole object, for each of its names that is present. -/
theorem C32_dependentSchemas {ps : List (String × SRef)} (hs : st.obj s = .obj [.dependentSchemas ps])
    {f : SRef → Bool} (hf : ∀ name t, (name, t) ∈ ps → HasMember v name →
      verdictOf d env st m t v = some (f t)) :
    b = true ↔ ∀ name t, (name, t) ∈ ps → HasMember v name → f t = true := by
  obtain ⟨M, hM, hb⟩ := written_step hst hstat m hw hs h
  rw [hb, List.forall_mem_singleton]
  simp only [ObsHolds, KwHolds, Prod.forall]
  refine forall_congr' fun name => forall_congr' fun t => forall_congr' fun ht => forall_congr' fun hn => ?_
  exact hM _ _ _ hw (hf _ _ ht hn) _

/-! ### C33 -/

/-- The item at position `k` is given to the `k`-th schema of `prefixItems` if there is one, and to
`items` otherwise. -/
theorem C33_items {kws : List Kw} {ss : List SRef} {t : SRef} (hs : st.obj s = .obj kws)
    (hk : kws.Perm [.prefixItems ss, .items t]) {f : SRef → Nat → Bool}
    (hf : ∀ u (k : Nat) x, (elems v)[k]? = some x → verdictOf d env st m u x = some (f u k)) :
    b = true ↔ ∀ k, k < (elems v).length → f (ss.getD k t) k = true := by
  obtain ⟨M, hM, hb⟩ := written_step hst hstat m hw hs h
  have hM' : ∀ u (k : Nat) x, (elems v)[k]? = some x → (M.valid [s] u x ↔ f u k = true) :=
    fun u k x hx => hM _ _ _ (elems_wf hw _ (List.mem_of_getElem? hx)) (hf _ _ _ hx) _
  simp only [hk.mem_iff, List.mem_cons, List.not_mem_nil, or_false, forall_eq_or_imp, forall_eq, ObsHolds,
    KwHolds, BeyondPrefix, reduceCtorEq, Kw.prefixItems.injEq] at hb
  rw [hb]
  constructor
  · rintro ⟨h1, h2⟩ k hlt
    have hx : (elems v)[k]? = some (elems v)[k] := List.getElem?_eq_getElem hlt
    rw [← hM' _ _ _ hx, List.getD]
    cases hg : ss[k]? with
    | some u => exact h1 k u _ hg hx
    | none => exact h2 k _ hx (List.getElem?_eq_none_iff.1 hg)
  · intro h1
    refine ⟨fun k u x hu hx => ?_, fun k x hx hle => ?_⟩
    · have := h1 k (List.getElem?_eq_some_iff.1 hx).1
      rw [List.getD, hu] at this
      exact (hM' _ _ _ hx).2 this
    · have := h1 k (List.getElem?_eq_some_iff.1 hx).1
      rw [List.getD, List.getElem?_eq_none_iff.2 hle] at this
      exact (hM' _ _ _ hx).2 this

/-- `prefixItems` by itself says nothing about further items. -/
theorem C33_prefixItems {ss : List SRef} (hs : st.obj s = .obj [.prefixItems ss]) {f : SRef → Nat → Bool}
    (hf : ∀ u (k : Nat) x, (elems v)[k]? = some x → verdictOf d env st m u x = some (f u k)) :
    b = true ↔ ∀ k t, k < (elems v).length → ss[k]? = some t → f t k = true := by
  obtain ⟨M, hM, hb⟩ := written_step hst hstat m hw hs h
  have hM' : ∀ u (k : Nat) x, (elems v)[k]? = some x → (M.valid [s] u x ↔ f u k = true) :=
    fun u k x hx => hM _ _ _ (elems_wf hw _ (List.mem_of_getElem? hx)) (hf _ _ _ hx) _
  rw [hb, List.forall_mem_singleton]
  simp only [ObsHolds, KwHolds]
  constructor
  · intro h1 k t hlt ht
    have hx : (elems v)[k]? = some (elems v)[k] := List.getElem?_eq_getElem hlt
    exact (hM' _ _ _ hx).1 (h1 k t _ ht hx)
  · intro h1 k t x ht hx
    exact (hM' _ _ _ hx).2 (h1 k t (List.getElem?_eq_some_iff.1 hx).1 ht)

/-- `contains` with both bounds. -/
theorem C33_contains_between {kws : List Kw} {t : SRef} {lo hi : Num} (hs : st.obj s = .obj kws)
    (hk : kws.Perm [.contains t, .minContains lo, .maxContains hi]) {xs : List Value} (hx : v = .arr xs)
    {f : Value → Bool} (hf : ∀ x ∈ xs, verdictOf d env st m t x = some (f x)) :
    b = true ↔ lo.val ≤ (xs.countP f : Rat) ∧ (xs.countP f : Rat) ≤ hi.val := by
  obtain ⟨M, hM, hb⟩ := written_step hst hstat m hw hs h
  have hc : matching M [s] t v = xs.countP f := by
    subst hx
    refine List.countP_congr fun x hx => ?_
    simpa using hM _ _ _ (elems_wf hw _ hx) (hf x hx) [s]
  simp only [hk.mem_iff, List.mem_cons, List.not_mem_nil, or_false, forall_eq_or_imp, forall_eq, ObsHolds,
    KwHolds, reduceCtorEq, false_or, Kw.contains.injEq, Kw.minContains.injEq, hc] at hb
  rw [hb]
  constructor
  · rintro ⟨_, h1, h2⟩; exact ⟨h1 ⟨xs, hx⟩, h2 ⟨xs, hx⟩⟩
  · rintro ⟨h1, h2⟩; exact ⟨fun _ h => h.elim, fun _ => h1, fun _ => h2⟩

/-- `contains` by itself: at least one item matches. -/
theorem C33_contains {t : SRef} (hs : st.obj s = .obj [.contains t]) {xs : List Value} (hx : v = .arr xs)
    {f : Value → Bool} (hf : ∀ x ∈ xs, verdictOf d env st m t x = some (f x)) :
    b = true ↔ ∃ x ∈ xs, f x = true := by
  obtain ⟨M, hM, hb⟩ := written_step hst hstat m hw hs h
  have hc : matching M [s] t v = xs.countP f := by
    subst hx
    refine List.countP_congr fun x hx => ?_
    simpa using hM _ _ _ (elems_wf hw _ hx) (hf x hx) [s]
  rw [hb, List.forall_mem_singleton]
  simp only [ObsHolds, KwHolds, hc, List.mem_singleton, reduceCtorEq, not_false_eq_true, implies_true,
    true_imp_iff]
  rw [← List.countP_pos_iff]
  exact ⟨fun h => h ⟨xs, hx⟩, fun h _ => h⟩

/-- `contains` with a lower bound only; `minContains: 0` makes it accept everything. -/
theorem C33_minContains {kws : List Kw} {t : SRef} {lo : Num} (hs : st.obj s = .obj kws)
    (hk : kws.Perm [.contains t, .minContains lo]) {xs : List Value} (hx : v = .arr xs)
    {f : Value → Bool} (hf : ∀ x ∈ xs, verdictOf d env st m t x = some (f x)) :
    b = true ↔ lo.val ≤ (xs.countP f : Rat) := by
  obtain ⟨M, hM, hb⟩ := written_step hst hstat m hw hs h
  have hc : matching M [s] t v = xs.countP f := by
    subst hx
    refine List.countP_congr fun x hx => ?_
    simpa using hM _ _ _ (elems_wf hw _ hx) (hf x hx) [s]
  simp only [hk.mem_iff, List.mem_cons, List.not_mem_nil, or_false, forall_eq_or_imp, forall_eq, ObsHolds,
    KwHolds, reduceCtorEq, false_or, Kw.contains.injEq, Kw.minContains.injEq, hc] at hb
  rw [hb]
  exact ⟨fun h => h.2 ⟨xs, hx⟩, fun h1 => ⟨fun _ h => h.elim, fun _ => h1⟩⟩

/-- `contains` with an upper bound only: at least one item matches. -/
theorem C33_maxContains {kws : List Kw} {t : SRef} {hi : Num} (hs : st.obj s = .obj kws)
    (hk : kws.Perm [.contains t, .maxContains hi]) {xs : List Value} (hx : v = .arr xs)
    {f : Value → Bool} (hf : ∀ x ∈ xs, verdictOf d env st m t x = some (f x)) :
    b = true ↔ 1 ≤ xs.countP f ∧ (xs.countP f : Rat) ≤ hi.val := by
  obtain ⟨M, hM, hb⟩ := written_step hst hstat m hw hs h
  have hc : matching M [s] t v = xs.countP f := by
    subst hx
    refine List.countP_congr fun x hx => ?_
    simpa using hM _ _ _ (elems_wf hw _ hx) (hf x hx) [s]
  simp only [hk.mem_iff, List.mem_cons, List.not_mem_nil, or_false, forall_eq_or_imp, forall_eq, ObsHolds,
    KwHolds, reduceCtorEq, Kw.contains.injEq, hc] at hb
  rw [hb]
  exact ⟨fun h => ⟨h.1 ⟨xs, hx⟩ (fun _ h => h.elim), h.2 ⟨xs, hx⟩⟩, fun h => ⟨fun _ _ => h.1, fun _ => h.2⟩⟩

/-- Without `contains`, the bounds do nothing. -/
theorem C33_no_contains {kws : List Kw} {lo hi : Num} (hs : st.obj s = .obj kws)
    (hk : kws.Perm [.minContains lo, .maxContains hi]) : b = true := by
  obtain ⟨M, hM, hb⟩ := written_step hst hstat 0 hw hs h
  simp only [hk.mem_iff, ObsHolds, KwHolds, List.mem_cons, List.not_mem_nil, or_false, forall_eq_or_imp,
    forall_eq, reduceCtorEq, false_imp_iff, implies_true, and_self, iff_true] at hb
  exact hb

end

/-! ### Schemas that meet the hypotheses -/

/-- Schemas 0 to 3: `{"minLength": 2}`, `{"type": "string"}`, `{"type": "number"}`, `{"maxLength": 3}`;
then one for each theorem of C31. -/
def logicSchemas : List SchemaObj := [
  .obj [.assert (.minLength (.int 2))], .obj [.assert (.type_ ["string"])],
  .obj [.assert (.type_ ["number"])], .obj [.assert (.maxLength (.int 3))],
  .obj [.allOf [0, 1, 3]], .obj [.anyOf [2, 3]], .obj [.oneOf [2, 3]], .obj [.not_ 2],
  .obj [.else_ 2, .then_ 3, .if_ 0], .obj [.then_ 3, .if_ 0], .obj [.else_ 2, .if_ 0],
  .obj [.else_ 2, .then_ 2], .obj [.ref 3]]

example : Written .d2020 (listStore logicSchemas) ∧ StaticStore (listStore logicSchemas) :=
  ⟨written_of (by decide), static_of (by decide)⟩

/-- The verdicts of all of them on `"ab"`. -/
example : (List.range 13).map (fun s => verdictOf .d2020 demoEnv (listStore logicSchemas) 5 s (.str "ab")) =
    [true, true, false, true, true, true, true, true, true, true, true, true, true].map some := by
  decide +kernel

/-- The verdicts of all of them on `"abcd"`. -/
example : (List.range 13).map (fun s => verdictOf .d2020 demoEnv (listStore logicSchemas) 5 s (.str "abcd")) =
    [true, true, false, false, false, false, false, true, false, false, true, true, false].map some := by
  decide +kernel

/-- Schemas 0 to 2: `{"type": "string"}`, `{"type": "number"}`, `{"minLength": 2}`; then one for each
theorem of C32. -/
def objectSchemas : List SchemaObj := [
  .obj [.assert (.type_ ["string"])], .obj [.assert (.type_ ["number"])], .obj [.assert (.minLength (.int 2))],
  .obj [.properties [("ab", 0), ("x", 1)]], .obj [.patternProperties [("a", 0)]],
  .obj [.additionalProperties 0, .patternProperties [("a", 0)], .properties [("ab", 0)]],
  .obj [.additionalProperties 1], .obj [.propertyNames 2], .obj [.dependentSchemas [("ab", 3), ("x", 1)]]]

example : Written .d2020 (listStore objectSchemas) ∧ StaticStore (listStore objectSchemas) :=
  ⟨written_of (by decide), static_of (by decide)⟩

/-- On `{"ab": "s", "ac": "t", "cc": 1}`. -/
example : (List.range 9).map (fun s => verdictOf .d2020 demoEnv (listStore objectSchemas) 5 s
      (.obj [("ab", .str "s"), ("ac", .str "t"), ("cc", .num (.int 1))])) =
    [false, false, true, true, true, false, false, true, true].map some := by
  decide +kernel

/-- Schemas 0 and 1: `{"type": "string"}`, `{"type": "number"}`; then one for each theorem of C33. -/
def arraySchemas : List SchemaObj := [
  .obj [.assert (.type_ ["string"])], .obj [.assert (.type_ ["number"])],
  .obj [.items 1, .prefixItems [0, 0]], .obj [.prefixItems [0, 1]],
  .obj [.maxContains (.int 2), .minContains (.int 2), .contains 0], .obj [.contains 1],
  .obj [.minContains (.int 0), .contains 0], .obj [.maxContains (.int 1), .contains 0],
  .obj [.maxContains (.int 0), .minContains (.int 7)]]

example : Written .d2020 (listStore arraySchemas) ∧ StaticStore (listStore arraySchemas) :=
  ⟨written_of (by decide), static_of (by decide)⟩

/-- On `["s", "t", 1]`. -/
example : (List.range 9).map (fun s => verdictOf .d2020 demoEnv (listStore arraySchemas) 5 s
      (.arr [.str "s", .str "t", .num (.int 1)])) =
    [false, false, true, false, true, true, true, false, true].map some := by
  decide +kernel

end Jschon
