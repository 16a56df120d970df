import Verif.Spec.Island
import Verif.Proof.EvalGood
import Verif.Proof.Value

/-!
# Evaluation does not look outside an island
-/

namespace Jschon

open Spec

/-- The children of the result were made by schemas of the group. -/
def KidsIn (P : SRef → Prop) (r : RNode) : Prop := ∀ e ∈ r.children, P e.2.schema

/-- `rec'` does what `rec` does on schemas of the group. -/
def RecSame (P : SRef → Prop) (rec rec' : Rec) : Prop :=
  ∀ sc s i r, (∀ x ∈ sc, P x) → P s → P r.schema → KidsIn P r →
    rec' sc s i r = rec sc s i r ∧ ∀ r', rec sc s i r = some r' → KidsIn P r' ∧ r'.schema = r.schema

section
variable {P : SRef → Prop}

theorem KidsIn.upd {r r' : RNode} (h : KidsIn P r) (hu : Upd r r') : KidsIn P r' := by
  intro e he
  rw [hu.children] at he
  exact h e he

theorem KidsIn.setChild {r c : RNode} {k : String × List String} (h : KidsIn P r) (hc : P c.schema) :
    KidsIn P (r.setChild k c) := by
  intro e he
  rcases mem_cset he with rfl | he
  · exact hc
  · exact h e he

theorem KidsIn.delChild {r : RNode} {k : String × List String} (h : KidsIn P r) :
    KidsIn P (r.delChild k) := fun e he => h e (mem_cerase he)

theorem Upd.schema {r r' : RNode} (h : Upd r r') : r'.schema = r.schema := h.imm.schema

variable {rec rec' : Rec} (hrec : RecSame P rec rec') {sc : List SRef} (hsc : ∀ x ∈ sc, P x)
include hrec hsc

theorem subLoop_island : ∀ {jobs : List (String × SRef × Inst)} {c : RNode}, (∀ j ∈ jobs, P j.2.1) →
    P c.schema → KidsIn P c → subLoop rec' sc jobs c = subLoop rec sc jobs c ∧
      ∀ c' fl, subLoop rec sc jobs c = some (c', fl) → KidsIn P c' ∧ c'.schema = c.schema
  | [], c, _, _, hk => ⟨rfl, fun c' fl h => by
      simp only [subLoop, Option.some.injEq, Prod.mk.injEq] at h
      rw [← h.1]; exact ⟨hk, rfl⟩⟩
  | (key, t, i) :: jobs, c, hj, hs, hk => by
    have h1 := hrec (c.schema :: sc) t i (c.fresh i key c.schema)
      (fun x hx => (List.mem_cons.1 hx).elim (fun e => e ▸ hs) (hsc x))
      (hj _ List.mem_cons_self) hs (fun e he => by simp at he)
    simp only [subLoop, h1.1]
    cases hr : rec (c.schema :: sc) t i (c.fresh i key c.schema) with
    | none => exact ⟨rfl, fun _ _ h => by cases h⟩
    | some sub =>
      simp only []
      have h2 := h1.2 _ hr
      generalize hd : (if sub.info.discard then
          ((c.setChild (key, i.path) (c.fresh i key c.schema)).setChild (key, i.path) sub).delChild
            (key, i.path)
        else (c.setChild (key, i.path) (c.fresh i key c.schema)).setChild (key, i.path) sub) = c2
      have hsub : P sub.schema := by rw [h2.2]; exact hs
      have h0 : KidsIn P (c.setChild (key, i.path) (c.fresh i key c.schema)) :=
        hk.setChild (c := c.fresh i key c.schema) hs
      have h3 : KidsIn P c2 ∧ c2.schema = c.schema := by
        rw [← hd]; split
        · exact ⟨(h0.setChild hsub).delChild, rfl⟩
        · exact ⟨h0.setChild hsub, rfl⟩
      have ih := subLoop_island (fun j hj' => hj j (List.mem_cons_of_mem _ hj')) (h3.2 ▸ hs) h3.1
      rw [ih.1]
      cases hs' : subLoop rec sc jobs c2 with
      | none => exact ⟨rfl, fun _ _ h => by cases h⟩
      | some p =>
        obtain ⟨c3, fl⟩ := p
        refine ⟨rfl, fun c' fl' h => ?_⟩
        simp only [Option.some.injEq, Prod.mk.injEq] at h
        have h4 := ih.2 _ _ hs'
        rw [← h.1]; exact ⟨h4.1, h4.2.trans h3.2⟩

theorem sharedLoop_island {t : SRef} (ht : P t) : ∀ {is : List Inst} {c : RNode},
    P c.schema → KidsIn P c → sharedLoop rec' sc t is c = sharedLoop rec sc t is c ∧
      ∀ c' fl, sharedLoop rec sc t is c = some (c', fl) → KidsIn P c' ∧ c'.schema = c.schema
  | [], c, _, hk => ⟨rfl, fun c' fl h => by
      simp only [sharedLoop, Option.some.injEq, Prod.mk.injEq] at h
      rw [← h.1]; exact ⟨hk, rfl⟩⟩
  | i :: is, c, hs, hk => by
    have h1 := hrec sc t i c hsc ht hs hk
    simp only [sharedLoop, h1.1]
    cases hr : rec sc t i c with
    | none => exact ⟨rfl, fun _ _ h => by cases h⟩
    | some c1 =>
      simp only []
      have h2 := h1.2 _ hr
      have hu : Upd c1 (if c1.passed then c1 else c1.pass_) := Upd.ite (Upd.refl _) (Upd.pass_ _)
      have h3 : (if c1.passed then c1 else c1.pass_).schema = c.schema := hu.schema.trans h2.2
      have ih := sharedLoop_island ht (is := is) (h3 ▸ hs) (h2.1.upd hu)
      rw [ih.1]
      cases hs' : sharedLoop rec sc t is (if c1.passed then c1 else c1.pass_) with
      | none => exact ⟨rfl, fun _ _ h => by cases h⟩
      | some p =>
        obtain ⟨c3, fl⟩ := p
        refine ⟨rfl, fun c' fl' h => ?_⟩
        simp only [Option.some.injEq, Prod.mk.injEq] at h
        have h4 := ih.2 _ _ hs'
        rw [← h.1]; exact ⟨h4.1, h4.2.trans h3⟩

theorem plainLoop_island {t : SRef} (ht : P t) : ∀ {is : List Inst} {c : RNode},
    P c.schema → KidsIn P c → plainLoop rec' sc t is c = plainLoop rec sc t is c ∧
      ∀ c', plainLoop rec sc t is c = some c' → KidsIn P c' ∧ c'.schema = c.schema
  | [], c, _, hk => ⟨rfl, fun c' h => by
      simp only [plainLoop, Option.some.injEq] at h
      rw [← h]; exact ⟨hk, rfl⟩⟩
  | i :: is, c, hs, hk => by
    have h1 := hrec sc t i c hsc ht hs hk
    simp only [plainLoop, h1.1]
    cases hr : rec sc t i c with
    | none => exact ⟨rfl, fun _ h => by cases h⟩
    | some c1 =>
      simp only []
      have h2 := h1.2 _ hr
      have ih := plainLoop_island ht (is := is) (h2.2 ▸ hs) h2.1
      exact ⟨ih.1, fun c' h => ⟨(ih.2 c' h).1, (ih.2 c' h).2.trans h2.2⟩⟩

end

/-- What the keyword does to its own result keeps it in the group. -/
def OutIn (P : SRef → Prop) (c : RNode) (o : Option (RNode × RNode)) : Prop :=
  ∀ p' c', o = some (p', c') → KidsIn P c' ∧ c'.schema = c.schema

section
variable {P : SRef → Prop} {c parent : RNode}

theorem OutIn.none : OutIn P c none := fun _ _ h => by cases h

theorem OutIn.upd {c1 c2 : RNode} (h : KidsIn P c1 ∧ c1.schema = c.schema) (hu : Upd c1 c2) :
    OutIn P c (some (parent, c2)) := by
  intro p' c' e
  simp only [Option.some.injEq, Prod.mk.injEq] at e
  rw [← e.2]
  exact ⟨h.1.upd hu, hu.schema.trans h.2⟩

theorem indexJobs_schema {i : Inst} : ∀ {ss : List SRef} {n j}, j ∈ indexJobs i n ss → j.2.1 ∈ ss
  | [], _, _, h => by simp [indexJobs] at h
  | t :: ts, n, j, h => by
    simp only [indexJobs] at h
    rcases List.mem_cons.1 h with rfl | h
    · exact List.mem_cons_self
    · exact List.mem_cons_of_mem _ (indexJobs_schema h)

theorem itemJobs_schema : ∀ {ss : List SRef} {is : List (Nat × Inst)} {j}, j ∈ itemJobs ss is →
    j.2.1 ∈ ss
  | [], _, _, h => by simp [itemJobs] at h
  | _ :: _, [], _, h => by simp [itemJobs] at h
  | t :: ts, (n, i) :: is, j, h => by
    simp only [itemJobs] at h
    rcases List.mem_cons.1 h with rfl | h
    · exact List.mem_cons_self
    · exact List.mem_cons_of_mem _ (itemJobs_schema h)

theorem propJobs_schema {ps : List (String × SRef)} {ms : List (String × Inst)} {j}
    (h : j ∈ propJobs ps ms) : ∃ n, (n, j.2.1) ∈ ps := by
  simp only [propJobs, List.mem_filterMap, Option.map_eq_some_iff] at h
  obtain ⟨m, hm, t, ht, rfl⟩ := h
  exact ⟨m.1, dlookup_mem ht⟩

theorem patternJobs_schema {env : Env} {ps : List (String × SRef)} {ms : List (String × Inst)} {j}
    (h : j ∈ patternJobs env ps ms) : ∃ n, (n, j.2.2.1) ∈ ps := by
  simp only [patternJobs, List.mem_flatMap, List.mem_map, List.mem_filter] at h
  obtain ⟨m, hm, p, ⟨hp, _⟩, rfl⟩ := h
  exact ⟨p.1, hp⟩

end

section
variable {P : SRef → Prop} {st st' : Store} {env : Env}

theorem dynLoop_island {f : String}
    (hb : ∀ x, P x → st'.base x = st.base x ∧ ∀ b, st.base x = some b → st'.lookup b f = st.lookup b f)
    (hl : ∀ x b u, P x → st.base x = some b → st.lookup b f = some u → P u)
    (ho : ∀ s, P s → st'.obj s = st.obj s) : ∀ (sc : List SRef) (checked : List String) (t : SRef),
    (∀ x ∈ sc, P x) → P t → dynLoop st' f sc checked t = dynLoop st f sc checked t ∧
      P (dynLoop st f sc checked t)
  | [], checked, t, _, ht => ⟨rfl, ht⟩
  | s :: sc, checked, t, hsc, ht => by
    have hs := hsc s List.mem_cons_self
    have hsc' := fun x hx => hsc x (List.mem_cons_of_mem s hx)
    have ih := fun ch t' ht' => dynLoop_island hb hl ho sc ch t' hsc' ht'
    simp only [dynLoop, (hb s hs).1]
    cases hbs : st.base s with
    | none => exact ih _ _ ht
    | some b =>
      simp only [(hb s hs).2 b hbs]
      by_cases hc : checked.contains b = true
      · simp only [hc, if_true]; exact ih _ _ ht
      · simp only [hc, if_false, Bool.false_eq_true]
        cases hlk : st.lookup b f with
        | none => exact ih _ _ ht
        | some u =>
          have hu := hl s b u hs hbs hlk
          simp only [ho u hu]
          split
          · split
            · exact ih _ _ hu
            · exact ih _ _ ht
          · exact ih _ _ ht

theorem isRecursiveAnchor_island (ho : ∀ s, P s → st'.obj s = st.obj s) {s : SRef} (hs : P s) :
    isRecursiveAnchor st' s = isRecursiveAnchor st s := by
  simp only [isRecursiveAnchor, ho s hs]

theorem recLoop_island (ho : ∀ s, P s → st'.obj s = st.obj s) : ∀ (sc : List SRef) (t : SRef),
    (∀ x ∈ sc, P x) → P t → recLoop st' sc t = recLoop st sc t ∧ P (recLoop st sc t)
  | [], t, _, ht => ⟨rfl, ht⟩
  | s :: sc, t, hsc, ht => by
    have hs := hsc s List.mem_cons_self
    simp only [recLoop, isRecursiveAnchor_island ho hs]
    refine recLoop_island ho sc _ (fun x hx => hsc x (List.mem_cons_of_mem s hx)) ?_
    split <;> assumption

theorem keywords_island (ho : ∀ s, P s → st'.obj s = st.obj s) {s : SRef} (hs : P s) :
    st'.keywords s = st.keywords s := by
  simp only [Store.keywords, ho s hs]

theorem siblingKeys_island (ho : ∀ s, P s → st'.obj s = st.obj s) {parent : RNode} (hp : KidsIn P parent)
    {i : Inst} {key : String} : siblingKeys st' parent i key = siblingKeys st parent i key := by
  simp only [siblingKeys]
  cases hs : sibling parent i key with
  | none => rfl
  | some p => simp only [schemaKeys, keywords_island ho (hp _ (mem_of_clookup hs))]

theorem prefixStart_island (ho : ∀ s, P s → st'.obj s = st.obj s) {parent : RNode} (hp : KidsIn P parent)
    {i : Inst} : prefixStart st' parent i = prefixStart st parent i := by
  simp only [prefixStart]
  cases hs : sibling parent i "prefixItems" with
  | none => rfl
  | some p => simp only [schemaLen, keywords_island ho (hp _ (mem_of_clookup hs))]

variable {rec rec' : Rec} (hrec : RecSame P rec rec') {sc : List SRef} (hsc : ∀ x ∈ sc, P x)
include hrec hsc

theorem evalKw_island (ho : ∀ s, P s → st'.obj s = st.obj s) {kw : Kw}
    (hkw : ∀ t, Subschema kw t → P t)
    (hdyn : ∀ t f, kw = .dynamicRef t f true →
      (∀ x, P x → st'.base x = st.base x ∧ ∀ b, st.base x = some b → st'.lookup b f = st.lookup b f) ∧
      (∀ x b u, P x → st.base x = some b → st.lookup b f = some u → P u))
    {i : Inst} {parent c : RNode} (hp : KidsIn P parent) (hs : P c.schema) (hk : KidsIn P c) :
    evalKw st' env rec' sc kw i parent c = evalKw st env rec sc kw i parent c ∧
      OutIn P c (evalKw st env rec sc kw i parent c) := by
  have upd : ∀ {x : RNode}, Upd c x → OutIn P c (some (parent, x)) := fun hu => OutIn.upd ⟨hk, rfl⟩ hu
  have sub := fun (jobs : List (String × SRef × Inst)) hj => subLoop_island hrec hsc (jobs := jobs) (c := c) hj hs hk
  have shared := fun (t : SRef) (ht : P t) (is : List Inst) => sharedLoop_island hrec hsc ht (is := is) (c := c) hs hk
  have plain := fun (t : SRef) (ht : P t) (is : List Inst) => plainLoop_island hrec hsc ht (is := is) (c := c) hs hk
  have one := fun (t : SRef) (ht : P t) => hrec sc t i c hsc ht hs hk
  cases kw
  case assert a => exact ⟨rfl, upd (Upd.ite (Upd.refl _) (Upd.fail _ _))⟩
  case maxContains m =>
    refine ⟨rfl, ?_⟩
    simp only [evalKw]
    split
    · exact upd (Upd.refl _)
    · exact upd (Upd.ite (Upd.fail _ _) (Upd.refl _))
  case minContains m =>
    refine ⟨rfl, ?_⟩
    simp only [evalKw, evalMinContains]
    split
    · exact upd (Upd.refl _)
    · exact OutIn.upd ⟨hk, rfl⟩ (Upd.ite (Upd.refl _) (Upd.fail _ _))
  case allOf ss =>
    have h := sub (indexJobs i 0 ss) (fun j hj => hkw _ (indexJobs_schema hj))
    simp only [evalKw, h.1]
    refine ⟨trivial, ?_⟩
    split
    · exact OutIn.none
    · rename_i hs'; exact OutIn.upd (h.2 _ _ hs') (Upd.ite (Upd.refl _) (Upd.fail _ _))
  case anyOf ss =>
    have h := sub (indexJobs i 0 ss) (fun j hj => hkw _ (indexJobs_schema hj))
    simp only [evalKw, h.1]
    refine ⟨trivial, ?_⟩
    split
    · exact OutIn.none
    · rename_i hs'; exact OutIn.upd (h.2 _ _ hs') (Upd.ite (Upd.refl _) (Upd.fail _ _))
  case oneOf ss =>
    have h := sub (indexJobs i 0 ss) (fun j hj => hkw _ (indexJobs_schema hj))
    simp only [evalKw, h.1]
    refine ⟨trivial, ?_⟩
    split
    · exact OutIn.none
    · rename_i hs'; exact OutIn.upd (h.2 _ _ hs') (Upd.ite (Upd.refl _) (Upd.fail _ _))
  case not_ t =>
    have h := one t (hkw t rfl)
    simp only [evalKw, h.1]
    refine ⟨trivial, ?_⟩
    split
    · exact OutIn.none
    · rename_i hs'; exact OutIn.upd (h.2 _ hs') (Upd.ite (Upd.fail _ _) (Upd.pass_ _))
  case if_ t =>
    have h := one t (hkw t rfl)
    simp only [evalKw, h.1]
    refine ⟨trivial, ?_⟩
    split
    · exact OutIn.none
    · rename_i hs'; exact OutIn.upd (h.2 _ hs') (Upd.noassert _)
  case then_ t =>
    have h := one t (hkw t rfl)
    simp only [evalKw, h.1]
    refine ⟨trivial, ?_⟩
    repeat' split
    all_goals first
      | exact upd (Upd.setDiscard _)
      | exact OutIn.none
      | (rename_i hs'; exact OutIn.upd (h.2 _ hs') (Upd.refl _))
  case else_ t =>
    have h := one t (hkw t rfl)
    simp only [evalKw, h.1]
    refine ⟨trivial, ?_⟩
    repeat' split
    all_goals first
      | exact upd (Upd.setDiscard _)
      | exact OutIn.none
      | (rename_i hs'; exact OutIn.upd (h.2 _ hs') (Upd.refl _))
  case dependentSchemas ps =>
    have h := sub ((ps.filter (fun p => i.has p.1)).map (fun p => (p.1, p.2, i))) (fun j hj => by
      obtain ⟨p, hp, rfl⟩ := List.mem_map.1 hj
      exact hkw _ ⟨p.1, (List.mem_filter.1 hp).1⟩)
    simp only [evalKw, h.1]
    refine ⟨trivial, ?_⟩
    split
    · exact OutIn.none
    · rename_i hs'; exact OutIn.upd (h.2 _ _ hs') (Upd.ite (Upd.annotate _ _) (Upd.fail _ _))
  case prefixItems ss =>
    have h := sub (itemJobs ss i.items) (fun j hj => hkw _ (itemJobs_schema hj))
    simp only [evalKw, h.1]
    refine ⟨trivial, ?_⟩
    split
    · exact OutIn.none
    · rename_i hs'
      exact OutIn.upd (h.2 _ _ hs') (Upd.ite (Upd.ite (Upd.refl _) (Upd.annotate _ _)) (Upd.fail _ _))
  case items t =>
    have h := shared t (hkw t rfl) (insts (i.items.drop (prefixStart st parent i)))
    simp only [evalKw, prefixStart_island ho hp, h.1]
    refine ⟨trivial, ?_⟩
    split
    · exact OutIn.none
    · rename_i hs'; exact OutIn.upd (h.2 _ _ hs') (upd_finishItems _ _ _)
  case unevaluatedItems t =>
    have h := shared t (hkw t rfl)
    simp only [evalKw, evalUnevaluatedItems, (h _).1]
    refine ⟨trivial, ?_⟩
    repeat' split
    all_goals first
      | exact upd (Upd.setDiscard _)
      | exact OutIn.none
      | (rename_i hs'; exact OutIn.upd ((h _).2 _ _ hs') (upd_finishItems _ _ _))
  case contains t =>
    have h := shared t (hkw t rfl)
    simp only [evalKw, (h _).1]
    refine ⟨trivial, ?_⟩
    split
    · exact OutIn.none
    · rename_i hs'
      exact OutIn.upd ((h _).2 _ _ hs')
        (Upd.ite ((Upd.annotate _ _).trans (Upd.fail _ _)) (Upd.annotate _ _))
  case properties ps =>
    have h := sub (propJobs ps i.members) (fun j hj => hkw _ (propJobs_schema hj))
    simp only [evalKw, h.1]
    refine ⟨trivial, ?_⟩
    split
    · exact OutIn.none
    · rename_i hs'; exact OutIn.upd (h.2 _ _ hs') (Upd.ite (Upd.annotate _ _) (Upd.fail _ _))
  case patternProperties ps =>
    have h := sub ((patternJobs env ps i.members).map Prod.snd) (fun j hj => by
      obtain ⟨q, hq, rfl⟩ := List.mem_map.1 hj
      exact hkw _ (patternJobs_schema hq))
    simp only [evalKw, h.1]
    refine ⟨trivial, ?_⟩
    split
    · exact OutIn.none
    · rename_i hs'; exact OutIn.upd (h.2 _ _ hs') (Upd.ite (Upd.annotate _ _) (Upd.fail _ _))
  case additionalProperties t =>
    have h := shared t (hkw t rfl)
    simp only [evalKw, evalAdditionalProperties, siblingKeys_island ho hp, (h _).1]
    refine ⟨trivial, ?_⟩
    split
    · exact OutIn.none
    · rename_i hs'; exact OutIn.upd ((h _).2 _ _ hs') (upd_finishProps _ _ _)
  case unevaluatedProperties t =>
    have h := shared t (hkw t rfl)
    simp only [evalKw, evalUnevaluatedProperties, (h _).1]
    refine ⟨trivial, ?_⟩
    split
    · exact OutIn.none
    · rename_i hs'; exact OutIn.upd ((h _).2 _ _ hs') (upd_finishProps _ _ _)
  case propertyNames t =>
    have h := shared t (hkw t rfl)
    simp only [evalKw, (h _).1]
    refine ⟨trivial, ?_⟩
    split
    · exact OutIn.none
    · rename_i hs'; exact OutIn.upd ((h _).2 _ _ hs') (Upd.ite (Upd.refl _) (Upd.fail _ _))
  case items9 t =>
    have h := one t (hkw t rfl)
    have h' := plain t (hkw t rfl)
    simp only [evalKw, ho t (hkw t rfl), h.1, (h' _).1]
    refine ⟨trivial, ?_⟩
    split
    · exact upd (Upd.refl _)
    · split
      · split
        · exact OutIn.none
        · rename_i hs'; exact OutIn.upd (h.2 _ hs') (Upd.refl _)
      · split
        · exact OutIn.none
        · rename_i hs'; exact OutIn.upd ((h' _).2 _ hs') (Upd.ite (Upd.annotate _ _) (Upd.refl _))
  case items9Array ss =>
    have h := sub (itemJobs ss i.items) (fun j hj => hkw _ (itemJobs_schema hj))
    simp only [evalKw, h.1]
    refine ⟨trivial, ?_⟩
    split
    · exact upd (Upd.refl _)
    · split
      · exact OutIn.none
      · rename_i hs'
        exact OutIn.upd (h.2 _ _ hs') (Upd.ite (Upd.annotate _ _) (Upd.fail _ _))
  case additionalItems t =>
    have h := shared t (hkw t rfl)
    simp only [evalKw, (h _).1]
    refine ⟨trivial, ?_⟩
    split
    · split
      · exact OutIn.none
      · rename_i hs'; exact OutIn.upd ((h _).2 _ _ hs') (upd_finishItems _ _ _)
    · exact upd (Upd.setDiscard _)
  case unevaluatedItems9 t =>
    have h := shared t (hkw t rfl)
    simp only [evalKw, evalUnevaluatedItems9, (h _).1]
    refine ⟨trivial, ?_⟩
    repeat' split
    all_goals first
      | exact upd (Upd.setDiscard _)
      | exact OutIn.none
      | (rename_i hs'; exact OutIn.upd ((h _).2 _ _ hs') (upd_finishItems _ _ _))
  case recursiveRef t =>
    have ht := hkw t rfl
    have hr := recLoop_island ho sc t hsc ht
    have htt : P (if isRecursiveAnchor st t then recLoop st sc t else t) := by
      split
      · exact hr.2
      · exact ht
    have h := one _ htt
    simp only [evalKw, isRecursiveAnchor_island ho ht, hr.1, h.1]
    refine ⟨trivial, ?_⟩
    split
    · exact OutIn.none
    · rename_i hs'; exact OutIn.upd (h.2 _ hs') (Upd.setRef _ _)
  case ref t =>
    have h := one t (hkw t rfl)
    simp only [evalKw, h.1]
    refine ⟨trivial, ?_⟩
    split
    · exact OutIn.none
    · rename_i hs'; exact OutIn.upd (h.2 _ hs') (Upd.setRef _ _)
  case dynamicRef t f dynamic =>
    have ht := hkw t rfl
    have htt : (if dynamic then dynLoop st' f sc [] t else t) = (if dynamic then dynLoop st f sc [] t else t) ∧
        P (if dynamic then dynLoop st f sc [] t else t) := by
      cases dynamic with
      | false => exact ⟨rfl, ht⟩
      | true =>
        obtain ⟨hb, hl⟩ := hdyn t f rfl
        exact dynLoop_island hb hl ho sc [] t hsc ht
    have h := one _ htt.2
    simp only [evalKw, htt.1, h.1]
    refine ⟨trivial, ?_⟩
    split
    · exact OutIn.none
    · rename_i hs'; exact OutIn.upd (h.2 _ hs') (Upd.setRef _ _)
  case static k v => exact ⟨rfl, upd (Upd.refl _)⟩
  case format attr en =>
    exact ⟨rfl, upd (Upd.ite (Upd.ite (Upd.annotate _ _) ((Upd.annotate _ _).trans (Upd.fail _ _)))
      ((Upd.annotate _ _).trans (Upd.noassert _)))⟩
  case annot k d v => exact ⟨rfl, upd ((Upd.annotate _ _).trans (Upd.noassert _))⟩
  case contentSchema v =>
    refine ⟨rfl, ?_⟩
    simp only [evalKw]
    split
    · exact upd ((Upd.annotate _ _).trans (Upd.noassert _))
    · exact upd (Upd.setDiscard _)
  case unknown k v => exact ⟨rfl, upd ((Upd.annotate _ _).trans (Upd.noassert _))⟩

theorem kwLoop_island (ho : ∀ s, P s → st'.obj s = st.obj s) {s : SRef} (hsP : P s) {i : Inst} :
    ∀ {kws : List Kw} {r : RNode}, (∀ kw ∈ kws, ∀ t, Subschema kw t → P t) →
      (∀ t f, .dynamicRef t f true ∈ kws →
        (∀ x, P x → st'.base x = st.base x ∧ ∀ b, st.base x = some b → st'.lookup b f = st.lookup b f) ∧
        (∀ x b u, P x → st.base x = some b → st.lookup b f = some u → P u)) →
      KidsIn P r → kwLoop st' env rec' sc s i kws r = kwLoop st env rec sc s i kws r ∧
        ∀ r', kwLoop st env rec sc s i kws r = some r' → KidsIn P r'
  | [], r, _, _, hk => ⟨rfl, fun r' h => by
      simp only [kwLoop, Option.some.injEq] at h
      rw [← h]; exact hk⟩
  | kw :: kws, r, hkw, hdyn, hk => by
    have ih := fun {r : RNode} (hk : KidsIn P r) => kwLoop_island ho hsP (i := i) (kws := kws) (r := r)
      (fun kw' h => hkw kw' (List.mem_cons_of_mem _ h))
      (fun t f h => hdyn t f (List.mem_cons_of_mem _ h)) hk
    simp only [kwLoop]
    by_cases ht : kw.types.contains i.value.type = true
    · simp only [ht, if_true, withSub]
      have h0 : KidsIn P (r.setChild (kw.key, i.path) (r.fresh i kw.key s)) :=
        hk.setChild (c := r.fresh i kw.key s) hsP
      have h1 := evalKw_island (st := st) (st' := st') (env := env) hrec (sc := s :: sc)
        (fun x hx => (List.mem_cons.1 hx).elim (fun e => e ▸ hsP) (hsc x)) ho
        (kw := kw) (hkw kw List.mem_cons_self)
        (fun t f e => hdyn t f (e ▸ List.mem_cons_self)) (i := i) (c := r.fresh i kw.key s) h0 hsP
        (fun e he => by simp at he)
      rw [h1.1]
      cases he : evalKw st env rec (s :: sc) kw i
          (r.setChild (kw.key, i.path) (r.fresh i kw.key s)) (r.fresh i kw.key s) with
      | none => exact ⟨rfl, fun _ h => by cases h⟩
      | some p =>
        obtain ⟨p', c'⟩ := p
        simp only []
        have h2 := h1.2 _ _ he
        have hc' : P c'.schema := by rw [h2.2]; exact hsP
        have hp' : KidsIn P p' := by
          rcases evalKw_parent he with rfl | ⟨con, _, hs, rfl⟩
          · exact h0
          · exact h0.setChild (c := con.pass_) (h0 _ (mem_of_clookup hs))
        refine ih ?_
        split
        · exact (hp'.setChild hc').delChild
        · exact hp'.setChild hc'
    · simp only [ht, if_false, Bool.false_eq_true]
      exact ih hk

theorem evalBody_island (hI : Island P st) (hS : SameOn P st st') {s : SRef} (hsP : P s) {i : Inst}
    {r : RNode} (hk : KidsIn P r) :
    evalBody st' env rec' sc s i r = evalBody st env rec sc s i r ∧
      ∀ r', evalBody st env rec sc s i r = some r' → KidsIn P r' ∧ r'.schema = r.schema := by
  have hin : ∀ r', evalBody st env rec sc s i r = some r' → r'.schema = r.schema :=
    fun r' h => (evalBody_frame h).imm.schema
  suffices h : evalBody st' env rec' sc s i r = evalBody st env rec sc s i r ∧
      ∀ r', evalBody st env rec sc s i r = some r' → KidsIn P r' from
    ⟨h.1, fun r' e => ⟨h.2 r' e, hin r' e⟩⟩
  simp only [evalBody, hS.obj s hsP]
  cases ho : st.obj s with
  | bool b =>
    cases b
    · refine ⟨rfl, fun r' h => ?_⟩
      rw [← Option.some.inj h]; exact hk.upd (Upd.fail _ _)
    · refine ⟨rfl, fun r' h => ?_⟩
      rw [← Option.some.inj h]; exact hk
  | obj kws =>
    have h1 := kwLoop_island (st := st) (st' := st') (env := env) hrec hsc hS.obj hsP (i := i) (kws := kws) (r := r)
      (fun kw hm t ht => hI.closed s kws kw t hsP ho hm ht)
      (fun t f hm => ⟨hS.dyn s kws t f hsP ho hm, hI.dyn s kws t f hsP ho hm⟩) hk
    simp only [h1.1]
    cases hl : kwLoop st env rec sc s i kws r with
    | none => exact ⟨trivial, fun _ h => by cases h⟩
    | some r1 =>
      refine ⟨trivial, fun r' h => ?_⟩
      rw [← Option.some.inj h]
      split
      · exact (h1.2 _ hl).upd (Upd.fail _ _)
      · exact h1.2 _ hl

end

theorem evalSchema_island {P : SRef → Prop} {st st' : Store} {env : Env} (hI : Island P st)
    (hS : SameOn P st st') : ∀ n, RecSame P (evalSchema st env n) (evalSchema st' env n)
  | 0 => fun _ _ _ _ _ _ _ _ => ⟨rfl, fun _ h => by cases h⟩
  | n + 1 => fun _ _ _ _ hsc hs _ hk =>
    evalBody_island (evalSchema_island hI hS n) hsc hI hS hs hk

/-- Evaluating a schema of an island gives the same in any store that agrees on the island. -/
theorem evaluate_island {P : SRef → Prop} {st st' : Store} {env : Env} (hI : Island P st)
    (hS : SameOn P st st') {n : Nat} {s : SRef} (hs : P s) {i : Inst} :
    evaluate st' env n s i = evaluate st env n s i :=
  (evalSchema_island hI hS n [s] s i (RNode.root s i) (fun x hx => by simp at hx; exact hx ▸ hs) hs hs
    (fun e he => by simp at he)).1

end Jschon
