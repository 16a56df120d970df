import Verif.Proof.EvalKws3

/-!
# What each keyword computes: the rest, and all together
-/

namespace Jschon

open Spec

section
variable {d : Dialect} {st : Store} {env : Env} {rec : Rec} {M : Meaning} (hok : RecOk d rec M)
variable {a b : List SRef} {s : SRef} (hst : Stut (s :: a) (s :: b))
variable {i : Inst} (hw : i.value.WF) {c : RNode} {key : String} (hc : FreshFor c i key s)
variable {kws : List Kw} {parent parent' c' : RNode}

theorem mem_drop_items {n : Nat} {p : Nat × Inst} : p ∈ i.items.drop n ↔ p ∈ i.items ∧ n ≤ p.1 := by
  rw [List.mem_iff_getElem?, List.mem_iff_getElem?]
  simp only [List.getElem?_drop, items_getElem?, Option.map_eq_some_iff]
  constructor
  · rintro ⟨k, x, hx, rfl⟩; exact ⟨⟨n + k, x, hx, rfl⟩, by simp⟩
  · rintro ⟨⟨k, x, hx, rfl⟩, hn⟩
    simp only at hn
    have : n + (k - n) = k := by omega
    exact ⟨k - n, x, by rw [this]; exact hx, by rw [this]⟩

include hok hst hw hc

omit hok hst hw hc in
theorem items_start (hd : d = .d2020) (hobj : st.obj s = .obj kws)
    (hkws : KwsOk d kws) (hv : ∃ xs, i.value = .arr xs)
    (hs1 : SibOk st env d M (s :: b) kws i s (sibling parent i "prefixItems") "prefixItems")
    (k : Nat) : prefixStart st parent i ≤ k ↔ BeyondPrefix kws k := by
  unfold prefixStart
  split
  · rename_i p hp
    by_cases hex : ∃ ss, Kw.prefixItems ss ∈ kws
    · obtain ⟨ss, hss⟩ := hex
      have huniq : ∀ ss', Kw.prefixItems ss' ∈ kws → ss' = ss := by
        intro ss' h'
        have := key_unique hkws.nodup h' hss rfl
        injection this
      have : schemaLen st p = ss.length := by
        simp only [schemaLen, RNode.schema, hs1.schema p hp, Store.keywords, hobj]
        cases hf : kws.findSome? (fun | .prefixItems ss => some ss.length | _ => none) with
        | none =>
          rw [List.findSome?_eq_none_iff] at hf
          have := hf _ hss
          simp at this
        | some n =>
          obtain ⟨kw, hkw, hn⟩ := List.exists_of_findSome?_eq_some hf
          cases kw <;> simp at hn
          rename_i ss'
          rw [← hn, huniq ss' hkw]; rfl
      rw [this]
      constructor
      · intro h ss' hss'; rw [huniq ss' hss']; exact h
      · intro h; exact h ss hss
    · have := hs1.absent (by
        intro kw hkw hk
        obtain ⟨t, rfl⟩ := key_prefixItems hd (hkws.ok kw hkw) hk
        exact hex ⟨t, hkw⟩)
      rw [hp] at this; cases this
  · rename_i hnone
    constructor
    · intro _ ss hss
      obtain ⟨r, hr⟩ := hs1.present _ hss rfl hv
      rw [hnone] at hr; cases hr
    · intro _; omega

theorem kw_items {t : SRef} (hkey : key = "items") (hd : d = .d2020) (hobj : st.obj s = .obj kws)
    (hkws : KwsOk d kws) (hv : ∃ xs, i.value = .arr xs)
    (hs1 : SibOk st env d M (s :: b) kws i s (sibling parent i "prefixItems") "prefixItems")
    (h : evalKw st env rec (s :: a) (.items t) i parent c = some (parent', c')) :
    StepOut st env d M (s :: b) kws i (.items t)
      (KwHolds (codeRules st env d) env M (s :: b) kws i.value (.items t)) (remains c') := by
  subst hkey
  have hstart := items_start hd hobj hkws hv hs1
  subst hd
  simp only [evalKw] at h
  split at h
  · contradiction
  · rename_i c1 flags hs
    simp only [Option.some.injEq, Prod.mk.injEq] at h
    rw [← h.2]
    obtain ⟨h1, h2⟩ := shared_items hok hst hw hc (List.drop_sublist _ _) hs
    subst h1
    obtain ⟨f1, f2, f3⟩ := finishItems_out h2 (f := Prod.fst)
      (g := fun p : Nat × Inst => vb M (s :: b) t p.2.value)
      (l := i.items.drop (prefixStart st parent i))
    have hP : (∀ x ∈ i.items.drop (prefixStart st parent i), vb M (s :: b) t x.2.value = true) ↔
        KwHolds (codeRules st env .d2020) env M (s :: b) kws i.value (.items t) := by
      simp only [mem_drop_items, hstart, vb_iff, KwHolds]
      constructor
      · intro h k x hx hn
        exact h (k, ⟨i.path ++ [natStr k], x⟩) ⟨mem_items.2 ⟨x, hx, rfl⟩, hn⟩
      · intro h p hp
        obtain ⟨x, hx, he⟩ := mem_items.1 hp.1
        rw [he]; exact h _ _ hx hp.2
    refine Outcome.step (fun pt h => by cases pt <;> exact h)
      (.kept f1 (f2.trans hP) (fun pt hpt => ?_)) trivial
    refine (f3 (Cover .d2020 pt)).trans ?_
    rw [hP]
    cases pt with
    | name n => simp only [not_cover_name_item (show "items" ∈ _ by simp), ObsEv, and_false]
    | item k =>
      simp only [ObsEv]
      refine and_congr_right (fun hh => ?_)
      have hcov : Cover .d2020 (.item k) "items" (.bool true) := .inl ⟨by simp, rfl⟩
      simp only [hcov, and_true]
      constructor
      · intro hne
        obtain ⟨p, hp⟩ := List.exists_mem_of_ne_nil _ hne
        obtain ⟨hp, hn⟩ := mem_drop_items.1 hp
        obtain ⟨x, hx, _⟩ := mem_items.1 hp
        exact ⟨p.1, (List.getElem?_eq_some_iff.1 hx).1, (hstart _).1 hn⟩
      · rintro ⟨j, hj, hb⟩ hnil
        have : (j, (⟨i.path ++ [natStr j], (elems i.value)[j]⟩ : Inst)) ∈
            i.items.drop (prefixStart st parent i) :=
          mem_drop_items.2 ⟨mem_items.2 ⟨_, List.getElem?_eq_getElem hj, rfl⟩, (hstart j).2 hb⟩
        rw [hnil] at this; cases this

omit hok hst hw hc in
/-- The annotation of the sibling `items`. -/
theorem items_ann_some (hd : d = .d2019) (hkws : KwsOk d kws)
    (hs1 : SibOk st env d M (s :: b) kws i s (sibling parent i "items") "items") :
    ∀ z, (sibling parent i "items").bind (fun r => intOf r.info.annotation) = some z →
      ∃ ss, Kw.items9Array ss ∈ kws ∧ ss ≠ [] ∧ elems i.value ≠ [] ∧
        KwHolds (codeRules st env d) env M (s :: b) kws i.value (.items9Array ss) ∧
        z = (min ss.length (elems i.value).length : Nat) - 1 := by
  intro z hz
  by_cases hex : ∃ kw ∈ kws, kw.key = "items"
  · obtain ⟨kw, hkw, hk⟩ := hex
    rcases key_items9 hd (hkws.ok kw hkw) hk with ⟨t', rfl⟩ | ⟨ss, rfl⟩
    · have := hs1.present _ hkw hk
      simp only [Extra] at this
      rw [this] at hz; cases hz
    · exact ⟨ss, hkw, (hs1.present _ hkw hk z).1 hz⟩
  · have := hs1.absent (fun kw hkw hk => hex ⟨kw, hkw, hk⟩)
    rw [this] at hz; cases hz

omit hok hst hw hc in
/-- The annotation of the sibling `items`. -/
theorem items_ann_none  (hs1 : SibOk st env d M (s :: b) kws i s (sibling parent i "items") "items") :
    (sibling parent i "items").bind (fun r => intOf r.info.annotation) = none →
      ∀ ss, Kw.items9Array ss ∈ kws → ss ≠ [] → elems i.value ≠ [] →
        ¬ KwHolds (codeRules st env d) env M (s :: b) kws i.value (.items9Array ss) := by
  intro hz ss hss h1 h2 h3
  have := (hs1.present _ hss rfl _).2 ⟨h1, h2, h3, rfl⟩
  rw [hz] at this; cases this

theorem kw_additionalItems {t : SRef} (hkey : key = "additionalItems") (hd : d = .d2019)
    (hkws : KwsOk d kws)
    (hs1 : SibOk st env d M (s :: b) kws i s (sibling parent i "items") "items")
    (h : evalKw st env rec (s :: a) (.additionalItems t) i parent c = some (parent', c')) :
    StepOut st env d M (s :: b) kws i (.additionalItems t)
      (ObsHolds (codeRules st env d) env st M (s :: b) kws i.value (.additionalItems t)) (remains c') := by
  subst hkey
  have hu : ∀ pt, ¬ UnevalFor (.additionalItems t) pt := fun pt h => by cases pt <;> exact h
  have hsome := items_ann_some hd hkws hs1
  have hnone := items_ann_none hs1
  subst hd
  simp only [evalKw] at h
  split at h
  · rename_i last hlast
    obtain ⟨ss, hss, hne, hel, hh, hz⟩ := hsome last hlast
    have huniq : ∀ ss', Kw.items9Array ss' ∈ kws → ss' = ss := by
      intro ss' h'
      have := key_unique hkws.nodup h' hss rfl
      injection this
    have hlen0 : 0 < ss.length := List.length_pos_iff.2 hne
    have hlen1 : 0 < (elems i.value).length := List.length_pos_iff.2 hel
    split at h
    · contradiction
    · rename_i c1 flags hs
      simp only [Option.some.injEq, Prod.mk.injEq] at h
      rw [← h.2]
      obtain ⟨h1, h2⟩ := shared_items hok hst hw hc List.filter_sublist hs
      subst h1
      obtain ⟨f1, f2, f3⟩ := finishItems_out h2 (f := Prod.fst)
        (g := fun p : Nat × Inst => vb M (s :: b) t p.2.value)
        (l := i.items.filter (fun p => decide (last < (p.1 : Int))))
      have hlt : ∀ p, p ∈ i.items → (last < (p.1 : Int) ↔ ss.length ≤ p.1) := by
        intro p hp
        obtain ⟨x, hx, _⟩ := mem_items.1 hp
        have := (List.getElem?_eq_some_iff.1 hx).1
        omega
      have hP : (∀ x ∈ i.items.filter (fun p => decide (last < (p.1 : Int))),
          vb M (s :: b) t x.2.value = true) ↔
          ObsHolds (codeRules st env .d2019) env st M (s :: b) kws i.value (.additionalItems t) := by
        simp only [List.mem_filter, decide_eq_true_eq, vb_iff, ObsHolds]
        constructor
        · intro h ss' hss' _ _ k x hx hk
          rw [huniq ss' hss'] at hk
          have hp : (k, (⟨i.path ++ [natStr k], x⟩ : Inst)) ∈ i.items := mem_items.2 ⟨x, hx, rfl⟩
          exact h _ ⟨hp, (hlt _ hp).2 hk⟩
        · intro h p hp
          obtain ⟨x, hx, he⟩ := mem_items.1 hp.1
          rw [he]
          exact h ss hss hne hh _ _ hx ((hlt _ hp.1).1 hp.2)
      refine Outcome.step hu (.kept f1 (f2.trans hP) (fun pt hpt => ?_)) trivial
      refine (f3 (Cover .d2019 pt)).trans ?_
      rw [hP]
      cases pt with
      | name n => simp only [not_cover_name_item (show "additionalItems" ∈ _ by simp), ObsEv, and_false]
      | item k =>
        have hcov : Cover .d2019 (.item k) "additionalItems" (.bool true) := .inl ⟨by simp, rfl⟩
        simp only [hcov, and_true, ObsEv]
        have hne' : i.items.filter (fun p => decide (last < (p.1 : Int))) ≠ [] ↔
            ss.length < (elems i.value).length := by
          constructor
          · intro hne'
            obtain ⟨p, hp⟩ := List.exists_mem_of_ne_nil _ hne'
            obtain ⟨hp, hn⟩ := List.mem_filter.1 hp
            obtain ⟨x, hx, _⟩ := mem_items.1 hp
            have := (List.getElem?_eq_some_iff.1 hx).1
            have := (hlt _ hp).1 (by simpa using hn)
            omega
          · intro hl hnil
            have hp : (ss.length, (⟨i.path ++ [natStr ss.length], (elems i.value)[ss.length]⟩ : Inst)) ∈
                i.items := mem_items.2 ⟨_, List.getElem?_eq_getElem hl, rfl⟩
            have := List.mem_filter (p := fun p : Nat × Inst => decide (last < (p.1 : Int))) |>.2
              ⟨hp, decide_eq_true ((hlt _ hp).2 (Nat.le_refl _))⟩
            rw [hnil] at this; cases this
        rw [hne']
        constructor
        · rintro ⟨h1, h2⟩
          refine ⟨ss, hss, hne, hh, ?_, h2⟩
          simp only [ObsHolds] at h1
          simp only [KwHolds]
          intro ss' hss'
          rw [huniq ss' hss']
          exact h1 ss hss hne hh
        · rintro ⟨ss', hss', _, _, h1, h2⟩
          rw [huniq ss' hss'] at h2
          refine ⟨?_, h2⟩
          simp only [KwHolds] at h1
          simp only [ObsHolds]
          exact fun ss' h' _ _ => h1 ss' h'
  · rename_i hn
    have hn := hnone hn
    simp only [Option.some.injEq, Prod.mk.injEq] at h
    rw [← h.2]
    refine Outcome.step hu (.discarded rfl ?_ (fun pt _ => ?_)) trivial
    · simp only [ObsHolds]
      intro ss hss hne hh k x hx hk
      exact absurd hh (hn ss hss hne (by intro h; rw [h] at hx; simp at hx))
    · cases pt with
      | name n => simp [ObsEv]
      | item k =>
        simp only [ObsEv]
        rintro ⟨ss, hss, hne, hh, _, hl⟩
        exact hn ss hss hne (by intro h; rw [h] at hl; simp at hl) hh

/-! ## Unevaluated -/

/-- The names that keywords have evaluated, from the annotations. -/
def evaluatedNames (parent : RNode) (i : Inst) : List String :=
  ["properties", "patternProperties", "additionalProperties", "unevaluatedProperties"].flatMap (fun k =>
    (parent.annotations (some i.path) (some k)).flatMap namesOf)

omit hok hst hw hc in
theorem unevaluated_named
    (hann : ∀ n, HasMember i.value n → (evs (Cover d (.name n)) i.path parent ↔
      ∃ kw ∈ kws, ObsEv (codeRules st env d) env st M (s :: b) kws i.value kw (.name n)))
    (n : String) (hn : HasMember i.value n) : (!(evaluatedNames parent i).contains n) = true ↔
      ¬ ∃ kw ∈ kws, ObsEv (codeRules st env d) env st M (s :: b) kws i.value kw (.name n) := by
  rw [← hann n hn, evaluatedNames]
  simp only [Bool.not_eq_true', List.contains_eq_mem, decide_eq_false_iff_not, List.mem_flatMap]
  refine not_congr ?_
  constructor
  · rintro ⟨k, hk, a, ha, hn⟩
    exact ⟨k, a, ha, hk, hn⟩
  · rintro ⟨k, a, ha, hk, hn⟩
    exact ⟨k, hk, a, ha, hn⟩

theorem kw_unevaluatedProperties {t : SRef} (hkey : key = "unevaluatedProperties")
    (hann : ∀ n, HasMember i.value n → (evs (Cover d (.name n)) i.path parent ↔
      ∃ kw ∈ kws, ObsEv (codeRules st env d) env st M (s :: b) kws i.value kw (.name n)))
    (h : evalKw st env rec (s :: a) (.unevaluatedProperties t) i parent c = some (parent', c')) :
    StepOut st env d M (s :: b) kws i (.unevaluatedProperties t)
      (ObsHolds (codeRules st env d) env st M (s :: b) kws i.value (.unevaluatedProperties t))
      (remains c') := by
  subst hkey
  simp only [evalKw, evalUnevaluatedProperties, Option.map_eq_some_iff] at h
  obtain ⟨c2, h, hc2⟩ := h
  cases hc2
  have hmem := unevaluated_named hann
  change (match sharedLoop rec (s :: a) t
    (insts (i.members.filter (fun m => !(evaluatedNames parent i).contains m.1))) c with
    | none => none
    | some (c1, flags) => some (finishProps c1
        (tags (i.members.filter (fun m => !(evaluatedNames parent i).contains m.1))) flags)) = _ at h
  generalize evaluatedNames parent i = names at h hmem
  split at h
  · contradiction
  · rename_i c1 flags hs
    simp only [Option.some.injEq] at h
    rw [← h]
    obtain ⟨h1, h2⟩ := shared_members hok hst hw hc List.filter_sublist hs
    subst h1
    obtain ⟨f1, f2, f3⟩ := finishProps_out h2 (f := Prod.fst)
      (g := fun p : String × Inst => vb M (s :: b) t p.2.value)
      (l := i.members.filter (fun m => !names.contains m.1))
    have hP : (∀ x ∈ i.members.filter (fun m => !names.contains m.1),
        vb M (s :: b) t x.2.value = true) ↔
        ObsHolds (codeRules st env d) env st M (s :: b) kws i.value (.unevaluatedProperties t) := by
      simp only [List.mem_filter, vb_iff, ObsHolds]
      constructor
      · intro h n x hx hn
        exact h (n, ⟨i.path ++ [n], x⟩) ⟨mem_members.2 ⟨x, hx, rfl⟩, (hmem n ⟨x, hx⟩).2 hn⟩
      · intro h p hp
        obtain ⟨x, hx, he⟩ := mem_members.1 hp.1
        rw [he]; exact h _ _ hx ((hmem _ ⟨x, hx⟩).1 hp.2)
    change StepOut _ _ _ _ _ _ _ _ _ (remains (finishProps c1
      ((i.members.filter (fun m => !names.contains m.1)).map Prod.fst) _))
    refine ⟨?_, ?_, ?_, trivial⟩
    · rw [remains_some f1]
      simp only [Option.some.injEq, forall_eq', f2, hP]
    · intro pt hpt hun
      rw [remains_some f1]
      simp only [oevs, Option.some.injEq, exists_eq_left', f3]
      cases pt with
      | name n => exact absurd trivial hun
      | item k =>
        simp only [not_cover_item_name (show "unevaluatedProperties" ∈ _ by simp), ObsEv, and_false]
    · intro pt hpt hun
      rw [remains_some f1]
      simp only [oevs, Option.some.injEq, exists_eq_left', f3, hP]
      cases pt with
      | item k => exact absurd hun (by simp [UnevalFor])
      | name n =>
        refine ⟨fun h => h.1, fun h => ?_⟩
        by_cases hev : ∃ kw ∈ kws, ObsEv (codeRules st env d) env st M (s :: b) kws i.value kw (.name n)
        · exact .inr hev
        · refine .inl ⟨h, ?_⟩
          rw [cover_name_iff (by simp), namesOf_strs]
          obtain ⟨x, hx⟩ := hpt
          exact List.mem_map.2 ⟨(n, ⟨i.path ++ [n], x⟩), List.mem_filter.2
            ⟨mem_members.2 ⟨x, hx, rfl⟩, (hmem n ⟨x, hx⟩).2 hev⟩, rfl⟩

/-- The common part of both versions of `unevaluatedItems`. -/
theorem uneval_items_finish {t : SRef} {kw : Kw} (hkey : key = "unevaluatedItems")
    (hkw : kw = .unevaluatedItems t ∨ kw = .unevaluatedItems9 t)
    {todo : List (Nat × Inst)} (hsub : todo.Sublist i.items)
    (hmem : ∀ p ∈ i.items, p ∈ todo ↔
      ¬ ∃ kw ∈ kws, ObsEv (codeRules st env d) env st M (s :: b) kws i.value kw (.item p.1))
    {c1 : RNode} {flags : List Bool} (hs : sharedLoop rec (s :: a) t (insts todo) c = some (c1, flags)) :
    StepOut st env d M (s :: b) kws i kw
      (ObsHolds (codeRules st env d) env st M (s :: b) kws i.value kw)
      (remains (finishItems c1 (tags todo) flags)) := by
  subst hkey
  obtain ⟨h1, h2⟩ := shared_items hok hst hw hc hsub hs
  subst h1
  obtain ⟨f1, f2, f3⟩ := finishItems_out h2 (f := Prod.fst)
    (g := fun p : Nat × Inst => vb M (s :: b) t p.2.value) (l := todo)
  have hP : (∀ x ∈ todo, vb M (s :: b) t x.2.value = true) ↔
      ObsHolds (codeRules st env d) env st M (s :: b) kws i.value kw := by
    have : ObsHolds (codeRules st env d) env st M (s :: b) kws i.value kw ↔
        ∀ (k : Nat) x, (elems i.value)[k]? = some x →
      (¬ ∃ kw ∈ kws, ObsEv (codeRules st env d) env st M (s :: b) kws i.value kw (.item k)) →
        M.valid (s :: b) t x := by
      rcases hkw with rfl | rfl <;> rfl
    rw [this]
    simp only [vb_iff]
    constructor
    · intro h k x hx hn
      have hp : (k, (⟨i.path ++ [natStr k], x⟩ : Inst)) ∈ i.items := mem_items.2 ⟨x, hx, rfl⟩
      exact h _ ((hmem _ hp).2 hn)
    · intro h p hp
      have hp' := hsub.subset hp
      obtain ⟨x, hx, he⟩ := mem_items.1 hp'
      rw [he]; exact h _ _ hx ((hmem _ hp').1 hp)
  change StepOut _ _ _ _ _ _ _ _ _ (remains (finishItems c1 (todo.map Prod.fst) _))
  refine ⟨?_, ?_, ?_, ?_⟩
  · rw [remains_some f1]
    simp only [Option.some.injEq, forall_eq', f2, hP]
  · intro pt hpt hun
    rw [remains_some f1]
    simp only [oevs, Option.some.injEq, exists_eq_left', f3]
    cases pt with
    | item k => exact absurd (by rcases hkw with rfl | rfl <;> trivial) hun
    | name n =>
      have : ¬ ObsEv (codeRules st env d) env st M (s :: b) kws i.value kw (.name n) := by
        rcases hkw with rfl | rfl <;> exact id
      simp only [not_cover_name_item (show "unevaluatedItems" ∈ _ by simp), and_false, this]
  · intro pt hpt hun
    rw [remains_some f1]
    simp only [oevs, Option.some.injEq, exists_eq_left', f3, hP]
    cases pt with
    | name n => rcases hkw with rfl | rfl <;> exact absurd hun (by simp [UnevalFor])
    | item k =>
      refine ⟨fun h => h.1, fun h => ?_⟩
      by_cases hev : ∃ kw ∈ kws, ObsEv (codeRules st env d) env st M (s :: b) kws i.value kw (.item k)
      · exact .inr hev
      · refine .inl ⟨h, ?_, ?_⟩
        · have hk : k < (elems i.value).length := hpt
          have hp : (k, (⟨i.path ++ [natStr k], (elems i.value)[k]⟩ : Inst)) ∈ i.items :=
            mem_items.2 ⟨_, List.getElem?_eq_getElem hk, rfl⟩
          intro hnil
          have := (hmem _ hp).2 hev
          rw [hnil] at this; cases this
        · cases d
          · exact .inl ⟨by simp, rfl⟩
          · exact .inl ⟨by simp, rfl⟩
  · rcases hkw with rfl | rfl <;> exact trivial

omit hok hst hw hc in
/-- All items are evaluated already. -/
theorem uneval_items_all {t : SRef} {kw : Kw} (hkw : kw = .unevaluatedItems t ∨ kw = .unevaluatedItems9 t)
    (hall : ∀ k : Nat, k < (elems i.value).length → ∃ kw ∈ kws, ObsEv (codeRules st env d) env st M (s :: b) kws i.value kw (.item k)) :
    StepOut st env d M (s :: b) kws i kw
      (ObsHolds (codeRules st env d) env st M (s :: b) kws i.value kw)
      (remains c.setDiscard) := by
  have hr : remains c.setDiscard = none := remains_none rfl
  have hh : ObsHolds (codeRules st env d) env st M (s :: b) kws i.value kw := by
    rcases hkw with rfl | rfl <;>
      exact fun k x hx hn => absurd (hall k (List.getElem?_eq_some_iff.1 hx).1) hn
  rw [hr]
  refine ⟨by simp [hh], ?_, ?_, ?_⟩
  · intro pt hpt hun
    have : ¬ ObsEv (codeRules st env d) env st M (s :: b) kws i.value kw pt := by
      rcases hkw with rfl | rfl <;> cases pt <;> exact id
    simp [oevs, this]
  · intro pt hpt hun
    refine ⟨fun _ => hh, fun _ => .inr ?_⟩
    cases pt with
    | name n => rcases hkw with rfl | rfl <;> exact absurd hun (by simp [UnevalFor])
    | item k => exact hall k hpt
  · rcases hkw with rfl | rfl <;> exact trivial

omit hok hst hw hc in
theorem uneval_items_cases {t : SRef} (hd : d = .d2020)
    (hann : ∀ k : Nat, k < (elems i.value).length → (evs (Cover d (.item k)) i.path parent ↔
      ∃ kw ∈ kws, ObsEv (codeRules st env d) env st M (s :: b) kws i.value kw (.item k)))
    (h : evalKw st env rec (s :: a) (.unevaluatedItems t) i parent c = some (parent', c')) :
    (c' = c.setDiscard ∧ ∀ k : Nat, k < (elems i.value).length →
      ∃ kw ∈ kws, ObsEv (codeRules st env d) env st M (s :: b) kws i.value kw (.item k)) ∨
    ∃ todo c1 flags, todo.Sublist i.items ∧ (∀ p ∈ i.items, p ∈ todo ↔
      ¬ ∃ kw ∈ kws, ObsEv (codeRules st env d) env st M (s :: b) kws i.value kw (.item p.1)) ∧
      sharedLoop rec (s :: a) t (insts todo) c = some (c1, flags) ∧
      c' = finishItems c1 (tags todo) flags := by
  subst hd
  simp only [evalKw, evalUnevaluatedItems, Option.map_eq_some_iff] at h
  obtain ⟨c2, h, hc2⟩ := h
  cases hc2
  have htrue : ∀ k : String, k ∈ ["prefixItems", "items", "unevaluatedItems"] →
      (parent.annotations (some i.path) (some k)).any isTrue = true →
      ∀ k : Nat, k < (elems i.value).length →
      ∃ kw ∈ kws, ObsEv (codeRules st env .d2020) env st M (s :: b) kws i.value kw (.item k) := by
    intro k hk hany n hn
    obtain ⟨a, ha, hat⟩ := List.any_eq_true.1 hany
    exact (hann n hn).1 ⟨k, a, ha, .inl ⟨hk, hat⟩⟩
  split at h
  · cases h; exact .inl ⟨rfl, htrue "prefixItems" (by simp) (by assumption)⟩
  split at h
  · cases h; exact .inl ⟨rfl, htrue "items" (by simp) (by assumption)⟩
  split at h
  · cases h; exact .inl ⟨rfl, htrue "unevaluatedItems" (by simp) (by assumption)⟩
  rename_i n1 n2 n3
  split at h
  · contradiction
  · rename_i c1 flags hs
    simp only [Option.some.injEq] at h
    refine .inr ⟨_, c1, flags, List.filter_sublist, ?_, hs, h.symm⟩
    intro p hp
    obtain ⟨x, hx, _⟩ := mem_items.1 hp
    rw [← hann p.1 (List.getElem?_eq_some_iff.1 hx).1, List.mem_filter]
    simp only [hp, true_and, Bool.and_eq_true, decide_eq_true_eq, Bool.not_eq_true',
      List.contains_eq_mem, decide_eq_false_iff_not, List.mem_flatMap]
    constructor
    · rintro ⟨h1, h2⟩ ⟨k, a, ha, ⟨hk, hat⟩ | ⟨hk, z, hz, hle⟩ | ⟨hk, hat⟩⟩
      · simp only [List.mem_cons, List.not_mem_nil, or_false] at hk
        rcases hk with rfl | rfl | rfl
        · exact n1 (List.any_eq_true.2 ⟨a, ha, hat⟩)
        · exact n2 (List.any_eq_true.2 ⟨a, ha, hat⟩)
        · exact n3 (List.any_eq_true.2 ⟨a, ha, hat⟩)
      · subst hk
        have : (p.1 : Int) ≤ maxInt (-1) (parent.annotations (some i.path) (some "prefixItems")) :=
          le_maxInt.2 (.inr ⟨a, ha, z, hz, hle⟩)
        omega
      · subst hk
        exact h2 ⟨a, ha, hat⟩
    · intro h
      refine ⟨Int.not_le.1 (fun hle => h ?_), ?_⟩
      · rcases le_maxInt.1 hle with h' | ⟨a, ha, z, hz, hle⟩
        · omega
        · exact ⟨"prefixItems", a, ha, .inr (.inl ⟨rfl, z, hz, hle⟩)⟩
      · rintro ⟨a, ha, hat⟩
        exact h ⟨"contains", a, ha, .inr (.inr ⟨rfl, hat⟩)⟩

theorem kw_unevaluatedItems {t : SRef} (hkey : key = "unevaluatedItems") (hd : d = .d2020)
    (hann : ∀ k : Nat, k < (elems i.value).length → (evs (Cover d (.item k)) i.path parent ↔
      ∃ kw ∈ kws, ObsEv (codeRules st env d) env st M (s :: b) kws i.value kw (.item k)))
    (h : evalKw st env rec (s :: a) (.unevaluatedItems t) i parent c = some (parent', c')) :
    StepOut st env d M (s :: b) kws i (.unevaluatedItems t)
      (ObsHolds (codeRules st env d) env st M (s :: b) kws i.value (.unevaluatedItems t))
      (remains c') := by
  rcases uneval_items_cases hd hann h with ⟨rfl, hall⟩ | ⟨todo, c1, flags, hsub, hmem, hs, rfl⟩
  · exact uneval_items_all (.inl rfl) hall
  · exact uneval_items_finish hok hst hw hc hkey (.inl rfl) hsub hmem hs

omit hok hst hw hc in
theorem uneval_items9_cases {t : SRef} (hd : d = .d2019)
    (hann : ∀ k : Nat, k < (elems i.value).length → (evs (Cover d (.item k)) i.path parent ↔
      ∃ kw ∈ kws, ObsEv (codeRules st env d) env st M (s :: b) kws i.value kw (.item k)))
    (h : evalKw st env rec (s :: a) (.unevaluatedItems9 t) i parent c = some (parent', c')) :
    (c' = c.setDiscard ∧ ∀ k : Nat, k < (elems i.value).length →
      ∃ kw ∈ kws, ObsEv (codeRules st env d) env st M (s :: b) kws i.value kw (.item k)) ∨
    ∃ todo c1 flags, todo.Sublist i.items ∧ (∀ p ∈ i.items, p ∈ todo ↔
      ¬ ∃ kw ∈ kws, ObsEv (codeRules st env d) env st M (s :: b) kws i.value kw (.item p.1)) ∧
      sharedLoop rec (s :: a) t (insts todo) c = some (c1, flags) ∧
      c' = finishItems c1 (tags todo) flags := by
  subst hd
  simp only [evalKw, evalUnevaluatedItems9, Option.map_eq_some_iff] at h
  obtain ⟨c2, h, hc2⟩ := h
  cases hc2
  have htrue : ∀ k : String, k ∈ ["items", "additionalItems", "unevaluatedItems"] →
      (parent.annotations (some i.path) (some k)).any isTrue = true →
      ∀ k : Nat, k < (elems i.value).length →
      ∃ kw ∈ kws, ObsEv (codeRules st env .d2019) env st M (s :: b) kws i.value kw (.item k) := by
    intro k hk hany n hn
    obtain ⟨a, ha, hat⟩ := List.any_eq_true.1 hany
    exact (hann n hn).1 ⟨k, a, ha, .inl ⟨hk, hat⟩⟩
  split at h
  · cases h; exact .inl ⟨rfl, htrue "items" (by simp) (by assumption)⟩
  split at h
  · cases h; exact .inl ⟨rfl, htrue "additionalItems" (by simp) (by assumption)⟩
  split at h
  · cases h; exact .inl ⟨rfl, htrue "unevaluatedItems" (by simp) (by assumption)⟩
  rename_i n1 n2 n3
  split at h
  · contradiction
  · rename_i c1 flags hs
    simp only [Option.some.injEq] at h
    refine .inr ⟨_, c1, flags, List.filter_sublist, ?_, hs, h.symm⟩
    intro p hp
    obtain ⟨x, hx, _⟩ := mem_items.1 hp
    rw [← hann p.1 (List.getElem?_eq_some_iff.1 hx).1, List.mem_filter]
    simp only [hp, true_and, decide_eq_true_eq]
    constructor
    · rintro h1 ⟨k, a, ha, ⟨hk, hat⟩ | ⟨hk, z, hz, hle⟩⟩
      · simp only [List.mem_cons, List.not_mem_nil, or_false] at hk
        rcases hk with rfl | rfl | rfl
        · exact n1 (List.any_eq_true.2 ⟨a, ha, hat⟩)
        · exact n2 (List.any_eq_true.2 ⟨a, ha, hat⟩)
        · exact n3 (List.any_eq_true.2 ⟨a, ha, hat⟩)
      · subst hk
        have : (p.1 : Int) ≤ maxInt (-1) (parent.annotations (some i.path) (some "items")) :=
          le_maxInt.2 (.inr ⟨a, ha, z, hz, hle⟩)
        omega
    · intro h
      refine Int.not_le.1 (fun hle => h ?_)
      rcases le_maxInt.1 hle with h' | ⟨a, ha, z, hz, hle⟩
      · omega
      · exact ⟨"items", a, ha, .inr ⟨rfl, z, hz, hle⟩⟩

theorem kw_unevaluatedItems9 {t : SRef} (hkey : key = "unevaluatedItems") (hd : d = .d2019)
    (hann : ∀ k : Nat, k < (elems i.value).length → (evs (Cover d (.item k)) i.path parent ↔
      ∃ kw ∈ kws, ObsEv (codeRules st env d) env st M (s :: b) kws i.value kw (.item k)))
    (h : evalKw st env rec (s :: a) (.unevaluatedItems9 t) i parent c = some (parent', c')) :
    StepOut st env d M (s :: b) kws i (.unevaluatedItems9 t)
      (ObsHolds (codeRules st env d) env st M (s :: b) kws i.value (.unevaluatedItems9 t))
      (remains c') := by
  rcases uneval_items9_cases hd hann h with ⟨rfl, hall⟩ | ⟨todo, c1, flags, hsub, hmem, hs, rfl⟩
  · exact uneval_items_all (.inr rfl) hall
  · exact uneval_items_finish hok hst hw hc hkey (.inr rfl) hsub hmem hs

end

end Jschon
