import Verif.Proof.EvalKws

/-!
# What each keyword computes: keywords that descend, and keywords that look at siblings
-/

namespace Jschon

open Spec

/-- What later keywords may learn from the result `o` of a keyword (`none` if it has none). -/
def Extra (st : Store) (env : Env) (d : Dialect) (M : Meaning) (sc : List SRef) (kws : List Kw) (i : Inst) :
    Kw → Option RNode → Prop
  | .if_ t, o => ∃ r, o = some r ∧ (r.info.valid = true ↔ M.valid sc t i.value)
  | .contains t, o => (∃ xs, i.value = .arr xs) → ∃ r ks, o = some r ∧
      r.info.annotation = nats ks ∧ ks.length = matching M sc t i.value ∧
      Kids (SBelow i.path) r ∧ r.info.key = some "contains" ∧ (r.info.valid = false → ks = [])
  | .maxContains m, o => (∃ xs, i.value = .arr xs) → ∃ r, o = some r ∧
      (r.info.valid = true ↔ KwHolds (codeRules st env d) env M sc kws i.value (.maxContains m))
  | .properties _, o | .patternProperties _, o => (∃ kvs, i.value = .obj kvs) → ∃ r, o = some r
  | .prefixItems _, o => (∃ xs, i.value = .arr xs) → ∃ r, o = some r
  | .items9Array ss, o => ∀ z, o.bind (fun r => intOf r.info.annotation) = some z ↔
      ss ≠ [] ∧ elems i.value ≠ [] ∧
        KwHolds (codeRules st env d) env M sc kws i.value (.items9Array ss) ∧
        z = (min ss.length (elems i.value).length : Nat) - 1
  | .items9 _, o => o.bind (fun r => intOf r.info.annotation) = none
  | _, _ => True

/-- The sibling results for a key are as the keywords say. -/
structure SibOk (st : Store) (env : Env) (d : Dialect) (M : Meaning) (sc : List SRef) (kws : List Kw)
    (i : Inst) (s : SRef) (o : Option RNode) (key : String) : Prop where
  present : ∀ kw ∈ kws, kw.key = key → Extra st env d M sc kws i kw o
  absent : (∀ kw ∈ kws, kw.key ≠ key) → o = none
  schema : ∀ r, o = some r → r.info.schema = s

section
variable {d : Dialect} {st : Store} {env : Env} {rec : Rec} {M : Meaning} (hok : RecOk d rec M)
variable {a b : List SRef} {s : SRef} (hst : Stut (s :: a) (s :: b))
variable {i : Inst} (hw : i.value.WF) {c : RNode} {key : String} (hc : FreshFor c i key s)
variable {kws : List Kw} {parent parent' c' : RNode}

/-! ## Jobs -/

theorem itemJobs_eq : ∀ (ss : List SRef) (is : List (Nat × Inst)),
    itemJobs ss is = (ss.zip is).map (fun p => (natStr p.2.1, p.1, p.2.2))
  | [], is => by simp [itemJobs]
  | t :: ts, [] => by simp [itemJobs]
  | t :: ts, (n, i) :: is => by simp [itemJobs, itemJobs_eq ts is]

theorem mem_zip_items {ss : List SRef} {p : SRef × Nat × Inst} (h : p ∈ ss.zip i.items) :
    ∃ x, ss[p.2.1]? = some p.1 ∧ (elems i.value)[p.2.1]? = some x ∧
      p.2.2 = ⟨i.path ++ [natStr p.2.1], x⟩ := by
  obtain ⟨k, hk⟩ := List.mem_iff_getElem?.1 h
  rw [List.getElem?_zip_eq_some, items_getElem?, Option.map_eq_some_iff] at hk
  obtain ⟨h1, x, h2, h3⟩ := hk
  obtain ⟨t, n, j⟩ := p
  cases h3
  exact ⟨x, h1, h2, rfl⟩

theorem zip_items_mem {ss : List SRef} {k : Nat} {t : SRef} {x : Value} (h1 : ss[k]? = some t)
    (h2 : (elems i.value)[k]? = some x) :
    (t, k, (⟨i.path ++ [natStr k], x⟩ : Inst)) ∈ ss.zip i.items := by
  refine List.mem_iff_getElem?.2 ⟨k, ?_⟩
  rw [List.getElem?_zip_eq_some, items_getElem?, h2]
  exact ⟨h1, rfl⟩

theorem all_zip_items {ss : List SRef} {P : SRef → Value → Prop} :
    (∀ p ∈ ss.zip i.items, P p.1 p.2.2.value) ↔
    ∀ (k : Nat) t x, ss[k]? = some t → (elems i.value)[k]? = some x → P t x := by
  constructor
  · intro h k t x h1 h2
    exact h _ (zip_items_mem h1 h2)
  · intro h p hp
    obtain ⟨x, h1, h2, h3⟩ := mem_zip_items hp
    rw [h3]; exact h _ _ _ h1 h2

theorem zip_items_length (ss : List SRef) :
    (ss.zip i.items).length = min ss.length (elems i.value).length := by
  rw [List.length_zip, items_length]

include hok hst hw hc

/-- One subresult per item. -/
theorem item_loop {ss : List SRef} {c1 : RNode} {flags : List Bool}
    (h : subLoop rec (s :: a) (itemJobs ss i.items) c = some (c1, flags)) :
    flags = (ss.zip i.items).map (fun p => vb M (s :: b) p.1 p.2.2.value) ∧ c1.info = c.info ∧
      Kids (SBelow i.path) c1 := by
  have hj : ∀ j ∈ itemJobs ss i.items, ∃ p ∈ i.items, j.2.2 = p.2 := fun j hj => itemJobs_inst hj
  obtain ⟨h1, h2⟩ := subLoop_flags hok hst.dup hc.schema
    (by intro j hj'; obtain ⟨p, hp, he⟩ := hj j hj'; rw [he]; exact items_wf hw hp) h
  refine ⟨?_, h2, subLoop_kids (closed_sbelow _) (hok.good _ (closed_sbelow _)) ?_ (hc.kidsQ _) h⟩
  · rw [h1, itemJobs_eq, List.map_map]; rfl
  · intro j hj'; obtain ⟨p, hp, he⟩ := hj j hj'; rw [he]; exact sbelow_item hp

/-- One subresult per member. -/
theorem member_loop {jobs : List (String × SRef × Inst)} {c1 : RNode} {flags : List Bool}
    (hj : ∀ j ∈ jobs, ∃ p ∈ i.members, j.2.2 = p.2)
    (h : subLoop rec (s :: a) jobs c = some (c1, flags)) :
    flags = jobs.map (fun j => vb M (s :: b) j.2.1 j.2.2.value) ∧ c1.info = c.info ∧
      Kids (SBelow i.path) c1 := by
  obtain ⟨h1, h2⟩ := subLoop_flags hok hst.dup hc.schema
    (by intro j hj'; obtain ⟨p, hp, he⟩ := hj j hj'; rw [he]; exact member_wf hw hp) h
  refine ⟨h1, h2, subLoop_kids (closed_sbelow _) (hok.good _ (closed_sbelow _)) ?_ (hc.kidsQ _) h⟩
  intro j hj'; obtain ⟨p, hp, he⟩ := hj j hj'; rw [he]; exact sbelow_member hp

omit hok hst hw

/-- A descending keyword that annotates when all subresults pass and fails otherwise. -/
theorem desc_finish {c1 : RNode} {p P : Prop} [Decidable p] {v e : Value} (hi : c1.info = c.info)
    (hk : Kids (SBelow i.path) c1) (hp : p ↔ P) :
    (if p then c1.annotate v else c1.fail e).info.discard = false ∧
    ((if p then c1.annotate v else c1.fail e).passed = true ↔ P) ∧
    ∀ C, evs C i.path (if p then c1.annotate v else c1.fail e) ↔ P ∧ v ≠ .null ∧ C key v := by
  have hcl := hc.clean
  by_cases h : p
  · simp only [if_pos h]
    have hP := hp.1 h
    refine ⟨by simp [RNode.annotate, hi, hcl.discard],
      by simp [RNode.passed, RNode.annotate, hi, hcl.valid, hP], fun C => ?_⟩
    rw [evs_desc (key := key) (hk.upd (Upd.annotate _ v)) (by simp [RNode.annotate, hi, hc.key])
      (by simp [RNode.annotate, hi, hc.inst])]
    simp [RNode.annotate, hi, hcl.valid, hcl.discard, hP]
  · simp only [if_neg h]
    have hP : ¬ P := fun h' => h (hp.2 h')
    refine ⟨by simp [RNode.fail, hi, hcl.discard],
      by simp [RNode.passed, RNode.fail, hi, hcl.asrt, hP], fun C => ?_⟩
    rw [evs_desc (key := key) (hk.upd (Upd.fail _ e)) (by simp [RNode.fail, hi, hc.key])
      (by simp [RNode.fail, hi, hc.inst])]
    simp [RNode.fail, hP]

include hok hst hw

theorem kw_prefixItems {ss : List SRef} (hkey : key = "prefixItems") (hd : d = .d2020)
    (h : evalKw st env rec (s :: a) (.prefixItems ss) i parent c = some (parent', c')) :
    Outcome d i c' (KwHolds (codeRules st env d) env M (s :: b) kws i.value (.prefixItems ss))
      (ObsEv (codeRules st env d) env st M (s :: b) kws i.value (.prefixItems ss)) ∧
    c'.info.discard = false := by
  subst hkey hd
  simp only [evalKw] at h
  split at h
  · contradiction
  · rename_i c1 flags hs
    simp only [Option.some.injEq, Prod.mk.injEq] at h
    rw [← h.2]
    obtain ⟨h1, h2, h3⟩ := item_loop hok hst hw hc hs
    have hP : flags.all id = true ↔
        KwHolds (codeRules st env .d2020) env M (s :: b) kws i.value (.prefixItems ss) := by
      rw [h1, all_map_id]; simp only [vb_iff, KwHolds]
      exact all_zip_items (P := fun t x => M.valid (s :: b) t x)
    have hlen : (itemJobs ss i.items).length = min ss.length (elems i.value).length := by
      rw [itemJobs_eq, List.length_map, zip_items_length]
    -- no item: nothing to annotate
    have e : (if flags.all id = true then
          if itemJobs ss i.items = [] then c1
          else c1.annotate (if (itemJobs ss i.items).length = i.items.length then .bool true
            else .num (.int ((itemJobs ss i.items).length - 1 : Nat)))
        else c1.fail (nats (failedOf (List.range (itemJobs ss i.items).length) flags))) =
        (if flags.all id = true then c1.annotate
          (if itemJobs ss i.items = [] then .null else
            (if (itemJobs ss i.items).length = i.items.length then .bool true
            else .num (.int ((itemJobs ss i.items).length - 1 : Nat))))
        else c1.fail (nats (failedOf (List.range (itemJobs ss i.items).length) flags))) := by
      split
      · split
        · have := hc.clean.ann
          rw [← h2] at this
          simp only [RNode.annotate]
          rw [← this]
          exact (RNode.eta _).symm
        · rfl
      · rfl
    rw [e]
    obtain ⟨f1, f2, f3⟩ := desc_finish hc (p := flags.all id = true) (e := (nats (failedOf (List.range
      (itemJobs ss i.items).length) flags))) h2 h3 hP (v := (if itemJobs ss i.items = [] then .null else
            (if (itemJobs ss i.items).length = i.items.length then .bool true
            else .num (.int ((itemJobs ss i.items).length - 1 : Nat)))))
    refine ⟨.kept f1 f2 (fun pt hpt => ?_), f1⟩
    rw [f3]
    cases pt with
    | name n =>
      simp only [not_cover_name_item (show "prefixItems" ∈ _ by simp), ObsEv, and_false]
    | item k =>
      have hk : k < (elems i.value).length := hpt
      simp only [ObsEv]
      refine and_congr_right (fun _ => ?_)
      by_cases hj : itemJobs ss i.items = []
      · rw [if_pos hj]
        rw [hj, List.length_nil] at hlen
        simp only [ne_eq, not_true_eq_false, false_and, false_iff, Nat.not_lt]
        omega
      · rw [if_neg hj]
        have hj' : (itemJobs ss i.items).length ≠ 0 := fun h => hj (List.length_eq_zero_iff.1 h)
        rw [items_length]
        split
        · rename_i hl
          simp [Cover, isTrue]
          omega
        · rename_i hl
          simp [Cover, isTrue, intOf]
          omega

theorem kw_items9Array {ss : List SRef} (hkey : key = "items") (hd : d = .d2019)
    (h : evalKw st env rec (s :: a) (.items9Array ss) i parent c = some (parent', c')) :
    Outcome d i c' (KwHolds (codeRules st env d) env M (s :: b) kws i.value (.items9Array ss))
      (ObsEv (codeRules st env d) env st M (s :: b) kws i.value (.items9Array ss)) ∧
    c'.info.discard = false ∧ Extra st env d M (s :: b) kws i (.items9Array ss) (some c') := by
  subst hkey hd
  simp only [evalKw] at h
  split at h
  · rename_i hnil
    simp only [Option.some.injEq, Prod.mk.injEq] at h
    rw [← h.2]
    have hel : elems i.value = [] := (items_nil_iff i).1 hnil
    refine ⟨(kw_leaf hc (Upd.refl _) hc.clean.discard (pass := KwHolds (codeRules st env .d2019) env M
      (s :: b) kws i.value (.items9Array ss)) ?_ (.inl hc.clean.ann)).congr Iff.rfl ?_,
      hc.clean.discard, ?_⟩
    · simp [RNode.passed, hc.clean.valid, KwHolds, hel]
    · intro pt hpt
      cases pt with
      | name n => simp [ObsEv]
      | item k => simp [Pt.In, hel] at hpt
    · intro z
      simp [hc.clean.ann, intOf, hel]
  · rename_i hnil
    have hel : elems i.value ≠ [] := fun h => hnil ((items_nil_iff i).2 h)
    split at h
    · contradiction
    · rename_i c1 flags hs
      simp only [Option.some.injEq, Prod.mk.injEq] at h
      rw [← h.2]
      obtain ⟨h1, h2, h3⟩ := item_loop hok hst hw hc hs
      have hP : flags.all id = true ↔
          KwHolds (codeRules st env .d2019) env M (s :: b) kws i.value (.items9Array ss) := by
        rw [h1, all_map_id]; simp only [vb_iff, KwHolds]
        exact all_zip_items (P := fun t x => M.valid (s :: b) t x)
      have hlen : (itemJobs ss i.items).length = min ss.length (elems i.value).length := by
        rw [itemJobs_eq, List.length_map, zip_items_length]
      have hlen0 : 0 < (elems i.value).length := List.length_pos_iff.2 hel
      obtain ⟨f1, f2, f3⟩ := desc_finish hc (p := flags.all id = true) (e := (nats (failedOf (List.range
        (itemJobs ss i.items).length) flags))) h2 h3 hP (v := (if itemJobs ss i.items = [] then .null
              else .num (.int ((itemJobs ss i.items).length - 1 : Nat))))
      refine ⟨.kept f1 f2 (fun pt hpt => ?_), f1, ?_⟩
      · rw [f3]
        cases pt with
        | name n =>
          simp only [not_cover_name_item (show "items" ∈ _ by simp), ObsEv, and_false]
        | item k =>
          have hk : k < (elems i.value).length := hpt
          simp only [ObsEv]
          refine and_congr_right (fun _ => ?_)
          by_cases hj : itemJobs ss i.items = []
          · rw [if_pos hj]
            rw [hj, List.length_nil] at hlen
            simp only [ne_eq, not_true_eq_false, false_and, false_iff, Nat.not_lt]
            omega
          · rw [if_neg hj]
            have hj' : (itemJobs ss i.items).length ≠ 0 := fun h => hj (List.length_eq_zero_iff.1 h)
            simp [Cover, isTrue, intOf]
            omega
      · intro z
        have hann : c1.info.annotation = .null := by rw [h2]; exact hc.clean.ann
        simp only [Option.bind_some]
        by_cases hall : flags.all id = true
        · simp only [if_pos hall, RNode.annotate, RNode.info_mk]
          by_cases hj : itemJobs ss i.items = []
          · rw [hj, List.length_nil] at hlen
            have : ss = [] := List.length_eq_zero_iff.1 (by omega)
            subst this
            simp [itemJobs, intOf]
          · have hj' : (itemJobs ss i.items).length ≠ 0 := fun h => hj (List.length_eq_zero_iff.1 h)
            have hss : ss ≠ [] := by rintro rfl; simp [itemJobs] at hj
            simp only [if_neg hj, intOf, Option.some.injEq, hlen, ne_eq, hss, not_false_eq_true, hel,
              hP.1 hall, true_and]
            omega
        · have hnP := fun h => hall (hP.2 h)
          simp only [if_neg hall, RNode.fail, RNode.info_mk, hann, intOf]
          simp only [reduceCtorEq, false_iff]
          rintro ⟨_, _, h, _⟩
          exact hnP h

omit hok hst hw hc in
theorem mem_propJobs {ps : List (String × SRef)} {j : String × SRef × Inst} :
    j ∈ propJobs ps i.members ↔ ∃ x, (j.1, x) ∈ members i.value ∧ dlookup j.1 ps = some j.2.1 ∧
      j.2.2 = ⟨i.path ++ [j.1], x⟩ := by
  simp only [propJobs, List.mem_filterMap, Option.map_eq_some_iff]
  constructor
  · rintro ⟨m, hm, t, ht, rfl⟩
    obtain ⟨x, hx, he⟩ := mem_members.1 hm
    exact ⟨x, hx, ht, he⟩
  · rintro ⟨x, hx, ht, he⟩
    obtain ⟨n, t, i'⟩ := j
    exact ⟨(n, i'), mem_members.2 ⟨x, hx, he⟩, t, ht, rfl⟩

theorem kw_properties {ps : List (String × SRef)} (hkey : key = "properties") (hps : (dkeys ps).Nodup)
    (h : evalKw st env rec (s :: a) (.properties ps) i parent c = some (parent', c')) :
    Outcome d i c' (KwHolds (codeRules st env d) env M (s :: b) kws i.value (.properties ps))
      (ObsEv (codeRules st env d) env st M (s :: b) kws i.value (.properties ps)) ∧
    c'.info.discard = false := by
  subst hkey
  simp only [evalKw] at h
  split at h
  · contradiction
  · rename_i c1 flags hs
    simp only [Option.some.injEq, Prod.mk.injEq] at h
    rw [← h.2]
    obtain ⟨h1, h2, h3⟩ := member_loop hok hst hw hc (fun j hj => propJobs_inst hj) hs
    have hmem : ∀ j, j ∈ propJobs ps i.members ↔ ∃ x, (j.1, x) ∈ members i.value ∧
        (j.1, j.2.1) ∈ ps ∧ j.2.2 = ⟨i.path ++ [j.1], x⟩ := by
      intro j
      rw [mem_propJobs]
      have : dlookup j.1 ps = some j.2.1 ↔ (j.1, j.2.1) ∈ ps :=
        ⟨dlookup_mem, dlookup_of_mem hps⟩
      simp only [this]
    have hP : flags.all id = true ↔
        KwHolds (codeRules st env d) env M (s :: b) kws i.value (.properties ps) := by
      rw [h1, all_map_id]; simp only [vb_iff, KwHolds]
      constructor
      · intro h n t x ht hx
        exact h (n, t, ⟨i.path ++ [n], x⟩) ((hmem _).2 ⟨x, hx, ht, rfl⟩)
      · intro h j hj
        obtain ⟨x, hx, ht, he⟩ := (hmem j).1 hj
        rw [he]; exact h _ _ _ ht hx
    obtain ⟨f1, f2, f3⟩ := desc_finish hc (p := flags.all id = true) (e := .str "properties are invalid")
      h2 h3 hP (v := strs (passedOf ((propJobs ps i.members).map Prod.fst) flags))
    refine ⟨.kept f1 f2 (fun pt hpt => ?_), f1⟩
    rw [f3]
    cases pt with
    | name n =>
      rw [cover_name_iff (by simp), namesOf_strs]
      simp only [ObsEv]
      refine and_congr_right (fun hh => ?_)
      have hall := hP.2 hh
      rw [h1, all_map_id] at hall
      rw [h1, passedOf_map_all hall]
      simp only [strs, ne_eq, reduceCtorEq, not_false_eq_true, true_and, List.mem_map]
      constructor
      · rintro ⟨j, hj, rfl⟩
        obtain ⟨x, hx, ht, _⟩ := (hmem j).1 hj
        exact ⟨_, ht⟩
      · rintro ⟨t, ht⟩
        obtain ⟨x, hx⟩ := hpt
        exact ⟨(n, t, ⟨i.path ++ [n], x⟩), (hmem _).2 ⟨x, hx, ht, rfl⟩, rfl⟩
    | item k => simp only [not_cover_item_name (show "properties" ∈ _ by simp), ObsEv, and_false]

omit hok hst hw hc in
theorem mem_dedup {x : String} : ∀ {l acc : List String}, x ∈ dedup acc l ↔ x ∈ acc ∨ x ∈ l
  | [], acc => by simp [dedup]
  | y :: l, acc => by
    simp only [dedup]
    split
    · rename_i h
      rw [mem_dedup]
      have hy : y ∈ acc := by simpa using h
      constructor
      · rintro (h | h)
        · exact .inl h
        · exact .inr (List.mem_cons_of_mem _ h)
      · rintro (h | h)
        · exact .inl h
        · rcases List.mem_cons.1 h with rfl | h
          · exact .inl hy
          · exact .inr h
    · rw [mem_dedup]
      simp only [List.mem_append, List.mem_cons, or_assoc, List.not_mem_nil, false_or]

theorem kw_patternProperties {ps : List (String × SRef)} (hkey : key = "patternProperties")
    (h : evalKw st env rec (s :: a) (.patternProperties ps) i parent c = some (parent', c')) :
    Outcome d i c' (KwHolds (codeRules st env d) env M (s :: b) kws i.value (.patternProperties ps))
      (ObsEv (codeRules st env d) env st M (s :: b) kws i.value (.patternProperties ps)) ∧
    c'.info.discard = false := by
  subst hkey
  simp only [evalKw] at h
  split at h
  · contradiction
  · rename_i c1 flags hs
    simp only [Option.some.injEq, Prod.mk.injEq] at h
    rw [← h.2]
    obtain ⟨h1, h2, h3⟩ := member_loop hok hst hw hc
      (fun j hj => by
        obtain ⟨q, hq, rfl⟩ := List.mem_map.1 hj
        exact patternJobs_inst hq) hs
    rw [List.map_map] at h1
    have hmem : ∀ j, j ∈ patternJobs env ps i.members ↔ ∃ x, (j.1, x) ∈ members i.value ∧
        (j.2.1, j.2.2.1) ∈ ps ∧ env.search j.2.1 j.1 = true ∧ j.2.2.2 = ⟨i.path ++ [j.1], x⟩ := by
      intro j
      simp only [patternJobs, List.mem_flatMap, List.mem_map, List.mem_filter]
      constructor
      · rintro ⟨m, hm, p, ⟨hp, hs⟩, rfl⟩
        obtain ⟨x, hx, he⟩ := mem_members.1 hm
        exact ⟨x, hx, hp, hs, he⟩
      · rintro ⟨x, hx, hp, hs, he⟩
        obtain ⟨n, re, t, i'⟩ := j
        exact ⟨(n, i'), mem_members.2 ⟨x, hx, he⟩, (re, t), ⟨hp, hs⟩, rfl⟩
    have hP : flags.all id = true ↔
        KwHolds (codeRules st env d) env M (s :: b) kws i.value (.patternProperties ps) := by
      rw [h1, all_map_id]; simp only [vb_iff, KwHolds, Function.comp]
      constructor
      · intro h re t n x ht hx hs
        exact h (n, re, t, ⟨i.path ++ [n], x⟩) ((hmem _).2 ⟨x, hx, ht, hs, rfl⟩)
      · intro h j hj
        obtain ⟨x, hx, ht, hs, he⟩ := (hmem j).1 hj
        rw [he]; exact h _ _ _ _ ht hx hs
    obtain ⟨f1, f2, f3⟩ := desc_finish hc (p := flags.all id = true) (e := .str "properties are invalid")
      h2 h3 hP (v := strs (dedup [] (passedOf ((patternJobs env ps i.members).map Prod.fst) flags)))
    refine ⟨.kept f1 f2 (fun pt hpt => ?_), f1⟩
    rw [f3]
    cases pt with
    | name n =>
      rw [cover_name_iff (by simp), namesOf_strs]
      simp only [ObsEv]
      refine and_congr_right (fun hh => ?_)
      have hall := hP.2 hh
      rw [h1, all_map_id] at hall
      rw [h1, passedOf_map_all hall, mem_dedup]
      simp only [strs, ne_eq, reduceCtorEq, not_false_eq_true, true_and, List.mem_map,
        List.not_mem_nil, false_or]
      constructor
      · rintro ⟨j, hj, rfl⟩
        obtain ⟨x, hx, ht, hs, _⟩ := (hmem j).1 hj
        exact ⟨_, _, ht, hs⟩
      · rintro ⟨re, t, ht, hs⟩
        obtain ⟨x, hx⟩ := hpt
        exact ⟨(n, re, t, ⟨i.path ++ [n], x⟩), (hmem _).2 ⟨x, hx, ht, hs, rfl⟩, rfl⟩
    | item k => simp only [not_cover_item_name (show "patternProperties" ∈ _ by simp), ObsEv, and_false]

theorem kw_propertyNames {t : SRef} 
    (h : evalKw st env rec (s :: a) (.propertyNames t) i parent c = some (parent', c')) :
    Outcome d i c' (KwHolds (codeRules st env d) env M (s :: b) kws i.value (.propertyNames t))
      (fun _ => False) := by
  simp only [evalKw] at h
  split at h
  · contradiction
  · rename_i c1 flags hs
    simp only [Option.some.injEq, Prod.mk.injEq] at h
    rw [← h.2]
    obtain ⟨h1, h2⟩ := shared_names hok hst hw hc hs
    subst h1
    have hP : failedOf (tags i.names) (i.names.map (fun p => vb M (s :: b) t p.2.value)) = [] ↔
        KwHolds (codeRules st env d) env M (s :: b) kws i.value (.propertyNames t) := by
      rw [tags, failedOf_map_nil]
      simp only [vb_iff, KwHolds]
      constructor
      · intro h n hn
        exact h (n, ⟨i.path ++ [n], .str n⟩) (mem_names.2 ⟨hn, rfl⟩)
      · intro h p hp
        obtain ⟨h1, h2⟩ := mem_names.1 hp
        rw [h2]; exact h _ h1
    refine outcome_leaf (key := key) ?_ ?_ ?_ (discard_fail_ite h2.clean _)
      ((passed_fail_ite h2.clean _).trans hP) (.inl ?_)
    · exact h2.kids.upd (Upd.ite (Upd.refl _) (Upd.fail _ _))
    · split
      · exact h2.key
      · exact h2.key
    · split
      · exact h2.inst
      · exact h2.inst
    · rw [ann_fail_ite]; exact h2.clean.ann

theorem kw_items9 {t : SRef} (hkey : key = "items") (hd : d = .d2019)
    (hbool : ∀ bb, st.obj t = .bool bb → ∀ sc v pt, ¬ M.ev sc t v pt)
    (h : evalKw st env rec (s :: a) (.items9 t) i parent c = some (parent', c')) :
    Outcome d i c' (ObsHolds (codeRules st env d) env st M (s :: b) kws i.value (.items9 t))
      (ObsEv (codeRules st env d) env st M (s :: b) kws i.value (.items9 t)) ∧
    c'.info.discard = false ∧ Extra st env d M (s :: b) kws i (.items9 t) (some c') := by
  subst hkey hd
  simp only [evalKw] at h
  split at h
  · rename_i hnil
    simp only [Option.some.injEq, Prod.mk.injEq] at h
    rw [← h.2]
    have hel : elems i.value = [] := (items_nil_iff i).1 hnil
    refine ⟨(kw_leaf hc (Upd.refl _) hc.clean.discard (pass := ObsHolds (codeRules st env .d2019) env st M
      (s :: b) kws i.value (.items9 t)) ?_ (.inl hc.clean.ann)).congr Iff.rfl ?_,
      hc.clean.discard, ?_⟩
    · simp only [RNode.passed, hc.clean.valid, ObsHolds, hel, KwHolds, Bool.true_or, true_iff]
      split <;> simp
    · intro pt hpt
      cases pt with
      | name n => simp [ObsEv]
      | item k => simp [Pt.In, hel] at hpt
    · simp [Extra, hc.clean.ann, intOf]
  · rename_i hnil
    have hel : elems i.value ≠ [] := fun h => hnil ((items_nil_iff i).2 h)
    split at h
    · rename_i bb hb
      split at h
      · contradiction
      · rename_i c1 hs
        simp only [Option.some.injEq, Prod.mk.injEq] at h
        rw [← h.2]
        obtain ⟨h1, h2, h3, h4, h5, h6⟩ := own_rec hok hst hw hc hs
        refine ⟨(kw_ref_like hok hst hw hc hs (.inr rfl)).congr ?_ ?_, h2, ?_⟩
        · simp only [ObsHolds, hb, hel, ne_eq, not_false_eq_true, true_implies]
        · intro pt _
          cases pt with
          | name n => simp [ObsEv, hbool bb hb]
          | item k => simp [ObsEv, hb, hbool bb hb]
        · simp [Extra, h4, intOf]
    · rename_i ks hb
      split at h
      · contradiction
      · rename_i c1 hs
        simp only [Option.some.injEq, Prod.mk.injEq] at h
        rw [← h.2]
        obtain ⟨h1, h2, h3, h4, h5⟩ := plainLoop_spec hok hst hc.clean
          (by intro j hj; obtain ⟨p, hp, rfl⟩ := mem_insts hj; exact items_wf hw hp)
          (fun j _ => hc.away _) (items_pairwise (List.Sublist.refl _)) hs
        have hk := plainLoop_kids (hok.kids _ (closed_sbelow i.path))
          (by intro j hj; obtain ⟨p, hp, rfl⟩ := mem_insts hj; exact sbelow_item hp) (hc.kidsQ _) hs
        have hP : c1.passed = true ↔
            ObsHolds (codeRules st env .d2019) env st M (s :: b) kws i.value (.items9 t) := by
          rw [passed_of_asrt h3, h1]
          simp only [ObsHolds, hb, KwHolds]
          constructor
          · intro h x hx
            obtain ⟨k, hk⟩ := List.mem_iff_getElem?.1 hx
            exact h ⟨i.path ++ [natStr k], x⟩ (List.mem_map.2 ⟨(k, ⟨i.path ++ [natStr k], x⟩),
              mem_items.2 ⟨x, hk, rfl⟩, rfl⟩)
          · intro h j hj
            obtain ⟨p, hp, rfl⟩ := mem_insts hj
            obtain ⟨x, hx, he⟩ := mem_items.1 hp
            rw [he]; exact h x (List.mem_of_getElem? hx)
        have hEx : Extra st env .d2019 M (s :: b) kws i (.items9 t)
            (some (if c1.passed = true then c1.annotate (.bool true) else c1)) := by
          simp only [Extra, Option.bind_some]
          split
          · rfl
          · rw [h4]; rfl
        refine ⟨.kept ?_ ?_ (fun pt hpt => ?_), ?_, hEx⟩
        · split <;> exact h2
        · rw [← hP]
          split
          · rename_i hp
            simp only [hp, iff_true]
            simpa [RNode.passed, RNode.annotate] using hp
          · rfl
        · have hE : ∀ k : Nat, ObsEv (codeRules st env .d2019) env st M (s :: b) kws i.value (.items9 t)
              (.item k) ↔ c1.passed = true := by
            intro k
            rw [hP]; simp [ObsEv, ObsHolds, hb]
          rw [evs_desc (key := "items") (hk.upd (Upd.ite (Upd.annotate _ _) (Upd.refl _)))
            (by split <;> exact h5.key.trans hc.key)
            (by split <;> exact h5.inst.trans hc.inst)]
          cases pt with
          | name n => simp only [not_cover_name_item (show "items" ∈ _ by simp), ObsEv, and_false]
          | item k =>
            rw [hE]
            by_cases hp : c1.passed = true
            · simp only [if_pos hp]
              have hv : c1.info.valid = true := by rw [← passed_of_asrt h3]; exact hp
              simp [RNode.annotate, hv, h2, Cover, isTrue, hp]
            · rw [if_neg hp]; simp [h4, hp]
        · split <;> exact h2

end

end Jschon
