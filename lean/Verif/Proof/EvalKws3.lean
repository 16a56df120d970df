import Verif.Proof.EvalKws2

/-!
# What each keyword computes: keywords that look at siblings
-/

namespace Jschon

open Spec

/-- The result that remains. -/
def remains (c : RNode) : Option RNode := if c.info.discard then none else some c

/-- An optional result has annotations. -/
def oevs (C : String → Value → Prop) (p : List String) (o : Option RNode) : Prop :=
  ∃ c, o = some c ∧ evs C p c

/-- The keyword that deals with what is not evaluated, for that kind of part. -/
def UnevalFor : Kw → Pt → Prop
  | .unevaluatedProperties _, .name _ => True
  | .unevaluatedItems _, .item _ => True
  | .unevaluatedItems9 _, .item _ => True
  | _, _ => False

section
variable (st : Store) (env : Env) (d : Dialect) (M : Meaning) (sc : List SRef) (kws : List Kw) (i : Inst)

/-- The state of a keyword's result `o` (`P` says when it passes). -/
structure StepOut (kw : Kw) (P : Prop) (o : Option RNode) : Prop where
  pass : (∀ c, o = some c → c.passed = true) ↔ P
  ev : ∀ pt, pt.In i.value → ¬ UnevalFor kw pt →
    (oevs (Cover d pt) i.path o ↔ ObsEv (codeRules st env d) env st M sc kws i.value kw pt)
  uev : ∀ pt, pt.In i.value → UnevalFor kw pt →
    (oevs (Cover d pt) i.path o → ObsHolds (codeRules st env d) env st M sc kws i.value kw) ∧
    (ObsHolds (codeRules st env d) env st M sc kws i.value kw → oevs (Cover d pt) i.path o ∨
      ∃ kw' ∈ kws, ObsEv (codeRules st env d) env st M sc kws i.value kw' pt)
  extra : Extra st env d M sc kws i kw o

/-- When a keyword passes by itself. -/
def Pass0 : Kw → Prop
  | .contains t => (∃ xs, i.value = .arr xs) → 1 ≤ matching M sc t i.value
  | kw => ObsHolds (codeRules st env d) env st M sc kws i.value kw

end

section
variable {d : Dialect} {st : Store} {env : Env} {rec : Rec} {M : Meaning} (hok : RecOk d rec M)
variable {a b : List SRef} {s : SRef} (hst : Stut (s :: a) (s :: b))
variable {i : Inst} (hw : i.value.WF) {c : RNode} {key : String} (hc : FreshFor c i key s)
variable {kws : List Kw} {parent parent' c' : RNode}

theorem Outcome.step {kw : Kw} {P : Prop} {sc : List SRef} (hu : ∀ pt, ¬ UnevalFor kw pt)
    (h : Outcome d i c' P (ObsEv (codeRules st env d) env st M sc kws i.value kw))
    (hx : Extra st env d M sc kws i kw (remains c')) : StepOut st env d M sc kws i kw P (remains c') := by
  refine ⟨?_, ?_, fun pt _ h => absurd h (hu pt), hx⟩
  · cases h with
    | discarded h1 h2 h3 => simp [remains, h1, h2]
    | kept h1 h2 h3 => simp [remains, h1, h2]
  · intro pt hpt _
    cases h with
    | discarded h1 h2 h3 => simp [remains, h1, oevs, h3 pt hpt]
    | kept h1 h2 h3 => simp [remains, h1, oevs, h3 pt hpt]

theorem remains_some (h : c'.info.discard = false) : remains c' = some c' := by simp [remains, h]
theorem remains_none (h : c'.info.discard = true) : remains c' = none := by simp [remains, h]

/-! ## Keys -/

theorem assertion_key_not_reserved (a : Assertion) (d : Dialect) : a.key ∉ reserved d := by
  cases d <;> cases a <;> simp [Assertion.key, reserved]

theorem kw_of_key {kw : Kw} (hk : kw.Ok d) {key : String} (h : kw.key = key) (hr : key ∈ reserved d) :
    (∀ a, kw ≠ .assert a) ∧ (∀ k v, kw ≠ .static k v) ∧ (∀ k b v, kw ≠ .annot k b v) ∧
      ∀ k v, kw ≠ .unknown k v := by
  subst h
  refine ⟨?_, ?_, ?_, ?_⟩
  · rintro a rfl; exact assertion_key_not_reserved a d hr
  · rintro k v rfl; exact hk hr
  · rintro k b v rfl; exact hk hr
  · rintro k v rfl; exact hk hr

macro "key_tac" kw:ident d:ident hk:ident h:ident : tactic => `(tactic| (
  have hr := kw_of_key $hk $h (by cases $d:ident <;> decide)
  cases $kw:ident
  all_goals first
    | exact ⟨_, rfl⟩
    | exact absurd rfl (hr.1 _)
    | exact absurd rfl (hr.2.1 _ _)
    | exact absurd rfl (hr.2.2.1 _ _ _)
    | exact absurd rfl (hr.2.2.2 _ _)
    | (simp [Kw.key] at $h:ident; done)))

theorem key_if_ {kw : Kw} (hk : kw.Ok d) (h : kw.key = "if") : ∃ t, kw = .if_ t := by
  key_tac kw d hk h

theorem key_contains {kw : Kw} (hk : kw.Ok d) (h : kw.key = "contains") : ∃ t, kw = .contains t := by
  key_tac kw d hk h

theorem key_maxContains {kw : Kw} (hk : kw.Ok d) (h : kw.key = "maxContains") : ∃ m, kw = .maxContains m := by
  key_tac kw d hk h

theorem key_properties {kw : Kw} (hk : kw.Ok d) (h : kw.key = "properties") : ∃ ps, kw = .properties ps := by
  key_tac kw d hk h

theorem key_patternProperties {kw : Kw} (hk : kw.Ok d) (h : kw.key = "patternProperties") : ∃ ps, kw = .patternProperties ps := by
  key_tac kw d hk h

theorem key_prefixItems {kw : Kw} (hd : d = .d2020) (hk : kw.Ok d) (h : kw.key = "prefixItems") :
    ∃ ss, kw = .prefixItems ss := by
  have hr := kw_of_key hk h (by subst hd; decide)
  cases kw
  all_goals first
    | exact ⟨_, rfl⟩
    | exact absurd rfl (hr.1 _)
    | exact absurd rfl (hr.2.1 _ _)
    | exact absurd rfl (hr.2.2.1 _ _ _)
    | exact absurd rfl (hr.2.2.2 _ _)
    | (simp [Kw.key] at h; done)

theorem key_items9 {kw : Kw} (hd : d = .d2019) (hk : kw.Ok d) (h : kw.key = "items") :
    (∃ t, kw = .items9 t) ∨ ∃ ss, kw = .items9Array ss := by
  have hr := kw_of_key hk h (by subst hd; decide)
  cases kw
  case items t => rw [hd] at hk; cases hk
  all_goals first
    | exact .inl ⟨_, rfl⟩
    | exact .inr ⟨_, rfl⟩
    | exact absurd rfl (hr.1 _)
    | exact absurd rfl (hr.2.1 _ _)
    | exact absurd rfl (hr.2.2.1 _ _ _)
    | exact absurd rfl (hr.2.2.2 _ _)
    | (simp [Kw.key] at h; done)

theorem key_unique (hn : (kws.map Kw.key).Nodup) {kw kw' : Kw} (h : kw ∈ kws) (h' : kw' ∈ kws)
    (he : kw.key = kw'.key) : kw = kw' := by
  induction kws with
  | nil => cases h
  | cons x l ih =>
    rw [List.map_cons, List.nodup_cons] at hn
    rcases List.mem_cons.1 h with rfl | h1 <;> rcases List.mem_cons.1 h' with rfl | h2
    · rfl
    · exact absurd (he ▸ List.mem_map_of_mem h2) hn.1
    · exact absurd (he ▸ List.mem_map_of_mem h1) hn.1
    · exact ih hn.2 h1 h2

/-! ## contains -/

theorem matching_eq (M : Meaning) (sc : List SRef) (t : SRef) :
    (i.items.filter (fun p => vb M sc t p.2.value)).length = matching M sc t i.value := by
  rw [← List.countP_eq_length_filter, matching, items_eq]
  generalize 0 = n
  generalize elems i.value = xs
  induction xs generalizing n with
  | nil => rfl
  | cons x xs ih =>
    rw [Inst.itemsFrom, List.countP_cons, ih (n + 1), List.countP_cons]
    by_cases h : M.valid sc t x <;> simp [h, vb]

include hok hst hw hc

theorem kw_contains {t : SRef} (hkey : key = "contains")
    (h : evalKw st env rec (s :: a) (.contains t) i parent c = some (parent', c')) :
    StepOut st env d M (s :: b) kws i (.contains t) (1 ≤ matching M (s :: b) t i.value) (remains c') := by
  subst hkey
  simp only [evalKw] at h
  split at h
  · contradiction
  · rename_i c1 flags hs
    simp only [Option.some.injEq, Prod.mk.injEq] at h
    rw [← h.2]
    obtain ⟨h1, h2⟩ := shared_items hok hst hw hc (List.Sublist.refl _) hs
    have hann : passedOf (tags i.items) flags =
        (i.items.filter (fun p => vb M (s :: b) t p.2.value)).map Prod.fst := by
      rw [h1, tags, passedOf_map]
    generalize hks : passedOf (tags i.items) flags = ks at hann
    have hlen : ks.length = matching M (s :: b) t i.value := by
      rw [hann, List.length_map, matching_eq]
    have hmem : ∀ k : Nat, k ∈ ks ↔ ∃ x, (elems i.value)[k]? = some x ∧ M.valid (s :: b) t x := by
      intro k
      rw [hann]
      simp only [List.mem_map, List.mem_filter, vb_iff]
      constructor
      · rintro ⟨p, ⟨hp, hv⟩, rfl⟩
        obtain ⟨x, hx, he⟩ := mem_items.1 hp
        rw [he] at hv; exact ⟨x, hx, hv⟩
      · rintro ⟨x, hx, hv⟩
        exact ⟨(k, ⟨i.path ++ [natStr k], x⟩), ⟨mem_items.2 ⟨x, hx, rfl⟩, hv⟩, rfl⟩
    have hne : ks = [] ↔ ¬ 1 ≤ matching M (s :: b) t i.value := by
      rw [← hlen, ← List.length_eq_zero_iff]; omega
    have hd : (if ks = [] then (c1.annotate (nats ks)).fail (.str "no element is valid against contains")
        else c1.annotate (nats ks)).info.discard = false := by
      split <;> exact h2.clean.discard
    have ha : (if ks = [] then (c1.annotate (nats ks)).fail (.str "no element is valid against contains")
        else c1.annotate (nats ks)).info.annotation = nats ks := by
      split <;> rfl
    have hv : (if ks = [] then (c1.annotate (nats ks)).fail (.str "no element is valid against contains")
        else c1.annotate (nats ks)).info.valid = true ↔ ks ≠ [] := by
      split
      · rename_i hk; simp [RNode.fail, hk]
      · rename_i hk; simp [RNode.annotate, h2.clean.valid, hk]
    refine Outcome.step (fun pt h => by cases pt <;> exact h) (.kept hd ?_ ?_) ?_
    · rw [passed_of_asrt, hv, Ne, hne, Decidable.not_not]
      split <;> exact h2.clean.asrt
    · intro pt hpt
      rw [evs_desc (key := "contains")
        (h2.kids.upd (Upd.ite ((Upd.annotate _ _).trans (Upd.fail _ _)) (Upd.annotate _ _)))
        (by split <;> exact h2.key) (by split <;> exact h2.inst), hv, ha]
      cases pt with
      | name n => simp only [not_cover_name_item (show "contains" ∈ _ by simp), ObsEv, and_false]
      | item k =>
        cases d with
        | d2019 => simp [Cover, ObsEv, codeRules]
        | d2020 =>
          simp only [Cover, List.mem_cons, List.not_mem_nil, or_false, String.reduceEq, false_and,
            false_or, true_and, indicesOf_nats, ObsEv, hmem, codeRules]
          constructor
          · exact fun h => h.2.2.2
          · intro h
            refine ⟨?_, hd, by simp [nats], h⟩
            rintro rfl
            exact absurd ((hmem k).2 h) (by simp)
    · intro _
      exact ⟨_, ks, remains_some hd, ha, hlen,
        h2.kids.upd (Upd.ite ((Upd.annotate _ _).trans (Upd.fail _ _)) (Upd.annotate _ _)),
        (by split <;> exact h2.key), fun hf => Decidable.not_not.1 (fun hn => by
          rw [hv.2 hn] at hf; cases hf)⟩

omit hok hst hw

theorem kw_maxContains {m : Num} (hkws : ∀ kw ∈ kws, kw.Ok d) (harr : ∃ xs, i.value = .arr xs)
    (hsib : SibOk st env d M (s :: b) kws i s (sibling parent i "contains") "contains")
    (h : evalKw st env rec (s :: a) (.maxContains m) i parent c = some (parent', c')) :
    StepOut st env d M (s :: b) kws i (.maxContains m)
      (KwHolds (codeRules st env d) env M (s :: b) kws i.value (.maxContains m)) (remains c') := by
  simp only [evalKw, Option.some.injEq, Prod.mk.injEq] at h
  obtain ⟨_, h⟩ := h
  have key' : ∀ (p : Prop) [Decidable p], c' = (if p then c else c.fail (.str "too many elements matching contains")) →
      (p ↔ KwHolds (codeRules st env d) env M (s :: b) kws i.value (.maxContains m)) →
      StepOut st env d M (s :: b) kws i (.maxContains m)
        (KwHolds (codeRules st env d) env M (s :: b) kws i.value (.maxContains m)) (remains c') := by
    intro p _ hc' hp
    subst hc'
    refine Outcome.step (fun pt h => by cases pt <;> exact h)
      ((kw_check hc _ hp).congr Iff.rfl (fun pt _ => by cases pt <;> rfl)) ?_
    intro _
    refine ⟨_, remains_some (discard_fail_ite hc.clean _), ?_⟩
    refine Iff.trans ?_ hp
    rw [← passed_of_asrt]
    · exact passed_fail_ite (p := p) hc.clean (.str "too many elements matching contains")
    · split <;> exact hc.clean.asrt
  split at h
  · rename_i hnone
    refine key' True (by rw [if_pos trivial]; exact h.symm) ?_
    simp only [KwHolds, true_iff]
    intro _ t ht
    obtain ⟨r, ks, hr, _⟩ := hsib.present _ ht rfl harr
    rw [hnone] at hr; cases hr
  · rename_i con hcon
    refine key' (¬ m.val < (annLen con.info.annotation : Rat)) (by rw [← h]; split <;> simp_all) ?_
    simp only [KwHolds, harr, true_implies]
    by_cases hex : ∃ t, Kw.contains t ∈ kws
    · obtain ⟨t, ht⟩ := hex
      have hall : ∀ t, Kw.contains t ∈ kws →
          annLen con.info.annotation = matching M (s :: b) t i.value := by
        intro t ht
        obtain ⟨r, ks, hr, ha, hl, _⟩ := hsib.present _ ht rfl harr
        rw [hcon] at hr; cases hr
        rw [ha, annLen_nats, hl]
      constructor
      · intro h t ht
        rw [← hall t ht]; exact Rat.not_lt.1 h
      · intro h
        rw [hall t ht]; exact Rat.not_lt.2 (h t ht)
    · exfalso
      have := hsib.absent (by
        intro kw hkw hk
        obtain ⟨t, rfl⟩ := key_contains (hkws kw hkw) hk
        exact hex ⟨t, hkw⟩)
      rw [hcon] at this; cases this

theorem kw_minContains {m : Num} (hkws : ∀ kw ∈ kws, kw.Ok d) (harr : ∃ xs, i.value = .arr xs)
    (hsib : SibOk st env d M (s :: b) kws i s (sibling parent i "contains") "contains")
    (hsib2 : SibOk st env d M (s :: b) kws i s (sibling parent i "maxContains") "maxContains")
    (h : evalKw st env rec (s :: a) (.minContains m) i parent c = some (parent', c')) :
    StepOut st env d M (s :: b) kws i (.minContains m)
      (KwHolds (codeRules st env d) env M (s :: b) kws i.value (.minContains m)) (remains c') ∧
    ((parent' = parent ∧ ∀ con, sibling parent i "contains" = some con → con.info.valid = true ∨
        ¬ (KwHolds (codeRules st env d) env M (s :: b) kws i.value (.minContains m) ∧
          ∀ mx, Kw.maxContains mx ∈ kws →
            KwHolds (codeRules st env d) env M (s :: b) kws i.value (.maxContains mx))) ∨
     ∃ con, sibling parent i "contains" = some con ∧ con.info.valid = false ∧
        KwHolds (codeRules st env d) env M (s :: b) kws i.value (.minContains m) ∧
        (∀ mx, Kw.maxContains mx ∈ kws →
            KwHolds (codeRules st env d) env M (s :: b) kws i.value (.maxContains mx)) ∧
        parent' = parent.setChild ("contains", i.path) con.pass_) := by
  simp only [evalKw, evalMinContains, Option.some.injEq] at h
  have key' : ∀ (p : Prop) [Decidable p], c' = (if p then c else c.fail (.str "too few elements matching contains")) →
      (p ↔ KwHolds (codeRules st env d) env M (s :: b) kws i.value (.minContains m)) →
      StepOut st env d M (s :: b) kws i (.minContains m)
        (KwHolds (codeRules st env d) env M (s :: b) kws i.value (.minContains m)) (remains c') := by
    intro p _ hc' hp
    subst hc'
    exact Outcome.step (fun pt h => by cases pt <;> exact h)
      ((kw_check hc _ hp).congr Iff.rfl (fun pt _ => by cases pt <;> rfl)) trivial
  split at h
  · rename_i hnone
    simp only [Prod.mk.injEq] at h
    refine ⟨key' True (by rw [if_pos trivial]; exact h.2.symm) ?_,
      .inl ⟨h.1.symm, fun con hcon => by rw [hnone] at hcon; cases hcon⟩⟩
    simp only [KwHolds, true_iff]
    intro _ t ht
    obtain ⟨r, ks, hr, _⟩ := hsib.present _ ht rfl harr
    rw [hnone] at hr; cases hr
  · rename_i con hcon
    simp only [Prod.mk.injEq] at h
    have hok' : m.val ≤ (annLen con.info.annotation : Rat) ↔
        KwHolds (codeRules st env d) env M (s :: b) kws i.value (.minContains m) := by
      simp only [KwHolds, harr, true_implies]
      by_cases hex : ∃ t, Kw.contains t ∈ kws
      · obtain ⟨t, ht⟩ := hex
        have hall : ∀ t, Kw.contains t ∈ kws →
            annLen con.info.annotation = matching M (s :: b) t i.value := by
          intro t ht
          obtain ⟨r, ks, hr, ha, hl, _⟩ := hsib.present _ ht rfl harr
          rw [hcon] at hr; cases hr
          rw [ha, annLen_nats, hl]
        constructor
        · intro h t ht
          rw [← hall t ht]; exact h
        · intro h
          rw [hall t ht]; exact h t ht
      · exfalso
        have := hsib.absent (by
          intro kw hkw hk
          obtain ⟨t, rfl⟩ := key_contains (hkws kw hkw) hk
          exact hex ⟨t, hkw⟩)
        rw [hcon] at this; cases this
    have hmax : maxContainsOk parent i = true ↔
        ∀ mx, Kw.maxContains mx ∈ kws →
            KwHolds (codeRules st env d) env M (s :: b) kws i.value (.maxContains mx) := by
      unfold maxContainsOk
      split
      · rename_i hnone
        simp only [true_iff]
        intro mx hmx
        obtain ⟨r, hr, _⟩ := hsib2.present _ hmx rfl harr
        rw [hnone] at hr; cases hr
      · rename_i mxr hmxr
        constructor
        · intro h mx hmx
          obtain ⟨r, hr, hv⟩ := hsib2.present _ hmx rfl harr
          rw [hmxr] at hr; cases hr
          exact hv.1 h
        · intro h
          by_cases hex : ∃ mx, Kw.maxContains mx ∈ kws
          · obtain ⟨mx, hmx⟩ := hex
            obtain ⟨r, hr, hv⟩ := hsib2.present _ hmx rfl harr
            rw [hmxr] at hr; cases hr
            exact hv.2 (h mx hmx)
          · have := hsib2.absent (by
              intro kw hkw hk
              obtain ⟨t, rfl⟩ := key_maxContains (hkws kw hkw) hk
              exact hex ⟨t, hkw⟩)
            rw [hmxr] at this; cases this
    refine ⟨key' (m.val ≤ (annLen con.info.annotation : Rat)) (by rw [← h.2]; simp) hok', ?_⟩
    rw [← h.1]
    split
    · rename_i hcond
      simp only [Bool.and_eq_true, decide_eq_true_eq, Bool.not_eq_true'] at hcond
      exact .inr ⟨con, hcon, hcond.1.2, hok'.1 hcond.1.1, hmax.1 hcond.2, rfl⟩
    · rename_i hcond
      refine .inl ⟨rfl, fun con' hcon' => ?_⟩
      rw [hcon] at hcon'; cases hcon'
      by_cases hv : con.info.valid = true
      · exact .inl hv
      · refine .inr (fun ⟨h1, h2⟩ => hcond ?_)
        simp only [Bool.and_eq_true, decide_eq_true_eq, Bool.not_eq_true']
        exact ⟨⟨hok'.2 h1, by simpa [RNode.valid] using hv⟩, hmax.2 h2⟩

/-! ## Conditionals -/

include hok hst hw

omit hok hst hw hc in
theorem then_cases {t : SRef} (hkws : ∀ kw ∈ kws, kw.Ok d)
    (hsib : SibOk st env d M (s :: b) kws i s (sibling parent i "if") "if")
    (h : evalKw st env rec (s :: a) (.then_ t) i parent c = some (parent', c')) :
    (c' = c.setDiscard ∧ ∀ cc, Kw.if_ cc ∈ kws → ¬ M.valid (s :: b) cc i.value) ∨
      (rec (s :: a) t i c = some c' ∧ ∃ cc, Kw.if_ cc ∈ kws ∧ M.valid (s :: b) cc i.value) := by
  cases hr : sibling parent i "if" with
  | none =>
    simp only [evalKw, hr, Bool.false_eq_true, if_false, Option.some.injEq, Prod.mk.injEq] at h
    refine .inl ⟨h.2.symm, fun cc hcc => ?_⟩
    obtain ⟨r', hr', _⟩ := hsib.present _ hcc rfl
    rw [hr] at hr'; cases hr'
  | some r =>
    have hval : ∀ cc, Kw.if_ cc ∈ kws → (r.valid = true ↔ M.valid (s :: b) cc i.value) := by
      intro cc hcc
      obtain ⟨r', hr', hv⟩ := hsib.present _ hcc rfl
      rw [hr] at hr'; cases hr'
      exact hv
    have hex : ∃ cc, Kw.if_ cc ∈ kws := by
      refine Classical.byContradiction (fun hex => ?_)
      have := hsib.absent (by
        intro kw hkw hk
        obtain ⟨t, rfl⟩ := key_if_ (hkws kw hkw) hk
        exact hex ⟨t, hkw⟩)
      rw [hr] at this; cases this
    obtain ⟨cc, hcc⟩ := hex
    simp only [evalKw, hr] at h
    cases hrv : r.valid
    · simp [hrv] at h
      exact .inl ⟨h.2.symm, fun cc hcc => by rw [← hval cc hcc]; simp [hrv]⟩
    · simp [hrv] at h
      split at h
      · contradiction
      · rename_i c1 hs
        simp only [Option.some.injEq, Prod.mk.injEq] at h
        rw [← h.2]
        exact .inr ⟨hs, cc, hcc, by rw [← hval cc hcc]; simp [hrv]⟩

theorem kw_then {t : SRef} (hkws : ∀ kw ∈ kws, kw.Ok d)
    (hsib : SibOk st env d M (s :: b) kws i s (sibling parent i "if") "if")
    (h : evalKw st env rec (s :: a) (.then_ t) i parent c = some (parent', c')) :
    StepOut st env d M (s :: b) kws i (.then_ t)
      (KwHolds (codeRules st env d) env M (s :: b) kws i.value (.then_ t)) (remains c') := by
  have hu : ∀ pt, ¬ UnevalFor (.then_ t) pt := fun pt h => by cases pt <;> exact h
  have hdec := then_cases hkws hsib h
  rcases hdec with ⟨rfl, hno⟩ | ⟨hs, hif⟩
  · refine Outcome.step hu (.discarded rfl ?_ (fun pt _ => ?_)) trivial
    · simp only [KwHolds]
      exact fun cc hcc hv => absurd hv (hno cc hcc)
    · simp only [ObsEv]
      rintro ⟨⟨cc, hcc, hv⟩, _⟩
      exact hno cc hcc hv
  · refine ((kw_ref_like hok hst hw hc hs (.inr rfl)).congr ?_ (fun pt _ => ?_)).step hu trivial
    · obtain ⟨cc, hcc, hv⟩ := hif
      simp only [KwHolds]
      exact ⟨fun h _ _ _ => h, fun h => h cc hcc hv⟩
    · simp only [ObsEv, hif, true_and]

omit hok hst hw hc in
theorem else_cases {t : SRef} (hkws : ∀ kw ∈ kws, kw.Ok d)
    (hsib : SibOk st env d M (s :: b) kws i s (sibling parent i "if") "if")
    (h : evalKw st env rec (s :: a) (.else_ t) i parent c = some (parent', c')) :
    (c' = c.setDiscard ∧ ∀ cc, Kw.if_ cc ∈ kws → M.valid (s :: b) cc i.value) ∨
      (rec (s :: a) t i c = some c' ∧ ∃ cc, Kw.if_ cc ∈ kws ∧ ¬ M.valid (s :: b) cc i.value) := by
  cases hr : sibling parent i "if" with
  | none =>
    simp only [evalKw, hr, Bool.false_eq_true, if_false, Option.some.injEq, Prod.mk.injEq] at h
    refine .inl ⟨h.2.symm, fun cc hcc => ?_⟩
    obtain ⟨r', hr', _⟩ := hsib.present _ hcc rfl
    rw [hr] at hr'; cases hr'
  | some r =>
    have hval : ∀ cc, Kw.if_ cc ∈ kws → (r.valid = true ↔ M.valid (s :: b) cc i.value) := by
      intro cc hcc
      obtain ⟨r', hr', hv⟩ := hsib.present _ hcc rfl
      rw [hr] at hr'; cases hr'
      exact hv
    have hex : ∃ cc, Kw.if_ cc ∈ kws := by
      refine Classical.byContradiction (fun hex => ?_)
      have := hsib.absent (by
        intro kw hkw hk
        obtain ⟨t, rfl⟩ := key_if_ (hkws kw hkw) hk
        exact hex ⟨t, hkw⟩)
      rw [hr] at this; cases this
    obtain ⟨cc, hcc⟩ := hex
    simp only [evalKw, hr] at h
    cases hrv : r.valid
    · simp [hrv] at h
      split at h
      · contradiction
      · rename_i c1 hs
        simp only [Option.some.injEq, Prod.mk.injEq] at h
        rw [← h.2]
        exact .inr ⟨hs, cc, hcc, by rw [← hval cc hcc]; simp [hrv]⟩
    · simp [hrv] at h
      exact .inl ⟨h.2.symm, fun cc hcc => by rw [← hval cc hcc]; simp [hrv]⟩

theorem kw_else {t : SRef} (hkws : ∀ kw ∈ kws, kw.Ok d)
    (hsib : SibOk st env d M (s :: b) kws i s (sibling parent i "if") "if")
    (h : evalKw st env rec (s :: a) (.else_ t) i parent c = some (parent', c')) :
    StepOut st env d M (s :: b) kws i (.else_ t)
      (KwHolds (codeRules st env d) env M (s :: b) kws i.value (.else_ t)) (remains c') := by
  have hu : ∀ pt, ¬ UnevalFor (.else_ t) pt := fun pt h => by cases pt <;> exact h
  have hdec := else_cases hkws hsib h
  rcases hdec with ⟨rfl, hno⟩ | ⟨hs, hif⟩
  · refine Outcome.step hu (.discarded rfl ?_ (fun pt _ => ?_)) trivial
    · simp only [KwHolds]
      exact fun cc hcc hv => absurd (hno cc hcc) hv
    · simp only [ObsEv]
      rintro ⟨⟨cc, hcc, hv⟩, _⟩
      exact hv (hno cc hcc)
  · refine ((kw_ref_like hok hst hw hc hs (.inr rfl)).congr ?_ (fun pt _ => ?_)).step hu trivial
    · obtain ⟨cc, hcc, hv⟩ := hif
      simp only [KwHolds]
      exact ⟨fun h _ _ _ => h, fun h => h cc hcc hv⟩
    · simp only [ObsEv, hif, true_and]

/-! ## Additional -/

omit hok hst hw hc in
theorem additional_named (hobj : st.obj s = .obj kws) (hv : ∃ kvs, i.value = .obj kvs)
    (hs1 : SibOk st env d M (s :: b) kws i s (sibling parent i "properties") "properties")
    (hs2 : SibOk st env d M (s :: b) kws i s (sibling parent i "patternProperties") "patternProperties")
    (n : String) : (!(siblingKeys st parent i "properties").contains n &&
      !(siblingKeys st parent i "patternProperties").any (fun re => env.search re n)) = true ↔
      ¬ Named env kws n := by
  have hk1 : ∀ n, n ∈ siblingKeys st parent i "properties" ↔
      ∃ ps t, Kw.properties ps ∈ kws ∧ (n, t) ∈ ps := by
    intro n
    unfold siblingKeys
    split
    · rename_i p hp
      simp only [schemaKeys, RNode.schema, hs1.schema p hp, Store.keywords, hobj, List.mem_flatMap]
      constructor
      · rintro ⟨kw, hkw, hn⟩
        cases kw <;> simp at hn
        rename_i ps
        simp only [dkeys, List.mem_map] at hn
        obtain ⟨e, he, rfl⟩ := hn
        exact ⟨ps, e.2, hkw, he⟩
      · rintro ⟨ps, t, hkw, ht⟩
        exact ⟨_, hkw, by simp only [if_true]; exact List.mem_map.2 ⟨_, ht, rfl⟩⟩
    · rename_i hnone
      simp only [List.not_mem_nil, false_iff]
      rintro ⟨ps, t, hkw, _⟩
      obtain ⟨r, hr⟩ := hs1.present _ hkw rfl hv
      rw [hnone] at hr; cases hr
  have hk2 : ∀ re, re ∈ siblingKeys st parent i "patternProperties" ↔
      ∃ ps t, Kw.patternProperties ps ∈ kws ∧ (re, t) ∈ ps := by
    intro n
    unfold siblingKeys
    split
    · rename_i p hp
      simp only [schemaKeys, RNode.schema, hs2.schema p hp, Store.keywords, hobj, List.mem_flatMap]
      constructor
      · rintro ⟨kw, hkw, hn⟩
        cases kw <;> simp at hn
        rename_i ps
        simp only [dkeys, List.mem_map] at hn
        obtain ⟨e, he, rfl⟩ := hn
        exact ⟨ps, e.2, hkw, he⟩
      · rintro ⟨ps, t, hkw, ht⟩
        exact ⟨_, hkw, by simp only [if_true]; exact List.mem_map.2 ⟨_, ht, rfl⟩⟩
    · rename_i hnone
      simp only [List.not_mem_nil, false_iff]
      rintro ⟨ps, t, hkw, _⟩
      obtain ⟨r, hr⟩ := hs2.present _ hkw rfl hv
      rw [hnone] at hr; cases hr
  generalize siblingKeys st parent i "properties" = known at hk1
  generalize siblingKeys st parent i "patternProperties" = pats at hk2
  simp only [Bool.and_eq_true, Bool.not_eq_true', List.any_eq_false, Named, List.contains_eq_mem,
    decide_eq_false_iff_not, hk1, not_or, hk2, not_exists, not_and, Bool.not_eq_true]
  refine and_congr_right (fun _ => ?_)
  constructor
  · intro h ps re t h1 h2; exact h re ⟨ps, t, h1, h2⟩
  · rintro h re ⟨ps, t, h1, h2⟩; exact h ps re t h1 h2

theorem kw_additionalProperties {t : SRef} (hkey : key = "additionalProperties")
    (hobj : st.obj s = .obj kws) (hv : ∃ kvs, i.value = .obj kvs)
    (hs1 : SibOk st env d M (s :: b) kws i s (sibling parent i "properties") "properties")
    (hs2 : SibOk st env d M (s :: b) kws i s (sibling parent i "patternProperties") "patternProperties")
    (h : evalKw st env rec (s :: a) (.additionalProperties t) i parent c = some (parent', c')) :
    StepOut st env d M (s :: b) kws i (.additionalProperties t)
      (KwHolds (codeRules st env d) env M (s :: b) kws i.value (.additionalProperties t)) (remains c') := by
  subst hkey
  simp only [evalKw, evalAdditionalProperties, Option.map_eq_some_iff] at h
  obtain ⟨c2, h, hc2⟩ := h
  cases hc2
  have hnamed := additional_named (env := env) hobj hv hs1 hs2
  generalize siblingKeys st parent i "properties" = known at h hnamed
  generalize siblingKeys st parent i "patternProperties" = pats at h hnamed
  split at h
  · contradiction
  · rename_i c1 flags hs
    simp only [Option.some.injEq] at h
    rw [← h]
    obtain ⟨h1, h2⟩ := shared_members hok hst hw hc List.filter_sublist hs
    subst h1
    obtain ⟨f1, f2, f3⟩ := finishProps_out h2 (f := Prod.fst)
      (g := fun p : String × Inst => vb M (s :: b) t p.2.value)
      (l := i.members.filter (fun m => !known.contains m.1 && !pats.any (fun re => env.search re m.1)))
    have hP : (∀ x ∈ i.members.filter (fun m => !known.contains m.1 && !pats.any (fun re => env.search re m.1)),
        vb M (s :: b) t x.2.value = true) ↔
        KwHolds (codeRules st env d) env M (s :: b) kws i.value (.additionalProperties t) := by
      simp only [List.mem_filter, hnamed, vb_iff, KwHolds]
      constructor
      · intro h n x hx hn
        exact h (n, ⟨i.path ++ [n], x⟩) ⟨mem_members.2 ⟨x, hx, rfl⟩, hn⟩
      · intro h p hp
        obtain ⟨x, hx, he⟩ := mem_members.1 hp.1
        rw [he]; exact h _ _ hx hp.2
    refine Outcome.step (fun pt h => by cases pt <;> exact h)
      (.kept f1 (f2.trans hP) (fun pt hpt => ?_)) trivial
    have := f3 (Cover d pt)
    refine this.trans ?_
    rw [hP]
    cases pt with
    | name n =>
      rw [cover_name_iff (by simp), namesOf_strs]
      simp only [ObsEv]
      refine and_congr_right (fun hh => ?_)
      simp only [List.mem_map, List.mem_filter, hnamed]
      constructor
      · rintro ⟨p, ⟨_, hp⟩, rfl⟩; exact hp
      · intro hn
        obtain ⟨x, hx⟩ := hpt
        exact ⟨(n, ⟨i.path ++ [n], x⟩), ⟨mem_members.2 ⟨x, hx, rfl⟩, hn⟩, rfl⟩
    | item k => simp only [not_cover_item_name (show "additionalProperties" ∈ _ by simp), ObsEv, and_false]

end

end Jschon
