import Verif.Proof.EvalSim
import Verif.Proof.EvalMono
import Verif.Proof.ObsSpec
import Verif.Proof.DynScope
import Verif.Spec.Standard

/-!
# Verdicts
-/

namespace Jschon

open Spec

/-- The verdict of a terminating evaluation is the observed meaning. -/
theorem evaluate_obs {d : Dialect} {st : Store} {env : Env} (hstore : StoreOk d st) {n : Nat} {s : SRef}
    {i : Inst} (hw : i.value.WF) {r : RNode} (h : evaluate st env n s i = some r) {m : Nat} (hm : n ≤ m) :
    r.valid = true ↔ (obsUnroll (codeRules st env d) env st m).valid [] s i.value := by
  have h := evaluate_mono hm h
  exact ((evalSchema_ok hstore m).sim [s] [] s i (RNode.root s i) r (.dup (.cons .nil)) hw
    ⟨rfl, rfl, rfl, rfl⟩ (fun e he => by cases he) h).1

/-! ## `multipleOf` -/

theorem decimalMultiple_iff {a b : Rat} (hb : b ≠ 0) :
    decimalMultiple a b = true ↔
      (∃ k : Int, a = k * b) ∧ a / b < 10 ^ 28 ∧ -(10 ^ 28) < a / b := by
  unfold decimalMultiple
  rw [if_neg hb]
  have h28 : ((10 ^ 28 : Int) : Rat) = 10 ^ 28 := by decide +kernel
  have hk : (∃ k : Int, a = k * b) ↔ (a / b).den = 1 := by
    rw [← rat_isInt_iff]
    refine exists_congr fun k => ?_
    constructor
    · intro h; rw [h, Rat.div_def, Rat.mul_assoc, Rat.mul_inv_cancel _ hb, Rat.mul_one]
    · intro h; rw [← h, Rat.div_def, Rat.mul_assoc, Rat.inv_mul_cancel _ hb, Rat.mul_one]
  have h1 : (10 : Int) ^ 28 ≤ (a / b).floor ↔ (10 ^ 28 : Rat) ≤ a / b := by
    rw [Rat.le_floor_iff, h28]
  have h2 : (10 : Int) ^ 28 ≤ (-(a / b)).floor ↔ (10 ^ 28 : Rat) ≤ -(a / b) := by
    rw [Rat.le_floor_iff, h28]
  simp only [h1, h2, hk]
  split
  · rename_i h
    simp only [Bool.false_eq_true, false_iff, not_and]
    intro _ hlt
    rcases h with h | h
    · exact absurd hlt (Rat.not_lt.2 h)
    · intro h'
      have := Rat.neg_le_neg h
      rw [Rat.neg_neg] at this
      exact absurd h' (Rat.not_lt.2 this)
  · rename_i h
    rw [not_or, Rat.not_le, Rat.not_le] at h
    simp only [beq_iff_eq]
    refine ⟨fun hd => ⟨hd, h.1, ?_⟩, fun hd => hd.1⟩
    have := Rat.neg_lt_neg h.2
    rwa [Rat.neg_neg] at this

theorem asWritten_decimal {env : Env} (n : Num) : asWritten env.dec n = n.decimal env := by
  cases n <;> rfl

theorem codeMult_iff {env : Env} {n m : Num} (h : SmallQuotient env.dec n m) :
    codeMult env n m ↔ IsMultiple env.dec n m := by
  obtain ⟨h0, h1, h2⟩ := h
  simp only [asWritten_decimal] at h0 h1 h2
  have hne : m.decimal env ≠ 0 := fun h => by rw [h] at h0; exact absurd h0 (Rat.not_lt.2 Rat.le_refl)
  simp only [codeMult, IsMultiple, asWritten_decimal]
  rw [decimalMultiple_iff hne]
  refine ⟨fun h => h.1, fun h => ⟨h, ?_, ?_⟩⟩
  · rw [Rat.div_lt_iff h0]; exact h1
  · rw [Rat.lt_div_iff h0, Rat.neg_mul]; exact h2

/-! ## The code's rules and those of the specification -/

theorem within_elem {v w x : Value} (h : Within w v) (hx : x ∈ elems w) : Within x v := by
  induction h with
  | refl =>
    cases w with
    | arr xs => exact .elem .refl hx
    | _ => cases hx
  | elem _ hm ih => exact .elem ih hm
  | member _ hm ih => exact .member ih hm

theorem within_member {v w x : Value} {n : String} (h : Within w v) (hx : (n, x) ∈ members w) :
    Within x v := by
  induction h with
  | refl =>
    cases w with
    | obj xs => exact .member .refl hx
    | _ => cases hx
  | elem _ hm ih => exact .elem ih hm
  | member _ hm ih => exact .member ih hm

theorem rules_agree {d : Dialect} {st : Store} {env : Env} {R : Rules} {root : SRef} {v : Value}
    (hR : Standard R d env st) (hf : Faithful R env st root v) :
    RulesAgree (codeRules st env d) R st root (fun w => Within w v ∨ ∃ n, w = .str n) := by
  refine ⟨hR.dialect.symm, ?_, ?_, ?_, ?_, ?_, ?_⟩
  · intro s sc kws t f hreach hobj hkw
    exact Outermost.unique (dynLoop_outermost (hf.dyn s sc kws t f hreach hobj hkw)) (hR.dyn _ _ _)
  · intro s sc kws t _ _ _
    exact OutermostRec.unique recr_outermost (hR.recr _ _)
  · intro s sc kws m n hreach hobj hkw hn
    rcases hn with hn | ⟨_, hn⟩
    · rw [hR.mult]; exact codeMult_iff (hf.mult s sc kws m n hreach hobj hkw hn)
    · cases hn
  · rintro w x (hw | ⟨n, rfl⟩) hx
    · exact .inl (within_elem hw hx)
    · cases hx
  · rintro w n x (hw | ⟨n, rfl⟩) hx
    · exact .inl (within_member hw hx)
    · cases hx
  · intro w n _ _; exact .inr ⟨n, rfl⟩

/-- The verdict of a terminating evaluation is the specified meaning. -/
theorem evaluate_spec {d : Dialect} {st : Store} {env : Env} {R : Rules} (hstore : StoreOk d st) {n : Nat}
    {s : SRef} {i : Inst} (hR : Standard R d env st) (hf : Faithful R env st s i.value)
    (hw : i.value.WF) {r : RNode} (h : evaluate st env n s i = some r) {m : Nat} (hm : n ≤ m) :
    r.valid = true ↔ (unroll R env st m).valid [] s i.value :=
  (evaluate_obs hstore hw h hm).trans
    ((unroll_agree (rules_agree hR hf) hf.regular m).valid s [] i.value .root (.inl .refl))

theorem outermost_exists (st : Store) (frag : String) (dflt : SRef) :
    ∀ sc : List SRef, ∃ t, Outermost st frag sc dflt t
  | [] => ⟨dflt, .none (by intro s h; cases h)⟩
  | s :: sc => by
    obtain ⟨t, ht⟩ := outermost_exists st frag dflt sc
    cases ht with
    | found h1 h2 h3 h4 => exact ⟨t, .found (inner := s :: _) (by rw [h1]; rfl) h2 h3 h4⟩
    | none h =>
      by_cases hs : ∃ b t, st.base s = some b ∧ DynAnchor st b frag t
      · obtain ⟨b, t, hb, ht⟩ := hs
        exact ⟨t, .found (inner := []) rfl hb ht h⟩
      · refine ⟨dflt, .none ?_⟩
        intro s' hs' b' hb' t' ht'
        rcases List.mem_cons.1 hs' with rfl | hs'
        · exact hs ⟨b', t', hb', ht'⟩
        · exact h s' hs' b' hb' t' ht'

theorem standard_exists (d : Dialect) (env : Env) (st : Store) : ∃ R, Standard R d env st := by
  refine ⟨⟨d, IsMultiple env.dec, fun sc t f => Classical.choose (outermost_exists st f t sc),
    fun sc t => if isRecursiveAnchor st t then recLoop st sc t else t⟩, rfl, fun _ _ => Iff.rfl, ?_, ?_⟩
  · intro sc t f; exact Classical.choose_spec (outermost_exists st f t sc)
  · intro sc t; exact recr_outermost

/-! ## Schemas without dynamic references -/

/-- The meaning does not depend on the scope. -/
def Scopeless (M : Meaning) : Prop := ∀ sc, M.valid sc = M.valid [] ∧ M.ev sc = M.ev []

theorem Scopeless.eq {M : Meaning} (h : Scopeless M) : M = ⟨fun _ => M.valid [], fun _ => M.ev []⟩ := by
  cases M with
  | mk v e =>
    simp only [Meaning.mk.injEq]
    exact ⟨funext fun sc => (h sc).1, funext fun sc => (h sc).2⟩

section
variable {st : Store} {env : Env} {d : Dialect} {f : SRef → Value → Prop} {g : SRef → Value → Pt → Prop}

theorem recr_static {sc : List SRef} {t : SRef} (h : ¬ RecAnchor st t) : (codeRules st env d).recr sc t = t := by
  simp only [codeRules]
  rw [if_neg (fun hr => h (isRecursiveAnchor_iff.1 hr))]

theorem kwHolds_scopeless {sc sc' : List SRef} {kws : List Kw} {v : Value} {kw : Kw} (hk : StaticKw st kw)
    (hu : ¬ IsUneval kw) :
    KwHolds (codeRules st env d) env ⟨fun _ => f, fun _ => g⟩ sc kws v kw =
    KwHolds (codeRules st env d) env ⟨fun _ => f, fun _ => g⟩ sc' kws v kw := by
  cases kw
  case dynamicRef t fr dy =>
    have : dy = false := hk
    subst this; rfl
  case recursiveRef t => simp only [KwHolds, recr_static hk]
  case unevaluatedProperties t => exact absurd trivial hu
  case unevaluatedItems t => exact absurd trivial hu
  case unevaluatedItems9 t => exact absurd trivial hu
  all_goals rfl

theorem obsEv_scopeless {sc sc' : List SRef} {kws : List Kw} {v : Value} {kw : Kw} (hk : StaticKw st kw)
    {pt : Pt} :
    ObsEv (codeRules st env d) env st ⟨fun _ => f, fun _ => g⟩ sc kws v kw pt =
    ObsEv (codeRules st env d) env st ⟨fun _ => f, fun _ => g⟩ sc' kws v kw pt := by
  cases kw
  case dynamicRef t fr dy =>
    have : dy = false := hk
    subst this; rfl
  case recursiveRef t => simp only [ObsEv, recr_static hk]
  all_goals cases pt <;> rfl

theorem obsHolds_scopeless {sc sc' : List SRef} {kws : List Kw} {v : Value}
    (hks : ∀ kw ∈ kws, StaticKw st kw) {kw : Kw} (hkw : kw ∈ kws) :
    ObsHolds (codeRules st env d) env st ⟨fun _ => f, fun _ => g⟩ sc kws v kw =
    ObsHolds (codeRules st env d) env st ⟨fun _ => f, fun _ => g⟩ sc' kws v kw := by
  have he : ∀ pt, (∃ kw ∈ kws, ObsEv (codeRules st env d) env st ⟨fun _ => f, fun _ => g⟩ sc kws v kw pt) =
      ∃ kw ∈ kws, ObsEv (codeRules st env d) env st ⟨fun _ => f, fun _ => g⟩ sc' kws v kw pt := by
    intro pt
    refine propext (exists_congr fun kw => and_congr_right fun hkw => ?_)
    rw [obsEv_scopeless (sc' := sc') (hks kw hkw)]
  cases kw
  case unevaluatedProperties t => simp only [ObsHolds, he]
  case unevaluatedItems t => simp only [ObsHolds, he]
  case unevaluatedItems9 t => simp only [ObsHolds, he]
  case dynamicRef t fr dy => exact kwHolds_scopeless (kws := kws) (hks _ hkw) id
  case recursiveRef t => exact kwHolds_scopeless (kws := kws) (hks _ hkw) id
  all_goals rfl

end

theorem obsUnroll_scopeless {st : Store} {env : Env} {d : Dialect} (hs : StaticStore st) (n : Nat) :
    Scopeless (obsUnroll (codeRules st env d) env st n) := by
  induction n with
  | zero => exact fun sc => ⟨rfl, rfl⟩
  | succ n ih =>
    intro sc
    rw [obsUnroll, ih.eq]
    constructor
    · funext s v
      simp only [obsStep]
      cases hobj : st.obj s with
      | bool b => rfl
      | obj kws =>
        refine propext (forall_congr' fun kw => forall_congr' fun hkw => ?_)
        rw [obsHolds_scopeless (sc' := [s]) (hs s kws hobj) hkw]
    · funext s v pt
      simp only [obsStep]
      cases hobj : st.obj s with
      | bool b => rfl
      | obj kws =>
        refine propext (or_congr ?_ ?_)
        · refine exists_congr fun kw => and_congr_right fun hkw => ?_
          rw [obsEv_scopeless (sc' := [s]) (hs s kws hobj kw hkw)]
        · cases pt with
          | name n =>
            refine exists_congr fun t => and_congr_right fun ht => ?_
            rw [obsHolds_scopeless (sc' := [s]) (hs s kws hobj) ht]
          | item k =>
            refine exists_congr fun t => and_congr_right fun ht => ?_
            rcases ht with ht | ht
            · rw [obsHolds_scopeless (sc' := [s]) (hs s kws hobj) ht]
            · have := obsHolds_scopeless (st := st) (env := env) (d := d)
                (f := (obsUnroll (codeRules st env d) env st n).valid [])
                (g := (obsUnroll (codeRules st env d) env st n).ev [])
                (sc := s :: sc) (sc' := [s]) (v := v) (hs s kws hobj) ht
              exact iff_of_eq this

/-! ## Verdicts -/

/-- `schema.evaluate(JSON(v)).valid`, if `fuel` nested evaluations suffice. -/
def verdict (st : Store) (env : Env) (fuel : Nat) (s : SRef) (v : Value) : Option Bool :=
  (evaluate st env fuel s ⟨[], v⟩).map RNode.valid

theorem verdict_some {st : Store} {env : Env} {n : Nat} {s : SRef} {v : Value} {b : Bool}
    (h : verdict st env n s v = some b) : ∃ r, evaluate st env n s ⟨[], v⟩ = some r ∧ r.valid = b := by
  simp only [verdict, Option.map_eq_some_iff] at h
  exact h

/-- A verdict in terms of the verdicts of subschemas. -/
theorem verdict_step {d : Dialect} {st : Store} {env : Env} (hstore : StoreOk d st) (hstat : StaticStore st)
    {n m : Nat} {s : SRef} {v : Value} (hw : v.WF) {kws : List Kw} (hobj : st.obj s = .obj kws) {b : Bool}
    (h : verdict st env n s v = some b) :
    ∃ M : Meaning, (∀ t x f, x.WF → verdict st env m t x = some f → ∀ sc, (M.valid sc t x ↔ f = true)) ∧
      (b = true ↔ ∀ kw ∈ kws, ObsHolds (codeRules st env d) env st M [s] kws v kw) := by
  obtain ⟨r, hr, rfl⟩ := verdict_some h
  refine ⟨obsUnroll (codeRules st env d) env st (max n m), ?_, ?_⟩
  · intro t x f hx hv sc
    obtain ⟨r', hr', rfl⟩ := verdict_some hv
    rw [(obsUnroll_scopeless hstat _ sc).1]
    exact (evaluate_obs hstore hx hr' (Nat.le_max_right n m)).symm
  · have := evaluate_obs hstore hw hr (m := max n m + 1) (Nat.le_succ_of_le (Nat.le_max_left n m))
    simp only [obsUnroll, obsStep, hobj] at this
    exact this

/-! ## Keywords that have no say -/

theorem getStatic_mem {kws : List Kw} {key : String} {v : Value} (hn : (kws.map Kw.key).Nodup)  :
    (SchemaObj.obj kws).getStatic key = some v ↔ Kw.static key v ∈ kws := by
  simp only [SchemaObj.getStatic]
  induction kws with
  | nil => simp
  | cons kw kws ih =>
    rw [List.map_cons, List.nodup_cons] at hn
    simp only [List.findSome?_cons, List.mem_cons]
    have ih := ih hn.2
    split
    · rename_i b hb
      split at hb
      · rename_i k w
        split at hb
        · rename_i hk
          subst hk
          cases hb
          simp only [Option.some.injEq, Kw.static.injEq, true_and]
          constructor
          · intro h; exact .inl h.symm
          · rintro (h | h)
            · exact h.symm
            · exact absurd (List.mem_map.2 ⟨_, h, rfl⟩) hn.1
        · cases hb
      · cases hb
    · rename_i hb
      rw [ih]
      constructor
      · exact .inr
      · rintro (h | h)
        · subst h; simp at hb
        · exact h

section
variable {d : Dialect} {st st' : Store} {env : Env} (hst : StoreOk d st) (hst' : StoreOk d st')
  (hsame : SameStore st st')
include hst hst' hsame

theorem getStatic_same {key : String} (hkey : key = "$dynamicAnchor" ∨ key = "$recursiveAnchor") (s : SRef) :
    (st.obj s).getStatic key = (st'.obj s).getStatic key := by
  cases h : st.obj s with
  | bool b => rw [(hsame.bool s b).1 h]
  | obj kws =>
    cases h' : st'.obj s with
    | bool b => rw [(hsame.bool s b).2 h'] at h; cases h
    | obj kws' =>
      apply Option.ext
      intro v
      rw [getStatic_mem (hst s kws h).nodup, getStatic_mem (hst' s kws' h').nodup]
      refine hsame.obj s kws kws' h h' _ ?_
      simp only [Neutral]
      rcases hkey with rfl | rfl <;> simp

theorem dynLoop_same (frag : String) : ∀ (sc : List SRef) (checked : List String) (found : SRef),
    dynLoop st frag sc checked found = dynLoop st' frag sc checked found
  | [], _, _ => rfl
  | s :: sc, checked, found => by
    simp only [dynLoop, hsame.base, hsame.lookup, getStatic_same hst hst' hsame (.inl rfl), dynLoop_same frag sc]

theorem recAnchor_same (s : SRef) : isRecursiveAnchor st s = isRecursiveAnchor st' s := by
  simp only [isRecursiveAnchor, getStatic_same hst hst' hsame (.inr rfl)]

theorem recLoop_same : ∀ (sc : List SRef) (found : SRef), recLoop st sc found = recLoop st' sc found
  | [], _ => rfl
  | s :: sc, found => by simp only [recLoop, recAnchor_same hst hst' hsame, recLoop_same sc]

theorem codeRules_same : codeRules st env d = codeRules st' env d := by
  simp only [codeRules, dynLoop_same hst hst' hsame, recAnchor_same hst hst' hsame, recLoop_same hst hst' hsame]

omit hst hst' hsame

theorem named_same {kws kws' : List Kw} (h : SameKws kws kws') (n : String) :
    Named env kws n = Named env kws' n := by
  simp only [Named]
  refine propext (or_congr ?_ ?_)
  · exact exists_congr fun ps => exists_congr fun t => and_congr_left fun _ => h _ id
  · exact exists_congr fun ps => exists_congr fun re => exists_congr fun t => and_congr_left fun _ => h _ id

theorem kwHolds_same {R : Rules} {M : Meaning} {sc : List SRef} {v : Value} {kws kws' : List Kw}
    (h : SameKws kws kws') {kw : Kw} (hu : ¬ IsUneval kw) :
    KwHolds R env M sc kws v kw = KwHolds R env M sc kws' v kw := by
  cases kw
  case unevaluatedProperties t => exact absurd trivial hu
  case unevaluatedItems t => exact absurd trivial hu
  case unevaluatedItems9 t => exact absurd trivial hu
  case then_ t => simp only [KwHolds, h (.if_ _) id]
  case else_ t => simp only [KwHolds, h (.if_ _) id]
  case additionalProperties t => simp only [KwHolds, named_same h]
  case items t => simp only [KwHolds, BeyondPrefix, h (.prefixItems _) id]
  case contains t => simp only [KwHolds, h (.minContains _) id]
  case minContains t => simp only [KwHolds, h (.contains _) id]
  case maxContains t => simp only [KwHolds, h (.contains _) id]
  case additionalItems t => simp only [KwHolds, h (.items9Array _) id]
  all_goals rfl

theorem obsEv_same {R : Rules} {M : Meaning} {sc : List SRef} {v : Value} {kws kws' : List Kw}
    (hb : ∀ t, (∃ ks, st.obj t = .obj ks) ↔ ∃ ks, st'.obj t = .obj ks)
    (h : SameKws kws kws') {kw : Kw} {pt : Pt} :
    ObsEv R env st M sc kws v kw pt = ObsEv R env st' M sc kws' v kw pt := by
  cases kw
  case then_ t => simp only [ObsEv, h (.if_ _) id]
  case else_ t => simp only [ObsEv, h (.if_ _) id]
  case additionalProperties t => cases pt <;> simp only [ObsEv, named_same h, kwHolds_same (kw := .additionalProperties t) h id]
  case items t => cases pt <;> simp only [ObsEv, BeyondPrefix, h (.prefixItems _) id, kwHolds_same (kw := .items t) h id]
  case items9 t => cases pt <;> simp only [ObsEv, hb, kwHolds_same (kw := .items9 t) h id]
  case additionalItems t =>
    cases pt with
    | name n => rfl
    | item k => simp only [ObsEv, h (.items9Array _) id, kwHolds_same (kw := .items9Array _) h id,
        kwHolds_same (kw := .additionalItems _) h id]
  all_goals cases pt <;> rfl

theorem neutral_ev {R : Rules} {M : Meaning} {sc : List SRef} {v : Value} {kws : List Kw}
    {kw : Kw} (hn : Neutral kw) {pt : Pt} : ¬ ObsEv R env st M sc kws v kw pt := by
  cases kw <;> first | exact absurd hn id | (cases pt <;> exact id)

theorem neutral_holds {R : Rules} {M : Meaning} {sc : List SRef} {v : Value} {kws : List Kw}
    {kw : Kw} (hn : Neutral kw) : ObsHolds R env st M sc kws v kw := by
  cases kw
  case format attr en => 
    have : en = false := hn
    subst this
    intro h; cases h
  all_goals first | exact trivial | exact hn.elim

theorem someEv_same {R : Rules} {M : Meaning} {sc : List SRef} {v : Value} {kws kws' : List Kw}
    (hb : ∀ t, (∃ ks, st.obj t = .obj ks) ↔ ∃ ks, st'.obj t = .obj ks) (h : SameKws kws kws') (pt : Pt) :
    (∃ kw ∈ kws, ObsEv R env st M sc kws v kw pt) = ∃ kw ∈ kws', ObsEv R env st' M sc kws' v kw pt := by
  refine propext (exists_congr fun kw => ?_)
  rw [obsEv_same hb h]
  by_cases hn : Neutral kw
  · simp only [neutral_ev hn, and_false]
  · rw [h kw hn]

theorem obsHolds_same {R : Rules} {M : Meaning} {sc : List SRef} {v : Value} {kws kws' : List Kw}
    (hbool : ∀ s b, st.obj s = .bool b ↔ st'.obj s = .bool b)
    (hb : ∀ t, (∃ ks, st.obj t = .obj ks) ↔ ∃ ks, st'.obj t = .obj ks)
    (h : SameKws kws kws') {kw : Kw} :
    ObsHolds R env st M sc kws v kw = ObsHolds R env st' M sc kws' v kw := by
  cases kw
  case unevaluatedProperties t => simp only [ObsHolds, someEv_same hb h]
  case unevaluatedItems t => simp only [ObsHolds, someEv_same hb h]
  case unevaluatedItems9 t => simp only [ObsHolds, someEv_same hb h]
  case items9 t =>
    simp only [ObsHolds]
    cases ho : st.obj t with
    | bool b => rw [(hbool t b).1 ho]
    | obj ks =>
      obtain ⟨ks', hks'⟩ := (hb t).1 ⟨ks, ho⟩
      rw [hks']
      exact kwHolds_same (kw := .items9 t) h id
  case additionalItems t =>
    simp only [ObsHolds, h (.items9Array _) id, kwHolds_same (kw := .items9Array _) h id]
  all_goals
    simp only [ObsHolds]
    exact kwHolds_same h (by exact id)

include hst hst' hsame in
theorem obsUnroll_same (n : Nat) :
    obsUnroll (codeRules st env d) env st n = obsUnroll (codeRules st' env d) env st' n := by
  have hb : ∀ t, (∃ ks, st.obj t = .obj ks) ↔ ∃ ks, st'.obj t = .obj ks := by
    intro t
    cases h : st.obj t with
    | bool b => simp [(hsame.bool t b).1 h]
    | obj ks =>
      cases h' : st'.obj t with
      | bool b => rw [(hsame.bool t b).2 h'] at h; cases h
      | obj ks' => simp
  induction n with
  | zero => rfl
  | succ n ih =>
    rw [obsUnroll, obsUnroll, ← ih, ← codeRules_same hst hst' hsame]
    simp only [obsStep, Meaning.mk.injEq]
    constructor
    · funext sc s v
      cases h : st.obj s with
      | bool b => rw [(hsame.bool s b).1 h]
      | obj kws =>
        cases h' : st'.obj s with
        | bool b => rw [(hsame.bool s b).2 h'] at h; cases h
        | obj kws' =>
          have hk := hsame.obj s kws kws' h h'
          refine propext (forall_congr' fun kw => ?_)
          rw [obsHolds_same hsame.bool hb hk]
          by_cases hn : Neutral kw
          · simp only [neutral_holds hn, implies_true]
          · rw [hk kw hn]
    · funext sc s v pt
      cases h : st.obj s with
      | bool b => rw [(hsame.bool s b).1 h]
      | obj kws =>
        cases h' : st'.obj s with
        | bool b => rw [(hsame.bool s b).2 h'] at h; cases h
        | obj kws' =>
          have hk := hsame.obj s kws kws' h h'
          refine propext (or_congr (iff_of_eq (someEv_same hb hk pt)) ?_)
          cases pt with
          | name n => simp only [hk (.unevaluatedProperties _) id, obsHolds_same hsame.bool hb hk]
          | item k => simp only [hk (.unevaluatedItems _) id, hk (.unevaluatedItems9 _) id,
              obsHolds_same hsame.bool hb hk]

/-- Schemas that differ only in order and in keywords that have no say give the same verdicts. -/
theorem verdict_same (hst : StoreOk d st) (hst' : StoreOk d st') (hsame : SameStore st st')
    {n n' : Nat} {s : SRef} {i i' : Inst} (hw : i.value.WF) (hi : i.value = i'.value) {r r' : RNode}
    (h : evaluate st env n s i = some r) (h' : evaluate st' env n' s i' = some r') : r.valid = r'.valid := by
  have h1 := evaluate_obs hst hw h (Nat.le_max_left n n')
  have h2 := evaluate_obs hst' (hi ▸ hw) h' (Nat.le_max_right n n')
  rw [obsUnroll_same hst hst' hsame, hi, ← h2] at h1
  cases hv : r.valid <;> cases hv' : r'.valid <;> simp_all

end

end Jschon
