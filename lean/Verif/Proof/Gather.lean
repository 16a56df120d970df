import Verif.Proof.Traces
import Verif.Props.OutputUnits

/-!
# What evaluation gathers
-/

namespace Jschon

open Spec

/-! ## The result of a keyword in the result of its schema -/

/-- Later keywords leave the result of `contains` as it is, except that they may pass it. -/
theorem kwLoop_keeps {st : Store} {env : Env} {rec : Rec} {a : List SRef} {s : SRef} {i : Inst} {P : RNode → Prop}
    (hP : ∀ c, P c → P c.pass_) :
    ∀ {kws : List Kw} {r r' : RNode}, kwLoop st env rec a s i kws r = some r' → "contains" ∉ kws.map Kw.key →
      (∃ c, clookup ("contains", i.path) r.children = some c ∧ P c) →
      ∃ c, clookup ("contains", i.path) r'.children = some c ∧ P c
  | [], r, r', h, _, hc => by simp only [kwLoop, Option.some.injEq] at h; rwa [← h]
  | kw :: kws, r, r', h, hk, ⟨c, hl, hc⟩ => by
    rw [List.map_cons, List.mem_cons, not_or] at hk
    simp only [kwLoop] at h
    split at h
    · split at h
      · contradiction
      · rename_i r1 h1
        refine kwLoop_keeps hP h hk.2 ?_
        have hne : ("contains", i.path) ≠ (kw.key, i.path) := fun e => hk.1 (congrArg Prod.fst e)
        simp only [withSub] at h1
        cases he : evalKw st env rec (s :: a) kw i
            (r.setChild (kw.key, i.path) (r.fresh i kw.key s)) (r.fresh i kw.key s) with
        | none => simp only [he] at h1; contradiction
        | some q =>
          obtain ⟨p', c'⟩ := q
          simp only [he, Option.some.injEq] at h1
          have hl0 : clookup ("contains", i.path) (r.setChild (kw.key, i.path) (r.fresh i kw.key s)).children =
              some c := (clookup_cset_ne hne).trans hl
          have hp : ∃ c, clookup ("contains", i.path) p'.children = some c ∧ P c := by
            rcases evalKw_parent he with rfl | ⟨con, _, hs, rfl⟩
            · exact ⟨c, hl0, hc⟩
            · rw [sibling, hl0] at hs
              cases hs
              exact ⟨_, clookup_cset_self, hP _ hc⟩
          obtain ⟨c2, hl2, hc2⟩ := hp
          refine ⟨c2, ?_, hc2⟩
          rw [← h1, ← hl2]
          split
          · exact (clookup_cerase_ne hne).trans (clookup_cset_ne hne)
          · exact clookup_cset_ne hne
    · exact kwLoop_keeps hP h hk.2 ⟨c, hl, hc⟩

/-- What is known of the result of a keyword, once its schema has been evaluated. -/
structure KwResult (d : Dialect) (st : Store) (env : Env) (rec : Rec) (M : Meaning) (sc sc' : List SRef) (s : SRef)
    (kws : List Kw) (i : Inst) (kw : Kw) (c : RNode) : Prop where
  key : c.info.key = some kw.key
  inst : c.info.inst = i
  schema : c.info.schema = s
  valid : c.info.valid = true ↔ ResultValid (codeRules st env d) env st M (s :: sc') kws i.value kw
  reports : Reports (codeRules st env d) env st M (s :: sc') kws i.value kw c.info.annotation c.info.error
  kids : (∀ t, kw = .items9 t → (∃ b, st.obj t = .bool b) ∨ c.info.valid = true) →
    KidsAre rec s (s :: sc) (AppsOf d st env M (s :: sc') kws i kw) c.children

section
variable {d : Dialect} {st : Store} {env : Env} {rec : Rec} {M : Meaning} (hok : RecOk d rec M)
variable (herr : RecErrs st rec) (hstore : StoreOk d st)
variable (hbool : ∀ t bb, st.obj t = .bool bb → ∀ sc v pt, ¬ M.ev sc t v pt)
variable (hkid : ∀ sc t b i c c', st.obj t = .bool b → rec sc t i c = some c' → c'.children = c.children)

include hok herr hstore hbool hkid

/-- The result that each keyword of a schema leaves. -/
theorem body_kids {sc sc' : List SRef} {s : SRef} {i : Inst} {r0 r' : RNode} {kws : List Kw} {kw : Kw} {c : RNode}
    (hst : Stut (s :: sc) (s :: sc')) (hw : i.value.WF) (hc : Clean r0) (ha : AwayFrom i.path r0)
    (hobj : st.obj s = .obj kws) (hkw : kw ∈ kws) (hty : kw.types.contains i.value.type = true)
    (h : evalBody st env rec sc s i r0 = some r') (hs : sibling r' i kw.key = some c) :
    KwResult d st env rec M sc sc' s kws i kw c := by
  have hrep : Reports (codeRules st env d) env st M (s :: sc') kws i.value kw c.info.annotation c.info.error := by
    rcases body_reports hok herr hstore hbool hst hw hc ha hobj hkw hty h with ⟨c2, h2, hr⟩ | ⟨h2, _⟩
    · rw [hs] at h2; cases h2; exact hr
    · rw [hs] at h2; cases h2
  have hkws := hstore s kws hobj
  obtain ⟨rr, hloop, hch⟩ := evalBody_children hobj h
  rw [sibling, hch] at hs
  obtain ⟨done, rest, hsplit⟩ := List.append_of_mem hkw
  have hloop' := hloop
  rw [hsplit] at hloop'
  obtain ⟨r1, hd, hr⟩ := kwLoop_split hloop'
  have hempty : ∃ new, r0.children = r0.children ++ new ∧ NewOk st env d M (s :: sc') kws i s [] new :=
    ⟨[], by simp, by simp, by simp, by simp, by simp, by simp, by simp⟩
  obtain ⟨new, hch1, hnew⟩ := loop_prefix (b := sc') hok hst hw hkws hobj hbool hc ha (done := [])
    (later := kw :: rest) (by simpa using hsplit) rfl hempty hd
  rw [List.nil_append] at hnew
  have hi1 : r1.info = r0.info := kwLoop_info hd
  have hnd := hkws.nodup
  rw [hsplit, List.map_append, List.map_cons, List.nodup_append] at hnd
  have hrest : kw.key ∉ rest.map Kw.key := (List.nodup_cons.1 hnd.2.1).1
  obtain ⟨hsib, hann⟩ := loop_ready hok hst hw hkws hobj hbool hsplit hc ha hi1 hnew hch1 rfl
  rw [kwLoop, if_pos hty] at hr
  split at hr
  · contradiction
  · rename_i r2 hr2
    simp only [withSub] at hr2
    cases he : evalKw st env rec (s :: sc) kw i
        (r1.setChild (kw.key, i.path) (r1.fresh i kw.key s)) (r1.fresh i kw.key s) with
    | none => simp only [he] at hr2; contradiction
    | some q =>
      obtain ⟨p', c'⟩ := q
      simp only [he, Option.some.injEq] at hr2
      have hfresh := freshFor_fresh r1 i kw.key s
      have himm : Imm (r1.fresh i kw.key s) c' :=
        (evalKw_good (Q := fun _ => True) closed_true (hok.good _ closed_true) trivial
          (Good.fresh trivial) he).2
      by_cases hcon : ∃ t, kw = .contains t
      · obtain ⟨t, rfl⟩ := hcon
        obtain ⟨hdis, hcok⟩ := contains_reports hok hst hw herr hfresh rfl he
        rw [hdis] at hr2
        have hkids := kw_kids hok hst hw hkid hkws hobj hkw hfresh hty hsib hann he hdis (fun t h => by cases h)
        obtain ⟨c2, hl2, h2⟩ := kwLoop_keeps (P := fun c => c.info.asrt = true ∧ c.children = c'.children ∧
            Imm c' c) (fun c h => ⟨h.1, h.2.1, h.2.2.trans ⟨rfl, rfl, rfl, rfl, rfl⟩⟩) hr hrest
          ⟨c', by rw [← hr2]; exact clookup_cset_self, hcok.asrt, rfl, Imm.refl _⟩
        have hs' := hs
        rw [show (Kw.contains t).key = "contains" from rfl, hl2] at hs'
        cases hs'
        refine ⟨(himm.trans h2.2.2).key, (himm.trans h2.2.2).inst, (himm.trans h2.2.2).schema, ?_, hrep,
          fun _ => by rw [h2.2.1]; exact hkids⟩
        obtain ⟨new2, hch2, hnew2⟩ := loop_inv (b := sc') hok hst hw hkws hobj hbool hc ha (done := [])
          (by simp) rfl hempty hloop
        have hl3 : clookup ((Kw.contains t).key, i.path) new2 = some c := by
          have := hs
          rw [hch2, clookup_append] at this
          · exact this
          · intro e he hk
            exact (ha e he).1 (by rw [hk])
        have hp := (hnew2.out _ hkw).pass
        rw [hl3] at hp
        have harr := type_arr (v := i.value) hty
        simp only [Option.some.injEq, forall_eq', PassD, harr, true_implies, matching_pos, RNode.passed, h2.1,
          Bool.not_true, Bool.or_false] at hp
        exact hp
      · have hne : kw.key ≠ "contains" := by
          intro hk
          obtain ⟨t, ht⟩ := key_contains (hkws.ok kw hkw) hk
          exact hcon ⟨t, ht⟩
        rw [kwLoop_lookup hne _ hr hrest] at hs
        have hdis : c'.info.discard = false := by
          rw [← Bool.not_eq_true]
          intro hdis
          rw [hdis, if_pos rfl] at hr2
          have hp' : p' = r1.setChild (kw.key, i.path) (r1.fresh i kw.key s) := by
            rcases evalKw_parent he with hp | ⟨con, ⟨m, hm⟩, _⟩
            · exact hp
            · subst hm
              simp only [evalKw, evalMinContains, Option.some.injEq] at he
              split at he
              · cases he; cases hdis
              · simp only [Prod.mk.injEq] at he
                rw [← he.2] at hdis
                split at hdis <;> cases hdis
          have hall : ∀ e ∈ r1.children, e.1 ≠ (kw.key, i.path) := by
            intro e he hk
            rw [hch1] at he
            rcases List.mem_append.1 he with he | he
            · exact (ha e he).1 (by rw [hk])
            · obtain ⟨kw', hkw', hk'⟩ := hnew.keys e he
              rw [hk] at hk'
              exact hnd.2.2 _ (List.mem_map.2 ⟨kw', hkw', rfl⟩) _ List.mem_cons_self
                (congrArg Prod.fst hk').symm
          rw [← hr2, hp'] at hs
          simp only [RNode.delChild, RNode.setChild, RNode.children_mk] at hs
          rw [cset_new hall, cset_last hall, cerase_last hall, clookup_none_iff.2 hall] at hs
          cases hs
        rw [hdis] at hr2
        have : c' = c := by
          have : clookup (kw.key, i.path) r2.children = some c' := by rw [← hr2]; exact clookup_cset_self
          rw [this] at hs; cases hs; rfl
        subst this
        refine ⟨himm.key, himm.inst, himm.schema, ?_, hrep, fun hv => ?_⟩
        · exact kw_valid hok hst hw hkws hobj hbool hkw hfresh hty hsib hann (fun t ht => hcon ⟨t, ht⟩) he hdis
        · exact kw_kids hok hst hw hkid hkws hobj hkw hfresh hty hsib hann he hdis hv

end

/-! ## The meaning to which unrolling settles -/

theorem settled_ok {d : Dialect} {st : Store} {env : Env} (hstore : StoreOk d st) (n : Nat) :
    RecOk d (evalSchema st env n) (settled (obsUnroll (codeRules st env d) env st)) := by
  have h0 := evalSchema_ok (env := env) hstore n
  refine ⟨h0.good, h0.kids, h0.frame, ?_⟩
  intro sc sc' s i r r' hst hw hc ha h
  have hm : ∀ m, n ≤ m → evalSchema st env m sc s i r = some r' := fun m hm => evalSchema_mono st env hm _ _ _ _ _ h
  obtain ⟨_, new, hch, hg, _⟩ := h0.sim _ _ _ _ _ _ hst hw hc ha h
  refine ⟨?_, new, hch, hg, fun pt hp => ?_⟩
  · constructor
    · intro hv
      exact ⟨n, fun m hnm => ((evalSchema_ok hstore m).sim _ _ _ _ _ _ hst hw hc ha (hm m hnm)).1.1 hv⟩
    · rintro ⟨k, hk⟩
      exact ((evalSchema_ok hstore (max n k)).sim _ _ _ _ _ _ hst hw hc ha (hm _ (Nat.le_max_left ..))).1.2
        (hk _ (Nat.le_max_right ..))
  · have key : ∀ m, n ≤ m → ((∃ e ∈ new, evs (Cover d pt) i.path e.2) ↔
        (obsUnroll (codeRules st env d) env st m).ev sc' s i.value pt) := by
      intro m hnm
      obtain ⟨_, new', hch', _, h4⟩ := (evalSchema_ok hstore m).sim _ _ _ _ _ _ hst hw hc ha (hm m hnm)
      have : new' = new := List.append_cancel_left (hch'.symm.trans hch)
      subst this
      exact h4 pt hp
    constructor
    · intro he
      exact ⟨n, fun m hnm => (key m hnm).1 he⟩
    · rintro ⟨k, hk⟩
      exact (key (max n k) (Nat.le_max_left ..)).2 (hk _ (Nat.le_max_right ..))

theorem settled_bool {R : Rules} {st : Store} {env : Env} (t : SRef) (bb : Bool) (h : st.obj t = .bool bb)
    (sc : List SRef) (v : Value) (pt : Pt) : ¬ (settled (obsUnroll R env st)).ev sc t v pt := by
  rintro ⟨n, hn⟩
  have := hn (n + 1) (Nat.le_succ n)
  simp only [obsUnroll, obsStep, h] at this

theorem evalSchema_bool_kids {st : Store} {env : Env} {n : Nat} (sc : List SRef) (t : SRef) (b : Bool) (i : Inst)
    (c c' : RNode) (hb : st.obj t = .bool b) (h : evalSchema st env n sc t i c = some c') :
    c'.children = c.children := by
  cases n with
  | zero => simp [evalSchema] at h
  | succ n =>
    cases b <;> simp only [evalSchema, evalBody, hb, Option.some.injEq] at h <;> rw [← h]
    rfl

/-! ## Gathering -/

/-- The information in a result is that of the mark, seen from the instance `i`. -/
def Mirrors (d : Dialect) (st : Store) (env : Env) (M : Meaning) (i : Inst) (m : Mark) (info : RInfo) : Prop :=
  info.key = some m.source.name ∧ info.inst = ⟨i.path ++ m.place, m.value⟩ ∧ info.schema = m.at_ ∧
    m.Carries (codeRules st env d) env st M info.annotation info.error

theorem Mirrors.under {d : Dialect} {st : Store} {env : Env} {M : Meaning} {i : Inst} {m : Mark} {info : RInfo}
    {rel : List String} {w : Value} (h : Mirrors d st env M ⟨i.path ++ rel, w⟩ m info) :
    Mirrors d st env M i (m.under rel) info := by
  obtain ⟨h1, h2, h3, h4⟩ := h
  exact ⟨h1, by rw [h2]; simp [Mark.under], h3, h4⟩

/-- What `rec` leaves, below results with the verdict `v`, is what the specification gathers. -/
def RecEmits (d : Dialect) (st : Store) (env : Env) (M : Meaning) (v : Bool) (rec : Rec) : Prop :=
  ∀ sc sc' s i r r' new, Stut (s :: sc) (s :: sc') → i.value.WF → Clean r → AwayFrom i.path r →
    rec sc s i r = some r' → r'.children = r.children ++ new →
    (∀ x ∈ reachedOf v new, told v x.info ≠ none → ∃ m,
      Emits (codeRules st env d) env st M (v = true) sc' s i.value m ∧ Mirrors d st env M i m x.info) ∧
    (∀ m, Emits (codeRules st env d) env st M (v = true) sc' s i.value m →
      ∃ x ∈ reachedOf v new, Mirrors d st env M i m x.info)

theorem silent_reports {R : Rules} {env : Env} {st : Store} {M : Meaning} {sc : List SRef} {kws : List Kw} {v : Value}
    {kw : Kw} {a e : Value} (hs : Silent R env st M sc kws v kw) (hr : Reports R env st M sc kws v kw a e) :
    a = .null ∧ e = .null := by
  cases kw <;> simp only [Silent] at hs <;> simp only [Reports] at hr
  case then_ => exact absurd hr.1 hs
  case else_ => exact absurd hr.1 hs
  case contentSchema => exact absurd hr.1 hs
  case additionalItems =>
    obtain ⟨ss, h1, h2, h3, h4, _⟩ := hr
    exact absurd ⟨ss, h1, h2, h3, h4⟩ hs
  case unevaluatedItems =>
    obtain ⟨⟨_, h1⟩, h2⟩ := hr.1 (fun k hk hn => absurd (hs k hk) hn)
    exact ⟨h1 (fun ⟨k, hk, hn⟩ => hn (hs k hk)), h2⟩
  case unevaluatedItems9 =>
    obtain ⟨⟨_, h1⟩, h2⟩ := hr.1 (fun k hk hn => absurd (hs k hk) hn)
    exact ⟨h1 (fun ⟨k, hk, hn⟩ => hn (hs k hk)), h2⟩

theorem atItem_lt {v : Value} {k : Nat} {rel : List String} {w : Value} (h : AtItem v k rel w) :
    k < (elems v).length := (List.getElem?_eq_some_iff.1 h.1).1

theorem silent_applies {R : Rules} {env : Env} {st : Store} {M : Meaning} {sc : List SRef} {kws : List Kw} {v : Value}
    {kw : Kw} {l : Option String} {t : SRef} {rel : List String} {w : Value} (hs : Silent R env st M sc kws v kw)
    (ha : AppliesAt R env st M sc kws v kw l t rel w) : False := by
  cases kw <;> simp only [Silent] at hs <;> simp only [AppliesAt] at ha
  case then_ => exact hs ha.1
  case else_ => exact hs ha.1
  case additionalItems =>
    obtain ⟨_, _, ss, h1, h2, h3, k, _, hk⟩ := ha
    refine hs ⟨ss, h1, h2, fun h => ?_, h3⟩
    have := atItem_lt hk
    rw [h] at this; cases this
  case unevaluatedItems =>
    obtain ⟨_, _, k, hn, hk⟩ := ha
    exact hn (hs k (atItem_lt hk))
  case unevaluatedItems9 =>
    obtain ⟨_, _, k, hn, hk⟩ := ha
    exact hn (hs k (atItem_lt hk))

theorem atItem_wf {v : Value} {k : Nat} {rel : List String} {w : Value} (hw : v.WF) (h : AtItem v k rel w) : w.WF := by
  obtain ⟨h, _⟩ := h
  exact items_wf (i := ⟨[], v⟩) (p := (k, ⟨[] ++ [natStr k], w⟩)) hw (mem_items.2 ⟨w, h, rfl⟩)

theorem atMember_wf {v : Value} {n : String} {rel : List String} {w : Value} (hw : v.WF) (h : AtMember v n rel w) :
    w.WF :=
  member_wf (i := ⟨[], v⟩) (p := (n, ⟨[] ++ [n], w⟩)) hw (mem_members.2 ⟨w, h.1, rfl⟩)

theorem appliesAt_wf {R : Rules} {env : Env} {st : Store} {M : Meaning} {sc : List SRef} {kws : List Kw} {v : Value}
    {kw : Kw} {l : Option String} {t : SRef} {rel : List String} {w : Value} (hw : v.WF)
    (ha : AppliesAt R env st M sc kws v kw l t rel w) : w.WF := by
  cases kw <;> simp only [AppliesAt] at ha
  case allOf => obtain ⟨_, _, rfl⟩ := ha; exact hw
  case anyOf => obtain ⟨_, _, rfl⟩ := ha; exact hw
  case oneOf => obtain ⟨_, _, rfl⟩ := ha; exact hw
  case not_ => obtain ⟨_, _, _, rfl⟩ := ha; exact hw
  case if_ => obtain ⟨_, _, _, rfl⟩ := ha; exact hw
  case ref => obtain ⟨_, _, _, rfl⟩ := ha; exact hw
  case then_ => obtain ⟨_, _, _, _, rfl⟩ := ha; exact hw
  case else_ => obtain ⟨_, _, _, _, rfl⟩ := ha; exact hw
  case dynamicRef => obtain ⟨_, _, _, rfl⟩ := ha; exact hw
  case recursiveRef => obtain ⟨_, _, _, rfl⟩ := ha; exact hw
  case dependentSchemas => obtain ⟨_, _, rfl⟩ := ha; exact hw
  case properties => obtain ⟨_, _, _, h⟩ := ha; exact atMember_wf hw h
  case patternProperties => obtain ⟨_, _, _, _, _, h⟩ := ha; exact atMember_wf hw h
  case additionalProperties => obtain ⟨_, _, _, _, h⟩ := ha; exact atMember_wf hw h
  case unevaluatedProperties => obtain ⟨_, _, _, _, h⟩ := ha; exact atMember_wf hw h
  case propertyNames => obtain ⟨_, _, _, _, _, rfl⟩ := ha; exact .str
  case prefixItems => obtain ⟨_, _, _, h⟩ := ha; exact atItem_wf hw h
  case items9Array => obtain ⟨_, _, _, h⟩ := ha; exact atItem_wf hw h
  case items => obtain ⟨_, _, _, _, h⟩ := ha; exact atItem_wf hw h
  case contains => obtain ⟨_, _, _, h⟩ := ha; exact atItem_wf hw h
  case unevaluatedItems => obtain ⟨_, _, _, _, h⟩ := ha; exact atItem_wf hw h
  case unevaluatedItems9 => obtain ⟨_, _, _, _, h⟩ := ha; exact atItem_wf hw h
  case items9 => obtain ⟨_, _, _, _, h⟩ := ha; exact atItem_wf hw h
  case additionalItems => obtain ⟨_, _, _, _, _, _, _, _, h⟩ := ha; exact atItem_wf hw h

theorem bool_iff_eq {a v : Bool} {P : Prop} (h : a = true ↔ P) : a = v ↔ (P ↔ v = true) := by
  rw [← h]; cases a <;> cases v <;> simp

theorem reached_cases {v : Bool} {r x : RNode} : x ∈ reached v r ↔
    r.info.valid = v ∧ (x = r ∨ x ∈ reachedOf v r.children) := by
  cases r with
  | mk info cs =>
    rw [reached]
    by_cases h : info.valid = v <;> simp [h]

theorem mem_reachedOf_iff {v : Bool} {cs : List Entry} {x : RNode} :
    x ∈ reachedOf v cs ↔ ∃ e ∈ cs, x ∈ reached v e.2 := by
  constructor
  · intro h
    induction cs with
    | nil => cases h
    | cons c cs ih =>
      rw [reachedOf, List.mem_append] at h
      rcases h with h | h
      · exact ⟨_, List.mem_cons_self, h⟩
      · obtain ⟨e, he, h⟩ := ih h
        exact ⟨e, List.mem_cons_of_mem _ he, h⟩
  · rintro ⟨e, he, h⟩; exact mem_reachedOf he h

section
variable {d : Dialect} {st : Store} {env : Env} {rec : Rec} {M : Meaning} (hok : RecOk d rec M)
variable (herr : RecErrs st rec) (hstore : StoreOk d st)
variable (hbool : ∀ t bb, st.obj t = .bool bb → ∀ sc v pt, ¬ M.ev sc t v pt)
variable (hkid : ∀ sc t b i c c', st.obj t = .bool b → rec sc t i c = some c' → c'.children = c.children)

include hok

/-- What the result with a label for a subschema is like. -/
theorem runSub_facts (herr : RecErrs st rec) {s t : SRef} {a b : List SRef} {l : String} {i : Inst} {rel : List String}
    {w : Value} {e : Entry} (hst : Stut (s :: a) (s :: b)) (hw : w.WF)
    (h : RunSub rec s (s :: a) l t ⟨i.path ++ rel, w⟩ e) :
    (e.2.info.valid = true ↔ M.valid (s :: b) t w) ∧
      Mirrors d st env M i ⟨rel, w, s, .schema l t⟩ e.2.info := by
  obtain ⟨_, c0, hc0, he0, hr⟩ := h
  obtain ⟨h1, _, _, h4, himm⟩ := rec_spec hok (.dup hst) hw hc0.clean (hc0.away _) hr
  obtain ⟨e1, e2, _, _⟩ := herr _ _ _ _ _ hr he0
  exact ⟨by rw [h1, vb_iff], by rw [himm.key]; exact hc0.key, by rw [himm.inst]; exact hc0.inst,
    by rw [himm.schema]; exact hc0.schema, h4, e1, fun hn => e2 (Classical.not_not.1 hn)⟩

include herr hstore hbool hkid

theorem body_gathers {v : Bool} (hd : PlainItems st ∨ v = true) (hrec : RecEmits d st env M v rec) :
    RecEmits d st env M v (fun sc s i r => evalBody st env rec sc s i r) := by
  intro sc sc' s i r r' new hst hw hc ha h hch
  cases hobj : st.obj s with
  | bool b =>
    have hnil : new = [] := by
      have : r'.children = r.children := by
        cases b <;> simp only [evalBody, hobj, Option.some.injEq] at h <;> rw [← h]
        rfl
      rw [this] at hch
      exact List.self_eq_append_right.1 hch
    subst hnil
    refine ⟨fun x hx => (by cases hx), fun m hm => ?_⟩
    cases hm <;> rename_i h1 _ _ _ <;> simp_all
  | obj kws =>
    have hkws := hstore s kws hobj
    obtain ⟨rr, hloop, hch0⟩ := evalBody_children hobj h
    have hempty : ∃ new, r.children = r.children ++ new ∧ NewOk st env d M (s :: sc') kws i s [] new :=
      ⟨[], by simp, by simp, by simp, by simp, by simp, by simp, by simp⟩
    obtain ⟨new2, hch2, hnew⟩ := loop_inv (b := sc') hok hst hw hkws hobj hbool hc ha (done := [])
      (by simp) rfl hempty hloop
    have : new2 = new := by
      rw [← hch0, hch] at hch2
      exact (List.append_cancel_left hch2).symm
    subst this
    have hsib : ∀ key, sibling r' i key = clookup (key, i.path) new2 := by
      intro key
      rw [sibling, hch, clookup_append]
      intro e he hk
      exact (ha e he).1 (by rw [hk])
    have hres : ∀ {kw c}, kw ∈ kws → kw.types.contains i.value.type = true → sibling r' i kw.key = some c →
        KwResult d st env rec M sc sc' s kws i kw c :=
      fun hkw hty hs => body_kids hok herr hstore hbool hkid hst hw hc ha hobj hkw hty h hs
    have hkids : ∀ {kw c}, kw ∈ kws → KwResult d st env rec M sc sc' s kws i kw c → c.info.valid = v →
        KidsAre rec s (s :: sc) (AppsOf d st env M (s :: sc') kws i kw) c.children := by
      intro kw c hkw hc hv
      refine hc.kids ?_
      rintro t rfl
      rcases hd with hd | hd
      · exact .inl (hd s kws t hobj hkw)
      · exact .inr (by rw [hv, hd])
    have hstt : ∀ t, Stut (t :: s :: sc) (t :: s :: sc') := fun t => .cons hst
    constructor
    · intro x hx htold
      obtain ⟨e, he, hx⟩ := mem_reachedOf_iff.1 hx
      obtain ⟨kw0, hkw0, hk0⟩ := hnew.keys e he
      have hlook : clookup (kw0.key, i.path) new2 = some e.2 :=
        clookup_of_mem hnew.nodup (by rw [← hk0]; exact he)
      obtain ⟨kw, hkw, hkk, hty⟩ : ∃ kw ∈ kws, kw.key = kw0.key ∧ kw.types.contains i.value.type = true := by
        apply Classical.byContradiction
        intro hno
        have := kwLoop_none (key := kw0.key) (fun kw hkw hk => by
            rw [← Bool.not_eq_true]; exact fun hty => hno ⟨kw, hkw, hk, hty⟩) hloop
          (clookup_none_iff.2 (fun e he hk => (ha e he).1 (by rw [hk])))
        rw [← hch0] at this
        have h2 := hsib kw0.key
        rw [sibling, this, hlook] at h2; cases h2
      have hs : sibling r' i kw.key = some e.2 := by rw [hsib, hkk]; exact hlook
      have hR := hres hkw hty hs
      obtain ⟨hv, hx⟩ := reached_cases.1 hx
      have hgate := (bool_iff_eq hR.valid).1 hv
      have hK := hkids hkw hR hv
      rcases hx with rfl | hx
      · have hnot : ¬ Silent (codeRules st env d) env st M (s :: sc') kws i.value kw := by
          intro hsil
          obtain ⟨h1, h2⟩ := silent_reports hsil hR.reports
          apply htold
          simp only [told, saying, h1, h2]
          cases v <;> rfl
        exact ⟨_, .here hobj hkw hty hnot hgate, hR.key, by rw [hR.inst]; simp, hR.schema, hR.reports⟩
      · obtain ⟨e', he', hx⟩ := mem_reachedOf_iff.1 hx
        rcases hK.source e' he' with ⟨l, t, j, ⟨rel, w, hap, rfl⟩, hrun⟩ | ⟨t, j, new, ⟨rel, w, hap, rfl⟩, hrun, hin⟩
        · obtain ⟨hv', hx⟩ := reached_cases.1 hx
          obtain ⟨f1, f2⟩ := runSub_facts (env := env) hok herr hst (appliesAt_wf hw hap) hrun
          have hgate' := (bool_iff_eq f1).1 hv'
          rcases hx with rfl | hx
          · exact ⟨_, .label hobj hkw hty hgate hap hgate', f2⟩
          · obtain ⟨_, c0, hc0, he0, hr⟩ := hrun
            obtain ⟨m, hm, hf⟩ := (hrec _ (s :: sc') _ _ _ _ _ (.cons (.dup hst)) (appliesAt_wf hw hap) hc0.clean
              (hc0.away _) hr (by rw [hc0.kids, List.nil_append])).1 x hx htold
            exact ⟨_, .sub hobj hkw hty hgate hap hgate' hm, hf.under⟩
        · obtain ⟨ca, cb, hca, hcaw, hr, hcb⟩ := hrun
          obtain ⟨m, hm, hf⟩ := (hrec _ (s :: sc') _ _ _ _ _ (hstt t) (appliesAt_wf hw hap) hca hcaw hr hcb).1 x
            (mem_reachedOf_iff.2 ⟨e', hin, hx⟩) htold
          exact ⟨_, .own hobj hkw hty hgate hap hm, hf.under⟩
    · have hfound : ∀ {kw}, kw ∈ kws → kw.types.contains i.value.type = true →
          ¬ Silent (codeRules st env d) env st M (s :: sc') kws i.value kw →
          (ResultValid (codeRules st env d) env st M (s :: sc') kws i.value kw ↔ v = true) →
          ∃ e ∈ new2, KwResult d st env rec M sc sc' s kws i kw e.2 ∧ e.2.info.valid = v := by
        intro kw hkw hty hns hg
        rcases body_reports hok herr hstore hbool hst hw hc ha hobj hkw hty h with ⟨c, hs, _⟩ | ⟨_, hsil⟩
        · have hR := hres hkw hty hs
          rw [hsib] at hs
          exact ⟨_, mem_of_clookup hs, hR, (bool_iff_eq hR.valid).2 hg⟩
        · exact absurd hsil hns
      intro m hm
      cases hm with
      | @here _ _ _ kws' kw h1 hkw hty hns hg =>
        rw [hobj] at h1; cases h1
        obtain ⟨e, he, hR, hv⟩ := hfound hkw hty hns hg
        exact ⟨e.2, mem_reachedOf_iff.2 ⟨e, he, reached_cases.2 ⟨hv, .inl rfl⟩⟩, hR.key, by rw [hR.inst]; simp,
          hR.schema, hR.reports⟩
      | @own _ _ _ kws' kw t rel w m h1 hkw hty hg hap hm =>
        rw [hobj] at h1; cases h1
        obtain ⟨e, he, hR, hv⟩ := hfound hkw hty (fun hs => silent_applies hs hap) hg
        obtain ⟨new, ⟨ca, cb, hca, hcaw, hr, hcb⟩, hsub⟩ := (hkids hkw hR hv).own t _ ⟨rel, w, hap, rfl⟩
        obtain ⟨x, hx, hf⟩ := (hrec _ (s :: sc') _ _ _ _ _ (hstt t) (appliesAt_wf hw hap) hca hcaw hr hcb).2 m hm
        obtain ⟨e', he', hx⟩ := mem_reachedOf_iff.1 hx
        exact ⟨x, mem_reachedOf_iff.2 ⟨e, he, reached_cases.2 ⟨hv, .inr
          (mem_reachedOf_iff.2 ⟨e', hsub e' he', hx⟩)⟩⟩, hf.under⟩
      | @sub _ _ _ kws' kw l t rel w m h1 hkw hty hg hap hg' hm =>
        rw [hobj] at h1; cases h1
        obtain ⟨e, he, hR, hv⟩ := hfound hkw hty (fun hs => silent_applies hs hap) hg
        obtain ⟨e', he', hrun⟩ := (hkids hkw hR hv).sub l t _ ⟨rel, w, hap, rfl⟩
        obtain ⟨f1, f2⟩ := runSub_facts (env := env) hok herr hst (appliesAt_wf hw hap) hrun
        obtain ⟨_, c0, hc0, he0, hr⟩ := hrun
        obtain ⟨x, hx, hf⟩ := (hrec _ (s :: sc') _ _ _ _ _ (.cons (.dup hst)) (appliesAt_wf hw hap) hc0.clean
          (hc0.away _) hr (by rw [hc0.kids, List.nil_append])).2 m hm
        exact ⟨x, mem_reachedOf_iff.2 ⟨e, he, reached_cases.2 ⟨hv, .inr (mem_reachedOf_iff.2 ⟨e', he',
          reached_cases.2 ⟨(bool_iff_eq f1).2 hg', .inr hx⟩⟩)⟩⟩, hf.under⟩
      | @label _ _ _ kws' kw l t rel w h1 hkw hty hg hap hg' =>
        rw [hobj] at h1; cases h1
        obtain ⟨e, he, hR, hv⟩ := hfound hkw hty (fun hs => silent_applies hs hap) hg
        obtain ⟨e', he', hrun⟩ := (hkids hkw hR hv).sub l t _ ⟨rel, w, hap, rfl⟩
        obtain ⟨f1, f2⟩ := runSub_facts (env := env) hok herr hst (appliesAt_wf hw hap) hrun
        exact ⟨e'.2, mem_reachedOf_iff.2 ⟨e, he, reached_cases.2 ⟨hv, .inr (mem_reachedOf_iff.2 ⟨e', he',
          reached_cases.2 ⟨(bool_iff_eq f1).2 hg', .inl rfl⟩⟩)⟩⟩, f2⟩

end

theorem plainItems_2020 {st : Store} (hstore : StoreOk .d2020 st) : PlainItems st := by
  intro s kws t hobj hkw
  have : Dialect.d2020 = .d2019 := (hstore s kws hobj).ok _ hkw
  cases this

theorem evalSchema_gathers {d : Dialect} {st : Store} {env : Env} {v : Bool} (hstore : StoreOk d st)
    (hd : PlainItems st ∨ v = true) (n : Nat) :
    RecEmits d st env (settled (obsUnroll (codeRules st env d) env st)) v (evalSchema st env n) := by
  induction n with
  | zero => intro _ _ _ _ _ _ _ _ _ _ _ h; simp [evalSchema] at h
  | succ n ih =>
    exact body_gathers (settled_ok hstore n) (evalSchema_errs n) hstore settled_bool evalSchema_bool_kids hd ih

end Jschon
