import Verif.Proof.EvalGood
import Verif.Spec.Observed
import Verif.Proof.Py

/-!
# What the loops over subschemas compute

`RecOk` says that an evaluator of schemas agrees with a meaning `M`; the loops over subschemas then
agree with it too.
-/

namespace Jschon

open Spec

/-! ## Annotations found in a result -/

/-- Some annotation found in the result for instances at path `p` satisfies `C`. -/
def evs (C : String → Value → Prop) (p : List String) (r : RNode) : Prop :=
  ∃ k a, a ∈ r.annotations (some p) (some k) ∧ C k a

theorem mem_childAnnotations {p : Option (List String)} {k : Option String} {a : Value} :
    ∀ {cs : List ((String × List String) × RNode)},
      a ∈ childAnnotations p k cs ↔ ∃ e ∈ cs, a ∈ e.2.annotations p k
  | [] => by simp [childAnnotations]
  | (x, c) :: cs => by
    simp only [childAnnotations, List.mem_append, mem_childAnnotations, List.mem_cons]
    constructor
    · rintro (h | ⟨e, he, h⟩)
      · exact ⟨_, .inl rfl, h⟩
      · exact ⟨e, .inr he, h⟩
    · rintro ⟨e, rfl | he, h⟩
      · exact .inl h
      · exact .inr ⟨e, he, h⟩

theorem mem_annotations {p : List String} {k : String} {a : Value} {r : RNode} :
    a ∈ r.annotations (some p) (some k) ↔ r.info.valid = true ∧ r.info.discard = false ∧
      ((r.info.annotation = a ∧ a ≠ .null ∧ r.info.key = some k ∧ r.info.inst.path = p) ∨
        ∃ e ∈ r.children, a ∈ e.2.annotations (some p) (some k)) := by
  cases r with
  | mk info cs =>
    simp only [RNode.annotations, RNode.info_mk, RNode.children_mk, reduceCtorEq, false_or,
      Option.some.injEq]
    by_cases hv : (info.valid && !info.discard) = true
    · have hv' := hv
      simp only [Bool.and_eq_true, Bool.not_eq_true'] at hv'
      rw [if_pos hv]
      simp only [hv'.1, hv'.2, true_and, List.mem_append, mem_childAnnotations]
      have : (a ∈ (match info.annotation with
          | .null => []
          | a => if some k = info.key ∧ p = info.inst.path then [a] else [])) ↔
          (info.annotation = a ∧ a ≠ .null ∧ info.key = some k ∧ info.inst.path = p) := by
        split
        · rename_i hn
          simp only [hn, List.not_mem_nil, false_iff]
          rintro ⟨h1, h2, _⟩
          exact h2 h1.symm
        · rename_i a' hn
          by_cases hk : some k = info.key ∧ p = info.inst.path
          · rw [if_pos hk]
            simp only [List.mem_singleton, hk.1.symm, hk.2.symm, and_true]
            constructor
            · rintro rfl
              exact ⟨rfl, fun h => hn h⟩
            · rintro ⟨h, _⟩; exact h.symm
          · rw [if_neg hk]
            simp only [List.not_mem_nil, false_iff]
            rintro ⟨_, _, h3, h4⟩
            exact hk ⟨h3.symm, h4.symm⟩
      exact or_congr this Iff.rfl
    · rw [if_neg hv]
      simp only [List.not_mem_nil, false_iff, not_and]
      intro h1 h2
      simp [h1, h2] at hv

theorem evs_iff {C : String → Value → Prop} {p : List String} {r : RNode} :
    evs C p r ↔ r.info.valid = true ∧ r.info.discard = false ∧
      ((r.info.annotation ≠ .null ∧ r.info.inst.path = p ∧ ∃ k, r.info.key = some k ∧
          C k r.info.annotation) ∨ ∃ e ∈ r.children, evs C p e.2) := by
  constructor
  · rintro ⟨k, a, h, h4⟩
    obtain ⟨h1, h2, h3 | ⟨e, he, h3⟩⟩ := mem_annotations.1 h
    · obtain ⟨rfl, ha, hk, hp⟩ := h3
      exact ⟨h1, h2, .inl ⟨ha, hp, k, hk, h4⟩⟩
    · exact ⟨h1, h2, .inr ⟨e, he, k, a, h3, h4⟩⟩
  · rintro ⟨h1, h2, ⟨ha, hp, k, hk, h4⟩ | ⟨e, he, k, a, h3, h4⟩⟩
    · exact ⟨k, _, mem_annotations.2 ⟨h1, h2, .inl ⟨rfl, ha, hk, hp⟩⟩, h4⟩
    · exact ⟨k, a, mem_annotations.2 ⟨h1, h2, .inr ⟨e, he, h3⟩⟩, h4⟩

theorem not_evs {C : String → Value → Prop} {p : List String} {r : RNode}
    (h : Good (fun j => j.path ≠ p) r) : ¬ evs C p r := by
  induction h with
  | mk h1 _ _ ih =>
    rw [evs_iff]
    rintro ⟨_, _, ⟨_, hp, _⟩ | ⟨e, he, h⟩⟩
    · exact h1 hp
    · exact ih e he h

/-- The annotation covers the member or item, in the eyes of `unevaluatedProperties` and
`unevaluatedItems`. -/
def Cover (d : Dialect) : Pt → String → Value → Prop
  | .name n, k, a => k ∈ ["properties", "patternProperties", "additionalProperties",
      "unevaluatedProperties"] ∧ n ∈ namesOf a
  | .item idx, k, a => match d with
    | .d2020 => (k ∈ ["prefixItems", "items", "unevaluatedItems"] ∧ isTrue a = true) ∨
        (k = "prefixItems" ∧ ∃ z, intOf a = some z ∧ (idx : Int) ≤ z) ∨
        (k = "contains" ∧ idx ∈ indicesOf a)
    | .d2019 => (k ∈ ["items", "additionalItems", "unevaluatedItems"] ∧ isTrue a = true) ∨
        (k = "items" ∧ ∃ z, intOf a = some z ∧ (idx : Int) ≤ z)

theorem le_maxInt {l : List Value} : ∀ {m x : Int}, x ≤ maxInt m l ↔ x ≤ m ∨
    ∃ a ∈ l, ∃ z, intOf a = some z ∧ x ≤ z := by
  induction l with
  | nil => intro m x; simp [maxInt]
  | cons a l ih =>
    intro m x
    simp only [maxInt]
    cases hz : intOf a with
    | none =>
      simp only [ih, List.mem_cons, exists_eq_or_imp, hz, reduceCtorEq, false_and, exists_false,
        false_or]
    | some z =>
      simp only [ih, List.mem_cons, exists_eq_or_imp, hz, Option.some.injEq]
      constructor
      · rintro (h | h)
        · split at h
          · exact .inr (.inl ⟨z, rfl, h⟩)
          · exact .inl h
        · exact .inr (.inr h)
      · rintro (h | ⟨_, rfl, h⟩ | h)
        · left; split <;> omega
        · left; split <;> omega
        · exact .inr h

theorem namesOf_strs (l : List String) : namesOf (strs l) = l := by
  simp only [namesOf, strs, List.filterMap_map]
  induction l with
  | nil => rfl
  | cons a l ih => simp only [List.filterMap_cons, Function.comp]; rw [← ih]; simp [Function.comp_def]

theorem indicesOf_nats (l : List Nat) : indicesOf (nats l) = l := by
  simp only [indicesOf, nats, List.filterMap_map]
  induction l with
  | nil => rfl
  | cons a l ih => simp only [List.filterMap_cons, Function.comp]; rw [← ih]; simp [Function.comp_def]

theorem isTrue_iff {a : Value} : isTrue a = true ↔ a = .bool true := by
  unfold isTrue
  split <;> simp_all

theorem annLen_nats (l : List Nat) : annLen (nats l) = l.length := by simp [annLen, nats]

/-! ## Children -/

/-- All subtrees are about instances satisfying `Q`. -/
def Kids (Q : Inst → Prop) (r : RNode) : Prop := ∀ e ∈ r.children, Good Q e.2

theorem Kids.upd {Q : Inst → Prop} {r r' : RNode} (h : Kids Q r) (hu : Upd r r') : Kids Q r' := by
  intro e he; rw [hu.children] at he; exact h e he

theorem Kids.setChild {Q : Inst → Prop} {r c : RNode} {k : String × List String} (h : Kids Q r)
    (hc : Good Q c) : Kids Q (r.setChild k c) := by
  intro e he
  rcases mem_cset he with rfl | he
  · exact hc
  · exact h e he

theorem Kids.delChild {Q : Inst → Prop} {r : RNode} {k : String × List String} (h : Kids Q r) :
    Kids Q (r.delChild k) := fun e he => h e (mem_cerase he)

theorem Kids.fresh {Q : Inst → Prop} {r : RNode} {i : Inst} {k : String} {s : SRef} :
    Kids Q (r.fresh i k s) := fun e he => by cases he

def RecKids (Q : Inst → Prop) (rec : Rec) : Prop :=
  ∀ sc s i r r', Q i → Kids Q r → rec sc s i r = some r' → Kids Q r'

theorem kwLoop_kids {Q : Inst → Prop} {st : Store} {env : Env} {rec : Rec} {sc : List SRef} {s : SRef}
    {i : Inst} (hQ : Closed Q) (hrec : RecGood Q rec) (hi : Q i) :
    ∀ {kws : List Kw} {r r' : RNode}, Kids Q r → kwLoop st env rec sc s i kws r = some r' → Kids Q r'
  | [], r, r', hr, h => by
    simp only [kwLoop, Option.some.injEq] at h
    rw [← h]; exact hr
  | kw :: kws, r, r', hr, h => by
    simp only [kwLoop] at h
    split at h
    · simp only [withSub] at h
      cases he : evalKw st env rec (s :: sc) kw i
          (r.setChild (kw.key, i.path) (r.fresh i kw.key s)) (r.fresh i kw.key s) with
      | none => simp only [he] at h; contradiction
      | some p =>
        obtain ⟨p', c'⟩ := p
        simp only [he] at h
        have h0 : Kids Q (r.setChild (kw.key, i.path) (r.fresh i kw.key s)) :=
          hr.setChild (Good.fresh hi)
        obtain ⟨hg, _⟩ := evalKw_good hQ hrec hi (Good.fresh hi) he
        have hp : Kids Q p' := by
          rcases evalKw_parent he with rfl | ⟨con, _, hs, rfl⟩
          · exact h0
          · exact h0.setChild ((h0 _ (mem_of_clookup hs)).upd (Upd.pass_ _))
        refine kwLoop_kids hQ hrec hi ?_ h
        split
        · exact (hp.setChild hg).delChild
        · exact hp.setChild hg
    · exact kwLoop_kids hQ hrec hi hr h

theorem evalSchema_kids {Q : Inst → Prop} (hQ : Closed Q) {st : Store} {env : Env} (n : Nat) :
    RecKids Q (evalSchema st env n) := by
  cases n with
  | zero => intro sc s i r r' _ _ h; simp [evalSchema] at h
  | succ n =>
    intro sc s i r r' hi hr h
    simp only [evalSchema, evalBody] at h
    split at h
    · rw [← Option.some.inj h]; exact hr
    · rw [← Option.some.inj h]; exact hr.upd (Upd.fail _ _)
    · split at h
      · contradiction
      · rename_i r1 hk
        have h1 := kwLoop_kids hQ (evalSchema_good hQ n) hi hr hk
        rw [← Option.some.inj h]
        exact h1.upd (Upd.ite (Upd.fail _ _) (Upd.refl _))

/-! ## Agreement with a meaning -/

/-- The chain `a` repeats entries of `b`. -/
inductive Stut : List SRef → List SRef → Prop
  | nil : Stut [] []
  | cons {x a b} : Stut a b → Stut (x :: a) (x :: b)
  | dup {x a b} : Stut (x :: a) (x :: b) → Stut (x :: x :: a) (x :: b)

theorem Stut.refl : ∀ l, Stut l l
  | [] => .nil
  | _ :: l => .cons (Stut.refl l)

/-- A result to which nothing has been done, except perhaps adding children. -/
structure Clean (r : RNode) : Prop where
  valid : r.info.valid = true
  discard : r.info.discard = false
  asrt : r.info.asrt = true
  ann : r.info.annotation = .null

theorem Clean.fresh {r : RNode} {i : Inst} {k : String} {s : SRef} : Clean (r.fresh i k s) :=
  ⟨rfl, rfl, rfl, rfl⟩

/-- No child is about an instance at path `p`. -/
def AwayFrom (p : List String) (r : RNode) : Prop :=
  ∀ e ∈ r.children, e.1.2 ≠ p ∧ Good (fun j => j.path ≠ p) e.2

theorem AwayFrom.fresh {p : List String} {r : RNode} {i : Inst} {k : String} {s : SRef} :
    AwayFrom p (r.fresh i k s) := fun e he => by cases he

/-- An evaluator agrees with a meaning. -/
structure RecOk (d : Dialect) (rec : Rec) (M : Meaning) : Prop where
  good : ∀ Q, Closed Q → RecGood Q rec
  kids : ∀ Q, Closed Q → RecKids Q rec
  frame : ∀ sc s i r r', rec sc s i r = some r' → Frame r r'
  sim : ∀ sc sc' s i r r', Stut (s :: sc) (s :: sc') → i.value.WF → Clean r → AwayFrom i.path r →
    rec sc s i r = some r' →
      (r'.info.valid = true ↔ M.valid sc' s i.value) ∧
      ∃ new, r'.children = r.children ++ new ∧
        (∀ e ∈ new, e.1.2 = i.path ∧ Good (fun j => i.path <+: j.path) e.2) ∧
        ∀ pt, pt.In i.value →
          ((∃ e ∈ new, evs (Cover d pt) i.path e.2) ↔ M.ev sc' s i.value pt)

open Classical in
/-- The verdict as a boolean. -/
noncomputable def vb (M : Meaning) (sc : List SRef) (t : SRef) (v : Value) : Bool := decide (M.valid sc t v)

theorem vb_iff {M : Meaning} {sc : List SRef} {t : SRef} {v : Value} :
    vb M sc t v = true ↔ M.valid sc t v := by simp [vb]

theorem vb_eq_false {M : Meaning} {sc : List SRef} {t : SRef} {v : Value} :
    vb M sc t v = false ↔ ¬ M.valid sc t v := by simp [vb]

theorem Frame.clean {r r' : RNode} (h : Frame r r') (hc : Clean r) :
    r'.info.discard = false ∧ r'.info.asrt = true ∧ r'.info.annotation = .null := by
  rw [h.eq]; exact ⟨hc.discard, hc.asrt, hc.ann⟩

theorem passed_of_asrt {r : RNode} (h : r.info.asrt = true) : r.passed = r.info.valid := by
  simp [RNode.passed, h]

section
variable {d : Dialect} {rec : Rec} {M : Meaning}

/-- One evaluation in place. -/
theorem rec_spec (hok : RecOk d rec M) {sc sc' : List SRef} {t : SRef} {i : Inst} {r r' : RNode}
    (hst : Stut sc sc') (hw : i.value.WF) (hc : Clean r) (ha : AwayFrom i.path r)
    (h : rec sc t i r = some r') :
    r'.info.valid = vb M sc' t i.value ∧ r'.info.discard = false ∧ r'.info.asrt = true ∧
      r'.info.annotation = .null ∧ Imm r r' := by
  obtain ⟨h1, _⟩ := hok.sim _ _ _ _ _ _ (.cons hst) hw hc ha h
  have hf := hok.frame _ _ _ _ _ h
  obtain ⟨h2, h3, h4⟩ := hf.clean hc
  refine ⟨?_, h2, h3, h4, hf.imm⟩
  rw [Bool.eq_iff_iff, h1, vb_iff]

/-- What an evaluation in place evaluates, given a fresh result. -/
theorem rec_ev (hok : RecOk d rec M) {sc sc' : List SRef} {t : SRef} {i : Inst} {r r' : RNode}
    (hst : Stut sc sc') (hw : i.value.WF) (hc : Clean r) (hr : r.children = [])
    (h : rec sc t i r = some r') (pt : Pt) (hp : pt.In i.value) :
    (∃ e ∈ r'.children, evs (Cover d pt) i.path e.2) ↔ M.ev sc' t i.value pt := by
  obtain ⟨_, new, h2, _, h4⟩ := hok.sim _ _ _ _ _ _ (.cons hst) hw hc
    (by intro e he; rw [hr] at he; cases he) h
  rw [hr, List.nil_append] at h2
  rw [h2]; exact h4 pt hp

theorem sub_ev (hok : RecOk d rec M) {sc sc' : List SRef} {t : SRef} {i : Inst} {r r' : RNode}
    (hst : Stut sc sc') (hw : i.value.WF) (hc : Clean r) (hr : r.children = [])
    (h : rec sc t i r = some r') (pt : Pt) (hp : pt.In i.value) :
    evs (Cover d pt) i.path r' ↔ M.valid sc' t i.value ∧ M.ev sc' t i.value pt := by
  obtain ⟨h1, h2, h3, h4, h5⟩ := rec_spec hok hst hw hc
    (by intro e he; rw [hr] at he; cases he) h
  rw [evs_iff, rec_ev hok hst hw hc hr h pt hp, h1, vb_iff, h2, h4]
  simp

/-! ## Subresults -/

theorem subLoop_flags (hok : RecOk d rec M) {sc sc' : List SRef} {s : SRef} (hst : Stut (s :: sc) sc') :
    ∀ {jobs : List (String × SRef × Inst)} {c c' : RNode} {flags}, c.info.schema = s →
      (∀ j ∈ jobs, j.2.2.value.WF) → subLoop rec sc jobs c = some (c', flags) →
      flags = jobs.map (fun j => vb M sc' j.2.1 j.2.2.value) ∧ c'.info = c.info
  | [], c, c', flags, _, _, h => by
    simp only [subLoop, Option.some.injEq, Prod.mk.injEq] at h
    rw [← h.1, ← h.2]; exact ⟨rfl, rfl⟩
  | (key, t, i) :: jobs, c, c', flags, hs, hj, h => by
    simp only [subLoop] at h
    cases hr : rec (c.schema :: sc) t i (c.fresh i key c.schema) with
    | none => simp [hr] at h
    | some sub =>
      simp only [hr] at h
      have hsch : c.schema = s := hs
      rw [hsch] at hr
      obtain ⟨h1, h2, h3, _, _⟩ := rec_spec hok hst (hj _ List.mem_cons_self) Clean.fresh
        AwayFrom.fresh hr
      generalize hd : (if sub.info.discard then
          ((c.setChild (key, i.path) (c.fresh i key c.schema)).setChild (key, i.path) sub).delChild
            (key, i.path)
        else (c.setChild (key, i.path) (c.fresh i key c.schema)).setChild (key, i.path) sub) = c2 at h
      have hi2 : c2.info = c.info := by rw [← hd]; split <;> rfl
      cases hl : subLoop rec sc jobs c2 with
      | none => simp [hl] at h
      | some p =>
        obtain ⟨c3, fl⟩ := p
        simp only [hl, Option.some.injEq, Prod.mk.injEq] at h
        obtain ⟨h5, h6⟩ := subLoop_flags hok hst (by rw [hi2]; exact hs)
          (fun j hj' => hj j (List.mem_cons_of_mem _ hj')) hl
        rw [← h.1, ← h.2, h5, passed_of_asrt h3, h1]
        exact ⟨rfl, h6.trans hi2⟩

theorem subLoop_kids {Q : Inst → Prop} (hQ : Closed Q) (hg : RecGood Q rec) {sc : List SRef} :
    ∀ {jobs : List (String × SRef × Inst)} {c c' : RNode} {flags}, (∀ j ∈ jobs, Q j.2.2) → Kids Q c →
      subLoop rec sc jobs c = some (c', flags) → Kids Q c'
  | [], c, c', flags, _, hc, h => by
    simp only [subLoop, Option.some.injEq, Prod.mk.injEq] at h
    rw [← h.1]; exact hc
  | (key, t, i) :: jobs, c, c', flags, hj, hc, h => by
    simp only [subLoop] at h
    cases hr : rec (c.schema :: sc) t i (c.fresh i key c.schema) with
    | none => simp [hr] at h
    | some sub =>
      simp only [hr] at h
      have hi := hj _ List.mem_cons_self
      have hsub := (hg _ _ _ _ _ hi (Good.fresh hi) hr).1
      have h1 : Kids Q ((c.setChild (key, i.path) (c.fresh i key c.schema)).setChild (key, i.path) sub) :=
        (hc.setChild (Good.fresh hi)).setChild hsub
      generalize hd : (if sub.info.discard then
          ((c.setChild (key, i.path) (c.fresh i key c.schema)).setChild (key, i.path) sub).delChild
            (key, i.path)
        else (c.setChild (key, i.path) (c.fresh i key c.schema)).setChild (key, i.path) sub) = c2 at h
      have h2 : Kids Q c2 := by
        rw [← hd]; split
        · exact h1.delChild
        · exact h1
      cases hl : subLoop rec sc jobs c2 with
      | none => simp [hl] at h
      | some p =>
        obtain ⟨c3, fl⟩ := p
        simp only [hl, Option.some.injEq, Prod.mk.injEq] at h
        rw [← h.1]
        exact subLoop_kids hQ hg (fun j hj' => hj j (List.mem_cons_of_mem _ hj')) h2 hl

theorem subLoop_ev (hok : RecOk d rec M) {sc sc' : List SRef} {s : SRef} (hst : Stut (s :: sc) sc')
    {i : Inst} (hw : i.value.WF) {pt : Pt} (hp : pt.In i.value) :
    ∀ {jobs : List (String × SRef × Inst)} {c c' : RNode} {flags}, c.info.schema = s →
      (∀ j ∈ jobs, j.2.2 = i) → (jobs.map Prod.fst).Nodup →
      (∀ j ∈ jobs, ∀ e ∈ c.children, e.1 ≠ (j.1, i.path)) →
      subLoop rec sc jobs c = some (c', flags) →
      ((∃ e ∈ c'.children, evs (Cover d pt) i.path e.2) ↔
        (∃ e ∈ c.children, evs (Cover d pt) i.path e.2) ∨
        ∃ j ∈ jobs, M.valid sc' j.2.1 i.value ∧ M.ev sc' j.2.1 i.value pt)
  | [], c, c', flags, _, _, _, _, h => by
    simp only [subLoop, Option.some.injEq, Prod.mk.injEq] at h
    rw [← h.1]; simp
  | (key, t, i') :: jobs, c, c', flags, hs, hj, hn, hc, h => by
    have hi : i' = i := hj _ List.mem_cons_self
    subst hi
    simp only [subLoop] at h
    cases hr : rec (c.schema :: sc) t i' (c.fresh i' key c.schema) with
    | none => simp [hr] at h
    | some sub =>
      simp only [hr] at h
      have hsch : c.schema = s := hs
      rw [hsch] at hr
      obtain ⟨_, h2, _, _, _⟩ := rec_spec hok hst hw Clean.fresh AwayFrom.fresh hr
      have hev := sub_ev hok hst hw Clean.fresh rfl hr pt hp
      simp only [h2, Bool.false_eq_true, if_false] at h
      generalize hd : (c.setChild (key, i'.path) (c.fresh i' key c.schema)).setChild (key, i'.path) sub
        = c2 at h
      have hch : c2.children = c.children ++ [((key, i'.path), sub)] := by
        rw [← hd]
        simp only [setChild_children]
        rw [cset_new (hc _ List.mem_cons_self), cset_last (hc _ List.mem_cons_self)]
      have hi2 : c2.info = c.info := by rw [← hd]; rfl
      cases hl : subLoop rec sc jobs c2 with
      | none => simp [hl] at h
      | some p =>
        obtain ⟨c3, fl⟩ := p
        simp only [hl, Option.some.injEq, Prod.mk.injEq] at h
        rw [List.map_cons, List.nodup_cons] at hn
        have ih := subLoop_ev hok hst hw hp (by rw [hi2]; exact hs)
          (fun j hj' => hj j (List.mem_cons_of_mem _ hj')) hn.2
          (by
            intro j hj' e he
            rw [hch] at he
            rcases List.mem_append.1 he with he | he
            · exact hc j (List.mem_cons_of_mem _ hj') e he
            · rw [List.mem_singleton] at he
              subst he
              intro heq
              simp only [Prod.mk.injEq, and_true] at heq
              exact hn.1 (by show key ∈ _; rw [heq]; exact List.mem_map_of_mem hj')) hl
        rw [← h.1, ih, hch]
        simp only [List.mem_append, List.mem_cons, List.not_mem_nil, or_false]
        constructor
        · rintro (⟨e, he | rfl, h⟩ | ⟨j, hj, h⟩)
          · exact .inl ⟨e, he, h⟩
          · exact .inr ⟨_, .inl rfl, hev.1 h⟩
          · exact .inr ⟨j, .inr hj, h⟩
        · rintro (⟨e, he, h⟩ | ⟨j, rfl | hj, h⟩)
          · exact .inl ⟨e, .inl he, h⟩
          · exact .inl ⟨_, .inr rfl, hev.2 h⟩
          · exact .inr ⟨j, hj, h⟩

/-! ## Shared results -/

theorem AwayFrom.append {p q : List String} {r r' : RNode} {new} (h : AwayFrom p r)
    (hr : r'.children = r.children ++ new)
    (hn : ∀ e ∈ new, e.1.2 = q ∧ Good (fun j => q <+: j.path) e.2) (hq : ¬ q <+: p) : AwayFrom p r' := by
  intro e he
  rw [hr] at he
  rcases List.mem_append.1 he with he | he
  · exact h e he
  · obtain ⟨h1, h2⟩ := hn e he
    refine ⟨?_, h2.mono ?_⟩
    · rintro h3
      exact hq (by rw [← h1, h3]; exact List.prefix_rfl)
    · intro j hj hp
      exact hq (hp ▸ hj)

theorem sharedLoop_spec (hok : RecOk d rec M) {sc sc' : List SRef} {t : SRef} (hst : Stut sc sc') :
    ∀ {is : List Inst} {c c' : RNode} {flags}, Clean c → (∀ j ∈ is, j.value.WF) →
      (∀ j ∈ is, AwayFrom j.path c) → is.Pairwise (fun a b => ¬ a.path <+: b.path) →
      sharedLoop rec sc t is c = some (c', flags) →
      flags = is.map (fun j => vb M sc' t j.value) ∧ Clean c' ∧ Imm c c'
  | [], c, c', flags, hc, _, _, _, h => by
    simp only [sharedLoop, Option.some.injEq, Prod.mk.injEq] at h
    rw [← h.1, ← h.2]; exact ⟨rfl, hc, Imm.refl _⟩
  | i :: is, c, c', flags, hc, hw, ha, hp, h => by
    simp only [sharedLoop] at h
    cases hr : rec sc t i c with
    | none => simp [hr] at h
    | some c1 =>
      simp only [hr] at h
      rw [List.pairwise_cons] at hp
      obtain ⟨h1, h2, h3, h4, h5⟩ := rec_spec hok hst (hw _ List.mem_cons_self) hc
        (ha _ List.mem_cons_self) hr
      obtain ⟨_, new, hch, hnew, _⟩ := hok.sim _ _ _ _ _ _ (.cons hst) (hw _ List.mem_cons_self) hc
        (ha _ List.mem_cons_self) hr
      have hu : Upd c1 (if c1.passed then c1 else c1.pass_) := Upd.ite (Upd.refl _) (Upd.pass_ _)
      have hcl : Clean (if c1.passed then c1 else c1.pass_) := by
        split
        · rename_i hpass
          rw [passed_of_asrt h3] at hpass
          exact ⟨hpass, h2, h3, h4⟩
        · exact ⟨rfl, h2, h3, h4⟩
      cases hs : sharedLoop rec sc t is (if c1.passed then c1 else c1.pass_) with
      | none => simp [hs] at h
      | some p =>
        obtain ⟨c3, fl⟩ := p
        simp only [hs, Option.some.injEq, Prod.mk.injEq] at h
        obtain ⟨h6, h7, h8⟩ := sharedLoop_spec hok hst hcl
          (fun j hj => hw j (List.mem_cons_of_mem _ hj))
          (fun j hj => (ha j (List.mem_cons_of_mem _ hj)).append (hu.children.trans hch) hnew (hp.1 j hj))
          hp.2 hs
        rw [← h.1, ← h.2, h6, passed_of_asrt h3, h1]
        exact ⟨rfl, h7, (h5.trans hu.imm).trans h8⟩

theorem sharedLoop_kids {Q : Inst → Prop} (hk : RecKids Q rec) {sc : List SRef} {t : SRef} :
    ∀ {is : List Inst} {c c' : RNode} {flags}, (∀ j ∈ is, Q j) → Kids Q c →
      sharedLoop rec sc t is c = some (c', flags) → Kids Q c'
  | [], c, c', flags, _, hc, h => by
    simp only [sharedLoop, Option.some.injEq, Prod.mk.injEq] at h
    rw [← h.1]; exact hc
  | i :: is, c, c', flags, hj, hc, h => by
    simp only [sharedLoop] at h
    cases hr : rec sc t i c with
    | none => simp [hr] at h
    | some c1 =>
      simp only [hr] at h
      have h1 := hk _ _ _ _ _ (hj _ List.mem_cons_self) hc hr
      cases hs : sharedLoop rec sc t is (if c1.passed then c1 else c1.pass_) with
      | none => simp [hs] at h
      | some p =>
        obtain ⟨c3, fl⟩ := p
        simp only [hs, Option.some.injEq, Prod.mk.injEq] at h
        rw [← h.1]
        exact sharedLoop_kids hk (fun j hj' => hj j (List.mem_cons_of_mem _ hj'))
          (h1.upd (Upd.ite (Upd.refl _) (Upd.pass_ _))) hs

/-! ## `items` of 2019-09 -/

theorem plainLoop_kids {Q : Inst → Prop} (hk : RecKids Q rec) {sc : List SRef} {t : SRef} :
    ∀ {is : List Inst} {c c' : RNode}, (∀ j ∈ is, Q j) → Kids Q c →
      plainLoop rec sc t is c = some c' → Kids Q c'
  | [], c, c', _, hc, h => by
    simp only [plainLoop, Option.some.injEq] at h
    rw [← h]; exact hc
  | i :: is, c, c', hj, hc, h => by
    simp only [plainLoop] at h
    cases hr : rec sc t i c with
    | none => simp [hr] at h
    | some c1 =>
      simp only [hr] at h
      exact plainLoop_kids hk (fun j hj' => hj j (List.mem_cons_of_mem _ hj'))
        (hk _ _ _ _ _ (hj _ List.mem_cons_self) hc hr) h

/-- Once invalid, always invalid. -/
theorem plainLoop_invalid (hok : RecOk d rec M) {sc : List SRef} {t : SRef} :
    ∀ {is : List Inst} {c c' : RNode}, c.info.valid = false → c.info.discard = false →
      c.info.asrt = true → c.info.annotation = .null → plainLoop rec sc t is c = some c' →
      c'.info.valid = false ∧ c'.info.discard = false ∧ c'.info.asrt = true ∧
      c'.info.annotation = .null ∧ Imm c c'
  | [], c, c', h1, h2, h3, h4, h => by
    simp only [plainLoop, Option.some.injEq] at h
    rw [← h]; exact ⟨h1, h2, h3, h4, Imm.refl _⟩
  | i :: is, c, c', h1, h2, h3, h4, h => by
    simp only [plainLoop] at h
    cases hr : rec sc t i c with
    | none => simp [hr] at h
    | some c1 =>
      simp only [hr] at h
      have hf := hok.frame _ _ _ _ _ hr
      have hv : c1.info.valid = false := by
        rcases hf.valid with ⟨h, _⟩ | h
        · rw [h, h1]
        · exact h
      obtain ⟨a, b, c, e, f⟩ := plainLoop_invalid hok hv (by rw [hf.eq]; exact h2) (by rw [hf.eq]; exact h3)
        (by rw [hf.eq]; exact h4) h
      exact ⟨a, b, c, e, hf.imm.trans f⟩

theorem plainLoop_spec (hok : RecOk d rec M) {sc sc' : List SRef} {t : SRef} (hst : Stut sc sc') :
    ∀ {is : List Inst} {c c' : RNode}, Clean c → (∀ j ∈ is, j.value.WF) →
      (∀ j ∈ is, AwayFrom j.path c) → is.Pairwise (fun a b => ¬ a.path <+: b.path) →
      plainLoop rec sc t is c = some c' →
      (c'.info.valid = true ↔ ∀ j ∈ is, M.valid sc' t j.value) ∧ c'.info.discard = false ∧
      c'.info.asrt = true ∧ c'.info.annotation = .null ∧ Imm c c'
  | [], c, c', hc, _, _, _, h => by
    simp only [plainLoop, Option.some.injEq] at h
    rw [← h]; exact ⟨by simp [hc.valid], hc.discard, hc.asrt, hc.ann, Imm.refl _⟩
  | i :: is, c, c', hc, hw, ha, hp, h => by
    simp only [plainLoop] at h
    cases hr : rec sc t i c with
    | none => simp [hr] at h
    | some c1 =>
      simp only [hr] at h
      rw [List.pairwise_cons] at hp
      obtain ⟨h1, h2, h3, h4, h5⟩ := rec_spec hok hst (hw _ List.mem_cons_self) hc
        (ha _ List.mem_cons_self) hr
      obtain ⟨_, new, hch, hnew, _⟩ := hok.sim _ _ _ _ _ _ (.cons hst) (hw _ List.mem_cons_self) hc
        (ha _ List.mem_cons_self) hr
      cases hv : vb M sc' t i.value with
      | false =>
        obtain ⟨a, b, c, e, f⟩ := plainLoop_invalid hok (h1.trans hv) h2 h3 h4 h
        refine ⟨?_, b, c, e, h5.trans f⟩
        rw [a]
        simp only [Bool.false_eq_true, false_iff]
        intro hall
        exact vb_eq_false.1 hv (hall _ List.mem_cons_self)
      | true =>
        obtain ⟨a, b, c, e, f⟩ := plainLoop_spec hok hst (c := c1) ⟨h1.trans hv, h2, h3, h4⟩
          (fun j hj => hw j (List.mem_cons_of_mem _ hj))
          (fun j hj => (ha j (List.mem_cons_of_mem _ hj)).append hch hnew (hp.1 j hj)) hp.2 h
        refine ⟨?_, b, c, e, h5.trans f⟩
        rw [a]
        simp only [List.mem_cons, forall_eq_or_imp]
        exact ⟨fun h => ⟨vb_iff.1 hv, h⟩, fun h => h.2⟩

end

end Jschon
