import Verif.Proof.EvalItems

/-!
# What each keyword computes
-/

namespace Jschon

open Spec

/-- The rules that jschon follows. -/
def codeRules (st : Store) (env : Env) (d : Dialect) : Rules where
  dialect := d
  mult := codeMult env
  dyn sc t frag := dynLoop st frag sc [] t
  recr sc t := if isRecursiveAnchor st t then recLoop st sc t else t

/-- A fresh result for a keyword. -/
structure FreshFor (c : RNode) (i : Inst) (key : String) (s : SRef) : Prop where
  clean : Clean c
  kids : c.children = []
  key : c.info.key = some key
  schema : c.info.schema = s
  inst : c.info.inst = i

theorem freshFor_fresh (r : RNode) (i : Inst) (key : String) (s : SRef) :
    FreshFor (r.fresh i key s) i key s := ⟨Clean.fresh, rfl, rfl, rfl, rfl⟩

theorem FreshFor.kidsQ {c : RNode} {i : Inst} {key : String} {s : SRef} (h : FreshFor c i key s)
    (Q : Inst → Prop) : Kids Q c := by
  intro e he; rw [h.kids] at he; cases he

theorem FreshFor.away {c : RNode} {i : Inst} {key : String} {s : SRef} (h : FreshFor c i key s)
    (p : List String) : AwayFrom p c := by
  intro e he; rw [h.kids] at he; cases he

/-- A result whose children are all about instances strictly below has just its own annotation. -/
theorem evs_desc {C : String → Value → Prop} {i : Inst} {key : String} {c' : RNode}
    (hk : Kids (SBelow i.path) c') (hkey : c'.info.key = some key) (hi : c'.info.inst = i) :
    evs C i.path c' ↔ c'.info.valid = true ∧ c'.info.discard = false ∧ c'.info.annotation ≠ .null ∧
      C key c'.info.annotation := by
  rw [evs_iff]
  constructor
  · rintro ⟨h1, h2, ⟨h3, _, k, h4, h5⟩ | ⟨e, he, h⟩⟩
    · rw [hkey] at h4; cases h4; exact ⟨h1, h2, h3, h5⟩
    · exact absurd h (not_evs ((hk e he).mono (fun j hj => sbelow_ne hj)))
  · rintro ⟨h1, h2, h3, h4⟩
    exact ⟨h1, h2, .inl ⟨h3, by rw [hi], key, hkey, h4⟩⟩

theorem cover_key {d : Dialect} {pt : Pt} {k : String} {a : Value} (h : Cover d pt k a) :
    k ∈ reserved d := by
  cases pt with
  | name n =>
    obtain ⟨h, _⟩ := h
    simp only [List.mem_cons, List.not_mem_nil, or_false] at h
    cases d <;> rcases h with rfl | rfl | rfl | rfl <;> decide
  | item k =>
    cases d with
    | d2020 =>
      simp only [Cover, List.mem_cons, List.not_mem_nil, or_false] at h
      rcases h with ⟨rfl | rfl | rfl, _⟩ | ⟨rfl, _⟩ | ⟨rfl, _⟩ <;> decide
    | d2019 =>
      simp only [Cover, List.mem_cons, List.not_mem_nil, or_false] at h
      rcases h with ⟨rfl | rfl | rfl, _⟩ | ⟨rfl, _⟩ <;> decide

/-- The outcome of a keyword: whether it passes, and which members and items it evaluates.  A
discarded result neither fails nor evaluates anything. -/
inductive Outcome (d : Dialect) (i : Inst) (c' : RNode) (pass : Prop) (E : Pt → Prop) : Prop
  | discarded : c'.info.discard = true → pass → (∀ pt, pt.In i.value → ¬ E pt) → Outcome d i c' pass E
  | kept : c'.info.discard = false → (c'.passed = true ↔ pass) →
      (∀ pt, pt.In i.value → (evs (Cover d pt) i.path c' ↔ E pt)) → Outcome d i c' pass E

/-- The result of a keyword that evaluates nothing. -/
theorem outcome_leaf {d : Dialect} {i : Inst} {c' : RNode} {key : String} {pass : Prop}
    (hk : Kids (SBelow i.path) c') (hkey : c'.info.key = some key) (hi : c'.info.inst = i)
    (hd : c'.info.discard = false) (hp : c'.passed = true ↔ pass)
    (h : c'.info.annotation = .null ∨ key ∉ reserved d) : Outcome d i c' pass (fun _ => False) := by
  refine .kept hd hp (fun pt _ => ?_)
  rw [evs_desc hk hkey hi]
  simp only [iff_false]
  rintro ⟨_, _, h1, h2⟩
  rcases h with h | h
  · exact h1 h
  · exact h (cover_key h2)

theorem Kids.nil {Q : Inst → Prop} {r : RNode} (h : r.children = []) : Kids Q r := by
  intro e he; rw [h] at he; cases he

section
variable {d : Dialect} {st : Store} {env : Env} {rec : Rec} {M : Meaning} (hok : RecOk d rec M)
variable {a b : List SRef} {s : SRef} (hst : Stut (s :: a) (s :: b))
variable {i : Inst} (hw : i.value.WF) {c : RNode} {key : String} (hc : FreshFor c i key s)

/-! ## Shared results -/

/-- What a loop on a shared result leaves. -/
structure Shared (i : Inst) (key : String) (s : SRef) (c1 : RNode) : Prop where
  clean : Clean c1
  kids : Kids (SBelow i.path) c1
  key : c1.info.key = some key
  schema : c1.info.schema = s
  inst : c1.info.inst = i

include hok hst hw hc

theorem shared_items {t : SRef} {l : List (Nat × Inst)} (hl : l.Sublist i.items) {c1 : RNode}
    {flags : List Bool} (h : sharedLoop rec (s :: a) t (insts l) c = some (c1, flags)) :
    flags = l.map (fun p => vb M (s :: b) t p.2.value) ∧ Shared i key s c1 := by
  obtain ⟨h1, h2, h3⟩ := sharedLoop_spec hok hst hc.clean
    (by
      intro j hj
      obtain ⟨p, hp, rfl⟩ := mem_insts hj
      exact items_wf hw (hl.subset hp))
    (fun j _ => hc.away _) (items_pairwise hl) h
  have hk := sharedLoop_kids (hok.kids _ (closed_sbelow i.path))
    (by
      intro j hj
      obtain ⟨p, hp, rfl⟩ := mem_insts hj
      exact sbelow_item (hl.subset hp)) (hc.kidsQ _) h
  refine ⟨?_, h2, hk, h3.key.trans hc.key, h3.schema.trans hc.schema, h3.inst.trans hc.inst⟩
  rw [h1, insts, List.map_map]; rfl

theorem shared_members {t : SRef} {l : List (String × Inst)} (hl : l.Sublist i.members) {c1 : RNode}
    {flags : List Bool} (h : sharedLoop rec (s :: a) t (insts l) c = some (c1, flags)) :
    flags = l.map (fun p => vb M (s :: b) t p.2.value) ∧ Shared i key s c1 := by
  obtain ⟨h1, h2, h3⟩ := sharedLoop_spec hok hst hc.clean
    (by
      intro j hj
      obtain ⟨p, hp, rfl⟩ := mem_insts hj
      exact member_wf hw (hl.subset hp))
    (fun j _ => hc.away _) (members_pairwise hw hl) h
  have hk := sharedLoop_kids (hok.kids _ (closed_sbelow i.path))
    (by
      intro j hj
      obtain ⟨p, hp, rfl⟩ := mem_insts hj
      exact sbelow_member (hl.subset hp)) (hc.kidsQ _) h
  refine ⟨?_, h2, hk, h3.key.trans hc.key, h3.schema.trans hc.schema, h3.inst.trans hc.inst⟩
  rw [h1, insts, List.map_map]; rfl

theorem shared_names {t : SRef} {c1 : RNode} {flags : List Bool}
    (h : sharedLoop rec (s :: a) t (insts i.names) c = some (c1, flags)) :
    flags = i.names.map (fun p => vb M (s :: b) t p.2.value) ∧ Shared i key s c1 := by
  obtain ⟨h1, h2, h3⟩ := sharedLoop_spec hok hst hc.clean
    (by
      intro j hj
      obtain ⟨p, hp, rfl⟩ := mem_insts hj
      rw [(mem_names.1 hp).2]; exact .str)
    (fun j _ => hc.away _) (names_pairwise hw) h
  have hk := sharedLoop_kids (hok.kids _ (closed_sbelow i.path))
    (by
      intro j hj
      obtain ⟨p, hp, rfl⟩ := mem_insts hj
      exact sbelow_name hp) (hc.kidsQ _) h
  refine ⟨?_, h2, hk, h3.key.trans hc.key, h3.schema.trans hc.schema, h3.inst.trans hc.inst⟩
  rw [h1, insts, List.map_map]; rfl

omit hok hst hw hc

theorem finishItems_out {α : Type} {c1 : RNode} (h : Shared i key s c1) {f : α → Nat} {g : α → Bool}
    {l : List α} :
    (finishItems c1 (l.map f) (l.map g)).info.discard = false ∧
    ((finishItems c1 (l.map f) (l.map g)).passed = true ↔ ∀ x ∈ l, g x = true) ∧
    ∀ C, evs C i.path (finishItems c1 (l.map f) (l.map g)) ↔
      (∀ x ∈ l, g x = true) ∧ l ≠ [] ∧ C key (.bool true) := by
  unfold finishItems
  by_cases hall : ∀ x ∈ l, g x = true
  · rw [if_pos (failedOf_map_nil.2 hall)]
    refine ⟨h.clean.discard, ?_, fun C => ?_⟩
    · simp [RNode.passed, RNode.annotate, h.clean.valid]; exact hall
    · rw [evs_desc (c' := c1.annotate (if l.map g = [] then Value.null else Value.bool true))
        (h.kids.upd (Upd.annotate _ _)) h.key h.inst]
      simp only [RNode.annotate, RNode.info_mk, h.clean.valid, h.clean.discard, true_and]
      by_cases hl : l = []
      · simp [hl]
      · simp only [List.map_eq_nil_iff, hl, if_false, ne_eq, reduceCtorEq, not_false_eq_true, true_and]
        exact ⟨fun h => ⟨hall, h⟩, fun h => h.2⟩
  · rw [if_neg (fun h => hall (failedOf_map_nil.1 h))]
    refine ⟨h.clean.discard, ?_, fun C => ?_⟩
    · simp [RNode.passed, RNode.fail, h.clean.asrt, hall]
    · rw [evs_desc (h.kids.upd (Upd.fail _ _)) h.key h.inst]
      simp [RNode.fail, hall]

theorem finishProps_out {α : Type} {c1 : RNode} (h : Shared i key s c1) {f : α → String} {g : α → Bool}
    {l : List α} :
    (finishProps c1 (l.map f) (l.map g)).info.discard = false ∧
    ((finishProps c1 (l.map f) (l.map g)).passed = true ↔ ∀ x ∈ l, g x = true) ∧
    ∀ C, evs C i.path (finishProps c1 (l.map f) (l.map g)) ↔
      (∀ x ∈ l, g x = true) ∧ C key (strs (l.map f)) := by
  unfold finishProps
  by_cases hall : ∀ x ∈ l, g x = true
  · rw [if_pos (failedOf_map_nil.2 hall), passedOf_map_all hall]
    refine ⟨h.clean.discard, ?_, fun C => ?_⟩
    · simp [RNode.passed, RNode.annotate, h.clean.valid]; exact hall
    · rw [evs_desc (c' := c1.annotate (strs (l.map f))) (h.kids.upd (Upd.annotate _ _)) h.key h.inst]
      simp only [RNode.annotate, RNode.info_mk, h.clean.valid, h.clean.discard, true_and, strs, ne_eq,
        reduceCtorEq, not_false_eq_true]
      exact ⟨fun h => ⟨hall, h⟩, fun h => h.2⟩
  · rw [if_neg (fun h => hall (failedOf_map_nil.1 h))]
    refine ⟨h.clean.discard, ?_, fun C => ?_⟩
    · simp [RNode.passed, RNode.fail, h.clean.asrt, hall]
    · rw [evs_desc (h.kids.upd (Upd.fail _ _)) h.key h.inst]
      simp [RNode.fail, hall]

/-- The keyword names of which no annotation or unknown keyword makes use. -/
theorem cover_name_iff {n : String} {k : String} {a : Value} (hk : k ∈ ["properties",
    "patternProperties", "additionalProperties", "unevaluatedProperties"]) :
    Cover d (.name n) k a ↔ n ∈ namesOf a := by
  simp only [Cover]; exact ⟨fun h => h.2, fun h => ⟨hk, h⟩⟩

theorem not_cover_item_name {n : Nat} {k : String} {a : Value} (hk : k ∈ ["properties",
    "patternProperties", "additionalProperties", "unevaluatedProperties"]) :
    ¬ Cover d (.item n) k a := by
  simp only [List.mem_cons, List.not_mem_nil, or_false] at hk
  cases d <;> rcases hk with rfl | rfl | rfl | rfl <;> simp [Cover]

theorem not_cover_name_item {n : String} {k : String} {a : Value} (hk : k ∈ ["prefixItems",
    "items", "additionalItems", "unevaluatedItems", "contains"]) :
    ¬ Cover d (.name n) k a := by
  simp only [List.mem_cons, List.not_mem_nil, or_false] at hk
  rcases hk with rfl | rfl | rfl | rfl | rfl <;> simp [Cover]

theorem pt_name_obj {v : Value} {n : String} (h : (Pt.name n).In v) : ∃ kvs, v = .obj kvs := by
  obtain ⟨x, hx⟩ := h
  cases v with
  | obj kvs => exact ⟨kvs, rfl⟩
  | _ => cases hx

theorem pt_item_arr {v : Value} {n : Nat} (h : (Pt.item n).In v) : ∃ xs, v = .arr xs := by
  cases v with
  | arr xs => exact ⟨xs, rfl⟩
  | _ => exact absurd h (by simp [Pt.In, elems])

/-! ## Assertions, annotations -/

theorem kw_leaf {c' : RNode} {pass : Prop} (hc : FreshFor c i key s) (hu : Upd c c')
    (hd : c'.info.discard = false) (hp : c'.passed = true ↔ pass)
    (h : c'.info.annotation = .null ∨ key ∉ reserved d) : Outcome d i c' pass (fun _ => False) :=
  outcome_leaf (Kids.nil (hu.children.trans hc.kids)) (hu.imm.key.trans hc.key)
    (hu.imm.inst.trans hc.inst) hd hp h

theorem passed_fail_ite {p : Prop} [Decidable p] (hc : Clean c) (e : Value) :
    (if p then c else c.fail e).passed = true ↔ p := by
  by_cases hp : p
  · rw [if_pos hp]; simp [RNode.passed, hc.valid, hp]
  · rw [if_neg hp]; simp [RNode.passed, RNode.fail, hc.asrt, hp]

theorem discard_fail_ite {p : Prop} [Decidable p] (hc : Clean c) (e : Value) :
    (if p then c else c.fail e).info.discard = false := by
  split
  · exact hc.discard
  · exact hc.discard

theorem ann_fail_ite {p : Prop} [Decidable p] (e : Value) :
    (if p then c else c.fail e).info.annotation = c.info.annotation := by
  split <;> rfl

theorem kw_check {p : Prop} [Decidable p] {pass : Prop} (hc : FreshFor c i key s) (e : Value)
    (hp : p ↔ pass) : Outcome d i (if p then c else c.fail e) pass (fun _ => False) :=
  kw_leaf hc (Upd.ite (Upd.refl _) (Upd.fail _ _)) (discard_fail_ite hc.clean e)
    ((passed_fail_ite hc.clean e).trans hp) (.inl (by rw [ann_fail_ite, hc.clean.ann]))

theorem Outcome.congr {c' : RNode} {p p' : Prop} {E E' : Pt → Prop} (h : Outcome d i c' p E)
    (hp : p ↔ p') (hE : ∀ pt, pt.In i.value → (E pt ↔ E' pt)) : Outcome d i c' p' E' := by
  cases h with
  | discarded h1 h2 h3 => exact .discarded h1 (hp.1 h2) (fun pt hpt h => h3 pt hpt ((hE pt hpt).2 h))
  | kept h1 h2 h3 => exact .kept h1 (h2.trans hp) (fun pt hpt => (h3 pt hpt).trans (hE pt hpt))

/-! ## In place, one subresult per subschema -/

theorem kw_in_place {c1 c' : RNode} {P : Prop} {C : Pt → Prop} (hc : FreshFor c i key s) (hi : c1.info = c.info)
    (hu : Upd c1 c') (hd : c'.info.discard = false) (hp : c'.passed = true ↔ P)
    (hv : c'.info.valid = true ↔ P)
    (ha : c'.info.annotation = .null ∨ key ∉ reserved d)
    (hC : ∀ pt, pt.In i.value → ((∃ e ∈ c1.children, evs (Cover d pt) i.path e.2) ↔ C pt)) :
    Outcome d i c' P (fun pt => P ∧ C pt) := by
  refine .kept hd hp (fun pt hpt => ?_)
  rw [evs_iff, hv, hu.children, hC pt hpt]
  constructor
  · rintro ⟨h1, _, ⟨h3, _, k, h4, h5⟩ | h3⟩
    · rcases ha with ha | ha
      · exact absurd ha h3
      · rw [hu.imm.key, hi, hc.key] at h4
        cases h4
        exact absurd (cover_key h5) ha
    · exact ⟨h1, h3⟩
  · rintro ⟨h1, h2⟩
    exact ⟨h1, hd, .inr h2⟩

theorem mem_indexJobs {j : String × SRef × Inst} : ∀ {n : Nat} {ss : List SRef},
    (j ∈ indexJobs i n ss → j.2.1 ∈ ss ∧ j.2.2 = i)
  | _, [], h => by simp [indexJobs] at h
  | n, t :: ts, h => by
    simp only [indexJobs, List.mem_cons] at h
    rcases h with rfl | h
    · exact ⟨List.mem_cons_self, rfl⟩
    · obtain ⟨h1, h2⟩ := mem_indexJobs h
      exact ⟨List.mem_cons_of_mem _ h1, h2⟩

theorem exists_indexJobs {P : SRef → Prop} : ∀ {n : Nat} {ss : List SRef},
    (∃ j ∈ indexJobs i n ss, P j.2.1) ↔ ∃ t ∈ ss, P t
  | _, [] => by simp [indexJobs]
  | n, t :: ts => by
    simp only [indexJobs, List.mem_cons, exists_eq_or_imp, exists_indexJobs]

theorem indexJobs_map : ∀ {n : Nat} {ss : List SRef}, (indexJobs i n ss).map (fun j => j.2.1) = ss
  | _, [] => rfl
  | n, t :: ts => by simp [indexJobs, indexJobs_map]

theorem indexJobs_fst : ∀ {n : Nat} {ss : List SRef} {k : String},
    k ∈ (indexJobs i n ss).map Prod.fst → ∃ m, n ≤ m ∧ k = natStr m
  | _, [], k, h => by simp [indexJobs] at h
  | n, t :: ts, k, h => by
    simp only [indexJobs, List.map_cons, List.mem_cons] at h
    rcases h with rfl | h
    · exact ⟨n, Nat.le_refl _, rfl⟩
    · obtain ⟨m, hm, rfl⟩ := indexJobs_fst h
      exact ⟨m, by omega, rfl⟩

theorem indexJobs_nodup : ∀ {n : Nat} {ss : List SRef}, ((indexJobs i n ss).map Prod.fst).Nodup
  | _, [] => by simp [indexJobs]
  | n, t :: ts => by
    simp only [indexJobs, List.map_cons, List.nodup_cons]
    refine ⟨fun h => ?_, indexJobs_nodup⟩
    obtain ⟨m, hm, he⟩ := indexJobs_fst h
    have := natStr_inj.1 he
    omega

include hok hst hw hc

theorem index_loop {ss : List SRef} {c1 : RNode} {flags : List Bool}
    (h : subLoop rec (s :: a) (indexJobs i 0 ss) c = some (c1, flags)) :
    flags = ss.map (fun t => vb M (s :: b) t i.value) ∧ c1.info = c.info ∧
    ∀ pt, pt.In i.value → ((∃ e ∈ c1.children, evs (Cover d pt) i.path e.2) ↔
      ∃ t ∈ ss, M.valid (s :: b) t i.value ∧ M.ev (s :: b) t i.value pt) := by
  obtain ⟨h1, h2⟩ := subLoop_flags hok hst.dup hc.schema
    (by intro j hj; rw [(mem_indexJobs hj).2]; exact hw) h
  refine ⟨?_, h2, fun pt hpt => ?_⟩
  · rw [h1]
    have : (indexJobs i 0 ss).map (fun j => vb M (s :: b) j.2.1 j.2.2.value) =
        ((indexJobs i 0 ss).map (fun j => j.2.1)).map (fun t => vb M (s :: b) t i.value) := by
      rw [List.map_map]
      apply List.map_congr_left
      intro j hj
      simp only [Function.comp, (mem_indexJobs hj).2]
    rw [this, indexJobs_map]
  · rw [subLoop_ev hok hst.dup hw hpt hc.schema (fun j hj => (mem_indexJobs hj).2) indexJobs_nodup
      (by intro j _ e he; rw [hc.kids] at he; cases he) h, hc.kids]
    simp only [List.not_mem_nil, false_and, exists_false, false_or]
    exact exists_indexJobs (P := fun t => M.valid (s :: b) t i.value ∧ M.ev (s :: b) t i.value pt)

omit hok hst hw

theorem in_place_check {c1 : RNode} {p P : Prop} [Decidable p] {C : Pt → Prop} (e : Value)
    (hi : c1.info = c.info) (hp : p ↔ P)
    (hC : ∀ pt, pt.In i.value → ((∃ e ∈ c1.children, evs (Cover d pt) i.path e.2) ↔ C pt)) :
    Outcome d i (if p then c1 else c1.fail e) P (fun pt => P ∧ C pt) := by
  have hcl : Clean c1 := by
    have := hc.clean
    exact ⟨by rw [hi]; exact this.valid, by rw [hi]; exact this.discard, by rw [hi]; exact this.asrt,
      by rw [hi]; exact this.ann⟩
  have hpass := (passed_fail_ite (p := p) hcl e).trans hp
  refine kw_in_place hc hi (Upd.ite (Upd.refl _) (Upd.fail _ _)) (discard_fail_ite hcl e)
    hpass ?_ (.inl (by rw [ann_fail_ite, hcl.ann])) hC
  rw [← hpass, passed_of_asrt]
  split
  · exact hcl.asrt
  · exact hcl.asrt

include hok hst hw

variable {kws : List Kw} {parent parent' c' : RNode}

theorem kw_allOf {ss : List SRef} (h : evalKw st env rec (s :: a) (.allOf ss) i parent c = some (parent', c')) :
    Outcome d i c' (KwHolds (codeRules st env d) env M (s :: b) kws i.value (.allOf ss))
      (ObsEv (codeRules st env d) env st M (s :: b) kws i.value (.allOf ss)) := by
  simp only [evalKw] at h
  split at h
  · contradiction
  · rename_i c1 flags hs
    simp only [Option.some.injEq, Prod.mk.injEq] at h
    rw [← h.2]
    obtain ⟨h1, h2, h3⟩ := index_loop hok hst hw hc hs
    subst h1
    have hP : (ss.map (fun t => vb M (s :: b) t i.value)).all id = true ↔
        ∀ t ∈ ss, M.valid (s :: b) t i.value := by
      rw [all_map_id]; simp only [vb_iff]
    refine (in_place_check hc _ h2 hP h3).congr Iff.rfl (fun pt _ => ?_)
    simp only [ObsEv]
    constructor
    · rintro ⟨h1, t, ht, _, h2⟩; exact ⟨h1, t, ht, h2⟩
    · rintro ⟨h1, t, ht, h2⟩; exact ⟨h1, t, ht, h1 t ht, h2⟩

theorem kw_anyOf {ss : List SRef} (h : evalKw st env rec (s :: a) (.anyOf ss) i parent c = some (parent', c')) :
    Outcome d i c' (KwHolds (codeRules st env d) env M (s :: b) kws i.value (.anyOf ss))
      (ObsEv (codeRules st env d) env st M (s :: b) kws i.value (.anyOf ss)) := by
  simp only [evalKw] at h
  split at h
  · contradiction
  · rename_i c1 flags hs
    simp only [Option.some.injEq, Prod.mk.injEq] at h
    rw [← h.2]
    obtain ⟨h1, h2, h3⟩ := index_loop hok hst hw hc hs
    subst h1
    have hP : (ss.map (fun t => vb M (s :: b) t i.value)).any id = true ↔
        ∃ t ∈ ss, M.valid (s :: b) t i.value := by
      rw [any_map_id]; simp only [vb_iff]
    refine (in_place_check hc _ h2 hP h3).congr Iff.rfl (fun pt _ => ?_)
    simp only [ObsEv]
    constructor
    · rintro ⟨_, h2⟩; exact h2
    · rintro ⟨t, ht, h1, h2⟩; exact ⟨⟨t, ht, h1⟩, t, ht, h1, h2⟩

omit hok hst hw hc in
theorem filter_id_length_eq_one {l : List Bool} : (l.filter id).length = 1 ↔
    ∃ j : Nat, l[j]? = some true ∧ ∀ k : Nat, l[k]? = some true → k = j := by
  induction l with
  | nil => simp
  | cons x l ih =>
    cases x
    · simp only [List.filter_cons, id, Bool.false_eq_true, if_false, ih]
      constructor
      · rintro ⟨j, h1, h2⟩
        refine ⟨j + 1, by simpa using h1, fun k hk => ?_⟩
        cases k with
        | zero => simp at hk
        | succ k => rw [h2 k (by simpa using hk)]
      · rintro ⟨j, h1, h2⟩
        cases j with
        | zero => simp at h1
        | succ j =>
          refine ⟨j, by simpa using h1, fun k hk => ?_⟩
          have := h2 (k + 1) (by simpa using hk)
          omega
    · simp only [List.filter_cons, id, if_true, List.length_cons]
      constructor
      · intro h
        have h0 : l.filter id = [] := List.length_eq_zero_iff.1 (by omega)
        rw [List.filter_eq_nil_iff] at h0
        refine ⟨0, by simp, fun k hk => ?_⟩
        cases k with
        | zero => rfl
        | succ k =>
          have := h0 true (List.mem_of_getElem? (by simpa using hk))
          simp at this
      · rintro ⟨j, h1, h2⟩
        have hj : j = 0 := (h2 0 (by simp)).symm
        subst hj
        have h0 : l.filter id = [] := by
          rw [List.filter_eq_nil_iff]
          intro x hx hxt
          simp only [id] at hxt
          subst hxt
          obtain ⟨k, hk⟩ := List.mem_iff_getElem?.1 hx
          have := h2 (k + 1) (by simpa using hk)
          omega
        rw [h0]; rfl

theorem kw_oneOf {ss : List SRef} (h : evalKw st env rec (s :: a) (.oneOf ss) i parent c = some (parent', c')) :
    Outcome d i c' (KwHolds (codeRules st env d) env M (s :: b) kws i.value (.oneOf ss))
      (ObsEv (codeRules st env d) env st M (s :: b) kws i.value (.oneOf ss)) := by
  simp only [evalKw] at h
  split at h
  · contradiction
  · rename_i c1 flags hs
    simp only [Option.some.injEq, Prod.mk.injEq] at h
    rw [← h.2]
    obtain ⟨h1, h2, h3⟩ := index_loop hok hst hw hc hs
    subst h1
    have hP : ((ss.map (fun t => vb M (s :: b) t i.value)).filter id).length = 1 ↔
        KwHolds (codeRules st env d) env M (s :: b) kws i.value (.oneOf ss) := by
      rw [filter_id_length_eq_one]
      simp only [KwHolds, List.getElem?_map, Option.map_eq_some_iff, vb_iff]
      constructor
      · rintro ⟨j, ⟨t, h1, h2⟩, h3⟩
        exact ⟨j, t, h1, h2, fun k u hk hu => h3 k ⟨u, hk, hu⟩⟩
      · rintro ⟨j, t, h1, h2, h3⟩
        exact ⟨j, ⟨t, h1, h2⟩, fun k ⟨u, hk, hu⟩ => h3 k u hk hu⟩
    refine (in_place_check hc _ h2 hP h3).congr Iff.rfl (fun pt _ => ?_)
    simp only [ObsEv]

theorem kw_dependentSchemas {ps : List (String × SRef)} (hps : (dkeys ps).Nodup)
    (hkey : key ∉ reserved d)
    (h : evalKw st env rec (s :: a) (.dependentSchemas ps) i parent c = some (parent', c')) :
    Outcome d i c' (KwHolds (codeRules st env d) env M (s :: b) kws i.value (.dependentSchemas ps))
      (ObsEv (codeRules st env d) env st M (s :: b) kws i.value (.dependentSchemas ps)) := by
  simp only [evalKw] at h
  split at h
  · contradiction
  · rename_i c1 flags hs
    simp only [Option.some.injEq, Prod.mk.injEq] at h
    rw [← h.2]
    obtain ⟨h1, h2⟩ := subLoop_flags hok hst.dup hc.schema
      (by intro j hj; obtain ⟨p, _, rfl⟩ := List.mem_map.1 hj; exact hw) hs
    have hcl : Clean c1 := by
      have := hc.clean
      exact ⟨by rw [h2]; exact this.valid, by rw [h2]; exact this.discard, by rw [h2]; exact this.asrt,
        by rw [h2]; exact this.ann⟩
    have h3 : ∀ pt, pt.In i.value → ((∃ e ∈ c1.children, evs (Cover d pt) i.path e.2) ↔
        ∃ p ∈ ps, HasMember i.value p.1 ∧ M.valid (s :: b) p.2 i.value ∧ M.ev (s :: b) p.2 i.value pt) := by
      intro pt hpt
      rw [subLoop_ev hok hst.dup hw hpt hc.schema
        (by intro j hj; obtain ⟨p, _, rfl⟩ := List.mem_map.1 hj; rfl)
        (by
          rw [List.map_map]
          exact (List.filter_sublist.map Prod.fst).nodup hps)
        (by intro j _ e he; rw [hc.kids] at he; cases he) hs, hc.kids]
      simp only [List.not_mem_nil, false_and, exists_false, false_or, List.mem_map, List.mem_filter,
        has_iff]
      constructor
      · rintro ⟨j, ⟨p, ⟨hp, hm⟩, rfl⟩, h⟩; exact ⟨p, hp, hm, h⟩
      · rintro ⟨p, hp, hm, h⟩; exact ⟨_, ⟨p, ⟨hp, hm⟩, rfl⟩, h⟩
    have hall : flags.all id = true ↔
        KwHolds (codeRules st env d) env M (s :: b) kws i.value (.dependentSchemas ps) := by
      rw [h1, List.map_map, all_map_id]
      simp only [Function.comp, List.mem_filter, has_iff, vb_iff, KwHolds]
      exact ⟨fun h p hp hm => h p ⟨hp, hm⟩, fun h p hp => h p hp.1 hp.2⟩
    have key' : ∀ (v e : Value), Outcome d i (if flags.all id = true then c1.annotate v else c1.fail e)
        (KwHolds (codeRules st env d) env M (s :: b) kws i.value (.dependentSchemas ps))
        (fun pt => KwHolds (codeRules st env d) env M (s :: b) kws i.value (.dependentSchemas ps) ∧
          ∃ p ∈ ps, HasMember i.value p.1 ∧ M.valid (s :: b) p.2 i.value ∧
            M.ev (s :: b) p.2 i.value pt) := by
      intro v e
      refine kw_in_place hc h2 (Upd.ite (Upd.annotate _ _) (Upd.fail _ _)) ?_ ?_ ?_ (.inr hkey) h3
      · split <;> exact hcl.discard
      · rw [← hall]
        split
        · rename_i hf; simp [RNode.passed, RNode.annotate, hcl.valid, hf]
        · rename_i hf; simp only [RNode.passed, RNode.fail, RNode.info_mk, hcl.asrt, hf]; simp
      · rw [← hall]
        split
        · rename_i hf; simp [RNode.annotate, hcl.valid, hf]
        · rename_i hf; simp only [RNode.fail, RNode.info_mk, hf]
    refine (key' _ _).congr Iff.rfl (fun pt _ => ?_)
    simp only [ObsEv]
    constructor
    · rintro ⟨h1, p, hp, hm, _, h2⟩; exact ⟨h1, p, hp, hm, h2⟩
    · rintro ⟨h1, p, hp, hm, h2⟩; exact ⟨h1, p, hp, hm, h1 p hp hm, h2⟩

/-! ## In place, on the keyword's own result -/

theorem own_rec {t : SRef} {c1 : RNode} (h : rec (s :: a) t i c = some c1) :
    c1.info.valid = vb M (s :: b) t i.value ∧ c1.info.discard = false ∧ c1.info.asrt = true ∧
      c1.info.annotation = .null ∧ Imm c c1 ∧
      ∀ pt, pt.In i.value → ((∃ e ∈ c1.children, evs (Cover d pt) i.path e.2) ↔
        M.ev (s :: b) t i.value pt) := by
  obtain ⟨h1, h2, h3, h4, h5⟩ := rec_spec hok hst hw hc.clean (hc.away _) h
  exact ⟨h1, h2, h3, h4, h5, fun pt hpt => rec_ev hok hst hw hc.clean hc.kids h pt hpt⟩

/-- A keyword that evaluates one schema on its own result. -/
theorem own_outcome {t : SRef} {c1 c' : RNode} {P : Prop} {V : Prop} (h : rec (s :: a) t i c = some c1)
    (hu : Upd c1 c') (hd : c'.info.discard = false) (ha : c'.info.annotation = c1.info.annotation)
    (hv : c'.info.valid = true ↔ V) (hp : c'.passed = true ↔ P) :
    Outcome d i c' P (fun pt => V ∧ M.ev (s :: b) t i.value pt) := by
  obtain ⟨_, _, _, h4, _, h6⟩ := own_rec hok hst hw hc h
  refine .kept hd hp (fun pt hpt => ?_)
  rw [evs_iff, hv, hd, ha, h4, hu.children, h6 pt hpt]
  simp

theorem kw_ref_like {t : SRef} {c1 c' : RNode} (h : rec (s :: a) t i c = some c1)
    (hc' : c' = c1.setRef t ∨ c' = c1) :
    Outcome d i c' (M.valid (s :: b) t i.value)
      (fun pt => M.valid (s :: b) t i.value ∧ M.ev (s :: b) t i.value pt) := by
  obtain ⟨h1, h2, h3, h4, h5, h6⟩ := own_rec hok hst hw hc h
  have hv : c1.info.valid = true ↔ M.valid (s :: b) t i.value := by rw [h1, vb_iff]
  rcases hc' with rfl | rfl
  · refine own_outcome hok hst hw hc h (Upd.setRef _ _) h2 rfl hv ?_
    rw [passed_of_asrt (by exact h3)]; exact hv
  · refine own_outcome hok hst hw hc h (Upd.refl _) h2 rfl hv ?_
    rw [passed_of_asrt h3]; exact hv

theorem kw_not {t : SRef} (h : evalKw st env rec (s :: a) (.not_ t) i parent c = some (parent', c')) :
    Outcome d i c' (KwHolds (codeRules st env d) env M (s :: b) kws i.value (.not_ t))
      (ObsEv (codeRules st env d) env st M (s :: b) kws i.value (.not_ t)) := by
  simp only [evalKw] at h
  split at h
  · contradiction
  · rename_i c1 hs
    simp only [Option.some.injEq, Prod.mk.injEq] at h
    rw [← h.2]
    obtain ⟨h1, h2, h3, h4, h5, h6⟩ := own_rec hok hst hw hc hs
    have hpass : c1.passed = true ↔ M.valid (s :: b) t i.value := by
      rw [passed_of_asrt h3, h1, vb_iff]
    have hv : (if c1.passed = true then c1.fail (.str "must not be valid against the subschema")
        else c1.pass_).info.valid = true ↔ ¬ M.valid (s :: b) t i.value := by
      rw [← hpass]
      split
      · rename_i hp; simp [RNode.fail, hp]
      · rename_i hp; simp [RNode.pass_, hp]
    refine own_outcome hok hst hw hc hs (Upd.ite (Upd.fail _ _) (Upd.pass_ _)) ?_ ?_ hv ?_
    · split <;> exact h2
    · split <;> rfl
    · rw [passed_of_asrt]
      · exact hv
      · split <;> exact h3

theorem kw_if {t : SRef} (h : evalKw st env rec (s :: a) (.if_ t) i parent c = some (parent', c')) :
    Outcome d i c' (KwHolds (codeRules st env d) env M (s :: b) kws i.value (.if_ t))
      (ObsEv (codeRules st env d) env st M (s :: b) kws i.value (.if_ t)) ∧
    c'.info.discard = false ∧ (c'.info.valid = true ↔ M.valid (s :: b) t i.value) := by
  simp only [evalKw] at h
  split at h
  · contradiction
  · rename_i c1 hs
    simp only [Option.some.injEq, Prod.mk.injEq] at h
    rw [← h.2]
    obtain ⟨h1, h2, h3, h4, h5, h6⟩ := own_rec hok hst hw hc hs
    have hv : c1.noassert.info.valid = true ↔ M.valid (s :: b) t i.value := by
      rw [← vb_iff, ← h1]; rfl
    refine ⟨own_outcome hok hst hw hc hs (Upd.noassert _) h2 rfl hv ?_, h2, hv⟩
    simp [RNode.passed, RNode.noassert, KwHolds]

end

end Jschon
