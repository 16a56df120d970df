import Verif.Spec.Traces
import Verif.Proof.Reports
import Verif.Proof.EvalMono

/-!
# Which results the keywords leave below theirs
-/

namespace Jschon

open Spec

/-- An entry of the children of a result. -/
abbrev Entry := (String × List String) × RNode

/-- `new` is what evaluating `t` on some result added to its children. -/
def RunOwn (rec : Rec) (chain : List SRef) (t : SRef) (j : Inst) (new : List Entry) : Prop :=
  ∃ ca cb, Clean ca ∧ AwayFrom j.path ca ∧ rec chain t j ca = some cb ∧ cb.children = ca.children ++ new

/-- `e` is the result with label `l` for evaluating `t`. -/
def RunSub (rec : Rec) (s : SRef) (chain : List SRef) (l : String) (t : SRef) (j : Inst) (e : Entry) : Prop :=
  e.1 = (l, j.path) ∧ ∃ c0 : RNode, FreshFor c0 j l s ∧ c0.info.error = .null ∧ rec (s :: chain) t j c0 = some e.2

/-- The children come from the given applications. -/
structure KidsAre (rec : Rec) (s : SRef) (chain : List SRef) (App : Option String → SRef → Inst → Prop)
    (cs : List Entry) : Prop where
  source : ∀ e ∈ cs, (∃ l t j, App (some l) t j ∧ RunSub rec s chain l t j e) ∨
    ∃ t j new, App none t j ∧ RunOwn rec chain t j new ∧ e ∈ new
  sub : ∀ l t j, App (some l) t j → ∃ e ∈ cs, RunSub rec s chain l t j e
  own : ∀ t j, App none t j → ∃ new, RunOwn rec chain t j new ∧ ∀ e ∈ new, e ∈ cs

section
variable {d : Dialect} {rec : Rec} {M : Meaning} (hok : RecOk d rec M)
variable {s : SRef}

include hok

theorem subLoop_run {chain sc' : List SRef} (hst : Stut (s :: chain) sc') :
    ∀ {jobs : List (String × SRef × Inst)} {c c' : RNode} {flags}, c.info.schema = s →
      (∀ j ∈ jobs, j.2.2.value.WF) → (jobs.map (fun j => (j.1, j.2.2.path))).Nodup →
      (∀ j ∈ jobs, ∀ e ∈ c.children, e.1 ≠ (j.1, j.2.2.path)) →
      subLoop rec chain jobs c = some (c', flags) →
      ∃ new, c'.children = c.children ++ new ∧
        (∀ e ∈ new, ∃ j ∈ jobs, RunSub rec s chain j.1 j.2.1 j.2.2 e) ∧
        (∀ j ∈ jobs, ∃ e ∈ new, RunSub rec s chain j.1 j.2.1 j.2.2 e)
  | [], c, c', flags, _, _, _, _, h => by
    simp only [subLoop, Option.some.injEq, Prod.mk.injEq] at h
    rw [← h.1]; exact ⟨[], by simp, by simp, by simp⟩
  | (key, t, i) :: jobs, c, c', flags, hs, hj, hn, hc, h => by
    simp only [subLoop] at h
    cases hr : rec (c.schema :: chain) t i (c.fresh i key c.schema) with
    | none => simp [hr] at h
    | some sub =>
      simp only [hr] at h
      have hsch : c.schema = s := hs
      rw [hsch] at hr h
      obtain ⟨_, h2, _, _, _⟩ := rec_spec hok hst (hj _ List.mem_cons_self) Clean.fresh AwayFrom.fresh hr
      simp only [h2, Bool.false_eq_true, if_false] at h
      generalize hd : (c.setChild (key, i.path) (c.fresh i key s)).setChild (key, i.path) sub = c2 at h
      have hch : c2.children = c.children ++ [((key, i.path), sub)] := by
        rw [← hd]
        simp only [setChild_children]
        rw [cset_new (hc _ List.mem_cons_self), cset_last (hc _ List.mem_cons_self)]
      have hi2 : c2.info = c.info := by rw [← hd]; rfl
      have hrun : RunSub rec s chain key t i ((key, i.path), sub) :=
        ⟨rfl, _, freshFor_fresh c i key s, rfl, hr⟩
      cases hl : subLoop rec chain jobs c2 with
      | none => simp [hl] at h
      | some p =>
        obtain ⟨c3, fl⟩ := p
        simp only [hl, Option.some.injEq, Prod.mk.injEq] at h
        rw [List.map_cons, List.nodup_cons] at hn
        obtain ⟨new, h3, h4, h5⟩ := subLoop_run hst (by rw [hi2]; exact hs)
          (fun j hj' => hj j (List.mem_cons_of_mem _ hj')) hn.2
          (by
            intro j hj' e he
            rw [hch] at he
            rcases List.mem_append.1 he with he | he
            · exact hc j (List.mem_cons_of_mem _ hj') e he
            · rw [List.mem_singleton] at he
              subst he
              intro heq
              exact hn.1 (List.mem_map.2 ⟨j, hj', heq.symm⟩)) hl
        refine ⟨((key, i.path), sub) :: new, by rw [← h.1, h3, hch]; simp, ?_, ?_⟩
        · intro e he
          rcases List.mem_cons.1 he with rfl | he
          · exact ⟨_, List.mem_cons_self, hrun⟩
          · obtain ⟨j, hj, hx⟩ := h4 e he
            exact ⟨j, List.mem_cons_of_mem _ hj, hx⟩
        · intro j hj
          rcases List.mem_cons.1 hj with rfl | hj
          · exact ⟨_, List.mem_cons_self, hrun⟩
          · obtain ⟨e, he, hx⟩ := h5 j hj
            exact ⟨e, List.mem_cons_of_mem _ he, hx⟩

theorem sharedLoop_run {sc sc' : List SRef} {t : SRef} (hst : Stut sc sc') :
    ∀ {is : List Inst} {c c' : RNode} {flags}, Clean c → (∀ j ∈ is, j.value.WF) →
      (∀ j ∈ is, AwayFrom j.path c) → is.Pairwise (fun a b => ¬ a.path <+: b.path) →
      sharedLoop rec sc t is c = some (c', flags) →
      ∃ new, c'.children = c.children ++ new ∧
        (∀ e ∈ new, ∃ j ∈ is, ∃ n, RunOwn rec sc t j n ∧ e ∈ n) ∧
        (∀ j ∈ is, ∃ n, RunOwn rec sc t j n ∧ ∀ e ∈ n, e ∈ new)
  | [], c, c', flags, hc, _, _, _, h => by
    simp only [sharedLoop, Option.some.injEq, Prod.mk.injEq] at h
    rw [← h.1]; exact ⟨[], by simp, by simp, by simp⟩
  | i :: is, c, c', flags, hc, hw, ha, hp, h => by
    simp only [sharedLoop] at h
    cases hr : rec sc t i c with
    | none => simp [hr] at h
    | some c1 =>
      simp only [hr] at h
      rw [List.pairwise_cons] at hp
      obtain ⟨h1, h2, h3, h4, h5⟩ := rec_spec hok hst (hw _ List.mem_cons_self) hc
        (ha _ List.mem_cons_self) hr
      obtain ⟨_, n1, hch, hnew, _⟩ := hok.sim _ _ _ _ _ _ (.cons hst) (hw _ List.mem_cons_self) hc
        (ha _ List.mem_cons_self) hr
      have hu : Upd c1 (if c1.passed then c1 else c1.pass_) := Upd.ite (Upd.refl _) (Upd.pass_ _)
      have hcl : Clean (if c1.passed then c1 else c1.pass_) := by
        split
        · rename_i hpass
          rw [passed_of_asrt h3] at hpass
          exact ⟨hpass, h2, h3, h4⟩
        · exact ⟨rfl, h2, h3, h4⟩
      have hrun : RunOwn rec sc t i n1 := ⟨c, c1, hc, ha _ List.mem_cons_self, hr, hch⟩
      cases hs : sharedLoop rec sc t is (if c1.passed then c1 else c1.pass_) with
      | none => simp [hs] at h
      | some p =>
        obtain ⟨c3, fl⟩ := p
        simp only [hs, Option.some.injEq, Prod.mk.injEq] at h
        obtain ⟨n2, h6, h7, h8⟩ := sharedLoop_run hst hcl
          (fun j hj => hw j (List.mem_cons_of_mem _ hj))
          (fun j hj => (ha j (List.mem_cons_of_mem _ hj)).append (hu.children.trans hch) hnew (hp.1 j hj))
          hp.2 hs
        refine ⟨n1 ++ n2, by rw [← h.1, h6, hu.children, hch, List.append_assoc], ?_, ?_⟩
        · intro e he
          rcases List.mem_append.1 he with he | he
          · exact ⟨i, List.mem_cons_self, n1, hrun, he⟩
          · obtain ⟨j, hj, hx⟩ := h7 e he
            exact ⟨j, List.mem_cons_of_mem _ hj, hx⟩
        · intro j hj
          rcases List.mem_cons.1 hj with rfl | hj
          · exact ⟨n1, hrun, fun e he => List.mem_append_left _ he⟩
          · obtain ⟨n, hn, hx⟩ := h8 j hj
            exact ⟨n, hn, fun e he => List.mem_append_right _ (hx e he)⟩

theorem plainLoop_run {sc sc' : List SRef} {t : SRef} (hst : Stut sc sc') :
    ∀ {is : List Inst} {c c' : RNode}, Clean c → (∀ j ∈ is, j.value.WF) →
      (∀ j ∈ is, AwayFrom j.path c) → is.Pairwise (fun a b => ¬ a.path <+: b.path) →
      plainLoop rec sc t is c = some c' → c'.info.valid = true →
      ∃ new, c'.children = c.children ++ new ∧
        (∀ e ∈ new, ∃ j ∈ is, ∃ n, RunOwn rec sc t j n ∧ e ∈ n) ∧
        (∀ j ∈ is, ∃ n, RunOwn rec sc t j n ∧ ∀ e ∈ n, e ∈ new)
  | [], c, c', hc, _, _, _, h, _ => by
    simp only [plainLoop, Option.some.injEq] at h
    rw [← h]; exact ⟨[], by simp, by simp, by simp⟩
  | i :: is, c, c', hc, hw, ha, hp, h, hval => by
    simp only [plainLoop] at h
    cases hr : rec sc t i c with
    | none => simp [hr] at h
    | some c1 =>
      simp only [hr] at h
      rw [List.pairwise_cons] at hp
      obtain ⟨h1, h2, h3, h4, h5⟩ := rec_spec hok hst (hw _ List.mem_cons_self) hc
        (ha _ List.mem_cons_self) hr
      obtain ⟨_, n1, hch, hnew, _⟩ := hok.sim _ _ _ _ _ _ (.cons hst) (hw _ List.mem_cons_self) hc
        (ha _ List.mem_cons_self) hr
      have hrun : RunOwn rec sc t i n1 := ⟨c, c1, hc, ha _ List.mem_cons_self, hr, hch⟩
      cases hv : c1.info.valid with
      | false =>
        obtain ⟨hf, _⟩ := plainLoop_invalid hok hv h2 h3 h4 h
        rw [hf] at hval; cases hval
      | true =>
        obtain ⟨n2, h6, h7, h8⟩ := plainLoop_run hst (c := c1) ⟨hv, h2, h3, h4⟩
          (fun j hj => hw j (List.mem_cons_of_mem _ hj))
          (fun j hj => (ha j (List.mem_cons_of_mem _ hj)).append hch hnew (hp.1 j hj)) hp.2 h hval
        refine ⟨n1 ++ n2, by rw [h6, hch, List.append_assoc], ?_, ?_⟩
        · intro e he
          rcases List.mem_append.1 he with he | he
          · exact ⟨i, List.mem_cons_self, n1, hrun, he⟩
          · obtain ⟨j, hj, hx⟩ := h7 e he
            exact ⟨j, List.mem_cons_of_mem _ hj, hx⟩
        · intro j hj
          rcases List.mem_cons.1 hj with rfl | hj
          · exact ⟨n1, hrun, fun e he => List.mem_append_left _ he⟩
          · obtain ⟨n, hn, hx⟩ := h8 j hj
            exact ⟨n, hn, fun e he => List.mem_append_right _ (hx e he)⟩

end

/-! ## Keywords -/

section
variable {d : Dialect} {st : Store} {env : Env} {rec : Rec} {M : Meaning} (hok : RecOk d rec M)
variable {a b : List SRef} {s : SRef} (hst : Stut (s :: a) (s :: b))
variable {i : Inst} (hw : i.value.WF) {c : RNode} {key : String}
variable {kws : List Kw} {parent parent' c' : RNode}

theorem kids_sub {rec : Rec} {App : Option String → SRef → Inst → Prop} {jobs : List (String × SRef × Inst)}
    {cs : List Entry}
    (h1 : ∀ e ∈ cs, ∃ j ∈ jobs, RunSub rec s a j.1 j.2.1 j.2.2 e)
    (h2 : ∀ j ∈ jobs, ∃ e ∈ cs, RunSub rec s a j.1 j.2.1 j.2.2 e)
    (happ : ∀ l t j, App l t j ↔ ∃ n, l = some n ∧ (n, t, j) ∈ jobs) : KidsAre rec s a App cs := by
  refine ⟨fun e he => ?_, fun l t j hx => ?_, fun t j hx => ?_⟩
  · obtain ⟨j, hj, hr⟩ := h1 e he
    exact .inl ⟨j.1, j.2.1, j.2.2, (happ _ _ _).2 ⟨_, rfl, hj⟩, hr⟩
  · obtain ⟨n, hn, hj⟩ := (happ _ _ _).1 hx
    cases hn
    exact h2 _ hj
  · obtain ⟨n, hn, _⟩ := (happ _ _ _).1 hx
    cases hn

theorem kids_own {rec : Rec} {App : Option String → SRef → Inst → Prop} {t : SRef} {is : List Inst} {cs : List Entry}
    (h1 : ∀ e ∈ cs, ∃ j ∈ is, ∃ n, RunOwn rec (s :: a) t j n ∧ e ∈ n)
    (h2 : ∀ j ∈ is, ∃ n, RunOwn rec (s :: a) t j n ∧ ∀ e ∈ n, e ∈ cs)
    (happ : ∀ l t' j, App l t' j ↔ l = none ∧ t' = t ∧ j ∈ is) : KidsAre rec s (s :: a) App cs := by
  refine ⟨fun e he => ?_, fun l t j hx => ?_, fun t j hx => ?_⟩
  · obtain ⟨j, hj, n, hr, hn⟩ := h1 e he
    exact .inr ⟨t, j, n, (happ _ _ _).2 ⟨rfl, rfl, hj⟩, hr, hn⟩
  · cases ((happ _ _ _).1 hx).1
  · obtain ⟨_, rfl, hj⟩ := (happ _ _ _).1 hx
    exact h2 _ hj

theorem kids_none {rec : Rec} {App : Option String → SRef → Inst → Prop}
    (happ : ∀ l t j, ¬ App l t j) : KidsAre rec s a App [] :=
  ⟨fun e he => (by cases he), fun l t j h => absurd h (happ _ _ _), fun t j h => absurd h (happ _ _ _)⟩

theorem mem_indexJobs_iff {n : String} {t : SRef} {j : Inst} : ∀ {m : Nat} {ss : List SRef},
    (n, t, j) ∈ indexJobs i m ss ↔ ∃ k : Nat, ss[k]? = some t ∧ n = natStr (m + k) ∧ j = i
  | m, [] => by simp [indexJobs]
  | m, u :: ss => by
    simp only [indexJobs, List.mem_cons, Prod.mk.injEq, mem_indexJobs_iff]
    constructor
    · rintro (⟨rfl, rfl, rfl⟩ | ⟨k, h1, h2, h3⟩)
      · exact ⟨0, rfl, rfl, rfl⟩
      · exact ⟨k + 1, by simpa using h1, by rw [h2]; congr 1; omega, h3⟩
    · rintro ⟨k, h1, h2, h3⟩
      cases k with
      | zero => simp only [List.getElem?_cons_zero, Option.some.injEq] at h1; exact .inl ⟨h2, h1.symm, h3⟩
      | succ k => exact .inr ⟨k, by simpa using h1, by rw [h2]; congr 1; omega, h3⟩

/-- The applications of a keyword to the instance. -/
def AppsOf (d : Dialect) (st : Store) (env : Env) (M : Meaning) (sc : List SRef) (kws : List Kw) (i : Inst)
    (kw : Kw) (l : Option String) (t : SRef) (j : Inst) : Prop :=
  ∃ rel w, AppliesAt (codeRules st env d) env st M sc kws i.value kw l t rel w ∧ j = ⟨i.path ++ rel, w⟩

theorem inst_here {rel : List String} {w : Value} {j : Inst} :
    ((rel = [] ∧ w = i.value) ∧ j = ⟨i.path ++ rel, w⟩) ↔ (rel = [] ∧ w = i.value) ∧ j = i := by
  constructor
  · rintro ⟨⟨rfl, rfl⟩, rfl⟩; exact ⟨⟨rfl, rfl⟩, by rw [List.append_nil]⟩
  · rintro ⟨⟨rfl, rfl⟩, rfl⟩; exact ⟨⟨rfl, rfl⟩, by rw [List.append_nil]⟩

theorem mem_insts_items {l : List (Nat × Inst)} {C : Nat → Prop} (hl : l.Sublist i.items)
    (hC : ∀ p ∈ i.items, p ∈ l ↔ C p.1) {j : Inst} :
    j ∈ insts l ↔ ∃ rel w, (∃ k, C k ∧ AtItem i.value k rel w) ∧ j = ⟨i.path ++ rel, w⟩ := by
  constructor
  · intro h
    obtain ⟨p, hp, rfl⟩ := mem_insts h
    have hi := hl.subset hp
    obtain ⟨x, hx, he⟩ := mem_items.1 hi
    exact ⟨_, x, ⟨p.1, (hC p hi).1 hp, hx, rfl⟩, he⟩
  · rintro ⟨rel, w, ⟨k, hk, hx, rfl⟩, rfl⟩
    have hi : (k, (⟨i.path ++ [natStr k], w⟩ : Inst)) ∈ i.items := mem_items.2 ⟨w, hx, rfl⟩
    exact List.mem_map.2 ⟨_, (hC _ hi).2 hk, rfl⟩

theorem mem_insts_members {l : List (String × Inst)} {C : String → Prop} (hl : l.Sublist i.members)
    (hC : ∀ p ∈ i.members, p ∈ l ↔ C p.1) {j : Inst} :
    j ∈ insts l ↔ ∃ rel w, (∃ n, C n ∧ AtMember i.value n rel w) ∧ j = ⟨i.path ++ rel, w⟩ := by
  constructor
  · intro h
    obtain ⟨p, hp, rfl⟩ := mem_insts h
    have hi := hl.subset hp
    obtain ⟨x, hx, he⟩ := mem_members.1 hi
    exact ⟨_, x, ⟨p.1, (hC p hi).1 hp, hx, rfl⟩, he⟩
  · rintro ⟨rel, w, ⟨k, hk, hx, rfl⟩, rfl⟩
    have hi : (k, (⟨i.path ++ [k], w⟩ : Inst)) ∈ i.members := mem_members.2 ⟨w, hx, rfl⟩
    exact List.mem_map.2 ⟨_, (hC _ hi).2 hk, rfl⟩

theorem mem_itemJobs_iff {ss : List SRef} {n : String} {t : SRef} {j : Inst} :
    (n, t, j) ∈ itemJobs ss i.items ↔ ∃ rel w, (∃ k : Nat, ss[k]? = some t ∧ some n = some k.repr ∧
      AtItem i.value k rel w) ∧ j = ⟨i.path ++ rel, w⟩ := by
  rw [itemJobs_eq, List.mem_map]
  constructor
  · rintro ⟨p, hp, he⟩
    cases he
    obtain ⟨x, h1, h2, h3⟩ := mem_zip_items hp
    exact ⟨_, x, ⟨_, h1, rfl, h2, rfl⟩, h3⟩
  · rintro ⟨rel, w, ⟨k, h1, h2, h3, rfl⟩, rfl⟩
    cases h2
    exact ⟨_, zip_items_mem h1 h3, rfl⟩

theorem zip_snd_sublist {α β : Type} : ∀ (xs : List α) (ys : List β), ((xs.zip ys).map Prod.snd).Sublist ys
  | [], ys => by simp
  | _ :: _, [] => by simp
  | _ :: xs, y :: ys => by simpa using zip_snd_sublist xs ys

theorem itemJobs_keys_nodup {ss : List SRef} :
    ((itemJobs ss i.items).map (fun j => (j.1, j.2.2.path))).Nodup := by
  rw [itemJobs_eq, List.map_map, List.Nodup, List.pairwise_map]
  have h1 : (ss.zip i.items).Pairwise (fun a b => a.2.1 < b.2.1) := by
    have h := (itemsFrom_tags_lt i.path (elems i.value) 0).1
    rw [← items_eq, List.pairwise_map] at h
    have h2 : ((ss.zip i.items).map Prod.snd).Pairwise (fun a b => a.1 < b.1) :=
      h.sublist (zip_snd_sublist _ _)
    rwa [List.pairwise_map] at h2
  refine h1.imp ?_
  intro p q hpq he
  have := natStr_inj.1 (congrArg Prod.fst he)
  omega

include hok hst hw

theorem run_shared_items (hc : FreshFor c i key s) {t : SRef} {l : List (Nat × Inst)} (hl : l.Sublist i.items) {c1 : RNode}
    {flags : List Bool} (h : sharedLoop rec (s :: a) t (insts l) c = some (c1, flags)) :
    (∀ e ∈ c1.children, ∃ j ∈ insts l, ∃ n, RunOwn rec (s :: a) t j n ∧ e ∈ n) ∧
      (∀ j ∈ insts l, ∃ n, RunOwn rec (s :: a) t j n ∧ ∀ e ∈ n, e ∈ c1.children) := by
  obtain ⟨new, h1, h2⟩ := sharedLoop_run hok hst hc.clean
    (by intro j hj; obtain ⟨p, hp, rfl⟩ := mem_insts hj; exact items_wf hw (hl.subset hp))
    (fun j _ => hc.away _) (items_pairwise hl) h
  rw [h1, hc.kids, List.nil_append]; exact h2

theorem run_shared_members (hc : FreshFor c i key s) {t : SRef} {l : List (String × Inst)} (hl : l.Sublist i.members)
    {c1 : RNode} {flags : List Bool} (h : sharedLoop rec (s :: a) t (insts l) c = some (c1, flags)) :
    (∀ e ∈ c1.children, ∃ j ∈ insts l, ∃ n, RunOwn rec (s :: a) t j n ∧ e ∈ n) ∧
      (∀ j ∈ insts l, ∃ n, RunOwn rec (s :: a) t j n ∧ ∀ e ∈ n, e ∈ c1.children) := by
  obtain ⟨new, h1, h2⟩ := sharedLoop_run hok hst hc.clean
    (by intro j hj; obtain ⟨p, hp, rfl⟩ := mem_insts hj; exact member_wf hw (hl.subset hp))
    (fun j _ => hc.away _) (members_pairwise hw hl) h
  rw [h1, hc.kids, List.nil_append]; exact h2

theorem run_sub (hc : FreshFor c i key s) {jobs : List (String × SRef × Inst)} {c1 : RNode} {flags : List Bool}
    (hj : ∀ j ∈ jobs, j.2.2.value.WF) (hn : (jobs.map (fun j => (j.1, j.2.2.path))).Nodup)
    (h : subLoop rec (s :: a) jobs c = some (c1, flags)) :
    (∀ e ∈ c1.children, ∃ j ∈ jobs, RunSub rec s (s :: a) j.1 j.2.1 j.2.2 e) ∧
      (∀ j ∈ jobs, ∃ e ∈ c1.children, RunSub rec s (s :: a) j.1 j.2.1 j.2.2 e) := by
  obtain ⟨new, h1, h2⟩ := subLoop_run hok hst.dup hc.schema hj hn
    (by intro j _ e he; rw [hc.kids] at he; cases he) h
  rw [h1, hc.kids, List.nil_append]; exact h2

theorem run_own (hc : FreshFor c i key s) {t : SRef} {c1 : RNode} (h : rec (s :: a) t i c = some c1) :
    RunOwn rec (s :: a) t i c1.children :=
  ⟨c, c1, hc.clean, hc.away _, h, by rw [hc.kids, List.nil_append]⟩

/-- A keyword that evaluates one schema on the instance and its own result. -/
theorem kids_rec (hc : FreshFor c i key s) {App : Option String → SRef → Inst → Prop} {t : SRef} {c1 : RNode}
    (h : rec (s :: a) t i c = some c1) (hch : c'.children = c1.children)
    (happ : ∀ l t' j, App l t' j ↔ l = none ∧ t' = t ∧ j = i) : KidsAre rec s (s :: a) App c'.children := by
  have hr := run_own hok hst hw hc h
  rw [hch]
  refine kids_own (is := [i]) (fun e he => ⟨i, by simp, _, hr, he⟩) (fun j hj => ?_) (fun l t' j => ?_)
  · cases List.mem_singleton.1 hj; exact ⟨_, hr, fun e he => he⟩
  · rw [happ, List.mem_singleton]

omit hok hst hw in
theorem finishItems_children (c : RNode) (t : List Nat) (f : List Bool) : (finishItems c t f).children = c.children :=
  (upd_finishItems c t f).children

omit hok hst hw in
theorem finishProps_children (c : RNode) (t : List String) (f : List Bool) : (finishProps c t f).children = c.children :=
  (upd_finishProps c t f).children

/-- What a keyword leaves below its result, provided that the keywords it depends on did what they should. -/
theorem kw_kids {kw : Kw}
    (hkid : ∀ sc t b i c c', st.obj t = .bool b → rec sc t i c = some c' → c'.children = c.children) (hkws : KwsOk d kws) (hobj : st.obj s = .obj kws)
    (hkw : kw ∈ kws) (hc : FreshFor c i kw.key s)
    (hty : kw.types.contains i.value.type = true)
    (hsib : ∀ key ∈ kw.dependsOn (decide (d = .d2019)),
      SibOk st env d M (s :: b) kws i s (sibling parent i key) key)
    (hann : ∀ pt, pt.In i.value → UnevalFor kw pt → (evs (Cover d pt) i.path parent ↔
      ∃ kw' ∈ kws, ObsEv (codeRules st env d) env st M (s :: b) kws i.value kw' pt))
    (h : evalKw st env rec (s :: a) kw i parent c = some (parent', c')) (hd : c'.info.discard = false)
    (hv : ∀ t, kw = .items9 t → (∃ b, st.obj t = .bool b) ∨ c'.info.valid = true) :
    KidsAre rec s (s :: a) (AppsOf d st env M (s :: b) kws i kw) c'.children := by
  have hko := hkws.ok kw hkw
  have hhere : ∀ {l : Option String} {u t : SRef} {j : Inst},
      (∃ rel w, (l = none ∧ t = u ∧ rel = [] ∧ w = i.value) ∧ j = (⟨i.path ++ rel, w⟩ : Inst)) ↔
        l = none ∧ t = u ∧ j = i := by
    intro l u t j
    constructor
    · rintro ⟨rel, w, ⟨h1, h2, rfl, rfl⟩, rfl⟩; exact ⟨h1, h2, by rw [List.append_nil]⟩
    · rintro ⟨h1, h2, rfl⟩; exact ⟨[], _, ⟨h1, h2, rfl, rfl⟩, by rw [List.append_nil]⟩
  have hindex : ∀ {ss : List SRef} {c1 : RNode} {flags : List Bool},
      subLoop rec (s :: a) (indexJobs i 0 ss) c = some (c1, flags) → ∀ {App : Option String → SRef → Inst → Prop},
      (∀ l t j, App l t j ↔ ∃ rel w, ((∃ k : Nat, ss[k]? = some t ∧ l = some k.repr) ∧ rel = [] ∧ w = i.value) ∧
        j = (⟨i.path ++ rel, w⟩ : Inst)) → KidsAre rec s (s :: a) App c1.children := by
    intro ss c1 flags hs App happ
    obtain ⟨h1, h2⟩ := run_sub hok hst hw hc
      (by intro j hj; rw [(mem_indexJobs hj).2]; exact hw)
      (by
        have := indexJobs_nodup (i := i) (n := 0) (ss := ss)
        rw [List.Nodup, List.pairwise_map] at this ⊢
        exact this.imp (fun hne he => hne (Prod.mk.inj he).1)) hs
    refine kids_sub h1 h2 (fun l t j => ?_)
    rw [happ]
    simp only [mem_indexJobs_iff, Nat.zero_add]
    constructor
    · rintro ⟨rel, w, ⟨⟨k, hk, rfl⟩, rfl, rfl⟩, rfl⟩
      exact ⟨_, rfl, k, hk, rfl, by rw [List.append_nil]⟩
    · rintro ⟨n, rfl, k, hk, rfl, rfl⟩
      exact ⟨[], _, ⟨⟨k, hk, rfl⟩, rfl, rfl⟩, by rw [List.append_nil]⟩
  have hnone : c'.children = [] → (∀ l t rel w,
      ¬ AppliesAt (codeRules st env d) env st M (s :: b) kws i.value kw l t rel w) →
      KidsAre rec s (s :: a) (AppsOf d st env M (s :: b) kws i kw) c'.children := by
    intro hch hno
    rw [hch]
    refine kids_none (fun l t j => ?_)
    rintro ⟨rel, w, hx, _⟩
    exact hno _ _ _ _ hx
  have hitems : ∀ {t : SRef} {l : List (Nat × Inst)} {c1 : RNode} {flags : List Bool} {C : Nat → Prop},
      l.Sublist i.items → (∀ p ∈ i.items, p ∈ l ↔ C p.1) →
      sharedLoop rec (s :: a) t (insts l) c = some (c1, flags) →
      ∀ {App : Option String → SRef → Inst → Prop},
      (∀ o t' j, App o t' j ↔ ∃ rel w, (o = none ∧ t' = t ∧ ∃ k, C k ∧ AtItem i.value k rel w) ∧
        j = (⟨i.path ++ rel, w⟩ : Inst)) → KidsAre rec s (s :: a) App c1.children := by
    intro t l c1 flags C hl hC hs App happ
    obtain ⟨h1, h2⟩ := run_shared_items hok hst hw hc hl hs
    refine kids_own h1 h2 (fun o t' j => ?_)
    rw [happ, mem_insts_items hl hC]
    constructor
    · rintro ⟨rel, w, ⟨h1, h2, h3⟩, h4⟩; exact ⟨h1, h2, rel, w, h3, h4⟩
    · rintro ⟨h1, h2, rel, w, h3, h4⟩; exact ⟨rel, w, ⟨h1, h2, h3⟩, h4⟩
  have hmembers : ∀ {t : SRef} {l : List (String × Inst)} {c1 : RNode} {flags : List Bool} {C : String → Prop},
      l.Sublist i.members → (∀ p ∈ i.members, p ∈ l ↔ C p.1) →
      sharedLoop rec (s :: a) t (insts l) c = some (c1, flags) →
      ∀ {App : Option String → SRef → Inst → Prop},
      (∀ o t' j, App o t' j ↔ ∃ rel w, (o = none ∧ t' = t ∧ ∃ n, C n ∧ AtMember i.value n rel w) ∧
        j = (⟨i.path ++ rel, w⟩ : Inst)) → KidsAre rec s (s :: a) App c1.children := by
    intro t l c1 flags C hl hC hs App happ
    obtain ⟨h1, h2⟩ := run_shared_members hok hst hw hc hl hs
    refine kids_own h1 h2 (fun o t' j => ?_)
    rw [happ, mem_insts_members hl hC]
    constructor
    · rintro ⟨rel, w, ⟨h1, h2, h3⟩, h4⟩; exact ⟨h1, h2, rel, w, h3, h4⟩
    · rintro ⟨h1, h2, rel, w, h3, h4⟩; exact ⟨rel, w, ⟨h1, h2, h3⟩, h4⟩
  cases kw
  case contains t =>
    simp only [evalKw] at h
    split at h
    · contradiction
    · rename_i c1 flags hs
      simp only [Option.some.injEq, Prod.mk.injEq] at h
      have hch : c'.children = c1.children := by rw [← h.2]; split <;> rfl
      rw [hch]
      refine hitems (C := fun _ => True) (List.Sublist.refl _) (fun p hp => ⟨fun _ => trivial, fun _ => hp⟩) hs
        (fun o t' j => ?_)
      simp only [AppsOf, AppliesAt, true_and]
  case assert x =>
    simp only [evalKw, Option.some.injEq, Prod.mk.injEq] at h
    exact hnone (by rw [← h.2]; split <;> exact hc.kids) (fun _ _ _ _ hx => hx)
  case maxContains m =>
    simp only [evalKw, Option.some.injEq, Prod.mk.injEq] at h
    refine hnone ?_ (fun _ _ _ _ hx => hx)
    rw [← h.2]; split
    · exact hc.kids
    · split <;> exact hc.kids
  case minContains m =>
    simp only [evalKw, evalMinContains, Option.some.injEq] at h
    refine hnone ?_ (fun _ _ _ _ hx => hx)
    split at h
    · cases h; exact hc.kids
    · simp only [Prod.mk.injEq] at h
      rw [← h.2]; split <;> exact hc.kids
  case allOf ss =>
    simp only [evalKw] at h
    split at h
    · contradiction
    · rename_i c1 flags hs
      simp only [Option.some.injEq, Prod.mk.injEq] at h
      have hch : c'.children = c1.children := by rw [← h.2]; split <;> rfl
      rw [hch]
      exact hindex hs (fun _ _ _ => Iff.rfl)
  case anyOf ss =>
    simp only [evalKw] at h
    split at h
    · contradiction
    · rename_i c1 flags hs
      simp only [Option.some.injEq, Prod.mk.injEq] at h
      have hch : c'.children = c1.children := by rw [← h.2]; split <;> rfl
      rw [hch]
      exact hindex hs (fun _ _ _ => Iff.rfl)
  case oneOf ss =>
    simp only [evalKw] at h
    split at h
    · contradiction
    · rename_i c1 flags hs
      simp only [Option.some.injEq, Prod.mk.injEq] at h
      have hch : c'.children = c1.children := by rw [← h.2]; split <;> rfl
      rw [hch]
      exact hindex hs (fun _ _ _ => Iff.rfl)
  case not_ t =>
    simp only [evalKw] at h
    split at h
    · contradiction
    · rename_i c1 hs
      simp only [Option.some.injEq, Prod.mk.injEq] at h
      exact kids_rec hok hst hw hc hs (by rw [← h.2]; split <;> rfl) (fun l t' j => hhere)
  case if_ t =>
    simp only [evalKw] at h
    split at h
    · contradiction
    · rename_i c1 hs
      simp only [Option.some.injEq, Prod.mk.injEq] at h
      exact kids_rec hok hst hw hc hs (by rw [← h.2]; rfl) (fun l t' j => hhere)
  case then_ t =>
    rcases then_cases hkws.ok (hsib _ (by simp [Kw.dependsOn])) h with ⟨rfl, hno⟩ | ⟨hs, hif⟩
    · cases hd
    · refine kids_rec hok hst hw hc hs rfl (fun l t' j => ?_)
      simp only [AppsOf, AppliesAt, hif, true_and]
      exact hhere
  case else_ t =>
    rcases else_cases hkws.ok (hsib _ (by simp [Kw.dependsOn])) h with ⟨rfl, hno⟩ | ⟨hs, hif⟩
    · cases hd
    · refine kids_rec hok hst hw hc hs rfl (fun l t' j => ?_)
      simp only [AppsOf, AppliesAt, hif, true_and]
      exact hhere
  case dependentSchemas ps =>
    simp only [evalKw] at h
    split at h
    · contradiction
    · rename_i c1 flags hs
      simp only [Option.some.injEq, Prod.mk.injEq] at h
      have hch : c'.children = c1.children := by rw [← h.2]; split <;> rfl
      rw [hch]
      obtain ⟨h1, h2⟩ := run_sub hok hst hw hc
        (by intro j hj; obtain ⟨p, _, rfl⟩ := List.mem_map.1 hj; exact hw)
        (by
          have hn : (dkeys ps).Nodup := hko
          rw [List.map_map, List.Nodup, List.pairwise_map]
          rw [dkeys, List.Nodup, List.pairwise_map] at hn
          exact (hn.sublist List.filter_sublist).imp (fun hne he => hne (Prod.mk.inj he).1)) hs
      refine kids_sub h1 h2 (fun l t j => ?_)
      simp only [AppsOf, AppliesAt, List.mem_map, List.mem_filter, has_iff]
      constructor
      · rintro ⟨rel, w, ⟨⟨n, hn, hm, rfl⟩, rfl, rfl⟩, rfl⟩
        exact ⟨n, rfl, (n, t), ⟨hn, hm⟩, by rw [List.append_nil]⟩
      · rintro ⟨n, rfl, p, ⟨hp, hm⟩, he⟩
        cases he
        exact ⟨[], _, ⟨⟨_, hp, hm, rfl⟩, rfl, rfl⟩, by rw [List.append_nil]⟩
  case prefixItems ss =>
    simp only [evalKw] at h
    split at h
    · contradiction
    · rename_i c1 flags hs
      simp only [Option.some.injEq, Prod.mk.injEq] at h
      have hch : c'.children = c1.children := by
        rw [← h.2]; split
        · split <;> rfl
        · rfl
      rw [hch]
      obtain ⟨h1, h2⟩ := run_sub hok hst hw hc
        (by intro j hj'; obtain ⟨p, hp, he⟩ := itemJobs_inst hj'; rw [he]; exact items_wf hw hp)
        itemJobs_keys_nodup hs
      refine kids_sub h1 h2 (fun l t j => ?_)
      simp only [AppsOf, AppliesAt, mem_itemJobs_iff]
      constructor
      · rintro ⟨rel, w, ⟨k, hk, rfl, hx⟩, he⟩; exact ⟨_, rfl, rel, w, ⟨k, hk, rfl, hx⟩, he⟩
      · rintro ⟨n, rfl, rel, w, ⟨k, hk, hl, hx⟩, he⟩; exact ⟨rel, w, ⟨k, hk, hl, hx⟩, he⟩
  case items9Array ss =>
    simp only [evalKw] at h
    split at h
    · rename_i hnil
      simp only [Option.some.injEq, Prod.mk.injEq] at h
      have hel : elems i.value = [] := (items_nil_iff i).1 hnil
      refine hnone (by rw [← h.2]; exact hc.kids) ?_
      rintro l t rel w ⟨k, _, _, hx, _⟩
      rw [hel] at hx; simp at hx
    · split at h
      · contradiction
      · rename_i c1 flags hs
        simp only [Option.some.injEq, Prod.mk.injEq] at h
        have hch : c'.children = c1.children := by rw [← h.2]; split <;> rfl
        rw [hch]
        obtain ⟨h1, h2⟩ := run_sub hok hst hw hc
          (by intro j hj'; obtain ⟨p, hp, he⟩ := itemJobs_inst hj'; rw [he]; exact items_wf hw hp)
          itemJobs_keys_nodup hs
        refine kids_sub h1 h2 (fun l t j => ?_)
        simp only [AppsOf, AppliesAt, mem_itemJobs_iff]
        constructor
        · rintro ⟨rel, w, ⟨k, hk, rfl, hx⟩, he⟩; exact ⟨_, rfl, rel, w, ⟨k, hk, rfl, hx⟩, he⟩
        · rintro ⟨n, rfl, rel, w, ⟨k, hk, hl, hx⟩, he⟩; exact ⟨rel, w, ⟨k, hk, hl, hx⟩, he⟩
  case items t =>
    have hstart := items_start hko hobj hkws (type_arr hty) (hsib _ (by simp [Kw.dependsOn]))
    simp only [evalKw] at h
    split at h
    · contradiction
    · rename_i c1 flags hs
      simp only [Option.some.injEq, Prod.mk.injEq] at h
      rw [← h.2, finishItems_children]
      refine hitems (List.drop_sublist _ _) (fun p hp => ?_) hs (fun o t' j => Iff.rfl)
      rw [mem_drop_items, hstart]
      exact ⟨fun h => h.2, fun h => ⟨hp, h⟩⟩
  case unevaluatedItems t =>
    rcases uneval_items_cases hko (fun k hk => hann (.item k) hk trivial) h with
      ⟨rfl, hall⟩ | ⟨todo, c1, flags, hsub, hmem, hs, rfl⟩
    · cases hd
    · rw [finishItems_children]
      exact hitems hsub hmem hs (fun o t' j => Iff.rfl)
  case unevaluatedItems9 t =>
    rcases uneval_items9_cases hko (fun k hk => hann (.item k) hk trivial) h with
      ⟨rfl, hall⟩ | ⟨todo, c1, flags, hsub, hmem, hs, rfl⟩
    · cases hd
    · rw [finishItems_children]
      exact hitems hsub hmem hs (fun o t' j => Iff.rfl)
  case properties ps =>
    simp only [evalKw] at h
    split at h
    · contradiction
    · rename_i c1 flags hs
      simp only [Option.some.injEq, Prod.mk.injEq] at h
      have hch : c'.children = c1.children := by rw [← h.2]; split <;> rfl
      rw [hch]
      obtain ⟨h1, h2⟩ := run_sub hok hst hw hc
        (by intro j hj'; obtain ⟨p, hp, he⟩ := propJobs_inst hj'; rw [he]; exact member_wf hw hp)
        (by
          have hn := members_nodup hw
          rw [dkeys] at hn
          have : ((propJobs ps i.members).map Prod.fst).Nodup := by
            rw [members_eq]
            refine List.Nodup.sublist ?_ hn
            generalize members i.value = ms
            induction ms with
            | nil => simp [propJobs]
            | cons m ms ih =>
              simp only [propJobs, List.map_cons, List.filterMap_cons] at ih ⊢
              cases dlookup m.1 ps with
              | none => exact ih.cons _
              | some t => exact ih.cons_cons _
          rw [List.Nodup, List.pairwise_map] at this ⊢
          exact this.imp (fun hne he => hne (Prod.mk.inj he).1)) hs
      refine kids_sub h1 h2 (fun l t j => ?_)
      simp only [AppsOf, AppliesAt, mem_propJobs]
      constructor
      · rintro ⟨rel, w, ⟨n, hn, rfl, hx, rfl⟩, rfl⟩
        exact ⟨n, rfl, w, hx, dlookup_of_mem hko hn, rfl⟩
      · rintro ⟨n, rfl, x, hx, ht, rfl⟩
        exact ⟨_, x, ⟨n, dlookup_mem ht, rfl, hx, rfl⟩, rfl⟩
  case patternProperties ps =>
    simp only [evalKw] at h
    split at h
    · contradiction
    · rename_i c1 flags hs
      simp only [Option.some.injEq, Prod.mk.injEq] at h
      have hch : c'.children = c1.children := by rw [← h.2]; split <;> rfl
      rw [hch]
      obtain ⟨h1, h2⟩ := run_sub hok hst hw hc
        (by
          intro j hj'
          obtain ⟨q, hq, rfl⟩ := List.mem_map.1 hj'
          obtain ⟨p, hp, he⟩ := patternJobs_inst hq
          rw [he]; exact member_wf hw hp)
        (by
          have hn : (dkeys ps).Nodup := hko
          rw [dkeys, List.Nodup, List.pairwise_map] at hn
          have hm := members_nodup hw
          rw [dkeys, List.Nodup, List.pairwise_map] at hm
          rw [List.map_map, List.Nodup, List.pairwise_map, patternJobs, List.pairwise_flatMap]
          constructor
          · intro m _
            rw [List.pairwise_map]
            exact (hn.sublist List.filter_sublist).imp (fun hne he => hne (Prod.mk.inj he).1)
          · rw [members_eq, List.pairwise_map]
            refine hm.imp ?_
            intro p q hne x hx y hy he
            obtain ⟨u, _, rfl⟩ := List.mem_map.1 hx
            obtain ⟨v, _, rfl⟩ := List.mem_map.1 hy
            have := congrArg Prod.snd he
            simp only [Function.comp, List.append_cancel_left_eq, List.cons.injEq, and_true] at this
            exact hne this) hs
      refine kids_sub h1 h2 (fun l t j => ?_)
      simp only [AppsOf, AppliesAt, List.mem_map, patternJobs, List.mem_flatMap, List.mem_filter]
      constructor
      · rintro ⟨rel, w, ⟨n, re, hp, hs, rfl, hx, rfl⟩, rfl⟩
        exact ⟨re, rfl, _, ⟨(n, ⟨i.path ++ [n], w⟩), mem_members.2 ⟨w, hx, rfl⟩, (re, t), ⟨hp, hs⟩, rfl⟩, rfl⟩
      · rintro ⟨re, rfl, q, ⟨m, hm, p, ⟨hp, hs⟩, rfl⟩, he⟩
        cases he
        obtain ⟨x, hx, he⟩ := mem_members.1 hm
        exact ⟨_, x, ⟨m.1, _, hp, hs, rfl, hx, rfl⟩, he⟩
  case additionalProperties t =>
    have hnamed := additional_named (env := env) hobj (type_obj hty)
      (hsib _ (by simp [Kw.dependsOn])) (hsib _ (by simp [Kw.dependsOn]))
    simp only [evalKw, evalAdditionalProperties, Option.map_eq_some_iff] at h
    obtain ⟨c2, h, hc2⟩ := h
    cases hc2
    split at h
    · contradiction
    · rename_i c1 flags hs
      simp only [Option.some.injEq] at h
      rw [← h, finishProps_children]
      refine hmembers List.filter_sublist (fun p hp => ?_) hs (fun o t' j => Iff.rfl)
      rw [List.mem_filter, hnamed]
      exact ⟨fun h => h.2, fun h => ⟨hp, h⟩⟩
  case unevaluatedProperties t =>
    have hmem := unevaluated_named (fun n hn => hann (.name n) hn trivial)
    simp only [evalKw, evalUnevaluatedProperties, Option.map_eq_some_iff] at h
    obtain ⟨c2, h, hc2⟩ := h
    cases hc2
    split at h
    · contradiction
    · rename_i c1 flags hs
      simp only [Option.some.injEq] at h
      rw [← h, finishProps_children]
      refine hmembers List.filter_sublist (fun p hp => ?_) hs (fun o t' j => Iff.rfl)
      rw [List.mem_filter]
      have := hmem p.1 (hasMember_of_mem hp)
      exact ⟨fun h => this.1 h.2, fun h => ⟨hp, this.2 h⟩⟩
  case propertyNames t =>
    simp only [evalKw] at h
    split at h
    · contradiction
    · rename_i c1 flags hs
      simp only [Option.some.injEq, Prod.mk.injEq] at h
      have hch : c'.children = c1.children := by rw [← h.2]; split <;> rfl
      obtain ⟨new, hn, h1, h2⟩ := sharedLoop_run hok hst hc.clean
        (by
          intro j hj
          obtain ⟨p, hp, rfl⟩ := mem_insts hj
          rw [(mem_names.1 hp).2]; exact .str)
        (fun j _ => hc.away _) (names_pairwise hw) hs
      rw [hch, hn, hc.kids, List.nil_append]
      refine kids_own h1 h2 (fun o t' j => ?_)
      simp only [AppsOf, AppliesAt]
      constructor
      · rintro ⟨rel, w, ⟨rfl, rfl, n, hm, rfl, rfl⟩, rfl⟩
        exact ⟨rfl, rfl, List.mem_map.2 ⟨(n, _), mem_names.2 ⟨hm, rfl⟩, rfl⟩⟩
      · rintro ⟨rfl, rfl, hj⟩
        obtain ⟨p, hp, rfl⟩ := mem_insts hj
        obtain ⟨hm, he⟩ := mem_names.1 hp
        exact ⟨_, _, ⟨rfl, rfl, p.1, hm, rfl, rfl⟩, he⟩
  case items9 t =>
    simp only [evalKw] at h
    split at h
    · rename_i hnil
      simp only [Option.some.injEq, Prod.mk.injEq] at h
      have hel : elems i.value = [] := (items_nil_iff i).1 hnil
      refine hnone (by rw [← h.2]; exact hc.kids) ?_
      rintro l t rel w ⟨_, _, _, k, hx, _⟩
      rw [hel] at hx; simp at hx
    · split at h
      · rename_i bb hb
        split at h
        · contradiction
        · rename_i c1 hs
          simp only [Option.some.injEq, Prod.mk.injEq] at h
          refine hnone (by rw [← h.2, hkid _ _ _ _ _ _ hb hs]; exact hc.kids) ?_
          rintro l t' rel w ⟨_, _, ⟨ks, hks⟩, _⟩
          rw [hb] at hks; cases hks
      · rename_i ks hb
        split at h
        · contradiction
        · rename_i c1 hs
          simp only [Option.some.injEq, Prod.mk.injEq] at h
          have hch : c'.children = c1.children := by rw [← h.2]; split <;> rfl
          have hval : c1.info.valid = true := by
            rcases hv t rfl with ⟨bb, hbb⟩ | hv
            · rw [hb] at hbb; cases hbb
            · rw [← h.2] at hv
              split at hv
              · exact hv
              · exact hv
          obtain ⟨new, hn, h1, h2⟩ := plainLoop_run hok hst hc.clean
            (by intro j hj; obtain ⟨p, hp, rfl⟩ := mem_insts hj; exact items_wf hw hp)
            (fun j _ => hc.away _) (items_pairwise (List.Sublist.refl _)) hs hval
          rw [hch, hn, hc.kids, List.nil_append]
          refine kids_own h1 h2 (fun o t' j => ?_)
          rw [mem_insts_items (C := fun _ => True) (List.Sublist.refl _)
            (fun p hp => ⟨fun _ => trivial, fun _ => hp⟩)]
          simp only [AppsOf, AppliesAt, hb, true_and]
          constructor
          · rintro ⟨rel, w, ⟨h1, h2, _, h3⟩, h4⟩; exact ⟨h1, h2, rel, w, h3, h4⟩
          · rintro ⟨h1, h2, rel, w, h3, h4⟩; exact ⟨rel, w, ⟨h1, h2, ⟨_, rfl⟩, h3⟩, h4⟩
  case additionalItems t =>
    have hs1 := hsib "items" (by simp [Kw.dependsOn])
    have hsome := items_ann_some hko hkws hs1
    simp only [evalKw] at h
    split at h
    · rename_i last hlast
      obtain ⟨ss, hss, hne, hel, hh, hz⟩ := hsome last hlast
      have hlen0 : 0 < ss.length := List.length_pos_iff.2 hne
      have hlen1 : 0 < (elems i.value).length := List.length_pos_iff.2 hel
      split at h
      · contradiction
      · rename_i c1 flags hs
        simp only [Option.some.injEq, Prod.mk.injEq] at h
        rw [← h.2, finishItems_children]
        refine hitems (C := fun k => ss.length ≤ k) List.filter_sublist (fun p hp => ?_) hs (fun o t' j => ?_)
        · have := lt_of_mem_items hp
          rw [List.mem_filter, decide_eq_true_eq]
          constructor
          · rintro ⟨_, h⟩; omega
          · intro h; exact ⟨hp, by omega⟩
        · simp only [AppsOf, AppliesAt]
          constructor
          · rintro ⟨rel, w, ⟨h1, h2, ss', hss', _, _, h3⟩, h4⟩
            have := key_unique hkws.nodup hss' hss rfl
            injection this with this
            subst this
            exact ⟨rel, w, ⟨h1, h2, h3⟩, h4⟩
          · rintro ⟨rel, w, ⟨h1, h2, h3⟩, h4⟩
            exact ⟨rel, w, ⟨h1, h2, ss, hss, hne, hh, h3⟩, h4⟩
    · simp only [Option.some.injEq, Prod.mk.injEq] at h
      rw [← h.2] at hd
      cases hd
  case recursiveRef t =>
    simp only [evalKw] at h
    split at h
    · contradiction
    · rename_i c1 hr
      simp only [Option.some.injEq, Prod.mk.injEq] at h
      rw [recLoop_stut hst] at hr h
      exact kids_rec hok hst hw hc hr (by rw [← h.2]; rfl) (fun l t' j => hhere)
  case ref t =>
    simp only [evalKw] at h
    split at h
    · contradiction
    · rename_i c1 hr
      simp only [Option.some.injEq, Prod.mk.injEq] at h
      exact kids_rec hok hst hw hc hr (by rw [← h.2]; rfl) (fun l t' j => hhere)
  case dynamicRef t frag dyn =>
    simp only [evalKw] at h
    split at h
    · contradiction
    · rename_i c1 hr
      simp only [Option.some.injEq, Prod.mk.injEq] at h
      rw [dynLoop_stut hst] at hr h
      exact kids_rec hok hst hw hc hr (by rw [← h.2]; rfl) (fun l t' j => hhere)
  case static k v =>
    simp only [evalKw, Option.some.injEq, Prod.mk.injEq] at h
    exact hnone (by rw [← h.2]; exact hc.kids) (fun _ _ _ _ hx => hx)
  case format attr enabled =>
    simp only [evalKw, Option.some.injEq, Prod.mk.injEq] at h
    refine hnone ?_ (fun _ _ _ _ hx => hx)
    rw [← h.2]; split
    · split <;> exact hc.kids
    · exact hc.kids
  case annot k so v =>
    simp only [evalKw, Option.some.injEq, Prod.mk.injEq] at h
    exact hnone (by rw [← h.2]; exact hc.kids) (fun _ _ _ _ hx => hx)
  case contentSchema v =>
    simp only [evalKw, Option.some.injEq, Prod.mk.injEq] at h
    refine hnone ?_ (fun _ _ _ _ hx => hx)
    rw [← h.2]; split <;> exact hc.kids
  case unknown k v =>
    simp only [evalKw, Option.some.injEq, Prod.mk.injEq] at h
    exact hnone (by rw [← h.2]; exact hc.kids) (fun _ _ _ _ hx => hx)

end

/-! ## The verdict in the result of a keyword -/

section
variable {rec : Rec} (hf : ∀ sc s i r r', rec sc s i r = some r' → Frame r r') {chain : List SRef}

theorem Frame.asrt {r r' : RNode} (h : Frame r r') : r'.info.asrt = r.info.asrt := by rw [h.eq]

theorem subLoop_asrt : ∀ {jobs : List (String × SRef × Inst)} {c c' : RNode} {flags},
    subLoop rec chain jobs c = some (c', flags) → c'.info.asrt = c.info.asrt
  | [], c, c', flags, h => by
    simp only [subLoop, Option.some.injEq, Prod.mk.injEq] at h
    rw [← h.1]
  | (key, t, i) :: jobs, c, c', flags, h => by
    simp only [subLoop] at h
    split at h
    · contradiction
    · split at h
      · contradiction
      · rename_i h2
        simp only [Option.some.injEq, Prod.mk.injEq] at h
        rw [← h.1, subLoop_asrt h2]
        split <;> rfl

include hf

theorem sharedLoop_asrt {t : SRef} : ∀ {is : List Inst} {c c' : RNode} {flags},
    sharedLoop rec chain t is c = some (c', flags) → c'.info.asrt = c.info.asrt
  | [], c, c', flags, h => by
    simp only [sharedLoop, Option.some.injEq, Prod.mk.injEq] at h
    rw [← h.1]
  | i :: is, c, c', flags, h => by
    simp only [sharedLoop] at h
    split at h
    · contradiction
    · rename_i c1 h1
      split at h
      · contradiction
      · rename_i h2
        simp only [Option.some.injEq, Prod.mk.injEq] at h
        rw [← h.1, sharedLoop_asrt h2, ← (hf _ _ _ _ _ h1).asrt]
        split <;> rfl

theorem plainLoop_asrt {t : SRef} : ∀ {is : List Inst} {c c' : RNode},
    plainLoop rec chain t is c = some c' → c'.info.asrt = c.info.asrt
  | [], c, c', h => by
    simp only [plainLoop, Option.some.injEq] at h
    rw [← h]
  | i :: is, c, c', h => by
    simp only [plainLoop] at h
    split at h
    · contradiction
    · rename_i c1 h1
      rw [plainLoop_asrt h, (hf _ _ _ _ _ h1).asrt]

/-- Only the result of `if` is invalid without asserting. -/
theorem evalKw_speaks {st : Store} {env : Env} {kw : Kw} {i : Inst} {parent parent' c c' : RNode}
    (hc : Clean c) (hif : ∀ t, kw ≠ .if_ t) (h : evalKw st env rec chain kw i parent c = some (parent', c')) :
    c'.info.asrt = true ∨ c'.info.valid = true := by
  have ha := hc.asrt
  have hv := hc.valid
  cases kw
  case if_ t => exact absurd rfl (hif t)
  case then_ t =>
    simp only [evalKw] at h
    repeat' (first
      | contradiction
      | (simp only [Option.some.injEq, Prod.mk.injEq] at h; obtain ⟨_, rfl⟩ := h)
      | split at h)
    all_goals first
      | exact .inl ((hf _ _ _ _ _ ‹_›).asrt.trans ha)
      | exact .inl ha
  case else_ t =>
    simp only [evalKw] at h
    repeat' (first
      | contradiction
      | (simp only [Option.some.injEq, Prod.mk.injEq] at h; obtain ⟨_, rfl⟩ := h)
      | split at h)
    all_goals first
      | exact .inl ((hf _ _ _ _ _ ‹_›).asrt.trans ha)
      | exact .inl ha
  all_goals
    simp only [evalKw, evalUnevaluatedItems, evalUnevaluatedItems9, evalUnevaluatedProperties,
      evalAdditionalProperties, evalMinContains, Option.map_eq_some_iff, Prod.mk.injEq,
      Option.some.injEq] at h
    repeat' (first
      | contradiction
      | (obtain ⟨_, h, _, rfl⟩ := h)
      | (obtain ⟨_, rfl⟩ := h)
      | split at h)
  all_goals (try (simp only [Option.some.injEq] at h; subst h))
  all_goals (try unfold finishItems)
  all_goals (try unfold finishProps)
  all_goals
    repeat' (first
      | exact .inl ha
      | exact .inl ((subLoop_asrt ‹_›).trans ha)
      | exact .inl ((sharedLoop_asrt hf ‹_›).trans ha)
      | exact .inl ((plainLoop_asrt hf ‹_›).trans ha)
      | exact .inl ((hf _ _ _ _ _ ‹_›).asrt.trans ha)
      | exact .inr hv
      | split)
  all_goals (refine .inl ?_; simp only [RNode.fail, RNode.annotate, RNode.pass_, RNode.setRef, RNode.info_mk])
  all_goals first
    | exact (subLoop_asrt ‹_›).trans ha
    | exact (sharedLoop_asrt hf ‹_›).trans ha
    | exact (plainLoop_asrt hf ‹_›).trans ha
    | exact (hf _ _ _ _ _ ‹_›).asrt.trans ha

end

/-- The result of a keyword is valid as it should be. -/
theorem kw_valid {d : Dialect} {st : Store} {env : Env} {rec : Rec} {M : Meaning} (hok : RecOk d rec M)
    {a b : List SRef} {s : SRef} (hst : Stut (s :: a) (s :: b))
    {i : Inst} (hw : i.value.WF) {c : RNode} {kws : List Kw} {parent parent' c' : RNode}
    {kw : Kw} (hkws : KwsOk d kws) (hobj : st.obj s = .obj kws)
    (hbool : ∀ t bb, st.obj t = .bool bb → ∀ sc v pt, ¬ M.ev sc t v pt)
    (hkw : kw ∈ kws) (hc : FreshFor c i kw.key s)
    (hty : kw.types.contains i.value.type = true)
    (hsib : ∀ key ∈ kw.dependsOn (decide (d = .d2019)),
      SibOk st env d M (s :: b) kws i s (sibling parent i key) key)
    (hann : ∀ pt, pt.In i.value → UnevalFor kw pt → (evs (Cover d pt) i.path parent ↔
      ∃ kw' ∈ kws, ObsEv (codeRules st env d) env st M (s :: b) kws i.value kw' pt))
    (hcon : ∀ t, kw ≠ .contains t)
    (h : evalKw st env rec (s :: a) kw i parent c = some (parent', c')) (hd : c'.info.discard = false) :
    c'.info.valid = true ↔ ResultValid (codeRules st env d) env st M (s :: b) kws i.value kw := by
  have hstep := (kw_step hok hst hw hkws hobj hbool hkw hc hty hsib hann h).pass
  simp only [remains_some hd, Option.some.injEq, forall_eq'] at hstep
  by_cases hif : ∃ t, kw = .if_ t
  · obtain ⟨t, rfl⟩ := hif
    simp only [evalKw] at h
    split at h
    · contradiction
    · rename_i c1 hs
      simp only [Option.some.injEq, Prod.mk.injEq] at h
      rw [← h.2]
      have := (rec_spec hok hst hw hc.clean (hc.away _) hs).1
      simp only [RNode.noassert, RNode.info_mk, this, vb_iff]
      rfl
  · have hp : c'.passed = true ↔ c'.info.valid = true := by
      rcases evalKw_speaks hok.frame hc.clean (fun t ht => hif ⟨t, ht⟩) h with h | h
      · rw [passed_of_asrt h]
      · simp [RNode.passed, h]
    rw [← hp, hstep]
    cases kw <;> first | rfl | exact absurd rfl (hcon _) | exact absurd ⟨_, rfl⟩ hif

end Jschon
