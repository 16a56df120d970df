import Verif.Proof.EvalItems

/-!
# An invalid result carries an error
-/

namespace Jschon

/-- `collect_errors()` yields something. -/
def Err (r : RNode) : Prop := r.errors none none ≠ []

theorem childErrors_ne {p : Option (List String)} {k : Option String} :
    ∀ {cs : List ((String × List String) × RNode)} {e}, e ∈ cs → e.2.errors p k ≠ [] →
      childErrors p k cs ≠ []
  | [], _, he, _ => by simp at he
  | (k', c) :: r, e, he, h => by
    simp only [childErrors]
    rcases List.mem_cons.1 he with rfl | he
    · intro h'; exact h (List.append_eq_nil_iff.1 h').1
    · intro h'; exact childErrors_ne he h (List.append_eq_nil_iff.1 h').2

theorem Err.of_error {r : RNode} (hv : r.info.valid = false) (hd : r.info.discard = false)
    (he : r.info.error ≠ .null) : Err r := by
  cases r with
  | mk info cs =>
    simp only [RNode.info_mk] at hv hd he
    simp only [Err, RNode.errors, hv, hd, Bool.not_false, Bool.and_self, if_true]
    intro h
    have := (List.append_eq_nil_iff.1 h).1
    revert this
    cases hh : info.error <;> simp_all

theorem Err.of_child {r : RNode} (hv : r.info.valid = false) (hd : r.info.discard = false)
    {e} (he : e ∈ r.children) (h : Err e.2) : Err r := by
  cases r with
  | mk info cs =>
    simp only [RNode.info_mk] at hv hd
    simp only [Err, RNode.errors, hv, hd, Bool.not_false, Bool.and_self, if_true]
    intro h'
    exact childErrors_ne he h (List.append_eq_nil_iff.1 h').2

/-- There is an error on the result, or below a child whose instance path is in `S`. -/
def ErrAt (S : List (List String)) (r : RNode) : Prop :=
  r.info.error ≠ .null ∨ ∃ e ∈ r.children, e.1.2 ∈ S ∧ Err e.2

theorem ErrAt.err {S : List (List String)} {r : RNode} (h : ErrAt S r) (hv : r.info.valid = false)
    (hd : r.info.discard = false) : Err r := by
  rcases h with h | ⟨e, he, _, h⟩
  · exact .of_error hv hd h
  · exact .of_child hv hd he h

/-- What an evaluator does to a result that has dealt with the instance paths `S` so far. -/
def RecErr (rec : Rec) : Prop :=
  ∀ sc s i r r' S, rec sc s i r = some r' → Good (fun _ => True) r → i.path ∉ S →
    (∀ e ∈ r.children, e.1.2 ∈ S) → (r.info.valid = false → ErrAt S r) → r.info.discard = false →
    Good (fun _ => True) r' ∧ Frame r r' ∧ (∀ e ∈ r'.children, e.1.2 ∈ i.path :: S) ∧
    (r'.info.valid = false → ErrAt (i.path :: S) r')

theorem closed_true : Closed (fun _ => True) := ⟨by simp, by simp, by simp⟩

section
variable {rec : Rec} {st : Store} {env : Env} {sc : List SRef} {i : Inst}

/-- The frame part of `RecErr`. -/
def RecFrame (rec : Rec) : Prop := ∀ sc s i r r', rec sc s i r = some r' → Frame r r'

theorem sharedLoop_keep (hf : RecFrame rec) {t : SRef} : ∀ {is : List Inst} {c c' : RNode} {flags},
    c.info.valid = true → c.info.asrt = true → sharedLoop rec sc t is c = some (c', flags) →
      c'.info.valid = true ∧ c'.info.discard = c.info.discard
  | [], c, c', flags, hv, _, h => by
    simp only [sharedLoop, Option.some.injEq, Prod.mk.injEq] at h
    rw [← h.1]; exact ⟨hv, rfl⟩
  | i :: is, c, c', flags, hv, ha, h => by
    simp only [sharedLoop] at h
    cases hr : rec sc t i c with
    | none => simp [hr] at h
    | some c1 =>
      simp only [hr] at h
      have hfr := hf _ _ _ _ _ hr
      have ha1 : c1.info.asrt = true := by rw [hfr.eq]; exact ha
      have hd1 : c1.info.discard = c.info.discard := by rw [hfr.eq]
      cases hs : sharedLoop rec sc t is (if c1.passed then c1 else c1.pass_) with
      | none => simp [hs] at h
      | some p =>
        obtain ⟨c3, fl⟩ := p
        simp only [hs, Option.some.injEq, Prod.mk.injEq] at h
        obtain ⟨h1, h2⟩ := sharedLoop_keep hf (c := if c1.passed then c1 else c1.pass_)
          (by split
              · rename_i hp; rw [passed_of_asrt ha1] at hp; exact hp
              · rfl)
          (by split <;> exact ha1) hs
        rw [← h.1]
        refine ⟨h1, h2.trans ?_⟩
        split <;> exact hd1

/-- The end of a keyword: the result is still valid, or has an error. -/
inductive Fin (c : RNode) : RNode → Prop
  | same : Fin c c
  | annotate (v) : Fin c (c.annotate v)
  | fail (e) : e ≠ .null → Fin c (c.fail e)
  | failed (v e) : e ≠ .null → Fin c ((c.annotate v).fail e)

theorem Fin.ite {c a b : RNode} {p : Prop} [Decidable p] (ha : Fin c a) (hb : Fin c b) :
    Fin c (if p then a else b) := by split <;> assumption

theorem Fin.err {c c' : RNode} (h : Fin c c') (hv : c.info.valid = true)
    (hd : c.info.discard = false) : c'.info.valid = false → Err c' := by
  intro hv'
  cases h with
  | same => rw [hv] at hv'; contradiction
  | annotate v => simp only [RNode.annotate, RNode.info_mk, hv] at hv'; contradiction
  | fail e he => exact .of_error rfl hd he
  | failed v e he => exact .of_error rfl hd he

theorem fin_finishItems (c : RNode) (t f) : Fin c (finishItems c t f) :=
  Fin.ite (.annotate _) (.fail _ (by simp [nats]))
theorem fin_finishProps (c : RNode) (t f) : Fin c (finishProps c t f) :=
  Fin.ite (.annotate _) (.fail _ (by simp [strs]))

theorem plainLoop_err (hrec : RecErr rec) {t : SRef} : ∀ {is : List Inst} {c c' : RNode} {S},
    Good (fun _ => True) c → is.Pairwise (fun a b => a.path ≠ b.path) → (∀ j ∈ is, j.path ∉ S) →
    (∀ e ∈ c.children, e.1.2 ∈ S) → (c.info.valid = false → ErrAt S c) → c.info.discard = false →
    plainLoop rec sc t is c = some c' →
      c'.info.discard = false ∧ (c'.info.valid = false → ∃ S', ErrAt S' c')
  | [], c, c', S, _, _, _, _, hv, hd, h => by
    simp only [plainLoop, Option.some.injEq] at h
    rw [← h]; exact ⟨hd, fun h => ⟨S, hv h⟩⟩
  | i :: is, c, c', S, hg, hp, hS, hch, hv, hd, h => by
    simp only [plainLoop] at h
    cases hr : rec sc t i c with
    | none => simp [hr] at h
    | some c1 =>
      simp only [hr] at h
      rw [List.pairwise_cons] at hp
      obtain ⟨h1, h2, h3, h4⟩ := hrec _ _ _ _ _ S hr hg (hS _ List.mem_cons_self) hch hv hd
      refine plainLoop_err hrec (S := i.path :: S) h1 hp.2 ?_ h3 h4 (by rw [h2.eq]; exact hd) h
      intro j hj hmem
      rcases List.mem_cons.1 hmem with hmem | hmem
      · exact hp.1 j hj hmem.symm
      · exact hS j (List.mem_cons_of_mem _ hj) hmem

theorem insts_paths_ne (i : Inst) : (insts i.items).Pairwise (fun a b => a.path ≠ b.path) :=
  (items_pairwise (List.Sublist.refl _)).imp (fun h h' => h (by rw [h']; exact List.prefix_rfl))

/-- A keyword that fails, and is not discarded, leaves an error. -/
theorem evalKw_err (hrec : RecErr rec) (hf : RecFrame rec)
    (hgood : RecGood (fun _ => True) rec) {kw : Kw} {parent c parent' c' : RNode}
    (hv : c.info.valid = true) (hd : c.info.discard = false) (ha : c.info.asrt = true)
    (hc0 : c.children = []) (hg : Good (fun _ => True) c)
    (h : evalKw st env rec sc kw i parent c = some (parent', c')) :
    c'.info.valid = false → c'.info.discard = false → Err c' := by
  have fin : ∀ {c1 : RNode}, Fin c c1 → c1.info.valid = false → c1.info.discard = false → Err c1 :=
    fun h hv' _ => h.err hv hd hv'
  have disc : c.setDiscard.info.valid = false → c.setDiscard.info.discard = false → Err c.setDiscard :=
    fun _ h => by simp [RNode.setDiscard] at h
  have sub : ∀ {jobs : List (String × SRef × Inst)} {c1 c2 : RNode} {flags : List Bool},
      subLoop rec sc jobs c = some (c1, flags) → Fin c1 c2 →
      c2.info.valid = false → c2.info.discard = false → Err c2 := by
    intro jobs c1 c2 flags hs hfin hv' _
    obtain ⟨_, h1⟩ := subLoop_good hgood (fun _ _ => trivial) hg hs
    exact hfin.err (by rw [h1]; exact hv) (by rw [h1]; exact hd) hv'
  have shared : ∀ {is : List Inst} {t : SRef} {c1 c2 : RNode} {flags : List Bool},
      sharedLoop rec sc t is c = some (c1, flags) → Fin c1 c2 →
      c2.info.valid = false → c2.info.discard = false → Err c2 := by
    intro is t c1 c2 flags hs hfin hv' _
    obtain ⟨h1, h2⟩ := sharedLoop_keep hf hv ha hs
    exact hfin.err h1 (h2.trans hd) hv'
  have inpl : ∀ {sc : List SRef} {t : SRef} {c1 c2 : RNode}, rec sc t i c = some c1 →
      c2.info.valid = c1.info.valid → c2.info.error = c1.info.error → c2.children = c1.children →
      c2.info.valid = false → c2.info.discard = false → Err c2 := by
    intro sc t c1 c2 hr h1 h2 h3 hv' hd'
    obtain ⟨_, _, _, h4⟩ := hrec _ _ _ _ _ [] hr hg (by simp) (by rw [hc0]; simp)
      (by rw [hv]; simp) hd
    have h5 := h4 (h1 ▸ hv')
    refine ErrAt.err (S := [i.path]) ?_ hv' hd'
    simpa only [ErrAt, h2, h3] using h5
  cases kw
  case assert a =>
    simp only [evalKw, Option.some.injEq, Prod.mk.injEq] at h
    rw [← h.2]; exact fin (Fin.ite .same (.fail _ (by simp [Assertion.message])))
  case maxContains m =>
    simp only [evalKw, Option.some.injEq, Prod.mk.injEq] at h
    rw [← h.2]
    split
    · exact fin .same
    · exact fin (Fin.ite (.fail _ (by simp)) .same)
  case minContains m =>
    simp only [evalKw, evalMinContains, Option.some.injEq] at h
    split at h
    · simp only [Prod.mk.injEq] at h; rw [← h.2]; exact fin .same
    · simp only [Prod.mk.injEq] at h; rw [← h.2]; exact fin (Fin.ite .same (.fail _ (by simp)))
  case allOf ss =>
    simp only [evalKw] at h
    split at h
    · contradiction
    · rename_i hs
      simp only [Option.some.injEq, Prod.mk.injEq] at h
      rw [← h.2]; exact sub hs (Fin.ite .same (.fail _ (by simp)))
  case anyOf ss =>
    simp only [evalKw] at h
    split at h
    · contradiction
    · rename_i hs
      simp only [Option.some.injEq, Prod.mk.injEq] at h
      rw [← h.2]; exact sub hs (Fin.ite .same (.fail _ (by simp)))
  case oneOf ss =>
    simp only [evalKw] at h
    split at h
    · contradiction
    · rename_i hs
      simp only [Option.some.injEq, Prod.mk.injEq] at h
      rw [← h.2]; exact sub hs (Fin.ite .same (.fail _ (by simp)))
  case not_ t =>
    simp only [evalKw] at h
    split at h
    · contradiction
    · rename_i c1 hs
      simp only [Option.some.injEq, Prod.mk.injEq] at h
      rw [← h.2]
      have hfr := hf _ _ _ _ _ hs
      split
      · intro _ hd'
        exact .of_error rfl hd' (by simp [RNode.fail])
      · intro hv'; simp [RNode.pass_] at hv'
  case if_ t =>
    simp only [evalKw] at h
    split at h
    · contradiction
    · rename_i hs
      simp only [Option.some.injEq, Prod.mk.injEq] at h
      rw [← h.2]; exact inpl hs rfl rfl rfl
  case then_ t =>
    simp only [evalKw] at h
    split at h
    · split at h
      · split at h
        · contradiction
        · rename_i hs
          simp only [Option.some.injEq, Prod.mk.injEq] at h
          rw [← h.2]; exact inpl hs rfl rfl rfl
      · simp only [Option.some.injEq, Prod.mk.injEq] at h
        rw [← h.2]; exact disc
    · have h : some (parent, c.setDiscard) = some (parent', c') := h
      simp only [Option.some.injEq, Prod.mk.injEq] at h
      rw [← h.2]; exact disc
  case else_ t =>
    simp only [evalKw] at h
    split at h
    · split at h
      · split at h
        · contradiction
        · rename_i hs
          simp only [Option.some.injEq, Prod.mk.injEq] at h
          rw [← h.2]; exact inpl hs rfl rfl rfl
      · simp only [Option.some.injEq, Prod.mk.injEq] at h
        rw [← h.2]; exact disc
    · have h : some (parent, c.setDiscard) = some (parent', c') := h
      simp only [Option.some.injEq, Prod.mk.injEq] at h
      rw [← h.2]; exact disc
  case dependentSchemas ps =>
    simp only [evalKw] at h
    split at h
    · contradiction
    · rename_i hs
      simp only [Option.some.injEq, Prod.mk.injEq] at h
      rw [← h.2]; exact sub hs (Fin.ite (.annotate _) (.fail _ (by simp)))
  case prefixItems ss =>
    simp only [evalKw] at h
    split at h
    · contradiction
    · rename_i hs
      simp only [Option.some.injEq, Prod.mk.injEq] at h
      rw [← h.2]
      exact sub hs (Fin.ite (Fin.ite .same (.annotate _)) (.fail _ (by simp [nats])))
  case items t =>
    simp only [evalKw] at h
    split at h
    · contradiction
    · rename_i hs
      simp only [Option.some.injEq, Prod.mk.injEq] at h
      rw [← h.2]; exact shared hs (fin_finishItems _ _ _)
  case unevaluatedItems t =>
    simp only [evalKw, Option.map_eq_some_iff, Prod.mk.injEq] at h
    obtain ⟨_, h, _, rfl⟩ := h
    simp only [evalUnevaluatedItems] at h
    split at h
    · rw [← Option.some.inj h]; exact disc
    split at h
    · rw [← Option.some.inj h]; exact disc
    split at h
    · rw [← Option.some.inj h]; exact disc
    split at h
    · contradiction
    · rename_i hs
      rw [← Option.some.inj h]; exact shared hs (fin_finishItems _ _ _)
  case contains t =>
    simp only [evalKw] at h
    split at h
    · contradiction
    · rename_i hs
      simp only [Option.some.injEq, Prod.mk.injEq] at h
      rw [← h.2]; exact shared hs (Fin.ite (.failed _ _ (by simp)) (.annotate _))
  case properties ps =>
    simp only [evalKw] at h
    split at h
    · contradiction
    · rename_i hs
      simp only [Option.some.injEq, Prod.mk.injEq] at h
      rw [← h.2]; exact sub hs (Fin.ite (.annotate _) (.fail _ (by simp)))
  case patternProperties ps =>
    simp only [evalKw] at h
    split at h
    · contradiction
    · rename_i hs
      simp only [Option.some.injEq, Prod.mk.injEq] at h
      rw [← h.2]; exact sub hs (Fin.ite (.annotate _) (.fail _ (by simp)))
  case additionalProperties t =>
    simp only [evalKw, Option.map_eq_some_iff, Prod.mk.injEq] at h
    obtain ⟨_, h, _, rfl⟩ := h
    simp only [evalAdditionalProperties] at h
    split at h
    · contradiction
    · rename_i hs
      rw [← Option.some.inj h]; exact shared hs (fin_finishProps _ _ _)
  case unevaluatedProperties t =>
    simp only [evalKw, Option.map_eq_some_iff, Prod.mk.injEq] at h
    obtain ⟨_, h, _, rfl⟩ := h
    simp only [evalUnevaluatedProperties] at h
    split at h
    · contradiction
    · rename_i hs
      rw [← Option.some.inj h]; exact shared hs (fin_finishProps _ _ _)
  case propertyNames t =>
    simp only [evalKw] at h
    split at h
    · contradiction
    · rename_i hs
      simp only [Option.some.injEq, Prod.mk.injEq] at h
      rw [← h.2]; exact shared hs (Fin.ite .same (.fail _ (by simp [strs])))
  case items9 t =>
    simp only [evalKw] at h
    split at h
    · simp only [Option.some.injEq, Prod.mk.injEq] at h
      rw [← h.2]; exact fin .same
    split at h
    · split at h
      · contradiction
      · rename_i hs
        simp only [Option.some.injEq, Prod.mk.injEq] at h
        rw [← h.2]; exact inpl hs rfl rfl rfl
    · split at h
      · contradiction
      · rename_i c1 hs
        simp only [Option.some.injEq, Prod.mk.injEq] at h
        rw [← h.2]
        obtain ⟨h1, h2⟩ := plainLoop_err hrec (S := []) hg (insts_paths_ne i) (by simp)
          (by rw [hc0]; simp) (by rw [hv]; simp) hd hs
        intro hv' hd'
        have hc1 : c1.info.valid = false := by
          revert hv'; split <;> exact id
        obtain ⟨S, h3⟩ := h2 hc1
        refine ErrAt.err (S := S) ?_ hv' hd'
        split
        · exact h3
        · exact h3
  case items9Array ss =>
    simp only [evalKw] at h
    split at h
    · simp only [Option.some.injEq, Prod.mk.injEq] at h
      rw [← h.2]; exact fin .same
    split at h
    · contradiction
    · rename_i hs
      simp only [Option.some.injEq, Prod.mk.injEq] at h
      rw [← h.2]; exact sub hs (Fin.ite (.annotate _) (.fail _ (by simp [nats])))
  case additionalItems t =>
    simp only [evalKw] at h
    split at h
    · split at h
      · contradiction
      · rename_i hs
        simp only [Option.some.injEq, Prod.mk.injEq] at h
        rw [← h.2]; exact shared hs (fin_finishItems _ _ _)
    · have h : some (parent, c.setDiscard) = some (parent', c') := h
      simp only [Option.some.injEq, Prod.mk.injEq] at h
      rw [← h.2]; exact disc
  case unevaluatedItems9 t =>
    simp only [evalKw, Option.map_eq_some_iff, Prod.mk.injEq] at h
    obtain ⟨_, h, _, rfl⟩ := h
    simp only [evalUnevaluatedItems9] at h
    split at h
    · rw [← Option.some.inj h]; exact disc
    split at h
    · rw [← Option.some.inj h]; exact disc
    split at h
    · rw [← Option.some.inj h]; exact disc
    split at h
    · contradiction
    · rename_i hs
      rw [← Option.some.inj h]; exact shared hs (fin_finishItems _ _ _)
  case recursiveRef t =>
    simp only [evalKw] at h
    split at h
    · contradiction
    · rename_i hs
      simp only [Option.some.injEq, Prod.mk.injEq] at h
      rw [← h.2]; exact inpl hs rfl rfl rfl
  case ref t =>
    simp only [evalKw] at h
    split at h
    · contradiction
    · rename_i hs
      simp only [Option.some.injEq, Prod.mk.injEq] at h
      rw [← h.2]; exact inpl hs rfl rfl rfl
  case dynamicRef t frag dynamic =>
    simp only [evalKw] at h
    split at h
    · contradiction
    · rename_i hs
      simp only [Option.some.injEq, Prod.mk.injEq] at h
      rw [← h.2]; exact inpl hs rfl rfl rfl
  case static k v =>
    simp only [evalKw, Option.some.injEq, Prod.mk.injEq] at h
    rw [← h.2]; exact fin .same
  case format attr enabled =>
    simp only [evalKw, Option.some.injEq, Prod.mk.injEq] at h
    rw [← h.2]
    split
    · exact fin (Fin.ite (.annotate _) (.failed _ _ (by simp)))
    · intro hv'; simp [RNode.noassert, RNode.annotate, hv] at hv'
  case annot k so v =>
    simp only [evalKw, Option.some.injEq, Prod.mk.injEq] at h
    rw [← h.2]
    intro hv'; simp [RNode.noassert, RNode.annotate, hv] at hv'
  case contentSchema v =>
    simp only [evalKw, Option.some.injEq, Prod.mk.injEq] at h
    rw [← h.2]
    split
    · intro hv'; simp [RNode.noassert, RNode.annotate, hv] at hv'
    · exact disc
  case unknown k v =>
    simp only [evalKw, Option.some.injEq, Prod.mk.injEq] at h
    rw [← h.2]
    intro hv'; simp [RNode.noassert, RNode.annotate, hv] at hv'

/-- The children so far: about other instances, or about this one and with an error if invalid. -/
def LoopErr (S : List (List String)) (p : List String) (r : RNode) : Prop :=
  ∀ e ∈ r.children, e.1.2 ∈ S ∨ e.1.2 = p ∧ (e.2.info.valid = false → Err e.2)

theorem mem_cset_ne {k : String × List String} {c : RNode} :
    ∀ {cs : List ((String × List String) × RNode)} {e}, e ∈ cs → e.1 ≠ k → e ∈ cset k c cs
  | (k', c') :: r, e, he, hk => by
    simp only [cset]
    rcases List.mem_cons.1 he with rfl | he
    · split
      · rename_i h; exact absurd h.symm hk
      · exact List.mem_cons_self
    · split
      · exact List.mem_cons_of_mem _ he
      · exact List.mem_cons_of_mem _ (mem_cset_ne he hk)

theorem mem_cerase_ne {k : String × List String} :
    ∀ {cs : List ((String × List String) × RNode)} {e}, e ∈ cs → e.1 ≠ k → e ∈ cerase k cs
  | (k', c') :: r, e, he, hk => by
    simp only [cerase]
    rcases List.mem_cons.1 he with rfl | he
    · split
      · rename_i h; exact absurd h.symm hk
      · exact List.mem_cons_self
    · split
      · exact he
      · exact List.mem_cons_of_mem _ (mem_cerase_ne he hk)

theorem cerase_cset {k : String × List String} {c : RNode} :
    ∀ {cs : List ((String × List String) × RNode)}, cerase k (cset k c cs) = cerase k cs
  | [] => by simp [cset, cerase]
  | (k', c') :: r => by
    simp only [cset]
    split
    · rename_i h; simp [cerase, h]
    · rename_i h; simp only [cerase, if_neg h]; rw [cerase_cset]

theorem ErrAt.setChild {S : List (List String)} {r c : RNode} {k : String × List String}
    (h : ErrAt S r) (hk : k.2 ∉ S) : ErrAt S (r.setChild k c) := by
  rcases h with h | ⟨e, he, hS, h⟩
  · exact .inl h
  · exact .inr ⟨e, mem_cset_ne he (fun h' => hk (h' ▸ hS)), hS, h⟩

theorem ErrAt.delChild {S : List (List String)} {r : RNode} {k : String × List String}
    (h : ErrAt S r) (hk : k.2 ∉ S) : ErrAt S (r.delChild k) := by
  rcases h with h | ⟨e, he, hS, h⟩
  · exact .inl h
  · exact .inr ⟨e, mem_cerase_ne he (fun h' => hk (h' ▸ hS)), hS, h⟩

theorem LoopErr.setChild {S : List (List String)} {p : List String} {r c : RNode} {key : String}
    (h : LoopErr S p r) (hc : c.info.valid = false → Err c) : LoopErr S p (r.setChild (key, p) c) := by
  intro e he
  rcases mem_cset he with rfl | he
  · exact .inr ⟨rfl, hc⟩
  · exact h e he

theorem LoopErr.delChild {S : List (List String)} {p : List String} {r : RNode}
    {k : String × List String} (h : LoopErr S p r) : LoopErr S p (r.delChild k) :=
  fun e he => h e (mem_cerase he)

theorem kwLoop_err (hrec : RecErr rec) (hf : RecFrame rec) (hgood : RecGood (fun _ => True) rec)
    {s : SRef} {S : List (List String)} (hS : i.path ∉ S) :
    ∀ {kws : List Kw} {r r' : RNode}, LoopErr S i.path r → kwLoop st env rec sc s i kws r = some r' →
      LoopErr S i.path r' ∧ (ErrAt S r → ErrAt S r')
  | [], r, r', hl, h => by
    simp only [kwLoop, Option.some.injEq] at h
    rw [← h]; exact ⟨hl, id⟩
  | kw :: kws, r, r', hl, h => by
    simp only [kwLoop] at h
    split at h
    · simp only [withSub] at h
      cases he : evalKw st env rec (s :: sc) kw i
          (r.setChild (kw.key, i.path) (r.fresh i kw.key s)) (r.fresh i kw.key s) with
      | none => simp only [he] at h; contradiction
      | some p =>
        obtain ⟨p', c'⟩ := p
        simp only [he] at h
        have h1 := evalKw_err hrec hf hgood rfl rfl rfl rfl (Good.fresh trivial) he
        have hl0 : LoopErr S i.path (r.setChild (kw.key, i.path) (r.fresh i kw.key s)) :=
          hl.setChild (fun h => by simp [RNode.fresh] at h)
        have hp : LoopErr S i.path p' ∧ (ErrAt S r → ErrAt S p') := by
          rcases evalKw_parent he with rfl | ⟨con, _, _, rfl⟩
          · exact ⟨hl0, fun h => h.setChild hS⟩
          · exact ⟨hl0.setChild (fun h => by simp [RNode.pass_] at h),
              fun h => (h.setChild hS).setChild hS⟩
        have hcs : ∀ e ∈ (p'.setChild (kw.key, i.path) c').children, e = ((kw.key, i.path), c') ∨
            e ∈ p'.children := fun e he => mem_cset he
        cases hd : c'.info.discard with
        | false =>
          simp only [hd, Bool.false_eq_true, if_false] at h
          obtain ⟨h2, h3⟩ := kwLoop_err hrec hf hgood hS
            (hp.1.setChild (c := c') (fun hv => h1 hv hd)) h
          exact ⟨h2, fun h => h3 ((hp.2 h).setChild hS)⟩
        | true =>
          simp only [hd, if_true] at h
          have hl2 : LoopErr S i.path ((p'.setChild (kw.key, i.path) c').delChild (kw.key, i.path)) := by
            have : (p'.setChild (kw.key, i.path) c').delChild (kw.key, i.path) =
                p'.delChild (kw.key, i.path) := by
              simp only [RNode.setChild, RNode.delChild, RNode.info_mk, RNode.children_mk]
              rw [cerase_cset]
            rw [this]; exact hp.1.delChild
          obtain ⟨h2, h3⟩ := kwLoop_err hrec hf hgood hS hl2 h
          exact ⟨h2, fun h => h3 (((hp.2 h).setChild hS).delChild hS)⟩
    · exact kwLoop_err hrec hf hgood hS hl h

theorem evalBody_err (hrec : RecErr rec) (hf : RecFrame rec) (hgood : RecGood (fun _ => True) rec) :
    RecErr (evalBody st env rec) := by
  intro sc s i r r' S h hg hS hch hv hd
  obtain ⟨hg', hfr⟩ := evalBody_good closed_true hgood trivial hg h
  refine ⟨hg', hfr, ?_⟩
  have weaken : ∀ {r : RNode}, ErrAt S r → ErrAt (i.path :: S) r := by
    rintro r (h | ⟨e, he, h1, h2⟩)
    · exact .inl h
    · exact .inr ⟨e, he, List.mem_cons_of_mem _ h1, h2⟩
  simp only [evalBody] at h
  split at h
  · rw [← Option.some.inj h]
    exact ⟨fun e he => List.mem_cons_of_mem _ (hch e he), fun h => weaken (hv h)⟩
  · rw [← Option.some.inj h]
    exact ⟨fun e he => List.mem_cons_of_mem _ (hch e he), fun _ => .inl (by simp [RNode.fail])⟩
  · split at h
    · contradiction
    · rename_i r1 hk
      obtain ⟨h1, h2⟩ := kwLoop_err hrec hf hgood hS (fun e he => .inl (hch e he)) hk
      obtain ⟨hg1, hi1⟩ := kwLoop_good closed_true hgood trivial hg hk
      have hcs : ∀ e ∈ r1.children, e.1.2 ∈ i.path :: S := by
        intro e he
        rcases h1 e he with h | ⟨h, _⟩
        · exact List.mem_cons_of_mem _ h
        · rw [h]; exact List.mem_cons_self
      rw [← Option.some.inj h]
      split
      · rename_i hany
        refine ⟨hcs, fun _ => ?_⟩
        obtain ⟨e, he, hp⟩ := List.any_eq_true.1 hany
        simp only [Bool.and_eq_true, decide_eq_true_eq, Bool.not_eq_true', RNode.passed,
          Bool.or_eq_false_iff] at hp
        have hpath : e.1.2 = i.path := by rw [← (hg1.edges e he).2.1]; exact hp.1
        rcases h1 e he with h | ⟨_, h⟩
        · rw [hpath] at h; exact absurd h hS
        · exact .inr ⟨e, he, by rw [hpath]; exact List.mem_cons_self, h hp.2.1⟩
      · refine ⟨hcs, fun hv' => weaken (h2 (hv ?_))⟩
        rw [← hi1]; exact hv'

theorem evalSchema_err : ∀ n, RecErr (evalSchema st env n)
  | 0 => fun _ _ _ _ _ _ h => by simp [evalSchema] at h
  | n + 1 => evalBody_err (evalSchema_err n) (fun _ _ _ _ _ h => evalSchema_frame h)
      (evalSchema_good closed_true n)

/-- An invalid result of `evaluate` has an error. -/
theorem evaluate_err {n : Nat} {s : SRef} {r : RNode} (h : evaluate st env n s i = some r)
    (hv : r.info.valid = false) : Err r := by
  obtain ⟨_, hf, _, h4⟩ := evalSchema_err n _ _ _ _ _ [] h (.mk trivial (by simp) (by simp)) (by simp)
    (by simp) (by simp [RNode.root]) rfl
  exact (h4 hv).err hv (by rw [hf.eq]; rfl)

end

end Jschon
