import Verif.Proof.EvalTree

/-!
# The invariants of result trees are preserved by evaluation
-/

namespace Jschon

section
variable {Q : Inst → Prop} {rec : Rec} {st : Store} {env : Env} {sc : List SRef} {i : Inst}

theorem good_rec (hrec : RecGood Q rec) (hi : Q i) {c c1 c' : RNode} (hc : Good Q c) {t : SRef}
    (h : rec sc t i c = some c1) (hu : Upd c1 c') : Good Q c' ∧ Imm c c' := by
  obtain ⟨h1, h2⟩ := hrec _ _ _ _ _ hi hc h
  exact ⟨h1.upd hu, h2.trans hu.imm⟩

theorem good_subLoop (hrec : RecGood Q rec) {jobs : List (String × SRef × Inst)} {c c1 c' : RNode}
    {flags : List Bool} (hc : Good Q c) (hj : ∀ j ∈ jobs, Q j.2.2)
    (h : subLoop rec sc jobs c = some (c1, flags)) (hu : Upd c1 c') : Good Q c' ∧ Imm c c' := by
  obtain ⟨h1, h2⟩ := subLoop_good hrec hj hc h
  exact ⟨h1.upd hu, (Imm.of_info h2).trans hu.imm⟩

theorem good_sharedLoop (hrec : RecGood Q rec) {is : List Inst} {c c1 c' : RNode} {t : SRef}
    {flags : List Bool} (hc : Good Q c) (hj : ∀ j ∈ is, Q j)
    (h : sharedLoop rec sc t is c = some (c1, flags)) (hu : Upd c1 c') : Good Q c' ∧ Imm c c' := by
  obtain ⟨h1, h2⟩ := sharedLoop_good hrec hj hc h
  exact ⟨h1.upd hu, h2.trans hu.imm⟩

theorem closed_items (hQ : Closed Q) (hi : Q i) {l : List (Nat × Inst)} (hl : ∀ p ∈ l, p ∈ i.items) :
    ∀ j ∈ insts l, Q j := by
  intro j hj
  obtain ⟨p, hp, rfl⟩ := mem_insts hj
  exact hQ.items i hi p (hl p hp)

theorem closed_members (hQ : Closed Q) (hi : Q i) {l : List (String × Inst)}
    (hl : ∀ p ∈ l, p ∈ i.members) : ∀ j ∈ insts l, Q j := by
  intro j hj
  obtain ⟨p, hp, rfl⟩ := mem_insts hj
  exact hQ.members i hi p (hl p hp)

theorem closed_itemJobs (hQ : Closed Q) (hi : Q i) {ss : List SRef} :
    ∀ j ∈ itemJobs ss i.items, Q j.2.2 := by
  intro j hj
  obtain ⟨p, hp, h⟩ := itemJobs_inst hj
  rw [h]; exact hQ.items i hi p hp

theorem evalKw_good (hQ : Closed Q) (hrec : RecGood Q rec) (hi : Q i) {kw : Kw}
    {parent c parent' c' : RNode} (hc : Good Q c)
    (h : evalKw st env rec sc kw i parent c = some (parent', c')) : Good Q c' ∧ Imm c c' := by
  have upd : ∀ {x : RNode}, Upd c x → Good Q x ∧ Imm c x := fun hu => ⟨hc.upd hu, hu.imm⟩
  cases kw
  case assert a =>
    simp only [evalKw, Option.some.injEq, Prod.mk.injEq] at h
    rw [← h.2]; exact upd (Upd.ite (Upd.refl _) (Upd.fail _ _))
  case maxContains m =>
    simp only [evalKw, Option.some.injEq, Prod.mk.injEq] at h
    rw [← h.2]
    split
    · exact upd (Upd.refl _)
    · exact upd (Upd.ite (Upd.fail _ _) (Upd.refl _))
  case minContains m =>
    simp only [evalKw, evalMinContains, Option.some.injEq] at h
    split at h
    · simp only [Prod.mk.injEq] at h; rw [← h.2]; exact upd (Upd.refl _)
    · simp only [Prod.mk.injEq] at h; rw [← h.2]; exact upd (Upd.ite (Upd.refl _) (Upd.fail _ _))
  case allOf ss =>
    simp only [evalKw] at h
    split at h
    · contradiction
    · rename_i hs
      simp only [Option.some.injEq, Prod.mk.injEq] at h
      rw [← h.2]
      exact good_subLoop hrec hc (fun j hj => by rw [indexJobs_inst hj]; exact hi) hs
        (Upd.ite (Upd.refl _) (Upd.fail _ _))
  case anyOf ss =>
    simp only [evalKw] at h
    split at h
    · contradiction
    · rename_i hs
      simp only [Option.some.injEq, Prod.mk.injEq] at h
      rw [← h.2]
      exact good_subLoop hrec hc (fun j hj => by rw [indexJobs_inst hj]; exact hi) hs
        (Upd.ite (Upd.refl _) (Upd.fail _ _))
  case oneOf ss =>
    simp only [evalKw] at h
    split at h
    · contradiction
    · rename_i hs
      simp only [Option.some.injEq, Prod.mk.injEq] at h
      rw [← h.2]
      exact good_subLoop hrec hc (fun j hj => by rw [indexJobs_inst hj]; exact hi) hs
        (Upd.ite (Upd.refl _) (Upd.fail _ _))
  case not_ t =>
    simp only [evalKw] at h
    split at h
    · contradiction
    · rename_i hs
      simp only [Option.some.injEq, Prod.mk.injEq] at h
      rw [← h.2]
      exact good_rec hrec hi hc hs (Upd.ite (Upd.fail _ _) (Upd.pass_ _))
  case if_ t =>
    simp only [evalKw] at h
    split at h
    · contradiction
    · rename_i hs
      simp only [Option.some.injEq, Prod.mk.injEq] at h
      rw [← h.2]
      exact good_rec hrec hi hc hs (Upd.noassert _)
  case then_ t =>
    simp only [evalKw] at h
    have hdisc : some (parent, c.setDiscard) = some (parent', c') → Good Q c' ∧ Imm c c' := by
      intro h
      simp only [Option.some.injEq, Prod.mk.injEq] at h
      rw [← h.2]; exact upd (Upd.setDiscard _)
    split at h
    · split at h
      · split at h
        · contradiction
        · rename_i hs
          simp only [Option.some.injEq, Prod.mk.injEq] at h
          rw [← h.2]
          exact good_rec hrec hi hc hs (Upd.refl _)
      · exact hdisc h
    · exact hdisc h
  case else_ t =>
    simp only [evalKw] at h
    have hdisc : some (parent, c.setDiscard) = some (parent', c') → Good Q c' ∧ Imm c c' := by
      intro h
      simp only [Option.some.injEq, Prod.mk.injEq] at h
      rw [← h.2]; exact upd (Upd.setDiscard _)
    split at h
    · split at h
      · split at h
        · contradiction
        · rename_i hs
          simp only [Option.some.injEq, Prod.mk.injEq] at h
          rw [← h.2]
          exact good_rec hrec hi hc hs (Upd.refl _)
      · exact hdisc h
    · exact hdisc h
  case dependentSchemas ps =>
    simp only [evalKw] at h
    split at h
    · contradiction
    · rename_i hs
      simp only [Option.some.injEq, Prod.mk.injEq] at h
      rw [← h.2]
      refine good_subLoop hrec hc (fun j hj => ?_) hs (Upd.ite (Upd.annotate _ _) (Upd.fail _ _))
      obtain ⟨p, _, rfl⟩ := List.mem_map.1 hj
      exact hi
  case prefixItems ss =>
    simp only [evalKw] at h
    split at h
    · contradiction
    · rename_i hs
      simp only [Option.some.injEq, Prod.mk.injEq] at h
      rw [← h.2]
      exact good_subLoop hrec hc (closed_itemJobs hQ hi) hs
        (Upd.ite (Upd.ite (Upd.refl _) (Upd.annotate _ _)) (Upd.fail _ _))
  case items t =>
    simp only [evalKw] at h
    split at h
    · contradiction
    · rename_i hs
      simp only [Option.some.injEq, Prod.mk.injEq] at h
      rw [← h.2]
      exact good_sharedLoop hrec hc (closed_items hQ hi (fun p hp => List.mem_of_mem_drop hp)) hs
        (upd_finishItems _ _ _)
  case unevaluatedItems t =>
    simp only [evalKw, Option.map_eq_some_iff, Prod.mk.injEq] at h
    obtain ⟨_, h, _, rfl⟩ := h
    simp only [evalUnevaluatedItems] at h
    split at h
    · rw [← Option.some.inj h]; exact upd (Upd.setDiscard _)
    split at h
    · rw [← Option.some.inj h]; exact upd (Upd.setDiscard _)
    split at h
    · rw [← Option.some.inj h]; exact upd (Upd.setDiscard _)
    split at h
    · contradiction
    · rename_i hs
      rw [← Option.some.inj h]
      exact good_sharedLoop hrec hc (closed_items hQ hi (fun p hp => (List.mem_filter.1 hp).1)) hs
        (upd_finishItems _ _ _)
  case contains t =>
    simp only [evalKw] at h
    split at h
    · contradiction
    · rename_i hs
      simp only [Option.some.injEq, Prod.mk.injEq] at h
      rw [← h.2]
      exact good_sharedLoop hrec hc (closed_items hQ hi (fun p hp => hp)) hs
        (Upd.ite ((Upd.annotate _ _).trans (Upd.fail _ _)) (Upd.annotate _ _))
  case properties ps =>
    simp only [evalKw] at h
    split at h
    · contradiction
    · rename_i hs
      simp only [Option.some.injEq, Prod.mk.injEq] at h
      rw [← h.2]
      refine good_subLoop hrec hc (fun j hj => ?_) hs (Upd.ite (Upd.annotate _ _) (Upd.fail _ _))
      obtain ⟨m, hm, he⟩ := propJobs_inst hj
      rw [he]; exact hQ.members i hi m hm
  case patternProperties ps =>
    simp only [evalKw] at h
    split at h
    · contradiction
    · rename_i hs
      simp only [Option.some.injEq, Prod.mk.injEq] at h
      rw [← h.2]
      refine good_subLoop hrec hc (fun j hj => ?_) hs (Upd.ite (Upd.annotate _ _) (Upd.fail _ _))
      obtain ⟨q, hq, rfl⟩ := List.mem_map.1 hj
      obtain ⟨m, hm, he⟩ := patternJobs_inst hq
      rw [he]; exact hQ.members i hi m hm
  case additionalProperties t =>
    simp only [evalKw, Option.map_eq_some_iff, Prod.mk.injEq] at h
    obtain ⟨_, h, _, rfl⟩ := h
    simp only [evalAdditionalProperties] at h
    split at h
    · contradiction
    · rename_i hs
      rw [← Option.some.inj h]
      exact good_sharedLoop hrec hc (closed_members hQ hi (fun p hp => (List.mem_filter.1 hp).1)) hs
        (upd_finishProps _ _ _)
  case unevaluatedProperties t =>
    simp only [evalKw, Option.map_eq_some_iff, Prod.mk.injEq] at h
    obtain ⟨_, h, _, rfl⟩ := h
    simp only [evalUnevaluatedProperties] at h
    split at h
    · contradiction
    · rename_i hs
      rw [← Option.some.inj h]
      exact good_sharedLoop hrec hc (closed_members hQ hi (fun p hp => (List.mem_filter.1 hp).1)) hs
        (upd_finishProps _ _ _)
  case propertyNames t =>
    simp only [evalKw] at h
    split at h
    · contradiction
    · rename_i hs
      simp only [Option.some.injEq, Prod.mk.injEq] at h
      rw [← h.2]
      refine good_sharedLoop hrec hc (fun j hj => ?_) hs (Upd.ite (Upd.refl _) (Upd.fail _ _))
      obtain ⟨p, hp, rfl⟩ := mem_insts hj
      exact hQ.names i hi p hp
  case items9 t =>
    simp only [evalKw] at h
    split at h
    · simp only [Option.some.injEq, Prod.mk.injEq] at h
      rw [← h.2]; exact upd (Upd.refl _)
    split at h
    · split at h
      · contradiction
      · rename_i hs
        simp only [Option.some.injEq, Prod.mk.injEq] at h
        rw [← h.2]
        exact good_rec hrec hi hc hs (Upd.refl _)
    · split at h
      · contradiction
      · rename_i hs
        simp only [Option.some.injEq, Prod.mk.injEq] at h
        rw [← h.2]
        obtain ⟨h1, h2⟩ := plainLoop_good hrec (closed_items hQ hi (fun p hp => hp)) hc hs
        have hu : ∀ (x : RNode), Upd x (if x.passed then x.annotate (.bool true) else x) :=
          fun x => Upd.ite (Upd.annotate _ _) (Upd.refl _)
        exact ⟨h1.upd (hu _), h2.trans (hu _).imm⟩
  case items9Array ss =>
    simp only [evalKw] at h
    split at h
    · simp only [Option.some.injEq, Prod.mk.injEq] at h
      rw [← h.2]; exact upd (Upd.refl _)
    split at h
    · contradiction
    · rename_i hs
      simp only [Option.some.injEq, Prod.mk.injEq] at h
      rw [← h.2]
      exact good_subLoop hrec hc (closed_itemJobs hQ hi) hs
        (Upd.ite (Upd.annotate _ _) (Upd.fail _ _))
  case additionalItems t =>
    simp only [evalKw] at h
    split at h
    · split at h
      · contradiction
      · rename_i hs
        simp only [Option.some.injEq, Prod.mk.injEq] at h
        rw [← h.2]
        exact good_sharedLoop hrec hc (closed_items hQ hi (fun p hp => (List.mem_filter.1 hp).1)) hs
          (upd_finishItems _ _ _)
    · simp only [Option.some.injEq, Prod.mk.injEq] at h
      rw [← h.2]; exact upd (Upd.setDiscard _)
  case unevaluatedItems9 t =>
    simp only [evalKw, Option.map_eq_some_iff, Prod.mk.injEq] at h
    obtain ⟨_, h, _, rfl⟩ := h
    simp only [evalUnevaluatedItems9] at h
    split at h
    · rw [← Option.some.inj h]; exact upd (Upd.setDiscard _)
    split at h
    · rw [← Option.some.inj h]; exact upd (Upd.setDiscard _)
    split at h
    · rw [← Option.some.inj h]; exact upd (Upd.setDiscard _)
    split at h
    · contradiction
    · rename_i hs
      rw [← Option.some.inj h]
      exact good_sharedLoop hrec hc (closed_items hQ hi (fun p hp => (List.mem_filter.1 hp).1)) hs
        (upd_finishItems _ _ _)
  case recursiveRef t =>
    simp only [evalKw] at h
    split at h
    · contradiction
    · rename_i hs
      simp only [Option.some.injEq, Prod.mk.injEq] at h
      rw [← h.2]
      exact good_rec hrec hi hc hs (Upd.setRef _ _)
  case ref t =>
    simp only [evalKw] at h
    split at h
    · contradiction
    · rename_i hs
      simp only [Option.some.injEq, Prod.mk.injEq] at h
      rw [← h.2]
      exact good_rec hrec hi hc hs (Upd.setRef _ _)
  case dynamicRef t frag dynamic =>
    simp only [evalKw] at h
    split at h
    · contradiction
    · rename_i hs
      simp only [Option.some.injEq, Prod.mk.injEq] at h
      rw [← h.2]
      exact good_rec hrec hi hc hs (Upd.setRef _ _)
  case static k v =>
    simp only [evalKw, Option.some.injEq, Prod.mk.injEq] at h
    rw [← h.2]; exact upd (Upd.refl _)
  case format attr enabled =>
    simp only [evalKw, Option.some.injEq, Prod.mk.injEq] at h
    rw [← h.2]
    exact upd ((Upd.annotate _ _).trans
      (Upd.ite (Upd.ite (Upd.refl _) (Upd.fail _ _)) (Upd.noassert _)))
  case annot k so v =>
    simp only [evalKw, Option.some.injEq, Prod.mk.injEq] at h
    rw [← h.2]; exact upd ((Upd.annotate _ _).trans (Upd.noassert _))
  case contentSchema v =>
    simp only [evalKw, Option.some.injEq, Prod.mk.injEq] at h
    rw [← h.2]
    split
    · exact upd ((Upd.annotate _ _).trans (Upd.noassert _))
    · exact upd (Upd.setDiscard _)
  case unknown k v =>
    simp only [evalKw, Option.some.injEq, Prod.mk.injEq] at h
    rw [← h.2]; exact upd ((Upd.annotate _ _).trans (Upd.noassert _))

theorem evalKw_parent_good {kw : Kw} {parent c parent' c' : RNode} (hp : Good Q parent)
    (h : evalKw st env rec sc kw i parent c = some (parent', c')) :
    Good Q parent' ∧ parent'.info = parent.info := by
  rcases evalKw_parent h with rfl | ⟨con, _, hs, rfl⟩
  · exact ⟨hp, rfl⟩
  · exact ⟨hp.minContains hs, rfl⟩

theorem kwLoop_good (hQ : Closed Q) (hrec : RecGood Q rec) (hi : Q i) {s : SRef} :
    ∀ {kws : List Kw} {r r' : RNode}, Good Q r → kwLoop st env rec sc s i kws r = some r' →
      Good Q r' ∧ r'.info = r.info
  | [], r, r', hr, h => by
    simp only [kwLoop, Option.some.injEq] at h
    rw [← h]; exact ⟨hr, rfl⟩
  | kw :: kws, r, r', hr, h => by
    simp only [kwLoop] at h
    split at h
    · simp only [withSub] at h
      cases he : evalKw st env rec (s :: sc) kw i
          (r.setChild (kw.key, i.path) (r.fresh i kw.key s)) (r.fresh i kw.key s) with
      | none => simp only [he] at h; contradiction
      | some p =>
        obtain ⟨p', c'⟩ := p
        simp only [he] at h
        have h0 : Good Q (r.setChild (kw.key, i.path) (r.fresh i kw.key s)) :=
          hr.setChild (Good.fresh hi) rfl rfl rfl
        obtain ⟨hg, him⟩ := evalKw_good hQ hrec hi (Good.fresh hi) he
        obtain ⟨hpg, hpi⟩ := evalKw_parent_good h0 he
        have h1 : Good Q (p'.setChild (kw.key, i.path) c') :=
          hpg.setChild hg (by rw [him.key]; rfl) (by rw [him.inst]; rfl)
            (by rw [him.path, hpi]; rfl)
        have h2 : ∀ (b : Bool), Good Q (if b then (p'.setChild (kw.key, i.path) c').delChild (kw.key, i.path)
            else p'.setChild (kw.key, i.path) c') ∧
            (if b then (p'.setChild (kw.key, i.path) c').delChild (kw.key, i.path)
            else p'.setChild (kw.key, i.path) c').info = r.info := by
          intro b
          cases b
          · exact ⟨h1, hpi⟩
          · exact ⟨h1.delChild, hpi⟩
        obtain ⟨h3, h4⟩ := kwLoop_good hQ hrec hi (h2 _).1 h
        exact ⟨h3, h4.trans (h2 _).2⟩
    · exact kwLoop_good hQ hrec hi hr h

theorem evalBody_good (hQ : Closed Q) (hrec : RecGood Q rec) (hi : Q i) {s : SRef} {r r' : RNode}
    (hr : Good Q r) (h : evalBody st env rec sc s i r = some r') : Good Q r' ∧ Frame r r' := by
  simp only [evalBody] at h
  split at h
  · rw [← Option.some.inj h]; exact ⟨hr, Frame.refl _⟩
  · rw [← Option.some.inj h]; exact ⟨hr.upd (Upd.fail _ _), rfl, .inr rfl⟩
  · split at h
    · contradiction
    · rename_i r1 hk
      obtain ⟨h1, h2⟩ := kwLoop_good hQ hrec hi hr hk
      rw [← Option.some.inj h]
      split
      · refine ⟨h1.upd (Upd.fail _ _), ?_, .inr rfl⟩
        simp only [RNode.fail, RNode.info_mk, h2]
      · exact ⟨h1, by rw [h2], .inl ⟨by rw [h2], by rw [h2]⟩⟩

theorem evalSchema_good (hQ : Closed Q) : ∀ n, RecGood Q (evalSchema st env n)
  | 0 => fun _ _ _ _ _ _ _ h => by simp [evalSchema] at h
  | n + 1 => fun sc s i r r' hi hr h => by
    obtain ⟨h1, h2⟩ := evalBody_good (sc := sc) hQ (evalSchema_good hQ n) hi hr h
    exact ⟨h1, h2.imm⟩

theorem evalSchema_good_frame (hQ : Closed Q) {n : Nat} {s : SRef} {r r' : RNode} (hi : Q i)
    (hr : Good Q r) (h : evalSchema st env n sc s i r = some r') : Good Q r' ∧ Frame r r' := by
  cases n with
  | zero => simp [evalSchema] at h
  | succ n => exact evalBody_good (sc := sc) hQ (evalSchema_good hQ n) hi hr h

end

/-! ## Frame, without conditions -/

theorem kwLoop_info {st : Store} {env : Env} {rec : Rec} {sc : List SRef} {s : SRef} {i : Inst} :
    ∀ {kws : List Kw} {r r' : RNode}, kwLoop st env rec sc s i kws r = some r' → r'.info = r.info
  | [], r, r', h => by simp only [kwLoop, Option.some.injEq] at h; rw [← h]
  | kw :: kws, r, r', h => by
    simp only [kwLoop] at h
    split at h
    · simp only [withSub] at h
      cases he : evalKw st env rec (s :: sc) kw i
          (r.setChild (kw.key, i.path) (r.fresh i kw.key s)) (r.fresh i kw.key s) with
      | none => simp only [he] at h; contradiction
      | some p =>
        obtain ⟨p', c'⟩ := p
        simp only [he] at h
        rw [kwLoop_info h]
        have hp : p'.info = r.info := by
          rcases evalKw_parent he with rfl | ⟨con, _, _, rfl⟩ <;> rfl
        split <;> exact hp
    · exact kwLoop_info h

theorem evalBody_frame {st : Store} {env : Env} {rec : Rec} {sc : List SRef} {s : SRef} {i : Inst}
    {r r' : RNode} (h : evalBody st env rec sc s i r = some r') : Frame r r' := by
  simp only [evalBody] at h
  split at h
  · rw [← Option.some.inj h]; exact Frame.refl _
  · rw [← Option.some.inj h]; exact ⟨rfl, .inr rfl⟩
  · split at h
    · contradiction
    · rename_i r1 hk
      have h2 := kwLoop_info hk
      rw [← Option.some.inj h]
      split
      · refine ⟨?_, .inr rfl⟩
        simp only [RNode.fail, RNode.info_mk, h2]
      · exact ⟨by rw [h2], .inl ⟨by rw [h2], by rw [h2]⟩⟩

theorem evalSchema_frame {st : Store} {env : Env} {n : Nat} {sc : List SRef} {s : SRef} {i : Inst}
    {r r' : RNode} (h : evalSchema st env n sc s i r = some r') : Frame r r' := by
  cases n with
  | zero => simp [evalSchema] at h
  | succ n => exact evalBody_frame (sc := sc) h

end Jschon
