import Verif.Proof.EvalSim
import Verif.Proof.Annotate
import Verif.Spec.Reports

/-!
# What keywords report
-/

namespace Jschon

open Spec

/-! ## Errors of evaluation in place -/

/-- Evaluation on a result without an error leaves one only for a boolean `false`. -/
def RecErrs (st : Store) (rec : Rec) : Prop :=
  ∀ sc t i c c1, rec sc t i c = some c1 → c.info.error = .null →
    (st.obj t ≠ .bool false → c1.info.error = .null) ∧
    (st.obj t = .bool false → IsText c1.info.error) ∧
    (c1.info.valid = true → c1.info.error = .null) ∧ c1.info.asrt = c.info.asrt

theorem evalSchema_errs {st : Store} {env : Env} (n : Nat) : RecErrs st (evalSchema st env n) := by
  intro sc t i c c1 h he
  cases n with
  | zero => simp [evalSchema] at h
  | succ n =>
    simp only [evalSchema, evalBody] at h
    split at h
    · rename_i hb
      cases h
      refine ⟨fun _ => he, fun hf => ?_, fun _ => he, rfl⟩
      rw [hb] at hf; cases hf
    · rename_i hb
      cases h
      exact ⟨fun hn => absurd hb hn, fun _ => ⟨_, rfl⟩, fun hv => by simp [RNode.fail] at hv, rfl⟩
    · rename_i kws hb
      have hne : st.obj t ≠ .bool false := by rw [hb]; intro h; cases h
      split at h
      · contradiction
      · rename_i r1 hr1
        have hi := kwLoop_info hr1
        cases h
        have hn : (if (r1.children.any (fun e => decide (e.2.info.inst.path = i.path) && !e.2.passed)) = true
            then r1.fail .null else r1).info.error = .null := by
          split
          · rfl
          · rw [hi]; exact he
        refine ⟨fun _ => hn, fun hf => absurd hf hne, fun _ => hn, ?_⟩
        split
        · simp only [RNode.fail, RNode.info_mk]; rw [hi]
        · rw [hi]

theorem sharedLoop_errs {st : Store} {rec : Rec} (hr : RecErrs st rec) {sc : List SRef} {t : SRef} :
    ∀ {is : List Inst} {c c1 : RNode} {flags : List Bool}, c.info.error = .null → c.info.asrt = true →
      sharedLoop rec sc t is c = some (c1, flags) → c1.info.error = .null
  | [], c, c1, flags, he, _, h => by
    simp only [sharedLoop, Option.some.injEq, Prod.mk.injEq] at h
    rw [← h.1]; exact he
  | i :: is, c, c1, flags, he, ha, h => by
    simp only [sharedLoop] at h
    split at h
    · contradiction
    · rename_i c2 h2
      obtain ⟨_, _, hv, has⟩ := hr _ _ _ _ _ h2 he
      split at h
      · contradiction
      · rename_i c3 fl h3
        simp only [Option.some.injEq, Prod.mk.injEq] at h
        rw [← h.1]
        refine sharedLoop_errs hr ?_ ?_ h3
        · split
          · rename_i hp
            rw [passed_of_asrt (has.trans ha)] at hp
            exact hv hp
          · rfl
        · split <;> exact has.trans ha

theorem plainLoop_errs {st : Store} {rec : Rec} (hr : RecErrs st rec) {sc : List SRef} {t : SRef}
    (ht : st.obj t ≠ .bool false) :
    ∀ {is : List Inst} {c c1 : RNode}, c.info.error = .null →
      plainLoop rec sc t is c = some c1 → c1.info.error = .null
  | [], c, c1, he, h => by
    simp only [plainLoop, Option.some.injEq] at h
    rw [← h]; exact he
  | i :: is, c, c1, he, h => by
    simp only [plainLoop] at h
    split at h
    · contradiction
    · rename_i c2 h2
      exact plainLoop_errs hr ht ((hr _ _ _ _ _ h2 he).1 ht) h

/-! ## Lists -/

theorem itemsFrom_tags_lt (p : List String) : ∀ (xs : List Value) (n : Nat),
    ((Inst.itemsFrom p n xs).map Prod.fst).Pairwise (· < ·) ∧
      ∀ k ∈ (Inst.itemsFrom p n xs).map Prod.fst, n ≤ k
  | [], _ => ⟨.nil, by simp [Inst.itemsFrom]⟩
  | x :: xs, n => by
    obtain ⟨h1, h2⟩ := itemsFrom_tags_lt p xs (n + 1)
    simp only [Inst.itemsFrom, List.map_cons, List.pairwise_cons, List.mem_cons]
    refine ⟨⟨fun k hk => ?_, h1⟩, ?_⟩
    · have := h2 k hk; omega
    · rintro k (rfl | hk)
      · exact Nat.le_refl _
      · have := h2 k hk; omega

theorem listsItems_of {i : Inst} {l : List (Nat × Inst)} (hl : l.Sublist i.items) {P : Nat → Prop}
    (hP : ∀ k, k ∈ l.map Prod.fst ↔ P k) : ListsItems P (nats (l.map Prod.fst)) := by
  refine ⟨l.map Prod.fst, rfl, ?_, hP⟩
  rw [items_eq] at hl
  exact (itemsFrom_tags_lt _ _ _).1.sublist (hl.map _)

theorem listsNames_of {i : Inst} {l : List (String × Inst)} (hl : l.Sublist i.members)
    {P : String → Prop} (hP : ∀ n, n ∈ l.map Prod.fst ↔ HasMember i.value n ∧ P n) :
    ListsNames ((members i.value).map Prod.fst) P (strs (l.map Prod.fst)) := by
  refine ⟨l.map Prod.fst, rfl, ?_, fun n => (hP n).trans (and_congr_left' ?_)⟩
  · have := hl.map Prod.fst
    rw [members_eq, List.map_map] at this
    exact this
  · simp only [HasMember, List.mem_map]
    constructor
    · rintro ⟨x, hx⟩; exact ⟨_, hx, rfl⟩
    · rintro ⟨e, he, rfl⟩; exact ⟨e.2, he⟩

section
variable {d : Dialect} {st : Store} {env : Env} {rec : Rec} {M : Meaning}
variable {i : Inst} {c c1 : RNode} {key : String} {s : SRef} {sc : List SRef} {t : SRef}

theorem itemOk_iff {p : Nat × Inst} (hp : p ∈ i.items) :
    vb M sc t p.2.value = true ↔ ItemOk M sc i.value t p.1 := by
  obtain ⟨x, hx, he⟩ := mem_items.1 hp
  rw [vb_iff, he]
  constructor
  · intro h; exact ⟨x, hx, h⟩
  · rintro ⟨y, hy, h⟩; rw [hx] at hy; cases hy; exact h

theorem memberOk_iff (hw : i.value.WF) {p : String × Inst} (hp : p ∈ i.members) :
    vb M sc t p.2.value = true ↔ MemberOk M sc i.value t p.1 := by
  obtain ⟨x, hx, he⟩ := mem_members.1 hp
  rw [vb_iff, he]
  constructor
  · intro h; exact ⟨x, hx, h⟩
  · rintro ⟨y, hy, h⟩
    have h1 := dlookup_of_mem (members_nodup hw) hx
    have h2 := dlookup_of_mem (members_nodup hw) hy
    rw [h1] at h2; cases h2; exact h

theorem lt_of_mem_items {p : Nat × Inst} (hp : p ∈ i.items) : p.1 < (elems i.value).length := by
  obtain ⟨x, hx, _⟩ := mem_items.1 hp
  exact (List.getElem?_eq_some_iff.1 hx).1

theorem exists_item {k : Nat} (hk : k < (elems i.value).length) : ∃ p ∈ i.items, p.1 = k :=
  ⟨(k, ⟨i.path ++ [natStr k], (elems i.value)[k]⟩),
    mem_items.2 ⟨_, List.getElem?_eq_getElem hk, rfl⟩, rfl⟩

theorem hasMember_of_mem {p : String × Inst} (hp : p ∈ i.members) : HasMember i.value p.1 := by
  obtain ⟨x, hx, _⟩ := mem_members.1 hp
  exact ⟨x, hx⟩

theorem exists_member {n : String} (h : HasMember i.value n) : ∃ p ∈ i.members, p.1 = n := by
  obtain ⟨x, hx⟩ := h
  exact ⟨(n, ⟨i.path ++ [n], x⟩), mem_members.2 ⟨x, hx, rfl⟩, rfl⟩

/-- What the end of a loop over items reports. -/
theorem finishItems_reports (hcl : Clean c1) (he : c1.info.error = .null) {todo : List (Nat × Inst)}
    (hsub : todo.Sublist i.items) {C : Nat → Prop} (hmem : ∀ p ∈ i.items, p ∈ todo ↔ C p.1) {c' : RNode}
    (hc' : c' = finishItems c1 (tags todo) (todo.map (fun p => vb M sc t p.2.value))) :
    EachItem M sc i.value C t c'.info.annotation c'.info.error := by
  subst hc'
  have hall : (∀ p ∈ todo, vb M sc t p.2.value = true) ↔
      ∀ k, k < (elems i.value).length → C k → ItemOk M sc i.value t k := by
    constructor
    · intro h k hk hC
      obtain ⟨p, hp, rfl⟩ := exists_item hk
      exact (itemOk_iff hp).1 (h p ((hmem p hp).2 hC))
    · intro h p hp
      have hp' := hsub.subset hp
      exact (itemOk_iff hp').2 (h _ (lt_of_mem_items hp') ((hmem p hp').1 hp))
  have hex : todo ≠ [] ↔ ∃ k, k < (elems i.value).length ∧ C k := by
    constructor
    · intro hn
      obtain ⟨p, hp⟩ := List.exists_mem_of_ne_nil _ hn
      have hp' := hsub.subset hp
      exact ⟨p.1, lt_of_mem_items hp', (hmem p hp').1 hp⟩
    · rintro ⟨k, hk, hC⟩ hn
      obtain ⟨p, hp, rfl⟩ := exists_item hk
      have := (hmem p hp).2 hC
      rw [hn] at this; cases this
  unfold finishItems tags
  refine ⟨fun h => ?_, fun h => ?_⟩
  · rw [if_pos (failedOf_map_nil.2 (hall.2 h))]
    refine ⟨?_, he⟩
    simp only [RNode.annotate, RNode.info_mk, List.map_eq_nil_iff]
    rw [← hex]
    exact ⟨fun hn => if_neg hn, fun hn => if_pos (Decidable.not_not.1 hn)⟩
  · rw [if_neg (fun hf => h (hall.1 (failedOf_map_nil.1 hf)))]
    refine ⟨hcl.ann, ?_⟩
    simp only [RNode.fail, RNode.info_mk]
    rw [failedOf_map]
    refine listsItems_of (List.filter_sublist.trans hsub) (fun k => ?_)
    simp only [List.mem_map, List.mem_filter]
    constructor
    · rintro ⟨p, ⟨hp, hv⟩, rfl⟩
      have hp' := hsub.subset hp
      refine ⟨lt_of_mem_items hp', (hmem p hp').1 hp, fun ho => ?_⟩
      rw [(itemOk_iff hp').2 ho] at hv; cases hv
    · rintro ⟨hk, hC, ho⟩
      obtain ⟨p, hp, rfl⟩ := exists_item hk
      refine ⟨p, ⟨(hmem p hp).2 hC, ?_⟩, rfl⟩
      rw [← itemOk_iff hp] at ho
      simpa using ho

/-- What the end of a loop over members reports. -/
theorem finishProps_reports (hw : i.value.WF) (hcl : Clean c1) (he : c1.info.error = .null)
    {todo : List (String × Inst)} (hsub : todo.Sublist i.members) {C : String → Prop}
    (hmem : ∀ p ∈ i.members, p ∈ todo ↔ C p.1) {c' : RNode}
    (hc' : c' = finishProps c1 (tags todo) (todo.map (fun p => vb M sc t p.2.value))) :
    EachMember M sc i.value C t c'.info.annotation c'.info.error := by
  subst hc'
  have hall : (∀ p ∈ todo, vb M sc t p.2.value = true) ↔
      ∀ n, HasMember i.value n → C n → MemberOk M sc i.value t n := by
    constructor
    · intro h k hk hC
      obtain ⟨p, hp, rfl⟩ := exists_member hk
      exact (memberOk_iff hw hp).1 (h p ((hmem p hp).2 hC))
    · intro h p hp
      have hp' := hsub.subset hp
      exact (memberOk_iff hw hp').2 (h _ (hasMember_of_mem hp') ((hmem p hp').1 hp))
  unfold finishProps tags
  refine ⟨fun h => ?_, fun h => ?_⟩
  · rw [if_pos (failedOf_map_nil.2 (hall.2 h)), passedOf_map_all (hall.2 h)]
    refine ⟨?_, he⟩
    refine listsNames_of hsub (fun n => ?_)
    simp only [List.mem_map]
    constructor
    · rintro ⟨p, hp, rfl⟩
      have hp' := hsub.subset hp
      exact ⟨hasMember_of_mem hp', (hmem p hp').1 hp⟩
    · rintro ⟨hn, hC⟩
      obtain ⟨p, hp, rfl⟩ := exists_member hn
      exact ⟨p, (hmem p hp).2 hC, rfl⟩
  · rw [if_neg (fun hf => h (hall.1 (failedOf_map_nil.1 hf)))]
    refine ⟨hcl.ann, ?_⟩
    simp only [RNode.fail, RNode.info_mk]
    rw [failedOf_map]
    refine listsNames_of (List.filter_sublist.trans hsub) (fun n => ?_)
    simp only [List.mem_map, List.mem_filter]
    constructor
    · rintro ⟨p, ⟨hp, hv⟩, rfl⟩
      have hp' := hsub.subset hp
      refine ⟨hasMember_of_mem hp', (hmem p hp').1 hp, fun ho => ?_⟩
      rw [(memberOk_iff hw hp').2 ho] at hv; cases hv
    · rintro ⟨hk, hC, ho⟩
      obtain ⟨p, hp, rfl⟩ := exists_member hk
      refine ⟨p, ⟨(hmem p hp).2 hC, ?_⟩, rfl⟩
      rw [← memberOk_iff hw hp] at ho
      simpa using ho

/-- The keyword only checks. -/
theorem told_ite {p : Prop} [Decidable p] {P : Prop} (hcl : Clean c) (he : c.info.error = .null)
    {m : String} (hp : p ↔ P) {c' : RNode} (hc' : c' = if p then c else c.fail (.str m)) :
    Told P c'.info.annotation c'.info.error := by
  subst hc'
  refine ⟨by rw [ann_fail_ite, hcl.ann], fun h => ?_, fun h => ?_⟩
  · rw [if_pos (hp.2 h)]; exact he
  · rw [if_neg (fun h' => h (hp.1 h'))]; exact ⟨m, rfl⟩

theorem zip_items_tags (ss : List SRef) : (ss.zip i.items).map (fun p => p.2.1) =
    List.range (ss.zip i.items).length := by
  apply List.ext_getElem?
  intro k
  rw [List.getElem?_map]
  by_cases hk : k < (ss.zip i.items).length
  · rw [List.getElem?_eq_getElem hk, List.getElem?_eq_getElem (by simpa using hk)]
    simp only [Option.map_some, List.getElem_zip, List.getElem_range, Option.some.injEq]
    have hk' : k < i.items.length := by rw [List.length_zip] at hk; omega
    have := items_getElem? i k
    rw [List.getElem?_eq_getElem hk'] at this
    cases hx : (elems i.value)[k]? with
    | none => rw [hx] at this; cases this
    | some x =>
      rw [hx] at this
      simp only [Option.map_some, Option.some.injEq] at this
      rw [this]
  · rw [List.getElem?_eq_none (by omega), List.getElem?_eq_none (by simpa using hk)]; rfl

/-- What a keyword that applies schemas by position reports. -/
theorem positional_reports (hcl : Clean c1) (he : c1.info.error = .null) {ss : List SRef} {good : Nat → Value}
    {flags : List Bool} (hf : flags = (ss.zip i.items).map (fun p => vb M sc p.1 p.2.2.value)) {c' : RNode}
    (hgood : flags.all id = true → c'.info.annotation = good (min ss.length (elems i.value).length) ∧
      c'.info.error = .null)
    (hbad : ¬ flags.all id = true →
      c' = c1.fail (nats (failedOf (List.range (itemJobs ss i.items).length) flags))) :
    Positional M sc i.value ss good c'.info.annotation c'.info.error := by
  have hall : flags.all id = true ↔
      ∀ (k : Nat) t, k < (elems i.value).length → ss[k]? = some t → ItemOk M sc i.value t k := by
    rw [hf, all_map_id]; simp only [vb_iff]
    rw [all_zip_items (P := fun t x => M.valid sc t x)]
    constructor
    · intro h k t hk ht
      exact ⟨_, List.getElem?_eq_getElem hk, h k t _ ht (List.getElem?_eq_getElem hk)⟩
    · intro h k t x ht hx
      obtain ⟨y, hy, hv⟩ := h k t (List.getElem?_eq_some_iff.1 hx).1 ht
      rw [hx] at hy; cases hy; exact hv
  refine ⟨fun h => hgood (hall.2 h), fun h => ?_⟩
  rw [hbad (fun h' => h (hall.1 h'))]
  refine ⟨hcl.ann, ?_⟩
  simp only [RNode.fail, RNode.info_mk]
  rw [itemJobs_eq, List.length_map, ← zip_items_tags, hf, failedOf_map]
  refine ⟨_, rfl, ?_, fun k => ?_⟩
  · refine List.Pairwise.sublist (List.filter_sublist.map _) ?_
    rw [zip_items_tags]
    exact List.pairwise_lt_range
  · simp only [List.mem_map, List.mem_filter]
    constructor
    · rintro ⟨p, ⟨hp, hv⟩, rfl⟩
      obtain ⟨x, h1, h2, h3⟩ := mem_zip_items hp
      refine ⟨(List.getElem?_eq_some_iff.1 h2).1, p.1, h1, ?_⟩
      rintro ⟨y, hy, hv'⟩
      rw [h2] at hy; cases hy
      rw [h3, vb_iff.2 hv'] at hv; cases hv
    · rintro ⟨hk, t, ht, ho⟩
      refine ⟨_, ⟨zip_items_mem ht (List.getElem?_eq_getElem hk), ?_⟩, rfl⟩
      simp only [Bool.not_eq_true', ← Bool.not_eq_true, vb_iff]
      exact fun hv => ho ⟨_, List.getElem?_eq_getElem hk, hv⟩

theorem dedup_nodup : ∀ {l acc : List String}, acc.Nodup → (dedup acc l).Nodup
  | [], acc, h => h
  | x :: l, acc, h => by
    simp only [dedup]
    split
    · exact dedup_nodup h
    · rename_i hx
      refine dedup_nodup ?_
      rw [List.nodup_append]
      refine ⟨h, by simp, ?_⟩
      rintro y hy z hz rfl
      simp only [List.mem_singleton] at hz
      subst hz
      exact hx (by simpa using hy)

end

/-! ## Keywords -/

section
variable {d : Dialect} {st : Store} {env : Env} {rec : Rec} {M : Meaning} (hok : RecOk d rec M)
variable {a b : List SRef} {s : SRef} (hst : Stut (s :: a) (s :: b))
variable {i : Inst} (hw : i.value.WF) {c : RNode} {key : String}
variable {kws : List Kw} {parent parent' c' : RNode}

/-- A keyword that only checks. -/
theorem told_of_shape {kw : Kw} {P : Prop} {sc : List SRef} (hd : c'.info.discard = false)
    (ha : c'.info.annotation = .null) (has : c'.info.asrt = true)
    (hv : c'.info.valid = true → c'.info.error = .null)
    (hn : ¬ c'.info.valid = true → IsText c'.info.error)
    (hp : StepOut st env d M sc kws i kw P (remains c')) : Told P c'.info.annotation c'.info.error := by
  have : c'.info.valid = true ↔ P := by
    rw [← hp.pass, remains_some hd]
    simp [passed_of_asrt has]
  rw [← this]
  exact ⟨ha, hv, hn⟩

theorem told_check {kw : Kw} {P p : Prop} [Decidable p] {sc : List SRef} {c1 : RNode} {m : String}
    (hcl : Clean c1) (he : c1.info.error = .null) (hc' : c' = if p then c1 else c1.fail (.str m))
    (hp : StepOut st env d M sc kws i kw P (remains c')) :
    c'.info.discard = false ∧ Told P c'.info.annotation c'.info.error := by
  subst hc'
  have hd := discard_fail_ite (p := p) hcl (.str m)
  refine ⟨hd, told_of_shape hd (by rw [ann_fail_ite, hcl.ann]) ?_ ?_ ?_ hp⟩
  · split <;> exact hcl.asrt
  · split
    · exact fun _ => he
    · intro h; simp [RNode.fail] at h
  · split
    · intro h; exact absurd hcl.valid h
    · exact fun _ => ⟨m, rfl⟩

theorem clean_info {c c1 : RNode} (h : Clean c) (hi : c1.info = c.info) : Clean c1 :=
  ⟨by rw [hi]; exact h.valid, by rw [hi]; exact h.discard, by rw [hi]; exact h.asrt, by rw [hi]; exact h.ann⟩

include hok hst hw

/-- A keyword that evaluates a schema on its own result. -/
theorem own_reports (hc : FreshFor c i key s) (hce : c.info.error = .null) (herr : RecErrs st rec) {t : SRef} {c1 : RNode}
    (h : rec (s :: a) t i c = some c1) (hd : c'.info = c1.info ∨ c' = c1.noassert ∨ ∃ u, c' = c1.setRef u) :
    c'.info.discard = false ∧ OnOwn st t c'.info.annotation c'.info.error := by
  obtain ⟨_, h2, _, h4, _, _⟩ := own_rec hok hst hw hc h
  obtain ⟨e1, e2, _, _⟩ := herr _ _ _ _ _ h hce
  have : c'.info.discard = c1.info.discard ∧ c'.info.annotation = c1.info.annotation ∧
      c'.info.error = c1.info.error := by
    rcases hd with h | rfl | ⟨u, rfl⟩
    · rw [h]; exact ⟨rfl, rfl, rfl⟩
    · exact ⟨rfl, rfl, rfl⟩
    · exact ⟨rfl, rfl, rfl⟩
  rw [this.1, this.2.1, this.2.2]
  exact ⟨h2, h4, e1, fun hn => e2 (Classical.not_not.1 hn)⟩

/-- What each keyword reports, provided that the keywords it depends on did what they should. -/
theorem kw_reports {kw : Kw} (herr : RecErrs st rec) (hkws : KwsOk d kws) (hobj : st.obj s = .obj kws)
    (hbool : ∀ t bb, st.obj t = .bool bb → ∀ sc v pt, ¬ M.ev sc t v pt)
    (hkw : kw ∈ kws) (hc : FreshFor c i kw.key s) (hce : c.info.error = .null)
    (hty : kw.types.contains i.value.type = true)
    (hsib : ∀ key ∈ kw.dependsOn (decide (d = .d2019)),
      SibOk st env d M (s :: b) kws i s (sibling parent i key) key)
    (hmedia : ∀ v, kw = .contentSchema v → ((∃ r, sibling parent i "contentMediaType" = some r) ↔
      Media kws i.value))
    (hann : ∀ pt, pt.In i.value → UnevalFor kw pt → (evs (Cover d pt) i.path parent ↔
      ∃ kw' ∈ kws, ObsEv (codeRules st env d) env st M (s :: b) kws i.value kw' pt))
    (hcon : ∀ t, kw ≠ .contains t)
    (h : evalKw st env rec (s :: a) kw i parent c = some (parent', c')) :
    (c'.info.discard = false ∧
      Reports (codeRules st env d) env st M (s :: b) kws i.value kw c'.info.annotation c'.info.error) ∨
    (c'.info.discard = true ∧ Silent (codeRules st env d) env st M (s :: b) kws i.value kw) := by
  have hko := hkws.ok kw hkw
  have hstep := kw_step hok hst hw hkws hobj hbool hkw hc hty hsib hann h
  have hcl := hc.clean
  cases kw
  case contains t => exact absurd rfl (hcon t)
  case assert x =>
    simp only [evalKw, Option.some.injEq, Prod.mk.injEq] at h
    exact .inl (told_check hcl hce h.2.symm hstep)
  case maxContains m =>
    simp only [evalKw, Option.some.injEq, Prod.mk.injEq] at h
    refine .inl ?_
    cases hs : sibling parent i "contains" with
    | none =>
      rw [hs] at h
      exact told_check (p := True) (m := "") hcl hce (by rw [if_pos trivial]; exact h.2.symm) hstep
    | some con =>
      rw [hs] at h
      exact told_check (p := ¬ m.val < (annLen con.info.annotation : Rat)) hcl hce
        (by
          rw [← h.2]
          by_cases hm : m.val < (annLen con.info.annotation : Rat)
          · rw [if_neg (fun hn => hn hm)]; exact if_pos hm
          · rw [if_pos hm]; exact if_neg hm) hstep
  case minContains m =>
    simp only [evalKw, evalMinContains, Option.some.injEq] at h
    refine .inl ?_
    cases hs : sibling parent i "contains" with
    | none =>
      rw [hs] at h
      simp only [Prod.mk.injEq] at h
      exact told_check (p := True) (m := "") hcl hce (by rw [if_pos trivial]; exact h.2.symm) hstep
    | some con =>
      rw [hs] at h
      simp only [Prod.mk.injEq] at h
      exact told_check hcl hce h.2.symm hstep
  case allOf ss =>
    simp only [evalKw] at h
    split at h
    · contradiction
    · rename_i c1 flags hs
      simp only [Option.some.injEq, Prod.mk.injEq] at h
      obtain ⟨_, h2, _⟩ := index_loop hok hst hw hc hs
      exact .inl (told_check (clean_info hcl h2) (by rw [h2]; exact hce) h.2.symm hstep)
  case anyOf ss =>
    simp only [evalKw] at h
    split at h
    · contradiction
    · rename_i c1 flags hs
      simp only [Option.some.injEq, Prod.mk.injEq] at h
      obtain ⟨_, h2, _⟩ := index_loop hok hst hw hc hs
      exact .inl (told_check (clean_info hcl h2) (by rw [h2]; exact hce) h.2.symm hstep)
  case oneOf ss =>
    simp only [evalKw] at h
    split at h
    · contradiction
    · rename_i c1 flags hs
      simp only [Option.some.injEq, Prod.mk.injEq] at h
      obtain ⟨_, h2, _⟩ := index_loop hok hst hw hc hs
      exact .inl (told_check (clean_info hcl h2) (by rw [h2]; exact hce) h.2.symm hstep)
  case not_ t =>
    simp only [evalKw] at h
    split at h
    · contradiction
    · rename_i c1 hs
      simp only [Option.some.injEq, Prod.mk.injEq] at h
      obtain ⟨_, h2, h3, h4, _, _⟩ := own_rec hok hst hw hc hs
      refine .inl ?_
      have hd : c'.info.discard = false := by rw [← h.2]; split <;> exact h2
      refine ⟨hd, told_of_shape hd ?_ ?_ ?_ ?_ hstep⟩
      · rw [← h.2]; split <;> exact h4
      · rw [← h.2]; split <;> exact h3
      · rw [← h.2]
        split
        · intro h; simp [RNode.fail] at h
        · exact fun _ => rfl
      · rw [← h.2]
        split
        · exact fun _ => ⟨_, rfl⟩
        · intro h; exact absurd rfl h
  case if_ t =>
    simp only [evalKw] at h
    split at h
    · contradiction
    · rename_i c1 hs
      simp only [Option.some.injEq, Prod.mk.injEq] at h
      exact .inl (own_reports hok hst hw hc hce herr hs (.inr (.inl h.2.symm)))
  case then_ t =>
    rcases then_cases hkws.ok (hsib _ (by simp [Kw.dependsOn])) h with ⟨rfl, hno⟩ | ⟨hs, hif⟩
    · refine .inr ⟨rfl, ?_⟩
      rintro ⟨cc, hcc, hv⟩
      exact hno cc hcc hv
    · obtain ⟨h1, h2⟩ := own_reports hok hst hw hc hce herr hs (.inl rfl)
      exact .inl ⟨h1, hif, h2⟩
  case else_ t =>
    rcases else_cases hkws.ok (hsib _ (by simp [Kw.dependsOn])) h with ⟨rfl, hno⟩ | ⟨hs, hif⟩
    · refine .inr ⟨rfl, ?_⟩
      rintro ⟨cc, hcc, hv⟩
      exact hv (hno cc hcc)
    · obtain ⟨h1, h2⟩ := own_reports hok hst hw hc hce herr hs (.inl rfl)
      exact .inl ⟨h1, hif, h2⟩
  case dependentSchemas ps =>
    simp only [evalKw] at h
    split at h
    · contradiction
    · rename_i c1 flags hs
      simp only [Option.some.injEq, Prod.mk.injEq] at h
      obtain ⟨h1, h2⟩ := subLoop_flags hok hst.dup hc.schema
        (by intro j hj; obtain ⟨p, _, rfl⟩ := List.mem_map.1 hj; exact hw) hs
      have hcl1 := clean_info hcl h2
      have hall : flags.all id = true ↔
          KwHolds (codeRules st env d) env M (s :: b) kws i.value (.dependentSchemas ps) := by
        rw [h1, List.map_map, all_map_id]
        simp only [Function.comp, List.mem_filter, has_iff, vb_iff, KwHolds]
        exact ⟨fun h p hp hm => h p ⟨hp, hm⟩, fun h p hp => h p hp.1 hp.2⟩
      refine .inl ⟨by rw [← h.2]; split <;> exact hcl1.discard, fun hh => ?_, fun hh => ?_⟩
      · have hf := hall.2 hh
        rw [← h.2, if_pos hf]
        refine ⟨?_, by simp only [RNode.annotate, RNode.info_mk]; rw [h2]; exact hce⟩
        rw [h1, List.map_map, all_map_id] at hf
        rw [h1, List.map_map, dkeys, passedOf_map_all hf]
        refine ⟨_, rfl, List.filter_sublist.map _, fun n => ?_⟩
        simp only [List.mem_map, List.mem_filter, has_iff]
        constructor
        · rintro ⟨p, ⟨hp, hm⟩, rfl⟩; exact ⟨⟨p, hp, rfl⟩, hm⟩
        · rintro ⟨⟨p, hp, rfl⟩, hm⟩; exact ⟨p, ⟨hp, hm⟩, rfl⟩
      · rw [← h.2, if_neg (fun hf => hh (hall.1 hf))]
        exact ⟨hcl1.ann, _, rfl⟩
  case prefixItems ss =>
    simp only [evalKw] at h
    split at h
    · contradiction
    · rename_i c1 flags hs
      simp only [Option.some.injEq, Prod.mk.injEq] at h
      obtain ⟨h1, h2, _⟩ := item_loop hok hst hw hc hs
      have hcl1 := clean_info hcl h2
      have hce1 : c1.info.error = .null := by rw [h2]; exact hce
      have hlen : (itemJobs ss i.items).length = min ss.length (elems i.value).length := by
        rw [itemJobs_eq, List.length_map, zip_items_length]
      refine .inl ⟨?_, positional_reports (good := fun n => if n = 0 then .null
        else if n = (elems i.value).length then .bool true else .num (.int (n - 1))) hcl1 hce1 h1 ?_ ?_⟩
      · rw [← h.2]; split
        · split <;> exact hcl1.discard
        · exact hcl1.discard
      · intro hf
        rw [← h.2, if_pos hf]
        by_cases hj : itemJobs ss i.items = []
        · rw [if_pos hj]
          rw [hj, List.length_nil] at hlen
          rw [← hlen, if_pos rfl]
          exact ⟨hcl1.ann, hce1⟩
        · rw [if_neg hj]
          have hj' : (itemJobs ss i.items).length ≠ 0 := fun h => hj (List.length_eq_zero_iff.1 h)
          refine ⟨?_, hce1⟩
          simp only [RNode.annotate, RNode.info_mk, items_length]
          rw [← hlen, if_neg hj']
          split
          · rfl
          · congr 2; omega
      · intro hf
        rw [← h.2, if_neg hf]
  case items9Array ss =>
    simp only [evalKw] at h
    split at h
    · rename_i hnil
      simp only [Option.some.injEq, Prod.mk.injEq] at h
      have hel : elems i.value = [] := (items_nil_iff i).1 hnil
      rw [← h.2]
      refine .inl ⟨hcl.discard, fun _ => ⟨?_, hce⟩, fun hn => ?_⟩
      · rw [hcl.ann, hel]; simp
      · refine absurd ?_ hn
        intro k t hk; rw [hel] at hk; simp at hk
    · split at h
      · contradiction
      · rename_i c1 flags hs
        simp only [Option.some.injEq, Prod.mk.injEq] at h
        obtain ⟨h1, h2, _⟩ := item_loop hok hst hw hc hs
        have hcl1 := clean_info hcl h2
        have hce1 : c1.info.error = .null := by rw [h2]; exact hce
        have hlen : (itemJobs ss i.items).length = min ss.length (elems i.value).length := by
          rw [itemJobs_eq, List.length_map, zip_items_length]
        refine .inl ⟨?_, positional_reports (good := fun n => if n = 0 then .null else .num (.int (n - 1)))
          hcl1 hce1 h1 ?_ ?_⟩
        · rw [← h.2]; split <;> exact hcl1.discard
        · intro hf
          rw [← h.2, if_pos hf]
          refine ⟨?_, hce1⟩
          simp only [RNode.annotate, RNode.info_mk]
          rw [← hlen]
          by_cases hj : itemJobs ss i.items = []
          · rw [if_pos hj, hj]; rfl
          · have hj' : (itemJobs ss i.items).length ≠ 0 := fun h => hj (List.length_eq_zero_iff.1 h)
            rw [if_neg hj, if_neg hj']
            congr 2; omega
        · intro hf
          rw [← h.2, if_neg hf]
  case items t =>
    have hstart := items_start hko hobj hkws (type_arr hty) (hsib _ (by simp [Kw.dependsOn]))
    simp only [evalKw] at h
    split at h
    · contradiction
    · rename_i c1 flags hs
      simp only [Option.some.injEq, Prod.mk.injEq] at h
      obtain ⟨h1, h2⟩ := shared_items hok hst hw hc (List.drop_sublist _ _) hs
      subst h1
      refine .inl ⟨by rw [← h.2]; exact (finishItems_out h2 (f := Prod.fst)).1, ?_⟩
      refine finishItems_reports h2.clean (sharedLoop_errs herr hce hcl.asrt hs) (List.drop_sublist _ _)
        (fun p hp => ?_) h.2.symm
      rw [mem_drop_items, hstart]
      exact ⟨fun h => h.2, fun h => ⟨hp, h⟩⟩
  case unevaluatedItems t =>
    rcases uneval_items_cases hko (fun k hk => hann (.item k) hk trivial) h with
      ⟨rfl, hall⟩ | ⟨todo, c1, flags, hsub, hmem, hs, rfl⟩
    · exact .inr ⟨rfl, hall⟩
    · obtain ⟨h1, h2⟩ := shared_items hok hst hw hc hsub hs
      subst h1
      exact .inl ⟨(finishItems_out h2 (f := Prod.fst)).1,
        finishItems_reports h2.clean (sharedLoop_errs herr hce hcl.asrt hs) hsub hmem rfl⟩
  case unevaluatedItems9 t =>
    rcases uneval_items9_cases hko (fun k hk => hann (.item k) hk trivial) h with
      ⟨rfl, hall⟩ | ⟨todo, c1, flags, hsub, hmem, hs, rfl⟩
    · exact .inr ⟨rfl, hall⟩
    · obtain ⟨h1, h2⟩ := shared_items hok hst hw hc hsub hs
      subst h1
      exact .inl ⟨(finishItems_out h2 (f := Prod.fst)).1,
        finishItems_reports h2.clean (sharedLoop_errs herr hce hcl.asrt hs) hsub hmem rfl⟩
  case properties ps =>
    simp only [evalKw] at h
    split at h
    · contradiction
    · rename_i c1 flags hs
      simp only [Option.some.injEq, Prod.mk.injEq] at h
      obtain ⟨h1, h2, _⟩ := member_loop hok hst hw hc (fun j hj => propJobs_inst hj) hs
      have hcl1 := clean_info hcl h2
      have hd : c'.info.discard = false := by rw [← h.2]; split <;> exact hcl1.discard
      have hval : flags.all id = true ↔
          KwHolds (codeRules st env d) env M (s :: b) kws i.value (.properties ps) := by
        have := hstep.pass
        simp only [remains_some hd, Option.some.injEq, forall_eq'] at this
        refine Iff.trans ?_ this
        rw [← h.2]
        split
        · rename_i hf; simp [RNode.passed, RNode.annotate, hcl1.valid, hf]
        · rename_i hf; simp only [RNode.passed, RNode.fail, RNode.info_mk, hcl1.asrt, hf]; simp
      refine .inl ⟨hd, fun hh => ?_, fun hh => ?_⟩
      · have hf := hval.2 hh
        rw [← h.2, if_pos hf]
        refine ⟨?_, by simp only [RNode.annotate, RNode.info_mk]; rw [h2]; exact hce⟩
        rw [h1, all_map_id] at hf
        rw [h1, passedOf_map_all hf]
        refine ⟨_, rfl, ?_, fun n => ?_⟩
        · have : ∀ ms : List (String × Value), ((propJobs ps (ms.map (fun kv =>
              (kv.1, (⟨i.path ++ [kv.1], kv.2⟩ : Inst))))).map Prod.fst).Sublist (ms.map Prod.fst) := by
            intro ms
            induction ms with
            | nil => simp [propJobs]
            | cons m ms ih =>
              simp only [propJobs, List.map_cons, List.filterMap_cons] at ih ⊢
              cases dlookup m.1 ps with
              | none => exact ih.cons _
              | some t => exact ih.cons₂ _
          rw [members_eq]
          exact this _
        · simp only [List.mem_map]
          constructor
          · rintro ⟨j, hj, rfl⟩
            obtain ⟨x, hx, ht, _⟩ := mem_propJobs.1 hj
            exact ⟨⟨_, hx, rfl⟩, _, dlookup_mem ht⟩
          · rintro ⟨⟨e, he, rfl⟩, t, ht⟩
            exact ⟨(e.1, t, ⟨i.path ++ [e.1], e.2⟩), mem_propJobs.2 ⟨e.2, he, dlookup_of_mem hko ht, rfl⟩, rfl⟩
      · rw [← h.2, if_neg (fun hf => hh (hval.1 hf))]
        exact ⟨hcl1.ann, _, rfl⟩
  case patternProperties ps =>
    simp only [evalKw] at h
    split at h
    · contradiction
    · rename_i c1 flags hs
      simp only [Option.some.injEq, Prod.mk.injEq] at h
      obtain ⟨h1, h2, _⟩ := member_loop hok hst hw hc
        (fun j hj => by
          obtain ⟨q, hq, rfl⟩ := List.mem_map.1 hj
          exact patternJobs_inst hq) hs
      rw [List.map_map] at h1
      have hcl1 := clean_info hcl h2
      have hd : c'.info.discard = false := by rw [← h.2]; split <;> exact hcl1.discard
      have hval : flags.all id = true ↔
          KwHolds (codeRules st env d) env M (s :: b) kws i.value (.patternProperties ps) := by
        have := hstep.pass
        simp only [remains_some hd, Option.some.injEq, forall_eq'] at this
        refine Iff.trans ?_ this
        rw [← h.2]
        split
        · rename_i hf; simp [RNode.passed, RNode.annotate, hcl1.valid, hf]
        · rename_i hf; simp only [RNode.passed, RNode.fail, RNode.info_mk, hcl1.asrt, hf]; simp
      refine .inl ⟨hd, fun hh => ?_, fun hh => ?_⟩
      · have hf := hval.2 hh
        rw [← h.2, if_pos hf]
        refine ⟨?_, by simp only [RNode.annotate, RNode.info_mk]; rw [h2]; exact hce⟩
        rw [h1, all_map_id] at hf
        rw [h1, passedOf_map_all hf]
        refine ⟨_, rfl, dedup_nodup .nil, fun n => ?_⟩
        rw [mem_dedup]
        simp only [List.mem_map, List.not_mem_nil, false_or, patternJobs, List.mem_flatMap, List.mem_filter]
        constructor
        · rintro ⟨j, ⟨m, hm, p, ⟨hp, hs⟩, rfl⟩, rfl⟩
          exact ⟨hasMember_of_mem hm, p.1, p.2, hp, hs⟩
        · rintro ⟨hn, re, t, hp, hs⟩
          obtain ⟨m, hm, rfl⟩ := exists_member hn
          exact ⟨_, ⟨m, hm, (re, t), ⟨hp, hs⟩, rfl⟩, rfl⟩
      · rw [← h.2, if_neg (fun hf => hh (hval.1 hf))]
        exact ⟨hcl1.ann, _, rfl⟩
  case additionalProperties t =>
    have hnamed := additional_named (env := env) hobj (type_obj hty)
      (hsib _ (by simp [Kw.dependsOn])) (hsib _ (by simp [Kw.dependsOn]))
    simp only [evalKw, evalAdditionalProperties, Option.map_eq_some_iff] at h
    obtain ⟨c2, h, hc2⟩ := h
    cases hc2
    split at h
    · contradiction
    · rename_i c1 flags hs
      simp only [Option.some.injEq] at h
      obtain ⟨h1, h2⟩ := shared_members hok hst hw hc List.filter_sublist hs
      subst h1
      refine .inl ⟨by rw [← h]; exact (finishProps_out h2 (f := Prod.fst)).1, ?_⟩
      refine finishProps_reports hw h2.clean (sharedLoop_errs herr hce hcl.asrt hs) List.filter_sublist
        (fun p hp => ?_) h.symm
      rw [List.mem_filter, hnamed]
      exact ⟨fun h => h.2, fun h => ⟨hp, h⟩⟩
  case unevaluatedProperties t =>
    have hmem := unevaluated_named (fun n hn => hann (.name n) hn trivial)
    simp only [evalKw, evalUnevaluatedProperties, Option.map_eq_some_iff] at h
    obtain ⟨c2, h, hc2⟩ := h
    cases hc2
    split at h
    · contradiction
    · rename_i c1 flags hs
      simp only [Option.some.injEq] at h
      obtain ⟨h1, h2⟩ := shared_members hok hst hw hc List.filter_sublist hs
      subst h1
      refine .inl ⟨by rw [← h]; exact (finishProps_out h2 (f := Prod.fst)).1, ?_⟩
      refine finishProps_reports hw h2.clean (sharedLoop_errs herr hce hcl.asrt hs) List.filter_sublist
        (fun p hp => ?_) h.symm
      rw [List.mem_filter]
      have := hmem p.1 (hasMember_of_mem hp)
      exact ⟨fun h => this.1 h.2, fun h => ⟨hp, this.2 h⟩⟩
  case propertyNames t =>
    simp only [evalKw] at h
    split at h
    · contradiction
    · rename_i c1 flags hs
      simp only [Option.some.injEq, Prod.mk.injEq] at h
      obtain ⟨h1, h2⟩ := shared_names hok hst hw hc hs
      have hce1 := sharedLoop_errs herr hce hcl.asrt hs
      subst h1
      have hP : failedOf (tags i.names) (i.names.map (fun p => vb M (s :: b) t p.2.value)) = [] ↔
          KwHolds (codeRules st env d) env M (s :: b) kws i.value (.propertyNames t) := by
        rw [tags, failedOf_map_nil]
        simp only [vb_iff, KwHolds]
        constructor
        · intro h n hn
          exact h (n, ⟨i.path ++ [n], .str n⟩) (mem_names.2 ⟨hn, rfl⟩)
        · intro h p hp
          obtain ⟨h1, h2⟩ := mem_names.1 hp
          rw [h2]; exact h _ h1
      refine .inl ⟨by rw [← h.2]; exact discard_fail_ite h2.clean _, fun hh => ?_, fun hh => ?_⟩
      · rw [← h.2, if_pos (hP.2 hh)]
        exact ⟨h2.clean.ann, hce1⟩
      · rw [← h.2, if_neg (fun hf => hh (hP.1 hf))]
        refine ⟨h2.clean.ann, ?_⟩
        simp only [RNode.fail, RNode.info_mk]
        rw [tags, failedOf_map]
        refine ⟨_, rfl, ?_, fun n => ?_⟩
        · have := (List.filter_sublist (l := i.names)
            (p := fun p => !vb M (s :: b) t p.2.value)).map Prod.fst
          refine this.trans ?_
          rw [names_eq, List.map_map]
          exact List.Sublist.refl _
        · simp only [List.mem_map, List.mem_filter]
          constructor
          · rintro ⟨p, ⟨hp, hv⟩, rfl⟩
            obtain ⟨⟨x, hx⟩, he⟩ := mem_names.1 hp
            refine ⟨⟨_, hx, rfl⟩, fun hv' => ?_⟩
            rw [he, vb_iff.2 hv'] at hv; cases hv
          · rintro ⟨⟨e, he, rfl⟩, hv⟩
            refine ⟨(e.1, ⟨i.path ++ [e.1], .str e.1⟩), ⟨mem_names.2 ⟨⟨e.2, he⟩, rfl⟩, ?_⟩, rfl⟩
            simp only [Bool.not_eq_true', ← Bool.not_eq_true, vb_iff]
            exact hv
  case items9 t =>
    obtain ⟨_, hd, _⟩ := kw_items9 (kws := kws) hok hst hw hc rfl hko (hbool t) h
    refine .inl ⟨hd, ?_⟩
    simp only [evalKw] at h
    simp only [Reports]
    split at h
    · rename_i hnil
      simp only [Option.some.injEq, Prod.mk.injEq] at h
      have hel : elems i.value = [] := (items_nil_iff i).1 hnil
      rw [← h.2]
      cases st.obj t
      · exact ⟨hcl.ann, fun _ => hce, fun hn => absurd (fun h => absurd hel h) hn⟩
      · exact ⟨hce, fun h => absurd hel h.1, fun _ => hcl.ann⟩
    · rename_i hnil
      have hel : elems i.value ≠ [] := fun h => hnil ((items_nil_iff i).2 h)
      split at h
      · rename_i bb hb
        split at h
        · contradiction
        · rename_i c1 hs
          simp only [Option.some.injEq, Prod.mk.injEq] at h
          obtain ⟨_, h1, h2, h3⟩ := own_reports (c' := c') hok hst hw hc hce herr hs (.inl (by rw [h.2]))
          rw [hb] at h2 h3 ⊢
          refine ⟨h1, fun hh => h2 ?_, fun hh => h3 ?_⟩
          · rw [hh hel]; intro h; cases h
          · intro hf
            apply hf
            cases bb
            · rfl
            · exact absurd (fun _ => rfl) hh
      · rename_i ks hb
        split at h
        · contradiction
        · rename_i c1 hs
          simp only [Option.some.injEq, Prod.mk.injEq] at h
          obtain ⟨h1, h2, h3, h4, h5⟩ := plainLoop_spec hok hst hc.clean
            (by intro j hj; obtain ⟨p, hp, rfl⟩ := mem_insts hj; exact items_wf hw hp)
            (fun j _ => hc.away _) (items_pairwise (List.Sublist.refl _)) hs
          have hce1 := plainLoop_errs herr (by rw [hb]; intro h; cases h) hce hs
          have hP : c1.passed = true ↔
              KwHolds (codeRules st env d) env M (s :: b) kws i.value (.items9 t) := by
            have := hstep.pass
            simp only [remains_some hd, Option.some.injEq, forall_eq', Pass0, ObsHolds, hb] at this
            refine Iff.trans ?_ this
            rw [← h.2]
            split
            · rename_i hp
              simp only [hp, true_iff]
              simpa [RNode.passed, RNode.annotate] using hp
            · rfl
          rw [← h.2, hb]
          refine ⟨?_, fun hh => ?_, fun hh => ?_⟩
          · split <;> exact hce1
          · rw [if_pos (hP.2 hh.2)]; rfl
          · rw [if_neg (fun hp => hh ⟨hel, hP.1 hp⟩)]; exact h4
  case additionalItems t =>
    have hs1 := hsib "items" (by simp [Kw.dependsOn])
    have hsome := items_ann_some hko hkws hs1
    have hnone := items_ann_none hs1
    simp only [evalKw] at h
    split at h
    · rename_i last hlast
      obtain ⟨ss, hss, hne, hel, hh, hz⟩ := hsome last hlast
      have hlen0 : 0 < ss.length := List.length_pos_iff.2 hne
      have hlen1 : 0 < (elems i.value).length := List.length_pos_iff.2 hel
      split at h
      · contradiction
      · rename_i c1 flags hs
        simp only [Option.some.injEq, Prod.mk.injEq] at h
        obtain ⟨h1, h2⟩ := shared_items hok hst hw hc List.filter_sublist hs
        subst h1
        refine .inl ⟨by rw [← h.2]; exact (finishItems_out h2 (f := Prod.fst)).1, ss, hss, hne, hel, hh, ?_⟩
        refine finishItems_reports h2.clean (sharedLoop_errs herr hce hcl.asrt hs) List.filter_sublist
          (fun p hp => ?_) h.2.symm
        have := lt_of_mem_items hp
        rw [List.mem_filter, decide_eq_true_eq]
        constructor
        · rintro ⟨_, h⟩; omega
        · intro h; exact ⟨hp, by omega⟩
    · rename_i hn
      have hn := hnone hn
      simp only [Option.some.injEq, Prod.mk.injEq] at h
      rw [← h.2]
      refine .inr ⟨rfl, ?_⟩
      rintro ⟨ss, hss, hne, hel, hh⟩
      exact hn ss hss hne hel hh
  case recursiveRef t =>
    simp only [evalKw] at h
    split at h
    · contradiction
    · rename_i c1 hr
      simp only [Option.some.injEq, Prod.mk.injEq] at h
      rw [recLoop_stut hst] at hr h
      exact .inl (own_reports hok hst hw hc hce herr hr (.inr (.inr ⟨_, h.2.symm⟩)))
  case ref t =>
    simp only [evalKw] at h
    split at h
    · contradiction
    · rename_i c1 hr
      simp only [Option.some.injEq, Prod.mk.injEq] at h
      exact .inl (own_reports hok hst hw hc hce herr hr (.inr (.inr ⟨_, h.2.symm⟩)))
  case dynamicRef t frag dyn =>
    simp only [evalKw] at h
    split at h
    · contradiction
    · rename_i c1 hr
      simp only [Option.some.injEq, Prod.mk.injEq] at h
      rw [dynLoop_stut hst] at hr h
      exact .inl (own_reports hok hst hw hc hce herr hr (.inr (.inr ⟨_, h.2.symm⟩)))
  case static k v =>
    simp only [evalKw, Option.some.injEq, Prod.mk.injEq] at h
    rw [← h.2]
    exact .inl ⟨hcl.discard, hcl.ann, hce⟩
  case format attr enabled =>
    simp only [evalKw, Option.some.injEq, Prod.mk.injEq] at h
    refine .inl ?_
    by_cases he : (enabled && (env.fmtTypes attr).contains i.value.type) = true
    · rw [if_pos he] at h
      simp only [Bool.and_eq_true, List.contains_eq_mem, decide_eq_true_eq] at he
      simp only [Reports, KwHolds, he, true_implies]
      rw [← h.2]
      split
      · rename_i hf
        exact ⟨hcl.discard, rfl, fun _ => hce, fun hn => absurd hf hn⟩
      · rename_i hf
        exact ⟨hcl.discard, rfl, fun h => absurd h hf, fun _ => ⟨_, rfl⟩⟩
    · rw [if_neg he] at h
      simp only [Bool.and_eq_true, List.contains_eq_mem, decide_eq_true_eq] at he
      rw [← h.2]
      exact ⟨hcl.discard, rfl, fun _ => hce, fun hn => absurd (fun h1 h2 => absurd ⟨h1, h2⟩ he) hn⟩
  case annot k so v =>
    simp only [evalKw, Option.some.injEq, Prod.mk.injEq] at h
    rw [← h.2]
    exact .inl ⟨hcl.discard, rfl, hce⟩
  case contentSchema v =>
    simp only [evalKw, Option.some.injEq, Prod.mk.injEq] at h
    rw [← h.2]
    cases hs : sibling parent i "contentMediaType" with
    | none =>
      refine .inr ⟨rfl, ?_⟩
      rw [Silent, ← hmedia v rfl, hs]
      rintro ⟨r, hr⟩; cases hr
    | some r => exact .inl ⟨hcl.discard, (hmedia v rfl).1 ⟨r, hs⟩, rfl, hce⟩
  case unknown k v =>
    simp only [evalKw, Option.some.injEq, Prod.mk.injEq] at h
    rw [← h.2]
    exact .inl ⟨hcl.discard, rfl, hce⟩

/-- What the result of `contains` carries, whatever `minContains` made of it. -/
structure ContainsOk (M : Meaning) (sc : List SRef) (v : Value) (t : SRef) (c : RNode) : Prop where
  asrt : c.info.asrt = true
  lists : ListsItems (ItemOk M sc v t) c.info.annotation
  good : c.info.valid = true → c.info.error = .null
  bad : c.info.valid = false → IsText c.info.error

theorem contains_reports {t : SRef} (herr : RecErrs st rec) (hc : FreshFor c i "contains" s)
    (hce : c.info.error = .null)
    (h : evalKw st env rec (s :: a) (.contains t) i parent c = some (parent', c')) :
    c'.info.discard = false ∧ ContainsOk M (s :: b) i.value t c' := by
  simp only [evalKw] at h
  split at h
  · contradiction
  · rename_i c1 flags hs
    simp only [Option.some.injEq, Prod.mk.injEq] at h
    obtain ⟨h1, h2⟩ := shared_items hok hst hw hc (List.Sublist.refl _) hs
    have hce1 := sharedLoop_errs herr hce hc.clean.asrt hs
    have hl : ListsItems (ItemOk M (s :: b) i.value t) (nats (passedOf (tags i.items) flags)) := by
      rw [h1, tags, passedOf_map]
      refine listsItems_of List.filter_sublist (fun k => ?_)
      simp only [List.mem_map, List.mem_filter, vb_iff]
      constructor
      · rintro ⟨p, ⟨hp, hv⟩, rfl⟩
        obtain ⟨x, hx, he⟩ := mem_items.1 hp
        rw [he] at hv; exact ⟨x, hx, hv⟩
      · rintro ⟨x, hx, hv⟩
        exact ⟨(k, ⟨i.path ++ [natStr k], x⟩), ⟨mem_items.2 ⟨x, hx, rfl⟩, hv⟩, rfl⟩
    rw [← h.2]
    split
    · exact ⟨h2.clean.discard, h2.clean.asrt, hl, fun h => by simp [RNode.fail] at h, fun _ => ⟨_, rfl⟩⟩
    · refine ⟨h2.clean.discard, h2.clean.asrt, hl, fun _ => hce1, fun h => ?_⟩
      have := h2.clean.valid
      simp only [RNode.annotate, RNode.info_mk] at h
      rw [h] at this; cases this

omit hok hst hw

theorem kwLoop_split : ∀ {done rest : List Kw} {r r' : RNode}, kwLoop st env rec a s i (done ++ rest) r = some r' →
    ∃ r1, kwLoop st env rec a s i done r = some r1 ∧ kwLoop st env rec a s i rest r1 = some r'
  | [], rest, r, r', h => ⟨r, rfl, h⟩
  | kw :: done, rest, r, r', h => by
    simp only [List.cons_append, kwLoop] at h ⊢
    split at h
    · rename_i hty
      rw [if_pos hty]
      split at h
      · contradiction
      · rename_i r1 h1
        exact kwLoop_split h
    · rename_i hty
      rw [if_neg hty]
      exact kwLoop_split h

/-- Later keywords leave what the result of `contains` carries. -/
theorem kwLoop_contains {t : SRef} {sc : List SRef} :
    ∀ {kws : List Kw} {r r' : RNode}, kwLoop st env rec a s i kws r = some r' → "contains" ∉ kws.map Kw.key →
      (∃ c, clookup ("contains", i.path) r.children = some c ∧ ContainsOk M sc i.value t c) →
      ∃ c, clookup ("contains", i.path) r'.children = some c ∧ ContainsOk M sc i.value t c
  | [], r, r', h, _, hc => by simp only [kwLoop, Option.some.injEq] at h; rwa [← h]
  | kw :: kws, r, r', h, hk, ⟨c, hl, hc⟩ => by
    rw [List.map_cons, List.mem_cons, not_or] at hk
    simp only [kwLoop] at h
    split at h
    · split at h
      · contradiction
      · rename_i r1 h1
        refine kwLoop_contains h hk.2 ?_
        have hne : ("contains", i.path) ≠ (kw.key, i.path) := fun e => hk.1 (congrArg Prod.fst e)
        simp only [withSub] at h1
        cases he : evalKw st env rec (s :: a) kw i
            (r.setChild (kw.key, i.path) (r.fresh i kw.key s)) (r.fresh i kw.key s) with
        | none => simp only [he] at h1; contradiction
        | some q =>
          obtain ⟨p', c'⟩ := q
          simp only [he, Option.some.injEq] at h1
          have hl0 : clookup ("contains", i.path) (r.setChild (kw.key, i.path) (r.fresh i kw.key s)).children =
              some c := (clookup_cset_ne hne).trans hl
          have hp : ∃ c, clookup ("contains", i.path) p'.children = some c ∧
              ContainsOk M sc i.value t c := by
            rcases evalKw_parent he with rfl | ⟨con, _, hs, rfl⟩
            · exact ⟨c, hl0, hc⟩
            · rw [sibling, hl0] at hs
              cases hs
              exact ⟨_, clookup_cset_self, hc.asrt, hc.lists, fun _ => rfl, fun h => by simp [RNode.pass_] at h⟩
          obtain ⟨c2, hl2, hc2⟩ := hp
          refine ⟨c2, ?_, hc2⟩
          rw [← h1, ← hl2]
          split
          · exact (clookup_cerase_ne hne).trans (clookup_cset_ne hne)
          · exact clookup_cset_ne hne
    · exact kwLoop_contains h hk.2 ⟨c, hl, hc⟩

/-- A name without keyword that applies to the instance has no result. -/
theorem kwLoop_none {key : String} :
    ∀ {kws : List Kw} {r r' : RNode}, (∀ kw ∈ kws, kw.key = key → kw.types.contains i.value.type = false) →
      kwLoop st env rec a s i kws r = some r' → clookup (key, i.path) r.children = none →
      clookup (key, i.path) r'.children = none
  | [], r, r', _, h, hl => by simp only [kwLoop, Option.some.injEq] at h; rwa [← h]
  | kw :: kws, r, r', hk, h, hl => by
    simp only [kwLoop] at h
    split at h
    · rename_i hty
      split at h
      · contradiction
      · rename_i r1 h1
        refine kwLoop_none (fun kw' hkw' => hk kw' (List.mem_cons_of_mem _ hkw')) h ?_
        have hne : (key, i.path) ≠ (kw.key, i.path) := by
          intro e
          have := hk kw List.mem_cons_self (congrArg Prod.fst e).symm
          rw [this] at hty; cases hty
        simp only [withSub] at h1
        cases he : evalKw st env rec (s :: a) kw i
            (r.setChild (kw.key, i.path) (r.fresh i kw.key s)) (r.fresh i kw.key s) with
        | none => simp only [he] at h1; contradiction
        | some q =>
          obtain ⟨p', c'⟩ := q
          simp only [he, Option.some.injEq] at h1
          have hl0 : clookup (key, i.path) (r.setChild (kw.key, i.path) (r.fresh i kw.key s)).children =
              none := (clookup_cset_ne hne).trans hl
          have hp : clookup (key, i.path) p'.children = none := by
            rcases evalKw_parent he with rfl | ⟨con, _, hs, rfl⟩
            · exact hl0
            · have hc : (key, i.path) ≠ ("contains", i.path) := by
                intro e
                rw [sibling, ← e, hl0] at hs; cases hs
              exact (clookup_cset_ne hc).trans hl0
          rw [← h1, ← hp]
          split
          · exact (clookup_cerase_ne hne).trans (clookup_cset_ne hne)
          · exact clookup_cset_ne hne
    · exact kwLoop_none (fun kw' hkw' => hk kw' (List.mem_cons_of_mem _ hkw')) h hl

theorem matching_pos {sc : List SRef} {t : SRef} {v : Value} :
    1 ≤ matching M sc t v ↔ ∃ k, ItemOk M sc v t k := by
  have hm : matching M sc t v = ((⟨[], v⟩ : Inst).items.filter (fun p => vb M sc t p.2.value)).length :=
    (matching_eq (i := ⟨[], v⟩) M sc t).symm
  rw [hm]
  constructor
  · intro h
    obtain ⟨p, hp⟩ := List.exists_mem_of_length_pos h
    rw [List.mem_filter, vb_iff] at hp
    obtain ⟨x, hx, he⟩ := mem_items.1 hp.1
    exact ⟨p.1, x, hx, by rw [he] at hp; exact hp.2⟩
  · rintro ⟨k, x, hx, hv⟩
    exact List.length_pos_of_mem (a := (k, ⟨[] ++ [natStr k], x⟩))
      (List.mem_filter.2 ⟨mem_items.2 ⟨x, hx, rfl⟩, vb_iff.2 hv⟩)

/-- A keyword named `contentMediaType` leaves a result for a string. -/
theorem media_found {kw : Kw} (hk : kw.key = "contentMediaType")
    (hmt : kw.types.contains i.value.type = true) (hty : (Kw.contentSchema v).types.contains i.value.type = true) {kws : List Kw} {r r' : RNode}
    (hn : (kws.map Kw.key).Nodup) (hm : kw ∈ kws) (h : kwLoop st env rec a s i kws r = some r') :
    ∃ c, clookup ("contentMediaType", i.path) r'.children = some c := by
  have hstr : i.value.type = .string := by simpa [Kw.types] using hty
  have hc : kw.key ≠ "contains" := by rw [hk]; decide
  rw [← hk]
  cases kw
  case static k w => simp [Kw.types] at hmt
  case annot k so w =>
    obtain ⟨r0, _, h⟩ := kwLoop_of_mem (f := fun c => (c.annotate w).noassert) hc
      (by rw [hstr]; cases so <;> rfl) (fun _ _ => rfl) (fun _ h => h) hn hm h
    exact ⟨_, h⟩
  case unknown k w =>
    obtain ⟨r0, _, h⟩ := kwLoop_of_mem (f := fun c => (c.annotate w).noassert) hc
      (by rw [hstr]; rfl) (fun _ _ => rfl) (fun _ h => h) hn hm h
    exact ⟨_, h⟩
  case assert x => cases x <;> exact absurd hk (by simp only [Kw.key, Assertion.key]; decide)
  all_goals exact absurd hk (by simp only [Kw.key]; decide)

end

/-- What each keyword of a schema leaves behind. -/
theorem body_reports {d : Dialect} {st : Store} {env : Env} {rec : Rec} {M : Meaning} (hok : RecOk d rec M)
    (herr : RecErrs st rec) (hstore : StoreOk d st)
    (hbool : ∀ t bb, st.obj t = .bool bb → ∀ sc v pt, ¬ M.ev sc t v pt)
    {sc sc' : List SRef} {s : SRef} {i : Inst} {r0 r' : RNode} {kws : List Kw} {kw : Kw}
    (hst : Stut (s :: sc) (s :: sc')) (hw : i.value.WF) (hc : Clean r0) (ha : AwayFrom i.path r0)
    (hobj : st.obj s = .obj kws) (hkw : kw ∈ kws) (hty : kw.types.contains i.value.type = true)
    (h : evalBody st env rec sc s i r0 = some r') :
    (∃ c, sibling r' i kw.key = some c ∧
      Reports (codeRules st env d) env st M (s :: sc') kws i.value kw c.info.annotation c.info.error) ∨
    (sibling r' i kw.key = none ∧ Silent (codeRules st env d) env st M (s :: sc') kws i.value kw) := by
  have hkws := hstore s kws hobj
  obtain ⟨rr, hloop, hch⟩ := evalBody_children hobj h
  rw [sibling, hch]
  obtain ⟨done, rest, hsplit⟩ := List.append_of_mem hkw
  have hloop' := hloop
  rw [hsplit] at hloop'
  obtain ⟨r1, hd, hr⟩ := kwLoop_split hloop'
  have hempty : ∃ new, r0.children = r0.children ++ new ∧ NewOk st env d M (s :: sc') kws i s [] new :=
    ⟨[], by simp, by simp, by simp, by simp, by simp, by simp, by simp⟩
  obtain ⟨new, hch1, hnew⟩ := loop_prefix (b := sc') hok hst hw hkws hobj hbool hc ha (done := [])
    (later := kw :: rest) (by simpa using hsplit) rfl hempty hd
  rw [List.nil_append] at hnew
  have hi1 : r1.info = r0.info := kwLoop_info hd
  have hnd := hkws.nodup
  rw [hsplit, List.map_append, List.map_cons, List.nodup_append] at hnd
  have hrest : kw.key ∉ rest.map Kw.key := (List.nodup_cons.1 hnd.2.1).1
  obtain ⟨hsib, hann⟩ := loop_ready hok hst hw hkws hobj hbool hsplit hc ha hi1 hnew hch1 rfl
  rw [kwLoop, if_pos hty] at hr
  split at hr
  · contradiction
  · rename_i r2 hr2
    simp only [withSub] at hr2
    cases he : evalKw st env rec (s :: sc) kw i
        (r1.setChild (kw.key, i.path) (r1.fresh i kw.key s)) (r1.fresh i kw.key s) with
    | none => simp only [he] at hr2; contradiction
    | some q =>
      obtain ⟨p', c'⟩ := q
      simp only [he, Option.some.injEq] at hr2
      have hfresh := freshFor_fresh r1 i kw.key s
      by_cases hcon : ∃ t, kw = .contains t
      · obtain ⟨t, rfl⟩ := hcon
        obtain ⟨hdis, hcok⟩ := contains_reports hok hst hw herr hfresh rfl he
        rw [hdis] at hr2
        obtain ⟨c2, hl2, hc2⟩ := kwLoop_contains hr hrest
          ⟨c', by rw [← hr2]; exact clookup_cset_self, hcok⟩
        refine .inl ⟨c2, hl2, hc2.lists, ?_⟩
        obtain ⟨new2, hch2, hnew2⟩ := loop_inv (b := sc') hok hst hw hkws hobj hbool hc ha (done := [])
          (by simp) rfl hempty hloop
        have hl3 : clookup ((Kw.contains t).key, i.path) new2 = some c2 := by
          have := hl2
          rw [hch2, clookup_append] at this
          · exact this
          · intro e he hk
            exact (ha e he).1 (by rw [hk])
        have hp := (hnew2.out _ hkw).pass
        rw [hl3] at hp
        have harr := type_arr (v := i.value) hty
        simp only [Option.some.injEq, forall_eq', PassD, harr, true_implies, matching_pos, RNode.passed, hc2.asrt,
          Bool.not_true, Bool.or_false] at hp
        constructor
        · intro hh
          exact hc2.good (hp.2 hh)
        · intro hh
          refine hc2.bad ?_
          rw [← Bool.not_eq_true]
          exact fun h => hh (hp.1 h)
      · have hne : kw.key ≠ "contains" := by
          intro hk
          obtain ⟨t, ht⟩ := key_contains (hkws.ok kw hkw) hk
          exact hcon ⟨t, ht⟩
        rw [kwLoop_lookup hne _ hr hrest]
        have hmedia : ∀ v, kw = .contentSchema v →
            ((∃ r, sibling (r1.setChild (kw.key, i.path) (r1.fresh i kw.key s)) i "contentMediaType" = some r) ↔
              Media kws i.value) := by
          rintro v rfl
          have hs : sibling (r1.setChild ((Kw.contentSchema v).key, i.path)
              (r1.fresh i (Kw.contentSchema v).key s)) i "contentMediaType" =
              clookup ("contentMediaType", i.path) r1.children :=
            clookup_cset_ne (by simp [Kw.key])
          rw [hs]
          constructor
          · rintro ⟨r, hr⟩
            apply Classical.byContradiction
            intro hno
            have := mem_of_clookup hr
            rw [hch1] at this
            rcases List.mem_append.1 this with h | h
            · exact (ha _ h).1 rfl
            · obtain ⟨kw', hkw', hk⟩ := hnew.keys _ h
              have hk : kw'.key = "contentMediaType" := (congrArg Prod.fst hk).symm
              refine hno ⟨kw', by rw [hsplit]; exact List.mem_append_left _ hkw', hk, ?_⟩
              apply Classical.byContradiction
              intro hno
              obtain ⟨l1, l2, hl⟩ := List.append_of_mem hkw'
              have hn1 := hnd.1
              rw [hl, List.map_append, List.map_cons, List.nodup_append] at hn1
              rw [hl] at hd
              obtain ⟨q1, hq1, hq2⟩ := kwLoop_split hd
              rw [kwLoop, if_neg hno] at hq2
              rw [kwLoop_lookup (by decide) _ hq2 (by rw [← hk]; exact (List.nodup_cons.1 hn1.2.1).1),
                kwLoop_lookup (by decide) _ hq1
                  (by rw [← hk]; exact fun h => hn1.2.2 _ h _ List.mem_cons_self rfl)] at hr
              exact (ha _ (mem_of_clookup hr)).1 rfl
          · rintro ⟨kw', hkw', hk, hmt⟩
            have hin : kw' ∈ done := hkws.deps done _ rest hsplit kw' hkw' (by rw [hk]; simp [Kw.dependsOn])
            exact media_found hk hmt hty hnd.1 hin hd
        have := kw_reports hok hst hw herr hkws hobj hbool hkw hfresh rfl hty hsib hmedia hann
          (fun t ht => hcon ⟨t, ht⟩) he
        rcases this with ⟨hdis, hrep⟩ | ⟨hdis, hsil⟩
        · rw [hdis] at hr2
          exact .inl ⟨c', by rw [← hr2]; exact clookup_cset_self, hrep⟩
        · rw [hdis, if_pos rfl] at hr2
          refine .inr ⟨?_, hsil⟩
          have hp' : p' = r1.setChild (kw.key, i.path) (r1.fresh i kw.key s) := by
            rcases evalKw_parent he with hp | ⟨con, ⟨m, hm⟩, _⟩
            · exact hp
            · subst hm; exact hsil.elim
          have hall : ∀ e ∈ r1.children, e.1 ≠ (kw.key, i.path) := by
            intro e he hk
            rw [hch1] at he
            rcases List.mem_append.1 he with he | he
            · exact (ha e he).1 (by rw [hk])
            · obtain ⟨kw', hkw', hk'⟩ := hnew.keys e he
              rw [hk] at hk'
              exact hnd.2.2 _ (List.mem_map.2 ⟨kw', hkw', rfl⟩) _ List.mem_cons_self
                (congrArg Prod.fst hk').symm
          rw [← hr2, hp']
          simp only [RNode.delChild, RNode.setChild, RNode.children_mk]
          rw [cset_new hall, cset_last hall, cerase_last hall]
          exact clookup_none_iff.2 hall

end Jschon
