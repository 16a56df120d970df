import Verif.Proof.Apart

/-!
# Patches act where their pointers lead: C102
-/

namespace Jschon
open Spec

/-- C102: a patch whose pointers are for places inside the value at `ks` changes that value, as the patch with the
shorter pointers changes it by itself, and nothing else. -/
theorem C102_inside (ks : List String) (ops : List PatchOp) (ho : ∀ o ∈ ops, Inside ks o) (hne : ops ≠ []) (d d' : Value) :
    patchEvaluate ops d = .ok d' ↔ At (fun v v' => patchEvaluate (ops.map (seenFrom ks)) v = .ok v') d ks d' :=
  patch_inside ho hne

/-- C102: and it fails as that one. -/
theorem C102_fails (ks : List String) (ops : List PatchOp) (ho : ∀ o ∈ ops, Inside ks o) (d v : Value)
    (hv : Ptr.evaluate ⟨ks⟩ d = .ok v) (e : Exc) :
    patchEvaluate ops d = .error e ↔ patchEvaluate (ops.map (seenFrom ks)) v = .error e := by
  unfold patchEvaluate
  induction ops generalizing d v with
  | nil => simp [patchApplyAll]
  | cons o os ih =>
    have hi := ho o (by simp)
    simp only [patchApplyAll, List.map_cons]
    cases h : o.apply d with
    | error e' => rw [(apply_fails hi hv).1 h]
    | ok m =>
      obtain ⟨x, x', h1, h2, h3⟩ := at_through ((apply_inside hi).1 h)
      cases desig_unique _ _ _ _ h1 ((designates_iff ..).2 hv)
      rw [h2]
      exact ih (fun o' h' => ho o' (by simp [h'])) m x' ((designates_iff ..).1 h3)

/-- C102: if there is no such place, it fails with JSONPatchError. -/
theorem C102_nowhere (ks : List String) (o : PatchOp) (os : List PatchOp) (ho : Inside ks o)
    (hfrom : (o.op = .move ∨ o.op = .copy) → o.from_.isSome) (d : Value)
    (hv : ¬ ∃ v, Ptr.evaluate ⟨ks⟩ d = .ok v) : patchEvaluate (o :: os) d = .error .patchError := by
  have : ∃ e, resolvePlain ks d = .error e := by
    cases h : resolvePlain ks d with
    | error e => exact ⟨e, rfl⟩
    | ok v => exact absurd ⟨v, h⟩ hv
  obtain ⟨e, he⟩ := this
  simp only [patchEvaluate, patchApplyAll, apply_nowhere ho hfrom he]

example : Inside ["a"] ⟨.add, ⟨["a", "0"]⟩, .null, none⟩ ∧ ¬ ∃ v, Ptr.evaluate ⟨["a"]⟩ (.obj [("b", .null)]) = .ok v :=
  ⟨⟨⟨["0"], by simp, rfl⟩, fun f h => by cases h⟩, fun ⟨v, h⟩ => by
    rw [show Ptr.evaluate ⟨["a"]⟩ (.obj [("b", .null)]) = .error .ptrReference from rfl] at h
    cases h⟩

/-- C102: every pointer elsewhere leads to what it led to, or nowhere as before. -/
theorem C102_elsewhere (ks : List String) (ops : List PatchOp) (ho : ∀ o ∈ ops, Inside ks o) (d d' : Value)
    (h : patchEvaluate ops d = .ok d') (q : Ptr) (hq : Apart ks q.keys) : q.evaluate d' = q.evaluate d := by
  by_cases hne : ops = []
  · subst hne; cases h; rfl
  · exact evaluate_congr (at_apart ((patch_inside ho hne).1 h) hq)

/-- C102: what pointers to places inside lead to afterwards. -/
theorem C102_there (ks : List String) (ops : List PatchOp) (ho : ∀ o ∈ ops, Inside ks o) (d d' v : Value)
    (h : patchEvaluate ops d = .ok d') (hv : Ptr.evaluate ⟨ks⟩ d = .ok v) :
    ∃ v', patchEvaluate (ops.map (seenFrom ks)) v = .ok v' ∧
      ∀ r, Ptr.evaluate ⟨ks ++ r⟩ d' = Ptr.evaluate ⟨r⟩ v' := by
  have hv := (designates_iff ..).2 hv
  have step : ∀ {x x'}, Designates x ks x' → ∀ r, Ptr.evaluate ⟨ks ++ r⟩ x = Ptr.evaluate ⟨r⟩ x' := fun h r => by
    unfold Ptr.evaluate
    rw [resolvePlain_append, (designates_iff ..).1 h]
  by_cases hne : ops = []
  · subst hne; cases h; exact ⟨v, rfl, step hv⟩
  · obtain ⟨x, x', h1, h2, h3⟩ := at_through ((patch_inside ho hne).1 h)
    cases desig_unique _ _ _ _ h1 hv
    exact ⟨x', h2, step h3⟩

theorem evaluate_append {a b : List PatchOp} {d d' : Value} :
    patchEvaluate (a ++ b) d = .ok d' ↔ ∃ m, patchEvaluate a d = .ok m ∧ patchEvaluate b m = .ok d' := by
  rw [C24_append]
  cases patchEvaluate a d <;> simp

/-- C102: patches inside values at places that part can be applied in either order. -/
theorem C102_order (ks ls : List String) (hkl : Apart ks ls) (a b : List PatchOp) (ha : ∀ o ∈ a, Inside ks o)
    (hb : ∀ o ∈ b, Inside ls o) (d d' : Value) : patchEvaluate (a ++ b) d = .ok d' ↔ patchEvaluate (b ++ a) d = .ok d' := by
  have half : ∀ {ks ls : List String} {a b : List PatchOp}, Apart ks ls → (∀ o ∈ a, Inside ks o) → (∀ o ∈ b, Inside ls o) →
      patchEvaluate (a ++ b) d = .ok d' → patchEvaluate (b ++ a) d = .ok d' := by
    intro ks ls a b hkl ha hb h
    by_cases hna : a = []
    · subst hna; simpa using h
    by_cases hnb : b = []
    · subst hnb; simpa using h
    obtain ⟨m, h1, h2⟩ := evaluate_append.1 h
    obtain ⟨m', h3, h4⟩ := at_swap hkl ((patch_inside ha hna).1 h1) ((patch_inside hb hnb).1 h2)
    exact evaluate_append.2 ⟨m', (patch_inside hb hnb).2 h3, (patch_inside ha hna).2 h4⟩
  exact ⟨half hkl ha hb, half hkl.symm hb ha⟩

/-- C102: and neither makes the other fail or succeed. -/
theorem C102_both (ks ls : List String) (hkl : Apart ks ls) (a b : List PatchOp) (ha : ∀ o ∈ a, Inside ks o)
    (hb : ∀ o ∈ b, Inside ls o) (d : Value) : (∃ d', patchEvaluate (a ++ b) d = .ok d') ↔
      (∃ x, patchEvaluate a d = .ok x) ∧ ∃ y, patchEvaluate b d = .ok y := by
  constructor
  · rintro ⟨d', h⟩
    have h' := (C102_order ks ls hkl a b ha hb d d').1 h
    obtain ⟨m, h1, -⟩ := evaluate_append.1 h
    obtain ⟨m', h2, -⟩ := evaluate_append.1 h'
    exact ⟨⟨m, h1⟩, ⟨m', h2⟩⟩
  · rintro ⟨⟨x, h1⟩, ⟨y, h2⟩⟩
    by_cases hna : a = []
    · subst hna; exact ⟨y, by simpa using h2⟩
    by_cases hnb : b = []
    · subst hnb; exact ⟨x, by simpa using h1⟩
    have h1' := (patch_inside ha hna).1 h1
    obtain ⟨v, v', hv, hr, -⟩ := at_through ((patch_inside hb hnb).1 h2)
    obtain ⟨d', h⟩ := at_total (R := fun v v' => patchEvaluate (b.map (seenFrom ls)) v = .ok v')
      ((at_apart h1' hkl v).2 hv) hr
    exact ⟨d', evaluate_append.2 ⟨x, h1, (patch_inside hb hnb).2 h⟩⟩

/-- C102: a patch for the value at `/a` and one for that at `/b/1`. -/
example : Apart ["a"] ["b", "1"] ∧
    (∀ o ∈ [PatchOp.mk .move ⟨["a", "-"]⟩ .null (some ⟨["a", "0"]⟩), ⟨.test, ⟨["a", "1"]⟩, .null, none⟩], Inside ["a"] o) ∧
    (∀ o ∈ [PatchOp.mk .add ⟨["b", "1", "x"]⟩ (.bool true) none], Inside ["b", "1"] o) ∧
    ∃ d', patchEvaluate ([PatchOp.mk .move ⟨["a", "-"]⟩ .null (some ⟨["a", "0"]⟩), ⟨.test, ⟨["a", "1"]⟩, .null, none⟩] ++
      [PatchOp.mk .add ⟨["b", "1", "x"]⟩ (.bool true) none])
      (.obj [("a", .arr [.null, .str "y"]), ("b", .arr [.null, .obj []])]) = .ok d' := by
  refine ⟨⟨[], "a", "b", [], ["1"], rfl, rfl, by decide⟩, ?_, ?_,
    .obj [("a", .arr [.str "y", .null]), ("b", .arr [.null, .obj [("x", .bool true)]])], by rfl⟩
  · intro o ho
    simp only [List.mem_cons, List.not_mem_nil, or_false] at ho
    rcases ho with rfl | rfl
    · refine ⟨⟨["-"], by simp, rfl⟩, fun f hf => ?_⟩
      cases hf
      exact ⟨["0"], by simp, rfl⟩
    · exact ⟨⟨["1"], by simp, rfl⟩, fun f hf => by cases hf⟩
  · intro o ho
    simp only [List.mem_cons, List.not_mem_nil, or_false] at ho
    subst ho
    exact ⟨⟨["x"], by simp, rfl⟩, fun f hf => by cases hf⟩

/-- C102: it is not enough that the pointers part: removals from one array move its other items. -/
theorem C102_siblings : Apart ["0"] ["1"] ∧ ∃ d x y, x ≠ y ∧
    patchEvaluate [⟨.remove, ⟨["0"]⟩, .null, none⟩, ⟨.remove, ⟨["1"]⟩, .null, none⟩] d = .ok x ∧
    patchEvaluate [⟨.remove, ⟨["1"]⟩, .null, none⟩, ⟨.remove, ⟨["0"]⟩, .null, none⟩] d = .ok y :=
  ⟨⟨[], "0", "1", [], [], rfl, rfl, by decide⟩, .arr [.str "a", .str "b", .str "c"], .arr [.str "b"], .arr [.str "c"],
    by simp, by rfl, by rfl⟩

/-! ## Replacement -/

theorem replace_at {d d' v : Value} {p : Ptr} (hp : PlainLast p) :
    patchReplace d p v = .ok d' ↔ At (fun _ y => y = v) d p.keys d' := by
  rw [patchReplace_iff]
  rcases ptr_cases p with rfl | ⟨ks, k, rfl⟩
  · rw [Spec.Replace, op_nil, at_nil]
  · simp only
    rw [Spec.Replace, op_snoc, at_append]
    constructor
    · refine fun h => at_imp h fun x x' _ _ h => ?_
      cases h with
      | @member l w r hk => exact .member hk (.here rfl)
      | @item l w r hi => rw [hp ks k _ rfl hi]; exact .item (.here rfl)
    · refine fun h => at_imp h fun x x' _ _ h => ?_
      generalize hk : [k] = kk at h
      cases h with
      | here => cases hk
      | member hn h =>
        cases hk
        cases h with | here h => subst h; exact .member hn
      | item h =>
        cases hk
        cases h with | here h => subst h; exact .item (rfcIndex_py rfl)

/-- C102: replacements of values at places that part can be done in either order. -/
theorem C102_replacements (p q : Ptr) (hpq : Apart p.keys q.keys) (hp : PlainLast p) (hq : PlainLast q) (v w d d' : Value) :
    patchEvaluate [⟨.replace, p, v, none⟩, ⟨.replace, q, w, none⟩] d = .ok d' ↔
      patchEvaluate [⟨.replace, q, w, none⟩, ⟨.replace, p, v, none⟩] d = .ok d' := by
  have two : ∀ (p q : Ptr) (v w : Value), PlainLast p → PlainLast q →
      (patchEvaluate [⟨.replace, p, v, none⟩, ⟨.replace, q, w, none⟩] d = .ok d' ↔
        ∃ m, At (fun _ y => y = v) d p.keys m ∧ At (fun _ y => y = w) m q.keys d') := fun p q v w hp hq => by
    unfold patchEvaluate
    rw [applyAll_cons]
    simp only [applyAll_cons, PatchOp.apply, replace_at hp, replace_at hq]
    exact exists_congr fun m => and_congr_right fun _ => ⟨fun ⟨_, h, e⟩ => by cases e; exact h, fun h => ⟨_, h, rfl⟩⟩
  rw [two p q v w hp hq, two q p w v hq hp]
  exact ⟨fun ⟨m, a, b⟩ => at_swap hpq a b, fun ⟨m, a, b⟩ => at_swap hpq.symm a b⟩

/-- C102: a replacement is seen below its place, and nowhere else. -/
theorem C102_replaced (p : Ptr) (hp : PlainLast p) (v d d' : Value) (h : patchReplace d p v = .ok d') :
    (∀ r, Ptr.evaluate ⟨p.keys ++ r⟩ d' = Ptr.evaluate ⟨r⟩ v) ∧
      ∀ q : Ptr, Apart p.keys q.keys → q.evaluate d' = q.evaluate d := by
  have h := (replace_at hp).1 h
  refine ⟨fun r => ?_, fun q hq => evaluate_congr (at_apart h hq)⟩
  obtain ⟨_, _, _, rfl, hx⟩ := at_through h
  unfold Ptr.evaluate
  rw [resolvePlain_append, (designates_iff ..).1 hx]

end Jschon
