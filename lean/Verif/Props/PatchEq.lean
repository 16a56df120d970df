import Verif.Props.Patch
import Verif.Proof.PatchTree
import Verif.Proof.JsonOps

/-!
# Equal patches: C78
-/

namespace Jschon
open Spec

/-- Two calls with the same outcome: equal documents or the same exception. -/
inductive Spec.Alike : Except Exc Value → Except Exc Value → Prop
  | ok {v w} : Same v w → v.WF → w.WF → Alike (.ok v) (.ok w)
  | error {e} : Alike (.error e) (.error e)

theorem dlookup_derase {β : Type} {k k' : String} {d : List (String × β)} (hn : (dkeys d).Nodup) :
    dlookup k' (derase k d) = if k' = k then none else dlookup k' d := by
  induction d with
  | nil => simp [derase, dlookup]
  | cons a d ih =>
    obtain ⟨l, v⟩ := a
    have hn' : l ∉ dkeys d ∧ (dkeys d).Nodup := by simpa [dkeys] using hn
    simp only [derase]
    by_cases h : k = l
    · subst h
      simp only [if_true, dlookup]
      by_cases h' : k' = k
      · subst h'; simp [dlookup_eq_none.2 hn'.1]
      · simp [h']
    · simp only [if_neg h, dlookup]
      by_cases h' : k' = l
      · subst h'; simp [Ne.symm h]
      · simp only [if_neg h', ih hn'.2]

theorem pyIndex_alike {xs ys : List Value} (hl : xs.length = ys.length) (i : Int)
    (hs : ∀ (n : Nat) (x y : Value), xs[n]? = some x → ys[n]? = some y → Same x y) :
    (pyIndex xs i = none ∧ pyIndex ys i = none) ∨
      ∃ x y, pyIndex xs i = some x ∧ pyIndex ys i = some y ∧ Same x y ∧ x ∈ xs ∧ y ∈ ys := by
  have key : ∀ n : Nat, (xs[n]? = none ∧ ys[n]? = none) ∨
      ∃ x y, xs[n]? = some x ∧ ys[n]? = some y ∧ Same x y ∧ x ∈ xs ∧ y ∈ ys := by
    intro n
    by_cases hn : n < xs.length
    · right
      have hx := List.getElem?_eq_getElem hn
      have hy := List.getElem?_eq_getElem (hl ▸ hn : n < ys.length)
      exact ⟨_, _, hx, hy, hs n _ _ hx hy, List.mem_of_getElem? hx, List.mem_of_getElem? hy⟩
    · left
      simp only [List.getElem?_eq_none_iff]; omega
  simp only [pyIndex, ← hl]
  split
  · exact key _
  · split
    · exact key _
    · exact .inl ⟨rfl, rfl⟩

theorem resolve_alike {ks : List String} {d d' : Value} (h : Same d d') (hw : d.WF) (hw' : d'.WF) :
    Alike (resolvePlain ks d) (resolvePlain ks d') := by
  induction ks generalizing d d' with
  | nil => cases d <;> cases d' <;> exact .ok h hw hw'
  | cons k ks ih =>
    cases h with
    | obj hn hv =>
      rename_i as bs
      simp only [resolvePlain]
      cases ha : dlookup k as with
      | none => rw [(hn k).1 ha]; exact .error
      | some v =>
        cases hb : dlookup k bs with
        | none => rw [(hn k).2 hb] at ha; cases ha
        | some w => exact ih (hv k v w ha hb) (wf_dlookup hw ha) (wf_dlookup hw' hb)
    | arr hl hv =>
      simp only [resolvePlain]
      split
      · split
        · exact .error
        · rename_i i _
          rcases pyIndex_alike hl i hv with ⟨h1, h2⟩ | ⟨x, y, h1, h2, hs, hx, hy⟩
          · rw [h1, h2]; exact .error
          · rw [h1, h2]
            cases hw with
            | arr ha =>
              cases hw' with
              | arr hb => exact ih hs (ha x hx) (hb y hy)
      · exact .error
    | _ => exact .error

theorem set_alike {xs ys : List Value} {v w : Value} (n : Nat) (h : Same (.arr xs) (.arr ys)) (hv : Same v w) :
    Same (.arr (xs.set n v)) (.arr (ys.set n w)) := by
  cases h with
  | arr hl hs =>
    refine .arr (by simpa using hl) (fun i x y hx hy => ?_)
    rw [List.getElem?_set] at hx hy
    by_cases hi : n = i
    · simp only [hi, if_true, ← hl] at hx hy
      split at hx
      · rename_i hlt
        simp only [hlt, if_true] at hy
        cases hx; cases hy; exact hv
      · cases hx
    · simp only [hi, if_false] at hx hy
      exact hs i x y hx hy

theorem insert_alike {xs ys : List Value} {v w : Value} (n : Nat) (h : Same (.arr xs) (.arr ys)) (hv : Same v w) :
    Same (.arr (xs.insertIdx n v)) (.arr (ys.insertIdx n w)) := by
  cases h with
  | arr hl hs =>
    refine .arr (by simp [List.length_insertIdx, hl]) (fun i x y hx hy => ?_)
    rw [List.getElem?_insertIdx] at hx hy
    rw [← hl] at hy
    split at hx
    · rename_i h1
      simp only [h1, if_true] at hy
      exact hs i x y hx hy
    · rename_i h1
      simp only [h1, if_false] at hy
      split at hx
      · rename_i h2
        rw [if_pos h2] at hy
        split at hx
        · rename_i h3
          rw [if_pos h3] at hy
          cases hx; cases hy; exact hv
        · cases hx
      · rename_i h2
        simp only [h2, if_false] at hy
        exact hs _ x y hx hy

theorem erase_alike {xs ys : List Value} (n : Nat) (h : Same (.arr xs) (.arr ys)) :
    Same (.arr (xs.eraseIdx n)) (.arr (ys.eraseIdx n)) := by
  cases h with
  | arr hl hs =>
    refine .arr (by simp [List.length_eraseIdx, hl]) (fun i x y hx hy => ?_)
    rw [List.getElem?_eraseIdx] at hx hy
    split at hx
    · rename_i h1
      simp only [h1, if_true] at hy
      exact hs i x y hx hy
    · rename_i h1
      simp only [h1, if_false] at hy
      exact hs _ x y hx hy

theorem dset_alike {as bs : List (String × Value)} {v w : Value} (k : String) (h : Same (.obj as) (.obj bs))
    (hv : Same v w) : Same (.obj (dset k v as)) (.obj (dset k w bs)) := by
  cases h with
  | obj hn hs =>
    refine .obj (fun l => ?_) (fun l x y hx hy => ?_)
    · simp only [dlookup_dset]; split
      · simp
      · exact hn l
    · simp only [dlookup_dset] at hx hy
      split at hx
      · rename_i h1
        simp only [h1, if_true] at hy
        cases hx; cases hy; exact hv
      · rename_i h1
        simp only [h1, if_false] at hy
        exact hs l x y hx hy

theorem derase_alike {as bs : List (String × Value)} (k : String) (h : Same (.obj as) (.obj bs))
    (ha : (dkeys as).Nodup) (hb : (dkeys bs).Nodup) : Same (.obj (derase k as)) (.obj (derase k bs)) := by
  cases h with
  | obj hn hs =>
    refine .obj (fun l => ?_) (fun l x y hx hy => ?_)
    · simp only [dlookup_derase ha, dlookup_derase hb]; split
      · simp
      · exact hn l
    · simp only [dlookup_derase ha, dlookup_derase hb] at hx hy
      split at hx
      · cases hx
      · rename_i h1
        simp only [h1, if_false] at hy
        exact hs l x y hx hy

theorem wf_set {xs : List Value} {v : Value} (n : Nat) (h : (Value.arr xs).WF) (hv : v.WF) :
    (Value.arr (xs.set n v)).WF := by
  cases h with
  | arr h =>
    refine .arr (fun x hx => ?_)
    rcases List.mem_or_eq_of_mem_set hx with hx | rfl
    · exact h x hx
    · exact hv

theorem wf_insert {xs : List Value} {v : Value} (n : Nat) (h : (Value.arr xs).WF) (hv : v.WF) :
    (Value.arr (xs.insertIdx n v)).WF := by
  cases h with
  | arr h =>
    refine .arr (fun x hx => ?_)
    rcases mem_insertIdx' hx with rfl | hx
    · exact hv
    · exact h x hx

theorem wf_erase {xs : List Value} (n : Nat) (h : (Value.arr xs).WF) : (Value.arr (xs.eraseIdx n)).WF := by
  cases h with
  | arr h => exact .arr (fun x hx => h x (List.mem_of_mem_eraseIdx hx))

theorem wf_dset {as : List (String × Value)} {v : Value} (k : String) (h : (Value.obj as).WF) (hv : v.WF) :
    (Value.obj (dset k v as)).WF := by
  cases h with
  | obj hn h =>
    refine .obj (dkeys_dset_nodup hn) (fun m hm => ?_)
    rcases mem_dset_snd (List.mem_map_of_mem hm) with e | h'
    · rw [e]; exact hv
    · obtain ⟨m', h1, h2⟩ := List.mem_map.1 h'
      rw [← h2]; exact h m' h1

theorem wf_derase {as : List (String × Value)} (k : String) (h : (Value.obj as).WF) :
    (Value.obj (derase k as)).WF := by
  cases h with
  | obj hn h =>
    exact .obj ((derase_sublist.map Prod.fst).nodup hn) (fun m hm => h m (derase_sublist.subset hm))

/-- Functions with the same outcome on equal arguments. -/
def AlikeOn (f f' : Value → Except Exc Value) : Prop :=
  ∀ v v', Same v v' → v.WF → v'.WF → Alike (f v) (f' v')

theorem update_alike {f f' : Value → Except Exc Value} (hf : AlikeOn f f') {ks : List String} {d d' : Value}
    (h : Same d d') (hw : d.WF) (hw' : d'.WF) : Alike (updateAt f ks d) (updateAt f' ks d') := by
  induction ks generalizing d d' with
  | nil => cases d <;> cases d' <;> exact hf _ _ h hw hw'
  | cons k ks ih =>
    have h0 := h
    cases h with
    | obj hn hv =>
      rename_i as bs
      simp only [updateAt]
      cases ha : dlookup k as with
      | none => rw [(hn k).1 ha]; exact .error
      | some v =>
        cases hb : dlookup k bs with
        | none => rw [(hn k).2 hb] at ha; cases ha
        | some w =>
          simp only
          have := ih (hv k v w ha hb) (wf_dlookup hw ha) (wf_dlookup hw' hb)
          revert this
          generalize updateAt f ks v = x
          generalize updateAt f' ks w = y
          intro this
          cases this with
          | ok hs h1 h2 => exact .ok (dset_alike k h0 hs) (wf_dset k hw h1) (wf_dset k hw' h2)
          | error => exact .error
    | arr hl hv =>
      simp only [updateAt]
      split
      · split
        · exact .error
        · rename_i i _
          rcases pyIndex_alike hl i hv with ⟨h1, h2⟩ | ⟨x, y, h1, h2, hs, hx, hy⟩
          · rw [h1, h2]; exact .error
          · rw [h1, h2]
            simp only
            have : Alike (updateAt f ks x) (updateAt f' ks y) := by
              cases hw with
              | arr ha =>
                cases hw' with
                | arr hb => exact ih hs (ha x hx) (hb y hy)
            revert this
            generalize updateAt f ks x = a
            generalize updateAt f' ks y = b
            intro this
            cases this with
            | ok hs h1 h2 => exact .ok (set_alike _ h0 hs) (wf_set _ hw h1) (wf_set _ hw' h2)
            | error => exact .error
      · exact .error
    | _ => exact .error

theorem seqInsert_alike (n : Nat) {v w : Value} (h : Same v w) (hv : v.WF) (hw : w.WF) :
    AlikeOn (seqInsert n v) (seqInsert n w) := by
  intro a b hs ha hb
  have h0 := hs
  cases hs with
  | arr _ _ => exact .ok (insert_alike n h0 h) (wf_insert n ha hv) (wf_insert n hb hw)
  | _ => exact .error

theorem seqSet_alike (n : Nat) {v w : Value} (h : Same v w) (hv : v.WF) (hw : w.WF) :
    AlikeOn (seqSet n v) (seqSet n w) := by
  intro a b hs ha hb
  have h0 := hs
  cases hs with
  | arr _ _ => exact .ok (set_alike n h0 h) (wf_set n ha hv) (wf_set n hb hw)
  | _ => exact .error

theorem seqDel_alike (n : Nat) : AlikeOn (seqDel n) (seqDel n) := by
  intro a b hs ha hb
  have h0 := hs
  cases hs with
  | arr _ _ => exact .ok (erase_alike n h0) (wf_erase n ha) (wf_erase n hb)
  | _ => exact .error

theorem mapSet_alike (k : String) {v w : Value} (h : Same v w) (hv : v.WF) (hw : w.WF) :
    AlikeOn (mapSet k v) (mapSet k w) := by
  intro a b hs ha hb
  have h0 := hs
  cases hs with
  | obj _ _ => exact .ok (dset_alike k h0 h) (wf_dset k ha hv) (wf_dset k hb hw)
  | _ => exact .error

theorem mapDel_alike (k : String) : AlikeOn (mapDel k) (mapDel k) := by
  intro a b hs ha hb
  have h0 := hs
  cases hs with
  | obj _ _ =>
    refine .ok (derase_alike k h0 ?_ ?_) (wf_derase k ha) (wf_derase k hb)
    · cases ha with | obj h _ => exact h
    · cases hb with | obj h _ => exact h
  | _ => exact .error

theorem nodeKind_same {a b : Value} (h : Same a b) (k : String) : nodeKind a k = nodeKind b k := by
  cases h with
  | arr hl _ => simp only [nodeKind, hl]
  | @obj as bs hn _ =>
    simp only [nodeKind]
    have := hn k
    cases ha : dlookup k as <;> cases hb : dlookup k bs <;> simp_all
  | _ => rfl

theorem patchNode_same {d d' : Value} (h : Same d d') (hw : d.WF) (hw' : d'.WF) (p : Ptr) :
    patchNode d p = patchNode d' p := by
  simp only [patchNode]
  split
  · rfl
  · have := resolve_alike (ks := (p.slice none (some (-1))).keys) h hw hw'
    simp only [Ptr.evaluate]
    revert this
    generalize resolvePlain _ d = x
    generalize resolvePlain _ d' = y
    intro this
    cases this with
    | error => rfl
    | ok hs _ _ => 
      simp only; split
      · exact nodeKind_same hs _
      · rfl

theorem add_alike {d d' v w : Value} (h : Same d d') (hd : d.WF) (hd' : d'.WF) (hs : Same v w) (hv : v.WF)
    (hw : w.WF) (p : Ptr) : Alike (patchAdd d p v) (patchAdd d' p w) := by
  simp only [patchAdd, ← patchNode_same h hd hd' p]
  split
  · exact .error
  · exact .ok hs hv hw
  · exact update_alike (seqInsert_alike _ hs hv hw) h hd hd'
  · exact update_alike (seqInsert_alike _ hs hv hw) h hd hd'
  · exact update_alike (mapSet_alike _ hs hv hw) h hd hd'
  · exact update_alike (mapSet_alike _ hs hv hw) h hd hd'

theorem remove_alike {d d' : Value} (h : Same d d') (hd : d.WF) (hd' : d'.WF) (p : Ptr) :
    Alike (patchRemove d p) (patchRemove d' p) := by
  simp only [patchRemove, ← patchNode_same h hd hd' p]
  split
  · exact .error
  · exact .ok .null .null .null
  · exact update_alike (seqDel_alike _) h hd hd'
  · exact update_alike (mapDel_alike _) h hd hd'
  · exact .error

theorem replace_alike {d d' v w : Value} (h : Same d d') (hd : d.WF) (hd' : d'.WF) (hs : Same v w) (hv : v.WF)
    (hw : w.WF) (p : Ptr) : Alike (patchReplace d p v) (patchReplace d' p w) := by
  simp only [patchReplace, ← patchNode_same h hd hd' p]
  split
  · exact .error
  · exact .ok hs hv hw
  · exact update_alike (seqSet_alike _ hs hv hw) h hd hd'
  · exact update_alike (mapSet_alike _ hs hv hw) h hd hd'
  · exact .error

theorem copy_alike {d d' : Value} (h : Same d d') (hd : d.WF) (hd' : d'.WF) (p f : Ptr) :
    Alike (patchCopy d p f) (patchCopy d' p f) := by
  have := resolve_alike (ks := f.keys) h hd hd'
  simp only [patchCopy, Ptr.evaluate]
  revert this
  generalize resolvePlain _ d = x
  generalize resolvePlain _ d' = y
  intro this
  cases this with
  | error => exact .error
  | ok hs hv hw => exact add_alike h hd hd' hs hv hw p

theorem move_alike {d d' : Value} (h : Same d d') (hd : d.WF) (hd' : d'.WF) (p f : Ptr) :
    Alike (patchMove d p f) (patchMove d' p f) := by
  have h1 := resolve_alike (ks := f.keys) h hd hd'
  have h2 := remove_alike h hd hd' f
  simp only [patchMove, Ptr.evaluate]
  revert h1 h2
  generalize resolvePlain _ d = x
  generalize resolvePlain _ d' = y
  generalize patchRemove d f = a
  generalize patchRemove d' f = b
  intro h1 h2
  cases h1 with
  | error => exact .error
  | ok hs hv hw =>
    cases h2 with
    | error => exact .error
    | ok hs' hv' hw' => exact add_alike hs' hv' hw' hs hv hw p

theorem test_alike {d d' v w : Value} (h : Same d d') (hd : d.WF) (hd' : d'.WF) (hs : Same v w) (hv : v.WF)
    (hw : w.WF) (p : Ptr) : Alike (patchTest d p v) (patchTest d' p w) := by
  have hr := resolve_alike (ks := p.keys) h hd hd'
  have key : Alike
      (match p.evaluate d with
        | .error e => .error e
        | .ok u => if jsonNe u v then .error .patchError else .ok d)
      (match p.evaluate d' with
        | .error e => .error e
        | .ok u => if jsonNe u w then .error .patchError else .ok d') := by
    simp only [Ptr.evaluate]
    revert hr
    generalize resolvePlain _ d = x
    generalize resolvePlain _ d' = y
    intro hr
    cases hr with
    | error => exact .error
    | @ok a b ha hb hc =>
      have : jsonNe a v = jsonNe b w := by
        simp only [jsonNe]
        congr 1
        rw [Bool.eq_iff_iff, jsonEq_iff_same _ _ hb hv, jsonEq_iff_same _ _ hc hw]
        exact ⟨fun e => same_trans (same_symm ha) (same_trans e hs),
          fun e => same_trans ha (same_trans e (same_symm hs))⟩
      simp only [this]
      split
      · exact .error
      · exact .ok h hd hd'
  simp only [patchTest, ← patchNode_same h hd hd' p]
  split
  · exact .error
  · exact key
  · exact key
  · exact key
  · exact .error

theorem apply_alike {a b : PatchOp} (ha : a.value.WF) (hb : b.value.WF) (he : a.eq b = true) {d d' : Value}
    (h : Same d d') (hd : d.WF) (hd' : d'.WF) : Alike (a.apply d) (b.apply d') := by
  obtain ⟨h1, h2, h3, h4⟩ := (C28_op_eq_iff a b ha hb).1 he
  obtain ⟨op, p, v, f⟩ := a
  obtain ⟨op', p', w, f'⟩ := b
  simp only at h1 h2 h3 h4 ha hb
  subst h1 h2 h3
  cases op <;> simp only [PatchOp.apply]
  · exact add_alike h hd hd' h4 ha hb p
  · exact remove_alike h hd hd' p
  · exact replace_alike h hd hd' h4 ha hb p
  · cases f with
    | none => exact .error
    | some f => exact move_alike h hd hd' p f
  · cases f with
    | none => exact .error
    | some f => exact copy_alike h hd hd' p f
  · exact test_alike h hd hd' h4 ha hb p

/-- The values of a patch have distinct keys, as Python dicts have. -/
def Spec.PatchWF (p : List PatchOp) : Prop := ∀ o ∈ p, o.value.WF

/-! ## C78 -/

/-- C78: equal patches applied to equal documents give equal documents, or raise the same exception. -/
theorem C78_congruence (p q : List PatchOp) (hp : PatchWF p) (hq : PatchWF q) (he : patchEq p q = true)
    (d d' : Value) (h : Same d d') (hd : d.WF) (hd' : d'.WF) :
    Alike (patchEvaluate p d) (patchEvaluate q d') := by
  unfold patchEvaluate
  induction p generalizing q d d' with
  | nil =>
    cases q with
    | nil => exact .ok h hd hd'
    | cons b q => simp [patchEq] at he
  | cons a p ih =>
    cases q with
    | nil => simp [patchEq] at he
    | cons b q =>
      simp only [patchEq, Bool.and_eq_true] at he
      have := apply_alike (hp a (by simp)) (hq b (by simp)) he.1 h hd hd'
      simp only [patchApplyAll]
      revert this
      generalize a.apply d = x
      generalize b.apply d' = y
      intro this
      cases this with
      | error => exact .error
      | ok hs h1 h2 =>
        exact ih q (fun o ho => hp o (by simp [ho])) (fun o ho => hq o (by simp [ho])) he.2 _ _ hs h1 h2

/-- C78: a patch keeps documents well-formed: no object of the result has a key twice. -/
theorem C78_wf (p : List PatchOp) (hp : PatchWF p) (d d' : Value) (hd : d.WF)
    (h : patchEvaluate p d = .ok d') : d'.WF := by
  have he : patchEq p p = true := by
    clear h
    induction p with
    | nil => rfl
    | cons a p ih =>
      simp only [patchEq, Bool.and_eq_true]
      exact ⟨patchOp_eq_refl a (hp a (by simp)), ih fun o ho => hp o (by simp [ho])⟩
  have := C78_congruence p p hp hp he d d (same_refl d) hd hd
  rw [h] at this
  cases this with
  | ok _ h _ => exact h

theorem patchEq_iff {p q : List PatchOp} (hp : PatchWF p) (hq : PatchWF q) :
    patchEq p q = true ↔ p.length = q.length ∧ ∀ (i : Nat) a b, p[i]? = some a → q[i]? = some b →
      a.op = b.op ∧ a.path = b.path ∧ a.from_ = b.from_ ∧ Same a.value b.value := by
  induction p generalizing q with
  | nil =>
    cases q with
    | nil => simp [patchEq]
    | cons b q => simp [patchEq]
  | cons a p ih =>
    cases q with
    | nil => simp [patchEq]
    | cons b q =>
      simp only [patchEq, Bool.and_eq_true, C28_op_eq_iff a b (hp a (by simp)) (hq b (by simp)),
        ih (q := q) (fun o ho => hp o (by simp [ho])) (fun o ho => hq o (by simp [ho])), List.length_cons,
        Nat.add_right_cancel_iff]
      constructor
      · rintro ⟨h1, h2, h3⟩
        refine ⟨h2, fun i x y hx hy => ?_⟩
        cases i with
        | zero =>
          simp only [List.getElem?_cons_zero, Option.some.injEq] at hx hy
          subst hx hy; exact h1
        | succ i => exact h3 i x y (by simpa using hx) (by simpa using hy)
      · rintro ⟨h1, h2⟩
        exact ⟨h2 0 a b rfl rfl, h1, fun i x y hx hy => h2 (i + 1) x y (by simpa using hx) (by simpa using hy)⟩

/-- C78: equality of patches is an equivalence relation. -/
theorem C78_equivalence :
    (∀ p, PatchWF p → patchEq p p = true) ∧
    (∀ p q, PatchWF p → PatchWF q → patchEq p q = true → patchEq q p = true) ∧
    (∀ p q r, PatchWF p → PatchWF q → PatchWF r → patchEq p q = true → patchEq q r = true → patchEq p r = true) := by
  refine ⟨fun p hp => ?_, fun p q hp hq h => ?_, fun p q r hp hq hr h h' => ?_⟩
  · refine (patchEq_iff hp hp).2 ⟨rfl, fun i a b ha hb => ?_⟩
    rw [ha] at hb; cases hb
    exact ⟨rfl, rfl, rfl, same_refl _⟩
  · obtain ⟨h1, h2⟩ := (patchEq_iff hp hq).1 h
    refine (patchEq_iff hq hp).2 ⟨h1.symm, fun i a b ha hb => ?_⟩
    obtain ⟨x, y, z, w⟩ := h2 i b a hb ha
    exact ⟨x.symm, y.symm, z.symm, same_symm w⟩
  · obtain ⟨h1, h2⟩ := (patchEq_iff hp hq).1 h
    obtain ⟨h3, h4⟩ := (patchEq_iff hq hr).1 h'
    refine (patchEq_iff hp hr).2 ⟨h1.trans h3, fun i a c ha hc => ?_⟩
    have hi : i < q.length := by rw [h3]; exact (List.getElem?_eq_some_iff.1 hc).1
    have hb := List.getElem?_eq_getElem hi
    obtain ⟨x, y, z, w⟩ := h2 i a _ ha hb
    obtain ⟨x', y', z', w'⟩ := h4 i _ c hb hc
    exact ⟨x.trans x', y.trans y', z.trans z', same_trans w w'⟩

/-- C78: equality means that the operations are equal one by one: the same name, path and `from`, and equal
values. -/
theorem C78_equal (p q : List PatchOp) (hp : PatchWF p) (hq : PatchWF q) :
    patchEq p q = true ↔ p.length = q.length ∧ ∀ (i : Nat) a b, p[i]? = some a → q[i]? = some b →
      a.op = b.op ∧ a.path = b.path ∧ a.from_ = b.from_ ∧ Same a.value b.value := patchEq_iff hp hq

/-- Two equal patches and two equal documents that are written differently. -/
example :
    let p : List PatchOp := [⟨.add, ⟨["a"]⟩, .num (.int 1), none⟩]
    let q : List PatchOp := [⟨.add, ⟨["a"]⟩, .num (.flt 1), none⟩]
    PatchWF p ∧ PatchWF q ∧ patchEq p q = true ∧
    Same (.obj [("b", .null), ("c", .bool true)]) (.obj [("c", .bool true), ("b", .null)]) ∧
    patchEvaluate p (.obj [("b", .null), ("c", .bool true)]) =
      .ok (.obj [("b", .null), ("c", .bool true), ("a", .num (.int 1))]) := by
  refine ⟨?_, ?_, by decide, ?_, rfl⟩
  · intro o ho; rw [List.mem_singleton.1 ho]; exact .num
  · intro o ho; rw [List.mem_singleton.1 ho]; exact .num
  · rw [← jsonEq_iff_same]
    · decide
    · refine .obj (by decide) (fun kv h => ?_)
      simp at h; rcases h with rfl | rfl <;> constructor
    · refine .obj (by decide) (fun kv h => ?_)
      simp at h; rcases h with rfl | rfl <;> constructor

end Jschon
