import Verif.Props.JsonHeap
import Verif.Proof.IntText
import Verif.Spec.Labels

/-!
# C13: the keys of items after any edits
-/

namespace Jschon
open Spec

theorem sliceBound_from (n : Nat) (i : Int) : SliceFrom n i (sliceBound n i) := by
  unfold SliceFrom sliceBound
  by_cases h : i < 0
  · rw [if_pos h]
    obtain ⟨k, rfl⟩ : ∃ k : Nat, i = -(k : Int) := ⟨i.natAbs, by omega⟩
    have : ((n : Int) + -(k : Int)).toNat = n - k := by omega
    rw [this]
    exact .fromEnd k (by omega)
  · rw [if_neg h]
    obtain ⟨k, rfl⟩ : ∃ k : Nat, i = (k : Int) := ⟨i.toNat, by omega⟩
    rw [Int.toNat_natCast]
    exact .fromStart k

theorem pyPos_indexAt {n : Nat} {i : Int} {j : Nat} (h : pyPos n i = some j) (r : Nat) (hr : j + 1 + r = n) :
    IndexAt i j r := by
  unfold pyPos at h
  unfold IndexAt
  split at h
  · split at h <;> cases h
    exact .inl (by omega)
  · split at h <;> cases h
    exact .inr (by omega)

theorem getElem?_shift (l : List Int) (m j : Nat) (f : Int → Int) :
    (l.take m ++ (l.drop m).map f)[j]? = if j < m then l[j]? else (l[j]?).map f := by
  by_cases hj : j < m
  · rw [if_pos hj]
    by_cases hl : j < l.length
    · rw [List.getElem?_append_left (by rw [List.length_take]; omega), List.getElem?_take_of_lt hj]
    · rw [List.getElem?_eq_none (by simp; omega), List.getElem?_eq_none (by omega)]
  · rw [if_neg hj]
    by_cases hl : m ≤ l.length
    · rw [List.getElem?_append_right (by rw [List.length_take]; omega), List.length_take, List.getElem?_map,
        List.getElem?_drop]
      congr 2
      omega
    · rw [List.getElem?_eq_none (by simp; omega), List.getElem?_eq_none (by omega)]
      rfl

theorem labelled_shift {h h' : JHeap} {d : Int} {cs : List Ref} {zs : List Int} {m : Nat} (hn : cs.Nodup)
    (hl : Labelled h cs zs) (hs : Shifted h h' d (cs.drop m)) :
    Labelled h' cs (zs.take m ++ (zs.drop m).map (fun z => z + d)) := by
  refine ⟨by simp only [List.length_append, List.length_take, List.length_map, List.length_drop]; have := hl.1; omega, ?_⟩
  intro j c z hc hz
  rw [getElem?_shift] at hz
  by_cases hj : j < m
  · rw [if_pos hj] at hz
    rw [hs.key_other c (by rw [mem_drop_iff hn hc]; omega)]
    exact hl.2 j c z hc hz
  · rw [if_neg hj] at hz
    obtain ⟨z', hz', rfl⟩ := Option.map_eq_some_iff.1 hz
    obtain ⟨k, h1, h2⟩ := hl.2 j c z' hc hz'
    rw [← pyInt_iff] at h2
    exact ⟨_, hs.key c ((mem_drop_iff hn hc).2 (by omega)) k z' h1 h2, pyInt_iff.1 (pyInt_intStr _)⟩

theorem labelled_keys {h h' : JHeap} {cs : List Ref} {zs : List Int} (hl : Labelled h cs zs)
    (hk : ∀ c ∈ cs, h'.key c = h.key c) : Labelled h' cs zs :=
  ⟨hl.1, fun j c z hc hz => by rw [hk c (List.mem_of_getElem? hc)]; exact hl.2 j c z hc hz⟩

/-- C13: after any calls, the keys of the items of an array denote integers. -/
theorem C13_labelled (h : JHeap) (hh : History h) (r : Ref) (cs : List Ref) (hd : h.data r = .arr cs) :
    ∃ zs, Labelled h cs zs := by
  have hk := hh.winv.kint r cs hd
  clear hd
  induction cs with
  | nil => exact ⟨[], rfl, by simp⟩
  | cons c cs ih =>
    obtain ⟨zs, h1, h2⟩ := ih (fun c hc => hk c (by simp [hc]))
    obtain ⟨k, z, h3, h4⟩ := hk c (by simp)
    refine ⟨z :: zs, by simp [h1], fun j x y hx hy => ?_⟩
    cases j with
    | zero => cases hx; cases hy; exact ⟨k, h3, pyInt_iff.1 h4⟩
    | succ j => exact h2 j x y hx hy

/-- C13: what `del a[i]` makes of the keys of the items, for any index and after any calls. -/
theorem C13_del_exact (h : JHeap) (hh : History h) (r : Ref) (hr : r < h.next) (i : Int) (cs : List Ref)
    (zs : List Int) (hd : h.data r = .arr cs) (hl : Labelled h cs zs) (hok : (delIdx h r i).2 = .ok ()) :
    ∃ cs' zs', (delIdx h r i).1.data r = .arr cs' ∧ DelLabels i zs zs' ∧
      Labelled (delIdx h r i).1 cs' zs' ∧ ∀ x, x ∉ cs' → (delIdx h r i).1.key x = h.key x := by
  have hi := hh.winv
  cases hn : pyPos cs.length i with
  | none =>
    obtain ⟨⟨e, he⟩, -⟩ := delIdx_err (h := h) (r := r) (i := i) (fun cs' hc => by rw [hd] at hc; cases hc; exact hn)
    rw [he] at hok
    cases hok
  | some n =>
    have hlt := pyPos_lt hn
    have hold : ∀ x ∈ cs, r < x ∧ x < h.next ∧ h.parent x = some r :=
      fun x hx => hi.ord.kid r x (by rw [hd]; exact hx)
    have hnd : cs.Nodup := by have := hi.ord.nodup r; rw [hd] at this; exact this
    have hsub : List.Sublist (cs.eraseIdx n) cs := List.eraseIdx_sublist cs n
    obtain ⟨e1, e2, e3⟩ := assign_spec hi.ord hr (d := .arr (cs.eraseIdx n))
      (fun x hx => hold x (hsub.subset hx)) (hnd.sublist hsub) (by intro ms h; cases h)
      (by
        intro l hl x hx
        cases hl
        exact hi.kint r cs hd x (hsub.subset hx))
    simp only [delIdx, hd, hn]
    have hnd' := hnd.sublist hsub
    obtain ⟨s1, s2⟩ := shiftKeys_spec (e1.ord hi.ord) (-1)
      ((cs.eraseIdx n).drop (sliceBound (cs.eraseIdx n).length i))
      (hnd'.sublist (List.drop_sublist _ _))
      (by
        intro x hx
        have hx' := hsub.subset (List.mem_of_mem_drop hx)
        refine ⟨by rw [e1.next]; exact (hold x hx').2.1, ?_⟩
        rw [e2]; exact hi.kint r cs hd x hx')
    have hzl := hl.1
    have hlab : Labelled h (cs.eraseIdx n) (zs.eraseIdx n) := by
      refine ⟨by rw [List.length_eraseIdx, List.length_eraseIdx, hzl], fun j c z hc hz => ?_⟩
      rw [List.getElem?_eraseIdx] at hc hz
      split at hc
      · rw [if_pos ‹_›] at hz
        exact hl.2 j c z hc hz
      · rw [if_neg ‹_›] at hz
        exact hl.2 (j + 1) c z hc hz
    have hlab := labelled_shift hnd' (labelled_keys hlab (fun c _ => e2 c)) s2
    refine ⟨_, _, (s2.data r).trans ((e1.data r).trans (if_pos rfl)), ?_, hlab, fun x hx => ?_⟩
    · have hz : zs = zs.take n ++ zs[n]'(by omega) :: zs.drop (n + 1) := by
        rw [List.getElem_cons_drop, List.take_append_drop]
      have hze : zs.eraseIdx n = zs.take n ++ zs.drop (n + 1) := List.eraseIdx_eq_take_drop_succ ..
      have hlen : (cs.eraseIdx n).length = (zs.take n ++ zs.drop (n + 1)).length := by
        rw [← hze, List.length_eraseIdx, List.length_eraseIdx, hzl]
      have := DelLabels.mk (i := i) (l := zs.take n) (r := zs.drop (n + 1)) (z := zs[n]'(by omega))
        (m := sliceBound (cs.eraseIdx n).length i)
        (by
          have e : (zs.take n).length = n := by rw [List.length_take]; omega
          rw [e]
          exact pyPos_indexAt hn _ (by rw [List.length_drop]; omega))
        (by rw [hlen]; exact sliceBound_from _ _)
      rw [← hz, ← hze] at this
      exact this
    · rw [s2.key_other x (fun hc => hx (List.mem_of_mem_drop hc)), e2]

/-- C13: what `a.insert(i, x)` makes of the keys of the items, for any index and after any calls. -/
theorem C13_insert_exact (h : JHeap) (hh : History h) (r : Ref) (hr : r < h.next) (i : Int) (o : JArg)
    (ho : o.Ok h) (cs : List Ref) (zs : List Int) (hd : h.data r = .arr cs) (hl : Labelled h cs zs) :
    ∃ cs' zs', (insertIdx h r i o).1.data r = .arr cs' ∧ InsertLabels i zs zs' ∧
      Labelled (insertIdx h r i o).1 cs' zs' ∧
      ∀ x, x < h.next → x ∉ cs → (insertIdx h r i o).1.key x = h.key x := by
  have hi := hh.winv
  rcases hnew : newJson (argValue h o).1 (argValue h o).2 (some r) (some (intStr i)) with ⟨h1, c⟩
  obtain ⟨a1, a2, a3, a4, a5, a6, a7⟩ := child_spec hi hr ho (intStr i) hnew
  have hd1 : h1.data r = .arr cs := by rw [a1.quiet.data r hr]; exact hd
  have hr1 : r < h1.next := Nat.lt_of_lt_of_le hr a1.quiet.le
  simp only [insertIdx, hnew, hd]
  have hold : ∀ x ∈ cs, r < x ∧ x < h.next ∧ h.parent x = some r :=
    fun x hx => hi.ord.kid r x (by rw [hd]; exact hx)
  have hnd : cs.Nodup := by have := hi.ord.nodup r; rw [hd] at this; exact this
  have hcn : c ∉ cs := fun hc => by have := (hold c hc).2.1; omega
  generalize hm : sliceBound cs.length i = m
  have hmle : m ≤ cs.length := by
    rw [← hm]; unfold sliceBound; split <;> omega
  have hlen : (cs.insertIdx m c).length = cs.length + 1 := List.length_insertIdx_of_le_length hmle _
  have hnd' := nodup_insertIdx hnd hcn m
  obtain ⟨e1, e2, e3⟩ := assign_spec a1.winv.ord hr1 (d := .arr (cs.insertIdx m c))
    (by
      intro x hx
      rcases mem_insertIdx_cases hx with rfl | hx
      · exact ⟨by omega, a3, a4⟩
      · obtain ⟨b1, b2, b3⟩ := hold x hx
        exact ⟨b1, Nat.lt_of_lt_of_le b2 a1.quiet.le, by rw [a1.quiet.parent x b2]; exact b3⟩)
    hnd' (by intro ms h; cases h)
    (by
      intro l hl x hx
      cases hl
      rcases mem_insertIdx_cases hx with rfl | hx
      · exact ⟨_, _, a5, pyInt_intStr i⟩
      · exact a1.winv.kint r cs hd1 x hx)
  have hint := e1.kint (cs.insertIdx m c) rfl
  obtain ⟨s1, s2⟩ := shiftKeys_spec (e1.ord a1.winv.ord) 1
    ((cs.insertIdx m c).drop (sliceBound (cs.insertIdx m c).length (i + 1)))
    (hnd'.sublist (List.drop_sublist _ _))
    (by
      intro x hx
      refine ⟨by rw [e1.next]; exact (e1.kid x (List.mem_of_mem_drop hx)).2.1, ?_⟩
      exact hint x (List.mem_of_mem_drop hx))
  have hzl := hl.1
  have hlab : Labelled (invalValue (h1.setData r (.arr (cs.insertIdx m c))) r) (cs.insertIdx m c)
      (zs.insertIdx m i) := by
    refine ⟨by rw [hlen, List.length_insertIdx_of_le_length (by omega), hzl], fun j x z hx hz => ?_⟩
    rw [e2]
    rw [List.getElem?_insertIdx] at hx hz
    have hkey : ∀ j' : Nat, cs[j']? = some x → zs[j']? = some z → ∃ k, h1.key x = some k ∧ PyIntText k z := by
      intro j' h1' h2'
      rw [a1.quiet.key x (hold x (List.mem_of_getElem? h1')).2.1]
      exact hl.2 j' x z h1' h2'
    by_cases hj : j < m
    · rw [if_pos hj] at hx hz
      exact hkey j hx hz
    · rw [if_neg hj] at hx hz
      by_cases hj' : j = m
      · rw [if_pos hj'] at hx hz
        rw [if_pos (by omega)] at hx hz
        cases hx; cases hz
        exact ⟨_, a5, pyInt_iff.1 (pyInt_intStr _)⟩
      · rw [if_neg hj'] at hx hz
        exact hkey _ hx hz
  have hlab := labelled_shift hnd' hlab s2
  refine ⟨_, _, (s2.data r).trans ((e1.data r).trans (if_pos rfl)), ?_, hlab, fun x hx hxc => ?_⟩
  · have hz : zs = zs.take m ++ zs.drop m := (List.take_append_drop ..).symm
    have hze : zs.insertIdx m i = zs.take m ++ i :: zs.drop m := insertIdx_split _ _ (by omega) _
    have hlz : (cs.insertIdx m c).length = (zs.insertIdx m i).length := by
      rw [hlen, List.length_insertIdx_of_le_length (by omega), hzl]
    have e : (zs.take m).length = m := by rw [List.length_take]; omega
    have := InsertLabels.mk (i := i) (l := zs.take m) (r := zs.drop m)
      (m := sliceBound (cs.insertIdx m c).length (i + 1))
      (by rw [← hz, e, ← hzl, ← hm]; exact sliceBound_from _ _)
      (by rw [← hze, hlz]; exact sliceBound_from _ _)
    rw [← hz, ← hze] at this
    exact this
  · rw [s2.key_other x ?_, e2, a1.quiet.key x hx]
    intro hc
    rcases mem_insertIdx_cases (List.mem_of_mem_drop hc) with rfl | hc
    · omega
    · exact hxc hc

/-- C13: what `a[i] = x` makes of the keys of the items, for any index and after any calls. -/
theorem C13_set_exact (h : JHeap) (hh : History h) (r : Ref) (hr : r < h.next) (i : Int) (o : JArg)
    (ho : o.Ok h) (cs : List Ref) (zs : List Int) (hd : h.data r = .arr cs) (hl : Labelled h cs zs)
    (hok : (setIdx h r i o).2 = .ok ()) :
    ∃ cs' zs', (setIdx h r i o).1.data r = .arr cs' ∧ SetLabels i zs zs' ∧
      Labelled (setIdx h r i o).1 cs' zs' ∧ ∀ x, x < h.next → (setIdx h r i o).1.key x = h.key x := by
  have hi := hh.winv
  rcases hnew : newJson (argValue h o).1 (argValue h o).2 (some r) (some (intStr i)) with ⟨h1, c⟩
  obtain ⟨a1, a2, a3, a4, a5, a6, a7⟩ := child_spec hi hr ho (intStr i) hnew
  have hd1 : h1.data r = .arr cs := by rw [a1.quiet.data r hr]; exact hd
  have hr1 : r < h1.next := Nat.lt_of_lt_of_le hr a1.quiet.le
  simp only [setIdx, hnew, hd1] at hok ⊢
  cases hn : pyPos cs.length i with
  | none => rw [hn] at hok; cases hok
  | some n =>
    have hlt := pyPos_lt hn
    have hold : ∀ x ∈ cs, r < x ∧ x < h.next ∧ h.parent x = some r :=
      fun x hx => hi.ord.kid r x (by rw [hd]; exact hx)
    have hnd : cs.Nodup := by have := hi.ord.nodup r; rw [hd] at this; exact this
    have hcn : c ∉ cs := fun hc => by have := (hold c hc).2.1; omega
    have hsub : ∀ x ∈ cs.set n c, x = c ∨ x ∈ cs := fun x hx => (List.mem_or_eq_of_mem_set hx).symm
    obtain ⟨e1, e2, e3⟩ := assign_spec a1.winv.ord hr1 (d := .arr (cs.set n c))
      (by
        intro x hx
        rcases hsub x hx with rfl | hx
        · exact ⟨by omega, a3, a4⟩
        · obtain ⟨b1, b2, b3⟩ := hold x hx
          exact ⟨b1, Nat.lt_of_lt_of_le b2 a1.quiet.le, by rw [a1.quiet.parent x b2]; exact b3⟩)
      (nodup_set hnd hcn n) (by intro ms h; cases h)
      (by
        intro l hl x hx
        cases hl
        rcases hsub x hx with rfl | hx
        · exact ⟨_, _, a5, pyInt_intStr i⟩
        · exact a1.winv.kint r cs hd1 x hx)
    simp only
    have hzl := hl.1
    refine ⟨_, zs.set n i, (e1.data r).trans (if_pos rfl), ?_, ⟨by simp [hzl], fun j x z hx hz => ?_⟩,
      fun x hx => by rw [e2, a1.quiet.key x hx]⟩
    · have hz : zs = zs.take n ++ zs[n]'(by omega) :: zs.drop (n + 1) := by
        rw [List.getElem_cons_drop, List.take_append_drop]
      have e : (zs.take n).length = n := by rw [List.length_take]; omega
      have hze : zs.set n i = zs.take n ++ i :: zs.drop (n + 1) := List.set_eq_take_append_cons_drop.trans
        (if_pos (by omega))
      have := SetLabels.mk (i := i) (l := zs.take n) (r := zs.drop (n + 1)) (z := zs[n]'(by omega))
        (by rw [e]; exact pyPos_indexAt hn _ (by rw [List.length_drop]; omega))
      rw [← hz, ← hze] at this
      exact this
    · rw [e2]
      rw [List.getElem?_set] at hx hz
      by_cases hj : n = j
      · subst hj
        rw [if_pos rfl, if_pos hlt] at hx
        rw [if_pos rfl, if_pos (by omega)] at hz
        cases hx; cases hz
        exact ⟨_, a5, pyInt_iff.1 (pyInt_intStr _)⟩
      · rw [if_neg hj] at hx hz
        rw [a1.quiet.key x (hold x (List.mem_of_getElem? hx)).2.1]
        exact hl.2 j x z hx hz

theorem sliceFrom_eq {n : Nat} {i : Int} {m : Nat} (h : SliceFrom n i m) :
    (0 ≤ i ∧ m = min i.toNat n) ∨ (i < 0 ∧ m = n - (-i).toNat) := by
  unfold SliceFrom at h
  cases h with
  | fromStart k => exact .inl ⟨by omega, by rw [Int.toNat_natCast]⟩
  | fromEnd k hk => exact .inr ⟨by omega, by rw [Int.neg_neg, Int.toNat_natCast]⟩

theorem inStep_get {l : List Int} (h : InStep l) {j : Nat} (hj : j < l.length) : l[j]? = some (j : Int) := by
  rw [List.getElem?_eq_getElem hj, h j _ (List.getElem?_eq_getElem hj)]

/-- C13: exactly which deletions keep the keys in step with the positions. -/
theorem C13_del_in_step (i : Int) (zs zs' : List Int) (hs : InStep zs) (h : DelLabels i zs zs') :
    InStep zs' ↔ 0 ≤ i ∨ i = -(zs.length : Int) := by
  cases h with
  | @mk l r z m hi hm =>
    have hget : ∀ j, (l ++ r)[j]? = if j < l.length then (l ++ z :: r)[j]? else (l ++ z :: r)[j + 1]? := by
      intro j
      by_cases hj : j < l.length
      · rw [if_pos hj, List.getElem?_append_left hj, List.getElem?_append_left hj]
      · rw [if_neg hj, List.getElem?_append_right (by omega), List.getElem?_append_right (by omega)]
        have : j + 1 - l.length = (j - l.length) + 1 := by omega
        rw [this, List.getElem?_cons_succ]
    have hlen : (l ++ z :: r).length = l.length + r.length + 1 := by simp; omega
    have hlen' : (l ++ r).length = l.length + r.length := by simp
    have hval : ∀ j, j < l.length + r.length → (l ++ r)[j]? = some (if j < l.length then (j : Int) else j + 1) := by
      intro j hj
      rw [hget]
      by_cases hjl : j < l.length
      · rw [if_pos hjl, if_pos hjl, inStep_get hs (by omega)]
      · rw [if_neg hjl, if_neg hjl, inStep_get hs (by omega)]
        simp
    have key : InStep ((l ++ r).take m ++ ((l ++ r).drop m).map (fun z => z - 1)) ↔
        ∀ j, j < l.length + r.length → (j < m ↔ j < l.length) := by
      unfold InStep
      simp only [getElem?_shift]
      constructor
      · intro h j hj
        have := h j
        rw [hval j hj] at this
        by_cases h1 : j < m <;> by_cases h2 : j < l.length <;> simp [h1, h2] at this ⊢ <;> omega
      · intro h j z hz
        by_cases hj : j < l.length + r.length
        · have := h j hj
          rw [hval j hj] at hz
          by_cases h1 : j < m <;> by_cases h2 : j < l.length <;> simp [h1, h2] at this hz <;> omega
        · rw [List.getElem?_eq_none (by omega)] at hz
          simp at hz
    rw [key, hlen]
    rw [hlen'] at hm
    unfold IndexAt at hi
    have hm := sliceFrom_eq hm
    constructor
    · intro h
      rcases hm with ⟨h1, h2⟩ | ⟨h1, h2⟩
      · exact .inl h1
      · right
        have hi : i = -(r.length : Int) - 1 := by omega
        by_cases hl : l.length = 0
        · omega
        · have := h (l.length - 1) (by omega)
          omega
    · intro h j hj
      rcases hm with ⟨h1, h2⟩ | ⟨h1, h2⟩ <;> omega

/-- C13: exactly which insertions keep the keys in step with the positions. -/
theorem C13_insert_in_step (i : Int) (zs zs' : List Int) (hs : InStep zs) (h : InsertLabels i zs zs') :
    InStep zs' ↔ (0 ≤ i ∧ i ≤ zs.length) ∨ (i = -1 ∧ zs.length ≤ 1) := by
  cases h with
  | @mk l r m hi hm =>
    have hlen : (l ++ i :: r).length = l.length + r.length + 1 := by simp; omega
    have hlen' : (l ++ r).length = l.length + r.length := by simp
    have hval : ∀ j, j < l.length + r.length + 1 → (l ++ i :: r)[j]? =
        some (if j < l.length then (j : Int) else if j = l.length then i else j - 1) := by
      intro j hj
      by_cases hjl : j < l.length
      · rw [if_pos hjl, List.getElem?_append_left hjl]
        have := inStep_get hs (j := j) (by omega)
        rw [List.getElem?_append_left hjl] at this
        exact this
      · rw [if_neg hjl, List.getElem?_append_right (by omega)]
        by_cases he : j = l.length
        · rw [if_pos he, he]; simp
        · rw [if_neg he]
          have : j - l.length = (j - 1 - l.length) + 1 := by omega
          rw [this, List.getElem?_cons_succ]
          have := inStep_get hs (j := j - 1) (by omega)
          rw [List.getElem?_append_right (by omega)] at this
          rw [this]
          congr 1
          omega
    have key : InStep ((l ++ i :: r).take m ++ ((l ++ i :: r).drop m).map (fun z => z + 1)) ↔
        ∀ j, j < l.length + r.length + 1 → (if j < l.length then j < m else
          if j = l.length then (j < m ∧ i = j) ∨ (m ≤ j ∧ i + 1 = j) else m ≤ j) := by
      unfold InStep
      simp only [getElem?_shift]
      constructor
      · intro h j hj
        have := h j
        rw [hval j hj] at this
        by_cases h1 : j < m
        · rw [if_pos h1] at this
          have := this _ rfl
          by_cases h2 : j < l.length
          · rw [if_pos h2]; exact h1
          · rw [if_neg h2] at this ⊢
            by_cases h3 : j = l.length
            · rw [if_pos h3] at this ⊢; exact .inl ⟨h1, this⟩
            · rw [if_neg h3] at this; omega
        · rw [if_neg h1] at this
          have := this _ rfl
          by_cases h2 : j < l.length
          · rw [if_pos h2] at this
            have this : (j : Int) + 1 = j := this
            omega
          · rw [if_neg h2] at this ⊢
            by_cases h3 : j = l.length
            · rw [if_pos h3] at this ⊢; exact .inr ⟨by omega, this⟩
            · rw [if_neg h3]; omega
      · intro h j z hz
        by_cases hj : j < l.length + r.length + 1
        · have := h j hj
          rw [hval j hj] at hz
          by_cases h2 : j < l.length
          · rw [if_pos h2] at this
            rw [if_pos this, if_pos h2] at hz
            cases hz; rfl
          · rw [if_neg h2] at this hz
            by_cases h3 : j = l.length
            · rw [if_pos h3] at this hz
              rcases this with ⟨h1, h4⟩ | ⟨h1, h4⟩
              · rw [if_pos h1] at hz; cases hz; exact h4
              · rw [if_neg (by omega)] at hz; cases hz; exact h4
            · rw [if_neg h3] at this hz
              rw [if_neg (by omega)] at hz
              cases hz
              show (j : Int) - 1 + 1 = j
              omega
        · rw [List.getElem?_eq_none (by omega)] at hz
          simp at hz
    rw [key, hlen']
    rw [hlen] at hm
    rw [hlen'] at hi
    have hi := sliceFrom_eq hi
    have hm := sliceFrom_eq hm
    constructor
    · intro h
      have h1 := h l.length (by omega)
      rw [if_neg (by omega), if_pos rfl] at h1
      by_cases hr : r.length = 0
      · omega
      · have h2 := h (l.length + 1) (by omega)
        rw [if_neg (by omega), if_neg (by omega)] at h2
        omega
    · intro h j hj
      split
      · omega
      · split <;> omega

/-- C13: exactly which assignments keep the keys in step with the positions. -/
theorem C13_set_in_step (i : Int) (zs zs' : List Int) (hs : InStep zs) (h : SetLabels i zs zs') :
    InStep zs' ↔ 0 ≤ i := by
  cases h with
  | @mk l r z hi =>
    unfold IndexAt at hi
    have hmid : (l ++ i :: r)[l.length]? = some i := by simp
    constructor
    · intro h
      have := h l.length i hmid
      omega
    · intro h j y hy
      by_cases hj : j = l.length
      · subst hj
        rw [hmid] at hy
        cases hy
        omega
      · refine hs j y ?_
        rw [← hy]
        by_cases hl : j < l.length
        · rw [List.getElem?_append_left hl, List.getElem?_append_left hl]
        · rw [List.getElem?_append_right (by omega), List.getElem?_append_right (by omega)]
          have : j - l.length = (j - l.length - 1) + 1 := by omega
          rw [this, List.getElem?_cons_succ, List.getElem?_cons_succ]

/-- `JSON([10, 20, 30]).pop()`: the keys 0, 1, 2 become 0, 0. -/
example : Labelled heapThree [1, 2, 3] [0, 1, 2] ∧ DelLabels (-1) [0, 1, 2] [0, 0] ∧ ¬ InStep [0, 0] := by
  refine ⟨⟨rfl, fun j c z hc hz => ?_⟩, ?_, fun h => by have := h 1 0 rfl; omega⟩
  · match j, hc, hz with
    | 0, hc, hz => cases hc; cases hz; exact ⟨"0", rfl, pyInt_iff.1 (pyInt_natStr 0)⟩
    | 1, hc, hz => cases hc; cases hz; exact ⟨"1", rfl, pyInt_iff.1 (pyInt_natStr 1)⟩
    | 2, hc, hz => cases hc; cases hz; exact ⟨"2", rfl, pyInt_iff.1 (pyInt_natStr 2)⟩
    | j + 3, hc, hz => cases hc
  · exact .mk (l := [0, 1]) (r := []) (z := 2) (m := 1) (.inr rfl) (.fromEnd 1 (by omega))

end Jschon
