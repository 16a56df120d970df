import Verif.Proof.JsonBuild

namespace Jschon
open Spec

theorem pyInt_intStr (z : Int) : pyInt (intStr z) = some z := by
  unfold intStr
  split
  · rw [(pyInt_signed _).2]; congr 1; omega
  · rw [pyInt_natStr]; congr 1; omega

theorem intStr_nonneg {z : Int} (h : 0 ≤ z) : intStr z = natStr z.toNat := by
  unfold intStr; rw [if_neg (by omega)]; congr 1; omega

theorem intStr_nat (n : Nat) : intStr (n : Int) = natStr n := by
  rw [intStr_nonneg (by omega)]; simp

/-! ## Assigning data and invalidating -/

theorem setData_ord {h : JHeap} (ho : Ord h) {m : Ref} (hm : m < h.next) {d : JData}
    (hk : ∀ c ∈ d.kids, m < c ∧ c < h.next ∧ h.parent c = some m) (hn : d.kids.Nodup) :
    Ord (h.setData m d) := by
  have hhas := (ho.dom m).2 hm
  refine ⟨fun r => ?_, fun r c hc => ?_, fun r => ?_, fun r p h1 => ?_⟩
  · rw [setData_has]; exact ho.dom r
  · rw [setData_data h m r d hhas] at hc
    rw [setData_parent]
    split at hc
    · rename_i hr; subst hr; exact hk c hc
    · exact ho.kid r c hc
  · rw [setData_data h m r d hhas]; split
    · exact hn
    · exact ho.nodup r
  · rw [setData_parent] at h1; exact ho.par r p h1

theorem anc_of_parent {h h' : JHeap} (hp : ∀ x, h'.parent x = h.parent x) {a b : Ref} (ha : Anc h a b) :
    Anc h' a b := by
  induction ha with
  | refl => exact .refl
  | step h1 _ ih => exact .step ((hp _).trans h1) ih

/-- The effect of `self.data = d; self._invalidate_value()`. -/
theorem assign_spec {h : JHeap} (ho : Ord h) {m : Ref} (hm : m < h.next) {d : JData}
    (hk : ∀ c ∈ d.kids, m < c ∧ c < h.next ∧ h.parent c = some m) (hn : d.kids.Nodup)
    (hkeys : ∀ ms, d = .obj ms → (dkeys ms).Nodup)
    (hint : ∀ cs, d = .arr cs → ∀ c ∈ cs, ∃ k z, h.key c = some k ∧ pyInt k = some z)
    (hobj : ∀ ms, d = .obj ms → ∀ k c, (k, c) ∈ ms → h.key c = some k := by intro _ h; cases h) :
    EditW h (invalValue (h.setData m d) m) m d ∧
    (∀ x, (invalValue (h.setData m d) m).key x = h.key x) ∧
    (∀ x, (invalValue (h.setData m d) m).pathC x = h.pathC x) := by
  have hhas := (ho.dom m).2 hm
  obtain ⟨e1, e2, e3⟩ := invalValue_spec (setData_ord ho hm hk hn) (r := m) hm
  have hkey : ∀ x, (invalValue (h.setData m d) m).key x = h.key x :=
    fun x => (e1.key x).trans (setData_key h m x d)
  have hpath : ∀ x, (invalValue (h.setData m d) m).pathC x = h.pathC x :=
    fun x => (e2 x).trans (setData_pathC h m x d)
  refine ⟨⟨hm, e1.next, fun x => (e1.has x).trans (setData_has h m x d),
    fun x => (e1.data x).trans (setData_data h m x d hhas),
    fun x => (e1.parent x).trans (setData_parent h m x d), hk, hn, hkeys, fun cs hd c hc => ?_,
    fun x _ => hkey x, fun x v hv => ?_, fun x p hp => ?_, fun ms hd k c hm => ?_⟩, hkey, hpath⟩
  · rw [hkey]; exact hint cs hd c hc
  · obtain ⟨h1, h2⟩ := e3 x v hv
    rw [setData_valC] at h1
    exact ⟨h1, fun ha => h2 (anc_of_parent (setData_parent h m · d) ha)⟩
  · rw [← hpath]; exact hp
  · rw [hkey]; exact hobj ms hd k c hm

theorem EditW.shift {h h1 h2 : JHeap} {m : Ref} {cs' cs : List Ref} {δ : Int}
    (e : EditW h h1 m (.arr cs')) (s : Shifted h1 h2 δ cs) (hsub : ∀ c ∈ cs, c ∈ cs') :
    EditW h h2 m (.arr cs') where
  m_lt := e.m_lt
  next := s.next.trans e.next
  has x := (s.has x).trans (e.has x)
  data x := (s.data x).trans (e.data x)
  parent x := (s.parent x).trans (e.parent x)
  kid := e.kid
  nodup := e.nodup
  keys := e.keys
  kint l hl c hc := by
    cases hl
    obtain ⟨k, z, h1', h2'⟩ := e.kint cs' rfl c hc
    by_cases hcs : c ∈ cs
    · exact ⟨_, _, s.key c hcs k z h1' h2', pyInt_intStr _⟩
    · exact ⟨k, z, by rw [s.key_other c hcs]; exact h1', h2'⟩
  key_other x hx := by
    rw [s.key_other x (fun h => hx (hsub x h))]
    exact e.key_other x hx
  val x v hv := by rw [s.val] at hv; exact e.val x v hv
  path x p hp := e.path x p (s.path x p hp).1
  okey ms hd := by cases hd

theorem EditW.desc_below {h h' : JHeap} {m : Ref} {d : JData} (e : EditW h h' m d) (ho : Ord h)
    {a x : Ref} (hd : Desc h' a x) (ha : m < a) : Desc h a x := by
  induction hd with
  | refl => exact .refl
  | @step a b x hk _ ih =>
    rw [e.data, if_neg (by omega)] at hk
    exact .step hk (ih (by have := (ho.kid a b hk).1; omega))

/-! ## The operations -/

theorem argVal_wf {h : JHeap} (hi : WInv h) {o : JArg} (ho : o.Ok h) : (o.val h).WF := by
  cases o with
  | plain v => exact ho
  | json r => exact val_wf hi r

/-- Construction of the child that an assignment stores. -/
theorem child_spec {h : JHeap} (hi : WInv h) {r : Ref} (hr : r < h.next) {o : JArg} (hok : o.Ok h)
    (key : String) {h1 : JHeap} {c : Ref}
    (hn : newJson (argValue h o).1 (argValue h o).2 (some r) (some key) = (h1, c)) :
    Noop h h1 ∧ h.next ≤ c ∧ c < h1.next ∧ h1.parent c = some r ∧ h1.key c = some key ∧
      val h1 c = o.val h ∧ (∀ x, Desc h1 c x → h1.pathC x = none) := by
  obtain ⟨a1, a2⟩ := argValue_spec hi.ord hi.val o
  have hi1 := a1.winv hi
  have hwf : (argValue h o).2.WF := by rw [a2]; exact argVal_wf hi hok
  have hr1 : r < (argValue h o).1.next := by rw [a1.eqv.next]; exact hr
  obtain ⟨b0, b1, b2, b3, b4, b5, b6, b7⟩ := newJson_spec hi1.ord (argValue h o).2 hwf (some r)
    (some key) (by intro p hp; cases hp; exact hr1)
  rw [hn] at b0 b1 b2 b3 b4 b5 b6 b7
  simp only at b0 b1 b2 b3 b4 b5 b6 b7
  subst b0
  refine ⟨⟨a1.eqv.quiet.trans b1.quiet, ext_winv hi1 b1 b2 b3,
    fun hj => ext_inv (a1.inv hj) b1 b2 b3⟩, ?_, b4, b5, b6, b7.trans a2, fun x hx => ?_⟩
  · exact Nat.le_of_eq a1.eqv.next.symm
  · exact b3.pathC x (desc_le b2 hx)

theorem pyPos_lt {n : Nat} {i : Int} {j : Nat} (h : pyPos n i = some j) : j < n := by
  unfold pyPos at h
  split at h
  · split at h
    · cases h; assumption
    · cases h
  · split at h
    · cases h; omega
    · cases h

theorem pyPos_nonneg {n : Nat} {i : Int} {j : Nat} (h : pyPos n i = some j) (hi : 0 ≤ i) :
    i = (j : Int) := by
  unfold pyPos at h
  rw [if_pos hi] at h
  split at h
  · cases h; omega
  · cases h

theorem nodup_set {l : List Nat} (hn : l.Nodup) {c : Nat} (hc : c ∉ l) (n : Nat) : (l.set n c).Nodup := by
  induction l generalizing n with
  | nil => simp
  | cons a l ih =>
    simp only [List.nodup_cons, List.mem_cons, not_or] at hn hc
    cases n with
    | zero => simp only [List.set_cons_zero, List.nodup_cons]; exact ⟨hc.2, hn.2⟩
    | succ n =>
      simp only [List.set_cons_succ, List.nodup_cons]
      refine ⟨fun h => ?_, ih hn.2 hc.2 n⟩
      rcases List.mem_or_eq_of_mem_set h with h | h
      · exact hn.1 h
      · exact hc.1 h.symm

theorem mem_insertIdx_cases {α : Type} {l : List α} {n : Nat} {x c : α} (h : x ∈ l.insertIdx n c) :
    x = c ∨ x ∈ l := by
  induction l generalizing n with
  | nil => cases n <;> simp_all
  | cons a l ih =>
    cases n with
    | zero => simpa using h
    | succ n =>
      simp only [List.insertIdx_succ_cons, List.mem_cons] at h ⊢
      rcases h with h | h
      · exact .inr (.inl h)
      · rcases ih h with h | h
        · exact .inl h
        · exact .inr (.inr h)

theorem nodup_insertIdx {l : List Nat} (hn : l.Nodup) {c : Nat} (hc : c ∉ l) (n : Nat) :
    (l.insertIdx n c).Nodup := by
  induction l generalizing n with
  | nil => cases n <;> simp
  | cons a l ih =>
    cases n with
    | zero => simp only [List.insertIdx_zero, List.nodup_cons]; exact ⟨hc, List.nodup_cons.1 hn⟩
    | succ n =>
      simp only [List.nodup_cons, List.mem_cons, not_or] at hn hc
      simp only [List.insertIdx_succ_cons, List.nodup_cons]
      refine ⟨fun h => ?_, ih hn.2 hc.2 n⟩
      rcases mem_insertIdx_cases h with h | h
      · exact hc.1 h.symm
      · exact hn.1 h

theorem val_arr {h : JHeap} (ho : Ord h) {r : Ref} {cs : List Ref} (hd : h.data r = .arr cs) :
    val h r = .arr (cs.map (val h)) := by rw [val_eq ho, hd]; rfl

theorem val_obj {h : JHeap} (ho : Ord h) {r : Ref} {ms : List (String × Ref)} (hd : h.data r = .obj ms) :
    val h r = .obj (ms.map (fun m => (m.1, val h m.2))) := by rw [val_eq ho, hd]; rfl

theorem kids_val {h h1 : JHeap} (hi : WInv h) (hq : Noop h h1) {r : Ref} {cs : List Ref}
    (hd : h.data r = .arr cs) : cs.map (val h1) = cs.map (val h) := by
  refine List.map_congr_left fun c hc => hq.val hi.ord ?_
  exact (hi.ord.kid r c (by rw [hd]; exact hc)).2.1

/-- `self[i] = obj` on an array, when the index exists. -/
theorem setIdx_spec {h : JHeap} (hi : WInv h) {r : Ref} (hr : r < h.next) {o : JArg} (hok : o.Ok h)
    {i : Int} {cs : List Ref} (hd : h.data r = .arr cs) {n : Nat} (hn : pyPos cs.length i = some n) :
    (setIdx h r i o).2 = .ok () ∧
    Did h (setIdx h r i o).1 r (0 ≤ i) (.arr ((cs.map (val h)).set n (o.val h))) ∧
    ∃ c, h.next ≤ c ∧ (setIdx h r i o).1.data r = .arr (cs.set n c) ∧ val (setIdx h r i o).1 c = o.val h := by
  rcases hnew : newJson (argValue h o).1 (argValue h o).2 (some r) (some (intStr i)) with ⟨h1, c⟩
  obtain ⟨a1, a2, a3, a4, a5, a6, a7⟩ := child_spec hi hr hok (intStr i) hnew
  have hd1 : h1.data r = .arr cs := by rw [a1.quiet.data r hr]; exact hd
  have hr1 : r < h1.next := Nat.lt_of_lt_of_le hr a1.quiet.le
  simp only [setIdx, hnew, hd1, hn]
  have hlt := pyPos_lt hn
  have hold : ∀ x ∈ cs, r < x ∧ x < h.next ∧ h.parent x = some r :=
    fun x hx => hi.ord.kid r x (by rw [hd]; exact hx)
  have hmem : ∀ x ∈ cs.set n c, x ∈ cs ∨ x = c := fun x hx => List.mem_or_eq_of_mem_set hx
  have hcn : c ∉ cs := fun hc => by have := (hold c hc).2.1; omega
  obtain ⟨e1, e2, e3⟩ := assign_spec a1.winv.ord hr1 (d := .arr (cs.set n c))
    (by
      intro x hx
      rcases hmem x hx with hx | rfl
      · obtain ⟨b1, b2, b3⟩ := hold x hx
        exact ⟨b1, Nat.lt_of_lt_of_le b2 a1.quiet.le, by rw [a1.quiet.parent x b2]; exact b3⟩
      · exact ⟨by omega, a3, a4⟩)
    (nodup_set (by have := hi.ord.nodup r; rw [hd] at this; exact this) hcn n)
    (by intro ms h; cases h)
    (by
      intro l hl x hx
      cases hl
      rcases hmem x hx with hx | rfl
      · exact a1.winv.kint r cs hd1 x hx
      · exact ⟨_, _, a5, pyInt_intStr i⟩)
  have hcr : ¬ Desc h1 c r := fun hc => by have := desc_le a1.winv.ord hc; omega
  refine ⟨trivial, ⟨⟨h1, _, a1, e1, fun hj hg => ?_⟩, ?_, fun x hx hlt => ?_⟩, c, a2,
    (e1.data r).trans (if_pos rfl), by rw [e1.val_other a1.winv.ord hcr, a6]⟩
  · have hj1 := a1.inv hj
    have hin := pyPos_nonneg hn hg
    subst hin
    refine ⟨?_, ?_⟩
    · rintro k x ⟨j, rfl, hx⟩
      rw [e2]
      rw [List.getElem?_set] at hx
      split at hx
      · rename_i hjn; subst hjn
        cases hx
        rw [a5, intStr_nat]
      · exact hj1.keys.key r _ x (by rw [Child, hd1]; exact ⟨j, rfl, hx⟩)
    · rintro k x ⟨j, rfl, hx⟩
      rw [List.getElem?_set] at hx
      split at hx
      · rename_i hjn; subst hjn
        cases hx
        refine .inr fun y hy => ?_
        rw [e3]
        exact a7 y (e1.desc_below a1.winv.ord hy (by omega))
      · exact .inl (by rw [Child, hd1]; exact ⟨j, rfl, hx⟩)
  · rw [e1.val_at a1.winv.ord]
    simp only [dataVal, List.map_set, kids_val hi a1 hd, a6]
  · rw [e1.data r, if_pos rfl] at hx
    rw [hd]
    rcases hmem x hx with hx | rfl
    · exact hx
    · omega

/-- `self[i] = obj` on an array, when the index does not exist. -/
theorem setIdx_err {h : JHeap} (hi : WInv h) {r : Ref} (hr : r < h.next) {o : JArg} (hok : o.Ok h)
    {i : Int} (hd : ∀ cs, h.data r = .arr cs → pyPos cs.length i = none) :
    (∃ e, (setIdx h r i o).2 = .error e) ∧ Noop h (setIdx h r i o).1 := by
  rcases hnew : newJson (argValue h o).1 (argValue h o).2 (some r) (some (intStr i)) with ⟨h1, c⟩
  obtain ⟨a1, a2, a3, a4, a5, a6, a7⟩ := child_spec hi hr hok (intStr i) hnew
  have hd1 : h1.data r = h.data r := a1.quiet.data r hr
  simp only [setIdx, hnew, hd1]
  cases hdat : h.data r with
  | arr cs => simp only [hd cs hdat]; exact ⟨⟨_, rfl⟩, a1⟩
  | _ => exact ⟨⟨_, rfl⟩, a1⟩

section dict
variable {β γ : Type} {k k' : String} {v w : β} {d : List (String × β)}

theorem mem_dset (h : (k', w) ∈ dset k v d) : (k' = k ∧ w = v) ∨ (k', w) ∈ d := by
  induction d with
  | nil => simp [dset] at h; exact .inl h
  | cons a d ih =>
    obtain ⟨k0, v0⟩ := a
    simp only [dset] at h
    split at h
    · rename_i hk; subst hk
      simp only [List.mem_cons, Prod.mk.injEq] at h
      rcases h with h | h
      · exact .inl h
      · exact .inr (by simp [h])
    · simp only [List.mem_cons, Prod.mk.injEq] at h
      rcases h with h | h
      · exact .inr (by simp [h])
      · rcases ih h with h | h
        · exact .inl h
        · exact .inr (by simp [h])

theorem map_dset (f : β → γ) : (dset k v d).map (fun m => (m.1, f m.2)) =
    dset k (f v) (d.map (fun m => (m.1, f m.2))) := by
  induction d with
  | nil => rfl
  | cons a d ih =>
    simp only [dset, List.map_cons]
    split
    · simp
    · simp [ih]

theorem map_derase (f : β → γ) : (derase k d).map (fun m => (m.1, f m.2)) =
    derase k (d.map (fun m => (m.1, f m.2))) := by
  induction d with
  | nil => rfl
  | cons a d ih =>
    simp only [derase, List.map_cons]
    split
    · simp
    · simp [ih]

theorem derase_sublist : List.Sublist (derase k d) d := by
  induction d with
  | nil => exact .slnil
  | cons a d ih =>
    simp only [derase]
    split
    · exact List.sublist_cons_self _ _
    · exact ih.cons₂ _

theorem dset_cases : (k ∉ dkeys d ∧ dset k v d = d ++ [(k, v)]) ∨
    ∃ l w r, k ∉ dkeys l ∧ d = l ++ (k, w) :: r ∧ dset k v d = l ++ (k, v) :: r := by
  cases h : dlookup k d with
  | none =>
    have := dlookup_eq_none.1 h
    exact .inl ⟨this, dset_of_not_mem this⟩
  | some w =>
    obtain ⟨l, r, rfl, h1⟩ := dlookup_split.1 h
    exact .inr ⟨l, w, r, h1, rfl, dset_of_mem h1⟩

theorem dkeys_dset_nodup (h : (dkeys d).Nodup) : (dkeys (dset k v d)).Nodup := by
  rcases dset_cases (k := k) (v := v) (d := d) with ⟨h1, h2⟩ | ⟨l, w, r, h1, h2, h3⟩
  · rw [h2, dkeys_append]
    refine List.nodup_append.2 ⟨h, by simp [dkeys], ?_⟩
    rintro a ha b hb rfl
    simp [dkeys] at hb
    subst hb; exact h1 ha
  · rw [h3]; rw [h2] at h
    simpa [dkeys] using h

end dict

theorem kids_dset_nodup {ms : List (String × Nat)} {k : String} {c : Nat}
    (h : (ms.map Prod.snd).Nodup) (hc : c ∉ ms.map Prod.snd) : ((dset k c ms).map Prod.snd).Nodup := by
  rcases dset_cases (k := k) (v := c) (d := ms) with ⟨h1, h2⟩ | ⟨l, w, r, h1, h2, h3⟩
  · rw [h2, List.map_append]
    refine List.nodup_append.2 ⟨h, by simp, ?_⟩
    rintro a ha b hb rfl
    simp at hb
    subst hb; exact hc ha
  · rw [h3]; subst h2
    simp only [List.map_append, List.map_cons, List.mem_append, List.mem_cons, not_or] at h hc ⊢
    rw [List.nodup_append] at h ⊢
    obtain ⟨a1, a2, a3⟩ := h
    simp only [List.nodup_cons] at a2 ⊢
    refine ⟨a1, ⟨hc.2.2, a2.2⟩, ?_⟩
    intro x hx y hy
    simp only [List.mem_cons] at hy
    rcases hy with rfl | hy
    · rintro rfl; exact hc.1 hx
    · exact a3 x hx y (by simp [hy])

theorem members_val {h h1 : JHeap} (hi : WInv h) (hq : Noop h h1) {r : Ref} {ms : List (String × Ref)}
    (hd : h.data r = .obj ms) :
    ms.map (fun m => (m.1, val h1 m.2)) = ms.map (fun m => (m.1, val h m.2)) := by
  refine List.map_congr_left fun m hm => ?_
  rw [hq.val hi.ord (hi.ord.kid r m.2 (by rw [hd]; exact List.mem_map_of_mem (f := Prod.snd) hm)).2.1]

/-- `self[k] = obj` on an object. -/
theorem setKey_spec {h : JHeap} (hi : WInv h) {r : Ref} (hr : r < h.next) {o : JArg} (hok : o.Ok h)
    {k : String} {ms : List (String × Ref)} (hd : h.data r = .obj ms) :
    (setKey h r k o).2 = .ok () ∧
    Did h (setKey h r k o).1 r True
      (.obj (dset k (o.val h) (ms.map (fun m => (m.1, val h m.2))))) ∧
    ∃ c, h.next ≤ c ∧ (setKey h r k o).1.data r = .obj (dset k c ms) ∧ val (setKey h r k o).1 c = o.val h := by
  rcases hnew : newJson (argValue h o).1 (argValue h o).2 (some r) (some k) with ⟨h1, c⟩
  obtain ⟨a1, a2, a3, a4, a5, a6, a7⟩ := child_spec hi hr hok k hnew
  have hd1 : h1.data r = .obj ms := by rw [a1.quiet.data r hr]; exact hd
  have hr1 : r < h1.next := Nat.lt_of_lt_of_le hr a1.quiet.le
  simp only [setKey, hnew, hd1]
  have hold : ∀ x ∈ ms.map Prod.snd, r < x ∧ x < h.next ∧ h.parent x = some r :=
    fun x hx => hi.ord.kid r x (by rw [hd]; exact hx)
  have hcn : c ∉ ms.map Prod.snd := fun hc => by have := (hold c hc).2.1; omega
  obtain ⟨e1, e2, e3⟩ := assign_spec a1.winv.ord hr1 (d := .obj (dset k c ms))
    (by
      intro x hx
      simp only [JData.kids, List.mem_map] at hx
      obtain ⟨⟨k', x⟩, hx, rfl⟩ := hx
      rcases mem_dset hx with ⟨rfl, rfl⟩ | hx
      · exact ⟨by simp only; omega, a3, a4⟩
      · obtain ⟨b1, b2, b3⟩ := hold x (List.mem_map_of_mem (f := Prod.snd) hx)
        exact ⟨b1, Nat.lt_of_lt_of_le b2 a1.quiet.le, by rw [a1.quiet.parent x b2]; exact b3⟩)
    (kids_dset_nodup (by have := hi.ord.nodup r; rw [hd] at this; exact this) hcn)
    (by intro ms' h'; cases h'; exact dkeys_dset_nodup (hi.nodup r ms hd))
    (by intro l hl; cases hl)
    (by
      intro ms' h' k' x hx
      cases h'
      rcases mem_dset hx with ⟨rfl, rfl⟩ | hx
      · exact a5
      · exact a1.winv.okey r ms hd1 k' x hx)
  have hcr : ¬ Desc h1 c r := fun hc => by have := desc_le a1.winv.ord hc; omega
  refine ⟨trivial, ⟨⟨h1, _, a1, e1, fun hj _ => ?_⟩, ?_, fun x hx hlt => ?_⟩, c, a2,
    (e1.data r).trans (if_pos rfl), by rw [e1.val_other a1.winv.ord hcr, a6]⟩
  · have hj1 := a1.inv hj
    refine ⟨fun k' x hx => ?_, fun k' x hx => ?_⟩
    · rw [e2]
      rcases mem_dset hx with ⟨rfl, rfl⟩ | hx
      · exact a5
      · exact hj1.keys.key r k' x (by rw [Child, hd1]; exact hx)
    · rcases mem_dset hx with ⟨rfl, rfl⟩ | hx
      · refine .inr fun y hy => ?_
        rw [e3]
        exact a7 y (e1.desc_below a1.winv.ord hy (by omega))
      · exact .inl (by rw [Child, hd1]; exact hx)
  · rw [e1.val_at a1.winv.ord]
    simp only [dataVal, map_dset, members_val hi a1 hd, a6]
  · rw [e1.data r, if_pos rfl] at hx
    simp only [JData.kids, List.mem_map] at hx
    obtain ⟨⟨k', x⟩, hx, rfl⟩ := hx
    rw [hd]
    rcases mem_dset hx with ⟨rfl, rfl⟩ | hx
    · simp only at hlt; omega
    · exact List.mem_map_of_mem (f := Prod.snd) hx

/-- `self[k] = obj` on anything else. -/
theorem setKey_err {h : JHeap} (hi : WInv h) {r : Ref} (hr : r < h.next) {o : JArg} (hok : o.Ok h)
    {k : String} (hd : ∀ ms, h.data r ≠ .obj ms) :
    (∃ e, (setKey h r k o).2 = .error e) ∧ Noop h (setKey h r k o).1 := by
  rcases hnew : newJson (argValue h o).1 (argValue h o).2 (some r) (some k) with ⟨h1, c⟩
  obtain ⟨a1, a2, a3, a4, a5, a6, a7⟩ := child_spec hi hr hok k hnew
  have hd1 : h1.data r = h.data r := a1.quiet.data r hr
  simp only [setKey, hnew, hd1]
  cases hdat : h.data r with
  | obj ms => exact absurd hdat (hd ms)
  | _ => exact ⟨⟨_, rfl⟩, a1⟩

/-- `del self[k]` on an object that has the member. -/
theorem delKey_spec {h : JHeap} (hi : WInv h) {r : Ref} (hr : r < h.next) {k : String}
    {ms : List (String × Ref)} (hd : h.data r = .obj ms) (hk : k ∈ dkeys ms) :
    (delKey h r k).2 = .ok () ∧
    Did h (delKey h r k).1 r True (.obj (derase k (ms.map (fun m => (m.1, val h m.2))))) := by
  obtain ⟨c, hc⟩ := Option.isSome_iff_exists.1 (dlookup_isSome.2 hk)
  simp only [delKey, hd, hc]
  have hold : ∀ x ∈ ms.map Prod.snd, r < x ∧ x < h.next ∧ h.parent x = some r :=
    fun x hx => hi.ord.kid r x (by rw [hd]; exact hx)
  obtain ⟨e1, e2, e3⟩ := assign_spec hi.ord hr (d := .obj (derase k ms))
    (by
      intro x hx
      simp only [JData.kids, List.mem_map] at hx
      obtain ⟨m, hx, rfl⟩ := hx
      exact hold m.2 (List.mem_map_of_mem (f := Prod.snd) (derase_sublist.subset hx)))
    (by
      have := hi.ord.nodup r; rw [hd] at this
      exact this.sublist (derase_sublist.map _))
    (by intro ms' h'; cases h'; exact (hi.nodup r ms hd).sublist (derase_sublist.map _))
    (by intro l hl; cases hl)
    (by intro ms' h' k' x hx; cases h'; exact hi.okey r ms hd k' x (derase_sublist.subset hx))
  refine ⟨trivial, ⟨h, _, .refl hi, e1, fun hj _ => ?_⟩, ?_, fun x hx _ => ?_⟩
  · refine ⟨fun k' x hx => ?_, fun k' x hx => ?_⟩
    · rw [e2]
      exact hj.keys.key r k' x (by rw [Child, hd]; exact derase_sublist.subset hx)
    · exact .inl (by rw [Child, hd]; exact derase_sublist.subset hx)
  · rw [e1.val_at hi.ord]
    simp only [dataVal, map_derase]
  · rw [e1.data r, if_pos rfl] at hx
    rw [hd]
    exact (derase_sublist.map Prod.snd).subset hx

theorem delKey_err {h : JHeap} {r : Ref} {k : String}
    (hd : ∀ ms, h.data r = .obj ms → k ∉ dkeys ms) :
    (∃ e, (delKey h r k).2 = .error e) ∧ (delKey h r k).1 = h := by
  unfold delKey
  cases hdat : h.data r with
  | obj ms => simp only [dlookup_eq_none.2 (hd ms hdat)]; exact ⟨⟨_, rfl⟩, trivial⟩
  | _ => exact ⟨⟨_, rfl⟩, rfl⟩

theorem mem_drop_iff {l : List Nat} (hn : l.Nodup) {j m : Nat} {x : Nat} (hj : l[j]? = some x) :
    x ∈ l.drop m ↔ m ≤ j := by
  constructor
  · intro hx
    obtain ⟨i, hi⟩ := List.getElem?_of_mem hx
    rw [List.getElem?_drop] at hi
    have h1 := (List.getElem?_eq_some_iff.1 hi)
    have h2 := (List.getElem?_eq_some_iff.1 hj)
    obtain ⟨h1, h1'⟩ := h1
    obtain ⟨h2, h2'⟩ := h2
    have := (List.getElem_inj hn).1 (h1'.trans h2'.symm)
    omega
  · intro hm
    have : (l.drop m)[j - m]? = some x := by rw [List.getElem?_drop, ← hj]; congr 1; omega
    exact List.mem_of_getElem? this

/-- `del self[i]` on an array, when the index exists. -/
theorem delIdx_spec {h : JHeap} (hi : WInv h) {r : Ref} (hr : r < h.next) {i : Int} {cs : List Ref}
    (hd : h.data r = .arr cs) {n : Nat} (hn : pyPos cs.length i = some n) :
    (delIdx h r i).2 = .ok () ∧
    Did h (delIdx h r i).1 r (0 ≤ i) (.arr ((cs.map (val h)).eraseIdx n)) := by
  have hlt := pyPos_lt hn
  have hold : ∀ x ∈ cs, r < x ∧ x < h.next ∧ h.parent x = some r :=
    fun x hx => hi.ord.kid r x (by rw [hd]; exact hx)
  have hnd : cs.Nodup := by have := hi.ord.nodup r; rw [hd] at this; exact this
  have hsub : List.Sublist (cs.eraseIdx n) cs := List.eraseIdx_sublist cs n
  obtain ⟨e1, e2, e3⟩ := assign_spec hi.ord hr (d := .arr (cs.eraseIdx n))
    (fun x hx => hold x (hsub.subset hx)) (hnd.sublist hsub) (by intro ms h; cases h)
    (by
      intro l hl x hx
      cases hl
      exact hi.kint r cs hd x (hsub.subset hx))
  simp only [delIdx, hd, hn]
  have hnd' := hnd.sublist hsub
  obtain ⟨s1, s2⟩ := shiftKeys_spec (e1.ord hi.ord) (-1)
    ((cs.eraseIdx n).drop (sliceBound (cs.eraseIdx n).length i))
    (hnd'.sublist (List.drop_sublist _ _))
    (by
      intro x hx
      have hx' := hsub.subset (List.mem_of_mem_drop hx)
      refine ⟨by rw [e1.next]; exact (hold x hx').2.1, ?_⟩
      rw [e2]; exact hi.kint r cs hd x hx')
  have e4 := e1.shift s2 (fun c hc => List.mem_of_mem_drop hc)
  refine ⟨s1, ?_⟩
  clear s1
  generalize (shiftKeys (-1) (invalValue (h.setData r (.arr (cs.eraseIdx n))) r)
    ((cs.eraseIdx n).drop (sliceBound (cs.eraseIdx n).length i))).1 = h3 at s2 e4 ⊢
  refine ⟨⟨h, _, .refl hi, e4, fun hj hg => ?_⟩, ?_, fun x hx _ => ?_⟩
  · have hin := pyPos_nonneg hn hg
    subst hin
    have hsb : sliceBound (cs.eraseIdx n).length (n : Int) = n := by
      rw [List.length_eraseIdx]; unfold sliceBound
      rw [if_neg (by omega), if_pos hlt]; omega
    rw [hsb] at s2
    refine ⟨?_, ?_⟩
    · rintro k x ⟨j, rfl, hx⟩
      by_cases hjn : j < n
      · rw [s2.key_other x (by rw [mem_drop_iff hnd' hx]; omega), e2]
        rw [List.getElem?_eraseIdx, if_pos hjn] at hx
        exact hj.keys.key r _ x (by rw [Child, hd]; exact ⟨j, rfl, hx⟩)
      · have h1 := hx
        rw [List.getElem?_eraseIdx, if_neg hjn] at h1
        have h2 := hj.keys.key r _ x (by rw [Child, hd]; exact ⟨j + 1, rfl, h1⟩)
        rw [s2.key x ((mem_drop_iff hnd' hx).2 (by omega)) (natStr (j + 1)) (j + 1 : Nat)
          (by rw [e2]; exact h2) (pyInt_natStr _)]
        congr 1
        rw [← intStr_nat]; congr 1; omega
    · rintro k x ⟨j, rfl, hx⟩
      by_cases hjn : j < n
      · rw [List.getElem?_eraseIdx, if_pos hjn] at hx
        exact .inl (by rw [Child, hd]; exact ⟨j, rfl, hx⟩)
      · refine .inr fun y hy => ?_
        cases hp : h3.pathC y with
        | none => rfl
        | some p =>
          refine absurd ?_ ((s2.path y p hp).2 x ((mem_drop_iff hnd' hx).2 (by omega)))
          exact desc_of_data (fun z => (s2.data z).symm) hy
  · rw [e4.val_at hi.ord]
    simp only [dataVal]
    congr 1
    rw [List.eraseIdx_eq_take_drop_succ, List.eraseIdx_eq_take_drop_succ]
    simp [List.map_take, List.map_drop]
  · rw [e4.data r, if_pos rfl] at hx
    rw [hd]
    exact hsub.subset hx

theorem delIdx_err {h : JHeap} {r : Ref} {i : Int}
    (hd : ∀ cs, h.data r = .arr cs → pyPos cs.length i = none) :
    (∃ e, (delIdx h r i).2 = .error e) ∧ (delIdx h r i).1 = h := by
  unfold delIdx
  cases hdat : h.data r with
  | arr cs => simp only [hd cs hdat]; exact ⟨⟨_, rfl⟩, trivial⟩
  | _ => exact ⟨⟨_, rfl⟩, rfl⟩

/-- `self.insert(i, obj)` on an array. -/
theorem insertIdx_spec {h : JHeap} (hi : WInv h) {r : Ref} (hr : r < h.next) {o : JArg} (hok : o.Ok h)
    {i : Int} {cs : List Ref} (hd : h.data r = .arr cs) :
    (insertIdx h r i o).2 = .ok () ∧
    Did h (insertIdx h r i o).1 r (0 ≤ i ∧ i ≤ cs.length)
      (.arr ((cs.map (val h)).insertIdx (sliceBound cs.length i) (o.val h))) ∧
    ∃ c, h.next ≤ c ∧ (insertIdx h r i o).1.data r = .arr (cs.insertIdx (sliceBound cs.length i) c) ∧ val (insertIdx h r i o).1 c = o.val h := by
  rcases hnew : newJson (argValue h o).1 (argValue h o).2 (some r) (some (intStr i)) with ⟨h1, c⟩
  obtain ⟨a1, a2, a3, a4, a5, a6, a7⟩ := child_spec hi hr hok (intStr i) hnew
  have hd1 : h1.data r = .arr cs := by rw [a1.quiet.data r hr]; exact hd
  have hr1 : r < h1.next := Nat.lt_of_lt_of_le hr a1.quiet.le
  simp only [insertIdx, hnew, hd]
  have hold : ∀ x ∈ cs, r < x ∧ x < h.next ∧ h.parent x = some r :=
    fun x hx => hi.ord.kid r x (by rw [hd]; exact hx)
  have hnd : cs.Nodup := by have := hi.ord.nodup r; rw [hd] at this; exact this
  have hcn : c ∉ cs := fun hc => by have := (hold c hc).2.1; omega
  generalize hm : sliceBound cs.length i = m
  have hmle : m ≤ cs.length := by
    rw [← hm]; unfold sliceBound; split <;> omega
  have hlen : (cs.insertIdx m c).length = cs.length + 1 := List.length_insertIdx_of_le_length hmle _
  have hnd' := nodup_insertIdx hnd hcn m
  obtain ⟨e1, e2, e3⟩ := assign_spec a1.winv.ord hr1 (d := .arr (cs.insertIdx m c))
    (by
      intro x hx
      rcases mem_insertIdx_cases hx with rfl | hx
      · exact ⟨by omega, a3, a4⟩
      · obtain ⟨b1, b2, b3⟩ := hold x hx
        exact ⟨b1, Nat.lt_of_lt_of_le b2 a1.quiet.le, by rw [a1.quiet.parent x b2]; exact b3⟩)
    hnd' (by intro ms h; cases h)
    (by
      intro l hl x hx
      cases hl
      rcases mem_insertIdx_cases hx with rfl | hx
      · exact ⟨_, _, a5, pyInt_intStr i⟩
      · exact a1.winv.kint r cs hd1 x hx)
  have hint := e1.kint (cs.insertIdx m c) rfl
  obtain ⟨s1, s2⟩ := shiftKeys_spec (e1.ord a1.winv.ord) 1
    ((cs.insertIdx m c).drop (sliceBound (cs.insertIdx m c).length (i + 1)))
    (hnd'.sublist (List.drop_sublist _ _))
    (by
      intro x hx
      refine ⟨by rw [e1.next]; exact (e1.kid x (List.mem_of_mem_drop hx)).2.1, ?_⟩
      exact hint x (List.mem_of_mem_drop hx))
  have e4 := e1.shift s2 (fun c hc => List.mem_of_mem_drop hc)
  refine ⟨s1, ?_⟩
  clear s1
  generalize (shiftKeys 1 (invalValue (h1.setData r (.arr (cs.insertIdx m c))) r)
    ((cs.insertIdx m c).drop (sliceBound (cs.insertIdx m c).length (i + 1)))).1 = h3 at s2 e4 ⊢
  have hcr : ¬ Desc h1 c r := fun hc => by have := desc_le a1.winv.ord hc; omega
  refine ⟨⟨⟨h1, _, a1, e4, fun hj hg => ?_⟩, ?_, fun x hx hlt => ?_⟩, c, a2,
    (e4.data r).trans (if_pos rfl), by rw [e4.val_other a1.winv.ord hcr, a6]⟩
  · have hj1 := a1.inv hj
    obtain ⟨hg1, hg2⟩ := hg
    have him : i = (m : Int) := by
      rw [← hm]; unfold sliceBound; rw [if_neg (by omega)]; omega
    subst him
    have hsb : sliceBound (cs.insertIdx m c).length ((m : Int) + 1) = m + 1 := by
      rw [hlen]; unfold sliceBound; rw [if_neg (by omega)]; omega
    rw [hsb] at s2
    have hget : ∀ (j : Nat), (cs.insertIdx m c)[j]? =
        if j < m then cs[j]? else if j = m then some c else cs[j - 1]? := by
      intro j
      rw [List.getElem?_insertIdx]
      by_cases h1 : j < m
      · simp [h1]
      · simp only [h1, if_false]
        by_cases h2 : j = m
        · simp [h2, hmle]
        · simp [h2]
    refine ⟨?_, ?_⟩
    · rintro k x ⟨j, rfl, hx⟩
      have h1 := hx
      rw [hget] at h1
      by_cases hjn : j < m
      · rw [if_pos hjn] at h1
        rw [s2.key_other x (by rw [mem_drop_iff hnd' hx]; omega), e2]
        exact hj1.keys.key r _ x (by rw [Child, hd1]; exact ⟨j, rfl, h1⟩)
      · rw [if_neg hjn] at h1
        by_cases hjm : j = m
        · rw [if_pos hjm] at h1; cases h1
          rw [s2.key_other c (by rw [mem_drop_iff hnd' hx]; omega), e2, a5, intStr_nat, hjm]
        · rw [if_neg hjm] at h1
          have h2 := hj1.keys.key r _ x (by rw [Child, hd1]; exact ⟨j - 1, rfl, h1⟩)
          rw [s2.key x ((mem_drop_iff hnd' hx).2 (by omega)) (natStr (j - 1)) (j - 1 : Nat)
            (by rw [e2]; exact h2) (pyInt_natStr _)]
          congr 1
          rw [← intStr_nat]; congr 1; omega
    · rintro k x ⟨j, rfl, hx⟩
      have h1 := hx
      rw [hget] at h1
      by_cases hjn : j < m
      · rw [if_pos hjn] at h1
        exact .inl (by rw [Child, hd1]; exact ⟨j, rfl, h1⟩)
      · rw [if_neg hjn] at h1
        refine .inr fun y hy => ?_
        cases hp : h3.pathC y with
        | none => rfl
        | some p =>
          obtain ⟨q1, q2⟩ := s2.path y p hp
          have hy' := desc_of_data (fun z => (s2.data z).symm) hy
          by_cases hjm : j = m
          · rw [if_pos hjm] at h1; cases h1
            rw [e3] at q1
            rw [a7 y (e1.desc_below a1.winv.ord hy' (by omega))] at q1
            cases q1
          · exact absurd hy' (q2 x ((mem_drop_iff hnd' hx).2 (by omega)))
  · rw [e4.val_at a1.winv.ord]
    simp only [dataVal, ← a6, ← kids_val hi a1 hd]
    rw [insertIdx_split _ _ hmle, insertIdx_split _ _ (by rw [List.length_map]; exact hmle)]
    simp [List.map_take, List.map_drop]
  · rw [e4.data r, if_pos rfl] at hx
    rw [hd]
    rcases mem_insertIdx_cases hx with rfl | hx
    · omega
    · exact hx

theorem insertIdx_err {h : JHeap} {r : Ref} {i : Int} {o : JArg} (hd : ∀ cs, h.data r ≠ .arr cs) :
    (∃ e, (insertIdx h r i o).2 = .error e) ∧ (insertIdx h r i o).1 = h := by
  unfold insertIdx
  cases hdat : h.data r with
  | arr cs => exact absurd hdat (hd cs)
  | _ => exact ⟨⟨_, rfl⟩, rfl⟩

/-- `self.__init__(v, parent=self.parent, key=self.key)` and invalidation. -/
theorem reinit_spec {h : JHeap} (hi : WInv h) {r : Ref} (hr : r < h.next) {v : Value} (hv : v.WF) :
    Did h (invalValue (reinit h r v) r) r True v := by
  have hb := buildData_spec v hv h r hi.ord hr
  unfold reinit
  generalize buildData h r v = q at hb
  obtain ⟨h1, d⟩ := q
  simp only at hb ⊢
  have hn : Noop h h1 := ⟨hb.ext.quiet, ext_winv hi hb.ext hb.ord hb.fresh,
    fun hj => ext_inv hj hb.ext hb.ord hb.fresh⟩
  obtain ⟨e1, e2, e3⟩ := assign_spec hb.ord (Nat.lt_of_lt_of_le hr hb.ext.le) (d := d)
    (fun c hc => by
      obtain ⟨b1, b2, b3⟩ := hb.data.kid c hc
      exact ⟨by omega, b2, b3⟩) hb.data.nodup hb.data.keys
    (kint_of_keys hb.data.key) (fun ms hd k c hm => hb.data.key k c (by subst hd; exact hm))
  refine ⟨⟨h1, d, hn, e1, fun hj _ => ⟨fun k x hx => ?_, fun k x hx => ?_⟩⟩, ?_,
    fun x hx hlt => ?_⟩
  · rw [e2]; exact hb.data.key k x hx
  · refine .inr fun y hy => ?_
    have hlt : h.next ≤ x := (hb.data.kid x (childD_kid hx)).1
    rw [e3]
    refine hb.fresh.pathC y (Nat.le_trans hlt (desc_le hb.ord (e1.desc_below hb.ord hy (by omega))))
  · rw [e1.val_at hb.ord]; exact hb.val
  · rw [e1.data r, if_pos rfl] at hx
    have := (hb.data.kid x hx).1
    omega

end Jschon
