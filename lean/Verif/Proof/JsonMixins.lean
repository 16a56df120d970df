import Verif.Model.JsonMixins
import Verif.Proof.JsonDoc

/-!
# Sequences of edits of one instance
-/

namespace Jschon
open Spec

/-- Of the instances of `h`, only `r` has new data. -/
structure Edited (h h' : JHeap) (r : Ref) : Prop where
  winv : WInv h'
  le : h.next ≤ h'.next
  data : ∀ x, x < h.next → x ≠ r → h'.data x = h.data x

theorem Edited.refl {h : JHeap} (hi : WInv h) (r : Ref) : Edited h h r := ⟨hi, Nat.le_refl _, fun _ _ _ => rfl⟩

theorem Edited.trans {h h' h'' : JHeap} {r : Ref} (a : Edited h h' r) (b : Edited h' h'' r) :
    Edited h h'' r where
  winv := b.winv
  le := Nat.le_trans a.le b.le
  data x hx hr := (b.data x (Nat.lt_of_lt_of_le hx a.le) hr).trans (a.data x hx hr)

theorem Did.edited {h h' : JHeap} {m : Ref} {good : Prop} {v : Value} (e : Did h h' m good v) :
    Edited h h' m := ⟨e.winv, e.le, fun _ hx hr => e.data_other hx hr⟩

theorem Edited.at {h h' : JHeap} {r : Ref} (e : Edited h h' r) (hi : WInv h) {x : Ref} (hx : x < h.next)
    {ks : List String} (hr : Jschon.Reach h x ks r) {R : Value → Value → Prop}
    (hR : R (val h r) (val h' r)) : At R (val h x) ks (val h' x) :=
  at_of_reach hi.ord e.winv.ord hi.nodup e.data hR hx hr

theorem Edited.val_other {h h' : JHeap} {r : Ref} (e : Edited h h' r) (hi : WInv h) {x : Ref}
    (hx : x < h.next) (hd : ¬ Desc h x r) : val h' x = val h x :=
  val_setDataL hi.ord e.winv.ord e.data hx hd

/-- Nothing old comes to contain the instance. -/
theorem Edited.desc {h h' : JHeap} {r : Ref} (e : Edited h h' r) (hi : WInv h) {x : Ref}
    (hx : x < h.next) (hd : ¬ Desc h x r) : ¬ Desc h' x r := by
  intro h1
  obtain ⟨y, hy⟩ : ∃ y, y = r := ⟨_, rfl⟩
  rw [← hy] at h1
  induction h1 with
  | refl => subst hy; exact hd .refl
  | @step a c b hc h2 ih =>
    subst hy
    have har : a ≠ b := by rintro rfl; exact hd .refl
    rw [e.data a hx har] at hc
    exact ih (hi.ord.kid a c hc).2.1 (fun h3 => hd (.step hc h3)) rfl

theorem kid_not_above {h : JHeap} (hi : WInv h) {r c : Ref} (hc : c ∈ (h.data r).kids) : ¬ Desc h c r := by
  intro hd
  have h1 := (hi.ord.kid r c hc).1
  have h2 := desc_le hi.ord hd
  omega

/-- The arguments are as good after the edit. -/
theorem JArg.Ok.later {h h' : JHeap} {o : JArg} (ho : o.Ok h) (hle : h.next ≤ h'.next) : o.Ok h' := by
  cases o with
  | plain v => exact ho
  | json x => exact Nat.lt_of_lt_of_le ho hle

/-- `o` is not an instance that contains `r`. -/
def JArg.Apart (h : JHeap) (r : Ref) (o : JArg) : Prop := ∀ x, o = .json x → ¬ Desc h x r

theorem Edited.arg {h h' : JHeap} {r : Ref} (e : Edited h h' r) (hi : WInv h) {o : JArg} (ho : o.Ok h)
    (ha : o.Apart h r) : o.Ok h' ∧ o.Apart h' r ∧ o.val h' = o.val h := by
  refine ⟨ho.later e.le, ?_, ?_⟩
  · rintro x rfl
    exact e.desc hi ho (ha x rfl)
  · cases o with
    | plain v => rfl
    | json x => exact e.val_other hi ho (ha x rfl)

theorem sliceBound_length (n : Nat) : sliceBound n (n : Int) = n := by
  unfold sliceBound; split <;> (try split) <;> omega

theorem append_spec {h : JHeap} (hi : WInv h) {r : Ref} (hr : r < h.next) {o : JArg} (hok : o.Ok h)
    {cs : List Ref} (hd : h.data r = .arr cs) :
    (appendJson h r o).2 = .ok () ∧ Edited h (appendJson h r o).1 r ∧
    val (appendJson h r o).1 r = .arr (cs.map (val h) ++ [o.val h]) ∧
    ∃ cs', (appendJson h r o).1.data r = .arr cs' := by
  have h1 := insertIdx_spec hi hr hok (i := (cs.length : Int)) hd
  simp only [appendJson, lenJson, hd]
  obtain ⟨a1, a2, c, a3, a4, a5⟩ := h1
  refine ⟨a1, a2.edited, ?_, _, a4⟩
  rw [a2.val, sliceBound_length]
  congr 1
  rw [← List.length_map (f := val h), List.insertIdx_length_self]

theorem append_err {h : JHeap} {r : Ref} {o : JArg} (hd : ∀ cs, h.data r ≠ .arr cs) :
    (∃ e, (appendJson h r o).2 = .error e) ∧ (appendJson h r o).1 = h := by
  unfold appendJson
  cases lenJson h r with
  | error e => exact ⟨⟨_, rfl⟩, rfl⟩
  | ok n => exact insertIdx_err hd

theorem thenJ_ok {α β : Type} {p : JHeap × Except Exc α} {a : α} (h : p.2 = .ok a)
    (f : JHeap → α → JHeap × Except Exc β) : thenJ p f = f p.1 a := by
  obtain ⟨h1, e | b⟩ := p
  · cases h
  · cases h; rfl

theorem thenJ_err {α β : Type} {p : JHeap × Except Exc α} {e : Exc} (h : p.2 = .error e)
    (f : JHeap → α → JHeap × Except Exc β) : thenJ p f = (p.1, .error e) := by
  obtain ⟨h1, e | b⟩ := p
  · cases h; rfl
  · cases h

theorem appendAll_spec (r : Ref) (os : List JArg) {h : JHeap} (hi : WInv h) (hr : r < h.next)
    (hok : ∀ o ∈ os, o.Ok h ∧ o.Apart h r) {cs : List Ref} (hd : h.data r = .arr cs) :
    (appendAll r os h).2 = .ok () ∧ Edited h (appendAll r os h).1 r ∧
    val (appendAll r os h).1 r = .arr (cs.map (val h) ++ os.map (·.val h)) := by
  induction os generalizing h cs with
  | nil => exact ⟨rfl, .refl hi r, by simp [appendAll, val_arr hi.ord hd]⟩
  | cons o os ih =>
    obtain ⟨a1, a2, a3, cs', a4⟩ := append_spec hi hr (hok o (by simp)).1 hd
    have hnext : ∀ o' ∈ os, o'.Ok (appendJson h r o).1 ∧ o'.Apart (appendJson h r o).1 r ∧
        o'.val (appendJson h r o).1 = o'.val h := fun o' ho' =>
      a2.arg hi (hok o' (by simp [ho'])).1 (hok o' (by simp [ho'])).2
    obtain ⟨b1, b2, b3⟩ := ih a2.winv (Nat.lt_of_lt_of_le hr a2.le)
      (fun o' ho' => ⟨(hnext o' ho').1, (hnext o' ho').2.1⟩) a4
    simp only [appendAll, thenJ_ok a1]
    refine ⟨b1, a2.trans b2, b3.trans ?_⟩
    rw [val_arr a2.winv.ord a4] at a3
    injection a3 with a3
    rw [a3, List.map_cons, List.append_assoc]
    congr 2
    simp only [List.cons_append, List.nil_append, List.cons.injEq, true_and]
    exact List.map_congr_left fun o' ho' => (hnext o' ho').2.2

theorem appendAll_noop (r : Ref) (os : List JArg) {h : JHeap} (hd : ∀ cs, h.data r ≠ .arr cs) :
    (appendAll r os h).1 = h ∧ (os ≠ [] → ∃ e, (appendAll r os h).2 = .error e) := by
  cases os with
  | nil => exact ⟨rfl, fun h => absurd rfl h⟩
  | cons o os =>
    obtain ⟨⟨e, a1⟩, a2⟩ := append_err (o := o) hd
    simp only [appendAll, thenJ_err a1]
    exact ⟨a2, fun _ => ⟨e, rfl⟩⟩

/-! ## Reversal -/

theorem pyPos_of_lt {n i : Nat} (h : i < n) : pyPos n (i : Int) = some i := by
  unfold pyPos
  rw [if_pos (by omega)]
  simp [h]

theorem pyIndex_of_lt {α : Type} {xs : List α} {i : Nat} (h : i < xs.length) :
    pyIndex xs (i : Int) = some xs[i] := by
  unfold pyIndex
  rw [if_pos (by omega)]
  simp [h]

theorem swap_spec {h : JHeap} (hi : WInv h) {r : Ref} (hr : r < h.next) {cs : List Ref}
    (hd : h.data r = .arr cs) {i j : Nat} (hi' : i < cs.length) (hj : j < cs.length) :
    (swapJson h r i j).2 = .ok () ∧ Edited h (swapJson h r i j).1 r ∧
    val (swapJson h r i j).1 r =
      .arr (((cs.map (val h)).set i (val h cs[j])).set j (val h cs[i])) ∧
    ∃ cs', (swapJson h r i j).1.data r = .arr cs' := by
  have hki : cs[i] ∈ (h.data r).kids := by rw [hd]; exact List.getElem_mem _
  have hkj : cs[j] ∈ (h.data r).kids := by rw [hd]; exact List.getElem_mem _
  have hoki : (JArg.json cs[i]).Ok h := (hi.ord.kid r _ hki).2.1
  have hokj : (JArg.json cs[j]).Ok h := (hi.ord.kid r _ hkj).2.1
  simp only [swapJson, getIdx, hd, pyIndex_of_lt hi', pyIndex_of_lt hj]
  obtain ⟨a1, a2, c, a3, a4, a5⟩ := setIdx_spec hi hr hokj hd (pyPos_of_lt hi')
  rw [thenJ_ok a1]
  have hap : (JArg.json cs[i]).Apart h r := by rintro x ⟨⟩; exact kid_not_above hi hki
  obtain ⟨b1, b2, b3⟩ := a2.edited.arg hi hoki hap
  obtain ⟨c1, c2, c', c3, c4, c5⟩ := setIdx_spec a2.winv (Nat.lt_of_lt_of_le hr a2.le) b1 a4
    (i := (j : Int)) (n := j) (by rw [List.length_set]; exact pyPos_of_lt hj)
  refine ⟨c1, a2.edited.trans c2.edited, ?_, _, c4⟩
  rw [c2.val]
  congr 2
  · have := a2.val
    rw [val_arr a2.winv.ord a4] at this
    injection this

theorem reverseLoop_spec (r : Ref) (n : Nat) (xs : List Value) (hn : xs.length = n) (k i : Nat)
    (hk : k + i = n / 2) {h : JHeap} (hi : WInv h) (hr : r < h.next) {cs : List Ref}
    (hd : h.data r = .arr cs) (hlen : cs.length = n)
    (hv : ∀ j, j < n → (cs.map (val h))[j]? = if j < i ∨ n - i ≤ j then xs[n - 1 - j]? else xs[j]?) :
    (reverseLoop r n k i h).2 = .ok () ∧ Edited h (reverseLoop r n k i h).1 r ∧
    val (reverseLoop r n k i h).1 r = .arr xs.reverse := by
  induction k generalizing i h cs with
  | zero =>
    refine ⟨rfl, .refl hi r, ?_⟩
    simp only [reverseLoop]
    rw [val_arr hi.ord hd]
    congr 1
    refine List.ext_getElem? fun j => ?_
    by_cases hj : j < n
    · rw [hv j hj, List.getElem?_reverse (by omega), hn]
      split
      · rfl
      · congr 1; omega
    · rw [List.getElem?_eq_none (by simp; omega), List.getElem?_eq_none (by simp; omega)]
  | succ k ih =>
    have h1 : i < cs.length := by omega
    have h2 : n - i - 1 < cs.length := by omega
    have he : ((n : Int) - i - 1) = ((n - i - 1 : Nat) : Int) := by omega
    obtain ⟨a1, a2, a3, cs', a4⟩ := swap_spec hi hr hd h1 h2
    simp only [reverseLoop, he]
    rw [thenJ_ok a1]
    have hval := a3
    rw [val_arr a2.winv.ord a4] at hval
    injection hval with hval
    have hlen' : cs'.length = n := by
      have := congrArg List.length hval
      simpa [hlen] using this
    obtain ⟨b1, b2, b3⟩ := ih (i + 1) (by omega) a2.winv (Nat.lt_of_lt_of_le hr a2.le) a4 hlen' (by
      intro j hj
      rw [hval]
      have hvi := hv i (by omega)
      have hvj := hv (n - i - 1) (by omega)
      rw [if_neg (by omega)] at hvi hvj
      simp only [List.getElem?_map, List.getElem?_eq_getElem h1, List.getElem?_eq_getElem h2,
        Option.map_some] at hvi hvj
      by_cases hj1 : j = n - i - 1
      · subst hj1
        rw [List.getElem?_set_self (by simp; omega), hvi, if_pos (by omega)]
        congr 1; omega
      · rw [List.getElem?_set_ne (fun h => hj1 h.symm)]
        by_cases hj2 : j = i
        · subst hj2
          rw [List.getElem?_set_self (by simp; omega), hvj, if_pos (by omega)]
          congr 1; omega
        · rw [List.getElem?_set_ne (fun h => hj2 h.symm), hv j hj]
          have : (j < i ∨ n - i ≤ j) ↔ (j < i + 1 ∨ n - (i + 1) ≤ j) := by omega
          simp only [this])
    exact ⟨b1, a2.trans b2, b3⟩

/-! ## Clearing -/

theorem pyPos_last (n : Nat) : pyPos (n + 1) (-1) = some n := by
  unfold pyPos
  rw [if_neg (by omega), if_pos (by omega)]
  congr 1; omega

theorem pyIndex_last {α : Type} {xs : List α} (h : xs ≠ []) : ∃ x, pyIndex xs (-1) = some x := by
  have := List.length_pos_iff.2 h
  unfold pyIndex
  rw [if_neg (by omega), if_pos (by omega)]
  exact ⟨_, List.getElem?_eq_getElem (by omega)⟩

theorem clearLoop_spec (r : Ref) (k : Nat) {h : JHeap} (hi : WInv h) (hr : r < h.next) {cs : List Ref}
    (hd : h.data r = .arr cs) (hk : cs.length < k) :
    (clearLoop r k h).2 = .error .indexError ∧ Edited h (clearLoop r k h).1 r ∧
    val (clearLoop r k h).1 r = .arr [] := by
  induction k generalizing h cs with
  | zero => omega
  | succ k ih =>
    cases hcs : cs with
    | nil =>
      subst hcs
      have h1 : popIdx h r (-1) = (h, .error .indexError) := by
        simp [popIdx, getIdx, hd, pyIndex]
      simp only [clearLoop, h1, thenJ]
      exact ⟨trivial, .refl hi r, by rw [val_arr hi.ord hd]; rfl⟩
    | cons c0 cs0 =>
      have hne : cs ≠ [] := by rw [hcs]; simp
      obtain ⟨c, hc⟩ := pyIndex_last hne
      have hp : pyPos cs.length (-1) = some cs0.length := by rw [hcs]; exact pyPos_last _
      obtain ⟨a1, a2⟩ := delIdx_spec hi hr hd hp
      have h1 : (popIdx h r (-1)).2 = .ok c ∧ (popIdx h r (-1)).1 = (delIdx h r (-1)).1 := by
        simp only [popIdx, getIdx, hd, hc]
        generalize delIdx h r (-1) = q at a1
        obtain ⟨q1, q2⟩ := q
        cases a1
        exact ⟨rfl, rfl⟩
      simp only [clearLoop, thenJ_ok h1.1, h1.2]
      have hv := a2.val
      cases hd' : (delIdx h r (-1)).1.data r with
      | arr cs' =>
        rw [val_arr a2.winv.ord hd'] at hv
        injection hv with hv
        have hlen := congrArg List.length hv
        rw [List.length_map, List.length_eraseIdx, List.length_map, hcs] at hlen
        simp at hlen
        have hlen2 : cs.length = cs0.length + 1 := by rw [hcs]; simp
        obtain ⟨b1, b2, b3⟩ := ih a2.winv (Nat.lt_of_lt_of_le hr a2.le) hd' (by omega)
        exact ⟨b1, a2.edited.trans b2, b3⟩
      | _ => rw [val_eq a2.winv.ord, hd'] at hv; cases hv

/-! ## Members -/

theorem setAll_spec (r : Ref) (kos : List (String × JArg)) {h : JHeap} (hi : WInv h) (hr : r < h.next)
    (hok : ∀ ko ∈ kos, ko.2.Ok h ∧ ko.2.Apart h r) {ms : List (String × Ref)} (hd : h.data r = .obj ms) :
    (setAll r kos h).2 = .ok () ∧ Edited h (setAll r kos h).1 r ∧
    val (setAll r kos h).1 r = .obj (kos.foldl (fun d ko => dset ko.1 (ko.2.val h) d)
      (ms.map (fun m => (m.1, val h m.2)))) := by
  induction kos generalizing h ms with
  | nil => exact ⟨rfl, .refl hi r, by simp [setAll, val_obj hi.ord hd]⟩
  | cons ko kos ih =>
    obtain ⟨k, o⟩ := ko
    obtain ⟨a1, a2, c, a3, a4, a5⟩ := setKey_spec hi hr (hok (k, o) (by simp)).1 (k := k) hd
    have hnext : ∀ ko ∈ kos, ko.2.Ok (setKey h r k o).1 ∧ ko.2.Apart (setKey h r k o).1 r ∧
        ko.2.val (setKey h r k o).1 = ko.2.val h := fun ko hko =>
      a2.edited.arg hi (hok ko (by simp [hko])).1 (hok ko (by simp [hko])).2
    obtain ⟨b1, b2, b3⟩ := ih a2.winv (Nat.lt_of_lt_of_le hr a2.le)
      (fun ko hko => ⟨(hnext ko hko).1, (hnext ko hko).2.1⟩) a4
    simp only [setAll, thenJ_ok a1]
    refine ⟨b1, a2.edited.trans b2, b3.trans ?_⟩
    have hv := a2.val
    rw [val_obj a2.winv.ord a4] at hv
    injection hv with hv
    rw [hv, List.foldl_cons]
    congr 1
    have hgen : ∀ (l : List (String × JArg)) d, (∀ ko ∈ l, ko ∈ kos) →
        l.foldl (fun d ko => dset ko.1 (ko.2.val (setKey h r k o).1) d) d =
        l.foldl (fun d ko => dset ko.1 (ko.2.val h) d) d := by
      intro l
      induction l with
      | nil => intros; rfl
      | cons x l ih2 =>
        intro d hm
        rw [List.foldl_cons, List.foldl_cons, (hnext x (hm x (by simp))).2.2]
        exact ih2 _ fun ko hko => hm ko (by simp [hko])
    exact hgen kos _ fun _ h => h

theorem getKey_ok {h : JHeap} {s : Ref} {k : String} {c : Ref} :
    getKey h s k = .ok c ↔ ∃ ms, h.data s = .obj ms ∧ dlookup k ms = some c := by
  unfold getKey
  cases hd : h.data s with
  | obj ms =>
    simp only [JData.obj.injEq, exists_eq_left']
    cases dlookup k ms <;> simp
  | _ => simp

/-- `self[key] = other[key]` for the names of `other` is the assignment of its members, also when
`other` is `self`. -/
theorem setFrom_eq (r s : Ref) (rest : List (String × Ref)) (hn : (dkeys rest).Nodup) {h : JHeap}
    (hi : WInv h) (hr : r < h.next) (hs : s < h.next) {ms : List (String × Ref)} (hd : h.data r = .obj ms)
    (hg : ∀ m ∈ rest, getKey h s m.1 = .ok m.2) :
    setFrom r s (dkeys rest) h = setAll r (rest.map (fun m => (m.1, .json m.2))) h := by
  induction rest generalizing h ms with
  | nil => rfl
  | cons m rest ih =>
    obtain ⟨k, c⟩ := m
    simp only [dkeys_cons, List.nodup_cons] at hn
    have hk := hg (k, c) (by simp)
    simp only [dkeys_cons, setFrom, List.map_cons, setAll, hk]
    have hok : (JArg.json c).Ok h := by
      obtain ⟨ms', h1, h2⟩ := getKey_ok.1 hk
      exact (hi.ord.kid s c (by rw [h1]; exact List.mem_map_of_mem (f := Prod.snd) (dlookup_mem h2))).2.1
    obtain ⟨a1, a2, c', a3, a4, a5⟩ := setKey_spec hi hr hok (k := k) hd
    rw [thenJ_ok a1, thenJ_ok a1]
    refine ih hn.2 a2.winv (Nat.lt_of_lt_of_le hr a2.le) (Nat.lt_of_lt_of_le hs a2.le) a4 ?_
    intro m hm
    have hm' := hg m (by simp [hm])
    have hne : m.1 ≠ k := by
      intro he
      exact hn.1 (by rw [← he]; exact mem_dkeys.2 ⟨m.2, hm⟩)
    obtain ⟨ms', h1, h2⟩ := getKey_ok.1 hm'
    rw [getKey_ok]
    by_cases hsr : s = r
    · subst hsr
      rw [hd] at h1; cases h1
      exact ⟨_, a4, by rw [dlookup_dset, if_neg hne]; exact h2⟩
    · exact ⟨ms', by rw [a2.data_other hs hsr]; exact h1, h2⟩

/-! ## Histories -/

/-- A property of heaps that calls with in-range indices keep. -/
structure ClosedUnder (P : JHeap → Prop) : Prop where
  winv : ∀ {h}, P h → WInv h
  call : ∀ {h} (op : JOp), P h → op.ArgsOk h → op.InRange h → P (op.step h)

theorem closed_history : ClosedUnder History := ⟨History.winv, fun op hh ha _ => .call op hh ha⟩

theorem closed_inRange : ClosedUnder InRangeHistory := ⟨fun h => h.inv.weak, fun op hh ha hr => .call op hh ha hr⟩

theorem ClosedUnder.thenJ {P : JHeap → Prop} {α β : Type} {p : JHeap × Except Exc α}
    {f : JHeap → α → JHeap × Except Exc β} (h1 : P p.1) (h2 : ∀ a, P (f p.1 a).1) : P (Jschon.thenJ p f).1 := by
  obtain ⟨h, e | a⟩ := p
  · exact h1
  · exact h2 a

theorem ClosedUnder.appendAll {P : JHeap → Prop} (c : ClosedUnder P) (r : Ref) (os : List JArg) {h : JHeap} (hp : P h)
    (hr : r < h.next) (hok : ∀ o ∈ os, o.Ok h) : P (appendAll r os h).1 := by
  induction os generalizing h with
  | nil => exact hp
  | cons o os ih =>
    have ha : (JOp.append r o).ArgsOk h := ⟨hr, hok o (by simp)⟩
    have hle := step_next (c.winv hp) (.append r o) ha
    have h1 := c.call (.append r o) hp ha trivial
    refine ClosedUnder.thenJ h1 fun _ => ih h1 (Nat.lt_of_lt_of_le hr hle) fun o' ho' => ?_
    exact (hok o' (by simp [ho'])).later hle

theorem ClosedUnder.swap {P : JHeap → Prop} (c : ClosedUnder P) {r : Ref} {h : JHeap} (hp : P h) (hr : r < h.next)
    {i j : Int} (hi : 0 ≤ i) (hj : 0 ≤ j) : P (swapJson h r i j).1 ∧ h.next ≤ (swapJson h r i j).1.next := by
  have hw := c.winv hp
  have kid : ∀ z a, getIdx h r z = .ok a → a < h.next := by
    intro z a hg
    unfold getIdx at hg
    cases hd : h.data r with
    | arr cs =>
      simp only [hd] at hg
      cases hx : pyIndex cs z with
      | none => simp [hx] at hg
      | some b =>
        simp [hx] at hg
        subst hg
        refine (hw.ord.kid r b ?_).2.1
        rw [hd]
        unfold pyIndex at hx
        split at hx
        · exact List.mem_of_getElem? hx
        · split at hx
          · exact List.mem_of_getElem? hx
          · cases hx
    | _ => simp [hd] at hg
  unfold swapJson
  cases h1 : getIdx h r j with
  | error e => exact ⟨hp, Nat.le_refl _⟩
  | ok a =>
    cases h2 : getIdx h r i with
    | error e => exact ⟨hp, Nat.le_refl _⟩
    | ok b =>
      simp only
      have ha : (JOp.setIdx r i (.json a)).ArgsOk h := ⟨hr, kid j a h1⟩
      have hle := step_next hw _ ha
      have hp1 := c.call _ hp ha hi
      have hb : (JOp.setIdx r j (.json b)).ArgsOk ((JOp.setIdx r i (.json a)).step h) :=
        ⟨Nat.lt_of_lt_of_le hr hle, Nat.lt_of_lt_of_le (kid i b h2) hle⟩
      have hle2 := step_next (c.winv hp1) _ hb
      refine ClosedUnder.thenJ (P := fun x => P x ∧ h.next ≤ x.next) ⟨hp1, hle⟩ fun _ =>
        ⟨c.call _ hp1 hb hj, Nat.le_trans hle hle2⟩

theorem ClosedUnder.reverseLoop {P : JHeap → Prop} (c : ClosedUnder P) (r : Ref) (n k i : Nat) (hk : k + i ≤ n)
    {h : JHeap} (hp : P h) (hr : r < h.next) : P (reverseLoop r n k i h).1 := by
  induction k generalizing i h with
  | zero => exact hp
  | succ k ih =>
    have h1 := c.swap (i := (i : Int)) (j := (n : Int) - i - 1) hp hr (by omega) (by omega)
    exact ClosedUnder.thenJ h1.1 fun _ => ih (i + 1) (by omega) h1.1 (Nat.lt_of_lt_of_le hr h1.2)

theorem clearLoop_history (r : Ref) (k : Nat) {h : JHeap} (hp : History h) (hr : r < h.next) :
    History (clearLoop r k h).1 := by
  induction k generalizing h with
  | zero => exact hp
  | succ k ih =>
    have ha : (JOp.pop r (-1)).ArgsOk h := hr
    have h1 : History (popIdx h r (-1)).1 := .call (.pop r (-1)) hp ha
    exact ClosedUnder.thenJ h1 fun _ => ih h1 (Nat.lt_of_lt_of_le hr (step_next hp.winv (.pop r (-1)) ha))

theorem ClosedUnder.setAll {P : JHeap → Prop} (c : ClosedUnder P) (r : Ref) (kos : List (String × JArg)) {h : JHeap}
    (hp : P h) (hr : r < h.next) (hok : ∀ ko ∈ kos, ko.2.Ok h) : P (setAll r kos h).1 := by
  induction kos generalizing h with
  | nil => exact hp
  | cons ko kos ih =>
    have ha : (JOp.setKey r ko.1 ko.2).ArgsOk h := ⟨hr, hok ko (by simp)⟩
    have hle := step_next (c.winv hp) _ ha
    have h1 := c.call _ hp ha trivial
    refine ClosedUnder.thenJ h1 fun _ => ih h1 (Nat.lt_of_lt_of_le hr hle) fun o' ho' => ?_
    exact (hok o' (by simp [ho'])).later hle

end Jschon
