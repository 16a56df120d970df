import Verif.Proof.JsonHeap

namespace Jschon
open Spec

/-- `h'` extends `h` with new instances. -/
structure Ext (h h' : JHeap) : Prop where
  le : h.next ≤ h'.next
  old : ∀ x, x < h.next → h'.node x = h.node x

theorem Ext.refl (h : JHeap) : Ext h h := ⟨Nat.le_refl _, fun _ _ => rfl⟩

theorem Ext.trans {h h' h'' : JHeap} (a : Ext h h') (b : Ext h' h'') : Ext h h'' :=
  ⟨Nat.le_trans a.le b.le, fun x hx => (b.old x (Nat.lt_of_lt_of_le hx a.le)).trans (a.old x hx)⟩

theorem Ext.data {h h' : JHeap} (e : Ext h h') {x : Ref} (hx : x < h.next) : h'.data x = h.data x := by
  simp [JHeap.data, e.old x hx]
theorem Ext.parent {h h' : JHeap} (e : Ext h h') {x : Ref} (hx : x < h.next) :
    h'.parent x = h.parent x := by
  simp [JHeap.parent, e.old x hx]
theorem Ext.key {h h' : JHeap} (e : Ext h h') {x : Ref} (hx : x < h.next) : h'.key x = h.key x := by
  simp [JHeap.key, e.old x hx]
theorem Ext.pathC {h h' : JHeap} (e : Ext h h') {x : Ref} (hx : x < h.next) :
    h'.pathC x = h.pathC x := by
  simp [JHeap.pathC, e.old x hx]
theorem Ext.valC {h h' : JHeap} (e : Ext h h') {x : Ref} (hx : x < h.next) : h'.valC x = h.valC x := by
  simp [JHeap.valC, e.old x hx]

theorem Ext.val {h h' : JHeap} (e : Ext h h') (ho : Ord h) (ho' : Ord h') {x : Ref} (hx : x < h.next) :
    val h' x = val h x :=
  val_congr ho ho' (· < h.next) (fun _ hr => e.data hr) (fun r _ c hc => (ho.kid r c hc).2.1) x hx

/-- The instances of `h'` that are not in `h` have no caches and correct keys. -/
structure Fresh (h h' : JHeap) : Prop where
  pathC : ∀ x, h.next ≤ x → h'.pathC x = none
  valC : ∀ x, h.next ≤ x → h'.valC x = none
  key : ∀ x, h.next ≤ x → ∀ k c, Child h' x k c → h'.key c = some k
  nodup : ∀ x, h.next ≤ x → ∀ ms, h'.data x = .obj ms → (dkeys ms).Nodup

theorem Fresh.trans {h h' h'' : JHeap} (e' : Ext h' h'') (ho' : Ord h')
    (a : Fresh h h') (b : Fresh h' h'') : Fresh h h'' where
  pathC x hx := by
    by_cases h1 : x < h'.next
    · rw [e'.pathC h1]; exact a.pathC x hx
    · exact b.pathC x (by omega)
  valC x hx := by
    by_cases h1 : x < h'.next
    · rw [e'.valC h1]; exact a.valC x hx
    · exact b.valC x (by omega)
  key x hx k c hc := by
    by_cases h1 : x < h'.next
    · have h2 : Child h' x k c := by simpa [Child, e'.data h1] using hc
      rw [e'.key (ho'.kid x c (childD_kid h2)).2.1]
      exact a.key x hx k c h2
    · exact b.key x (by omega) k c hc
  nodup x hx ms hm := by
    by_cases h1 : x < h'.next
    · rw [e'.data h1] at hm; exact a.nodup x hx ms hm
    · exact b.nodup x (by omega) ms hm

/-- Data `d` for instance `r`, made of instances created since `h`. -/
structure DataOk (h h' : JHeap) (r : Ref) (d : JData) : Prop where
  kid : ∀ c ∈ d.kids, h.next ≤ c ∧ c < h'.next ∧ h'.parent c = some r
  nodup : d.kids.Nodup
  key : ∀ k c, ChildD d k c → h'.key c = some k
  keys : ∀ ms, d = .obj ms → (dkeys ms).Nodup

/-- What `buildData` does. -/
structure Built (h : JHeap) (r : Ref) (v : Value) (h' : JHeap) (d : JData) : Prop where
  ext : Ext h h'
  ord : Ord h'
  fresh : Fresh h h'
  data : DataOk h h' r d
  val : dataVal (val h') d = v

section push
variable (h : JHeap) (n : JNode) (x : Ref)
theorem push_ext : Ext h (h.push n) :=
  ⟨Nat.le_succ _, fun x hx => by simp only [JHeap.push]; rw [if_neg (by omega)]⟩
theorem push_has : (h.push n).has x ↔ x = h.next ∨ h.has x := by
  simp only [JHeap.has, JHeap.push]; split <;> simp_all
theorem push_data : (h.push n).data x = if x = h.next then n.data else h.data x := by
  simp only [JHeap.data, JHeap.push]; split <;> simp_all
theorem push_parent : (h.push n).parent x = if x = h.next then n.parent else h.parent x := by
  simp only [JHeap.parent, JHeap.push]; split <;> simp_all
theorem push_key : (h.push n).key x = if x = h.next then n.key else h.key x := by
  simp only [JHeap.key, JHeap.push]; split <;> simp_all
theorem push_pathC : (h.push n).pathC x = if x = h.next then n.pathC else h.pathC x := by
  simp only [JHeap.pathC, JHeap.push]; split <;> simp_all
theorem push_valC : (h.push n).valC x = if x = h.next then n.valueC else h.valC x := by
  simp only [JHeap.valC, JHeap.push]; split <;> simp_all
end push

theorem not_has_of_le {h : JHeap} (ho : Ord h) {x : Ref} (hx : h.next ≤ x) : h.node x = none := by
  have : ¬ h.has x := by rw [ho.dom]; omega
  simpa [JHeap.has] using this

theorem push_ord {h : JHeap} (ho : Ord h) (par : Option Ref) (key : Option String)
    (hp : ∀ p, par = some p → p < h.next) :
    Ord (h.push { data := .null, parent := par, key := key }) where
  dom r := by
    rw [push_has, ho.dom]; simp only [JHeap.push]; omega
  kid r c hc := by
    rw [push_data] at hc
    split at hc
    · simp [JData.kids] at hc
    · obtain ⟨h1, h2, h3⟩ := ho.kid r c hc
      refine ⟨h1, by simp only [JHeap.push]; omega, ?_⟩
      rw [push_parent, if_neg (by omega)]; exact h3
  nodup r := by
    rw [push_data]; split
    · simp [JData.kids]
    · exact ho.nodup r
  par r p h1 := by
    rw [push_parent] at h1
    split at h1
    · rename_i hr; rw [hr]; exact hp p h1
    · exact ho.par r p h1

theorem push_fresh {h : JHeap} (ho : Ord h) (par : Option Ref) (key : Option String) :
    Fresh h (h.push { data := .null, parent := par, key := key }) where
  pathC x hx := by
    rw [push_pathC]; split
    · rfl
    · simp [JHeap.pathC, not_has_of_le ho hx]
  valC x hx := by
    rw [push_valC]; split
    · rfl
    · simp [JHeap.valC, not_has_of_le ho hx]
  key x hx k c hc := by
    have : (h.push { data := .null, parent := par, key := key }).data x = .null := by
      rw [push_data]; split
      · rfl
      · exact data_of_not_has (by rw [ho.dom]; omega)
    simp [Child, ChildD, this] at hc
  nodup x hx ms hm := by
    have : (h.push { data := .null, parent := par, key := key }).data x = .null := by
      rw [push_data]; split
      · rfl
      · exact data_of_not_has (by rw [ho.dom]; omega)
    rw [this] at hm; cases hm

theorem val_setData {h h' : JHeap} (ho : Ord h) (ho' : Ord h') {m : Ref}
    (hd : ∀ x, x ≠ m → h'.data x = h.data x) {x : Ref} (hx : ¬ Desc h x m) : val h' x = val h x :=
  val_congr ho ho' (fun y => ¬ Desc h y m) (fun y hy => hd y (by rintro rfl; exact hy .refl))
    (fun _ hy c hc hd => hy (.step hc hd)) x hx

theorem val_setDataL {h h' : JHeap} (ho : Ord h) (ho' : Ord h') {m : Ref}
    (hd : ∀ x, x < h.next → x ≠ m → h'.data x = h.data x) {x : Ref} (hl : x < h.next) (hx : ¬ Desc h x m) :
    val h' x = val h x :=
  val_congr ho ho' (fun y => y < h.next ∧ ¬ Desc h y m)
    (fun y hy => hd y hy.1 (by rintro rfl; exact hy.2 .refl))
    (fun r hy c hc => ⟨(ho.kid r c hc).2.1, fun hd => hy.2 (.step hc hd)⟩) x ⟨hl, hx⟩

/-- Creation of one instance with its content. -/
theorem new_built {h : JHeap} (ho : Ord h) (par : Option Ref) (key : Option String) (v : Value)
    (hp : ∀ p, par = some p → p < h.next) {h2 : JHeap} {d : JData}
    (hb : Built (h.push { data := .null, parent := par, key := key }) h.next v h2 d) :
    Ext h (h2.setData h.next d) ∧ Ord (h2.setData h.next d) ∧ Fresh h (h2.setData h.next d) ∧
    h.next < (h2.setData h.next d).next ∧
    (h2.setData h.next d).parent h.next = par ∧ (h2.setData h.next d).key h.next = key ∧
    val (h2.setData h.next d) h.next = v := by
  have ho1 := push_ord ho par key hp
  have e1 := push_ext h { data := .null, parent := par, key := key }
  have hlt : h.next < h2.next := Nat.lt_of_lt_of_le (Nat.lt_succ_self _) hb.ext.le
  have hhas : h2.has h.next := (hb.ord.dom _).2 hlt
  have hd := fun x => setData_data h2 h.next x d hhas
  have hpar : h2.parent h.next = par := by
    rw [hb.ext.parent (Nat.lt_succ_self _), push_parent, if_pos rfl]
  have hkey : h2.key h.next = key := by
    rw [hb.ext.key (Nat.lt_succ_self _), push_key, if_pos rfl]
  have hcl : ∀ c ∈ d.kids, h.next < c ∧ c < h2.next ∧ h2.parent c = some h.next := by
    intro c hc
    obtain ⟨k1, k2, k3⟩ := hb.data.kid c hc
    exact ⟨k1, k2, k3⟩
  have ho3 : Ord (h2.setData h.next d) := by
    refine ⟨fun r => ?_, fun r c hc => ?_, fun r => ?_, fun r p h1 => ?_⟩
    · rw [setData_has]; exact hb.ord.dom r
    · rw [hd] at hc
      rw [setData_parent]
      split at hc
      · rename_i hr; subst hr; exact hcl c hc
      · exact hb.ord.kid r c hc
    · rw [hd]; split
      · exact hb.data.nodup
      · exact hb.ord.nodup r
    · rw [setData_parent] at h1; exact hb.ord.par r p h1
  refine ⟨⟨Nat.le_of_lt hlt, fun x hx => ?_⟩, ho3, ?_, hlt, ?_, ?_, ?_⟩
  · have : (h2.setData h.next d).node x = h2.node x := by
      simp only [JHeap.setData, JHeap.alter]; rw [if_neg (by omega)]
    rw [this]
    exact (e1.trans hb.ext).old x hx
  · have hf := Fresh.trans hb.ext ho1 (push_fresh ho par key) hb.fresh
    refine ⟨fun x hx => ?_, fun x hx => ?_, fun x hx k c hc => ?_, fun x hx ms hm => ?_⟩
    · rw [setData_pathC]; exact hf.pathC x hx
    · rw [setData_valC]; exact hf.valC x hx
    · rw [setData_key]
      simp only [Child, hd] at hc
      split at hc
      · exact hb.data.key k c hc
      · exact hf.key x hx k c hc
    · rw [hd] at hm
      split at hm
      · exact hb.data.keys ms hm
      · exact hf.nodup x hx ms hm
  · rw [setData_parent, hpar]
  · rw [setData_key, hkey]
  · rw [val_eq ho3, hd, if_pos rfl]
    rw [← hb.val]
    refine dataVal_congr fun c hc => ?_
    refine val_setData hb.ord ho3 (m := h.next) (fun x hx => by rw [hd, if_neg hx]) ?_
    intro hde
    have := desc_le hb.ord hde
    have := (hcl c hc).1
    omega

/-- What constructing the children of an array does. -/
theorem buildItems_spec (xs : List Value)
    (ih : ∀ x ∈ xs, x.WF → ∀ (h : JHeap) (r : Ref), Ord h → r < h.next →
      Built h r x (buildData h r x).1 (buildData h r x).2)
    (hwf : ∀ x ∈ xs, x.WF) (h : JHeap) (r : Ref) (i : Nat) (ho : Ord h) (hr : r < h.next) :
    Ext h (buildItems h r i xs).1 ∧ Ord (buildItems h r i xs).1 ∧ Fresh h (buildItems h r i xs).1 ∧
    (∀ c ∈ (buildItems h r i xs).2, h.next ≤ c ∧ c < (buildItems h r i xs).1.next ∧
      (buildItems h r i xs).1.parent c = some r) ∧
    (buildItems h r i xs).2.Nodup ∧
    (∀ (j : Nat) c, (buildItems h r i xs).2[j]? = some c →
      (buildItems h r i xs).1.key c = some (natStr (i + j))) ∧
    (buildItems h r i xs).2.map (val (buildItems h r i xs).1) = xs := by
  induction xs generalizing h i with
  | nil =>
    refine ⟨.refl h, ho, ?_, by simp [buildItems], by simp [buildItems], by simp [buildItems], rfl⟩
    refine ⟨fun x hx => ?_, fun x hx => ?_, fun x hx k c hc => ?_, fun x hx ms hm => ?_⟩
    · simp [buildItems, JHeap.pathC, not_has_of_le ho hx]
    · simp [buildItems, JHeap.valC, not_has_of_le ho hx]
    · simp [buildItems, Child, ChildD, JHeap.data, not_has_of_le ho hx] at hc
    · simp [buildItems, JHeap.data, not_has_of_le ho hx] at hm
  | cons x xs ihl =>
    have ho1 := push_ord ho (some r) (some (natStr i)) (by intro p hp; cases hp; exact hr)
    have hb := ih x (by simp) (hwf x (by simp)) _ h.next ho1 (Nat.lt_succ_self _)
    obtain ⟨a1, a2, a3, a4, a5, a6, a7⟩ := new_built ho (some r) (some (natStr i)) x
      (by intro p hp; cases hp; exact hr) hb
    simp only [buildItems]
    generalize (buildData (h.push { data := .null, parent := some r, key := some (natStr i) })
      h.next x) = pq at *
    generalize pq.1.setData h.next pq.2 = h1 at *
    obtain ⟨b1, b2, b3, b4, b5, b6, b7⟩ := ihl (fun x hx => ih x (by simp [hx]))
      (fun x hx => hwf x (by simp [hx])) h1 (i + 1) a2 (by omega)
    generalize buildItems h1 r (i + 1) xs = q at *
    refine ⟨a1.trans b1, b2, a3.trans b1 a2 b3, ?_, ?_, ?_, ?_⟩
    · intro c hc
      simp only [List.mem_cons] at hc
      rcases hc with rfl | hc
      · exact ⟨Nat.le_refl _, Nat.lt_of_lt_of_le a4 b1.le, by rw [b1.parent a4]; exact a5⟩
      · obtain ⟨c1, c2, c3⟩ := b4 c hc
        exact ⟨by have := a1.le; omega, c2, c3⟩
    · simp only [List.nodup_cons]
      exact ⟨fun hc => by have := (b4 _ hc).1; omega, b5⟩
    · intro j c hj
      cases j with
      | zero => simp at hj; subst hj; rw [b1.key a4, a6]; rfl
      | succ j =>
        simp at hj
        rw [b6 j c hj]
        congr 2; omega
    · simp only [List.map_cons, b7, List.cons.injEq, and_true]
      rw [b1.val a2 b2 a4, a7]

/-- What constructing the members of an object does. -/
theorem buildMembers_spec (xs : List (String × Value))
    (ih : ∀ x ∈ xs, x.2.WF → ∀ (h : JHeap) (r : Ref), Ord h → r < h.next →
      Built h r x.2 (buildData h r x.2).1 (buildData h r x.2).2)
    (hwf : ∀ x ∈ xs, x.2.WF) (h : JHeap) (r : Ref) (ho : Ord h) (hr : r < h.next) :
    Ext h (buildMembers h r xs).1 ∧ Ord (buildMembers h r xs).1 ∧ Fresh h (buildMembers h r xs).1 ∧
    (∀ c ∈ (buildMembers h r xs).2.map Prod.snd, h.next ≤ c ∧ c < (buildMembers h r xs).1.next ∧
      (buildMembers h r xs).1.parent c = some r) ∧
    ((buildMembers h r xs).2.map Prod.snd).Nodup ∧
    (∀ k c, (k, c) ∈ (buildMembers h r xs).2 → (buildMembers h r xs).1.key c = some k) ∧
    (buildMembers h r xs).2.map (fun m => (m.1, val (buildMembers h r xs).1 m.2)) = xs := by
  induction xs generalizing h with
  | nil =>
    refine ⟨.refl h, ho, ?_, by simp [buildMembers], by simp [buildMembers], by simp [buildMembers], rfl⟩
    refine ⟨fun x hx => ?_, fun x hx => ?_, fun x hx k c hc => ?_, fun x hx ms hm => ?_⟩
    · simp [buildMembers, JHeap.pathC, not_has_of_le ho hx]
    · simp [buildMembers, JHeap.valC, not_has_of_le ho hx]
    · simp [buildMembers, Child, ChildD, JHeap.data, not_has_of_le ho hx] at hc
    · simp [buildMembers, JHeap.data, not_has_of_le ho hx] at hm
  | cons x xs ihl =>
    obtain ⟨k, x⟩ := x
    have ho1 := push_ord ho (some r) (some k) (by intro p hp; cases hp; exact hr)
    have hb := ih (k, x) (by simp) (hwf (k, x) (by simp)) _ h.next ho1 (Nat.lt_succ_self _)
    obtain ⟨a1, a2, a3, a4, a5, a6, a7⟩ := new_built ho (some r) (some k) x
      (by intro p hp; cases hp; exact hr) hb
    simp only [buildMembers]
    generalize (buildData (h.push { data := .null, parent := some r, key := some k })
      h.next x) = pq at *
    generalize pq.1.setData h.next pq.2 = h1 at *
    obtain ⟨b1, b2, b3, b4, b5, b6, b7⟩ := ihl (fun x hx => ih x (by simp [hx]))
      (fun x hx => hwf x (by simp [hx])) h1 a2 (by omega)
    generalize buildMembers h1 r xs = q at *
    refine ⟨a1.trans b1, b2, a3.trans b1 a2 b3, ?_, ?_, ?_, ?_⟩
    · intro c hc
      simp only [List.map_cons, List.mem_cons] at hc
      rcases hc with rfl | hc
      · exact ⟨Nat.le_refl _, Nat.lt_of_lt_of_le a4 b1.le, by rw [b1.parent a4]; exact a5⟩
      · obtain ⟨c1, c2, c3⟩ := b4 c hc
        exact ⟨by have := a1.le; omega, c2, c3⟩
    · simp only [List.map_cons, List.nodup_cons]
      exact ⟨fun hc => by have := (b4 _ hc).1; omega, b5⟩
    · intro k' c hj
      simp only [List.mem_cons, Prod.mk.injEq] at hj
      rcases hj with ⟨rfl, rfl⟩ | hj
      · rw [b1.key a4, a6]
      · exact b6 k' c hj
    · simp only [List.map_cons, b7, List.cons.injEq, and_true, Prod.mk.injEq, true_and]
      rw [b1.val a2 b2 a4, a7]

theorem fresh_refl {h : JHeap} (ho : Ord h) : Fresh h h := by
  refine ⟨fun x hx => ?_, fun x hx => ?_, fun x hx k c hc => ?_, fun x hx ms hm => ?_⟩
  · simp [JHeap.pathC, not_has_of_le ho hx]
  · simp [JHeap.valC, not_has_of_le ho hx]
  · simp [Child, ChildD, JHeap.data, not_has_of_le ho hx] at hc
  · simp [JHeap.data, not_has_of_le ho hx] at hm

theorem buildData_spec (v : Value) : v.WF → ∀ (h : JHeap) (r : Ref), Ord h → r < h.next →
    Built h r v (buildData h r v).1 (buildData h r v).2 := by
  induction v using Value.induct with
  | null | bool | num | str =>
    intro _ h r ho hr
    exact ⟨.refl h, ho, fresh_refl ho, ⟨by simp [buildData, JData.kids], by simp [buildData, JData.kids],
      by simp [buildData, ChildD], by simp [buildData]⟩, rfl⟩
  | arr xs ih =>
    intro hwf h r ho hr
    cases hwf with
    | arr hwf =>
      obtain ⟨a1, a2, a3, a4, a5, a6, a7⟩ := buildItems_spec xs ih hwf h r 0 ho hr
      refine ⟨a1, a2, a3, ⟨a4, a5, ?_, by simp [buildData]⟩, ?_⟩
      · rintro k c ⟨i, rfl, hi⟩
        have := a6 i c hi
        rw [Nat.zero_add] at this; exact this
      · simp [buildData, dataVal, a7]
  | obj xs ih =>
    intro hwf h r ho hr
    cases hwf with
    | obj hn hwf =>
      obtain ⟨a1, a2, a3, a4, a5, a6, a7⟩ := buildMembers_spec xs ih hwf h r ho hr
      refine ⟨a1, a2, a3, ⟨a4, a5, ?_, ?_⟩, ?_⟩
      · exact a6
      · simp only [buildData, JData.obj.injEq]
        rintro ms rfl
        have : dkeys (buildMembers h r xs).2 = dkeys xs := by
          conv => rhs; rw [← a7]
          simp [dkeys]
        rw [this]; exact hn
      · simp [buildData, dataVal, a7]

/-- What construction does. -/
theorem newJson_spec {h : JHeap} (ho : Ord h) (v : Value) (hv : v.WF) (par : Option Ref)
    (key : Option String) (hp : ∀ p, par = some p → p < h.next) :
    (newJson h v par key).2 = h.next ∧ Ext h (newJson h v par key).1 ∧ Ord (newJson h v par key).1 ∧
    Fresh h (newJson h v par key).1 ∧ h.next < (newJson h v par key).1.next ∧
    (newJson h v par key).1.parent h.next = par ∧ (newJson h v par key).1.key h.next = key ∧
    val (newJson h v par key).1 h.next = v :=
  ⟨rfl, new_built ho par key v hp
    (buildData_spec v hv _ h.next (push_ord ho par key hp) (Nat.lt_succ_self _))⟩

theorem ext_reach {h h' : JHeap} (e : Ext h h') (ho : Ord h) {a r : Ref} {ks : List String}
    (hr : Reach h' a ks r) (ha : a < h.next) : Reach h a ks r := by
  induction hr with
  | here => exact .here
  | @step x k c ks d hc _ ih =>
    have h1 : Child h x k c := by simpa [Child, e.data ha] using hc
    exact .step h1 (ih (ho.kid _ _ (childD_kid h1)).2.1)

theorem reach_ext {h h' : JHeap} (e : Ext h h') (ho : Ord h) {a r : Ref} {ks : List String}
    (hr : Reach h a ks r) (ha : a < h.next) : Reach h' a ks r := by
  induction hr with
  | here => exact .here
  | step hc _ ih =>
    exact .step (by simpa [Child, e.data ha] using hc) (ih (ho.kid _ _ (childD_kid hc)).2.1)

theorem desc_ext {h h' : JHeap} (e : Ext h h') (ho : Ord h) {a r : Ref} (ha : a < h.next) :
    Desc h' a r ↔ Desc h a r := by
  constructor
  · intro hd
    obtain ⟨ks, hr⟩ := desc_reach hd
    exact reach_desc (ext_reach e ho hr ha)
  · intro hd
    obtain ⟨ks, hr⟩ := desc_reach hd
    exact reach_desc (reach_ext e ho hr ha)

/-- Adding complete new instances keeps the invariant. -/
theorem ext_inv {h h' : JHeap} (hi : JInv h) (e : Ext h h') (ho : Ord h') (hf : Fresh h h') : JInv h' where
  ord := ho
  keys := by
    refine ⟨fun r k c hc => ?_, fun r ms hm => ?_⟩
    · by_cases h1 : r < h.next
      · have h2 : Child h r k c := by simpa [Child, e.data h1] using hc
        rw [e.key (hi.ord.kid r c (childD_kid h2)).2.1]
        exact hi.keys.key r k c h2
      · exact hf.key r (by omega) k c hc
    · by_cases h1 : r < h.next
      · rw [e.data h1] at hm; exact hi.keys.nodup r ms hm
      · exact hf.nodup r (by omega) ms hm
  val := by
    intro r v hv
    by_cases h1 : r < h.next
    · rw [e.valC h1] at hv; rw [e.val hi.ord ho h1]; exact hi.val r v hv
    · rw [hf.valC r (by omega)] at hv; cases hv
  path := by
    intro a ks r p ha hr hp
    by_cases h1 : r < h.next
    · have h2 : a < h.next := Nat.lt_of_le_of_lt (desc_le ho (reach_desc hr)) h1
      rw [e.parent h2] at ha; rw [e.pathC h1] at hp
      exact hi.path a ks r p ha (ext_reach e hi.ord hr h2) hp
    · rw [hf.pathC r (by omega)] at hp; cases hp

/-! ## The invariant that survives any index -/

/-- Consistent links, distinct member names, integer item keys, members that carry their names as keys,
and current cached values. -/
structure WInv (h : JHeap) : Prop where
  ord : Ord h
  nodup : ∀ r ms, h.data r = .obj ms → (dkeys ms).Nodup
  kint : ∀ r cs, h.data r = .arr cs → ∀ c ∈ cs, ∃ k z, h.key c = some k ∧ pyInt k = some z
  val : ValOk h
  okey : ∀ r ms, h.data r = .obj ms → ∀ k c, (k, c) ∈ ms → h.key c = some k

theorem kint_of_keys {h : JHeap} {d : JData} (hk : ∀ k c, ChildD d k c → h.key c = some k)
    (cs : List Ref) (hd : d = .arr cs) (c : Ref) (hc : c ∈ cs) :
    ∃ k z, h.key c = some k ∧ pyInt k = some z := by
  obtain ⟨i, hi⟩ := List.getElem?_of_mem hc
  exact ⟨natStr i, i, hk _ _ (by subst hd; exact ⟨i, rfl, hi⟩), pyInt_natStr i⟩

theorem JInv.weak {h : JHeap} (hi : JInv h) : WInv h :=
  ⟨hi.ord, hi.keys.nodup, fun r cs hd c hc =>
    kint_of_keys (d := h.data r) (fun k c h => hi.keys.key r k c h) cs hd c hc, hi.val,
    fun r ms hd k c hm => hi.keys.key r k c (by unfold Child; rw [hd]; exact hm)⟩

theorem ReadOk.winv {h h' : JHeap} (hr : ReadOk h h') (hi : WInv h) : WInv h' where
  ord := hr.eqv.ord hi.ord
  nodup r ms hm := by rw [hr.eqv.data] at hm; exact hi.nodup r ms hm
  kint r cs hd c hc := by rw [hr.eqv.data] at hd; rw [hr.eqv.key]; exact hi.kint r cs hd c hc
  val := hr.val
  okey r ms hd k c hm := by rw [hr.eqv.data] at hd; rw [hr.eqv.key]; exact hi.okey r ms hd k c hm

theorem ext_winv {h h' : JHeap} (hi : WInv h) (e : Ext h h') (ho : Ord h') (hf : Fresh h h') : WInv h' where
  ord := ho
  nodup r ms hm := by
    by_cases h1 : r < h.next
    · rw [e.data h1] at hm; exact hi.nodup r ms hm
    · exact hf.nodup r (by omega) ms hm
  kint r cs hd c hc := by
    by_cases h1 : r < h.next
    · rw [e.data h1] at hd
      rw [e.key (hi.ord.kid r c (by rw [hd]; exact hc)).2.1]
      exact hi.kint r cs hd c hc
    · exact kint_of_keys (d := h'.data r) (fun k c h => hf.key r (by omega) k c h) cs hd c hc
  val := by
    intro r v hv
    by_cases h1 : r < h.next
    · rw [e.valC h1] at hv; rw [e.val hi.ord ho h1]; exact hi.val r v hv
    · rw [hf.valC r (by omega)] at hv; cases hv
  okey r ms hd k c hm := by
    by_cases h1 : r < h.next
    · rw [e.data h1] at hd
      rw [e.key (hi.ord.kid r c (by rw [hd]; exact List.mem_map_of_mem (f := Prod.snd) hm)).2.1]
      exact hi.okey r ms hd k c hm
    · exact hf.key r (by omega) k c (by unfold Child; rw [hd]; exact hm)

/-- Every value is well-formed. -/
theorem val_wf_ord {h : JHeap} (ho : Ord h) (hn : ∀ r ms, h.data r = .obj ms → (dkeys ms).Nodup) (r : Ref) : (Jschon.val h r).WF := by
  generalize hm : h.next - r = m
  induction m using Nat.strongRecOn generalizing r with
  | _ m ih =>
    rw [val_eq ho]
    have hk : ∀ c ∈ (h.data r).kids, (Jschon.val h c).WF := by
      intro c hc
      obtain ⟨h1, h2, _⟩ := ho.kid r c hc
      exact ih (h.next - c) (by omega) c rfl
    cases hd : h.data r with
    | null => exact .null
    | bool => exact .bool
    | num => exact .num
    | str => exact .str
    | arr cs =>
      rw [hd] at hk
      refine .arr fun x hx => ?_
      obtain ⟨c, hc, rfl⟩ := List.mem_map.1 hx
      exact hk c hc
    | obj ms =>
      rw [hd] at hk
      refine .obj ?_ fun x hx => ?_
      · have := hn r ms hd
        have h1 : dkeys (ms.map (fun m => (m.1, Jschon.val h m.2))) = dkeys ms := by
          simp [dkeys, Function.comp_def]
        rw [h1]; exact this
      · obtain ⟨m, hm, rfl⟩ := List.mem_map.1 hx
        exact hk m.2 (List.mem_map_of_mem (f := Prod.snd) hm)

theorem val_wf {h : JHeap} (hi : WInv h) (r : Ref) : (Jschon.val h r).WF :=
  val_wf_ord hi.ord hi.nodup r

/-! ## One edit -/

/-- The data of `m` becomes `d`; keys of its children may change; caches are invalidated. -/
structure EditW (h h' : JHeap) (m : Ref) (d : JData) : Prop where
  m_lt : m < h.next
  next : h'.next = h.next
  has : ∀ x, h'.has x ↔ h.has x
  data : ∀ x, h'.data x = if x = m then d else h.data x
  parent : ∀ x, h'.parent x = h.parent x
  kid : ∀ c ∈ d.kids, m < c ∧ c < h.next ∧ h.parent c = some m
  nodup : d.kids.Nodup
  keys : ∀ ms, d = .obj ms → (dkeys ms).Nodup
  kint : ∀ cs, d = .arr cs → ∀ c ∈ cs, ∃ k z, h'.key c = some k ∧ pyInt k = some z
  key_other : ∀ x, x ∉ d.kids → h'.key x = h.key x
  val : ∀ x v, h'.valC x = some v → h.valC x = some v ∧ ¬ Anc h m x
  path : ∀ x p, h'.pathC x = some p → h.pathC x = some p
  okey : ∀ ms, d = .obj ms → ∀ k c, (k, c) ∈ ms → h'.key c = some k

/-- The keys come out right and the paths that changed are forgotten. -/
structure EditK (h h' : JHeap) (m : Ref) (d : JData) : Prop where
  key : ∀ k c, ChildD d k c → h'.key c = some k
  moved : ∀ k c, ChildD d k c → Child h m k c ∨ ∀ x, Desc h' c x → h'.pathC x = none

theorem EditW.ord {h h' : JHeap} {m : Ref} {d : JData} (e : EditW h h' m d) (ho : Ord h) : Ord h' where
  dom r := by rw [e.has, e.next]; exact ho.dom r
  kid r c hc := by
    rw [e.data] at hc
    rw [e.next, e.parent]
    split at hc
    · rename_i hr; subst hr; exact e.kid c hc
    · exact ho.kid r c hc
  nodup r := by
    rw [e.data]; split
    · exact e.nodup
    · exact ho.nodup r
  par r p hp := by rw [e.parent] at hp; exact ho.par r p hp

/-- Instances that do not contain `m` keep their content. -/
theorem EditW.val_other {h h' : JHeap} {m : Ref} {d : JData} (e : EditW h h' m d) (ho : Ord h) {x : Ref}
    (hx : ¬ Desc h x m) : Jschon.val h' x = Jschon.val h x :=
  val_setData ho (e.ord ho) (fun y hy => by rw [e.data, if_neg hy]) hx

theorem EditW.val_at {h h' : JHeap} {m : Ref} {d : JData} (e : EditW h h' m d) (ho : Ord h) :
    Jschon.val h' m = dataVal (Jschon.val h) d := by
  rw [val_eq (e.ord ho), e.data, if_pos rfl]
  refine dataVal_congr fun c hc => e.val_other ho fun hd => ?_
  have := desc_le ho hd
  have := (e.kid c hc).1
  omega

theorem EditW.reach {h h' : JHeap} {m : Ref} {d : JData} (e : EditW h h' m d) {a x : Ref}
    {ks : List String} (hr : Reach h' a ks x) :
    Reach h a ks x ∨ ∃ k c, ChildD d k c ∧ ¬ Child h m k c ∧ Desc h' c x := by
  induction hr with
  | here => exact .inl .here
  | @step r k c ks x hc hr' ih =>
    rcases ih with ih | ih
    · by_cases hrm : r = m
      · subst hrm
        have hc' : ChildD d k c := by simpa [Child, e.data] using hc
        by_cases h1 : Child h r k c
        · exact .inl (.step h1 ih)
        · exact .inr ⟨k, c, hc', h1, reach_desc hr'⟩
      · exact .inl (.step (by simpa [Child, e.data, hrm] using hc) ih)
    · exact .inr ih

theorem EditW.key_else {h h' : JHeap} {m : Ref} {d : JData} (e : EditW h h' m d) (ho : Ord h)
    {r c : Ref} (hr : r ≠ m) (hc : c ∈ (h.data r).kids) : h'.key c = h.key c := by
  refine e.key_other c fun hk => hr ?_
  have h1 := (e.kid c hk).2.2
  have h2 := (ho.kid r c hc).2.2
  rw [h1] at h2; cases h2; rfl

theorem EditW.winv {h h' : JHeap} {m : Ref} {d : JData} (e : EditW h h' m d) (hi : WInv h) : WInv h' where
  ord := e.ord hi.ord
  nodup r ms hm := by
    rw [e.data] at hm
    split at hm
    · exact e.keys ms hm
    · exact hi.nodup r ms hm
  kint r cs hd c hc := by
    rw [e.data] at hd
    split at hd
    · exact e.kint cs hd c hc
    · rename_i hr
      rw [e.key_else hi.ord hr (by rw [hd]; exact hc)]
      exact hi.kint r cs hd c hc
  val := by
    intro x v hv
    obtain ⟨h1, h2⟩ := e.val x v hv
    rw [e.val_other hi.ord (fun hd => h2 (desc_anc hi.ord hd))]
    exact hi.val x v h1
  okey r ms hd k c hm := by
    rw [e.data] at hd
    split at hd
    · exact e.okey ms hd k c hm
    · rename_i hr
      rw [e.key_else hi.ord hr (by rw [hd]; exact List.mem_map_of_mem (f := Prod.snd) hm)]
      exact hi.okey r ms hd k c hm

theorem EditW.inv {h h' : JHeap} {m : Ref} {d : JData} (e : EditW h h' m d) (k : EditK h h' m d)
    (hi : JInv h) : JInv h' where
  ord := e.ord hi.ord
  keys := by
    refine ⟨fun r k' c hc => ?_, fun r ms hm => ?_⟩
    · simp only [Child, e.data] at hc
      split at hc
      · exact k.key k' c hc
      · rename_i hr
        rw [e.key_else hi.ord hr (childD_kid hc)]
        exact hi.keys.key r k' c hc
    · rw [e.data] at hm
      split at hm
      · exact e.keys ms hm
      · exact hi.keys.nodup r ms hm
  val := (e.winv hi.weak).val
  path := by
    intro a ks x p ha hr hp
    rcases e.reach hr with h1 | ⟨k', c, h1, h2, h3⟩
    · rw [e.parent] at ha
      exact hi.path a ks x p ha h1 (e.path x p hp)
    · rcases k.moved k' c h1 with h4 | h4
      · exact absurd h4 h2
      · rw [h4 x h3] at hp; cases hp

/-! ## Edits and the content of containing instances -/

theorem anc_total {h : JHeap} {m a b : Ref} (h1 : Anc h m a) (h2 : Anc h m b) :
    Anc h a b ∨ Anc h b a := by
  induction h1 with
  | refl => exact .inl h2
  | @step r p x hp h1' ih =>
    cases h2 with
    | refl => exact .inr (.step hp h1')
    | step hp' h2' => rw [hp] at hp'; cases hp'; exact ih h2'

theorem anc_le {h : JHeap} (ho : Ord h) {a b : Ref} (h1 : Anc h a b) : b ≤ a := by
  induction h1 with
  | refl => exact Nat.le_refl _
  | step hp _ ih => have := ho.par _ _ hp; omega

/-- An instance is below at most one child of any instance. -/
theorem sibling_unique {h : JHeap} (ho : Ord h) {r c c' m : Ref} (hc : c ∈ (h.data r).kids)
    (hc' : c' ∈ (h.data r).kids) (h1 : Desc h c m) (h2 : Desc h c' m) : c = c' := by
  have aux : ∀ c c', c ∈ (h.data r).kids → c' ∈ (h.data r).kids → Anc h c c' → c = c' := by
    intro c c' hc hc' ha
    cases ha with
    | refl => rfl
    | step hp ha' =>
      rw [(ho.kid r c hc).2.2] at hp; cases hp
      have := anc_le ho ha'
      have := (ho.kid r c' hc').1
      omega
  rcases anc_total (desc_anc ho h1) (desc_anc ho h2) with h3 | h3
  · exact aux c c' hc hc' h3
  · exact (aux c' c hc' hc h3).symm

/-- How the content of `a` changes when only instances that contain `m` change: at one location. -/
theorem at_of_reach {h h' : JHeap} (ho : Ord h) (ho' : Ord h') (hn : ∀ r ms, h.data r = .obj ms →
    (dkeys ms).Nodup) {m : Ref} (hd : ∀ x, x < h.next → x ≠ m → h'.data x = h.data x)
    {R : Value → Value → Prop} (hR : R (val h m) (val h' m)) {a : Ref} {ks : List String}
    (ha : a < h.next) (hr : Reach h a ks m) : At R (val h a) ks (val h' a) := by
  induction hr with
  | here => exact .here hR
  | @step r k c ks m hc hr' ih =>
    have hcm := reach_desc hr'
    have hck := childD_kid hc
    have hrm : r ≠ m := by
      rintro rfl
      have := desc_le ho hcm
      have := (ho.kid r c hck).1
      omega
    have ih' := ih hd hR (ho.kid r c hck).2.1
    have hsib : ∀ c' ∈ (h.data r).kids, c' ≠ c → val h' c' = val h c' := by
      intro c' hc' hne
      exact val_setDataL ho ho' hd (ho.kid r c' hc').2.1 fun h2 => hne (sibling_unique ho hc' hck h2 hcm)
    rw [val_eq ho r, val_eq ho' r, hd r ha hrm]
    have hnd := ho.nodup r
    cases hdat : h.data r with
    | arr cs =>
      simp only [Child, hdat] at hc
      obtain ⟨i, rfl, hi⟩ := hc
      obtain ⟨l, t, hcs, hl⟩ : ∃ l t, cs = l ++ c :: t ∧ l.length = i := by
        obtain ⟨h1, h2⟩ := getElem?_split hi
        exact ⟨_, _, h1, h2⟩
      subst hcs; subst hl
      rw [hdat] at hsib hnd
      simp only [JData.kids] at hsib hnd
      have h1 : l.map (val h') = l.map (val h) := by
        refine List.map_congr_left fun x hx => hsib x (by simp [hx]) ?_
        rintro rfl
        exact (List.nodup_append.1 hnd).2.2 x hx x (by simp) rfl
      have h2 : t.map (val h') = t.map (val h) := by
        refine List.map_congr_left fun x hx => hsib x (by simp [hx]) ?_
        rintro rfl
        have := (List.nodup_append.1 hnd).2.1
        simp at this
        exact this.1 hx
      simp only [dataVal, List.map_append, List.map_cons, h1, h2]
      have := At.item (l := l.map (val h)) (r := t.map (val h)) ih'
      rw [List.length_map] at this
      exact this
    | obj ms =>
      simp only [Child, hdat, ChildD] at hc
      obtain ⟨l, t, hms⟩ := List.append_of_mem hc
      have hn' := hn r ms hdat
      rw [hdat] at hsib hnd
      subst hms
      simp only [JData.kids] at hsib hnd
      simp only [List.map_append, List.map_cons] at hnd
      have hk : k ∉ dkeys l := by
        simp only [dkeys_append, dkeys_cons] at hn'
        intro hk
        exact (List.nodup_append.1 hn').2.2 k hk k (by simp) rfl
      have h1 : l.map (fun m => (m.1, val h' m.2)) = l.map (fun m => (m.1, val h m.2)) := by
        refine List.map_congr_left fun x hx => ?_
        rw [hsib x.2 (List.mem_map_of_mem (f := Prod.snd) (by simp [hx]))]
        intro he
        exact (List.nodup_append.1 hnd).2.2 x.2 (List.mem_map_of_mem (f := Prod.snd) hx) c (by simp) he
      have h2 : t.map (fun m => (m.1, val h' m.2)) = t.map (fun m => (m.1, val h m.2)) := by
        refine List.map_congr_left fun x hx => ?_
        rw [hsib x.2 (List.mem_map_of_mem (f := Prod.snd) (by simp [hx]))]
        intro he
        have := (List.nodup_append.1 hnd).2.1
        simp only [List.nodup_cons] at this
        exact this.1 (he ▸ List.mem_map_of_mem (f := Prod.snd) hx)
      simp only [dataVal, List.map_append, List.map_cons, h1, h2]
      refine At.member ?_ ih'
      have h3 : dkeys (l.map (fun m => (m.1, val h m.2))) = dkeys l := by
        simp [dkeys, Function.comp_def]
      rw [h3]; exact hk
    | _ => simp [Child, hdat, ChildD] at hc

/-! ## Outcomes of operations -/

/-- The instances of `h` are unchanged, up to caches. -/
structure Quiet (h h' : JHeap) : Prop where
  le : h.next ≤ h'.next
  data : ∀ x, x < h.next → h'.data x = h.data x
  parent : ∀ x, x < h.next → h'.parent x = h.parent x
  key : ∀ x, x < h.next → h'.key x = h.key x

theorem Quiet.refl (h : JHeap) : Quiet h h := ⟨Nat.le_refl _, fun _ _ => rfl, fun _ _ => rfl, fun _ _ => rfl⟩

theorem Quiet.trans {h h' h'' : JHeap} (a : Quiet h h') (b : Quiet h' h'') : Quiet h h'' where
  le := Nat.le_trans a.le b.le
  data x hx := (b.data x (Nat.lt_of_lt_of_le hx a.le)).trans (a.data x hx)
  parent x hx := (b.parent x (Nat.lt_of_lt_of_le hx a.le)).trans (a.parent x hx)
  key x hx := (b.key x (Nat.lt_of_lt_of_le hx a.le)).trans (a.key x hx)

theorem Eqv.quiet {h h' : JHeap} (e : Eqv h h') : Quiet h h' :=
  ⟨Nat.le_of_eq e.next.symm, fun x _ => e.data x, fun x _ => e.parent x, fun x _ => e.key x⟩

theorem Ext.quiet {h h' : JHeap} (e : Ext h h') : Quiet h h' :=
  ⟨e.le, fun _ hx => e.data hx, fun _ hx => e.parent hx, fun _ hx => e.key hx⟩

theorem Quiet.val {h h' : JHeap} (e : Quiet h h') (ho : Ord h) (ho' : Ord h') {x : Ref} (hx : x < h.next) :
    val h' x = val h x :=
  val_congr ho ho' (· < h.next) (fun r hr => e.data r hr) (fun r _ c hc => (ho.kid r c hc).2.1) x hx

theorem Quiet.reach {h h' : JHeap} (e : Quiet h h') (ho : Ord h) {a r : Ref} {ks : List String}
    (ha : a < h.next) : Reach h' a ks r ↔ Reach h a ks r := by
  constructor
  · intro hr
    induction hr with
    | here => exact .here
    | @step x k c ks d hc _ ih =>
      have h1 : Child h x k c := by simpa [Child, e.data _ ha] using hc
      exact .step h1 (ih (ho.kid _ _ (childD_kid h1)).2.1)
  · intro hr
    induction hr with
    | here => exact .here
    | step hc _ ih =>
      exact .step (by simpa [Child, e.data _ ha] using hc) (ih (ho.kid _ _ (childD_kid hc)).2.1)

theorem Quiet.desc {h h' : JHeap} (e : Quiet h h') (ho : Ord h) {a r : Ref} (ha : a < h.next) :
    Desc h' a r ↔ Desc h a r := by
  constructor
  · intro hd
    obtain ⟨ks, hr⟩ := desc_reach hd
    exact reach_desc ((e.reach ho ha).1 hr)
  · intro hd
    obtain ⟨ks, hr⟩ := desc_reach hd
    exact reach_desc ((e.reach ho ha).2 hr)

/-- Nothing but caches and new instances. -/
structure Noop (h h' : JHeap) : Prop where
  quiet : Quiet h h'
  winv : WInv h'
  inv : JInv h → JInv h'

theorem Noop.refl {h : JHeap} (hi : WInv h) : Noop h h := ⟨.refl h, hi, id⟩

theorem Noop.trans {h h' h'' : JHeap} (a : Noop h h') (b : Noop h' h'') : Noop h h'' :=
  ⟨a.quiet.trans b.quiet, b.winv, fun hi => b.inv (a.inv hi)⟩

theorem Noop.val {h h' : JHeap} (e : Noop h h') (ho : Ord h) {x : Ref} (hx : x < h.next) :
    val h' x = val h x := e.quiet.val ho e.winv.ord hx

/-- The content of `m` becomes `v`; if `good`, keys and paths stay correct.  No existing instance is
attached. -/
structure Did (h h' : JHeap) (m : Ref) (good : Prop) (v : Value) : Prop where
  ex : ∃ h1 d, Noop h h1 ∧ EditW h1 h' m d ∧ (JInv h → good → EditK h1 h' m d)
  val : val h' m = v
  kids : ∀ c ∈ (h'.data m).kids, c < h.next → c ∈ (h.data m).kids

theorem Did.winv {h h' : JHeap} {m : Ref} {good : Prop} {v : Value} (e : Did h h' m good v) : WInv h' := by
  obtain ⟨⟨h1, d, a, b, c⟩, _, _⟩ := e
  exact b.winv a.winv

theorem Did.inv {h h' : JHeap} {m : Ref} {good : Prop} {v : Value} (e : Did h h' m good v)
    (hi : JInv h) (hg : good) : JInv h' := by
  obtain ⟨⟨h1, d, a, b, c⟩, _, _⟩ := e
  exact b.inv (c hi hg) (a.inv hi)

theorem Did.le {h h' : JHeap} {m : Ref} {good : Prop} {v : Value} (e : Did h h' m good v) :
    h.next ≤ h'.next := by
  obtain ⟨⟨h1, d, a, b, c⟩, _, _⟩ := e
  rw [b.next]; exact a.quiet.le

theorem Did.parent {h h' : JHeap} {m : Ref} {good : Prop} {v : Value} (e : Did h h' m good v) {x : Ref}
    (hx : x < h.next) : h'.parent x = h.parent x := by
  obtain ⟨⟨h1, d, a, b, c⟩, _, _⟩ := e
  rw [b.parent, a.quiet.parent x hx]

theorem Did.data_other {h h' : JHeap} {m : Ref} {good : Prop} {v : Value} (e : Did h h' m good v) {x : Ref}
    (hx : x < h.next) (hm : x ≠ m) : h'.data x = h.data x := by
  obtain ⟨⟨h1, d, a, b, c⟩, _, _⟩ := e
  rw [b.data, if_neg hm, a.quiet.data x hx]

theorem Did.val_other {h h' : JHeap} {m : Ref} {good : Prop} {v : Value} (e : Did h h' m good v)
    (ho : Ord h) {x : Ref} (hx : x < h.next) (hd : ¬ Desc h x m) : Jschon.val h' x = Jschon.val h x := by
  obtain ⟨⟨h1, d, a, b, c⟩, _, _⟩ := e
  rw [b.val_other a.winv.ord (by rw [a.quiet.desc ho hx]; exact hd), a.val ho hx]

theorem Did.at {h h' : JHeap} {m : Ref} {good : Prop} {v : Value} (e : Did h h' m good v)
    (hi : WInv h) {x : Ref} (hx : x < h.next) {ks : List String} (hr : Reach h x ks m)
    {R : Value → Value → Prop} (hR : R (Jschon.val h m) v) :
    At R (Jschon.val h x) ks (Jschon.val h' x) := by
  obtain ⟨⟨h1, d, a, b, c⟩, hv, _⟩ := e
  have hm : m < h.next := desc_has hi.ord (reach_desc hr) hx
  have := at_of_reach (R := R) a.winv.ord (b.ord a.winv.ord) a.winv.nodup (m := m)
    (fun y _ hy => by rw [b.data, if_neg hy]) (by rw [a.val hi.ord hm, hv]; exact hR)
    (Nat.lt_of_lt_of_le hx a.quiet.le) ((a.quiet.reach hi.ord hx).2 hr)
  rw [a.val hi.ord hx] at this
  exact this

end Jschon
