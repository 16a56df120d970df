import Verif.Spec.JsonHeap
import Verif.Proof.Patch
import Verif.Proof.RelPointer

namespace Jschon
open Spec

/-! ## Projections -/

/-- The cached path, if any. -/
def JHeap.pathC (h : JHeap) (r : Ref) : Option Ptr := (h.node r).bind JNode.pathC
/-- The cached value, if any. -/
def JHeap.valC (h : JHeap) (r : Ref) : Option Value := (h.node r).bind JNode.valueC
/-- The instance exists. -/
def JHeap.has (h : JHeap) (r : Ref) : Prop := (h.node r).isSome = true

section proj
variable (h : JHeap) (r x : Ref)

theorem alter_next (f) : (h.alter r f).next = h.next := rfl

theorem alter_has (f) : (h.alter r f).has x ↔ h.has x := by
  simp only [JHeap.has, JHeap.alter]
  split <;> simp

theorem setData_next (d) : (h.setData r d).next = h.next := rfl

theorem setData_has (d) : (h.setData r d).has x ↔ h.has x := alter_has h r x _

theorem setData_data (d) (hr : h.has r) :
    (h.setData r d).data x = if x = r then d else h.data x := by
  simp only [JHeap.data, JHeap.setData, JHeap.alter]
  split
  · rename_i e; subst e
    obtain ⟨n, hn⟩ := Option.isSome_iff_exists.1 hr
    simp [hn]
  · rfl

theorem setData_parent (d) : (h.setData r d).parent x = h.parent x := by
  simp only [JHeap.parent, JHeap.setData, JHeap.alter]
  split
  · cases h.node x <;> rfl
  · rfl

theorem setData_key (d) : (h.setData r d).key x = h.key x := by
  simp only [JHeap.key, JHeap.setData, JHeap.alter]
  split
  · cases h.node x <;> rfl
  · rfl

theorem setData_pathC (d) : (h.setData r d).pathC x = h.pathC x := by
  simp only [JHeap.pathC, JHeap.setData, JHeap.alter]
  split
  · cases h.node x <;> rfl
  · rfl

theorem setData_valC (d) : (h.setData r d).valC x = h.valC x := by
  simp only [JHeap.valC, JHeap.setData, JHeap.alter]
  split
  · cases h.node x <;> rfl
  · rfl

/-- `alter` with a function that keeps data, parent and key. -/
theorem alter_data {f : JNode → JNode} (hf : ∀ n, (f n).data = n.data) :
    (h.alter r f).data x = h.data x := by
  simp only [JHeap.data, JHeap.alter]
  split
  · cases h.node x <;> simp [hf]
  · rfl

theorem alter_parent {f : JNode → JNode} (hf : ∀ n, (f n).parent = n.parent) :
    (h.alter r f).parent x = h.parent x := by
  simp only [JHeap.parent, JHeap.alter]
  split
  · cases h.node x <;> simp [hf]
  · rfl

theorem alter_key {f : JNode → JNode} (hf : ∀ n, (f n).key = n.key) :
    (h.alter r f).key x = h.key x := by
  simp only [JHeap.key, JHeap.alter]
  split
  · cases h.node x <;> simp [hf]
  · rfl

theorem alter_pathC {f : JNode → JNode} (hf : ∀ n, (f n).pathC = n.pathC) :
    (h.alter r f).pathC x = h.pathC x := by
  simp only [JHeap.pathC, JHeap.alter]
  split
  · cases h.node x <;> simp [hf]
  · rfl

theorem alter_valC {f : JNode → JNode} (hf : ∀ n, (f n).valueC = n.valueC) :
    (h.alter r f).valC x = h.valC x := by
  simp only [JHeap.valC, JHeap.alter]
  split
  · cases h.node x <;> simp [hf]
  · rfl

end proj

/-! ## The structural invariant -/

/-- Links are consistent: every child was created after its parent and points back to it. -/
structure Ord (h : JHeap) : Prop where
  dom : ∀ r, h.has r ↔ r < h.next
  kid : ∀ r c, c ∈ (h.data r).kids → r < c ∧ c < h.next ∧ h.parent c = some r
  nodup : ∀ r, (h.data r).kids.Nodup
  par : ∀ r p, h.parent r = some p → p < r

theorem data_of_not_has {h : JHeap} {r : Ref} (hr : ¬ h.has r) : h.data r = .null := by
  simp only [JHeap.has, Bool.not_eq_true, Option.isSome_eq_false_iff, Option.isNone_iff_eq_none] at hr
  simp [JHeap.data, hr]

theorem dataVal_congr {g g' : Ref → Value} {d : JData} (h : ∀ c ∈ d.kids, g c = g' c) :
    dataVal g d = dataVal g' d := by
  cases d with
  | arr cs =>
    simp only [dataVal, Value.arr.injEq]
    exact List.map_congr_left fun c hc => h c hc
  | obj ms =>
    simp only [dataVal, Value.obj.injEq]
    refine List.map_congr_left fun m hm => ?_
    rw [h m.2 (by simp only [JData.kids, List.mem_map]; exact ⟨m, hm, rfl⟩)]
  | _ => rfl

theorem content_fuel {h : JHeap} (ho : Ord h) (f f' : Nat) (r : Ref) (h1 : h.next - r ≤ f)
    (h2 : h.next - r ≤ f') : content f h r = content f' h r := by
  induction f generalizing f' r with
  | zero =>
    have : ¬ h.has r := by rw [ho.dom]; omega
    cases f' with
    | zero => rfl
    | succ f' => simp [content, data_of_not_has this, dataVal]
  | succ f ih =>
    cases f' with
    | zero =>
      have : ¬ h.has r := by rw [ho.dom]; omega
      simp [content, data_of_not_has this, dataVal]
    | succ f' =>
      simp only [content]
      refine dataVal_congr fun c hc => ?_
      obtain ⟨h3, h4, _⟩ := ho.kid r c hc
      exact ih f' c (by omega) (by omega)

/-- The content of an instance in terms of its children. -/
theorem val_eq {h : JHeap} (ho : Ord h) (r : Ref) : val h r = dataVal (val h) (h.data r) := by
  unfold val
  rw [content_fuel ho h.next (h.next + 1) r (by omega) (by omega)]
  rfl

/-- Content depends only on the data of the instances below. -/
theorem val_congr {h h' : JHeap} (ho : Ord h) (ho' : Ord h') (P : Ref → Prop)
    (hd : ∀ r, P r → h'.data r = h.data r) (hk : ∀ r, P r → ∀ c ∈ (h.data r).kids, P c)
    (r : Ref) (hr : P r) : val h' r = val h r := by
  generalize hm : h.next - r = m
  induction m using Nat.strongRecOn generalizing r with
  | _ m ih =>
    rw [val_eq ho, val_eq ho', hd r hr]
    refine dataVal_congr fun c hc => ?_
    obtain ⟨h1, h2, _⟩ := ho.kid r c hc
    exact ih (h.next - c) (by omega) c (hk r hr c hc) rfl

/-! ## Descendants -/

/-- `x` is `r` or below `r`. -/
inductive Desc (h : JHeap) : Ref → Ref → Prop
  | refl {r} : Desc h r r
  | step {r c x} : c ∈ (h.data r).kids → Desc h c x → Desc h r x

theorem desc_trans {h : JHeap} {a b c : Ref} (h1 : Desc h a b) (h2 : Desc h b c) : Desc h a c := by
  induction h1 with
  | refl => exact h2
  | step hk _ ih => exact .step hk (ih h2)

theorem desc_le {h : JHeap} (ho : Ord h) {a b : Ref} (hd : Desc h a b) : a ≤ b := by
  induction hd with
  | refl => exact Nat.le_refl _
  | step hk _ ih => have := (ho.kid _ _ hk).1; omega

/-- The last step of a descent. -/
theorem desc_tail {h : JHeap} {a b : Ref} (hd : Desc h a b) :
    a = b ∨ ∃ p, Desc h a p ∧ b ∈ (h.data p).kids := by
  induction hd with
  | refl => exact .inl rfl
  | @step r c x hk _ ih =>
    rcases ih with rfl | ⟨p, h1, h2⟩
    · exact .inr ⟨r, .refl, hk⟩
    · exact .inr ⟨p, .step hk h1, h2⟩

theorem childD_kid {d : JData} {k : String} {c : Ref} (h : ChildD d k c) : c ∈ d.kids := by
  cases d with
  | arr cs =>
    obtain ⟨i, _, hi⟩ := h
    exact List.mem_of_getElem? hi
  | obj ms => exact List.mem_map_of_mem (f := Prod.snd) h
  | _ => exact h.elim

theorem kid_childD {d : JData} {c : Ref} (h : c ∈ d.kids) : ∃ k, ChildD d k c := by
  cases d with
  | arr cs =>
    obtain ⟨i, hi⟩ := List.getElem?_of_mem h
    exact ⟨natStr i, i, rfl, hi⟩
  | obj ms =>
    simp only [JData.kids, List.mem_map] at h
    obtain ⟨⟨k, c⟩, hm, rfl⟩ := h
    exact ⟨k, hm⟩
  | _ => simp [JData.kids] at h

theorem reach_desc {h : JHeap} {a b : Ref} {ks : List String} (hr : Reach h a ks b) : Desc h a b := by
  induction hr with
  | here => exact .refl
  | step hc _ ih => exact .step (childD_kid hc) ih

theorem desc_reach {h : JHeap} {a b : Ref} (hd : Desc h a b) : ∃ ks, Reach h a ks b := by
  induction hd with
  | refl => exact ⟨[], .here⟩
  | step hk _ ih =>
    obtain ⟨ks, hr⟩ := ih
    obtain ⟨k, hc⟩ := kid_childD hk
    exact ⟨k :: ks, .step hc hr⟩

theorem desc_has {h : JHeap} (ho : Ord h) {a b : Ref} (hd : Desc h a b) (ha : a < h.next) :
    b < h.next := by
  induction hd with
  | refl => exact ha
  | step hk _ ih => exact ih (ho.kid _ _ hk).2.1

/-- `x` is `r` or on the chain of parents of `r`. -/
inductive Anc (h : JHeap) : Ref → Ref → Prop
  | refl {r} : Anc h r r
  | step {r p x} : h.parent r = some p → Anc h p x → Anc h r x

theorem anc_snoc {h : JHeap} {a b p : Ref} (h1 : Anc h a b) (h2 : h.parent b = some p) :
    Anc h a p := by
  induction h1 with
  | refl => exact .step h2 .refl
  | step hp _ ih => exact .step hp (ih h2)

theorem desc_anc {h : JHeap} (ho : Ord h) {a b : Ref} (hd : Desc h a b) : Anc h b a := by
  induction hd with
  | refl => exact .refl
  | step hk _ ih => exact anc_snoc ih (ho.kid _ _ hk).2.2

/-- Keys match positions. -/
structure Keys (h : JHeap) : Prop where
  key : ∀ r k c, Child h r k c → h.key c = some k
  nodup : ∀ r ms, h.data r = .obj ms → (dkeys ms).Nodup

/-- The cached values are current. -/
def ValOk (h : JHeap) : Prop := ∀ r v, h.valC r = some v → v = val h r

/-- The cached paths of the nodes of a document are current. -/
def PathOk (h : JHeap) : Prop :=
  ∀ a ks r p, h.parent a = none → Reach h a ks r → h.pathC r = some p → p.keys = ks

/-- The invariant of heaps of JSON instances. -/
structure JInv (h : JHeap) : Prop where
  ord : Ord h
  keys : Keys h
  val : ValOk h
  path : PathOk h

theorem inv_empty : JInv JHeap.empty where
  ord := ⟨by simp [JHeap.has, JHeap.empty], by simp [JHeap.data, JHeap.empty, JData.kids],
    by simp [JHeap.data, JHeap.empty, JData.kids], by simp [JHeap.parent, JHeap.empty]⟩
  keys := ⟨by intro r k c hc; simp [Child, ChildD, JHeap.data, JHeap.empty] at hc,
    by intro r ms hm; simp [JHeap.data, JHeap.empty] at hm⟩
  val := by intro r v hv; simp [JHeap.valC, JHeap.empty] at hv
  path := by intro a ks r p _ _ hp; simp [JHeap.pathC, JHeap.empty] at hp

/-! ## Heaps that differ in caches only -/

/-- Same instances, data, parents and keys. -/
structure Eqv (h h' : JHeap) : Prop where
  next : h'.next = h.next
  has : ∀ x, h'.has x ↔ h.has x
  data : ∀ x, h'.data x = h.data x
  parent : ∀ x, h'.parent x = h.parent x
  key : ∀ x, h'.key x = h.key x

theorem Eqv.refl (h : JHeap) : Eqv h h := ⟨rfl, fun _ => .rfl, fun _ => rfl, fun _ => rfl, fun _ => rfl⟩

theorem Eqv.trans {h h' h'' : JHeap} (a : Eqv h h') (b : Eqv h' h'') : Eqv h h'' :=
  ⟨b.next.trans a.next, fun x => (b.has x).trans (a.has x), fun x => (b.data x).trans (a.data x),
    fun x => (b.parent x).trans (a.parent x), fun x => (b.key x).trans (a.key x)⟩

theorem Eqv.symm {h h' : JHeap} (a : Eqv h h') : Eqv h' h :=
  ⟨a.next.symm, fun x => (a.has x).symm, fun x => (a.data x).symm, fun x => (a.parent x).symm,
    fun x => (a.key x).symm⟩

theorem eqv_alter (h : JHeap) (r : Ref) {f : JNode → JNode} (h1 : ∀ n, (f n).data = n.data)
    (h2 : ∀ n, (f n).parent = n.parent) (h3 : ∀ n, (f n).key = n.key) : Eqv h (h.alter r f) :=
  ⟨rfl, fun x => alter_has h r x f, fun x => alter_data h r x h1, fun x => alter_parent h r x h2,
    fun x => alter_key h r x h3⟩

theorem Eqv.ord {h h' : JHeap} (e : Eqv h h') (ho : Ord h) : Ord h' where
  dom r := by rw [e.has, e.next]; exact ho.dom r
  kid r c hc := by rw [e.data] at hc; rw [e.next, e.parent]; exact ho.kid r c hc
  nodup r := by rw [e.data]; exact ho.nodup r
  par r p hp := by rw [e.parent] at hp; exact ho.par r p hp

theorem Eqv.val {h h' : JHeap} (e : Eqv h h') (ho : Ord h) (r : Ref) : val h' r = val h r :=
  val_congr ho (e.ord ho) (fun _ => True) (fun r _ => e.data r) (fun _ _ _ _ => trivial) r trivial

theorem Eqv.child {h h' : JHeap} (e : Eqv h h') {r k c} : Child h' r k c ↔ Child h r k c := by
  simp only [Child, e.data]

theorem Eqv.reach {h h' : JHeap} (e : Eqv h h') {r ks c} (hr : Reach h r ks c) : Reach h' r ks c := by
  induction hr with
  | here => exact .here
  | step hc _ ih => exact .step (e.child.2 hc) ih

theorem Eqv.desc {h h' : JHeap} (e : Eqv h h') {r c} (hd : Desc h r c) : Desc h' r c := by
  induction hd with
  | refl => exact .refl
  | step hc _ ih => exact .step (by rw [e.data]; exact hc) ih

theorem Eqv.anc {h h' : JHeap} (e : Eqv h h') {r c} (hd : Anc h r c) : Anc h' r c := by
  induction hd with
  | refl => exact .refl
  | step hc _ ih => exact .step (by rw [e.parent]; exact hc) ih

theorem Eqv.keys {h h' : JHeap} (e : Eqv h h') (hk : Keys h) : Keys h' where
  key r k c hc := by rw [e.key]; exact hk.key r k c (e.child.1 hc)
  nodup r ms hm := by rw [e.data] at hm; exact hk.nodup r ms hm

theorem Eqv.pathOk {h h' : JHeap} (e : Eqv h h') (hp : PathOk h)
    (hc : ∀ r p, h'.pathC r = some p → h.pathC r = some p) : PathOk h' := by
  intro a ks r p ha hr hpc
  rw [e.parent] at ha
  exact hp a ks r p ha (e.symm.reach hr) (hc r p hpc)

/-! ## Reading values -/

/-- What reading `value` does: caches only, and only correct values. -/
structure ReadOk (h h' : JHeap) : Prop where
  eqv : Eqv h h'
  path : ∀ x, h'.pathC x = h.pathC x
  val : ValOk h'

theorem readItems_spec {rd : JHeap → Ref → JHeap × Value} {h0 : JHeap} (ho : Ord h0)
    (cs : List Ref) (hrd : ∀ c ∈ cs, ∀ h, ReadOk h0 h → ReadOk h0 (rd h c).1 ∧ (rd h c).2 = val h0 c)
    (h : JHeap) (hh : ReadOk h0 h) :
    ReadOk h0 (readItems rd h cs).1 ∧ (readItems rd h cs).2 = cs.map (val h0) := by
  induction cs generalizing h with
  | nil => exact ⟨hh, rfl⟩
  | cons c cs ih =>
    obtain ⟨h1, h2⟩ := hrd c (by simp) h hh
    obtain ⟨h3, h4⟩ := ih (fun c hc => hrd c (by simp [hc])) _ h1
    exact ⟨h3, by simp [readItems, h2, h4]⟩

theorem readMembers_spec {rd : JHeap → Ref → JHeap × Value} {h0 : JHeap} (ho : Ord h0)
    (ms : List (String × Ref))
    (hrd : ∀ m ∈ ms, ∀ h, ReadOk h0 h → ReadOk h0 (rd h m.2).1 ∧ (rd h m.2).2 = val h0 m.2)
    (h : JHeap) (hh : ReadOk h0 h) :
    ReadOk h0 (readMembers rd h ms).1 ∧
      (readMembers rd h ms).2 = ms.map (fun m => (m.1, val h0 m.2)) := by
  induction ms generalizing h with
  | nil => exact ⟨hh, rfl⟩
  | cons m ms ih =>
    obtain ⟨k, c⟩ := m
    obtain ⟨h1, h2⟩ := hrd (k, c) (by simp) h hh
    obtain ⟨h3, h4⟩ := ih (fun c hc => hrd c (by simp [hc])) _ h1
    exact ⟨h3, by simp only [readMembers, h4, List.map_cons]; simp only at h2; rw [h2]⟩

theorem readOk_cache {h0 h : JHeap} (ho : Ord h0) (hh : ReadOk h0 h) (r : Ref) (v : Value)
    (hv : v = val h0 r) : ReadOk h0 (h.alter r (fun n => { n with valueC := some v })) := by
  have e : Eqv h (h.alter r (fun n => { n with valueC := some v })) :=
    eqv_alter h r (fun _ => rfl) (fun _ => rfl) (fun _ => rfl)
  refine ⟨hh.eqv.trans e, fun x => ?_, ?_⟩
  · exact (alter_pathC h r x (f := fun n => { n with valueC := some v }) (fun _ => rfl)).trans (hh.path x)
  · intro x w hw
    rw [(hh.eqv.trans e).val ho]
    simp only [JHeap.valC, JHeap.alter] at hw
    split at hw
    · rename_i hx; subst hx
      cases hn : h.node x with
      | none => simp [hn] at hw
      | some n => simp [hn] at hw; rw [← hw, hv]
    · rw [← hh.eqv.val ho]
      exact hh.val x w hw

theorem readValueF_spec {h0 : JHeap} (ho : Ord h0) (f : Nat) (h : JHeap) (r : Ref)
    (hf : h0.next - r ≤ f) (hh : ReadOk h0 h) :
    ReadOk h0 (readValueF f h r).1 ∧ (readValueF f h r).2 = val h0 r := by
  induction f generalizing h r with
  | zero =>
    have : ¬ h0.has r := by rw [ho.dom]; omega
    refine ⟨hh, ?_⟩
    rw [val_eq ho, data_of_not_has this]; rfl
  | succ f ih =>
    simp only [readValueF]
    cases hn : h.node r with
    | none =>
      refine ⟨hh, ?_⟩
      have : ¬ h0.has r := by rw [← hh.eqv.has]; simp [JHeap.has, hn]
      rw [val_eq ho, data_of_not_has this]; rfl
    | some n =>
      simp only
      have hd : n.data = h0.data r := by
        rw [← hh.eqv.data]; simp [JHeap.data, hn]
      cases hv : n.valueC with
      | some v =>
        refine ⟨hh, ?_⟩
        rw [← hh.eqv.val ho]
        exact hh.val r v (by simp [JHeap.valC, hn, hv])
      | none =>
        simp only
        have hval := val_eq ho r
        rw [← hd] at hval
        cases hdat : n.data with
        | arr cs =>
          simp only [hdat] at hval ⊢
          obtain ⟨h1, h2⟩ := readItems_spec ho cs (rd := readValueF f) (fun c hc h hh => by
            obtain ⟨h3, h4, _⟩ := ho.kid r c (by rw [← hd, hdat]; exact hc)
            exact ih h c (by omega) hh) h hh
          have h5 : Value.arr (readItems (readValueF f) h cs).2 = val h0 r := by rw [h2, hval]; rfl
          exact ⟨readOk_cache ho h1 r _ h5, h5⟩
        | obj ms =>
          simp only [hdat] at hval ⊢
          obtain ⟨h1, h2⟩ := readMembers_spec ho ms (rd := readValueF f) (fun m hm h hh => by
            obtain ⟨h3, h4, _⟩ := ho.kid r m.2 (by
              rw [← hd, hdat]; exact List.mem_map_of_mem (f := Prod.snd) hm)
            exact ih h m.2 (by omega) hh) h hh
          have h5 : Value.obj (readMembers (readValueF f) h ms).2 = val h0 r := by rw [h2, hval]; rfl
          exact ⟨readOk_cache ho h1 r _ h5, h5⟩
        | null | bool b | num n | str s =>
          simp only [hdat] at hval ⊢
          exact ⟨readOk_cache ho hh r _ hval.symm, hval.symm⟩

theorem readValue_spec {h : JHeap} (ho : Ord h) (hv : ValOk h) (r : Ref) :
    ReadOk h (readValue h r).1 ∧ (readValue h r).2 = val h r :=
  readValueF_spec ho h.next h r (by omega) ⟨.refl h, fun _ => rfl, hv⟩

theorem ReadOk.inv {h h' : JHeap} (hr : ReadOk h h') (hi : JInv h) : JInv h' :=
  ⟨hr.eqv.ord hi.ord, hr.eqv.keys hi.keys, hr.val,
    hr.eqv.pathOk hi.path (fun r p hp => by rw [← hr.path]; exact hp)⟩

theorem argValue_spec {h : JHeap} (ho : Ord h) (hv : ValOk h) (o : JArg) :
    ReadOk h (argValue h o).1 ∧ (argValue h o).2 = o.val h := by
  cases o with
  | plain v => exact ⟨⟨.refl h, fun _ => rfl, hv⟩, rfl⟩
  | json r => exact readValue_spec ho hv r

/-! ## Paths -/

theorem walkKeys_fuel {h : JHeap} (ho : Ord h) (f g : Nat) (x : Ref) (hf : x < f) (hg : x < g) :
    walkKeys f h x = walkKeys g h x := by
  induction f generalizing g x with
  | zero => omega
  | succ f ih =>
    cases g with
    | zero => omega
    | succ g =>
      simp only [walkKeys]
      cases hp : h.parent x with
      | none => rfl
      | some p =>
        have := ho.par x p hp
        simp only
        rw [ih g p (by omega) (by omega)]

theorem walkKeys_append {h : JHeap} (ho : Ord h) (hk : Keys h) {a r : Ref} {ks : List String}
    (hr : Reach h a ks r) : walkKeys (r + 1) h r = walkKeys (a + 1) h a ++ ks := by
  induction hr with
  | here => simp
  | @step x k c ks d hc _ ih =>
    have h1 := ho.kid x c (childD_kid hc)
    have h2 : walkKeys (c + 1) h c = walkKeys (x + 1) h x ++ [k] := by
      rw [walkKeys]
      simp only [h1.2.2, hk.key x k c hc, Option.getD_some]
      rw [walkKeys_fuel ho c (x + 1) x h1.1 (by omega)]
    rw [ih, h2]; simp

theorem walkKeys_reach {h : JHeap} (ho : Ord h) (hk : Keys h) {a r : Ref} {ks : List String}
    (ha : h.parent a = none) (hr : Reach h a ks r) (f : Nat) (hf : r < f) :
    walkKeys f h r = ks := by
  rw [walkKeys_fuel ho f (r + 1) r hf (by omega), walkKeys_append ho hk hr]
  simp [walkKeys, ha]

/-- `self.path` of a node of a document is its current location. -/
theorem readPath_spec {h : JHeap} (hi : JInv h) {a r : Ref} {ks : List String} (ha : a < h.next)
    (hp : h.parent a = none) (hr : Reach h a ks r) : (readPath h r).2 = ⟨ks⟩ := by
  unfold readPath
  cases hc : (h.node r).bind JNode.pathC with
  | some p =>
    have := hi.path a ks r p hp hr hc
    simp only
    obtain ⟨keys⟩ := p
    simp only at this
    rw [this]
  | none =>
    simp only
    rw [walkKeys_reach hi.ord hi.keys hp hr h.next (desc_has hi.ord (reach_desc hr) ha)]

theorem reach_parent_unique {h : JHeap} (ho : Ord h) (hk : Keys h) {a b r : Ref}
    {ks ks' : List String} (ha : h.parent a = none) (hb : h.parent b = none)
    (h1 : Reach h a ks r) (h2 : Reach h b ks' r) : ks = ks' := by
  rw [← walkKeys_reach ho hk ha h1 (r + 1) (by omega), ← walkKeys_reach ho hk hb h2 (r + 1) (by omega)]

theorem readPath_inv {h : JHeap} (hi : JInv h) (r : Ref) (hr : r < h.next) : JInv (readPath h r).1 := by
  unfold readPath
  cases hc : (h.node r).bind JNode.pathC with
  | some p => exact hi
  | none =>
    simp only
    have e : Eqv h (h.alter r (fun n => { n with pathC := some ⟨walkKeys h.next h r⟩ })) :=
      eqv_alter h r (fun _ => rfl) (fun _ => rfl) (fun _ => rfl)
    refine ⟨e.ord hi.ord, e.keys hi.keys, ?_, ?_⟩
    · intro x v hv
      rw [e.val hi.ord]
      rw [alter_valC h r x (f := fun n => { n with pathC := some ⟨walkKeys h.next h r⟩ })
        (fun _ => rfl)] at hv
      exact hi.val x v hv
    · intro a ks x p ha hre hpc
      rw [e.parent] at ha
      have hre' := e.symm.reach hre
      simp only [JHeap.pathC, JHeap.alter] at hpc
      split at hpc
      · rename_i hx; subst hx
        cases hn : h.node x with
        | none => simp [hn] at hpc
        | some n =>
          simp [hn] at hpc
          rw [← hpc]
          exact walkKeys_reach hi.ord hi.keys ha hre' h.next hr
      · exact hi.path a ks x p ha hre' hpc

/-! ## Invalidation -/

theorem invalValueF_spec {h : JHeap} (ho : Ord h) (f : Nat) (r : Ref) (hf : r < f) :
    Eqv h (invalValueF f h r) ∧ (∀ x, (invalValueF f h r).pathC x = h.pathC x) ∧
    (∀ x v, (invalValueF f h r).valC x = some v → h.valC x = some v ∧ ¬ Anc h r x) := by
  induction f generalizing h r with
  | zero => omega
  | succ f ih =>
    simp only [invalValueF]
    have e : Eqv h (h.alter r (fun n => { n with valueC := none })) :=
      eqv_alter h r (fun _ => rfl) (fun _ => rfl) (fun _ => rfl)
    have hp : ∀ x, (h.alter r (fun n => { n with valueC := none })).pathC x = h.pathC x :=
      fun x => alter_pathC h r x (fun _ => rfl)
    have hv : ∀ x v, (h.alter r (fun n => { n with valueC := none })).valC x = some v →
        h.valC x = some v ∧ x ≠ r := by
      intro x v hx
      simp only [JHeap.valC, JHeap.alter] at hx
      split at hx
      · cases hn : h.node x <;> simp [hn] at hx
      · rename_i hne; exact ⟨hx, hne⟩
    generalize h.alter r (fun n => { n with valueC := none }) = h1 at e hp hv ⊢
    rw [e.parent]
    cases hpar : h.parent r with
    | none =>
      refine ⟨e, hp, fun x v hx => ⟨(hv x v hx).1, fun ha => ?_⟩⟩
      cases ha with
      | refl => exact (hv _ v hx).2 rfl
      | step h1 _ => rw [hpar] at h1; cases h1
    | some p =>
      simp only
      have hlt := ho.par r p hpar
      obtain ⟨i1, i2, i3⟩ := ih (e.ord ho) p (by omega)
      refine ⟨e.trans i1, fun x => (i2 x).trans (hp x), fun x v hx => ?_⟩
      obtain ⟨j1, j2⟩ := i3 x v hx
      obtain ⟨k1, k2⟩ := hv x v j1
      refine ⟨k1, fun ha => ?_⟩
      cases ha with
      | refl => exact k2 rfl
      | step h1 h2 =>
        rw [hpar] at h1; cases h1
        exact j2 (e.anc h2)

theorem invalValue_spec {h : JHeap} (ho : Ord h) {r : Ref} (hr : r < h.next) :
    Eqv h (invalValue h r) ∧ (∀ x, (invalValue h r).pathC x = h.pathC x) ∧
    (∀ x v, (invalValue h r).valC x = some v → h.valC x = some v ∧ ¬ Anc h r x) :=
  invalValueF_spec ho h.next r hr

/-- What `_invalidate_path` on a list of instances does. -/
structure PathInval (h h' : JHeap) (cs : List Ref) : Prop where
  eqv : Eqv h h'
  val : ∀ x, h'.valC x = h.valC x
  path : ∀ x p, h'.pathC x = some p → h.pathC x = some p ∧ ∀ c ∈ cs, ¬ Desc h c x

theorem invalPath_foldl {h0 : JHeap} (g : JHeap → Ref → JHeap) (cs : List Ref)
    (hg : ∀ c ∈ cs, ∀ h, Eqv h0 h → PathInval h (g h c) [c]) (h : JHeap) (he : Eqv h0 h) :
    PathInval h (cs.foldl g h) cs := by
  induction cs generalizing h with
  | nil => exact ⟨.refl h, fun _ => rfl, fun x p hp => ⟨hp, by simp⟩⟩
  | cons c cs ih =>
    have h1 := hg c (by simp) h he
    have h2 := ih (fun c hc => hg c (by simp [hc])) (g h c) (he.trans h1.eqv)
    refine ⟨h1.eqv.trans h2.eqv, fun x => (h2.val x).trans (h1.val x), fun x p hp => ?_⟩
    obtain ⟨a1, a2⟩ := h2.path x p hp
    obtain ⟨b1, b2⟩ := h1.path x p a1
    refine ⟨b1, fun y hy hd => ?_⟩
    simp only [List.mem_cons] at hy
    rcases hy with rfl | hy
    · exact b2 y (by simp) hd
    · exact a2 y hy (h1.eqv.desc hd)

theorem invalPathF_spec {h : JHeap} (ho : Ord h) (f : Nat) (r : Ref) (hf : h.next - r ≤ f)
    (hr : r < h.next) : PathInval h (invalPathF f h r) [r] := by
  induction f generalizing h r with
  | zero => omega
  | succ f ih =>
    simp only [invalPathF]
    have e : Eqv h (h.alter r (fun n => { n with pathC := none })) :=
      eqv_alter h r (fun _ => rfl) (fun _ => rfl) (fun _ => rfl)
    have hv : ∀ x, (h.alter r (fun n => { n with pathC := none })).valC x = h.valC x :=
      fun x => alter_valC h r x (fun _ => rfl)
    have hp : ∀ x v, (h.alter r (fun n => { n with pathC := none })).pathC x = some v →
        h.pathC x = some v ∧ x ≠ r := by
      intro x v hx
      simp only [JHeap.pathC, JHeap.alter] at hx
      split at hx
      · cases hn : h.node x <;> simp [hn] at hx
      · rename_i hne; exact ⟨hx, hne⟩
    generalize h.alter r (fun n => { n with pathC := none }) = h1 at e hp hv ⊢
    have h2 := invalPath_foldl (h0 := h1) (invalPathF f) (h1.data r).kids (fun c hc h' he' => by
      have hk := (e.ord ho).kid r c hc
      exact ih (he'.ord (e.ord ho)) c (by rw [he'.next]; have := e.next; omega)
        (by rw [he'.next]; exact hk.2.1)) h1 (.refl h1)
    refine ⟨e.trans h2.eqv, fun x => (h2.val x).trans (hv x), fun x p hx => ?_⟩
    obtain ⟨a1, a2⟩ := h2.path x p hx
    obtain ⟨b1, b2⟩ := hp x p a1
    refine ⟨b1, fun c hc hd => ?_⟩
    simp only [List.mem_singleton] at hc
    subst hc
    cases hd with
    | refl => exact b2 rfl
    | step hk hd' => exact a2 _ (by rw [e.data]; exact hk) (e.desc hd')

theorem invalPath_spec {h : JHeap} (ho : Ord h) {r : Ref} (hr : r < h.next) :
    PathInval h (invalPath h r) [r] := invalPathF_spec ho h.next r (by omega) hr

/-! ## Shifting keys -/

/-- What the loop that renumbers items does. -/
structure Shifted (h h' : JHeap) (d : Int) (cs : List Ref) : Prop where
  next : h'.next = h.next
  has : ∀ x, h'.has x ↔ h.has x
  data : ∀ x, h'.data x = h.data x
  parent : ∀ x, h'.parent x = h.parent x
  val : ∀ x, h'.valC x = h.valC x
  path : ∀ x p, h'.pathC x = some p → h.pathC x = some p ∧ ∀ c ∈ cs, ¬ Desc h c x
  key_other : ∀ x, x ∉ cs → h'.key x = h.key x
  key : ∀ c ∈ cs, ∀ k z, h.key c = some k → pyInt k = some z → h'.key c = some (intStr (z + d))

theorem desc_of_data {h h' : JHeap} (hd : ∀ x, h'.data x = h.data x) {a b : Ref} (h1 : Desc h a b) :
    Desc h' a b := by
  induction h1 with
  | refl => exact .refl
  | step hc _ ih => exact .step (by rw [hd]; exact hc) ih

theorem shiftKeys_spec {h : JHeap} (ho : Ord h) (d : Int) (cs : List Ref) (hn : cs.Nodup)
    (hcs : ∀ c ∈ cs, c < h.next ∧ ∃ k z, h.key c = some k ∧ pyInt k = some z) :
    (shiftKeys d h cs).2 = .ok () ∧ Shifted h (shiftKeys d h cs).1 d cs := by
  induction cs generalizing h with
  | nil =>
    exact ⟨rfl, rfl, fun _ => .rfl, fun _ => rfl, fun _ => rfl, fun _ => rfl,
      fun x p hp => ⟨hp, by simp⟩, fun _ _ => rfl, by simp⟩
  | cons c cs ih =>
    obtain ⟨hlt, k, z, hk, hz⟩ := hcs c (by simp)
    simp only [shiftKeys, hk, hz]
    have n1 : (h.alter c (fun n => { n with key := some (intStr (z + d)) })).next = h.next := rfl
    have a1 : ∀ x, (h.alter c (fun n => { n with key := some (intStr (z + d)) })).has x ↔ h.has x :=
      fun x => alter_has h c x _
    have a2 : ∀ x, (h.alter c (fun n => { n with key := some (intStr (z + d)) })).data x = h.data x :=
      fun x => alter_data h c x (fun _ => rfl)
    have a3 : ∀ x, (h.alter c (fun n => { n with key := some (intStr (z + d)) })).parent x = h.parent x :=
      fun x => alter_parent h c x (fun _ => rfl)
    have a4 : ∀ x, (h.alter c (fun n => { n with key := some (intStr (z + d)) })).valC x = h.valC x :=
      fun x => alter_valC h c x (fun _ => rfl)
    have a5 : ∀ x, (h.alter c (fun n => { n with key := some (intStr (z + d)) })).pathC x = h.pathC x :=
      fun x => alter_pathC h c x (fun _ => rfl)
    have a6 : ∀ x, x ≠ c →
        (h.alter c (fun n => { n with key := some (intStr (z + d)) })).key x = h.key x := by
      intro x hx
      simp [JHeap.key, JHeap.alter, hx]
    have a7 : (h.alter c (fun n => { n with key := some (intStr (z + d)) })).key c =
        some (intStr (z + d)) := by
      have : h.has c := (ho.dom c).2 hlt
      obtain ⟨n, hn⟩ := Option.isSome_iff_exists.1 this
      simp [JHeap.key, JHeap.alter, hn]
    generalize h.alter c (fun n => { n with key := some (intStr (z + d)) }) = h1 at *
    have ho1 : Ord h1 := by
      refine ⟨fun r => by rw [a1, n1]; exact ho.dom r, fun r x hx => ?_, fun r => ?_, fun r p hp => ?_⟩
      · rw [a2] at hx; rw [n1, a3]; exact ho.kid r x hx
      · rw [a2]; exact ho.nodup r
      · rw [a3] at hp; exact ho.par r p hp
    have hp := invalPath_spec ho1 (r := c) (by rw [n1]; exact hlt)
    simp only [List.nodup_cons] at hn
    have hcs' : ∀ y ∈ cs, y < (invalPath h1 c).next ∧ ∃ k z, (invalPath h1 c).key y = some k ∧
        pyInt k = some z := by
      intro y hy
      obtain ⟨h1', k', z', h2', h3'⟩ := hcs y (by simp [hy])
      refine ⟨by rw [hp.eqv.next, n1]; exact h1', k', z', ?_, h3'⟩
      rw [hp.eqv.key, a6 y (by rintro rfl; exact hn.1 hy), h2']
    obtain ⟨r1, r2⟩ := ih (hp.eqv.ord ho1) hn.2 hcs'
    refine ⟨r1, r2.next.trans (hp.eqv.next.trans n1), fun x => ?_, fun x => ?_, fun x => ?_,
      fun x => ?_, fun x p hx => ?_, fun x hx => ?_, fun y hy k' z' hk' hz' => ?_⟩
    · rw [r2.has, hp.eqv.has, a1]
    · rw [r2.data, hp.eqv.data, a2]
    · rw [r2.parent, hp.eqv.parent, a3]
    · rw [r2.val, hp.val, a4]
    · obtain ⟨b1, b2⟩ := r2.path x p hx
      obtain ⟨c1, c2⟩ := hp.path x p b1
      rw [a5] at c1
      refine ⟨c1, fun y hy hd => ?_⟩
      simp only [List.mem_cons] at hy
      rcases hy with rfl | hy
      · exact c2 y (by simp) (desc_of_data a2 hd)
      · exact b2 y hy (hp.eqv.desc (desc_of_data a2 hd))
    · simp only [List.mem_cons, not_or] at hx
      rw [r2.key_other x hx.2, hp.eqv.key, a6 x hx.1]
    · simp only [List.mem_cons] at hy
      rcases hy with rfl | hy
      · rw [hk] at hk'; cases hk'
        rw [hz] at hz'; cases hz'
        rw [r2.key_other y hn.1, hp.eqv.key, a7]
      · refine r2.key y hy k' z' ?_ hz'
        rw [hp.eqv.key, a6 y (by rintro rfl; exact hn.1 hy), hk']

end Jschon
