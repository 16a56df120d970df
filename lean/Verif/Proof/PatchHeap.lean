import Verif.Proof.Patch
import Verif.Spec.PatchHeap

namespace Jschon
open Spec

/-! ## Regions of the heap -/

/-- `p` is a scalar or lies in `[lo, hi)`. -/
def PV.In (lo hi : Nat) : PV → Prop
  | .sc _ => True
  | .ref a => lo ≤ a ∧ a < hi

/-- The cells from `lo` on refer only to cells from `lo` on. -/
def Region (lo : Nat) (h : PHeap) : Prop :=
  ∀ a, lo ≤ a → a < h.next → ∀ q ∈ (h.cell a).kids, q.In lo h.next

theorem PV.In.mono {lo hi hi' : Nat} {p : PV} (h : p.In lo hi) (hh : hi ≤ hi') : p.In lo hi' := by
  cases p with
  | sc s => trivial
  | ref a => exact ⟨h.1, by have := h.2; omega⟩

theorem PV.In.lower {lo lo' hi : Nat} {p : PV} (h : p.In lo hi) (hh : lo' ≤ lo) : p.In lo' hi := by
  cases p with
  | sc s => trivial
  | ref a => exact ⟨by have := h.1; omega, h.2⟩

theorem shift_in {n m : Nat} {p : PV} (h : p.In 0 m) : (p.shift n).In n (n + m) := by
  cases p with
  | sc s => trivial
  | ref a => exact ⟨by simp, by have := h.2; omega⟩

theorem kids_shift (n : Nat) (c : Cell) : (c.shift n).kids = c.kids.map (PV.shift n) := by
  cases c <;> simp [Cell.shift, Cell.kids]

theorem deepcopy_cell {h : PHeap} {p : PV} {a : Nat} (ha : a < h.next) :
    (h.deepcopy p).1.cell a = h.cell a := by simp [PHeap.deepcopy, ha]

theorem deepcopy_new {h : PHeap} {p : PV} {a : Nat} :
    (h.deepcopy p).1.cell (h.next + a) = (h.cell a).shift h.next := by
  simp only [PHeap.deepcopy]
  rw [if_neg (by omega), Nat.add_sub_cancel_left]

theorem deepcopy_region {lo : Nat} {h : PHeap} (p : PV) (h0 : Region 0 h) (hr : Region lo h)
    (hle : lo ≤ h.next) : Region lo (h.deepcopy p).1 := by
  intro a ha hn q hq
  by_cases hlt : a < h.next
  · rw [deepcopy_cell hlt] at hq
    exact (hr a ha hlt q hq).mono (by simp [PHeap.deepcopy])
  · obtain ⟨b, rfl⟩ := Nat.exists_eq_add_of_le (Nat.le_of_not_lt hlt)
    rw [deepcopy_new, kids_shift, List.mem_map] at hq
    obtain ⟨q', hq', rfl⟩ := hq
    have hb : b < h.next := by simp [PHeap.deepcopy] at hn; exact hn
    exact (shift_in (h0 b (Nat.zero_le _) hb q' hq')).lower hle

theorem deepcopy_in {lo : Nat} {h : PHeap} {p : PV} (hp : p.In 0 h.next) (hle : lo ≤ h.next) :
    (h.deepcopy p).2.In lo (h.deepcopy p).1.next := (shift_in hp).lower hle

theorem setCell_region {lo : Nat} {h : PHeap} {a : Nat} {c : Cell} (hr : Region lo h)
    (hc : lo ≤ a → ∀ q ∈ c.kids, q.In lo h.next) : Region lo (h.setCell a c) := by
  intro b hb hn q hq
  by_cases hba : b = a
  · subst hba
    simp only [PHeap.setCell, if_true] at hq
    exact hc hb q hq
  · simp only [PHeap.setCell, hba, if_false] at hq
    exact hr b hb hn q hq

theorem resolvePV_in {lo : Nat} {h : PHeap} (hr : Region lo h) {ks : List String} {p q : PV}
    (hp : p.In lo h.next) (hq : resolvePV h ks p = .ok q) : q.In lo h.next := by
  induction ks generalizing p with
  | nil => cases p <;> cases hq <;> exact hp
  | cons k ks ih =>
    cases p with
    | sc s => cases hq
    | ref a =>
      simp only [resolvePV] at hq
      have hk := hr a hp.1 hp.2
      cases hc : h.cell a with
      | dict ms =>
        simp only [hc, Cell.kids] at hq hk
        cases hl : dlookup k ms with
        | none => simp [hl] at hq
        | some w =>
          simp only [hl] at hq
          exact ih (hk w (List.mem_map_of_mem (f := Prod.snd) (dlookup_mem hl))) hq
      | list ps =>
        simp only [hc, Cell.kids] at hq hk
        split at hq
        · split at hq
          · cases hq
          · split at hq
            · rename_i w hw
              refine ih (hk w ?_) hq
              unfold pyIndex at hw
              split at hw
              · exact List.mem_of_getElem? hw
              · split at hw
                · exact List.mem_of_getElem? hw
                · cases hw
            · cases hq
        · cases hq

/-- What a call on a document in the region from `lo` on may do. -/
structure Stays (lo : Nat) (h h' : PHeap) (res : Except Exc PV) : Prop where
  region : Region lo h'
  next : h.next ≤ h'.next
  old : ∀ a, a < lo → h'.cell a = h.cell a
  res : ∀ d, res = .ok d → d.In lo h'.next

theorem Stays.rfl' {lo : Nat} {h : PHeap} {res : Except Exc PV} (hr : Region lo h)
    (hd : ∀ d, res = .ok d → d.In lo h.next) : Stays lo h h res := ⟨hr, Nat.le_refl _, fun _ _ => rfl, hd⟩

theorem Stays.err {lo : Nat} {h : PHeap} {e : Exc} (hr : Region lo h) :
    Stays lo h h (.error e) := .rfl' hr (fun _ hd => by cases hd)

theorem stays_deepcopy {lo : Nat} {h : PHeap} (p : PV) (h0 : Region 0 h) (hr : Region lo h)
    (hle : lo ≤ h.next) {res : Except Exc PV}
    (hd : ∀ d, res = .ok d → d.In lo (h.deepcopy p).1.next) :
    Stays lo h (h.deepcopy p).1 res :=
  ⟨deepcopy_region p h0 hr hle, by simp [PHeap.deepcopy],
    fun a ha => deepcopy_cell (by omega), hd⟩

theorem Stays.trans {lo : Nat} {h h1 h2 : PHeap} {r1 r2 : Except Exc PV} (a : Stays lo h h1 r1)
    (b : Stays lo h1 h2 r2) : Stays lo h h2 r2 :=
  ⟨b.region, Nat.le_trans a.next b.next, fun x hx => (b.old x hx).trans (a.old x hx), b.res⟩

theorem stays_setCell {lo : Nat} {h : PHeap} {a : Nat} {c : Cell} {doc : PV} (hr : Region lo h)
    (ha : lo ≤ a) (hc : ∀ q ∈ c.kids, q.In lo h.next) (hd : doc.In lo h.next) :
    Stays lo h (h.setCell a c) (.ok doc) :=
  ⟨setCell_region hr (fun _ => hc), Nat.le_refl _,
    fun b hb => by simp only [PHeap.setCell]; rw [if_neg (by omega)],
    fun d h' => by cases h'; exact hd⟩

theorem mem_insertIdx' {α : Type} {xs : List α} {i : Nat} {x y : α} (h : y ∈ xs.insertIdx i x) :
    y = x ∨ y ∈ xs := by
  by_cases hi : i ≤ xs.length
  · exact (List.mem_insertIdx hi).1 h
  · rw [List.insertIdx_of_length_lt (Nat.lt_of_not_le hi)] at h; exact .inr h

theorem mem_dset_snd {β : Type} {k : String} {v : β} {d : List (String × β)} {x : β}
    (h : x ∈ (dset k v d).map Prod.snd) : x = v ∨ x ∈ d.map Prod.snd := by
  induction d with
  | nil => simp [dset] at h; exact .inl h
  | cons m d ih =>
    obtain ⟨k', v'⟩ := m
    simp only [dset] at h
    split at h
    · simp only [List.map_cons, List.mem_cons] at h ⊢
      rcases h with h | h
      · exact .inl h
      · exact .inr (.inr h)
    · simp only [List.map_cons, List.mem_cons] at h ⊢
      rcases h with h | h
      · exact .inr (.inl h)
      · exact (ih h).imp id .inr

theorem mem_derase_snd {β : Type} {k : String} {d : List (String × β)} {x : β}
    (h : x ∈ (derase k d).map Prod.snd) : x ∈ d.map Prod.snd := by
  induction d with
  | nil => simp [derase] at h
  | cons m d ih =>
    obtain ⟨k', v'⟩ := m
    simp only [derase] at h
    split at h
    · exact List.mem_cons_of_mem _ h
    · simp only [List.map_cons, List.mem_cons] at h ⊢
      exact h.imp id ih

theorem stays_insert {lo : Nat} {h : PHeap} {doc parent v : PV} {i : Nat} (hr : Region lo h)
    (hd : doc.In lo h.next) (hp : parent.In lo h.next) (hv : v.In lo h.next) :
    Stays lo h (thenDoc doc (insertPV h parent i v)).1 (thenDoc doc (insertPV h parent i v)).2 := by
  cases parent with
  | sc s => exact .err hr
  | ref a =>
    have hk := hr a hp.1 hp.2
    cases hc : h.cell a with
    | dict ms => simp only [insertPV, hc, thenDoc]; exact .err hr
    | list ps =>
      rw [hc] at hk
      simp only [insertPV, hc, thenDoc]
      refine stays_setCell hr hp.1 (fun q hq => ?_) hd
      rcases mem_insertIdx' hq with rfl | hq
      · exact hv
      · exact hk q hq

theorem stays_setItem {lo : Nat} {h : PHeap} {doc parent v : PV} {i : Nat} (hr : Region lo h)
    (hd : doc.In lo h.next) (hp : parent.In lo h.next) (hv : v.In lo h.next) :
    Stays lo h (thenDoc doc (setItemPV h parent i v)).1 (thenDoc doc (setItemPV h parent i v)).2 := by
  cases parent with
  | sc s => exact .err hr
  | ref a =>
    have hk := hr a hp.1 hp.2
    cases hc : h.cell a with
    | dict ms => simp only [setItemPV, hc, thenDoc]; exact .err hr
    | list ps =>
      rw [hc] at hk
      simp only [setItemPV, hc, thenDoc]
      refine stays_setCell hr hp.1 (fun q hq => ?_) hd
      rcases List.mem_or_eq_of_mem_set hq with hq | rfl
      · exact hk q hq
      · exact hv

theorem stays_delItem {lo : Nat} {h : PHeap} {doc parent : PV} {i : Nat} (hr : Region lo h)
    (hd : doc.In lo h.next) (hp : parent.In lo h.next) :
    Stays lo h (thenDoc doc (delItemPV h parent i)).1 (thenDoc doc (delItemPV h parent i)).2 := by
  cases parent with
  | sc s => exact .err hr
  | ref a =>
    have hk := hr a hp.1 hp.2
    cases hc : h.cell a with
    | dict ms => simp only [delItemPV, hc, thenDoc]; exact .err hr
    | list ps =>
      rw [hc] at hk
      simp only [delItemPV, hc, thenDoc]
      exact stays_setCell hr hp.1 (fun q hq => hk q (List.mem_of_mem_eraseIdx hq)) hd

theorem stays_setKey {lo : Nat} {h : PHeap} {doc parent v : PV} {k : String} (hr : Region lo h)
    (hd : doc.In lo h.next) (hp : parent.In lo h.next) (hv : v.In lo h.next) :
    Stays lo h (thenDoc doc (setKeyPV h parent k v)).1 (thenDoc doc (setKeyPV h parent k v)).2 := by
  cases parent with
  | sc s => exact .err hr
  | ref a =>
    have hk := hr a hp.1 hp.2
    cases hc : h.cell a with
    | list ms => simp only [setKeyPV, hc, thenDoc]; exact .err hr
    | dict ms =>
      rw [hc] at hk
      simp only [setKeyPV, hc, thenDoc]
      refine stays_setCell hr hp.1 (fun q hq => ?_) hd
      rcases mem_dset_snd hq with rfl | hq
      · exact hv
      · exact hk q hq

theorem stays_delKey {lo : Nat} {h : PHeap} {doc parent : PV} {k : String} (hr : Region lo h)
    (hd : doc.In lo h.next) (hp : parent.In lo h.next) :
    Stays lo h (thenDoc doc (delKeyPV h parent k)).1 (thenDoc doc (delKeyPV h parent k)).2 := by
  cases parent with
  | sc s => exact .err hr
  | ref a =>
    have hk := hr a hp.1 hp.2
    cases hc : h.cell a with
    | list ms => simp only [delKeyPV, hc, thenDoc]; exact .err hr
    | dict ms =>
      rw [hc] at hk
      simp only [delKeyPV, hc, thenDoc]
      exact stays_setCell hr hp.1 (fun q hq => hk q (mem_derase_snd hq)) hd

theorem nodePV_in {lo : Nat} {h : PHeap} (hr : Region lo h) {doc parent : PV} {path : Ptr} {t : NodeT}
    (hd : doc.In lo h.next) (hn : nodePV h doc path = .ok (t, parent)) : parent.In lo h.next := by
  unfold nodePV at hn
  split at hn
  · cases hn; trivial
  · split at hn
    · cases hn
    · rename_i q hq
      split at hn
      · split at hn
        · cases hn; exact resolvePV_in hr hd hq
        · cases hn
      · cases hn

theorem stays_add {lo : Nat} {h : PHeap} {doc value : PV} {path : Ptr} (h0 : Region 0 h)
    (hr : Region lo h) (hle : lo ≤ h.next) (hd : doc.In lo h.next) (hv : value.In 0 h.next) :
    Stays lo h (addPV h doc path value).1 (addPV h doc path value).2 := by
  unfold addPV
  cases hn : nodePV h doc path with
  | error e => exact .err hr
  | ok tp =>
    obtain ⟨t, parent⟩ := tp
    have hp := nodePV_in hr hd hn
    have hs : ∀ {res}, _ → Stays lo h (h.deepcopy value).1 res := stays_deepcopy value h0 hr hle
    have hnx : h.next ≤ (h.deepcopy value).1.next := by simp [PHeap.deepcopy]
    have hv' := deepcopy_in hv hle
    have hs0 := hs (res := .error .keyError) (fun _ h => by cases h)
    cases t with
    | root => exact hs (fun d h' => by cases h'; exact hv')
    | item i => exact hs0.trans (stays_insert hs0.region (hd.mono hnx) (hp.mono hnx) hv')
    | itemNew i => exact hs0.trans (stays_insert hs0.region (hd.mono hnx) (hp.mono hnx) hv')
    | prop k => exact hs0.trans (stays_setKey hs0.region (hd.mono hnx) (hp.mono hnx) hv')
    | propNew k => exact hs0.trans (stays_setKey hs0.region (hd.mono hnx) (hp.mono hnx) hv')

theorem stays_replace {lo : Nat} {h : PHeap} {doc value : PV} {path : Ptr} (h0 : Region 0 h)
    (hr : Region lo h) (hle : lo ≤ h.next) (hd : doc.In lo h.next) (hv : value.In 0 h.next) :
    Stays lo h (replacePV h doc path value).1 (replacePV h doc path value).2 := by
  unfold replacePV
  cases hn : nodePV h doc path with
  | error e => exact .err hr
  | ok tp =>
    obtain ⟨t, parent⟩ := tp
    have hp := nodePV_in hr hd hn
    have hs : ∀ {res}, _ → Stays lo h (h.deepcopy value).1 res := stays_deepcopy value h0 hr hle
    have hnx : h.next ≤ (h.deepcopy value).1.next := by simp [PHeap.deepcopy]
    have hv' := deepcopy_in hv hle
    have hs0 := hs (res := .error .keyError) (fun _ h => by cases h)
    cases t with
    | root => exact hs (fun d h' => by cases h'; exact hv')
    | item i => exact hs0.trans (stays_setItem hs0.region (hd.mono hnx) (hp.mono hnx) hv')
    | itemNew i => exact hs (fun d h' => by cases h')
    | prop k => exact hs0.trans (stays_setKey hs0.region (hd.mono hnx) (hp.mono hnx) hv')
    | propNew k => exact hs (fun d h' => by cases h')

theorem stays_remove {lo : Nat} {h : PHeap} {doc : PV} {path : Ptr}
    (hr : Region lo h) (hd : doc.In lo h.next) :
    Stays lo h (removePV h doc path).1 (removePV h doc path).2 := by
  unfold removePV
  cases hn : nodePV h doc path with
  | error e => exact .err hr
  | ok tp =>
    obtain ⟨t, parent⟩ := tp
    have hp := nodePV_in hr hd hn
    cases t with
    | root => exact .rfl' hr (fun d h' => by cases h'; trivial)
    | item i => exact stays_delItem hr hd hp
    | itemNew i => exact .err hr
    | prop k => exact stays_delKey hr hd hp
    | propNew k => exact .err hr

theorem stays_copy {lo : Nat} {h : PHeap} {doc : PV} {path from_ : Ptr} (h0 : Region 0 h)
    (hr : Region lo h) (hle : lo ≤ h.next) (hd : doc.In lo h.next) :
    Stays lo h (copyPV h doc path from_).1 (copyPV h doc path from_).2 := by
  unfold copyPV
  cases hq : resolvePV h from_.keys doc with
  | error e => exact .err hr
  | ok q => exact stays_add h0 hr hle hd ((resolvePV_in hr hd hq).lower (Nat.zero_le _))

theorem stays_move {lo : Nat} {h : PHeap} {doc : PV} {path from_ : Ptr} (h0 : Region 0 h)
    (hr : Region lo h) (hle : lo ≤ h.next) (hd : doc.In lo h.next) :
    Stays lo h (movePV h doc path from_).1 (movePV h doc path from_).2 := by
  unfold movePV
  cases hq : resolvePV h from_.keys doc with
  | error e => exact .err hr
  | ok q =>
    have s1 := stays_remove (path := from_) hr hd
    have s0 := stays_remove (path := from_) h0 (hd.lower (Nat.zero_le _))
    rcases hrem : removePV h doc from_ with ⟨h1, r⟩
    rw [hrem] at s1 s0
    cases r with
    | error e => exact s1
    | ok d =>
      exact s1.trans (stays_add s0.region s1.region (Nat.le_trans hle s1.next) (s1.res d rfl)
        (((resolvePV_in hr hd hq).lower (Nat.zero_le _)).mono s1.next))

theorem testPV_heap (h : PHeap) (doc : PV) (path : Ptr) (value : PV) :
    (testPV h doc path value).1 = h ∧ ∀ d, (testPV h doc path value).2 = .ok d → d = doc := by
  unfold testPV
  cases hn : nodePV h doc path with
  | error e => exact ⟨rfl, fun d hd => by cases hd⟩
  | ok tp =>
    obtain ⟨t, parent⟩ := tp
    cases t <;> simp only
    case itemNew | propNew => exact ⟨trivial, fun d hd => by cases hd⟩
    all_goals
      split
      · exact ⟨rfl, fun d hd => by cases hd⟩
      · split
        · exact ⟨rfl, fun d hd => by cases hd⟩
        · exact ⟨rfl, fun d hd => by cases hd; rfl⟩

theorem stays_apply {lo : Nat} {h : PHeap} {doc : PV} (o : POp) (h0 : Region 0 h)
    (hr : Region lo h) (hle : lo ≤ h.next) (hd : doc.In lo h.next) (hv : o.value.In 0 h.next) :
    Stays lo h (o.apply h doc).1 (o.apply h doc).2 := by
  unfold POp.apply
  cases o.op with
  | add => exact stays_add h0 hr hle hd hv
  | remove => exact stays_remove hr hd
  | replace => exact stays_replace h0 hr hle hd hv
  | move =>
    cases o.from_ with
    | none => exact .err hr
    | some f => exact stays_move h0 hr hle hd
  | copy =>
    cases o.from_ with
    | none => exact .err hr
    | some f => exact stays_copy h0 hr hle hd
  | test =>
    obtain ⟨h1, h2⟩ := testPV_heap h doc o.path o.value
    simp only
    rw [h1]
    exact .rfl' hr (fun d hd' => by rw [h2 d hd']; exact hd)

theorem stays_applyAll {lo : Nat} {h : PHeap} {doc : PV} (os : List POp) (h0 : Region 0 h)
    (hr : Region lo h) (hle : lo ≤ h.next) (hd : doc.In lo h.next)
    (hv : ∀ o ∈ os, o.value.In 0 h.next) :
    Stays lo h (applyAllPV os h doc).1 (applyAllPV os h doc).2 := by
  induction os generalizing h doc with
  | nil => exact .rfl' hr (fun d h' => by cases h'; exact hd)
  | cons o os ih =>
    have hvo := hv o (List.mem_cons_self ..)
    have s1 := stays_apply o h0 hr hle hd hvo
    have s0 := stays_apply o h0 h0 (Nat.zero_le _) (hd.lower (Nat.zero_le _)) hvo
    simp only [applyAllPV]
    rcases hap : o.apply h doc with ⟨h1, r⟩
    rw [hap] at s1 s0
    cases r with
    | error e => exact s1
    | ok d =>
      exact s1.trans (ih s0.region s1.region (Nat.le_trans hle s1.next) (s1.res d rfl)
        (fun o ho => (hv o (List.mem_cons_of_mem _ ho)).mono s1.next))

theorem closed_region {h : PHeap} (hc : Closed h) : Region 0 h := by
  intro a _ ha q hq
  have := hc a ha q hq
  cases q with
  | sc s => trivial
  | ref b => exact ⟨Nat.zero_le _, this⟩

theorem below_in {n : Nat} {p : PV} (h : Spec.PV.Below n p) : p.In 0 n := by
  cases p with
  | sc s => trivial
  | ref b => exact ⟨Nat.zero_le _, h⟩

theorem stays_evaluate {h : PHeap} {doc : PV} (os : List POp) (hc : Closed h)
    (hd : Spec.PV.Below h.next doc) (hv : ∀ o ∈ os, Spec.PV.Below h.next o.value) :
    Stays h.next h (evaluatePV os h doc).1 (evaluatePV os h doc).2 := by
  have h0 := closed_region hc
  have hr : Region h.next h := fun a ha hn => by omega
  have s := stays_deepcopy (res := .error .keyError) doc h0 hr (Nat.le_refl _) (fun _ h => by cases h)
  exact s.trans (stays_applyAll os (deepcopy_region doc h0 h0 (Nat.zero_le _)) s.region
    (by simp [PHeap.deepcopy]) (deepcopy_in (below_in hd) (Nat.le_refl _))
    (fun o ho => (below_in (hv o ho)).mono (by simp [PHeap.deepcopy])))

theorem reaches_in {lo : Nat} {h : PHeap} (hr : Region lo h) {p : PV} {a : Nat} (hp : p.In lo h.next)
    (ha : Reaches h p a) : lo ≤ a ∧ a < h.next := by
  induction ha with
  | here => exact hp
  | step hq _ ih => exact ih (hr _ hp.1 hp.2 _ hq)

end Jschon
