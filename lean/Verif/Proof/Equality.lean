import Verif.Model.Equality
import Verif.Proof.Value

namespace Jschon
open Spec

theorem jsonEqItems_iff (xs ys : List Value) (hl : xs.length = ys.length) :
    jsonEqItems xs ys = true ↔
      ∀ (i : Nat) (x y : Value), xs[i]? = some x → ys[i]? = some y → jsonEq x y = true := by
  induction xs generalizing ys with
  | nil => simp [jsonEqItems]
  | cons x xs ih =>
    cases ys with
    | nil => simp at hl
    | cons y ys =>
      simp only [jsonEqItems, Bool.and_eq_true]
      rw [ih ys (by simpa using hl)]
      constructor
      · rintro ⟨h1, h2⟩ i a b ha hb
        cases i with
        | zero => simp at ha hb; subst ha hb; exact h1
        | succ i => simp at ha hb; exact h2 i a b ha hb
      · intro h
        exact ⟨h 0 x y (by simp) (by simp), fun i a b ha hb => h (i + 1) a b (by simpa) (by simpa)⟩

theorem jsonEqMembers_iff (as bs : List (String × Value)) :
    jsonEqMembers as bs = true ↔
      ∀ k v, (k, v) ∈ as → ∃ w, dlookup k bs = some w ∧ jsonEq v w = true := by
  induction as with
  | nil => simp [jsonEqMembers]
  | cons a as ih =>
    obtain ⟨k, v⟩ := a
    simp only [jsonEqMembers, Bool.and_eq_true, ih, List.mem_cons, Prod.mk.injEq]
    constructor
    · rintro ⟨h1, h2⟩ k' v' (⟨rfl, rfl⟩ | h)
      · cases hk : dlookup k' bs with
        | none => simp [hk] at h1
        | some w => simp only [hk] at h1; exact ⟨w, rfl, h1⟩
      · exact h2 k' v' h
    · intro h
      refine ⟨?_, fun k' v' h' => h k' v' (.inr h')⟩
      obtain ⟨w, hw, he⟩ := h k v (.inl ⟨rfl, rfl⟩)
      simp [hw, he]

theorem nodup_subset_length {l m : List String} (hn : l.Nodup) (hs : ∀ x ∈ l, x ∈ m) :
    l.length ≤ m.length := by
  induction l generalizing m with
  | nil => simp
  | cons a l ih =>
    rw [List.nodup_cons] at hn
    have ha : a ∈ m := hs a (by simp)
    have h := ih (m := m.erase a) hn.2 (fun x hx => by
      have hne : x ≠ a := by rintro rfl; exact hn.1 hx
      rw [List.mem_erase_of_ne hne]
      exact hs x (by simp [hx]))
    rw [List.length_erase_of_mem ha] at h
    have : 0 < m.length := List.length_pos_of_mem ha
    simp only [List.length_cons]
    omega

theorem subset_of_length {l m : List String} (hn : l.Nodup) (hs : ∀ x ∈ l, x ∈ m)
    (hl : m.length ≤ l.length) : ∀ x ∈ m, x ∈ l := by
  intro x hx
  apply Decidable.byContradiction
  intro hxl
  have h := nodup_subset_length (l := x :: l) (m := m) (List.nodup_cons.2 ⟨hxl, hn⟩) (by
    intro y hy
    rcases List.mem_cons.1 hy with rfl | hy
    · exact hx
    · exact hs y hy)
  simp only [List.length_cons] at h
  omega

theorem keysEq_iff (as bs : List (String × Value)) (ha : (dkeys as).Nodup) (hb : (dkeys bs).Nodup) :
    keysEq as bs = true ↔ ∀ k, dlookup k as = none ↔ dlookup k bs = none := by
  have hlen : ∀ d : List (String × Value), (dkeys d).length = d.length := by simp [dkeys]
  simp only [keysEq, Bool.and_eq_true, beq_iff_eq, List.all_eq_true, dlookup_isSome]
  have hsub : (∀ x ∈ as, x.1 ∈ dkeys bs) ↔ ∀ k ∈ dkeys as, k ∈ dkeys bs := by
    simp only [dkeys, List.mem_map]
    constructor
    · rintro h k ⟨a, ha, rfl⟩; exact h a ha
    · intro h a ha; exact h _ ⟨a, ha, rfl⟩
  rw [hsub]
  constructor
  · rintro ⟨hl, hs⟩ k
    rw [dlookup_eq_none, dlookup_eq_none]
    have hs' := subset_of_length ha hs (by rw [hlen, hlen]; omega)
    exact ⟨fun h hk => h (hs' k hk), fun h hk => h (hs k hk)⟩
  · intro h
    have h1 : ∀ k ∈ dkeys as, k ∈ dkeys bs := by
      intro k hk
      apply Decidable.byContradiction
      intro hk'
      exact (dlookup_eq_none.1 ((h k).2 (dlookup_eq_none.2 hk'))) hk
    have h2 : ∀ k ∈ dkeys bs, k ∈ dkeys as := by
      intro k hk
      apply Decidable.byContradiction
      intro hk'
      exact (dlookup_eq_none.1 ((h k).1 (dlookup_eq_none.2 hk'))) hk
    refine ⟨?_, h1⟩
    have e1 := nodup_subset_length ha h1
    have e2 := nodup_subset_length hb h2
    rw [hlen, hlen] at e1 e2
    omega

theorem jsonEq_iff_same (a b : Value) (ha : a.WF) (hb : b.WF) : jsonEq a b = true ↔ Same a b := by
  induction a using Value.induct generalizing b with
  | null =>
    cases b with
    | null => simp only [jsonEq, true_iff]; exact .null
    | _ => simp only [jsonEq]; constructor <;> intro h <;> cases h
  | bool x =>
    cases b with
    | bool y =>
      simp only [jsonEq, beq_iff_eq]
      constructor
      · rintro rfl; exact .bool
      · intro h; cases h; rfl
    | _ => simp only [jsonEq]; constructor <;> intro h <;> cases h
  | num m =>
    cases b with
    | num n =>
      simp only [jsonEq, beq_iff_eq]
      constructor
      · intro h; exact .num h
      · intro h; cases h with | num h => exact h
    | _ => simp only [jsonEq]; constructor <;> intro h <;> cases h
  | str s =>
    cases b with
    | str t =>
      simp only [jsonEq, beq_iff_eq]
      constructor
      · rintro rfl; exact .str
      · intro h; cases h; rfl
    | _ => simp only [jsonEq]; constructor <;> intro h <;> cases h
  | arr xs ih =>
    cases b with
    | arr ys =>
      cases ha with | arr ha => ?_
      cases hb with | arr hb => ?_
      simp only [jsonEq, Bool.and_eq_true, beq_iff_eq]
      constructor
      · rintro ⟨hl, h⟩
        rw [jsonEqItems_iff xs ys hl] at h
        refine .arr hl (fun i x y hx hy => ?_)
        have mx := List.mem_of_getElem? hx
        have my := List.mem_of_getElem? hy
        exact (ih x mx y (ha x mx) (hb y my)).1 (h i x y hx hy)
      · intro h
        cases h with
        | arr hl h =>
          refine ⟨hl, (jsonEqItems_iff xs ys hl).2 (fun i x y hx hy => ?_)⟩
          have mx := List.mem_of_getElem? hx
          have my := List.mem_of_getElem? hy
          exact (ih x mx y (ha x mx) (hb y my)).2 (h i x y hx hy)
    | _ => simp only [jsonEq]; constructor <;> intro h <;> cases h
  | obj as ih =>
    cases b with
    | obj bs =>
      cases ha with | obj hna ha => ?_
      cases hb with | obj hnb hb => ?_
      simp only [jsonEq, Bool.and_eq_true, keysEq_iff as bs hna hnb, jsonEqMembers_iff]
      constructor
      · rintro ⟨hk, h⟩
        refine .obj hk (fun k v w hv hw => ?_)
        have mv := dlookup_mem hv
        have mw := dlookup_mem hw
        obtain ⟨w', hw', he⟩ := h k v mv
        rw [hw] at hw'
        cases hw'
        exact (ih _ mv w (ha _ mv) (hb _ mw)).1 he
      · intro h
        cases h with
        | obj hk h =>
          refine ⟨hk, fun k v mv => ?_⟩
          have hv := dlookup_of_mem hna mv
          cases hw : dlookup k bs with
          | none => rw [(hk k).2 hw] at hv; cases hv
          | some w =>
            exact ⟨w, rfl, (ih _ mv w (ha _ mv) (hb _ (dlookup_mem hw))).2 (h k v w hv hw)⟩
    | _ => simp only [jsonEq]; constructor <;> intro h <;> cases h

theorem same_refl (a : Value) : Same a a := by
  induction a using Value.induct with
  | null => exact .null
  | bool b => exact .bool
  | num n => exact .num rfl
  | str s => exact .str
  | arr xs ih =>
    refine .arr rfl (fun i x y hx hy => ?_)
    rw [hx] at hy; cases hy
    exact ih x (List.mem_of_getElem? hx)
  | obj as ih =>
    refine .obj (fun _ => Iff.rfl) (fun k v w hv hw => ?_)
    rw [hv] at hw; cases hw
    exact ih _ (dlookup_mem hv)

theorem same_symm {a b : Value} (h : Same a b) : Same b a := by
  induction h with
  | null => exact .null
  | bool => exact .bool
  | num h => exact .num h.symm
  | str => exact .str
  | arr hl _ ih => exact .arr hl.symm (fun i x y hx hy => ih i y x hy hx)
  | obj hk _ ih => exact .obj (fun k => (hk k).symm) (fun k v w hv hw => ih k w v hw hv)

theorem same_trans {a b c : Value} (h : Same a b) (h' : Same b c) : Same a c := by
  induction h generalizing c with
  | null => exact h'
  | bool => exact h'
  | num h => cases h' with | num h2 => exact .num (h.trans h2)
  | str => exact h'
  | @arr xs ys hl _ ih =>
    cases h' with
    | @arr _ zs hl' h2 =>
      refine .arr (hl.trans hl') (fun i x z hx hz => ?_)
      have hi : i < ys.length := by
        rw [hl']; exact (List.getElem?_eq_some_iff.1 hz).1
      exact ih i x ys[i] hx (List.getElem?_eq_getElem hi)
        (h2 i ys[i] z (List.getElem?_eq_getElem hi) hz)
  | @obj as bs hk _ ih =>
    cases h' with
    | @obj _ cs hk' h2 =>
      refine .obj (fun k => (hk k).trans (hk' k)) (fun k v w hv hw => ?_)
      cases hb : dlookup k bs with
      | none => rw [(hk k).2 hb] at hv; cases hv
      | some u => exact ih k v u hv hb (h2 k u w hb hw)

end Jschon
