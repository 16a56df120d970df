import Verif.Model.PatchSeq
import Verif.Props.PatchEq
import Verif.Props.JsonHeap

/-!
# A patch as a list of operations: C79
-/

namespace Jschon
open Spec

/-- What an argument stands for: the operation itself or the one that the dict describes. -/
inductive Spec.OpFor : OpArg → PatchOp → Prop
  | op {o} : OpFor (.op o) o
  | dict {d o} : PatchOp.ofDict d = .ok o → OpFor (.dict d) o

theorem opFor_iff {a : OpArg} {o : PatchOp} : a.convert = .ok o ↔ OpFor a o := by
  cases a with
  | op p => exact ⟨fun h => by cases h; exact .op, fun h => by cases h; rfl⟩
  | dict d => exact ⟨fun h => .dict h, fun h => by cases h with | dict h => exact h⟩

theorem patch_pos_iff {α : Type} (p : List α) (i : Int) (n : Nat) :
    pyPos p.length i = some n ↔ ∃ l x r, p = l ++ x :: r ∧ l.length = n ∧ IndexAt i l.length r.length := by
  constructor
  · intro h
    have hn : n < p.length ∧ (i = n ∨ i = (n : Int) - p.length) := by
      unfold pyPos at h
      split at h
      · split at h
        · cases h; omega
        · cases h
      · split at h
        · cases h; omega
        · cases h
    obtain ⟨hn, hi⟩ := hn
    refine ⟨p.take n, p[n], p.drop (n + 1), ?_, ?_, ?_⟩
    · rw [List.getElem_cons_drop, List.take_append_drop]
    · simp; omega
    · simp only [IndexAt, List.length_take, List.length_drop]; omega
  · rintro ⟨l, x, r, rfl, rfl, hi⟩
    simp only [IndexAt] at hi
    simp only [pyPos, List.length_append, List.length_cons]
    split
    · rw [if_pos (by omega)]; congr 1; omega
    · rw [if_pos (by omega)]; congr 1; omega

/-! ## C79 -/

/-- C79: a patch split at any index is evaluated as its two parts, one after the other. -/
theorem C79_split (p : List PatchOp) (i : Int) (doc : Value) :
    patchSlice p none (some i) ++ patchSlice p (some i) none = p ∧
    patchEvaluate p doc =
      match patchEvaluate (patchSlice p none (some i)) doc with
      | .ok mid => patchEvaluate (patchSlice p (some i) none) mid
      | .error e => .error e := by
  have : patchSlice p none (some i) ++ patchSlice p (some i) none = p := by
    simp [patchSlice, List.take_append_drop]
  refine ⟨this, ?_⟩
  have h := C24_append (patchSlice p none (some i)) (patchSlice p (some i) none) doc
  rw [this] at h
  rw [h]
  split <;> simp_all

/-- C79: a slice is the run of operations between its bounds. -/
theorem C79_slice (p : List PatchOp) (i j : Option Int) (lo hi : Nat) (h1 : SliceBound p.length 0 i lo)
    (h2 : SliceBound p.length p.length j hi) (n : Nat) :
    (patchSlice p i j)[n]? = if lo + n < hi then p[lo + n]? else none := by
  have key : ∀ (d : Nat) (b : Option Int) (x : Nat), SliceBound p.length d b x →
      (b.map (sliceBound p.length)).getD d = x := by
    intro d b x h
    cases h with
    | omitted => rfl
    | fromStart k =>
      have h1 : ¬ ((k : Int) < 0) := by omega
      simp only [Option.map_some, Option.getD_some, sliceBound, if_neg h1, Int.toNat_natCast]
    | fromEnd k h0 =>
      have h1 : -(k : Int) < 0 := by omega
      simp only [Option.map_some, Option.getD_some, sliceBound, if_pos h1]
      omega
  simp only [patchSlice, key _ _ _ h1, key _ _ _ h2, List.getElem?_drop, List.getElem?_take]

/-- C79: `patch[i]` is the operation there, from the front or from the back; IndexError otherwise. -/
theorem C79_item (p : List PatchOp) (i : Int) :
    (∀ o, patchItem p i = .ok o ↔ ∃ l r, p = l ++ o :: r ∧ IndexAt i l.length r.length) ∧
    ∀ e, patchItem p i = .error e → e = .indexError := by
  have hp : pyIndex p i = (pyPos p.length i).bind (fun n => p[n]?) := by
    simp only [pyIndex, pyPos]
    split
    · split
      · rfl
      · rename_i h; simp only [Option.bind_none, List.getElem?_eq_none_iff]; omega
    · split <;> rfl
  refine ⟨fun o => ?_, fun e h => by unfold patchItem at h; split at h <;> cases h; rfl⟩
  have : patchItem p i = .ok o ↔ pyIndex p i = some o := by
    unfold patchItem
    split
    · rename_i x hx; rw [hx]; simp
    · rename_i hx; rw [hx]; simp
  rw [this, hp]
  simp only [Option.bind_eq_some_iff]
  constructor
  · rintro ⟨n, hn, ho⟩
    obtain ⟨l, x, r, rfl, rfl, hi⟩ := (patch_pos_iff p i n).1 hn
    simp at ho; subst ho
    exact ⟨l, r, rfl, hi⟩
  · rintro ⟨l, r, rfl, hi⟩
    exact ⟨l.length, (patch_pos_iff _ i _).2 ⟨l, o, r, rfl, rfl, hi⟩, by simp⟩

/-- C79: assignment replaces the operation there by the one given, or described by a dict. -/
theorem C79_set (p p' : List PatchOp) (i : Int) (a : OpArg) :
    patchSetItem p i a = (p', .ok ()) ↔
      ∃ l x r o, p = l ++ x :: r ∧ IndexAt i l.length r.length ∧ OpFor a o ∧ p' = l ++ o :: r := by
  unfold patchSetItem
  constructor
  · intro h
    split at h
    · cases h
    · rename_i o ho
      split at h
      · rename_i n hn
        obtain ⟨l, x, r, rfl, rfl, hi⟩ := (patch_pos_iff p i n).1 hn
        cases h
        exact ⟨l, x, r, o, rfl, hi, opFor_iff.1 ho, by simp⟩
      · cases h
  · rintro ⟨l, x, r, o, rfl, hi, ho, rfl⟩
    rw [opFor_iff.2 ho]
    simp only [(patch_pos_iff (l ++ x :: r) i _).2 ⟨l, x, r, rfl, rfl, hi⟩]
    simp

/-- C79: deletion removes the operation there. -/
theorem C79_del (p p' : List PatchOp) (i : Int) :
    patchDelItem p i = (p', .ok ()) ↔ ∃ l x r, p = l ++ x :: r ∧ IndexAt i l.length r.length ∧ p' = l ++ r := by
  unfold patchDelItem
  constructor
  · intro h
    split at h
    · rename_i n hn
      obtain ⟨l, x, r, rfl, rfl, hi⟩ := (patch_pos_iff p i n).1 hn
      cases h
      exact ⟨l, x, r, rfl, hi, eraseIdx_append l r x⟩
    · cases h
  · rintro ⟨l, x, r, rfl, hi, rfl⟩
    simp only [(patch_pos_iff (l ++ x :: r) i _).2 ⟨l, x, r, rfl, rfl, hi⟩, eraseIdx_append]

/-- C79: insertion puts the operation before the index, where an index out of range stands for the nearer
end. -/
theorem C79_insert (p p' : List PatchOp) (i : Int) (a : OpArg) :
    patchInsert p i a = (p', .ok ()) ↔
      ∃ l r o, p = l ++ r ∧ OpFor a o ∧ p' = l ++ o :: r ∧
        (i = l.length ∨ (i < 0 ∧ i = -(r.length : Int)) ∨ (r = [] ∧ i > l.length) ∨
          (l = [] ∧ i < -(r.length : Int))) := by
  have hb : ∀ l r : List PatchOp, (i = l.length ∨ (i < 0 ∧ i = -(r.length : Int)) ∨ (r = [] ∧ i > l.length) ∨
      (l = [] ∧ i < -(r.length : Int))) → sliceBound (l ++ r).length i = l.length := by
    intro l r h
    simp only [sliceBound, List.length_append]
    rcases h with h | ⟨_, h⟩ | ⟨rfl, h⟩ | ⟨rfl, h⟩
    · split <;> omega
    · rw [if_pos (by omega)]; omega
    · rw [if_neg (by omega)]; simp; omega
    · rw [if_pos (by omega)]; simp; omega
  unfold patchInsert
  constructor
  · intro h
    split at h
    · cases h
    · rename_i o ho
      cases h
      have hle : sliceBound p.length i ≤ p.length := by unfold sliceBound; split <;> omega
      refine ⟨p.take (sliceBound p.length i), p.drop (sliceBound p.length i), o,
        (List.take_append_drop _ _).symm, opFor_iff.1 ho, insertIdx_split p _ hle o, ?_⟩
      rw [← List.length_eq_zero_iff, ← List.length_eq_zero_iff]
      simp only [List.length_take, List.length_drop]
      unfold sliceBound
      split <;> omega
  · rintro ⟨l, r, o, rfl, ho, rfl, hi⟩
    rw [opFor_iff.2 ho]
    simp only [hb l r hi, insertIdx_append]

/-- C79: an edit that raises leaves the patch as it was, and it raises exactly if the dict describes no
operation or, for assignment and deletion, there is nothing at the index. -/
theorem C79_fails (p p' : List PatchOp) (i : Int) (a : OpArg) (e : Exc) :
    (patchSetItem p i a = (p', .error e) → p' = p) ∧ (patchDelItem p i = (p', .error e) → p' = p) ∧
    (patchInsert p i a = (p', .error e) → p' = p ∧ ∀ o, ¬ OpFor a o) := by
  refine ⟨fun h => ?_, fun h => ?_, fun h => ?_⟩
  · unfold patchSetItem at h
    split at h
    · cases h; rfl
    · split at h <;> cases h; rfl
  · unfold patchDelItem at h
    split at h <;> cases h; rfl
  · unfold patchInsert at h
    split at h
    · rename_i e' he
      cases h
      refine ⟨rfl, fun o ho => ?_⟩
      rw [opFor_iff.2 ho] at he; cases he
    · cases h

example : OpFor (.dict [("op", .str "remove"), ("path", .str "/a")]) ⟨.remove, ⟨["a"]⟩, .null, none⟩ ∧
    IndexAt (-2) 0 1 ∧ SliceBound 2 2 (some (-1)) 1 := by
  refine ⟨.dict ?_, .inr rfl, .fromEnd 1 (by decide)⟩
  exact C28_op_roundtrip ⟨.remove, ⟨["a"]⟩, .null, none⟩ ⟨rfl, rfl⟩

end Jschon
