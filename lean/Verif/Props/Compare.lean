import Verif.Model.Compare
import Verif.Spec.Compare
import Verif.Proof.Value

/-!
# The comparison operators of JSON instances: C67
-/

namespace Jschon
open Spec

theorem precedes_cons {c : Char} {a b : List Char} : Precedes (c :: a) (c :: b) ↔ Precedes a b := by
  constructor
  · intro h
    generalize ha : c :: a = a', hb : c :: b = b' at h
    cases h with
    | «prefix» => subst ha; injection hb with _ hb; subst hb; exact .prefix
    | @differ p x y r s hxy =>
      cases p with
      | nil =>
        simp only [List.nil_append, List.cons.injEq] at ha hb
        rw [← ha.1, ← hb.1] at hxy
        omega
      | cons d p =>
        simp only [List.cons_append, List.cons.injEq] at ha hb
        rw [ha.2, hb.2]; exact .differ hxy
  · intro h
    cases h with
    | «prefix» => exact .prefix (a := c :: a)
    | @differ p x y r s hxy => exact .differ (p := c :: p) hxy

theorem precedes_ne {c d : Char} (hne : c ≠ d) {a b : List Char} :
    Precedes (c :: a) (d :: b) ↔ c.toNat < d.toNat := by
  constructor
  · intro h
    generalize ha : c :: a = a', hb : d :: b = b' at h
    cases h with
    | «prefix» => subst ha; injection hb with hb; exact absurd hb.symm hne
    | @differ p x y r s hxy =>
      cases p with
      | nil =>
        simp only [List.nil_append, List.cons.injEq] at ha hb
        rw [ha.1, hb.1]; exact hxy
      | cons e p =>
        simp only [List.cons_append, List.cons.injEq] at ha hb
        exact absurd (ha.1.trans hb.1.symm) hne
  · exact fun h => .differ (p := []) h

theorem not_precedes_nil {a : List Char} : ¬ Precedes a [] := by
  intro h
  generalize hb : ([] : List Char) = b' at h
  cases h <;> simp at hb

theorem precedes_nil {b : List Char} : Precedes [] b ↔ b ≠ [] := by
  constructor
  · rintro h rfl
    exact not_precedes_nil h
  · intro h
    obtain ⟨c, r, rfl⟩ := List.exists_cons_of_ne_nil h
    exact .prefix (a := [])

theorem char_toNat_inj {a b : Char} (h : a.toNat = b.toNat) : a = b := by
  apply Char.ext
  exact UInt32.toNat_inj.1 h

/-- What each operator says, given the order and equality. -/
def Holds (op : Cmp) (lt eq gt : Prop) : Prop :=
  match op with
  | .ge => gt ∨ eq
  | .gt => gt
  | .le => lt ∨ eq
  | .lt => lt

theorem cmpNum_iff (op : Cmp) (a b : Rat) : cmpNum op a b = true ↔ Holds op (a < b) (a = b) (b < a) := by
  cases op <;> simp only [cmpNum, Holds, decide_eq_true_eq]
  · rw [Rat.le_iff_lt_or_eq]; exact or_congr_right eq_comm
  · rw [Rat.le_iff_lt_or_eq]

theorem Holds.congr {op : Cmp} {a b c a' b' c' : Prop} (h1 : a ↔ a') (h2 : b ↔ b') (h3 : c ↔ c') :
    Holds op a b c ↔ Holds op a' b' c' := by
  cases op <;> simp only [Holds, h1, h2, h3]

theorem cmpStr_iff (op : Cmp) (a b : List Char) :
    cmpStr op a b = true ↔ Holds op (Precedes a b) (a = b) (Precedes b a) := by
  have cast : ∀ m n : Nat, ((m : Rat) < (n : Rat) ↔ m < n) ∧ ((m : Rat) = (n : Rat) ↔ m = n) := by
    intro m n
    exact ⟨Rat.natCast_lt_natCast, Rat.natCast_inj⟩
  induction a generalizing b with
  | nil =>
    cases b with
    | nil =>
      rw [cmpStr, cmpNum_iff]
      · refine Holds.congr ?_ ?_ ?_ <;> simp [not_precedes_nil]
      · simp
    | cons d b =>
      rw [cmpStr, cmpNum_iff]
      · refine Holds.congr ?_ ?_ ?_
        · rw [(cast _ _).1, precedes_nil]; simp
        · rw [(cast _ _).2]; simp
        · rw [(cast _ _).1]; simp [not_precedes_nil]
      · simp
  | cons c a ih =>
    cases b with
    | nil =>
      rw [cmpStr, cmpNum_iff]
      · refine Holds.congr ?_ ?_ ?_
        · rw [(cast _ _).1]; simp [not_precedes_nil]
        · rw [(cast _ _).2]; simp
        · rw [(cast _ _).1, precedes_nil]; simp
      · simp
    | cons d b =>
      rw [cmpStr]
      by_cases hcd : c = d
      · subst hcd
        rw [if_pos rfl]
        refine (ih b).trans ?_
        exact Holds.congr precedes_cons.symm (by simp) precedes_cons.symm
      · rw [if_neg hcd, cmpNum_iff]
        refine Holds.congr ?_ ?_ ?_
        · rw [(cast _ _).1, precedes_ne hcd]
        · rw [(cast _ _).2]
          exact ⟨fun h => absurd (char_toNat_inj h) hcd, fun h => by simp only [List.cons.injEq] at h; exact absurd h.1 hcd⟩
        · rw [(cast _ _).1, precedes_ne (fun h => hcd h.symm)]

/-- C67: between two numbers, and between two strings, the operators decide the order by exact value, or
by code points: `<` is that order, `>` its converse, `<=` and `>=` these or `==`. -/
theorem C67_decides (op : Cmp) (a b : Value) (h : Comparable a b) :
    ∃ r, jsonCmp op a b = .ok r ∧
      (r = true ↔ match op with
        | .lt => Less a b
        | .gt => Less b a
        | .le => Less a b ∨ jsonEq a b = true
        | .ge => Less b a ∨ jsonEq a b = true) := by
  cases h with
  | @num x y =>
    refine ⟨cmpNum op x.val y.val, by simp [jsonCmp], ?_⟩
    rw [cmpNum_iff]
    have h1 : ∀ x y : Num, x.val < y.val ↔ Less (.num x) (.num y) :=
      fun x y => ⟨.num, fun h => by cases h; assumption⟩
    cases op <;> simp [Holds, h1, jsonEq]
  | @str x y =>
    refine ⟨cmpStr op x.toList y.toList, by simp [jsonCmp], ?_⟩
    rw [cmpStr_iff]
    have h1 : ∀ x y : String, Precedes x.toList y.toList ↔ Less (.str x) (.str y) :=
      fun x y => ⟨.str, fun h => by cases h; assumption⟩
    cases op <;> simp [Holds, h1, jsonEq, String.toList_inj]

theorem precedes_trans {a b c : List Char} (h1 : Precedes a b) (h2 : Precedes b c) : Precedes a c := by
  induction a generalizing b c with
  | nil =>
    rw [precedes_nil]
    rintro rfl
    exact not_precedes_nil h2
  | cons x a ih =>
    cases b with
    | nil => exact absurd h1 not_precedes_nil
    | cons y b =>
      cases c with
      | nil => exact absurd h2 not_precedes_nil
      | cons z c =>
        by_cases hxy : x = y
        · subst hxy
          by_cases hxz : x = z
          · subst hxz
            exact precedes_cons.2 (ih (precedes_cons.1 h1) (precedes_cons.1 h2))
          · exact (precedes_ne hxz).2 ((precedes_ne hxz).1 h2)
        · have h3 := (precedes_ne hxy).1 h1
          by_cases hyz : y = z
          · subst hyz; exact (precedes_ne hxy).2 h3
          · have h4 := (precedes_ne hyz).1 h2
            have hxz : x ≠ z := by rintro rfl; omega
            exact (precedes_ne hxz).2 (by omega)

theorem precedes_total (a b : List Char) : Precedes a b ∨ a = b ∨ Precedes b a := by
  induction a generalizing b with
  | nil =>
    cases b with
    | nil => exact .inr (.inl rfl)
    | cons d b => exact .inl (precedes_nil.2 (by simp))
  | cons c a ih =>
    cases b with
    | nil => exact .inr (.inr (precedes_nil.2 (by simp)))
    | cons d b =>
      by_cases hcd : c = d
      · subst hcd
        rcases ih b with h | h | h
        · exact .inl (precedes_cons.2 h)
        · exact .inr (.inl (by rw [h]))
        · exact .inr (.inr (precedes_cons.2 h))
      · have : c.toNat ≠ d.toNat := fun h => hcd (char_toNat_inj h)
        rcases Nat.lt_or_gt_of_ne this with h | h
        · exact .inl ((precedes_ne hcd).2 h)
        · exact .inr (.inr ((precedes_ne (fun h => hcd h.symm)).2 h))

theorem precedes_irrefl (a : List Char) : ¬ Precedes a a := by
  induction a with
  | nil => exact not_precedes_nil
  | cons c a ih => rw [precedes_cons]; exact ih

/-- C67: the order is irreflexive and transitive, and of two different numbers or strings one is less: a
strict total order that agrees with `==`. -/
theorem C67_total_order :
    (∀ a b, Less a b → jsonEq a b = false) ∧ (∀ a b c, Less a b → Less b c → Less a c) ∧
    (∀ a b, Comparable a b → Less a b ∨ jsonEq a b = true ∨ Less b a) := by
  refine ⟨fun a b h => ?_, fun a b c h1 h2 => ?_, fun a b h => ?_⟩
  · cases h with
    | @num x y h =>
      simp only [jsonEq, beq_eq_false_iff_ne]
      intro he; rw [he] at h; exact Rat.lt_irrefl h
    | @str x y h =>
      simp only [jsonEq, beq_eq_false_iff_ne]
      rintro rfl; exact precedes_irrefl _ h
  · cases h1 with
    | num h1 => cases h2 with | num h2 => exact .num (by grind)
    | str h1 => cases h2 with | str h2 => exact .str (precedes_trans h1 h2)
  · cases h with
    | @num x y =>
      rcases (show x.val < y.val ∨ x.val = y.val ∨ y.val < x.val by grind) with h | h | h
      · exact .inl (.num h)
      · exact .inr (.inl (by simp [jsonEq, h]))
      · exact .inr (.inr (.num h))
    | @str x y =>
      rcases precedes_total x.toList y.toList with h | h | h
      · exact .inl (.str h)
      · exact .inr (.inl (by simp [jsonEq, String.toList_inj.1 h]))
      · exact .inr (.inr (.str h))

/-- C67: a number is not compared with a string, and null and objects are not compared: TypeError. -/
theorem C67_raises (op : Cmp) (a b : Value)
    (h : (∃ x y, (a = .num x ∧ b = .str y) ∨ (a = .str y ∧ b = .num x)) ∨ a = .null ∨ b = .null ∨
      (∃ kvs, a = .obj kvs) ∨ ∃ kvs, b = .obj kvs) : jsonCmp op a b = .error .typeError := by
  rcases h with ⟨x, y, ⟨rfl, rfl⟩ | ⟨rfl, rfl⟩⟩ | rfl | rfl | ⟨kvs, rfl⟩ | ⟨kvs, rfl⟩
  · simp [jsonCmp]
  · simp [jsonCmp]
  · cases b <;> simp [jsonCmp]
  · cases a <;> simp [jsonCmp]
  · cases b <;> simp [jsonCmp]
  · cases a <;> simp [jsonCmp]

example : Comparable (.str "ab") (.str "b") ∧ Comparable (.num (.int 1)) (.num (.flt (3/2))) ∧
    jsonCmp .lt (.str "ab") (.str "b") = .ok true ∧ jsonCmp .ge (.num (.int 1)) (.num (.flt 1)) = .ok true :=
  ⟨.str, .num, by simp [jsonCmp]; decide, by simp [jsonCmp, cmpNum, Num.val]⟩

end Jschon
