import Verif.Proof.Equality

/-!
# Equality of JSON instances (C18, C19)

The hypotheses `a.WF` say that every dict inside has distinct keys, which holds of every Python
dict; the list-based model of dicts needs it said.
-/

namespace Jschon
open Spec

/-- C19: `JSON(a) == JSON(b)` iff `a` and `b` are equal in the JSON data model. -/
theorem C19_eq_iff_data_model (a b : Value) (ha : a.WF) (hb : b.WF) :
    jsonEq a b = true ↔ Same a b := jsonEq_iff_same a b ha hb

/-- C19: values of different JSON type are never equal; in particular booleans are not numbers. -/
theorem C19_types_differ (a b : Value) (h : a.type ≠ b.type) : jsonEq a b = false := by
  cases a <;> cases b <;> simp [Value.type, jsonEq] at *

/-- C19: the order of object members is irrelevant. -/
theorem C19_member_order (as bs : List (String × Value)) (h : as.Perm bs)
    (ha : (Value.obj as).WF) : jsonEq (.obj as) (.obj bs) = true := by
  have hb : (Value.obj bs).WF := by
    cases ha with
    | obj hn hw =>
      exact .obj ((h.map Prod.fst).nodup_iff.1 hn) (fun kv hkv => hw kv (h.mem_iff.2 hkv))
  rw [jsonEq_iff_same _ _ ha hb]
  cases ha with
  | obj hna _ =>
    cases hb with
    | obj hnb _ =>
      refine .obj (fun k => ?_) (fun k v w hv hw => ?_)
      · rw [dlookup_eq_none, dlookup_eq_none, dkeys, dkeys, (h.map Prod.fst).mem_iff]
      · have := dlookup_of_mem hnb (h.mem_iff.1 (dlookup_mem hv))
        rw [this] at hw
        cases hw
        exact same_refl v

/-- C18: `==` is reflexive. -/
theorem C18_refl (a : Value) (ha : a.WF) : jsonEq a a = true :=
  (jsonEq_iff_same a a ha ha).2 (same_refl a)

/-- C18: `==` is symmetric. -/
theorem C18_symm (a b : Value) (ha : a.WF) (hb : b.WF) : jsonEq a b = jsonEq b a := by
  rw [Bool.eq_iff_iff, jsonEq_iff_same a b ha hb, jsonEq_iff_same b a hb ha]
  exact ⟨same_symm, same_symm⟩

/-- C18: `==` is transitive. -/
theorem C18_trans (a b c : Value) (ha : a.WF) (hb : b.WF) (hc : c.WF)
    (h1 : jsonEq a b = true) (h2 : jsonEq b c = true) : jsonEq a c = true :=
  (jsonEq_iff_same a c ha hc).2
    (same_trans ((jsonEq_iff_same a b ha hb).1 h1) ((jsonEq_iff_same b c hb hc).1 h2))

/-- C18: `!=` is the negation of `==`. -/
theorem C18_ne (a b : Value) : jsonNe a b = true ↔ ¬ jsonEq a b = true := by
  simp [jsonNe]

-- {"a": 1, "b": [2.0]} and {"b": [2], "a": 1.0} are well formed and equal; [true] and [1] differ.
private def exA : Value := .obj [("a", .num (.int 1)), ("b", .arr [.num (.flt 2)])]
private def exB : Value := .obj [("b", .arr [.num (.int 2)]), ("a", .num (.flt 1))]
private theorem exA_wf : exA.WF := by
  refine .obj (by decide) ?_
  simp only [List.mem_cons, List.not_mem_nil, or_false]
  rintro kv (rfl | rfl)
  · exact .num
  · refine .arr ?_
    simp only [List.mem_cons, List.not_mem_nil, or_false]
    rintro x rfl; exact .num
example : exA.WF := exA_wf
example : jsonEq exA exB = true := by decide +kernel
example : jsonEq (.arr [.bool true]) (.arr [.num (.int 1)]) = false := by decide

end Jschon
