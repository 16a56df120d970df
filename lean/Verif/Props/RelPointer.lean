import Verif.Proof.RelPointer

/-!
# Relative JSON Pointer text (C10)
-/

namespace Jschon
open Spec

/-- C10: `RelativeJSONPointer(s)` succeeds iff `s` is in the grammar. -/
theorem C10_accepts_iff_grammar (s : String) :
    (∃ p, RelPtr.parse s = .ok p) ↔ RelText s.toList := by
  rw [relText_iff_grammar]
  constructor
  · rintro ⟨p, hp⟩
    obtain ⟨u, o, r, h, _⟩ := relParse_ok hp
    exact ⟨u, o, r, by rw [h, String.toList_ofList]⟩
  · rintro ⟨u, o, r, h⟩
    have : s = String.ofList (relText u o r) := by rw [← String.toList_inj, h]; simp
    exact ⟨_, this ▸ relParse_relText u o r⟩

/-- C10: otherwise it raises `RelativeJSONPointerMalformedError` (never the ValueError of `int` or
the error of the inner JSONPointer). -/
theorem C10_rejects_malformed (s : String) (h : ¬ RelText s.toList) :
    RelPtr.parse s = .error .relMalformed := by
  cases hp : RelPtr.parse s with
  | ok p => exact absurd ((C10_accepts_iff_grammar s).1 ⟨p, hp⟩) h
  | error e => rw [(relParse_error hp).1]

/-- C10: on success the text is kept. -/
theorem C10_text_kept (s : String) (p : RelPtr) (h : RelPtr.parse s = .ok p) : p.str = s := by
  obtain ⟨u, o, r, rfl, rfl⟩ := relParse_ok h
  exact relStr_make u o r

/-- C10: a pointer built from a non-negative `up`, any integer `over` and a pointer or `'#'`
is equal to the one parsed from its text. -/
theorem C10_roundtrip (up over : Int) (ref : RelRef) (h : 0 ≤ up) :
    ∃ q, RelPtr.parse (RelPtr.make up over ref).str = .ok q ∧
      (RelPtr.make up over ref).eq q = true := by
  obtain ⟨u, rfl⟩ : ∃ u : Nat, up = u := ⟨up.toNat, by omega⟩
  refine ⟨RelPtr.make u over ref, ?_, ?_⟩
  · rw [relStr_make, relParse_relText]
  · cases ref <;> simp [RelPtr.eq, RelPtr.make]

/-- C10: the fields of a parsed pointer are the numbers and the pointer written in the text. -/
theorem C10_fields (u : Nat) (o : Int) (r : RelRef) :
    RelPtr.parse (RelPtr.make u o r).str = .ok (RelPtr.make u o r) := by
  rw [relStr_make, relParse_relText]

/-- C10: two relative pointers are equal exactly when all their fields are. -/
theorem C10_eq_iff (p q : RelPtr) :
    p.eq q = true ↔ p.up = q.up ∧ p.over = q.over ∧ p.index = q.index ∧ p.path = q.path := by
  simp only [RelPtr.eq, Bool.and_eq_true, beq_iff_eq, and_assoc]

/-- C10: equal relative pointers have equal hashes. -/
theorem C10_hash (h : Int × Int × Bool × Option Ptr → Int) (p q : RelPtr) (he : p.eq q = true) :
    p.hash h = q.hash h := by
  simp only [RelPtr.eq, Bool.and_eq_true, beq_iff_eq] at he
  simp only [RelPtr.hash, he]

example : RelText "2-13/a~1b".toList :=
  ⟨"2".toList, "-13".toList, "/a~1b".toList, by decide,
    .inr ⟨'2', [], rfl, by decide, by decide, by simp⟩,
    .inr ⟨"13".toList, ⟨'1', ['3'], rfl, by decide, by decide, by decide⟩, .inr rfl⟩,
    .inr (.cons (tok := "a~1b".toList)
      (.unescaped (by decide) (by decide) (.slash (.unescaped (by decide) (by decide) .nil))) .nil)⟩
-- Text of a pointer with an index manipulation; and the grammar is not everything.
example : (RelPtr.make 2 (-13) (.ptr ⟨["a/b"]⟩)).str = "2-13/a~1b" := by decide
example : RelPtr.parse "2-13/a~1b" = .ok (RelPtr.make 2 (-13) (.ptr ⟨["a/b"]⟩)) := by
  rw [show "2-13/a~1b" = (RelPtr.make (2 : Nat) (-13) (.ptr ⟨["a/b"]⟩)).str by decide]
  exact C10_fields 2 _ _
example : RelPtr.parse "01" = .error .relMalformed := rfl
-- The hypothesis `0 ≤ up` is needed: the keyword arguments are not validated, and `up=-1` gives
-- the text "-1", which does not parse.
example : (RelPtr.make (-1) 0 .hash).str = "-1#" ∧ RelPtr.parse "-1#" = .error .relMalformed :=
  ⟨by decide, rfl⟩

end Jschon
