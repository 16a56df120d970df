import Verif.Spec.Regex

namespace Jschon.Re

theorem matches_fail {s} : ¬ Matches .fail s := by intro h; cases h

theorem matches_eps {s} : Matches .eps s ↔ s = [] := by
  constructor
  · intro h; cases h; rfl
  · rintro rfl; exact .eps

theorem matches_cls {p s} : Matches (.cls p) s ↔ ∃ c, p c = true ∧ s = [c] := by
  constructor
  · intro h; cases h with | cls h => exact ⟨_, h, rfl⟩
  · rintro ⟨c, h, rfl⟩; exact .cls h

theorem matches_alt {a b s} : Matches (.alt a b) s ↔ Matches a s ∨ Matches b s := by
  constructor
  · intro h
    cases h with
    | altL h => exact .inl h
    | altR h => exact .inr h
  · rintro (h | h)
    · exact .altL h
    · exact .altR h

theorem matches_seq {a b s} :
    Matches (.seq a b) s ↔ ∃ u v, s = u ++ v ∧ Matches a u ∧ Matches b v := by
  constructor
  · intro h; cases h with | seq h1 h2 => exact ⟨_, _, rfl, h1, h2⟩
  · rintro ⟨u, v, rfl, h1, h2⟩; exact .seq h1 h2

theorem matches_chr {c s} : Matches (chr c) s ↔ s = [c] := by
  unfold chr
  rw [matches_cls]
  constructor
  · rintro ⟨d, h, rfl⟩; simp at h; simp [h]
  · rintro rfl; exact ⟨c, by simp, rfl⟩

theorem matches_star_cons {a c cs} (h : Matches (.star a) (c :: cs)) :
    ∃ u v, cs = u ++ v ∧ Matches a (c :: u) ∧ Matches (.star a) v := by
  generalize hr : Re.star a = r at h
  generalize hs : c :: cs = s at h
  induction h with
  | starNil => cases hs
  | @starCons a' s t h1 h2 _ ih2 =>
    cases hr
    cases s with
    | nil => exact ih2 rfl (by simpa using hs)
    | cons d ds =>
      simp at hs
      obtain ⟨rfl, rfl⟩ := hs
      exact ⟨ds, t, rfl, h1, h2⟩
  | _ => cases hr

theorem nullable_iff (r : Re) : r.nullable = true ↔ Matches r [] := by
  induction r with
  | fail => simp [nullable, matches_fail]
  | eps => simp [nullable, matches_eps]
  | cls p => simp [nullable, matches_cls]
  | alt a b iha ihb => simp [nullable, matches_alt, iha, ihb]
  | seq a b iha ihb =>
    simp only [nullable, Bool.and_eq_true, iha, ihb, matches_seq]
    constructor
    · rintro ⟨h1, h2⟩; exact ⟨[], [], rfl, h1, h2⟩
    · rintro ⟨u, v, h, h1, h2⟩
      have h' := h.symm
      rw [List.append_eq_nil_iff] at h'
      obtain ⟨rfl, rfl⟩ := h'
      exact ⟨h1, h2⟩
  | star a _ => simp [nullable]; exact .starNil

theorem deriv_iff (r : Re) (c : Char) (s : List Char) :
    Matches (r.deriv c) s ↔ Matches r (c :: s) := by
  induction r generalizing s with
  | fail => simp [deriv, matches_fail]
  | eps => simp [deriv, matches_fail, matches_eps]
  | cls p =>
    by_cases h : p c = true
    · simp only [deriv, h, if_true, matches_eps, matches_cls]
      constructor
      · rintro rfl; exact ⟨c, h, rfl⟩
      · rintro ⟨d, _, hd⟩; simp at hd; exact hd.2
    · simp only [deriv, h, matches_cls]
      constructor
      · intro h'; exact absurd h' matches_fail
      · rintro ⟨d, hd, he⟩; simp at he; obtain ⟨rfl, _⟩ := he; exact absurd hd h
  | alt a b iha ihb => simp [deriv, matches_alt, iha, ihb]
  | seq a b iha ihb =>
    have key : (∃ u v, s = u ++ v ∧ Matches (a.deriv c) u ∧ Matches b v) ∨
        (Matches a [] ∧ Matches (b.deriv c) s) ↔ Matches (.seq a b) (c :: s) := by
      rw [matches_seq]
      constructor
      · rintro (⟨u, v, rfl, h1, h2⟩ | ⟨h1, h2⟩)
        · exact ⟨c :: u, v, rfl, (iha _).1 h1, h2⟩
        · exact ⟨[], c :: s, rfl, h1, (ihb _).1 h2⟩
      · rintro ⟨u, v, h, h1, h2⟩
        cases u with
        | nil => right; simp at h; subst h; exact ⟨h1, (ihb _).2 h2⟩
        | cons d ds =>
          left
          simp at h
          obtain ⟨rfl, rfl⟩ := h
          exact ⟨ds, v, rfl, (iha _).2 h1, h2⟩
    rw [← key]
    by_cases hn : a.nullable = true
    · simp only [deriv, hn, if_true, matches_alt, matches_seq, (nullable_iff a).1 hn, true_and]
    · have : ¬ Matches a [] := fun h => hn ((nullable_iff a).2 h)
      simp only [deriv, hn, this, false_and, or_false]
      simp [matches_seq]
  | star a iha =>
    simp only [deriv, matches_seq]
    constructor
    · rintro ⟨u, v, rfl, h1, h2⟩
      exact .starCons (s := c :: u) ((iha _).1 h1) h2
    · intro h
      obtain ⟨u, v, rfl, h1, h2⟩ := matches_star_cons h
      exact ⟨u, v, rfl, (iha _).2 h1, h2⟩

/-- The derivative matcher decides the language. -/
theorem fullmatch_iff (r : Re) (s : List Char) : r.fullmatch s = true ↔ Matches r s := by
  induction s generalizing r with
  | nil => exact nullable_iff r
  | cons c cs ih => rw [fullmatch, ih, deriv_iff]

end Jschon.Re
