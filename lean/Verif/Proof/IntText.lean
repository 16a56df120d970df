import Verif.Spec.IntText
import Verif.Proof.Py

/-!
# `int()`
-/

namespace Jschon
open Spec

theorem isIntSpace_iff {c : Char} : isIntSpace c = true ↔ SpaceChar c := by
  simp only [isIntSpace, SpaceChar, Bool.or_eq_true, Bool.and_eq_true, decide_eq_true_eq, beq_iff_eq, List.mem_cons,
    List.not_mem_nil, or_false]
  omega

/-- Different scripts have different digits. -/
theorem ndZeros_apart : ∀ z ∈ ndZeros, ∀ y ∈ ndZeros, y < z + 10 → z < y + 10 → y = z := by decide +kernel

theorem digitVal_iff {c : Char} {d : Nat} : digitVal c = some d ↔ DigitChar c d := by
  unfold digitVal DigitChar
  constructor
  · intro h
    obtain ⟨z, hz, rfl⟩ := Option.map_eq_some_iff.1 h
    have h1 := List.find?_some hz
    have h2 := List.mem_of_find?_eq_some hz
    simp only [Bool.and_eq_true, decide_eq_true_eq] at h1
    exact ⟨by omega, z, h2, by omega⟩
  · rintro ⟨hd, z, hz, hc⟩
    cases hf : ndZeros.find? (fun z => decide (z ≤ c.toNat) && decide (c.toNat < z + 10)) with
    | none =>
      have := List.find?_eq_none.1 hf z hz
      simp only [Bool.and_eq_true, decide_eq_true_eq] at this
      omega
    | some y =>
      have h1 := List.find?_some hf
      have h2 := List.mem_of_find?_eq_some hf
      simp only [Bool.and_eq_true, decide_eq_true_eq] at h1
      have := ndZeros_apart z hz y h2 (by omega) (by omega)
      subst this
      simp only [Option.map_some, Option.some.injEq]
      omega

theorem digit_unique {c : Char} {d e : Nat} (h : DigitChar c d) (h' : DigitChar c e) : d = e := by
  have := (digitVal_iff.2 h).symm.trans (digitVal_iff.2 h')
  cases this; rfl

theorem digit_not {c : Char} (h : digitVal c = none) {d : Nat} : ¬ DigitChar c d := fun h' => by
  rw [digitVal_iff.2 h'] at h; cases h

theorem under_no {d : Nat} : ¬ DigitChar '_' d := digit_not (by decide)

/-- The rest of the digits, read from the left. -/
inductive DigitsFrom : Nat → List Char → Nat → Prop
  | nil {a} : DigitsFrom a [] a
  | more {a c d l n} : DigitChar c d → DigitsFrom (a * 10 + d) l n → DigitsFrom a (c :: l) n
  | under {a c d l n} : DigitChar c d → DigitsFrom (a * 10 + d) l n → DigitsFrom a ('_' :: c :: l) n

theorem digitsFrom_snoc {a : Nat} {l : List Char} {n : Nat} (h : DigitsFrom a l n) {c : Char} {d : Nat}
    (hc : DigitChar c d) : DigitsFrom a (l ++ [c]) (10 * n + d) ∧ DigitsFrom a (l ++ ['_', c]) (10 * n + d) := by
  induction h with
  | nil => rw [Nat.mul_comm]; exact ⟨.more hc .nil, .under hc .nil⟩
  | more h _ ih => exact ⟨.more h ih.1, .more h ih.2⟩
  | under h _ ih => exact ⟨.under h ih.1, .under h ih.2⟩

theorem digitsFrom_text {a : Nat} {l : List Char} {n : Nat} (h : DigitsFrom a l n) {p : List Char}
    (hp : DigitsText p a) : DigitsText (p ++ l) n := by
  induction h generalizing p with
  | nil => simpa using hp
  | @more a c d l n h _ ih =>
    have := ih (p := p ++ [c]) (by rw [Nat.mul_comm]; exact .more hp h)
    simpa using this
  | @under a c d l n h _ ih =>
    have := ih (p := p ++ ['_', c]) (by rw [Nat.mul_comm]; exact .under hp h)
    simpa using this

theorem digitsText_iff {l : List Char} {n : Nat} :
    DigitsText l n ↔ ∃ c d r, l = c :: r ∧ DigitChar c d ∧ DigitsFrom d r n := by
  constructor
  · intro h
    induction h with
    | one h => exact ⟨_, _, [], rfl, h, .nil⟩
    | more _ h ih =>
      obtain ⟨c, d, r, rfl, h1, h2⟩ := ih
      exact ⟨c, d, _, rfl, h1, (digitsFrom_snoc h2 h).1⟩
    | under _ h ih =>
      obtain ⟨c, d, r, rfl, h1, h2⟩ := ih
      exact ⟨c, d, _, rfl, h1, (digitsFrom_snoc h2 h).2⟩
  · rintro ⟨c, d, r, rfl, h1, h2⟩
    exact digitsFrom_text h2 (.one h1)

theorem intDigitsGo_iff : ∀ (k : Nat) (l : List Char), l.length ≤ k → ∀ {a n : Nat},
    intDigitsGo a l = some n ↔ DigitsFrom a l n := by
  intro k
  induction k with
  | zero =>
    intro l hl a n
    obtain rfl : l = [] := List.length_eq_zero_iff.1 (by omega)
    simp only [intDigitsGo, Option.some.injEq]
    exact ⟨fun h => h ▸ .nil, fun h => by cases h; rfl⟩
  | succ k ih =>
    intro l hl a n
    cases l with
    | nil =>
      simp only [intDigitsGo, Option.some.injEq]
      exact ⟨fun h => h ▸ .nil, fun h => by cases h; rfl⟩
    | cons c cs =>
      simp only [List.length_cons] at hl
      unfold intDigitsGo
      cases hc : digitVal c with
      | some d =>
        simp only
        rw [ih cs (by omega)]
        refine ⟨.more (digitVal_iff.1 hc), fun h => ?_⟩
        cases h with
        | more h1 h2 => rw [digit_unique (digitVal_iff.1 hc) h1]; exact h2
        | under h1 h2 => exact absurd (digitVal_iff.1 hc) under_no
      | none =>
        simp only
        split
        · rename_i hu
          subst hu
          cases cs with
          | nil =>
            simp only [reduceCtorEq, false_iff]
            intro h
            cases h with
            | more h1 => exact under_no h1
          | cons c' cs' =>
            simp only [List.length_cons] at hl
            cases hc' : digitVal c' with
            | none =>
              simp only [hc', reduceCtorEq, false_iff]
              intro h
              cases h with
              | more h1 => exact under_no h1
              | under h1 => exact digit_not hc' h1
            | some d =>
              simp only [hc']
              rw [ih cs' (by omega)]
              refine ⟨.under (digitVal_iff.1 hc'), fun h => ?_⟩
              cases h with
              | more h1 => exact absurd h1 under_no
              | under h1 h2 => rw [digit_unique (digitVal_iff.1 hc') h1]; exact h2
        · rename_i hu
          simp only [reduceCtorEq, false_iff]
          intro h
          cases h with
          | more h1 => exact digit_not hc h1
          | under => exact hu rfl

theorem intDigits_iff {l : List Char} {n : Nat} : intDigits l = some n ↔ DigitsText l n := by
  rw [digitsText_iff]
  cases l with
  | nil => simp [intDigits]
  | cons c cs =>
    unfold intDigits
    cases hc : digitVal c with
    | none =>
      simp only [hc, reduceCtorEq, false_iff]
      rintro ⟨c', d, r, e, h, -⟩
      cases e
      exact digit_not hc h
    | some d =>
      simp only [hc]
      rw [intDigitsGo_iff _ cs (Nat.le_refl _)]
      constructor
      · exact fun h => ⟨_, _, _, rfl, digitVal_iff.1 hc, h⟩
      · rintro ⟨c', d', r, e, h, h'⟩
        cases e
        rw [digit_unique (digitVal_iff.1 hc) h]
        exact h'

theorem digit_not_space {c : Char} {d : Nat} (h : DigitChar c d) : ¬ SpaceChar c := by
  obtain ⟨hd, z, hz, hc⟩ := h
  unfold SpaceChar
  rw [hc]
  have : ∀ z ∈ ndZeros, ∀ d, d < 10 → ¬ z + d ∈ [9, 10, 11, 12, 13, 0x20, 0x85, 0xa0, 0x1680, 0x2000, 0x2001, 0x2002,
    0x2003, 0x2004, 0x2005, 0x2006, 0x2007, 0x2008, 0x2009, 0x200a, 0x2028, 0x2029, 0x202f, 0x205f, 0x3000] := by
    decide +kernel
  exact this z hz d hd

theorem digitsText_ends {l : List Char} {n : Nat} (h : DigitsText l n) :
    (∃ c r d, l = c :: r ∧ DigitChar c d) ∧ ∃ c r d, l = r ++ [c] ∧ DigitChar c d := by
  constructor
  · obtain ⟨c, d, r, h1, h2, -⟩ := digitsText_iff.1 h
    exact ⟨c, r, d, h1, h2⟩
  · cases h with
    | one h => exact ⟨_, [], _, rfl, h⟩
    | @more l n c d _ h => exact ⟨c, l, d, rfl, h⟩
    | @under l n c d _ h => exact ⟨c, l ++ ['_'], d, by simp, h⟩

theorem signedText_ends {l : List Char} {i : Int} (h : SignedText l i) :
    (∃ c r, l = c :: r ∧ ¬ SpaceChar c) ∧ ∃ c r, l = r ++ [c] ∧ ¬ SpaceChar c := by
  have hs : ¬ SpaceChar '+' ∧ ¬ SpaceChar '-' := by unfold SpaceChar; decide
  cases h with
  | plain h =>
    obtain ⟨⟨c, r, d, h1, h2⟩, c', r', d', h3, h4⟩ := digitsText_ends h
    exact ⟨⟨c, r, h1, digit_not_space h2⟩, c', r', h3, digit_not_space h4⟩
  | plus h =>
    obtain ⟨-, c', r', d', rfl, h4⟩ := digitsText_ends h
    exact ⟨⟨_, _, rfl, hs.1⟩, c', '+' :: r', rfl, digit_not_space h4⟩
  | minus h =>
    obtain ⟨-, c', r', d', rfl, h4⟩ := digitsText_ends h
    exact ⟨⟨_, _, rfl, hs.2⟩, c', '-' :: r', rfl, digit_not_space h4⟩

theorem dropSpace {p l : List Char} (hp : ∀ c ∈ p, SpaceChar c) (hl : ∃ c r, l = c :: r ∧ ¬ SpaceChar c) :
    (p ++ l).dropWhile isIntSpace = l := by
  induction p with
  | nil =>
    obtain ⟨c, r, rfl, hc⟩ := hl
    rw [List.nil_append, List.dropWhile_cons, if_neg (by rw [isIntSpace_iff]; exact hc)]
  | cons c p ih =>
    rw [List.cons_append, List.dropWhile_cons, if_pos (isIntSpace_iff.2 (hp c (by simp)))]
    exact ih fun d hd => hp d (by simp [hd])

/-- The text without white space at its ends. -/
def bare (l : List Char) : List Char := ((l.dropWhile isIntSpace).reverse.dropWhile isIntSpace).reverse

theorem bare_of {pre body post : List Char} {i : Int} (h1 : ∀ c ∈ pre, SpaceChar c) (h2 : ∀ c ∈ post, SpaceChar c)
    (h : SignedText body i) : bare (pre ++ body ++ post) = body := by
  obtain ⟨⟨c, r, e, hc⟩, c', r', e', hc'⟩ := signedText_ends h
  unfold bare
  rw [List.append_assoc, dropSpace h1 ⟨c, r ++ post, by rw [e]; rfl, hc⟩, List.reverse_append,
    dropSpace (fun c hc => h2 c (List.mem_reverse.1 hc)) ⟨c', r'.reverse, by rw [e']; simp, hc'⟩, List.reverse_reverse]

theorem takeSpace (l : List Char) : ∀ c ∈ l.takeWhile isIntSpace, SpaceChar c := by
  intro c hc
  refine isIntSpace_iff.1 ?_
  induction l with
  | nil => cases hc
  | cons d l ih =>
    rw [List.takeWhile_cons] at hc
    split at hc
    · rename_i hd
      rcases List.mem_cons.1 hc with rfl | hc
      · exact hd
      · exact ih hc
    · cases hc

theorem bare_split (l : List Char) : ∃ pre post, l = pre ++ bare l ++ post ∧ (∀ c ∈ pre, SpaceChar c) ∧
    ∀ c ∈ post, SpaceChar c := by
  refine ⟨l.takeWhile isIntSpace, ((l.dropWhile isIntSpace).reverse.takeWhile isIntSpace).reverse, ?_, takeSpace _, ?_⟩
  · unfold bare
    rw [List.append_assoc, ← List.reverse_append, List.takeWhile_append_dropWhile, List.reverse_reverse,
      List.takeWhile_append_dropWhile]
  · exact fun c hc => takeSpace _ c (List.mem_reverse.1 hc)

theorem digits_sign {c : Char} (hc : c = '+' ∨ c = '-') {l : List Char} {n : Nat} : ¬ DigitsText (c :: l) n := by
  intro h
  obtain ⟨⟨c', r, d, e, hd⟩, -⟩ := digitsText_ends h
  cases e
  rcases hc with rfl | rfl <;> exact digit_not (by decide) hd

theorem lift_some {o : Option Nat} {i : Int} : (o.map (fun n => (n : Int)) = some i ↔ ∃ n : Nat, o = some n ∧ (n : Int) = i) ∧
    (o.map (fun n => -(n : Int)) = some i ↔ ∃ n : Nat, o = some n ∧ -(n : Int) = i) := by
  cases o <;> simp

/-- `int(s)` is what the text denotes. -/
theorem pyInt_iff {s : String} {i : Int} : pyInt s = some i ↔ PyIntText s i := by
  have key : ∀ b : List Char, (match b with
      | '-' :: r => (intDigits r).map (fun n => -(n : Int))
      | '+' :: r => (intDigits r).map (fun n => (n : Int))
      | r => (intDigits r).map (fun n => (n : Int))) = some i ↔ SignedText b i := by
    intro b
    split
    · rw [lift_some.2]
      constructor
      · rintro ⟨n, h, rfl⟩; exact .minus (intDigits_iff.1 h)
      · intro h
        cases h with
        | plain h => exact absurd h (digits_sign (.inr rfl))
        | minus h => exact ⟨_, intDigits_iff.2 h, rfl⟩
    · rw [lift_some.1]
      constructor
      · rintro ⟨n, h, rfl⟩; exact .plus (intDigits_iff.1 h)
      · intro h
        cases h with
        | plain h => exact absurd h (digits_sign (.inl rfl))
        | plus h => exact ⟨_, intDigits_iff.2 h, rfl⟩
    · rename_i h1 h2
      rw [lift_some.1]
      constructor
      · rintro ⟨n, h, rfl⟩; exact .plain (intDigits_iff.1 h)
      · intro h
        cases h with
        | plain h => exact ⟨_, intDigits_iff.2 h, rfl⟩
        | plus h => exact absurd rfl (h2 _)
        | minus h => exact absurd rfl (h1 _)
  have hb : pyInt s = some i ↔ SignedText (bare s.toList) i := by
    unfold pyInt
    exact key (bare s.toList)
  rw [hb]
  constructor
  · intro h
    obtain ⟨pre, post, e, h1, h2⟩ := bare_split s.toList
    exact ⟨pre, _, post, e, h1, h2, h⟩
  · rintro ⟨pre, body, post, e, h1, h2, h⟩
    rw [e, bare_of h1 h2 h]
    exact h

theorem pyInt_none {s : String} : pyInt s = none ↔ ¬ ∃ i, PyIntText s i := by
  simp only [← pyInt_iff]
  cases pyInt s <;> simp

theorem intText_unique {s : String} {i j : Int} (h : PyIntText s i) (h' : PyIntText s j) : i = j := by
  have := (pyInt_iff.2 h).symm.trans (pyInt_iff.2 h')
  cases this; rfl

end Jschon
