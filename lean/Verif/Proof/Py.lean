import Verif.Model.Pointer
import Verif.Proof.Regex

namespace Jschon

theorem natStr_toList (n : Nat) : (natStr n).toList = Nat.toDigits 10 n := by
  simp [natStr, Nat.repr_eq_ofList_toDigits]

theorem natStr_eq_toString (n : Nat) : natStr n = toString n := by
  rw [natStr, Nat.toString_eq_ofList_toDigits, Nat.repr_eq_ofList_toDigits]

/-! ## ASCII digits -/

theorem digitChar_cases {d : Nat} (h : d < 10) (P : Nat → Char → Prop)
    (h0 : P 0 '0') (h1 : P 1 '1') (h2 : P 2 '2') (h3 : P 3 '3') (h4 : P 4 '4') (h5 : P 5 '5')
    (h6 : P 6 '6') (h7 : P 7 '7') (h8 : P 8 '8') (h9 : P 9 '9') : P d d.digitChar := by
  have : d = 0 ∨ d = 1 ∨ d = 2 ∨ d = 3 ∨ d = 4 ∨ d = 5 ∨ d = 6 ∨ d = 7 ∨ d = 8 ∨ d = 9 := by omega
  rcases this with rfl | rfl | rfl | rfl | rfl | rfl | rfl | rfl | rfl | rfl <;> assumption

theorem digitVal_digitChar {d : Nat} (h : d < 10) : digitVal d.digitChar = some d := by
  apply digitChar_cases h (P := fun d c => digitVal c = some d) <;> decide

theorem not_isIntSpace_digitChar {d : Nat} (h : d < 10) : isIntSpace d.digitChar = false := by
  apply digitChar_cases h (P := fun _ c => isIntSpace c = false) <;> decide

theorem asciiDigit_digitChar {d : Nat} (h : d < 10) :
    '0' ≤ d.digitChar ∧ d.digitChar ≤ '9' := by
  apply digitChar_cases h (P := fun _ c => '0' ≤ c ∧ c ≤ '9') <;> decide

theorem exists_digit_of_ascii {c : Char} (h : '0' ≤ c ∧ c ≤ '9') : ∃ d, d < 10 ∧ c = d.digitChar := by
  have h1 : 48 ≤ c.toNat := by
    have := h.1
    rw [Char.le_def, UInt32.le_iff_toNat_le] at this
    exact this
  have h2 : c.toNat ≤ 57 := by
    have := h.2
    rw [Char.le_def, UInt32.le_iff_toNat_le] at this
    exact this
  refine ⟨c.toNat - 48, by omega, ?_⟩
  have hc : c = Char.ofNat c.toNat := by simp
  have : c.toNat = 48 ∨ c.toNat = 49 ∨ c.toNat = 50 ∨ c.toNat = 51 ∨ c.toNat = 52 ∨ c.toNat = 53 ∨
      c.toNat = 54 ∨ c.toNat = 55 ∨ c.toNat = 56 ∨ c.toNat = 57 := by omega
  rcases this with h | h | h | h | h | h | h | h | h | h <;> rw [h] at hc ⊢ <;> subst hc <;> rfl

theorem toDigits_step {n : Nat} (h : 10 ≤ n) :
    Nat.toDigits 10 n = Nat.toDigits 10 (n / 10) ++ [(n % 10).digitChar] :=
  Nat.toDigits_of_base_le (by omega) h

theorem toDigits_small {n : Nat} (h : n < 10) : Nat.toDigits 10 n = [n.digitChar] :=
  Nat.toDigits_of_lt_base h

theorem mem_toDigits {n : Nat} {c : Char} (h : c ∈ Nat.toDigits 10 n) :
    ∃ d, d < 10 ∧ c = d.digitChar := by
  induction n using Nat.strongRecOn with
  | _ n ih =>
    by_cases hn : n < 10
    · rw [toDigits_small hn] at h
      simp at h
      exact ⟨n, hn, h⟩
    · rw [toDigits_step (by omega)] at h
      simp at h
      rcases h with h | h
      · exact ih _ (by omega) h
      · exact ⟨_, by omega, h⟩

theorem intDigitsGo_append (acc : Nat) (s : List Char) (d : Nat) (r : Nat) (hd : d < 10)
    (h : intDigitsGo acc s = some r) :
    intDigitsGo acc (s ++ [d.digitChar]) = some (r * 10 + d) := by
  induction hs : s.length using Nat.strongRecOn generalizing acc s with
  | _ k ih =>
    cases s with
    | nil =>
      simp [intDigitsGo] at h
      simp [intDigitsGo, digitVal_digitChar hd, h]
    | cons c cs =>
      rw [List.cons_append]
      unfold intDigitsGo at h ⊢
      cases hc : digitVal c with
      | some e =>
        simp only [hc] at h ⊢
        exact ih cs.length (by simp at hs; omega) _ _ h rfl
      | none =>
        simp only [hc] at h ⊢
        split at h
        · rename_i hu
          simp only [hu, if_true]
          cases cs with
          | nil => simp at h
          | cons c' cs' =>
            simp only [List.cons_append] at h ⊢
            cases hc' : digitVal c' with
            | some e =>
              simp only [hc'] at h ⊢
              exact ih cs'.length (by simp at hs; omega) _ _ h rfl
            | none => simp [hc'] at h
        · simp at h

theorem intDigits_toDigits (n : Nat) : intDigits (Nat.toDigits 10 n) = some n := by
  induction n using Nat.strongRecOn with
  | _ n ih =>
    by_cases hn : n < 10
    · rw [toDigits_small hn]
      simp [intDigits, digitVal_digitChar hn, intDigitsGo]
    · have ih' := ih (n / 10) (by omega)
      rw [toDigits_step (by omega)]
      cases hl : Nat.toDigits 10 (n / 10) with
      | nil => exact absurd hl Nat.toDigits_ne_nil
      | cons c cs =>
        rw [hl] at ih'
        rw [List.cons_append]
        unfold intDigits at ih' ⊢
        cases hc : digitVal c with
        | none => simp [hc] at ih'
        | some e =>
          simp only [hc] at ih' ⊢
          rw [intDigitsGo_append _ _ _ _ (by omega) ih']
          congr 1
          omega

theorem dropWhile_eq_self_of_head {α} {p : α → Bool} {l : List α}
    (h : ∀ a ∈ l.head?, p a = false) : l.dropWhile p = l := by
  cases l with
  | nil => rfl
  | cons a l => simp at h; simp [h]

theorem pyInt_natStr (n : Nat) : pyInt (natStr n) = some (n : Int) := by
  unfold pyInt
  rw [natStr_toList]
  have hsp : ∀ c ∈ Nat.toDigits 10 n, isIntSpace c = false := by
    intro c hc
    obtain ⟨d, hd, rfl⟩ := mem_toDigits hc
    exact not_isIntSpace_digitChar hd
  have h1 : (Nat.toDigits 10 n).dropWhile isIntSpace = Nat.toDigits 10 n := by
    apply dropWhile_eq_self_of_head
    intro a ha
    exact hsp a (List.mem_of_mem_head? ha)
  have h2 : (Nat.toDigits 10 n).reverse.dropWhile isIntSpace = (Nat.toDigits 10 n).reverse := by
    apply dropWhile_eq_self_of_head
    intro a ha
    exact hsp a (by simpa using List.mem_of_mem_head? ha)
  simp only [h1, h2, List.reverse_reverse]
  have hd := intDigits_toDigits n
  split
  · rename_i r hr
    have : '-' ∈ Nat.toDigits 10 n := by simp [hr]
    obtain ⟨d, hd, he⟩ := mem_toDigits this
    have := digitVal_digitChar hd
    rw [← he] at this
    revert this
    simp [show digitVal '-' = none by decide]
  · rename_i r hr
    have : '+' ∈ Nat.toDigits 10 n := by simp [hr]
    obtain ⟨d, hd, he⟩ := mem_toDigits this
    have := digitVal_digitChar hd
    rw [← he] at this
    revert this
    simp [show digitVal '+' = none by decide]
  · simp [hd]

theorem natStr_inj {m n : Nat} : natStr m = natStr n ↔ m = n := by
  constructor
  · intro h
    have h1 := pyInt_natStr m
    rw [h, pyInt_natStr n] at h1
    simp at h1; omega
  · rintro rfl; rfl

theorem pyInt_dash : pyInt "-" = none := by decide

/-! ## The array index regex -/

theorem star_digits {s : List Char}
    (h : Re.Matches (.star (.cls (fun c => '0' ≤ c && c ≤ '9'))) s) :
    ∀ c ∈ s, ∃ d, d < 10 ∧ c = d.digitChar := by
  generalize hr : Re.star (.cls (fun c => '0' ≤ c && c ≤ '9')) = r at h
  induction h with
  | starNil => intro c hc; cases hc
  | starCons h1 _ _ ih2 =>
    cases hr
    intro c hc
    rw [Re.matches_cls] at h1
    obtain ⟨d, hd, rfl⟩ := h1
    simp at hc hd
    rcases hc with rfl | hc
    · exact exists_digit_of_ascii hd
    · exact ih2 rfl c hc
  | _ => cases hr

theorem digits_star {s : List Char} (h : ∀ c ∈ s, ∃ d, d < 10 ∧ c = d.digitChar) :
    Re.Matches (.star (.cls (fun c => '0' ≤ c && c ≤ '9'))) s := by
  induction s with
  | nil => exact .starNil
  | cons c cs ih =>
    refine .starCons (s := [c]) (.cls ?_) (ih (fun d hd => h d (by simp [hd])))
    obtain ⟨d, hd, rfl⟩ := h c (by simp)
    have := asciiDigit_digitChar hd
    simp [this.1, this.2]

theorem exists_toDigits {c : Char} {cs : List Char} (hc : ∃ d, 0 < d ∧ d < 10 ∧ c = d.digitChar)
    (hcs : ∀ c ∈ cs, ∃ d, d < 10 ∧ c = d.digitChar) :
    ∃ n, 0 < n ∧ Nat.toDigits 10 n = c :: cs := by
  induction hk : cs.length generalizing cs with
  | zero =>
    obtain ⟨d, hd, hd', rfl⟩ := hc
    cases cs with
    | nil => exact ⟨d, hd, toDigits_small hd'⟩
    | cons _ _ => simp at hk
  | succ k ih =>
    have hne : cs ≠ [] := by rintro rfl; simp at hk
    have hsplit := List.dropLast_concat_getLast hne
    obtain ⟨n, hn, he⟩ := ih (cs := cs.dropLast)
      (fun c hc => hcs c (List.dropLast_subset _ hc)) (by simp [hk])
    obtain ⟨d, hd, hl⟩ := hcs (cs.getLast hne) (List.getLast_mem hne)
    refine ⟨10 * n + d, by omega, ?_⟩
    rw [← Nat.toDigits_append_toDigits (by omega) hn hd, toDigits_small hd, he, ← hl,
      List.cons_append, hsplit]

/-- A token matches the index regex iff it is the decimal numeral of some natural number. -/
theorem isIndex_iff (k : String) : jsonIndexRe.fullmatch k.toList = true ↔ ∃ n, k = natStr n := by
  rw [Re.fullmatch_iff]
  unfold jsonIndexRe
  rw [Re.matches_alt, Re.matches_chr, Re.matches_seq]
  constructor
  · rintro (h | ⟨u, v, h, h1, h2⟩)
    · refine ⟨0, ?_⟩
      rw [← String.toList_inj, h, natStr_toList]; rfl
    · rw [Re.matches_cls] at h1
      obtain ⟨c, hc, rfl⟩ := h1
      have hc' : ∃ d, 0 < d ∧ d < 10 ∧ c = d.digitChar := by
        simp at hc
        obtain ⟨d, hd, rfl⟩ := exists_digit_of_ascii (c := c) ⟨by
          have := hc.1
          rw [Char.le_def, UInt32.le_iff_toNat_le] at this ⊢
          have h0 : ('0' : Char).val.toNat = 48 := rfl
          have h1 : ('1' : Char).val.toNat = 49 := rfl
          omega, hc.2⟩
        refine ⟨d, ?_, hd, rfl⟩
        rcases Nat.eq_zero_or_pos d with rfl | h
        · exact absurd hc.1 (by decide)
        · exact h
      obtain ⟨n, _, hn⟩ := exists_toDigits hc' (star_digits h2)
      refine ⟨n, ?_⟩
      rw [← String.toList_inj, h, natStr_toList, hn]; rfl
  · rintro ⟨n, rfl⟩
    rw [natStr_toList]
    rcases Nat.eq_zero_or_pos n with rfl | hn
    · left; rfl
    · right
      have key : ∃ d cs, Nat.toDigits 10 n = Nat.digitChar d :: cs ∧ 0 < d ∧ d < 10 := by
        induction n using Nat.strongRecOn with
        | _ n ih =>
          by_cases hl : n < 10
          · exact ⟨n, [], toDigits_small hl, hn, hl⟩
          · obtain ⟨d, cs, h, h1, h2⟩ := ih (n / 10) (by omega) (by omega)
            exact ⟨d, cs ++ [(n % 10).digitChar], by rw [toDigits_step (by omega), h]; rfl, h1, h2⟩
      obtain ⟨d, cs, h, h1, h2⟩ := key
      refine ⟨[d.digitChar], cs, h, .cls ?_, digits_star ?_⟩
      · apply digitChar_cases h2 (P := fun d c => 0 < d → ('1' ≤ c && c ≤ '9') = true) <;>
          first | exact h1 | decide
      · intro c hc
        exact mem_toDigits (n := n) (by rw [h]; simp [hc])

/-! ## dict lemmas -/

theorem pyIndex_natCast {α : Type} (xs : List α) (n : Nat) : pyIndex xs (n : Int) = xs[n]? := by
  simp [pyIndex]

end Jschon
