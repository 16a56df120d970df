import Verif.Proof.JsonLex

/-!
# String literals: the scanner and the grammar
-/

namespace Jschon
open Spec

theorem hex_val {c : Char} {n : Nat} (h : Hex c n) : hexDigitVal c = some n := by
  cases h with
  | dec h => simp [hexDigitVal, (digit_val h).1, (digit_val h).2]
  | _ => decide

theorem hex_of {c : Char} {n : Nat} (h : hexDigitVal c = some n) : Hex c n := by
  unfold hexDigitVal at h
  split at h
  · rename_i hd; cases h; exact .dec (digit_of hd)
  · split at h
    · rename_i ha
      cases h
      have ha' : 97 ≤ c.toNat ∧ c.toNat ≤ 102 := ha
      have : c.toNat = 97 ∨ c.toNat = 98 ∨ c.toNat = 99 ∨ c.toNat = 100 ∨ c.toNat = 101 ∨ c.toNat = 102 := by
        omega
      rcases this with e | e | e | e | e | e
      · cases char_of_nat (d := 'a') e; exact .a
      · cases char_of_nat (d := 'b') e; exact .b
      · cases char_of_nat (d := 'c') e; exact .c
      · cases char_of_nat (d := 'd') e; exact .d
      · cases char_of_nat (d := 'e') e; exact .e
      · cases char_of_nat (d := 'f') e; exact .f
    · split at h
      · rename_i ha
        cases h
        have ha' : 65 ≤ c.toNat ∧ c.toNat ≤ 70 := ha
        have : c.toNat = 65 ∨ c.toNat = 66 ∨ c.toNat = 67 ∨ c.toNat = 68 ∨ c.toNat = 69 ∨ c.toNat = 70 := by
          omega
        rcases this with e | e | e | e | e | e
        · cases char_of_nat (d := 'A') e; exact .A
        · cases char_of_nat (d := 'B') e; exact .B
        · cases char_of_nat (d := 'C') e; exact .C
        · cases char_of_nat (d := 'D') e; exact .D
        · cases char_of_nat (d := 'E') e; exact .E
        · cases char_of_nat (d := 'F') e; exact .F
      · cases h

theorem scanHex_of {h : List Char} {n : Nat} (hh : Hex4 h n) (t : List Char) :
    scanHex (h ++ t) = some (n, t) := by
  obtain ⟨ha, hb, hc, hd⟩ := hh
  simp only [List.cons_append, List.nil_append, scanHex, hex_val ha, hex_val hb, hex_val hc, hex_val hd,
    Option.some.injEq, Prod.mk.injEq, and_true]
  omega

theorem scanHex_sound {s t : List Char} {n : Nat} (h : scanHex s = some (n, t)) :
    ∃ p, s = p ++ t ∧ Hex4 p n := by
  unfold scanHex at h
  split at h
  · rename_i a b c d r
    split at h
    · rename_i i j k l ha hb hc hd
      cases h
      refine ⟨[a, b, c, d], rfl, ?_⟩
      have := Hex4.mk (hex_of ha) (hex_of hb) (hex_of hc) (hex_of hd)
      have e : 4096 * i + 256 * j + 16 * k + l = ((i * 16 + j) * 16 + k) * 16 + l := by omega
      rwa [e] at this
    · cases h
  · cases h

theorem isHigh_iff {n : Nat} : isHigh n = true ↔ 0xd800 ≤ n ∧ n < 0xdc00 := by
  simp only [isHigh, Bool.and_eq_true, decide_eq_true_eq]; omega

theorem isLow_iff {n : Nat} : isLow n = true ↔ 0xdc00 ≤ n ∧ n ≤ 0xdfff := by
  simp only [isLow, Bool.and_eq_true, decide_eq_true_eq]

/-- An escape of two characters is not `\u`. -/
theorem escape_ne {c : Char} {n : Nat} (h : Escape c n) : c ≠ 'u' := by cases h <;> decide

theorem escape_val {c : Char} {n : Nat} (h : Escape c n) (t : List Char) :
    scanEscape (c :: t) = some (n, t) := by
  cases h <;> simp [scanEscape] <;> rfl

theorem scanEscape_u (t : List Char) : scanEscape ('u' :: t) = scanUni t := by
  simp [scanEscape]

/-- A text of units that goes on with `\u` begins with a unit. -/
theorem units_u {s : List Char} {us : List StrUnit} (h : Units s us) {t r : List Char}
    (e : s ++ '"' :: t = '\\' :: 'u' :: r) :
    ∃ h' n s' us', s = '\\' :: 'u' :: h' ++ s' ∧ us = .unit n :: us' ∧ Hex4 h' n ∧ Units s' us' ∧
      r = h' ++ (s' ++ '"' :: t) := by
  cases h with
  | nil => simp at e
  | char hq hb _ _ => simp only [List.cons_append, List.cons.injEq] at e; exact absurd e.1 hb
  | short hc _ =>
    simp only [List.cons_append, List.cons.injEq, true_and] at e
    exact absurd e.1 (escape_ne hc)
  | @unit h' n s' us' hh hs =>
    simp only [List.cons_append, List.cons.injEq, true_and, List.append_assoc] at e
    exact ⟨h', n, s', us', rfl, rfl, hh, hs, e.symm⟩

theorem scanChars_of {us : List StrUnit} {ns : List Nat} (hp : Points us ns) :
    ∀ {s : List Char}, Units s us → ∀ (t : List Char) (f : Nat), s.length + 1 ≤ f →
      scanChars f (s ++ '"' :: t) = some (ns, t) := by
  induction hp with
  | nil =>
    intro s hs t f hf
    cases hs
    obtain ⟨f, rfl⟩ : ∃ g, f = g + 1 := ⟨f - 1, by omega⟩
    simp [scanChars]
  | char _ ih =>
    intro s hs t f hf
    cases hs with
    | char hq hb hc hs =>
      obtain ⟨f, rfl⟩ : ∃ g, f = g + 1 := ⟨f - 1, by omega⟩
      have := ih hs t f (by simp at hf; omega)
      simp only [List.cons_append, scanChars, hq, if_false, hb, this, Option.map_some]
      rw [if_neg (by omega)]
  | short _ ih =>
    intro s hs t f hf
    cases hs with
    | short hc hs =>
      obtain ⟨f, rfl⟩ : ∃ g, f = g + 1 := ⟨f - 1, by omega⟩
      have := ih hs t f (by simp at hf; omega)
      have hq : ¬ ('\\' = '"') := by decide
      simp only [List.cons_append, scanChars, hq, if_false, if_true, escape_val hc, this, Option.map_some]
  | @pair a b us ns ha hb _ ih =>
    intro s hs t f hf
    cases hs with
    | @unit h _ s _ hh hs =>
      cases hs with
      | @unit h' _ s _ hh' hs =>
        obtain ⟨f, rfl⟩ : ∃ g, f = g + 1 := ⟨f - 1, by omega⟩
        have := ih hs t f (by simp at hf; omega)
        have hq : ¬ ('\\' = '"') := by decide
        have h1 : isHigh (0xd800 + a) = true := isHigh_iff.2 (by omega)
        have h2 : isLow (0xdc00 + b) = true := isLow_iff.2 (by omega)
        simp only [List.cons_append, List.append_assoc, scanChars, hq, if_false, if_true, scanEscape_u,
          scanUni, scanHex_of hh, h1, scanHex_of hh', h2, this, Option.map_some]
        simp only [Option.some.injEq, Prod.mk.injEq, List.cons.injEq, and_true]
        omega
  | @unit n us ns hn _ ih =>
    intro s hs t f hf
    cases hs with
    | @unit h _ s _ hh hs =>
      obtain ⟨f, rfl⟩ : ∃ g, f = g + 1 := ⟨f - 1, by omega⟩
      have := ih hs t f (by simp at hf; omega)
      have hq : ¬ ('\\' = '"') := by decide
      have hu : scanUni (h ++ (s ++ '"' :: t)) = some (n, s ++ '"' :: t) := by
        simp only [scanUni, scanHex_of hh]
        split
        · rename_i hi
          split
          · rename_i r' e
            obtain ⟨h', m, s', us', rfl, rfl, hh', hs', rfl⟩ := units_u hs e
            simp only [scanHex_of hh']
            rw [if_neg]
            intro hl
            have hl := isLow_iff.1 hl
            obtain ⟨b, hb⟩ : ∃ b, m = 0xdc00 + b := ⟨m - 0xdc00, by omega⟩
            exact hn ⟨isHigh_iff.1 hi, b, us', by rw [hb], by omega⟩
          · rfl
        · rfl
      simp only [List.cons_append, List.append_assoc, scanChars, hq, if_false, if_true, scanEscape_u,
        hu, this, Option.map_some]

/-- What follows a backslash. -/
theorem scanEscape_sound {s t : List Char} {n : Nat} (h : scanEscape s = some (n, t)) :
    (∃ c, s = c :: t ∧ Escape c n) ∨
    (∃ h a h' b, s = 'u' :: (h ++ '\\' :: 'u' :: h' ++ t) ∧ Hex4 h (0xd800 + a) ∧ Hex4 h' (0xdc00 + b) ∧
      a < 0x400 ∧ b < 0x400 ∧ n = 0x10000 + 0x400 * a + b) ∨
    (∃ h, s = 'u' :: (h ++ t) ∧ Hex4 h n ∧
      ¬ ((0xd800 ≤ n ∧ n < 0xdc00) ∧ ∃ h' b r, t = '\\' :: 'u' :: h' ++ r ∧ Hex4 h' (0xdc00 + b) ∧ b < 0x400)) := by
  cases s with
  | nil => cases h
  | cons c r =>
    rw [scanEscape] at h
    split at h
    · rename_i hc; cases h
      refine .inl ⟨c, rfl, ?_⟩
      rcases hc with rfl | rfl | rfl
      · exact .quote
      · exact .backslash
      · exact .slash
    split at h
    · rename_i hc; cases h; subst hc; exact .inl ⟨_, rfl, .b⟩
    split at h
    · rename_i hc; cases h; subst hc; exact .inl ⟨_, rfl, .f⟩
    split at h
    · rename_i hc; cases h; subst hc; exact .inl ⟨_, rfl, .n⟩
    split at h
    · rename_i hc; cases h; subst hc; exact .inl ⟨_, rfl, .r⟩
    split at h
    · rename_i hc; cases h; subst hc; exact .inl ⟨_, rfl, .t⟩
    split at h
    · rename_i hc
      subst hc
      right
      unfold scanUni at h
      split at h
      · cases h
      · rename_i m r1 e1
        obtain ⟨p, rfl, hp⟩ := scanHex_sound e1
        split at h
        · rename_i hi
          have hi' := isHigh_iff.1 hi
          split at h
          · rename_i r2
            split at h
            · cases h
            · rename_i l r3 e2
              obtain ⟨q, rfl, hq⟩ := scanHex_sound e2
              split at h
              · rename_i hl
                have hl := isLow_iff.1 hl
                simp only [Option.some.injEq, Prod.mk.injEq] at h
                obtain ⟨hn, rfl⟩ := h
                refine .inl ⟨p, m - 0xd800, q, l - 0xdc00, by simp, ?_, ?_, by omega, by omega, by omega⟩
                · rwa [show 0xd800 + (m - 0xd800) = m by omega]
                · rwa [show 0xdc00 + (l - 0xdc00) = l by omega]
              · rename_i hl
                cases h
                refine .inr ⟨p, rfl, hp, fun ⟨_, h', b, r, e, hh, hb⟩ => hl ?_⟩
                simp only [List.cons_append, List.cons.injEq, true_and] at e
                have := scanHex_of hh r
                rw [← e, scanHex_of hq] at this
                simp only [Option.some.injEq, Prod.mk.injEq] at this
                have hlb := this.1
                clear this
                exact isLow_iff.2 (by omega)
          · rename_i hno
            cases h
            refine .inr ⟨p, rfl, hp, fun ⟨_, h', b, r, e, hh, hb⟩ => hno _ e⟩
        · rename_i hi
          cases h
          refine .inr ⟨p, rfl, hp, fun ⟨h1, _⟩ => hi (isHigh_iff.2 h1)⟩
    · cases h

theorem scanChars_sound : ∀ (f : Nat) {s t : List Char} {ns : List Nat},
    scanChars f s = some (ns, t) → ∃ p us, s = p ++ '"' :: t ∧ Units p us ∧ Points us ns
  | 0, _, _, _, h => by cases h
  | f + 1, [], _, _, h => by cases h
  | f + 1, c :: r, t, ns, h => by
    rw [scanChars] at h
    split at h
    · rename_i hc; cases h; subst hc; exact ⟨[], [], rfl, .nil, .nil⟩
    · rename_i hq
      split at h
      · rename_i hc
        subst hc
        split at h
        · cases h
        · rename_i n r' he
          simp only [Option.map_eq_some_iff] at h
          obtain ⟨⟨ms, t'⟩, hm, e⟩ := h
          cases e
          obtain ⟨p, us, rfl, hu, hp⟩ := scanChars_sound f hm
          rcases scanEscape_sound he with ⟨c, rfl, hc⟩ | ⟨h, a, h', b, rfl, hh, hh', ha, hb, rfl⟩ | ⟨h, rfl, hh, hn⟩
          · exact ⟨_, _, rfl, .short hc hu, .short hp⟩
          · exact ⟨_, _, by simp, .unit hh (.unit hh' hu), .pair ha hb hp⟩
          · refine ⟨'\\' :: 'u' :: h ++ p, _, by simp, .unit hh hu, .unit (fun ⟨h1, b, vs, e, hb⟩ => hn ⟨h1, ?_⟩) hp⟩
            subst e
            cases hu with
            | @unit h' _ s' _ hh' _ => exact ⟨h', b, s' ++ '"' :: t', by simp, hh', hb⟩
      · rename_i hb
        split at h
        · cases h
        · rename_i hc
          simp only [Option.map_eq_some_iff] at h
          obtain ⟨⟨ms, t'⟩, hm, e⟩ := h
          cases e
          obtain ⟨p, us, rfl, hu, hp⟩ := scanChars_sound f hm
          exact ⟨c :: p, _, rfl, .char hq hb (by omega) hu, .char hp⟩

/-- The scanner reads a string literal. -/
theorem scanString_of {s : List Char} {ns : List Nat} (h : StringText s ns) (t : List Char) :
    ∃ r, s ++ t = '"' :: r ∧ scanString r = .ok (ns, t) := by
  obtain ⟨hu, hp⟩ := h
  refine ⟨_, by simp only [List.cons_append, List.append_assoc, List.nil_append]; rfl, ?_⟩
  rw [scanString, scanChars_of hp hu t _ (by simp)]

/-- What the scanner reads is a string literal. -/
theorem scanString_sound {s t : List Char} {ns : List Nat} (h : scanString s = .ok (ns, t)) :
    ∃ p, '"' :: s = p ++ t ∧ StringText p ns := by
  unfold scanString at h
  split at h
  · rename_i p e
    cases h
    obtain ⟨p, us, rfl, hu, hp⟩ := scanChars_sound _ e
    exact ⟨'"' :: p ++ ['"'], by simp, .mk hu hp⟩
  · cases h

/-! ## Objects with repeated names -/

/-- The dict after entering members. -/
def enterAll (d ms : List (List Nat × Loaded)) : List (List Nat × Loaded) :=
  ms.foldl (fun d m => setMember m.1 m.2 d) d

/-- The last value of a name, or `v`. -/
def lastOr (k : List Nat) (v : Loaded) : List (List Nat × Loaded) → Loaded
  | [] => v
  | m :: ms => lastOr k (if m.1 = k then m.2 else v) ms

theorem enterAll_cons (k : List Nat) (v : Loaded) (d ms : List (List Nat × Loaded)) :
    enterAll ((k, v) :: d) ms = (k, lastOr k v ms) :: enterAll d (ms.filter (fun m => m.1 ≠ k)) := by
  induction ms generalizing v d with
  | nil => rfl
  | cons m ms ih =>
    by_cases h : m.1 = k
    · rw [List.filter_cons_of_neg (by simpa using h)]
      have := ih m.2 d
      simpa [enterAll, setMember, lastOr, h] using this
    · rw [List.filter_cons_of_pos (by simpa using h)]
      have := ih v (setMember m.1 m.2 d)
      simpa [enterAll, setMember, lastOr, h] using this

theorem lastOr_last (k : List Nat) (v : Loaded) (ms : List (List Nat × Loaded)) :
    LastValue ((k, v) :: ms) k (lastOr k v ms) := by
  induction ms generalizing v with
  | nil => exact ⟨[], [], rfl, by simp⟩
  | cons m ms ih =>
    simp only [lastOr]
    split
    · rename_i h
      obtain ⟨pre, post, e, hp⟩ := ih m.2
      refine ⟨(k, v) :: pre, post, ?_, hp⟩
      rw [List.cons_append, ← e, ← h]
    · rename_i h
      obtain ⟨pre, post, e, hp⟩ := ih v
      cases pre with
      | nil =>
        simp only [List.nil_append, List.cons.injEq, Prod.mk.injEq, true_and] at e
        obtain ⟨e1, rfl⟩ := e
        refine ⟨[], m :: ms, by rw [← e1]; rfl, fun w hw => ?_⟩
        rcases List.mem_cons.1 hw with e | hw
        · exact h (by rw [← e])
        · exact hp w hw
      | cons a pre =>
        simp only [List.cons_append, List.cons.injEq] at e
        exact ⟨(k, v) :: m :: pre, post, by rw [List.cons_append, List.cons_append, ← e.2], hp⟩

theorem lastValue_unique {ms : List (List Nat × Loaded)} {k : List Nat} {v w : Loaded}
    (hv : LastValue ms k v) (hw : LastValue ms k w) : v = w := by
  obtain ⟨p, q, rfl, hq⟩ := hv
  obtain ⟨p', q', e, hq'⟩ := hw
  induction p generalizing p' with
  | nil =>
    cases p' with
    | nil => simp at e; exact e.1
    | cons a p' =>
      simp only [List.nil_append, List.cons_append, List.cons.injEq] at e
      obtain ⟨rfl, rfl⟩ := e
      exact absurd (by simp) (hq w)
  | cons a p ih =>
    cases p' with
    | nil =>
      simp only [List.nil_append, List.cons_append, List.cons.injEq] at e
      obtain ⟨rfl, rfl⟩ := e
      exact absurd (by simp) (hq' v)
    | cons b p' =>
      simp only [List.cons_append, List.cons.injEq] at e
      exact ih p' e.2

theorem merged_iff {ms d : List (List Nat × Loaded)} : Merged ms d ↔ d = enterAll [] ms := by
  constructor
  · intro h
    induction h with
    | nil => rfl
    | @cons k v w ms d hl _ ih =>
      have := enterAll_cons k v [] ms
      show _ = enterAll (setMember k v []) ms
      rw [setMember, this, ← ih, lastValue_unique hl (lastOr_last k v ms)]
  · intro h
    subst h
    generalize hn : ms.length = n
    induction n using Nat.strongRecOn generalizing ms with
    | _ n ih =>
      cases ms with
      | nil => exact .nil
      | cons m ms =>
        obtain ⟨k, v⟩ := m
        have := enterAll_cons k v [] ms
        show Merged _ (enterAll (setMember k v []) ms)
        rw [setMember, this]
        refine .cons (lastOr_last k v ms) (ih _ ?_ rfl)
        have := List.length_filter_le (fun m : List Nat × Loaded => decide (m.1 ≠ k)) ms
        simp at hn
        omega

end Jschon
