import Verif.Model.Percent
import Verif.Spec.Uri
import Verif.Proof.Pointer

namespace Jschon
open Spec

/-! ## UTF-8 -/

theorem utf8EncNat_lt (n : Nat) (h : n < 0x110000) : ∀ b ∈ utf8EncNat n, b < 256 := by
  unfold utf8EncNat
  split
  · simp; omega
  · split
    · simp; omega
    · split <;> simp <;> omega

theorem char_lt (c : Char) : c.toNat < 0x110000 := by
  rcases c.valid with h | h
  · have : c.toNat < 0xd800 := h
    omega
  · exact h.2

theorem char_not_surrogate (c : Char) : c.toNat < 0xd800 ∨ 0xdfff < c.toNat := by
  rcases c.valid with h | h
  · exact .inl h
  · exact .inr h.1

theorem utf8Dec_encNat (c : Char) (r : List Nat) :
    utf8Dec (utf8EncNat c.toNat ++ r) = c :: utf8Dec r := by
  have hc : Char.ofNat c.toNat = c := Char.ofNat_toNat c
  have hlt := char_lt c
  have hs := char_not_surrogate c
  unfold utf8EncNat
  split
  · rename_i h
    simp only [List.cons_append, List.nil_append]
    conv => lhs; unfold utf8Dec
    simp [h, hc]
  · split
    · rename_i h1 h2
      simp only [List.cons_append, List.nil_append]
      conv => lhs; unfold utf8Dec
      have e1 : ¬ (0xC0 + c.toNat / 0x40 < 0x80) := by omega
      have e2 : ¬ (0xC0 + c.toNat / 0x40 < 0xC2) := by omega
      have e3 : 0xC0 + c.toNat / 0x40 < 0xE0 := by omega
      have e4 : isCont (0x80 + c.toNat % 0x40) = true := by simp [isCont]; omega
      simp only [e1, e2, e3, e4, if_true, if_false]
      have e : (0xC0 + c.toNat / 0x40 - 0xC0) * 0x40 + (0x80 + c.toNat % 0x40 - 0x80) = c.toNat := by omega
      rw [e, hc]
    · split
      · rename_i h1 h2 h3
        simp only [List.cons_append, List.nil_append]
        conv => lhs; unfold utf8Dec
        have e1 : ¬ (0xE0 + c.toNat / 0x1000 < 0x80) := by omega
        have e2 : ¬ (0xE0 + c.toNat / 0x1000 < 0xC2) := by omega
        have e3 : ¬ (0xE0 + c.toNat / 0x1000 < 0xE0) := by omega
        have e3' : 0xE0 + c.toNat / 0x1000 < 0xF0 := by omega
        have e4 : isSecond (0xE0 + c.toNat / 0x1000) (0x80 + c.toNat / 0x40 % 0x40) = true := by
          simp only [isSecond, isCont, Bool.and_eq_true, Bool.or_eq_true, decide_eq_true_eq,
            bne_iff_ne, ne_eq]
          omega
        have e5 : isCont (0x80 + c.toNat % 0x40) = true := by simp [isCont]; omega
        simp only [e1, e2, e3, e3', e4, e5, if_true, if_false]
        have e : (0xE0 + c.toNat / 0x1000 - 0xE0) * 0x1000 + (0x80 + c.toNat / 0x40 % 0x40 - 0x80) * 0x40 +
            (0x80 + c.toNat % 0x40 - 0x80) = c.toNat := by omega
        rw [e, hc]
      · rename_i h1 h2 h3
        simp only [List.cons_append, List.nil_append]
        conv => lhs; unfold utf8Dec
        have e1 : ¬ (0xF0 + c.toNat / 0x40000 < 0x80) := by omega
        have e2 : ¬ (0xF0 + c.toNat / 0x40000 < 0xC2) := by omega
        have e3 : ¬ (0xF0 + c.toNat / 0x40000 < 0xE0) := by omega
        have e3' : ¬ (0xF0 + c.toNat / 0x40000 < 0xF0) := by omega
        have e3'' : 0xF0 + c.toNat / 0x40000 < 0xF5 := by omega
        have e4 : isSecond (0xF0 + c.toNat / 0x40000) (0x80 + c.toNat / 0x1000 % 0x40) = true := by
          simp only [isSecond, isCont, Bool.and_eq_true, Bool.or_eq_true, decide_eq_true_eq,
            bne_iff_ne, ne_eq]
          omega
        have e5 : isCont (0x80 + c.toNat % 0x40) = true := by simp [isCont]; omega
        have e6 : isCont (0x80 + c.toNat / 0x40 % 0x40) = true := by simp [isCont]; omega
        simp only [e1, e2, e3, e3', e3'', e4, e5, e6, if_true, if_false]
        have e : (0xF0 + c.toNat / 0x40000 - 0xF0) * 0x40000 + (0x80 + c.toNat / 0x1000 % 0x40 - 0x80) * 0x1000 +
            (0x80 + c.toNat / 0x40 % 0x40 - 0x80) * 0x40 + (0x80 + c.toNat % 0x40 - 0x80) = c.toNat := by omega
        rw [e, hc]

theorem utf8Dec_utf8Enc (s : List Char) : utf8Dec (utf8Enc s) = s := by
  induction s with
  | nil => simp [utf8Enc, utf8Dec]
  | cons c cs ih =>
    simp only [utf8Enc, List.flatMap_cons]
    rw [utf8Dec_encNat]
    exact congrArg _ ih

theorem utf8Enc_lt (s : List Char) : ∀ b ∈ utf8Enc s, b < 256 := by
  intro b hb
  simp only [utf8Enc, List.mem_flatMap] at hb
  obtain ⟨c, _, hb⟩ := hb
  exact utf8EncNat_lt _ (char_lt c) b hb

/-! ## quote -/

/-- Facts about one quoted byte, over the whole table of bytes. -/
theorem quoteByte_facts : ∀ b : Fin 256,
    (quoteByte b.val).all (fun c => c.toNat < 0x80) = true ∧
    (if Char.ofNat b.val ∈ safeChars then
        Char.ofNat b.val ≠ '%' ∧ (Char.ofNat b.val).toNat = b.val
      else
        hexVal (hexChars.getD (b.val / 16) '0') = some (b.val / 16) ∧
        hexVal (hexChars.getD (b.val % 16) '0') = some (b.val % 16)) := by
  decide +kernel

theorem unquoteBytes_quoteByte (b : Nat) (hb : b < 256) (r : List Char) :
    unquoteBytes (quoteByte b ++ r) = b :: unquoteBytes r := by
  have h := (quoteByte_facts ⟨b, hb⟩).2
  simp only at h
  unfold quoteByte
  split
  · rename_i hs
    simp only [hs, if_true] at h
    simp only [List.cons_append, List.nil_append]
    conv => lhs; unfold unquoteBytes
    simp [h.1, h.2]
  · rename_i hs
    simp only [hs, if_false] at h
    simp only [List.cons_append, List.nil_append]
    conv => lhs; unfold unquoteBytes
    simp only [if_true, h.1, h.2]
    congr 1
    omega

theorem unquoteBytes_quote (bs : List Nat) (h : ∀ b ∈ bs, b < 256) :
    unquoteBytes (bs.flatMap quoteByte) = bs := by
  induction bs with
  | nil => simp [unquoteBytes]
  | cons b bs ih =>
    simp only [List.flatMap_cons]
    rw [unquoteBytes_quoteByte b (h b (by simp)), ih (fun b' hb' => h b' (by simp [hb']))]

theorem unquoteGo_ascii (run s : List Char) (h : ∀ c ∈ s, c.toNat < 0x80) :
    unquoteGo run s = utf8Dec (unquoteBytes (run ++ s)) := by
  induction s generalizing run with
  | nil => simp [unquoteGo]
  | cons c cs ih =>
    have hc := h c (by simp)
    simp only [unquoteGo, hc, if_true]
    rw [ih _ (fun c' hc' => h c' (by simp [hc']))]
    simp

theorem unquoteBytes_no_percent (s : List Char) (h : '%' ∉ s) :
    unquoteBytes s = s.map Char.toNat := by
  induction s with
  | nil => simp [unquoteBytes]
  | cons c cs ih =>
    simp at h
    unfold unquoteBytes
    rw [if_neg (fun hc => h.1 hc.symm), ih h.2]
    rfl

theorem utf8Dec_ascii (s : List Char) (h : ∀ c ∈ s, c.toNat < 0x80) :
    utf8Dec (s.map Char.toNat) = s := by
  induction s with
  | nil => simp [utf8Dec]
  | cons c cs ih =>
    have hc := h c (by simp)
    simp only [List.map_cons]
    unfold utf8Dec
    simp only [hc, if_true, Char.ofNat_toNat]
    rw [ih (fun c' hc' => h c' (by simp [hc']))]

theorem pyQuote_ascii (s : List Char) : ∀ c ∈ pyQuote s, c.toNat < 0x80 := by
  intro c hc
  simp only [pyQuote, List.mem_flatMap] at hc
  obtain ⟨b, hb, hc⟩ := hc
  have h := (quoteByte_facts ⟨b, utf8Enc_lt s b hb⟩).1
  rw [List.all_eq_true] at h
  simpa using h c hc

theorem pyUnquote_pyQuote (s : List Char) : pyUnquote (pyQuote s) = s := by
  have hbytes : unquoteBytes (pyQuote s) = utf8Enc s := unquoteBytes_quote _ (utf8Enc_lt s)
  have hdec : utf8Dec (unquoteBytes (pyQuote s)) = s := by rw [hbytes, utf8Dec_utf8Enc]
  unfold pyUnquote
  split
  · rw [unquoteGo_ascii _ _ (pyQuote_ascii s)]
    simpa using hdec
  · rename_i h
    rw [unquoteBytes_no_percent _ h, utf8Dec_ascii _ (pyQuote_ascii s)] at hdec
    exact hdec

theorem safeChars_ok : ∀ c ∈ safeChars, Unreserved c ∨ SubDelim c ∨ c ∈ [':', '@', '/', '?'] := by
  have : safeChars.all (fun c =>
      (('a' ≤ c && c ≤ 'z') || ('A' ≤ c && c ≤ 'Z') || ('0' ≤ c && c ≤ '9') ||
        c == '-' || c == '.' || c == '_' || c == '~') ||
      ['!', '$', '&', '\'', '(', ')', '*', '+', ',', ';', '='].contains c ||
      c == '/') = true := by decide +kernel
  rw [List.all_eq_true] at this
  intro c hc
  have := this c hc
  simp only [Bool.or_eq_true, Bool.and_eq_true, decide_eq_true_eq, beq_iff_eq,
    List.contains_iff_mem] at this
  unfold Unreserved SubDelim
  rcases this with (h | h) | h
  · left
    rcases h with (((((h | h) | h) | h) | h) | h) | h <;> simp [h]
  · right; left; exact h
  · right; right; simp [h]

theorem hexChars_ok : ∀ d : Fin 16, HexDigit (hexChars.getD d.val '0') := by
  have : ∀ d : Fin 16, (('0' ≤ hexChars.getD d.val '0' && hexChars.getD d.val '0' ≤ '9') ||
      ('A' ≤ hexChars.getD d.val '0' && hexChars.getD d.val '0' ≤ 'F')) = true := by
    decide +kernel
  intro d
  have := this d
  simp only [Bool.or_eq_true, Bool.and_eq_true, decide_eq_true_eq] at this
  exact this

theorem pyQuote_fragment (s : List Char) : Fragment (pyQuote s) := by
  have h := utf8Enc_lt s
  unfold pyQuote
  generalize utf8Enc s = bs at h
  induction bs with
  | nil => exact .nil
  | cons b bs ih =>
    have ih := ih (fun b' hb' => h b' (by simp [hb']))
    have hb := h b (by simp)
    simp only [List.flatMap_cons]
    unfold quoteByte
    split
    · rename_i hs
      exact .char (safeChars_ok _ hs) ih
    · exact .pct (hexChars_ok ⟨b / 16, by omega⟩) (hexChars_ok ⟨b % 16, by omega⟩) ih

end Jschon
