import Verif.Spec.Percent
import Verif.Props.Percent

/-!
# C94: what fragments stand for
-/

namespace Jschon
open Spec

theorem hexValue_hexVal {c : Char} {d : Nat} (h : HexValue c d) : hexVal c = some d ∧ c.toNat < 0x80 := by
  have h1 : ∀ d : Fin 10, hexVal (Char.ofNat ('0'.toNat + d)) = some d.val ∧
      (Char.ofNat ('0'.toNat + d)).toNat < 0x80 := by decide +kernel
  have h2 : ∀ d : Fin 6, hexVal (Char.ofNat ('A'.toNat + d)) = some (10 + d.val) ∧
      (Char.ofNat ('A'.toNat + d)).toNat < 0x80 := by decide +kernel
  have h3 : ∀ d : Fin 6, hexVal (Char.ofNat ('a'.toNat + d)) = some (10 + d.val) ∧
      (Char.ofNat ('a'.toNat + d)).toNat < 0x80 := by decide +kernel
  cases h with
  | digit h => exact h1 ⟨d, h⟩
  | upper h => exact h2 ⟨_, h⟩
  | lower h => exact h3 ⟨_, h⟩

theorem hexVal_hexValue {c : Char} {d : Nat} (h : hexVal c = some d) : HexValue c d := by
  have hc : Char.ofNat c.toNat = c := Char.ofNat_toNat c
  simp only [hexVal, Bool.and_eq_true, decide_eq_true_eq] at h
  split at h
  · cases h
    have : c = Char.ofNat ('0'.toNat + (c.toNat - 48)) := by
      rw [show '0'.toNat + (c.toNat - 48) = c.toNat by simp; omega, hc]
    generalize hn : c.toNat - 48 = n at this ⊢
    rw [this]
    exact .digit (by omega)
  · split at h
    · cases h
      have : c = Char.ofNat ('A'.toNat + (c.toNat - 65)) := by
        rw [show 'A'.toNat + (c.toNat - 65) = c.toNat by simp; omega, hc]
      rw [show c.toNat - 55 = 10 + (c.toNat - 65) by omega]
      generalize hn : c.toNat - 65 = n at this ⊢
      rw [this]
      exact .upper (by omega)
    · split at h
      · cases h
        have : c = Char.ofNat ('a'.toNat + (c.toNat - 97)) := by
          rw [show 'a'.toNat + (c.toNat - 97) = c.toNat by simp; omega, hc]
        rw [show c.toNat - 87 = 10 + (c.toNat - 97) by omega]
        generalize hn : c.toNat - 97 = n at this ⊢
        rw [this]
        exact .lower (by omega)
      · cases h

theorem utf8EncNat_eq (c : Char) : utf8EncNat c.toNat = (String.utf8EncodeChar c).map UInt8.toNat := by
  have hlt := char_lt c
  have hv : c.val.toNat = c.toNat := rfl
  unfold utf8EncNat String.utf8EncodeChar
  simp only [hv]
  by_cases h1 : c.toNat < 0x80
  · rw [if_pos h1, if_pos (show c.toNat ≤ 0x7f by omega)]; simp; omega
  · rw [if_neg h1, if_neg (show ¬ c.toNat ≤ 0x7f by omega)]
    by_cases h2 : c.toNat < 0x800
    · rw [if_pos h2, if_pos (show c.toNat ≤ 0x7ff by omega)]; simp; omega
    · rw [if_neg h2, if_neg (show ¬ c.toNat ≤ 0x7ff by omega)]
      by_cases h3 : c.toNat < 0x10000
      · rw [if_pos h3, if_pos (show c.toNat ≤ 0xffff by omega)]; simp; omega
      · rw [if_neg h3, if_neg (show ¬ c.toNat ≤ 0xffff by omega)]; simp; omega

/-- ASCII. -/
def isAscii (c : Char) : Bool := c.toNat < 0x80

/-- What `unquoteGo` does after the first run of ASCII characters. -/
def unquoteRest (s : List Char) : List Char :=
  match s.dropWhile isAscii with
  | [] => []
  | c :: r => c :: unquoteGo [] r

theorem unquoteGo_run (s run : List Char) :
    unquoteGo run s = utf8Dec (unquoteBytes (run ++ s.takeWhile isAscii)) ++ unquoteRest s := by
  induction s generalizing run with
  | nil => simp [unquoteGo, unquoteRest]
  | cons c r ih =>
    by_cases hc : c.toNat < 0x80
    · have : isAscii c = true := by simpa [isAscii] using hc
      simp only [unquoteGo, hc, if_true, ih, unquoteRest, List.takeWhile_cons, List.dropWhile_cons, this]
      simp
    · have : isAscii c = false := by simpa [isAscii] using hc
      simp [unquoteGo, hc, unquoteRest, this]

theorem pctOctets_run {bs : List UInt8} {e : List Char} (h : PctOctets bs e) (r : List Char) :
    (e ++ r).takeWhile isAscii = e ++ r.takeWhile isAscii ∧ (e ++ r).dropWhile isAscii = r.dropWhile isAscii ∧
    unquoteBytes (e ++ r) = bs.map UInt8.toNat ++ unquoteBytes r := by
  induction h with
  | nil => simp
  | @cons o bs a b x y e ha hb ho _ ih =>
    obtain ⟨a1, a2⟩ := hexValue_hexVal ha
    obtain ⟨b1, b2⟩ := hexValue_hexVal hb
    have a3 : isAscii a = true := by simpa [isAscii] using a2
    have b3 : isAscii b = true := by simpa [isAscii] using b2
    have p3 : isAscii '%' = true := by decide
    refine ⟨by simp [a3, b3, p3, ih.1], by simp [a3, b3, p3, ih.2.1], ?_⟩
    simp only [List.cons_append, List.map_cons]
    conv => lhs; unfold unquoteBytes
    simp only [if_true, a1, b1, ih.2.2, ho]

theorem unquoteBytes_stray {x : List Char} (h : ¬ ∃ a b p q z, x = a :: b :: z ∧ HexValue a p ∧ HexValue b q) :
    unquoteBytes ('%' :: x) = 0x25 :: unquoteBytes x := by
  conv => lhs; unfold unquoteBytes
  simp only [if_true]
  match x with
  | [] => simp [unquoteBytes]
  | [a] =>
    simp only [unquoteBytes]
    split <;> rfl
  | a :: b :: z =>
    simp only
    split
    · next p q hp hq => exact absurd ⟨a, b, p, q, z, rfl, hexVal_hexValue hp, hexVal_hexValue hq⟩ h
    · rfl

theorem unquoteGo_text {e t : List Char} (h : PctStands e t) : unquoteGo [] e = t := by
  rw [unquoteGo_run, List.nil_append]
  induction h with
  | nil => rfl
  | @char c r t hc h ih =>
    by_cases ha : isAscii c = true
    · have hr : unquoteRest (c :: r) = unquoteRest r := by simp [unquoteRest, ha]
      have hb : unquoteBytes (c :: r.takeWhile isAscii) = c.toNat :: unquoteBytes (r.takeWhile isAscii) := by
        conv => lhs; unfold unquoteBytes
        simp [hc]
      have hd : ∀ l, utf8Dec (c.toNat :: l) = c :: utf8Dec l := by
        intro l
        conv => lhs; unfold utf8Dec
        simp [show c.toNat < 0x80 by simpa [isAscii] using ha]
      simp only [List.takeWhile_cons, ha, if_true, hr, hb, hd, List.cons_append, ih]
    · simp only [List.takeWhile_cons, ha, unquoteRest, List.dropWhile_cons, if_false, Bool.false_eq_true]
      rw [unquoteGo_run, List.nil_append, ih]
      simp [unquoteBytes, utf8Dec]
  | @octets c e r t ho h ih =>
    obtain ⟨h1, h2, _⟩ := pctOctets_run ho r
    have hr : unquoteRest (e ++ r) = unquoteRest r := by simp only [unquoteRest, h2]
    rw [h1, hr, (pctOctets_run ho _).2.2, ← utf8EncNat_eq, utf8Dec_encNat, List.cons_append, ih]
  | @stray r t hn h ih =>
    have p3 : isAscii '%' = true := by decide
    have hr : unquoteRest ('%' :: r) = unquoteRest r := by simp [unquoteRest, p3]
    have hs : ¬ ∃ a b p q z, r.takeWhile isAscii = a :: b :: z ∧ HexValue a p ∧ HexValue b q := by
      rintro ⟨a, b, p, q, z, he, ha, hb⟩
      apply hn
      have := List.takeWhile_append_dropWhile (p := isAscii) (l := r)
      rw [he] at this
      exact ⟨a, b, p, q, _, this.symm, ha, hb⟩
    have hd : ∀ l, utf8Dec (0x25 :: l) = '%' :: utf8Dec l := by
      intro l
      conv => lhs; unfold utf8Dec
      simp
    simp only [List.takeWhile_cons, p3, if_true, hr, unquoteBytes_stray hs, hd, List.cons_append, ih]

theorem pctStands_plain {e t : List Char} (h : PctStands e t) (hp : '%' ∉ e) : t = e := by
  induction h with
  | nil => rfl
  | char _ _ ih => rw [ih (fun h => hp (List.mem_cons_of_mem _ h))]
  | @octets c e r t ho _ _ =>
    exfalso
    cases ho' : String.utf8EncodeChar c with
    | nil =>
      have := utf8EncNat_eq c
      rw [ho'] at this
      simp only [utf8EncNat, List.map_nil] at this
      split at this
      · cases this
      · split at this
        · cases this
        · split at this <;> cases this
    | cons o bs =>
      rw [ho'] at ho
      cases ho
      exact hp (by simp)
  | stray => exact absurd (by simp) hp

/-- C94: `parse_uri_fragment` decodes: a fragment is read as the pointer text that it stands for, whichever
characters are encoded, and in upper or lower case. -/
theorem C94_decodes (s : String) (t : List Char) (h : PctStands s.toList t) :
    Ptr.parseUriFragment s = Ptr.parse (String.ofList t) := by
  unfold Ptr.parseUriFragment pyUnquote
  split
  · rw [unquoteGo_text h]
  · next hp => rw [pctStands_plain h hp]

/-- C94: so every fragment that stands for a pointer is read as that pointer. -/
theorem C94_pointer (s : String) (p : Ptr) (h : PctStands s.toList p.str.toList) : Ptr.parseUriFragment s = .ok p := by
  rw [C94_decodes s _ h, String.ofList_toList]
  exact C01_roundtrip p

theorem safeChars_iff (c : Char) : c ∈ safeChars ↔ FragmentSafe c := by
  constructor
  · intro h
    have : safeChars.all (fun c =>
        (('a' ≤ c && c ≤ 'z') || ('A' ≤ c && c ≤ 'Z') || ('0' ≤ c && c ≤ '9') ||
          c == '-' || c == '.' || c == '_' || c == '~') ||
        ['!', '$', '&', '\'', '(', ')', '*', '+', ',', ';', '='].contains c ||
        c == '/') = true := by decide +kernel
    rw [List.all_eq_true] at this
    have := this c h
    simp only [Bool.or_eq_true, Bool.and_eq_true, decide_eq_true_eq, beq_iff_eq, List.contains_iff_mem] at this
    unfold FragmentSafe Unreserved SubDelim
    rcases this with (h | h) | h
    · left
      rcases h with (((((h | h) | h) | h) | h) | h) | h <;> simp [h]
    · right; left; exact h
    · right; right; exact h
  · intro h
    have hlt : c.toNat < 128 := by
      unfold FragmentSafe Unreserved SubDelim at h
      simp only [List.mem_cons, List.not_mem_nil, or_false] at h
      have le : ∀ {a b : Char}, a ≤ b → a.toNat ≤ b.toNat := fun h => h
      rcases h with (⟨_, h⟩ | ⟨_, h⟩ | ⟨_, h⟩ | rfl | rfl | rfl | rfl) | h | rfl
      · have := le h; have : 'z'.toNat = 122 := rfl; omega
      · have := le h; have : 'Z'.toNat = 90 := rfl; omega
      · have := le h; have : '9'.toNat = 57 := rfl; omega
      all_goals first | decide | skip
      rcases h with rfl | rfl | rfl | rfl | rfl | rfl | rfl | rfl | rfl | rfl | rfl <;> decide
    have key : ∀ n : Fin 128, (((('a' ≤ Char.ofNat n && Char.ofNat n ≤ 'z') ||
        ('A' ≤ Char.ofNat n && Char.ofNat n ≤ 'Z') || ('0' ≤ Char.ofNat n && Char.ofNat n ≤ '9') ||
          Char.ofNat n == '-' || Char.ofNat n == '.' || Char.ofNat n == '_' || Char.ofNat n == '~') ||
        ['!', '$', '&', '\'', '(', ')', '*', '+', ',', ';', '='].contains (Char.ofNat n)) ||
        Char.ofNat n == '/') = true → Char.ofNat n ∈ safeChars := by decide +kernel
    have := key ⟨c.toNat, hlt⟩
    simp only [Char.ofNat_toNat] at this
    apply this
    simp only [Bool.or_eq_true, Bool.and_eq_true, decide_eq_true_eq, beq_iff_eq, List.contains_iff_mem]
    unfold FragmentSafe Unreserved SubDelim at h
    rcases h with (h | h | h | h | h | h | h) | h | h <;> simp only [h, true_or, or_true, and_self]

theorem hexChars_value : ∀ d : Fin 16, hexVal (hexChars.getD d.val '0') = some d.val := by decide +kernel

theorem quote_octets {bs : List UInt8} (h : ∀ b ∈ bs, Char.ofNat b.toNat ∉ safeChars) :
    PctOctets bs ((bs.map UInt8.toNat).flatMap quoteByte) ∧
    ∀ a ∈ (bs.map UInt8.toNat).flatMap quoteByte, a = '%' ∨ HexDigit a := by
  induction bs with
  | nil => exact ⟨.nil, by simp⟩
  | cons b bs ih =>
    have hb := b.toNat_lt
    obtain ⟨i1, i2⟩ := ih (fun b' hb' => h b' (by simp [hb']))
    have hq : quoteByte b.toNat = ['%', hexChars.getD (b.toNat / 16) '0', hexChars.getD (b.toNat % 16) '0'] := by
      rw [quoteByte, if_neg (h b (by simp))]
    simp only [List.map_cons, List.flatMap_cons, hq, List.cons_append, List.nil_append]
    refine ⟨.cons (hexVal_hexValue (hexChars_value ⟨b.toNat / 16, by omega⟩))
      (hexVal_hexValue (hexChars_value ⟨b.toNat % 16, by omega⟩)) (by simp only; omega) i1, ?_⟩
    intro a ha
    simp only [List.mem_cons] at ha
    rcases ha with rfl | rfl | rfl | ha
    · exact .inl rfl
    · exact .inr (hexChars_ok ⟨b.toNat / 16, by omega⟩)
    · exact .inr (hexChars_ok ⟨b.toNat % 16, by omega⟩)
    · exact i2 a ha

theorem utf8_high (c : Char) (h : 0x80 ≤ c.toNat) : ∀ b ∈ utf8EncNat c.toNat, 0x80 ≤ b := by
  intro b hb
  unfold utf8EncNat at hb
  split at hb
  · omega
  · split at hb
    · simp at hb; omega
    · split at hb
      · simp at hb; omega
      · simp at hb; omega

theorem safe_low : ∀ c ∈ safeChars, c.toNat < 0x80 := by decide +kernel

theorem pyQuote_text (t : List Char) : FragmentText t (pyQuote t) := by
  induction t with
  | nil => exact .nil
  | cons c t ih =>
    have hq : pyQuote (c :: t) = (utf8EncNat c.toNat).flatMap quoteByte ++ pyQuote t := by
      simp [pyQuote, utf8Enc]
    rw [hq]
    by_cases hs : c ∈ safeChars
    · have hlt := safe_low c hs
      have : utf8EncNat c.toNat = [c.toNat] := by rw [utf8EncNat, if_pos hlt]
      rw [this]
      simp only [List.flatMap_cons, List.flatMap_nil, List.append_nil, quoteByte, Char.ofNat_toNat, if_pos hs]
      exact .char ((safeChars_iff c).1 hs) ih
    · have hb : ∀ b ∈ String.utf8EncodeChar c, Char.ofNat b.toNat ∉ safeChars := by
        intro b hb hsafe
        have hmem : b.toNat ∈ utf8EncNat c.toNat := by rw [utf8EncNat_eq]; exact List.mem_map_of_mem hb
        by_cases hlt : c.toNat < 0x80
        · rw [utf8EncNat, if_pos hlt] at hmem
          simp only [List.mem_singleton] at hmem
          rw [hmem, Char.ofNat_toNat] at hsafe
          exact hs hsafe
        · have h1 := utf8_high c (by omega) _ hmem
          have h2 := safe_low _ hsafe
          have h3 := b.toNat_lt
          have h4 : (Char.ofNat b.toNat).toNat = b.toNat := by
            have : ∀ n : Fin 256, (Char.ofNat n).toNat = n := by decide +kernel
            exact this ⟨b.toNat, h3⟩
          omega
      obtain ⟨q1, q2⟩ := quote_octets hb
      rw [← utf8EncNat_eq] at q1 q2
      exact .octets (fun h => hs ((safeChars_iff c).2 h)) q1 q2 ih

/-- C94: `uri_fragment` encodes exactly the characters that are not unreserved, nor sub-delimiters, nor `/`, as their
UTF-8 octets in upper case. -/
theorem C94_encodes (p : Ptr) : FragmentText p.str.toList p.uriFragment.toList := by
  unfold Ptr.uriFragment
  rw [String.toList_ofList]
  exact pyQuote_text _

theorem c94_case : PctStands "/%c3%A9%2f%".toList "/é/%".toList := by
  have hx : ∀ {c : Char} {d : Nat}, hexVal c = some d → HexValue c d := hexVal_hexValue
  exact .char (by decide) (.octets (e := ['%', 'c', '3', '%', 'A', '9']) (c := 'é')
    (.cons (o := 0xc3) (bs := [0xa9]) (hx (d := 12) rfl) (hx (d := 3) rfl) rfl
      (.cons (hx (d := 10) rfl) (hx (d := 9) rfl) rfl .nil)) (.octets (e := ['%', '2', 'f']) (c := '/')
    (.cons (o := 0x2f) (bs := []) (hx (d := 2) rfl) (hx (d := 15) rfl) rfl .nil) (.stray (by simp) .nil)))

/-- The fragment `/%c3%A9%2f%` is read as the pointer `/é/%`. -/
example : Ptr.parseUriFragment "/%c3%A9%2f%" = .ok ⟨["é", "%"]⟩ := C94_pointer _ _ c94_case

end Jschon
