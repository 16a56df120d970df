import Verif.Spec.Document
import Verif.Props.Percent

/-!
# References into the document
-/

namespace Jschon
open Spec

theorem allowed_char {c : Char} (h : Unreserved c ∨ SubDelim c ∨ c ∈ [':', '@', '/', '?']) :
    c.toNat < 0x80 ∧ c ≠ '%' := by
  have le : ∀ {a b : Char}, a ≤ b → a.toNat ≤ b.toNat := fun h => h
  rcases h with h | h | h
  · rcases h with h | h | h | rfl | rfl | rfl | rfl
    · refine ⟨Nat.lt_of_le_of_lt (le h.2) (by decide), ?_⟩
      rintro rfl; exact absurd h.1 (by decide)
    · refine ⟨Nat.lt_of_le_of_lt (le h.2) (by decide), ?_⟩
      rintro rfl; exact absurd h.1 (by decide)
    · refine ⟨Nat.lt_of_le_of_lt (le h.2) (by decide), ?_⟩
      rintro rfl; exact absurd h.1 (by decide)
    all_goals decide
  · simp only [SubDelim, List.mem_cons, List.not_mem_nil, or_false] at h
    rcases h with rfl | rfl | rfl | rfl | rfl | rfl | rfl | rfl | rfl | rfl | rfl <;> decide
  · simp only [List.mem_cons, List.not_mem_nil, or_false] at h
    rcases h with rfl | rfl | rfl | rfl <;> decide

theorem hexDigit_facts : ∀ b : Fin 16, (hexDigit b.val).toNat < 0x80 ∧ hexVal (hexDigit b.val) = some b.val := by
  decide +kernel

theorem hexDigit_ok : ∀ d : Fin 16, HexDigit (hexDigit d.val) := hexChars_ok

theorem unquoteBytes_pct {b : Nat} (hb : b < 256) (r : List Char) :
    unquoteBytes (pctByte b ++ r) = b :: unquoteBytes r := by
  have h1 := (hexDigit_facts ⟨b / 16, by omega⟩).2
  have h2 := (hexDigit_facts ⟨b % 16, by omega⟩).2
  simp only at h1 h2
  simp only [pctByte, List.cons_append, List.nil_append]
  conv => lhs; unfold unquoteBytes
  simp only [if_true, h1, h2]
  congr 1
  omega

theorem unquoteBytes_pcts : ∀ {bs : List Nat}, (∀ b ∈ bs, b < 256) → ∀ r : List Char,
    unquoteBytes (bs.flatMap pctByte ++ r) = bs ++ unquoteBytes r
  | [], _, r => rfl
  | b :: bs, h, r => by
    rw [List.flatMap_cons, List.append_assoc, unquoteBytes_pct (h b (by simp)),
      unquoteBytes_pcts fun b' hb => h b' (by simp [hb])]
    rfl

theorem Spec.PctText.ascii {e p : List Char} (h : PctText e p) : ∀ c ∈ e, c.toNat < 0x80 := by
  induction h with
  | nil => intro c h; cases h
  | plain hc _ ih =>
    intro c h
    rcases List.mem_cons.1 h with rfl | h
    · exact (allowed_char hc).1
    · exact ih c h
  | @coded c0 e p _ ih =>
    intro c h
    rcases List.mem_append.1 h with h | h
    · obtain ⟨b, hb, h⟩ := List.mem_flatMap.1 h
      have := utf8EncNat_lt _ (char_lt c0) b hb
      simp only [pctByte, List.mem_cons, List.not_mem_nil, or_false] at h
      rcases h with rfl | rfl | rfl
      · decide
      · exact (hexDigit_facts ⟨b / 16, by omega⟩).1
      · exact (hexDigit_facts ⟨b % 16, by omega⟩).1
    · exact ih c h

theorem Spec.PctText.bytes {e p : List Char} (h : PctText e p) : unquoteBytes e = utf8Enc p := by
  induction h with
  | nil => simp [unquoteBytes, utf8Enc]
  | @plain c e p hc _ ih =>
    obtain ⟨h1, h2⟩ := allowed_char hc
    conv => lhs; unfold unquoteBytes
    rw [if_neg h2, ih]
    simp [utf8Enc, utf8EncNat, h1]
  | @coded c e p _ ih =>
    rw [unquoteBytes_pcts (utf8EncNat_lt _ (char_lt c)), ih]
    simp [utf8Enc]

theorem Spec.PctText.unquote {e p : List Char} (h : PctText e p) : pyUnquote e = p := by
  have hd : utf8Dec (unquoteBytes e) = p := by rw [h.bytes, utf8Dec_utf8Enc]
  unfold pyUnquote
  split
  · rw [unquoteGo_ascii _ _ h.ascii]
    simpa using hd
  · rename_i hn
    rwa [unquoteBytes_no_percent _ hn, utf8Dec_ascii _ h.ascii] at hd

theorem Spec.PctText.fragment {e p : List Char} (h : PctText e p) : Fragment e := by
  induction h with
  | nil => exact .nil
  | plain hc _ ih => exact .char hc ih
  | @coded c e p _ ih =>
    have hb := utf8EncNat_lt _ (char_lt c)
    generalize utf8EncNat c.toNat = bs at hb
    induction bs with
    | nil => exact ih
    | cons b bs ih2 =>
      have := hb b (by simp)
      exact .pct (hexDigit_ok ⟨b / 16, by omega⟩) (hexDigit_ok ⟨b % 16, by omega⟩) (ih2 fun b' h => hb b' (by simp [h]))

/-- What `parse_uri_fragment` makes of the fragment. -/
theorem Spec.PctText.parse {f : String} {ks : List String} (h : PctText f.toList (textOf ks)) :
    Ptr.parseUriFragment f = .ok ⟨ks⟩ := by
  unfold Ptr.parseUriFragment
  rw [h.unquote, ← ptrStr_toList ⟨ks⟩, String.ofList_toList]
  exact C01_roundtrip _

theorem Spec.PctText.nil_iff {f : String} {ks : List String} (h : PctText f.toList (textOf ks)) (hf : f = "") : ks = [] := by
  subst hf
  have := h.unquote
  cases ks with
  | nil => rfl
  | cons k ks => simp [pyUnquote, textOf] at this

/-- Every pointer has a fragment. -/
theorem pctText_exists (p : List Char) : ∃ e, PctText e p := by
  induction p with
  | nil => exact ⟨_, .nil⟩
  | cons c p ih => obtain ⟨e, h⟩ := ih; exact ⟨_, .coded (c := c) h⟩

end Jschon
