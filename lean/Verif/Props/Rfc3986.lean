import Verif.Proof.Rfc3986
import Verif.Spec.Rfc3986

/-!
# URIs by RFC 3986: C80

The laws that the other theorems assume of URIs hold of RFC 3986.
-/

namespace Jschon
open Spec Rfc

/-! ## Characters -/

theorem Rfc.plain_iff {c : Char} : plain c = true ↔ Unreserved c ∨ SubDelim c := by
  have : "-._~!$&'()*+,;=".toList = ['-', '.', '_', '~', '!', '$', '&', '\'', '(', ')', '*', '+', ',', ';', '='] := by decide
  simp only [plain, isAlpha, isDecimal, this, Unreserved, SubDelim, List.contains_eq_mem, Bool.or_eq_true,
    Bool.and_eq_true, decide_eq_true_eq, List.mem_cons, List.not_mem_nil, or_false]
  grind

theorem Rfc.pct_not_plain : plain '%' = false := by decide

theorem Rfc.hex_upper {c : Char} (h : HexDigit c) : isHex c = true ∧ upHex c = c ∧ c ≠ '%' := by
  refine ⟨?_, ?_, ?_⟩
  · simp only [isHex, isDecimal, Bool.or_eq_true, Bool.and_eq_true, decide_eq_true_eq]
    rcases h with h | h
    · exact .inl (.inl h)
    · exact .inr h
  · unfold upHex
    split <;> first | rfl | (rcases h with h | h <;> exact absurd h (by decide))
  · rintro rfl; rcases h with h | h <;> exact absurd h (by decide)

theorem Rfc.neat_of {other l : List Char} (ho : '%' ∉ other) (h : UriChars other l) : Neat other l := by
  induction h with
  | nil => exact Neat.nil _
  | @char c r hc _ ih =>
    have h1 : plain c = true ∨ other.contains c = true := by
      rcases hc with h | h | h
      · exact .inl (plain_iff.2 (.inl h))
      · exact .inl (plain_iff.2 (.inr h))
      · exact .inr (by simpa using h)
    refine (neat_cons h1 ?_).2 ih
    rintro rfl
    rcases h1 with h1 | h1
    · rw [pct_not_plain] at h1; cases h1
    · exact ho (by simpa using h1)
  | @pct a b r ha hb _ ih =>
    obtain ⟨a1, a2, a3⟩ := hex_upper ha
    obtain ⟨b1, b2, b3⟩ := hex_upper hb
    refine ⟨?_, ?_⟩
    · simp only [wellFormed, formedFrom, if_true, a1, b1, Bool.true_and]; exact ih.1
    · have := ih.2
      simp only [pctUpper] at this ⊢
      simp [upperFrom, a1, a2, a3, b1, b2, b3, this]

theorem Rfc.host_of {a : List Char} (h : HostText a) : wellFormed [':', '@', '[', ']'] a = true ∧ normalAuthority a = a := by
  have hc : UriChars [':', '@', '[', ']'] a := by
    induction a with
    | nil => exact .nil
    | cons c a ih =>
      refine .char ?_ (ih fun d hd => h d (List.mem_cons_of_mem _ hd))
      rcases (h c List.mem_cons_self).1 with h | h | h
      · exact .inl h
      · exact .inr (.inl h)
      · refine .inr (.inr ?_)
        simp only [List.mem_cons, List.not_mem_nil, or_false] at h ⊢
        grind
  refine ⟨(neat_of (by decide) hc).1, ?_⟩
  have hat : '@' ∉ a := by
    intro hm
    rcases (h _ hm).1 with h | h | h
    · revert h; unfold Unreserved; decide
    · revert h; unfold SubDelim; decide
    · revert h; decide
  unfold normalAuthority
  rw [if_neg hat]
  have : ∀ c ∈ a, c.toLower = c := by
    intro c hm
    have := (h c hm).2
    unfold Char.toLower
    split
    · rename_i hc
      exfalso
      refine this ⟨?_, ?_⟩
      · exact UInt32.le_iff_toNat_le.2 (UInt32.le_iff_toNat_le.1 hc.1)
      · exact UInt32.le_iff_toNat_le.2 (UInt32.le_iff_toNat_le.1 hc.2)
    · rfl
  exact (List.map_congr_left this).trans (List.map_id _)

theorem Rfc.scheme_of {s : List Char} (h : SchemeText s) : (∃ c t, s = c :: t ∧ isAlpha c = true) ∧
    (∀ c ∈ s, schemeChar c = true) ∧ s.map Char.toLower = s := by
  obtain ⟨⟨c, t, rfl, h1, h2⟩, h3⟩ := h
  refine ⟨⟨c, t, rfl, by simp [isAlpha, h1, h2]⟩, fun d hd => ?_, ?_⟩
  · have := h3 d hd
    simp only [schemeChar, isAlpha, isDecimal, Bool.or_eq_true, Bool.and_eq_true, decide_eq_true_eq, beq_iff_eq]
    grind
  · have : ∀ d ∈ c :: t, d.toLower = d := by
      intro d hd
      have := h3 d hd
      unfold Char.toLower
      split
      · rename_i hc
        exfalso
        have h1 : 'A' ≤ d := UInt32.le_iff_toNat_le.2 (UInt32.le_iff_toNat_le.1 hc.1)
        have h2 : d ≤ 'Z' := UInt32.le_iff_toNat_le.2 (UInt32.le_iff_toNat_le.1 hc.2)
        rcases this with ⟨k, -⟩ | ⟨-, k⟩ | rfl | rfl | rfl
        · exact absurd (Char.le_trans k h2) (by decide)
        · exact absurd (Char.le_trans h1 k) (by decide)
        · exact absurd h1 (by decide)
        · exact absurd h1 (by decide)
        · exact absurd h1 (by decide)
      · rfl
    exact (List.map_congr_left this).trans (List.map_id _)

theorem Rfc.noDots_of {p : List Char} (h : NoDotSegment p) : dots p = p := by
  have hf := pieces_flatten p
  have hs := pieces_segs p
  have key : ∀ a x b, pieces p = a ++ x :: b → p = a.flatten ++ (x ++ b.flatten) ∧ (b.flatten = [] ∨ ∃ z, b.flatten = '/' :: z) := by
    intro a x b e
    rw [e] at hf hs
    refine ⟨by rw [← hf]; simp, ?_⟩
    cases b with
    | nil => exact .inl rfl
    | cons y b =>
      have : Rooted y := by
        cases a with
        | nil => exact hs.rooted y (by simp)
        | cons _ a => exact hs.rooted y (by simp)
      obtain ⟨t, rfl⟩ := this
      exact .inr ⟨t ++ b.flatten, by simp⟩
  have hd : ∀ x ∈ pieces p, x ≠ ['/', '.'] ∧ x ≠ ['/', '.', '.'] := by
    intro x hx
    obtain ⟨a, b, e⟩ := List.append_of_mem hx
    obtain ⟨h1, h2⟩ := key a x b e
    refine ⟨?_, ?_⟩ <;> rintro rfl
    · exact (h (a.flatten ++ ['/']) ['.'] b.flatten (by rw [h1]; simp) (.inr ⟨_, rfl⟩) h2).1 rfl
    · exact (h (a.flatten ++ ['/']) ['.', '.'] b.flatten (by rw [h1]; simp) (.inr ⟨_, rfl⟩) h2).2 rfl
  have hst : strip p = p := by
    refine strip_id ?_ ?_ <;> intro e <;> cases hp : pieces p with
    | nil => rw [hp] at e; cases e
    | cons x b =>
      rw [hp] at e
      simp at e
      subst e
      obtain ⟨h1, h2⟩ := key [] _ b hp
      first
      | exact (h [] ['.'] b.flatten (by simpa using h1) (.inl rfl) h2).1 rfl
      | exact (h [] ['.', '.'] b.flatten (by simpa using h1) (.inl rfl) h2).2 rfl
  rw [dots, hst, dotLoop_id hd]
  simpa using hf

/-! ## URIs and their components -/

theorem Rfc.split_fragment {t : List Char} (h : '#' ∉ t) : (split t).fragment = none := by
  have ht := split_text t
  cases hf : (split t).fragment with
  | none => rfl
  | some f =>
    exfalso
    apply h
    rw [← ht]
    simp [Parts.text, hf, mark]

theorem Rfc.formed_upper {other : List Char} (n : Nat) {l : List Char} (h : formedFrom other n l = true) :
    formedFrom other n (upperFrom n l) = true := by
  induction l generalizing n with
  | nil => exact h
  | cons c l ih =>
    cases n with
    | zero =>
      rw [formedFrom] at h
      split at h
      · rename_i e; subst e; simp only [upperFrom, if_true, formedFrom]; exact ih _ h
      · rename_i e
        simp only [upperFrom, if_neg e, ne_eq, not_true_eq_false, false_and, if_false, formedFrom, Bool.and_eq_true] at h ⊢
        exact ⟨h.1, ih _ h.2⟩
    | succ n =>
      rw [formedFrom, Bool.and_eq_true] at h
      have e : c ≠ '%' := by rintro rfl; exact absurd h.1 (by decide)
      have k : n + 1 ≠ 0 ∧ isHex c = true := ⟨by omega, h.1⟩
      rw [upperFrom, if_neg e, if_pos k, formedFrom, Bool.and_eq_true]
      exact ⟨isHex_up h.1, ih _ h.2⟩

/-- An absolute URI in normal form has components in normal form. -/
theorem Rfc.base_of {uuid : List Uri → Uri} {b : Uri} (h : Solid (lib uuid) b) (hf : b.fragment = none) :
    Base (partsOf b) ∧ partsOf b = split b.base.toList ∧ '#' ∉ b.base.toList := by
  obtain ⟨h1, h2⟩ := h
  simp only [lib, Bool.and_eq_true, List.all_eq_true, decide_eq_true_eq] at h1 h2
  obtain ⟨⟨⟨h3, h4⟩, h5⟩, -⟩ := h1
  have hh : '#' ∉ b.base.toList := fun hm => h5 _ hm rfl
  have e : partsOf b = split b.base.toList := by
    have := split_fragment hh
    simp only [partsOf, hf, Option.map_none]
    cases hs : split b.base.toList
    rw [hs] at this; simp at this; rw [this]
  refine ⟨?_, e, hh⟩
  have hsp : ∀ {a}, (partsOf b).authority = some a → (partsOf b).path = [] ∨ Rooted (partsOf b).path := by
    rw [e]; exact split_authority_path
  have hbl : (partsOf b).authority = none → ∀ p, (partsOf b).path ≠ '/' :: '/' :: p := by
    rw [e]; exact split_path_blunt
  have hsc : ∀ {s}, (partsOf b).scheme = some s → (∃ c r, s = c :: r ∧ isAlpha c = true) ∧ ∀ c ∈ s, schemeChar c = true := by
    rw [e]; exact splitScheme_some
  have hfr : (partsOf b).fragment = none := by simp [partsOf, hf]
  generalize partsOf b = r at *
  obtain ⟨s, a, p, q, f⟩ := r
  simp only at hfr; subst hfr
  simp only [Parts.wellFormed, Bool.and_eq_true] at h4
  obtain ⟨⟨⟨w1, w2⟩, w3⟩, -⟩ := h4
  simp only [Parts.normalize, Parts.mk.injEq] at h2
  obtain ⟨n1, n2, n3, n4, -⟩ := h2
  have hn : Neat [':', '@', '/'] (pctUpper p) := ⟨formed_upper 0 w2, upperFrom_idem 0 p⟩
  have hp : Neat [':', '@', '/'] p := n3 ▸ neat_dots (by decide) hn
  refine ⟨⟨fun a' ha => ?_, hp, fun q' hq => ?_, rfl, fun a' ha => hsp ha⟩, ?_, ?_, hbl⟩
  · simp only at ha; subst ha
    exact ⟨by simpa using w1, by simpa using n2⟩
  · simp only at hq; subst hq
    exact ⟨by simpa using w3, by simpa using n4⟩
  · cases s with
    | none => cases h3
    | some s =>
      obtain ⟨k1, k2⟩ := hsc rfl
      exact ⟨s, rfl, k1, k2, by simpa using n1⟩
  · have := n3; rw [hp.2] at this; exact this

theorem Rfc.hash_not {r : Parts} (h : Base r) : '#' ∉ r.text := by
  have hf := h.fragment
  obtain ⟨s, e1, -, e2, -⟩ := h.scheme
  have hfits := h.fits
  obtain ⟨sc, a, p, q, f⟩ := r
  simp only at e1 hf; subst e1; subst hf
  have k1 : '#' ∉ mark ['/', '/'] [] a := by
    cases a with
    | none => simp [mark]
    | some a =>
      have := (hfits.authority a rfl).1
      simp only [mark, List.append_nil, List.mem_append, not_or]
      exact ⟨by decide, fun hm => this _ hm (by decide)⟩
  have k2 : '#' ∉ mark ['?'] [] q := by
    cases q with
    | none => simp [mark]
    | some q =>
      simp only [mark, List.append_nil, List.mem_append, not_or]
      exact ⟨by decide, fun hm => hfits.query q rfl _ hm rfl⟩
  have k3 : '#' ∉ p := fun hm => hfits.path.1 _ hm (by decide)
  have k4 : '#' ∉ s := fun hm => absurd (e2 _ hm) (by decide)
  simp only [Parts.text, List.mem_append, not_or]
  refine ⟨?_, k1, k3, k2, by simp [mark]⟩
  simp only [mark, List.nil_append, List.mem_append, not_or]
  exact ⟨k4, by decide⟩

/-- Components in normal form make an absolute URI in normal form. -/
theorem Rfc.solid_of {uuid : List Uri → Uri} {u : Uri} (hf : u.fragment = none) (h : Base (split u.base.toList)) :
    Solid (lib uuid) u := by
  have hh : '#' ∉ u.base.toList := by
    have := hash_not h
    rwa [split_text] at this
  have e : partsOf u = split u.base.toList := by
    have := split_fragment hh
    simp only [partsOf, hf, Option.map_none]
    cases hs : split u.base.toList
    rw [hs] at this; simp at this; rw [this]
  obtain ⟨s, hs, -⟩ := h.scheme
  refine ⟨?_, ?_⟩
  · simp only [lib, e, h.formed, hs, hf, Option.isSome_some, Option.isNone_none, Bool.true_and, Bool.and_true, List.all_eq_true,
      decide_eq_true_eq]
    exact fun c hc e => hh (e ▸ hc)
  · simp only [lib, e, h.normal, decide_true]

theorem Rfc.ofParts_split {r : Parts} (h : Base r) : split (ofParts r).base.toList = r := by
  have hf := h.fragment
  have : ({ r with fragment := none } : Parts) = r := by cases r; simp at hf; simp [hf]
  simp only [ofParts, this, String.toList_ofList]
  exact text_split h.fits

/-! ## Dot segments -/

theorem Rfc.noColon_of {p : List Char} (hc : ∀ s r, p = s ++ ':' :: r → '/' ∈ s) :
    ':' ∉ p.takeWhile (fun c => decide (c ≠ '/')) := by
  intro hm
  obtain ⟨x, y, e⟩ := List.append_of_mem hm
  have h1 := List.takeWhile_append_dropWhile (p := fun c => decide (c ≠ '/')) (l := p)
  have h2 : '/' ∈ x := hc x (y ++ p.dropWhile fun c => decide (c ≠ '/')) (by
    rw [e] at h1; simpa using h1.symm)
  have h3 : '/' ∈ p.takeWhile (fun c => decide (c ≠ '/')) := by rw [e]; simp [h2]
  have : ∀ (l : List Char), '/' ∉ l.takeWhile (fun c => decide (c ≠ '/')) := by
    intro l
    induction l with
    | nil => simp
    | cons c l ih =>
      rw [List.takeWhile_cons]
      split
      · rename_i hc
        simp only [decide_eq_true_eq] at hc
        rw [List.mem_cons, not_or]; exact ⟨Ne.symm hc, ih⟩
      · simp
  exact this p h3

theorem Rfc.piece_unique {s s' i i' : List Char} (h0 : s ≠ []) (h1 : '/' ∉ s.tail) (hi : i = [] ∨ ∃ t, i = '/' :: t)
    (h0' : s' ≠ []) (h1' : '/' ∉ s'.tail) (hi' : i' = [] ∨ ∃ t, i' = '/' :: t) (e : s ++ i = s' ++ i') : s = s' ∧ i = i' := by
  have k1 := pieces_append s h0 h1 i hi
  have k2 := pieces_append s' h0' h1' i' hi'
  rw [e, k2] at k1
  simp only [List.cons.injEq] at k1
  obtain ⟨rfl, -⟩ := k1
  exact ⟨rfl, List.append_cancel_left e⟩

theorem Spec.WithoutLast.det {o a b : List Char} (h1 : WithoutLast o a) (h2 : WithoutLast o b) : a = b := by
  have key : ∀ {o s o' s' : List Char}, '/' ∉ s → '/' ∉ s' → o ++ '/' :: s = o' ++ '/' :: s' → o = o' := by
    intro o s o' s' k1 k2 e
    induction o generalizing o' with
    | nil =>
      cases o' with
      | nil => rfl
      | cons c o' => simp only [List.nil_append, List.cons_append, List.cons.injEq] at e; exact absurd (by rw [e.2]; simp) k1
    | cons c o ih =>
      cases o' with
      | nil => simp only [List.nil_append, List.cons_append, List.cons.injEq] at e; exact absurd (by rw [← e.2]; simp) k2
      | cons c' o' =>
        simp only [List.cons_append, List.cons.injEq] at e
        rw [e.1, ih e.2]
  cases h1 with
  | slash k1 =>
    rename_i s
    generalize e : a ++ '/' :: s = o at h2
    cases h2 with
    | slash k2 => exact key k1 k2 e
    | none k2 => subst e; simp at k2
  | none k1 =>
    cases h2 with
    | slash k2 => simp at k1
    | none k2 => rfl

theorem Spec.Removes.det {i o r r' : List Char} (h : Removes i o r) (h' : Removes i o r') : r = r' := by
  have pu : ∀ {s s' i i' : List Char}, s ≠ [] → '/' ∉ s.tail → (i = [] ∨ ∃ t, i = '/' :: t) →
      s' ≠ [] → '/' ∉ s'.tail → (i' = [] ∨ ∃ t, i' = '/' :: t) → s ++ i = s' ++ i' → s = s' ∧ i = i' := Rfc.piece_unique
  induction h with
  | done =>
    generalize e : ([] : List Char) = i at h'
    cases h' <;> first | rfl | (rename_i k _ _ _ _; cases (List.append_eq_nil_iff.1 e.symm).1; exact absurd rfl k) | cases e
  | up _ ih =>
    rename_i i o r _
    generalize e : '.' :: '.' :: '/' :: i = i' at h'
    cases h' with
    | up k => cases e; exact ih k
    | move k1 k2 k3 k4 k5 =>
      obtain ⟨rfl, -⟩ := pu (s := ['.', '.']) (i := '/' :: i) (by simp) (by decide) (.inr ⟨_, rfl⟩) k1 k2 k3 e
      exact absurd (by simp) k4
    | _ => cases e
  | here _ ih =>
    rename_i i o r _
    generalize e : '.' :: '/' :: i = i' at h'
    cases h' with
    | here k => cases e; exact ih k
    | move k1 k2 k3 k4 k5 =>
      obtain ⟨rfl, -⟩ := pu (s := ['.']) (i := '/' :: i) (by simp) (by decide) (.inr ⟨_, rfl⟩) k1 k2 k3 e
      exact absurd (by simp) k4
    | _ => cases e
  | this _ ih =>
    rename_i i o r _
    generalize e : '/' :: '.' :: '/' :: i = i' at h'
    cases h' with
    | this k => cases e; exact ih k
    | move k1 k2 k3 k4 k5 =>
      obtain ⟨rfl, -⟩ := pu (s := ['/', '.']) (i := '/' :: i) (by simp) (by decide) (.inr ⟨_, rfl⟩) k1 k2 k3 e
      exact absurd (by simp) k4
    | _ => cases e
  | thisEnd _ ih =>
    generalize e : ['/', '.'] = i' at h'
    cases h' with
    | thisEnd k => exact ih k
    | move k1 k2 k3 k4 k5 =>
      obtain ⟨rfl, -⟩ := pu (s := ['/', '.']) (i := []) (by simp) (by decide) (.inl rfl) k1 k2 k3 e
      exact absurd (by simp) k4
    | _ => cases e
  | parent hw _ ih =>
    rename_i i o o' r _
    generalize e : '/' :: '.' :: '.' :: '/' :: i = i' at h'
    cases h' with
    | parent hw' k => cases e; cases hw.det hw'; exact ih k
    | move k1 k2 k3 k4 k5 =>
      obtain ⟨rfl, -⟩ := pu (s := ['/', '.', '.']) (i := '/' :: i) (by simp) (by decide) (.inr ⟨_, rfl⟩) k1 k2 k3 e
      exact absurd (by simp) k4
    | _ => cases e
  | parentEnd hw _ ih =>
    generalize e : ['/', '.', '.'] = i' at h'
    cases h' with
    | parentEnd hw' k => cases hw.det hw'; exact ih k
    | move k1 k2 k3 k4 k5 =>
      obtain ⟨rfl, -⟩ := pu (s := ['/', '.', '.']) (i := []) (by simp) (by decide) (.inl rfl) k1 k2 k3 e
      exact absurd (by simp) k4
    | _ => cases e
  | dot _ ih =>
    generalize e : ['.'] = i' at h'
    cases h' with
    | dot k => exact ih k
    | move k1 k2 k3 k4 k5 =>
      obtain ⟨rfl, -⟩ := pu (s := ['.']) (i := []) (by simp) (by decide) (.inl rfl) k1 k2 k3 e
      exact absurd (by simp) k4
    | _ => cases e
  | dots _ ih =>
    generalize e : ['.', '.'] = i' at h'
    cases h' with
    | dots k => exact ih k
    | move k1 k2 k3 k4 k5 =>
      obtain ⟨rfl, -⟩ := pu (s := ['.', '.']) (i := []) (by simp) (by decide) (.inl rfl) k1 k2 k3 e
      exact absurd (by simp) k4
    | _ => cases e
  | move h1 h2 h3 h4 _ ih =>
    rename_i s i o r _
    generalize e : s ++ i = i' at h'
    cases h' with
    | done => exact absurd (List.append_eq_nil_iff.1 e).1 h1
    | move k1 k2 k3 k4 k5 =>
      obtain ⟨rfl, rfl⟩ := pu h1 h2 h3 k1 k2 k3 e
      exact ih k5
    | up => obtain ⟨rfl, -⟩ := pu (s' := ['.', '.']) (i' := '/' :: _) h1 h2 h3 (by simp) (by decide) (.inr ⟨_, rfl⟩) e; exact absurd (by simp) h4
    | here => obtain ⟨rfl, -⟩ := pu (s' := ['.']) (i' := '/' :: _) h1 h2 h3 (by simp) (by decide) (.inr ⟨_, rfl⟩) e; exact absurd (by simp) h4
    | this => obtain ⟨rfl, -⟩ := pu (s' := ['/', '.']) (i' := '/' :: _) h1 h2 h3 (by simp) (by decide) (.inr ⟨_, rfl⟩) e; exact absurd (by simp) h4
    | thisEnd => obtain ⟨rfl, -⟩ := pu (s' := ['/', '.']) (i' := []) h1 h2 h3 (by simp) (by decide) (.inl rfl) e; exact absurd (by simp) h4
    | parent => obtain ⟨rfl, -⟩ := pu (s' := ['/', '.', '.']) (i' := '/' :: _) h1 h2 h3 (by simp) (by decide) (.inr ⟨_, rfl⟩) e; exact absurd (by simp) h4
    | parentEnd => obtain ⟨rfl, -⟩ := pu (s' := ['/', '.', '.']) (i' := []) h1 h2 h3 (by simp) (by decide) (.inl rfl) e; exact absurd (by simp) h4
    | dot => obtain ⟨rfl, -⟩ := pu (s' := ['.']) (i' := []) h1 h2 h3 (by simp) (by decide) (.inl rfl) e; exact absurd (by simp) h4
    | dots => obtain ⟨rfl, -⟩ := pu (s' := ['.', '.']) (i' := []) h1 h2 h3 (by simp) (by decide) (.inl rfl) e; exact absurd (by simp) h4

theorem Rfc.without_last {out : List (List Char)} (h : Segs out.reverse) :
    WithoutLast out.reverse.flatten out.tail.reverse.flatten := by
  cases out with
  | nil => exact .none (by simp)
  | cons p out =>
    have h1 := h.each p (by simp)
    rw [List.reverse_cons] at h ⊢
    rw [List.flatten_append, List.flatten_singleton, List.tail_cons]
    cases hr : out.reverse with
    | nil =>
      obtain ⟨c, t, rfl⟩ := List.exists_cons_of_ne_nil h1.1
      by_cases hc : c = '/'
      · subst hc; exact .slash (o := []) h1.2
      · exact .none (by simpa using ⟨Ne.symm hc, h1.2⟩)
    | cons q l =>
      rw [hr] at h
      obtain ⟨t, rfl⟩ := h.rooted p (by simp)
      exact .slash h1.2

theorem Rfc.removes_loop {ps : List (List Char)} (out : List (List Char)) (h : Segs out.reverse) (hs : Segs ps)
    (h1 : ∀ p ∈ ps, out = [] ∨ Rooted p) (h2 : ps.head? ≠ some ['.'] ∧ ps.head? ≠ some ['.', '.']) :
    Removes ps.flatten out.reverse.flatten (dotLoop out ps).flatten := by
  have first : ∀ {p : List Char} {ps : List (List Char)}, Segs (p :: ps) → ps.head? ≠ some ['.'] ∧ ps.head? ≠ some ['.', '.'] := by
    intro p ps hs
    cases ps with
    | nil => simp
    | cons q ps =>
      obtain ⟨t, rfl⟩ := hs.rooted q (by simp)
      simp
  have tailSegs : ∀ {out : List (List Char)}, Segs out.reverse → Segs out.tail.reverse := by
    intro out h
    cases out with
    | nil => exact h
    | cons q out =>
      rw [List.reverse_cons] at h
      refine ⟨fun x hx => h.each x (List.mem_append_left _ hx), fun x hx => ?_⟩
      simp only [List.tail_cons] at hx
      refine h.rooted x ?_
      cases hr : out.reverse with
      | nil => rw [hr] at hx; cases hx
      | cons y l => rw [hr] at hx; simp only [List.tail_cons] at hx; simp [hx]
  have slash : ∀ o, Removes ['/'] o (o ++ ['/']) := fun o =>
    .move (s := ['/']) (i := []) (by simp) (by simp) (.inl rfl) (by decide) .done
  induction ps generalizing out with
  | nil => exact .done
  | cons p ps ih =>
    rw [dotLoop]
    split
    · rename_i hp; subst hp
      cases ps with
      | nil =>
        simp only [if_true, dotLoop, List.reverse_cons, List.flatten_append, List.flatten_singleton]
        exact .thisEnd (slash _)
      | cons q ps =>
        rw [if_neg (by simp)]
        have hq := hs.rooted q (by simp)
        have := ih out h hs.tail (fun x hx => h1 x (List.mem_cons_of_mem _ hx)) (first hs)
        obtain ⟨t, rfl⟩ := hq
        exact .this this
    · split
      · rename_i hp; subst hp
        cases ps with
        | nil =>
          simp only [if_true, dotLoop, List.reverse_cons, List.flatten_append, List.flatten_singleton]
          exact .parentEnd (without_last h) (slash _)
        | cons q ps =>
          rw [if_neg (by simp)]
          have hq := hs.rooted q (by simp)
          have := ih out.tail (tailSegs h) hs.tail (fun x hx => (h1 x (List.mem_cons_of_mem _ hx)).imp (fun e => by simp [e]) id) (first hs)
          obtain ⟨t, rfl⟩ := hq
          exact .parent (without_last h) this
      · rename_i hp1 hp2
        have h3 := hs.each p (by simp)
        refine .move h3.1 h3.2 hs.rest ?_ ?_
        · simp only [List.head?_cons, ne_eq, Option.some.injEq] at h2
          simp [hp1, hp2, h2]
        · have := ih (p :: out) ?_ hs.tail (fun x hx => .inr (hs.rooted x hx)) (first hs)
          · simpa using this
          · rw [List.reverse_cons]
            refine ⟨fun x hx => ?_, fun x hx => ?_⟩
            · rcases List.mem_append.1 hx with hx | hx
              · exact h.each x hx
              · cases List.mem_singleton.1 hx; exact h3
            · cases hr : out.reverse with
              | nil => rw [hr] at hx; cases hx
              | cons y l =>
                rw [hr] at hx h
                simp only [List.cons_append, List.tail_cons] at hx
                rcases List.mem_append.1 hx with hx | hx
                · exact h.rooted x hx
                · cases List.mem_singleton.1 hx
                  rcases h1 _ List.mem_cons_self with e | e
                  · rw [e] at hr; cases hr
                  · exact e

theorem Rfc.removes_dots (p : List Char) : Removes p [] (Rfc.dots p) := by
  have key : Removes (strip p) [] (Rfc.dots p) := by
    have := removes_loop (ps := pieces (strip p)) [] ⟨fun _ h => (by cases h), fun _ h => (by cases h)⟩ (pieces_segs _) (fun _ _ => .inl rfl) (strip_first p)
    rwa [pieces_flatten] at this
  have up : ∀ {p r : List Char}, Removes (strip p) [] r → Removes p [] r := by
    intro p r h
    induction p using strip.induct with
    | case1 => exact .dot h
    | case2 => exact .dots h
    | case3 t ih => rw [strip] at h; exact .here (ih h)
    | case4 t ih => rw [strip] at h; exact .up (ih h)
    | case5 => rw [strip] at h <;> assumption
  exact up key

/-! ## C80 -/

/-- The components as the specification has them. -/
def Rfc.Parts.spec (r : Parts) : UriParts := ⟨r.scheme, r.authority, r.path, r.query, r.fragment⟩

/-- C80: dot segments are removed as RFC 3986 says, with one result. -/
theorem C80_dots {p r : List Char} : Removes p [] r ↔ r = Rfc.dots p :=
  ⟨fun h => h.det (removes_dots p), fun h => h ▸ removes_dots p⟩

theorem Rfc.merges {b : Parts} {p : List Char} : Merges b.spec p (merge b p) := by
  have key : ∀ (l : List Char), l.dropWhile (fun c => decide (c ≠ '/')) = [] ∧ '/' ∉ l ∨
      ∃ s d, l = s ++ '/' :: d ∧ '/' ∉ s ∧ l.dropWhile (fun c => decide (c ≠ '/')) = '/' :: d := by
    intro l
    induction l with
    | nil => simp
    | cons c l ih =>
      by_cases hc : c = '/'
      · subst hc; exact .inr ⟨[], l, rfl, by simp, by simp⟩
      · rw [List.dropWhile_cons]
        simp only [ne_eq, hc, not_false_eq_true, decide_true, if_true]
        rcases ih with ⟨h1, h2⟩ | ⟨s, d, h1, h2, h3⟩
        · exact .inl ⟨by simpa using h1, by simpa using ⟨Ne.symm hc, h2⟩⟩
        · exact .inr ⟨c :: s, d, by simp [h1], by simpa using ⟨Ne.symm hc, h2⟩, by simpa using h3⟩
  unfold merge
  cases ha : b.authority with
  | none =>
    simp only [Option.isSome_none, Bool.false_and, Bool.false_eq_true, if_false]
    rcases key b.path.reverse with ⟨h1, h2⟩ | ⟨s, d, h1, h2, h3⟩
    · rw [h1]
      exact .only (.inl ha) (by show '/' ∉ b.path; simpa using h2)
    · rw [h3]
      have e : b.path = d.reverse ++ '/' :: s.reverse := by
        have := congrArg List.reverse h1; simpa using this
      have := Merges.last (b := b.spec) (p := p) (d := d.reverse) (s := s.reverse) (.inl ha) e (by simpa using h2)
      simpa using this
  | some a =>
    by_cases hp : b.path = []
    · simp only [hp, Option.isSome_some, List.isEmpty_nil, Bool.and_self, if_true]
      exact .root ha hp
    · have : b.path.isEmpty = false := by simpa using hp
      simp only [this, Bool.and_false, Bool.false_eq_true, if_false]
      rcases key b.path.reverse with ⟨h1, h2⟩ | ⟨s, d, h1, h2, h3⟩
      · rw [h1]
        exact .only (.inr hp) (by show '/' ∉ b.path; simpa using h2)
      · rw [h3]
        have e : b.path = d.reverse ++ '/' :: s.reverse := by
          have := congrArg List.reverse h1; simpa using this
        have := Merges.last (b := b.spec) (p := p) (d := d.reverse) (s := s.reverse) (.inr hp) e (by simpa using h2)
        simpa using this

theorem Spec.Merges.det {b : UriParts} {p m m' : List Char} (h : Merges b p m) (h' : Merges b p m') : m = m' := by
  cases h with
  | root h1 h2 =>
    cases h' with
    | root => rfl
    | last k1 k2 k3 => rw [h2] at k2; simp at k2
    | only k1 k2 => rcases k1 with k | k
                    · rw [h1] at k; cases k
                    · exact absurd h2 k
  | last h1 h2 h3 =>
    cases h' with
    | root k1 k2 => rw [h2] at k2; simp at k2
    | last k1 k2 k3 =>
      rename_i d _ d' _
      have e1 : WithoutLast b.path d := by rw [h2]; exact .slash h3
      have e2 : WithoutLast b.path d' := by rw [k2]; exact .slash k3
      rw [e1.det e2]
    | only k1 k2 => rw [h2] at k2; simp at k2
  | only h1 h2 =>
    cases h' with
    | root k1 k2 => rcases h1 with k | k
                    · rw [k1] at k; cases k
                    · exact absurd k2 k
    | last k1 k2 k3 => rw [k2] at h2; simp at h2
    | only => rfl

theorem Spec.ResolvesTo.det {r b t t' : UriParts} (h : ResolvesTo r b t) (h' : ResolvesTo r b t') : t = t' := by
  cases h <;> cases h' <;> simp_all
  all_goals first
    | exact Removes.det (by assumption) (by assumption)
    | (rename_i h1 h2 _ _ _ _ _ _ h3 h4; cases Merges.det h1 h3; exact Removes.det h2 h4)
    | skip

/-- C80: a reference is resolved as RFC 3986 says, with one result. -/
theorem C80_resolves {r b : Parts} {t : UriParts} : ResolvesTo r.spec b.spec t ↔ t = (r.resolve b).spec := by
  have key : ResolvesTo r.spec b.spec (r.resolve b).spec := by
    unfold Parts.resolve
    split
    · rename_i hs; exact .scheme hs (removes_dots _)
    · rename_i a hs ha; exact .authority hs ha (removes_dots _)
    · rename_i hs ha
      split
      · rename_i hp
        cases hq : r.query with
        | none => simp only [Option.isSome_none, Bool.false_eq_true, if_false]; exact .fragment hs ha hp hq
        | some q => simp only [Option.isSome_some, if_true]; exact .query hs ha hp hq
      · rename_i hp
        split
        · rename_i hr
          obtain ⟨t, e⟩ : ∃ t, r.path = '/' :: t := by
            cases hx : r.path with
            | nil => exact absurd hx hp
            | cons c t => rw [hx] at hr; simp at hr; subst hr; exact ⟨t, rfl⟩
          exact .rooted hs ha e (removes_dots _)
        · rename_i hr
          exact .merged hs ha hp (fun t e => hr (by have : r.path = '/' :: t := e; rw [this]; rfl)) merges (removes_dots _)
  exact ⟨fun h => h.det key, fun h => h ▸ key⟩

theorem Spec.TextOf.det {c : UriParts} {t t' : List Char} (h : TextOf c t) (h' : TextOf c t') : t = t' := by
  induction h generalizing t' with
  | scheme _ ih => cases h' with | scheme k => rw [ih k]
  | authority _ ih => cases h' with | authority k => rw [ih k]
  | query _ ih => cases h' with | query k => rw [ih k]
  | fragment => cases h'; rfl
  | path => cases h'; rfl

theorem Rfc.text_of (r : Parts) : TextOf r.spec r.text := by
  obtain ⟨s, a, p, q, f⟩ := r
  have h1 : ∀ p, TextOf ⟨none, none, p, none, f⟩ (p ++ mark ['#'] [] f) := by
    intro p
    cases f with
    | none => simpa [mark] using TextOf.path
    | some f => simpa [mark] using TextOf.fragment
  have h2 : TextOf ⟨none, none, p, q, f⟩ (p ++ (mark ['?'] [] q ++ mark ['#'] [] f)) := by
    cases q with
    | none => simpa [mark] using h1 p
    | some q => rw [mark_query]; exact .query (by simpa using h1 [])
  have h3 : TextOf ⟨none, a, p, q, f⟩ (mark ['/', '/'] [] a ++ (p ++ (mark ['?'] [] q ++ mark ['#'] [] f))) := by
    cases a with
    | none => simpa [mark] using h2
    | some a => rw [mark_authority]; exact .authority h2
  cases s with
  | none => simpa [mark, Parts.text, Parts.spec] using h3
  | some s =>
    have := TextOf.scheme (s := s) h3
    simpa [mark, Parts.text, Parts.spec] using this

/-- C80: the components of any text make up this text. -/
theorem C80_text (t : List Char) : TextOf (split t).spec t := by
  have := text_of (split t)
  rwa [split_text] at this

/-- C80: components by the grammar are those of their text. -/
theorem C80_components {c : UriParts} (hc : UriGrammar c) {t : List Char} (h : TextOf c t) : (split t).spec = c := by
  obtain ⟨s, a, p, q, f⟩ := c
  have k := text_of ⟨s, a, p, q, f⟩
  have e : t = Parts.text ⟨s, a, p, q, f⟩ := TextOf.det h k
  subst e
  have : Fits ⟨s, a, p, q, f⟩ := by
    refine ⟨fun s' e => ?_, fun e => ?_, fun a' e => ⟨fun x hx => ?_, (hc.authority a' e).2⟩, ⟨fun x hx => ?_, hc.slashes⟩,
      fun q' e x hx hx' => hc.query q' e (hx' ▸ hx)⟩
    · obtain ⟨⟨x, t, k1, k2⟩, k3⟩ := hc.scheme s' e
      refine ⟨⟨x, t, k1, ?_⟩, fun y hy => ?_⟩
      · simpa [isAlpha] using k2
      · have := k3 y hy
        simp only [schemeChar, isAlpha, isDecimal, Bool.or_eq_true, Bool.and_eq_true, decide_eq_true_eq, beq_iff_eq]
        grind
    · cases ha : a with
      | some a => rfl
      | none =>
        simp only [Parts.noColon, Option.isSome_none, Bool.false_or, Bool.not_eq_true', List.contains_eq_mem,
          decide_eq_false_iff_not]
        exact noColon_of (hc.colon e ha)
    · have := (hc.authority a' e).1 x hx
      simp [this]
    · have := hc.path x hx
      simp [this]
  rw [text_split this]
  rfl

/-- What is assumed of `uuid4`: a text of hexadecimal digits and hyphens that is not in use. -/
structure UuidOk (uuid : List Uri → Uri) : Prop where
  new : ∀ l, uuid l ∉ l
  text : ∀ l, ∃ t : List Char, uuid l = ⟨"urn:uuid:" ++ String.ofList t, none⟩ ∧
    ∀ c ∈ t, ('0' ≤ c ∧ c ≤ '9') ∨ ('a' ≤ c ∧ c ≤ 'f') ∨ c = '-'

theorem Rfc.parts_of_query {q : List Char} (h : QueryPart q) :
    ∃ q', mark ['?'] [] q' = q ∧ ∀ x, q' = some x → UriChars [':', '@', '/', '?'] x := by
  rcases h with rfl | ⟨t, rfl, h⟩
  · exact ⟨none, rfl, fun x e => by cases e⟩
  · exact ⟨some t, by simp [mark], fun x e => by cases e; exact h⟩

theorem Rfc.absolute_base {t : List Char} (h : AbsoluteUri t) : Base (split t) := by
  have hb : ∃ r : Parts, Base r ∧ r.text = t := by
    cases h with
    | @network s a p q hs ha hp hr hd hq =>
      obtain ⟨q', rfl, hq'⟩ := parts_of_query hq
      refine ⟨⟨some s, some a, p, q', none⟩, ⟨⟨fun x e => ?_, neat_of (by decide) hp, fun x e => neat_of (by decide) (hq' x e), rfl,
        fun _ _ => hr⟩, ⟨s, rfl, scheme_of hs⟩, noDots_of hd, fun e => (by cases e)⟩, ?_⟩
      · cases e; exact host_of ha
      · simp [Parts.text, mark]
    | @path s p q hs hp hn hd hq =>
      obtain ⟨q', rfl, hq'⟩ := parts_of_query hq
      refine ⟨⟨some s, none, p, q', none⟩, ⟨⟨fun x e => (by cases e), neat_of (by decide) hp, fun x e => neat_of (by decide) (hq' x e), rfl,
        fun _ e => (by cases e)⟩, ⟨s, rfl, scheme_of hs⟩, noDots_of hd, fun _ => hn⟩, ?_⟩
      simp [Parts.text, mark]
  obtain ⟨r, hr, rfl⟩ := hb
  rwa [text_split hr.fits]

theorem Rfc.relative_tidy {t : List Char} (h : RelativeRef t) : Tidy (split t) ∧ (split t).scheme = none ∧
    ((split t).authority = none → ∀ x y, (split t).path ≠ x ++ '/' :: '/' :: y) ∧ '#' ∉ t ∧ (split t).noColon = true := by
  have hb : ∃ r : Parts, Tidy r ∧ r.scheme = none ∧ (r.authority = none → ∀ x y, r.path ≠ x ++ '/' :: '/' :: y) ∧
      r.noColon = true ∧ r.text = t := by
    cases h with
    | @network a p q ha hp hr hq =>
      obtain ⟨q', rfl, hq'⟩ := parts_of_query hq
      refine ⟨⟨none, some a, p, q', none⟩, ⟨fun x e => ?_, neat_of (by decide) hp, fun x e => neat_of (by decide) (hq' x e), rfl,
        fun _ _ => hr⟩, rfl, fun e => (by cases e), rfl, ?_⟩
      · cases e; exact host_of ha
      · simp [Parts.text, mark]
    | @path p q hp hn hc hq =>
      obtain ⟨q', rfl, hq'⟩ := parts_of_query hq
      refine ⟨⟨none, none, p, q', none⟩, ⟨fun x e => (by cases e), neat_of (by decide) hp, fun x e => neat_of (by decide) (hq' x e), rfl,
        fun _ e => (by cases e)⟩, rfl, fun _ => hn, ?_, ?_⟩
      · simp only [Parts.noColon, Option.isSome_none, Bool.false_or, Bool.not_eq_true', List.contains_eq_mem,
          decide_eq_false_iff_not]
        exact noColon_of hc
      · simp [Parts.text, mark]
  obtain ⟨r, hr, h1, h2, h3, rfl⟩ := hb
  have hfits : Fits r := by
    refine ⟨fun s e => (by rw [h1] at e; cases e), fun _ => ?_, fun a e => ⟨fun c hc => ?_, hr.rooted a e⟩,
      ⟨fun c hc => ?_, fun e p hp => h2 e [] p hp⟩, fun q e c hc => ?_⟩
    · have : ({ r with scheme := none } : Parts) = r := by cases r; simp at h1; simp [h1]
      rw [this]; exact h3
    · have := (hr.authority a e).1
      have k : ∀ d : Char, plain d = false → d ∉ [':', '@', '[', ']'] → d ≠ '%' → isHex d = false → d ≠ c :=
        fun d k1 k2 k3 k4 e => formed_not k1 k2 k3 k4 0 this (e ▸ hc)
      have a1 := k '/' (by decide) (by decide) (by decide) (by decide)
      have a2 := k '?' (by decide) (by decide) (by decide) (by decide)
      have a3 := k '#' (by decide) (by decide) (by decide) (by decide)
      simp [Ne.symm a1, Ne.symm a2, Ne.symm a3]
    · have := hr.path.1
      have k : ∀ d : Char, plain d = false → d ∉ [':', '@', '/'] → d ≠ '%' → isHex d = false → d ≠ c :=
        fun d k1 k2 k3 k4 e => formed_not k1 k2 k3 k4 0 this (e ▸ hc)
      have a2 := k '?' (by decide) (by decide) (by decide) (by decide)
      have a3 := k '#' (by decide) (by decide) (by decide) (by decide)
      simp [Ne.symm a2, Ne.symm a3]
    · rintro rfl
      exact formed_not (by decide) (by decide) (by decide) (by decide) 0 (hr.query q e).1 hc
  rw [text_split hfits]
  refine ⟨hr, h1, h2, ?_, h3⟩
  have hf := hr.fragment
  obtain ⟨sc, a, p, q, f⟩ := r
  simp only at h1 hf; subst h1; subst hf
  have k1 : '#' ∉ mark ['/', '/'] [] a := by
    cases a with
    | none => simp [mark]
    | some a =>
      have := (hfits.authority a rfl).1
      simp only [mark, List.append_nil, List.mem_append, not_or]
      exact ⟨by decide, fun hm => this _ hm (by decide)⟩
  have k2 : '#' ∉ mark ['?'] [] q := by
    cases q with
    | none => simp [mark]
    | some q =>
      simp only [mark, List.append_nil, List.mem_append, not_or]
      exact ⟨by decide, fun hm => hfits.query q rfl _ hm rfl⟩
  have k3 : '#' ∉ p := fun hm => hfits.path.1 _ hm (by decide)
  simp only [Parts.text, List.mem_append, not_or]
  exact ⟨by simp [mark], k1, k3, k2, by simp [mark]⟩

theorem Rfc.ofText_plain {t : String} (h : '#' ∉ t.toList) : Rfc.ofText t = ⟨t, none⟩ := by
  have := takeWhile_all (p := fun c => decide (c ≠ '#')) (l := t.toList) (fun c hc => by simp only [decide_eq_true_eq]; intro e; exact h (e ▸ hc)) []
    (fun c t e => by cases e)
  rw [List.append_nil] at this
  simp only [Rfc.ofText, this.1, this.2, String.ofList_toList]

theorem Rfc.ofText_hash {t f : String} (h : '#' ∉ t.toList) : Rfc.ofText (t ++ "#" ++ f) = ⟨t, some f⟩ := by
  have := takeWhile_all (p := fun c => decide (c ≠ '#')) (l := t.toList) (fun c hc => by simp only [decide_eq_true_eq]; intro e; exact h (e ▸ hc))
    ('#' :: f.toList) (fun c t e => by cases e; rfl)
  have e : ("#" : String).toList = ['#'] := rfl
  simp only [Rfc.ofText, String.toList_append, e, List.append_assoc, List.cons_append, List.nil_append, this.1, this.2,
    String.ofList_toList]

/-! ## Validity and normal form -/

theorem Rfc.while_hash {p : Char → Bool} (hp : p '#' = false) (a f : List Char) :
    (a ++ '#' :: f).takeWhile p = a.takeWhile p ∧ (a ++ '#' :: f).dropWhile p = a.dropWhile p ++ '#' :: f := by
  induction a with
  | nil => simp [List.takeWhile_cons, List.dropWhile_cons, hp]
  | cons c a ih =>
    simp only [List.cons_append, List.takeWhile_cons, List.dropWhile_cons]
    split
    · exact ⟨by rw [ih.1], ih.2⟩
    · exact ⟨rfl, rfl⟩

theorem Rfc.splitScheme_hash (a f : List Char) : splitScheme (a ++ '#' :: f) = ((splitScheme a).1, (splitScheme a).2 ++ '#' :: f) := by
  obtain ⟨h1, h2⟩ := while_hash (p := schemeChar) (by decide) a f
  cases a with
  | nil => simp [splitScheme, isAlpha]
  | cons c a =>
    unfold splitScheme
    rw [h1, h2]
    simp only [List.cons_append, List.head?_cons, Option.map_some, Option.getD_some]
    by_cases ha : isAlpha c = true
    · simp only [ha, if_true]
      cases hd : (c :: a).dropWhile schemeChar with
      | nil => simp
      | cons d r =>
        by_cases hc : d = ':'
        · subst hc; simp
        · simp only [List.cons_append]
          split
          · rename_i e; cases e; exact absurd rfl hc
          · split
            · rename_i e; cases e; exact absurd rfl hc
            · rfl
    · simp only [ha, Bool.false_eq_true, if_false, List.cons_append]

theorem Rfc.splitAuthority_hash (a f : List Char) :
    splitAuthority (a ++ '#' :: f) = ((splitAuthority a).1, (splitAuthority a).2 ++ '#' :: f) := by
  match a with
  | [] => rfl
  | [c] =>
    by_cases hc : c = '/'
    · subst hc; rfl
    · simp only [List.cons_append, List.nil_append]
      unfold splitAuthority
      split
      · rename_i e; cases e
      · simp
  | c :: d :: r =>
    by_cases hc : c = '/' ∧ d = '/'
    · obtain ⟨rfl, rfl⟩ := hc
      obtain ⟨h1, h2⟩ := while_hash (p := fun c => decide (c ∉ ['/', '?', '#'])) (by decide) r f
      simp only [List.cons_append, splitAuthority]
      rw [h1, h2]
    · simp only [List.cons_append]
      unfold splitAuthority
      split
      · rename_i e; cases e; exact absurd ⟨rfl, rfl⟩ hc
      · split
        · rename_i e; cases e; exact absurd ⟨rfl, rfl⟩ hc
        · rfl

/-- The part before the first `#` has the other components. -/
theorem Rfc.parts_of_text (t : String) : partsOf (Rfc.ofText t) = split t.toList := by
  have key : ∀ (l : List Char), '#' ∈ l → ∃ a f, l = a ++ '#' :: f ∧ '#' ∉ a := by
    intro l
    induction l with
    | nil => intro h; cases h
    | cons c l ih =>
      intro h
      by_cases hc : c = '#'
      · subst hc; exact ⟨[], l, rfl, by simp⟩
      · obtain ⟨a, f, e, k⟩ := ih (by rcases List.mem_cons.1 h with e | e; exact absurd e.symm hc; exact e)
        exact ⟨c :: a, f, by rw [e]; rfl, by simpa using ⟨Ne.symm hc, k⟩⟩
  by_cases h : '#' ∈ t.toList
  · obtain ⟨a, f, e, ha⟩ := key _ h
    have h1 := while_hash (p := fun c => decide (c ≠ '#')) (by decide) a f
    have h2 := takeWhile_all (p := fun c => decide (c ≠ '#')) (l := a) (fun c hc => by
      simp only [decide_eq_true_eq]; intro e; exact ha (e ▸ hc)) [] (fun c t e => by cases e)
    rw [List.append_nil] at h2
    simp only [Rfc.ofText, e, h1.1, h1.2, h2.1, h2.2, List.nil_append, partsOf, String.toList_ofList, Option.map_some]
    have h3 := while_hash (p := fun c => decide (c ∉ ['?', '#'])) (by decide) (splitAuthority (splitScheme a).2).2 f
    simp only [split, splitScheme_hash, splitAuthority_hash, h3.1, h3.2]
    have hf := split_fragment ha
    simp only [split] at hf
    have hq := dropWhile_head (p := fun c => decide (c ∉ ['?', '#'])) (splitAuthority (splitScheme a).2).2
    revert hf hq
    generalize (splitAuthority (splitScheme a).2).2.dropWhile (fun c => decide (c ∉ ['?', '#'])) = q
    intro hf hq
    match q with
    | [] => rfl
    | c :: r =>
      by_cases hc : c = '?'
      · subst hc
        have h4 := while_hash (p := fun c => decide (c ∉ ['#'])) (by decide) r f
        simp only [List.cons_append, splitQuery] at hf ⊢
        rw [h4.1, h4.2]
        rcases dropWhile_head (p := fun c => decide (c ∉ ['#'])) r with hd | ⟨d, r', hd, k⟩
        · rw [hd]; rfl
        · rw [hd] at hf
          simp only [List.mem_singleton, decide_not, Bool.not_eq_eq_eq_not, Bool.not_false, decide_eq_true_eq] at k
          subst k
          cases hf
      · exfalso
        rcases hq with e | ⟨c', r', e, k⟩
        · cases e
        · cases e
          have : c = '#' := by simpa [hc] using k
          subst this
          cases hf
  · rw [ofText_plain h]
    have := split_fragment h
    simp only [partsOf, Option.map_none]
    cases hs : split t.toList
    rw [hs] at this; simp at this; rw [this]

theorem Rfc.hex_any {c : Char} : isHex c = true ↔ HexDigit c ∨ ('a' ≤ c ∧ c ≤ 'f') := by
  simp only [isHex, isDecimal, HexDigit, Bool.or_eq_true, Bool.and_eq_true, decide_eq_true_eq]
  grind

theorem Rfc.formed_iff {other l : List Char} (ho : '%' ∉ other) : wellFormed other l = true ↔ UriAnyCase other l := by
  constructor
  · intro h
    have : ∀ n (l : List Char), l.length ≤ n → wellFormed other l = true → UriAnyCase other l := by
      intro n
      induction n with
      | zero => intro l hl _; cases l with
        | nil => exact .nil
        | cons => simp at hl
      | succ n ih =>
        intro l hl h
        match l with
        | [] => exact .nil
        | c :: l =>
          rw [wellFormed, formedFrom] at h
          split at h
          · rename_i hc; subst hc
            match l with
            | [] => simp [formedFrom] at h
            | [a] => simp [formedFrom] at h
            | a :: b :: r =>
              simp only [formedFrom, Bool.and_eq_true] at h
              exact .pct (hex_any.1 h.1) (hex_any.1 h.2.1) (ih r (by simp at hl; omega) h.2.2)
          · rw [Bool.and_eq_true, Bool.or_eq_true, plain_iff] at h
            refine .char ?_ (ih l (by simpa using hl) h.2)
            rcases h.1 with (h | h) | h
            · exact .inl h
            · exact .inr (.inl h)
            · exact .inr (.inr (by simpa using h))
    exact this _ l (Nat.le_refl _) h
  · intro h
    induction h with
    | nil => rfl
    | @char c r hc _ ih =>
      have h1 : plain c = true ∨ other.contains c = true := by
        rcases hc with h | h | h
        · exact .inl (plain_iff.2 (.inl h))
        · exact .inl (plain_iff.2 (.inr h))
        · exact .inr (by simpa using h)
      have h2 : c ≠ '%' := by
        rintro rfl
        rcases h1 with h1 | h1
        · rw [pct_not_plain] at h1; cases h1
        · exact ho (by simpa using h1)
      rw [wellFormed, formedFrom, if_neg h2, Bool.and_eq_true, Bool.or_eq_true]
      exact ⟨h1, ih⟩
    | pct ha hb _ ih =>
      simp only [wellFormed, formedFrom, if_true, hex_any.2 ha, hex_any.2 hb, Bool.true_and]
      exact ih

theorem Rfc.neat_iff {other l : List Char} (ho : '%' ∉ other) : Neat other l ↔ UriChars other l := by
  refine ⟨fun h => ?_, neat_of ho⟩
  have h1 := (formed_iff ho).1 h.1
  have h2 := h.2
  clear h
  have up : ∀ {c : Char}, (HexDigit c ∨ ('a' ≤ c ∧ c ≤ 'f')) → upHex c = c → HexDigit c := by
    intro c h e
    rcases h with h | h
    · exact h
    · unfold upHex at e
      split at e <;> first | (exact absurd e (by decide)) | skip
      rename_i n1 n2 n3 n4 n5 n6
      exfalso
      have k1 : c.toNat ≤ 102 := UInt32.le_iff_toNat_le.1 h.2
      have k2 : 97 ≤ c.toNat := UInt32.le_iff_toNat_le.1 h.1
      have : c = Char.ofNat c.toNat := (Char.ofNat_toNat c).symm
      have k3 : c.toNat = 97 ∨ c.toNat = 98 ∨ c.toNat = 99 ∨ c.toNat = 100 ∨ c.toNat = 101 ∨ c.toNat = 102 := by omega
      rcases k3 with k | k | k | k | k | k <;> rw [k] at this
      · exact n1 this
      · exact n2 this
      · exact n3 this
      · exact n4 this
      · exact n5 this
      · exact n6 this
  induction h1 with
  | nil => exact .nil
  | @char c r hc _ ih =>
    refine .char hc (ih ?_)
    have hn : c ≠ '%' := by
      rintro rfl
      rcases hc with h | h | h
      · exact absurd h (by unfold Unreserved; decide)
      · exact absurd h (by unfold SubDelim; decide)
      · exact ho h
    rw [pctUpper, upperFrom, if_neg hn] at h2
    simpa [pctUpper] using h2
  | @pct a b r ha hb _ ih =>
    have na : ∀ {c : Char}, isHex c = true → c ≠ '%' := by rintro c h rfl; exact absurd h (by decide)
    have ha' := hex_any.2 ha
    have hb' := hex_any.2 hb
    rw [pctUpper, upperFrom, if_pos rfl, upperFrom, if_neg (na ha'), if_pos ⟨by omega, ha'⟩, upperFrom, if_neg (na hb'),
      if_pos ⟨by omega, hb'⟩] at h2
    simp only [List.cons.injEq, true_and] at h2
    exact .pct (up ha h2.1) (up hb h2.2.1) (ih h2.2.2)

theorem Rfc.noDots_iff {p : List Char} : dots p = p ↔ NoDotSegment p := by
  refine ⟨fun h => ?_, noDots_of⟩
  have hn := dots_noDots p
  rw [← pieces_dots, h] at hn
  intro x s y e hx hy
  have key : ∀ s : List Char, s ≠ [] → '/' ∉ s → p = x ++ (s ++ y) → s ∈ pieces p ∧ (pieces p).head? = some s ∨ ('/' :: s) ∈ pieces p := by
    intro s h0 hs e
    rcases hx with rfl | ⟨z, rfl⟩
    · left
      have : pieces p = s :: pieces y := by
        rw [e]
        exact pieces_append s h0 (fun hm => hs (List.mem_of_mem_tail hm)) y hy
      rw [this]; simp
    · right
      have : pieces p = pieces z ++ pieces ('/' :: (s ++ y)) := by
        rw [e]
        have := pieces_append' z (r := '/' :: (s ++ y)) (.inr ⟨_, rfl⟩)
        simpa using this
      rw [this, show '/' :: (s ++ y) = ('/' :: s) ++ y from rfl, pieces_append ('/' :: s) (by simp) hs y hy]
      simp
  refine ⟨?_, ?_⟩ <;> rintro rfl
  · rcases key _ (by simp) (by decide) e with h | h
    · exact hn.first.1 h.2
    · exact (hn.dots _ h).1 rfl
  · rcases key _ (by simp) (by decide) e with h | h
    · exact hn.first.2 h.2
    · exact (hn.dots _ h).2 rfl

theorem Rfc.lower_iff {l : List Char} : l.map Char.toLower = l ↔ ∀ c ∈ l, ¬ ('A' ≤ c ∧ c ≤ 'Z') := by
  have each : ∀ c : Char, c.toLower = c ↔ ¬ ('A' ≤ c ∧ c ≤ 'Z') := by
    intro c
    have k : ('A' ≤ c ∧ c ≤ 'Z') ↔ (c.val ≥ 'A'.val ∧ c.val ≤ 'Z'.val) := Iff.rfl
    rw [k]
    unfold Char.toLower
    split
    · rename_i hc
      refine iff_of_false (fun e => ?_) (fun h => h hc)
      have := congrArg (fun c : Char => c.val) e
      simp at this
    · rename_i hc
      exact iff_of_true rfl hc
  induction l with
  | nil => simp
  | cons c l ih => simp only [List.map_cons, List.cons.injEq, each, ih, List.forall_mem_cons]

variable {uuid : List Uri → Uri}

/-- C80: an absolute URI in normal form is taken for one. -/
theorem C80_absolute {t : String} (h : AbsoluteUri t.toList) :
    Rfc.ofText t = ⟨t, none⟩ ∧ Solid (Rfc.lib uuid) (Rfc.ofText t) := by
  have hb := absolute_base h
  have hh : '#' ∉ t.toList := by
    have := hash_not hb
    rwa [split_text] at this
  rw [ofText_plain hh]
  exact ⟨rfl, solid_of rfl hb⟩

/-- C80: a relative reference, resolved against an absolute URI in normal form, is an absolute URI in normal form. -/
theorem C80_relative {t : String} (h : RelativeRef t.toList) {b : Uri} (hb : Solid (Rfc.lib uuid) b) (hf : b.fragment = none) :
    (Rfc.lib uuid).isAbsolute (Rfc.ofText t) = false ∧
    ∃ r, (Rfc.lib uuid).resolve (Rfc.ofText t) b = some r ∧ Solid (Rfc.lib uuid) r ∧ r.fragment = none := by
  obtain ⟨h1, h2, h3, h4, -⟩ := relative_tidy h
  rw [ofText_plain h4]
  have e : partsOf ⟨t, none⟩ = split t.toList := by
    have := split_fragment h4
    simp only [partsOf, Option.map_none]
    cases hs : split t.toList
    rw [hs] at this; simp at this; rw [this]
  obtain ⟨k1, k2, -⟩ := base_of hb hf
  have k3 := resolve_base k1 h1 h2 h3
  obtain ⟨s, hs, -⟩ := k1.scheme
  refine ⟨by simp [Rfc.lib, e, h2], _, by simp only [Rfc.lib, hs, Option.isSome_some, if_true]; rfl, ?_⟩
  rw [k1.normal, e]
  have : (ofParts ((split t.toList).resolve (partsOf b))).fragment = none := by simp [ofParts, k3.fragment]
  exact ⟨solid_of this (by rw [ofParts_split k3]; exact k3), this⟩

/-- C80: so both kinds are fit for `$id`. -/
theorem C80_id {t : String} (h : AbsoluteUri t.toList ∨ RelativeRef t.toList) : IdText (Rfc.lib uuid) t := by
  rcases h with h | h
  · obtain ⟨e, hs⟩ := C80_absolute (uuid := uuid) h
    have hf : ((Rfc.lib uuid).ofText t).fragment = none := by show (Rfc.ofText t).fragment = none; rw [e]
    obtain ⟨k1, k2, -⟩ := base_of (uuid := uuid) hs hf
    obtain ⟨s, hs', -⟩ := k1.scheme
    refine ⟨?_, hf, fun _ => hs, fun hn => ?_⟩
    · show ((partsOf (Rfc.ofText t)).wellFormed && (partsOf (Rfc.ofText t)).noColon) = true
      rw [k1.formed]
      simp [Parts.noColon, hs']
    · rw [show (Rfc.lib uuid).isAbsolute ((Rfc.lib uuid).ofText t) = true from hs.1] at hn; cases hn
  · obtain ⟨h1, h2, h3, h4, h5⟩ := relative_tidy h
    have hf : Rfc.ofText t = ⟨t, none⟩ := ofText_plain h4
    have e : partsOf ⟨t, none⟩ = split t.toList := by
      have := split_fragment h4
      simp only [partsOf, Option.map_none]
      cases hs : split t.toList
      rw [hs] at this; simp at this; rw [this]
    refine ⟨?_, by show (Rfc.ofText t).fragment = none; rw [hf], fun ha => ?_, fun _ b hb hbf => ?_⟩
    · show ((partsOf (Rfc.ofText t)).wellFormed && (partsOf (Rfc.ofText t)).noColon) = true
      rw [hf, e, h5, Bool.and_true]
      have e1 : ((split t.toList).authority.map (wellFormed [':', '@', '[', ']'])).getD true = true := by
        cases ha : (split t.toList).authority with
        | none => rfl
        | some a => simp [(h1.authority a ha).1]
      have e4 : ((split t.toList).query.map (wellFormed [':', '@', '/', '?'])).getD true = true := by
        cases ha : (split t.toList).query with
        | none => rfl
        | some a => simp [(h1.query a ha).1]
      simp only [Parts.wellFormed, e1, h1.path.1, e4, h1.fragment, Option.map_none, Option.getD_none, Bool.and_self]
    · have : (Rfc.lib uuid).isAbsolute (Rfc.ofText t) = false := by
        rw [hf]; simp [Rfc.lib, e, h2]
      rw [show (Rfc.lib uuid).isAbsolute ((Rfc.lib uuid).ofText t) = _ from this] at ha; cases ha
    · obtain ⟨-, r, k1, k2, k3⟩ := C80_relative (uuid := uuid) h hb hbf
      exact ⟨r, k1, (by obtain ⟨r1, r2⟩ := r; cases k3; exact k2), k3⟩

/-- C80: the laws that the theorems about construction assume. -/
theorem C80_construction (h : UuidOk uuid) : LibOk (Rfc.lib uuid) where
  hash a b := by
    show (Rfc.ofText _).fragment ≠ none
    have e : ("#" : String).toList = ['#'] := rfl
    have : ∀ (l r : List Char), (l ++ '#' :: r).dropWhile (fun c => decide (c ≠ '#')) ≠ [] := by
      intro l r
      induction l with
      | nil => simp
      | cons c l ih =>
        simp only [List.cons_append, List.dropWhile_cons]
        split
        · exact ih
        · simp
    simp only [Rfc.ofText, String.toList_append, e, List.append_assoc, List.cons_append, List.nil_append]
    have := this a.toList b.toList
    split
    · rename_i h'; exact absurd h' this
    · simp
  uuid l := h.new l

/-- C80: the laws that the theorems about documents assume.  In particular a fragment, resolved against an
absolute URI in normal form, gives this URI with the fragment. -/
theorem C80_documents (h : UuidOk uuid) : SiteLib (Rfc.lib uuid) where
  relative f _ := by
    have : Rfc.ofText ("#" ++ f) = ⟨"", some f⟩ := by
      have := ofText_hash (t := "") (f := f) (by simp)
      simpa using this
    show (Rfc.lib uuid).isAbsolute (Rfc.ofText ("#" ++ f)).noFragment = false
    rw [this]
    simp [Rfc.lib, partsOf, Uri.noFragment, split, splitScheme]
  resolve f b _ hb hf := by
    have : Rfc.ofText ("#" ++ f) = ⟨"", some f⟩ := by
      have := ofText_hash (t := "") (f := f) (by simp)
      simpa using this
    obtain ⟨k1, k2, k3⟩ := base_of hb hf
    obtain ⟨s, hs, -⟩ := k1.scheme
    show (if (partsOf b).scheme.isSome then some (ofParts ((partsOf (Rfc.ofText ("#" ++ f))).resolve (partsOf b).normalize)) else none) = _
    rw [this, k1.normal, hs]
    have e : partsOf ⟨"", some f⟩ = ⟨none, none, [], none, some f.toList⟩ := by
      simp [partsOf, split, splitScheme, splitAuthority, splitQuery]
    rw [e]
    have hp := k1.fragment
    have e2 : ({ scheme := (partsOf b).scheme, authority := (partsOf b).authority, path := (partsOf b).path, query := (partsOf b).query, fragment := none } : Parts) = partsOf b := by
      cases hq : partsOf b
      rw [hq] at hp; simp at hp; simp [hp]
    simp only [Parts.resolve, ofParts, if_true, Option.isSome_none, Option.isSome_some, Bool.false_eq_true, if_false, Option.map_some,
      String.ofList_toList, Uri.withFragment]
    rw [e2, k2, split_text, String.ofList_toList]
  text b hb hf := by
    obtain ⟨-, -, k3⟩ := base_of hb hf
    obtain ⟨s, g⟩ := b
    cases hf
    exact ofText_plain k3
  anchor b f hb hf _ := by
    obtain ⟨-, -, k3⟩ := base_of hb hf
    obtain ⟨s, g⟩ := b
    cases hf
    exact ofText_hash k3
  uuid l := by
    obtain ⟨t, e, ht⟩ := h.text l
    show (uuid l).fragment = none ∧ Solid (Rfc.lib uuid) (uuid l)
    have : AbsoluteUri ("urn:uuid:" ++ String.ofList t).toList := by
      have k1 : ("urn:uuid:" ++ String.ofList t).toList = ['u', 'r', 'n'] ++ ':' :: (("uuid:".toList ++ t) ++ []) := by
        rw [String.toList_append, String.toList_ofList]
        simp
      have hs : '/' ∉ "uuid:".toList ++ t := by
        rw [List.mem_append, not_or]
        refine ⟨by decide, fun hm => ?_⟩
        rcases ht _ hm with k | k | k <;> revert k <;> decide
      rw [k1]
      refine .path ⟨⟨'u', ['r', 'n'], rfl, by decide, by decide⟩, by decide⟩ ?_ ?_ ?_ (.inl rfl)
      · have k2 : UriChars [':', '@', '/'] t := by
          clear e k1 hs
          induction t with
          | nil => exact .nil
          | cons c t ih =>
            refine .char (.inl ?_) (ih fun d hd => ht d (List.mem_cons_of_mem _ hd))
            rcases ht c List.mem_cons_self with k | k | k
            · exact .inr (.inr (.inl k))
            · exact .inl ⟨k.1, Char.le_trans k.2 (by decide)⟩
            · exact .inr (.inr (.inr (.inl k)))
        have al : ∀ c, 'a' ≤ c ∧ c ≤ 'z' → Unreserved c ∨ SubDelim c ∨ c ∈ [':', '@', '/'] := fun c h => .inl (.inl h)
        show UriChars _ ('u' :: 'u' :: 'i' :: 'd' :: ':' :: t)
        exact .char (al _ (by decide)) (.char (al _ (by decide)) (.char (al _ (by decide)) (.char (al _ (by decide))
          (.char (.inr (.inr (by decide))) k2))))
      · intro x e
        exact hs (by rw [e]; exact List.mem_cons_self)
      · intro x s y e hx hy
        have x0 : x = [] := by
          rcases hx with rfl | ⟨z, rfl⟩
          · rfl
          · exact absurd (by rw [e]; simp) hs
        have y0 : y = [] := by
          rcases hy with rfl | ⟨z, rfl⟩
          · rfl
          · exact absurd (by rw [e]; simp) hs
        subst x0; subst y0
        simp only [List.append_nil, List.nil_append] at e
        rw [← e]
        refine ⟨fun h => ?_, fun h => ?_⟩
        · have := congrArg List.head? h; revert this; simp
        · have := congrArg List.head? h; revert this; simp
    have k := (C80_absolute (uuid := uuid) this)
    rw [k.1] at k
    rw [e]
    exact ⟨rfl, k.2⟩

/-- C80: `URI.validate` accepts exactly the texts by the grammar. -/
theorem C80_valid {t : String} : (Rfc.lib uuid).valid (Rfc.ofText t) = true ↔ ∃ c, TextOf c t.toList ∧ ValidParts c := by
  show ((partsOf (Rfc.ofText t)).wellFormed && (partsOf (Rfc.ofText t)).noColon) = true ↔ _
  rw [parts_of_text]
  have opt : ∀ {o : Option (List Char)} {x : List Char}, '%' ∉ x →
      ((o.map (wellFormed x)).getD true = true ↔ ∀ a, o = some a → UriAnyCase x a) := by
    intro o x hx
    cases o with
    | none => simp
    | some a => simp [formed_iff hx]
  have wf : ∀ {r : Parts}, r.wellFormed = true ↔ (∀ a, r.authority = some a → UriAnyCase [':', '@', '[', ']'] a) ∧
      UriAnyCase [':', '@', '/'] r.path ∧ (∀ q, r.query = some q → UriAnyCase [':', '@', '/', '?'] q) ∧
      ∀ f, r.fragment = some f → UriAnyCase [':', '@', '/', '?'] f := by
    intro r
    simp only [Parts.wellFormed, Bool.and_eq_true, opt (x := [':', '@', '[', ']']) (by decide), opt (x := [':', '@', '/', '?']) (by decide),
      formed_iff (other := [':', '@', '/']) (by decide), and_assoc]
  have nc : ∀ {r : Parts}, r.noColon = true ↔ (r.scheme = none → r.authority = none → ∀ s u, r.path = s ++ ':' :: u → '/' ∈ s) := by
    intro r
    constructor
    · intro h h1 h2 s u e
      simp only [Parts.noColon, h1, h2, Option.isSome_none, Bool.false_or, Bool.not_eq_true', List.contains_eq_mem,
        decide_eq_false_iff_not] at h
      apply Classical.byContradiction
      intro hs
      refine h ?_
      rw [e]
      have := takeWhile_all (p := fun c => decide (c ≠ '/')) (l := s) (fun c hc => by
        simp only [decide_eq_true_eq]; intro e; exact hs (e ▸ hc))
      clear e h
      induction s with
      | nil => simp
      | cons c s ih =>
        rw [List.cons_append, List.takeWhile_cons, if_pos (by simp only [decide_eq_true_eq]; rintro rfl; simp at hs)]
        refine List.mem_cons_of_mem _ (ih (fun hm => hs (List.mem_cons_of_mem _ hm)) ?_)
        exact takeWhile_all (fun c hc => by
          simp only [decide_eq_true_eq]; rintro rfl; exact hs (List.mem_cons_of_mem _ hc))
    · intro h
      cases h1 : r.scheme with
      | some s => simp [Parts.noColon, h1]
      | none =>
        cases h2 : r.authority with
        | some s => simp [Parts.noColon, h2]
        | none =>
          simp only [Parts.noColon, h1, h2, Option.isSome_none, Bool.false_or, Bool.not_eq_true', List.contains_eq_mem,
            decide_eq_false_iff_not]
          exact noColon_of (h h1 h2)
  rw [Bool.and_eq_true, wf, nc]
  constructor
  · rintro ⟨⟨h1, h2, h3, h4⟩, h5⟩
    refine ⟨_, C80_text t.toList, ⟨fun s e => ?_, fun a e => ⟨fun x hx => ?_, split_authority_path e⟩, fun x hx => ?_, split_path_blunt, h5,
      fun q e hq => ?_⟩, h1, h2, h3, h4⟩
    · obtain ⟨⟨x, r, k1, k2⟩, k3⟩ := splitScheme_some (t := t.toList) e
      refine ⟨⟨x, r, k1, by simpa [isAlpha] using k2⟩, fun y hy => ?_⟩
      have := k3 y hy
      simp only [schemeChar, isAlpha, isDecimal, Bool.or_eq_true, Bool.and_eq_true, decide_eq_true_eq, beq_iff_eq] at this
      grind
    · have := (formed_iff (by decide)).2 (h1 a e)
      refine ⟨?_, ?_, ?_⟩ <;> rintro rfl <;> exact formed_not (by decide) (by decide) (by decide) (by decide) 0 this hx
    · have := (formed_iff (by decide)).2 h2
      refine ⟨?_, ?_⟩ <;> rintro rfl <;> exact formed_not (by decide) (by decide) (by decide) (by decide) 0 this hx
    · have := (formed_iff (by decide)).2 (h3 q e)
      exact formed_not (by decide) (by decide) (by decide) (by decide) 0 this hq
  · rintro ⟨c, h, hc⟩
    have e := C80_components hc.grammar h
    subst e
    exact ⟨⟨hc.authority, hc.path, hc.query, hc.fragment⟩, hc.grammar.colon⟩

/-- C80: the normal form that `URI.validate` may require, if there is no user information. -/
theorem C80_normal {t : String} {c : UriParts} (h : TextOf c t.toList) (hc : ValidParts c) (hu : ∀ a, c.authority = some a → '@' ∉ a) :
    (Rfc.lib uuid).normal (Rfc.ofText t) = true ↔ NormalParts c := by
  show decide ((partsOf (Rfc.ofText t)).normalize = partsOf (Rfc.ofText t)) = true ↔ _
  rw [parts_of_text, decide_eq_true_eq]
  have e := C80_components hc.grammar h
  subst e
  have hp := (formed_iff (by decide)).2 hc.path
  have e1 : dots (pctUpper (split t.toList).path) = (split t.toList).path ↔
      PathChars (split t.toList).path ∧ NoDotSegment (split t.toList).path := by
    have hn : Neat [':', '@', '/'] (pctUpper (split t.toList).path) := ⟨formed_upper 0 hp, upperFrom_idem 0 _⟩
    constructor
    · intro e
      have : Neat [':', '@', '/'] (split t.toList).path := e ▸ neat_dots (by decide) hn
      refine ⟨(neat_iff (by decide)).1 this, ?_⟩
      rw [this.2] at e
      exact noDots_iff.1 e
    · rintro ⟨h1, h2⟩
      rw [((neat_iff (by decide)).2 h1).2]
      exact noDots_iff.2 h2
  have opt : ∀ {o : Option (List Char)}, (∀ q, o = some q → UriAnyCase [':', '@', '/', '?'] q) →
      (o.map pctUpper = o ↔ ∀ q, o = some q → UriChars [':', '@', '/', '?'] q) := by
    intro o ho
    cases o with
    | none => simp
    | some q =>
      simp only [Option.map_some, Option.some.injEq, forall_eq']
      rw [← neat_iff (by decide)]
      exact ⟨fun e => ⟨(formed_iff (by decide)).2 (ho q rfl), e⟩, fun e => e.2⟩
  have e2 : (split t.toList).scheme.map (·.map Char.toLower) = (split t.toList).scheme ↔
      ∀ s, (split t.toList).scheme = some s → ∀ x ∈ s, ¬ ('A' ≤ x ∧ x ≤ 'Z') := by
    cases (split t.toList).scheme with
    | none => simp
    | some s => simp only [Option.map_some, Option.some.injEq, forall_eq']; exact lower_iff
  have e3 : (split t.toList).authority.map normalAuthority = (split t.toList).authority ↔
      ∀ s, (split t.toList).authority = some s → ∀ x ∈ s, ¬ ('A' ≤ x ∧ x ≤ 'Z') := by
    have hu : ∀ a, (split t.toList).authority = some a → '@' ∉ a := hu
    cases ha : (split t.toList).authority with
    | none => simp
    | some s =>
      simp only [Option.map_some, Option.some.injEq, forall_eq', normalAuthority, if_neg (hu s ha)]; exact lower_iff
  have e4 := opt hc.query
  have e5 := opt hc.fragment
  simp only [Parts.spec] at e4 e5
  constructor
  · intro e
    have e := Parts.mk.injEq .. ▸ (show Parts.mk .. = Parts.mk .. from e)
    exact ⟨e2.1 e.1, e3.1 e.2.1, e1.1 e.2.2.1, e4.1 e.2.2.2.1, e5.1 e.2.2.2.2⟩
  · rintro ⟨h1, h2, h3, h4, h5⟩
    simp only [Parts.normalize, e2.2 h1, e3.2 h2, e1.2 h3, e4.2 h4, e5.2 h5]

/-- C80: what `URI.resolve` gives, and when it raises. -/
theorem C80_resolve {u b : Uri} :
    ((partsOf b).scheme = none → (Rfc.lib uuid).resolve u b = none) ∧
    ((partsOf b).scheme ≠ none → ∃ r t, (Rfc.lib uuid).resolve u b = some r ∧
      ResolvesTo (partsOf u).spec (partsOf b).normalize.spec t ∧ TextOf { t with fragment := none } r.base.toList ∧
      r.fragment = t.fragment.map String.ofList) := by
  refine ⟨fun h => by simp [Rfc.lib, h], fun h => ?_⟩
  obtain ⟨s, hs⟩ := Option.ne_none_iff_exists'.1 h
  refine ⟨_, _, by simp only [Rfc.lib, hs, Option.isSome_some, if_true]; rfl, C80_resolves.2 rfl, ?_, rfl⟩
  simp only [ofParts, String.toList_ofList]
  exact text_of { ((partsOf u).resolve (partsOf b).normalize) with fragment := none }

/-- C80: a base that is not in normal form is another one after a fragment has been resolved against it. -/
theorem C80_unnormalized :
    let b : Uri := ⟨"HTTP://x/", none⟩
    (Rfc.lib uuid).isAbsolute b = true ∧ (Rfc.lib uuid).normal b = false ∧
    (Rfc.lib uuid).resolve (Rfc.ofText "#/a") b = some ⟨"http://x/", some "/a"⟩ := by
  refine ⟨?_, ?_, ?_⟩
  · show (Rfc.lib fun _ => ⟨"", none⟩).isAbsolute ⟨"HTTP://x/", none⟩ = true
    decide +kernel
  · show (Rfc.lib fun _ => ⟨"", none⟩).normal ⟨"HTTP://x/", none⟩ = false
    decide +kernel
  · show (Rfc.lib fun _ => ⟨"", none⟩).resolve (Rfc.ofText "#/a") ⟨"HTTP://x/", none⟩ = _
    decide +kernel

/-! ## Examples -/

/-- A supply of texts that are not in use. -/
def Rfc.freshUuid (l : List Uri) : Uri :=
  ⟨"urn:uuid:" ++ String.ofList (List.replicate ((l.map fun u => u.base.length).sum) 'a'), none⟩

theorem Rfc.freshUuid_ok : UuidOk Rfc.freshUuid where
  new l h := by
    have h1 : ∀ {l : List Uri} {u}, u ∈ l → u.base.length ≤ (l.map fun u => u.base.length).sum := by
      intro l u h
      induction l with
      | nil => cases h
      | cons v l ih =>
        rcases List.mem_cons.1 h with rfl | h
        · simp
        · have := ih h; simp; omega
    have h2 := h1 h
    have h3 : (freshUuid l).base.length = 9 + (l.map fun u => u.base.length).sum := by
      simp only [freshUuid, ← String.length_toList, String.toList_append, String.toList_ofList, List.length_append,
        List.length_replicate]
      rfl
    omega
  text l := ⟨_, rfl, fun c hc => by rw [List.mem_replicate] at hc; rw [hc.2]; exact .inr (.inl (by decide))⟩

example : LibOk (Rfc.lib Rfc.freshUuid) ∧ SiteLib (Rfc.lib Rfc.freshUuid) :=
  ⟨C80_construction freshUuid_ok, C80_documents freshUuid_ok⟩

theorem Spec.UriChars.of {other l : List Char} (h : ∀ c ∈ l, Unreserved c ∨ SubDelim c ∨ c ∈ other) : UriChars other l := by
  induction l with
  | nil => exact .nil
  | cons c l ih => exact .char (h c List.mem_cons_self) (ih fun d hd => h d (List.mem_cons_of_mem _ hd))

/-- `https://json-schema.org/draft/2020-12/schema` may be used as it is, and `meta/core` with it. -/
example : AbsoluteUri "https://json-schema.org/draft/2020-12/schema".toList ∧ RelativeRef "meta/../core?a=%2F".toList := by
  constructor
  · have : "https://json-schema.org/draft/2020-12/schema".toList =
        "https".toList ++ ':' :: '/' :: '/' :: ("json-schema.org".toList ++ ("/draft/2020-12/schema".toList ++ [])) := by decide
    rw [this]
    refine .network ⟨⟨'h', _, rfl, by decide, by decide⟩, by decide⟩ ?_ (.of ?_) (.inr ⟨_, rfl⟩) ?_ (.inl rfl)
    · unfold HostText Unreserved SubDelim; decide
    · unfold Unreserved SubDelim; decide
    · intro x s y e _ _
      refine ⟨?_, ?_⟩ <;> rintro rfl
      · exact absurd (show '.' ∈ "/draft/2020-12/schema".toList by rw [e]; simp) (by decide)
      · exact absurd (show '.' ∈ "/draft/2020-12/schema".toList by rw [e]; simp) (by decide)
  · have : "meta/../core?a=%2F".toList = "meta/../core".toList ++ '?' :: 'a' :: '=' :: '%' :: '2' :: 'F' :: [] := by decide
    rw [this]
    refine .path (.of ?_) ?_ ?_ (.inr ⟨_, rfl, .char (.inl (.inl (by decide))) (.char (.inr (.inl (by unfold SubDelim; decide)))
      (.pct (.inl (by decide)) (.inr (by decide)) .nil))⟩)
    · unfold Unreserved SubDelim; decide
    · intro x y e
      have : (x ++ '/' :: '/' :: y).length = 12 := by rw [← e]; rfl
      have hx : x.length < 12 := by simp at this; omega
      have h1 : "meta/../core".toList[x.length]? = some '/' := by rw [e]; simp
      have h2 : "meta/../core".toList[x.length + 1]? = some '/' := by rw [e]; simp
      have : ∀ n, n < 12 → ¬ ("meta/../core".toList[n]? = some '/' ∧ "meta/../core".toList[n + 1]? = some '/') := by decide
      exact this _ hx ⟨h1, h2⟩
    · intro s r e
      exact absurd (show ':' ∈ "meta/../core".toList by rw [e]; simp) (by decide)

/-- The examples of RFC 3986 (5.4). -/
example : (["g", "./g", "g/", "/g", "//g", "?y", "g?y", "#s", "g#s", "", ".", "./", "..", "../", "../g", "../..", "../../", "../../g",
      "../../../g", "/./g", "/../g", "g.", "..g", "./g/.", "g/../h", "http:g"].map fun t =>
      ((Rfc.lib fun _ => ⟨"", none⟩).resolve (Rfc.ofText t) ⟨"http://a/b/c/d;p?q", none⟩).map fun u => u.str) =
    (["http://a/b/c/g", "http://a/b/c/g", "http://a/b/c/g/", "http://a/g", "http://g", "http://a/b/c/d;p?y", "http://a/b/c/g?y",
      "http://a/b/c/d;p?q#s", "http://a/b/c/g#s", "http://a/b/c/d;p?q", "http://a/b/c/", "http://a/b/c/", "http://a/b/",
      "http://a/b/", "http://a/b/g", "http://a/", "http://a/", "http://a/g", "http://a/g", "http://a/g", "http://a/g",
      "http://a/b/c/g.", "http://a/b/c/..g", "http://a/b/c/g/", "http://a/b/c/h", "http:g"].map some) := by
  decide +kernel

theorem Spec.UriAnyCase.of {other l : List Char} (h : ∀ c ∈ l, Unreserved c ∨ SubDelim c ∨ c ∈ other) : UriAnyCase other l := by
  induction l with
  | nil => exact .nil
  | cons c l ih => exact .char (h c List.mem_cons_self) (ih fun d hd => h d (List.mem_cons_of_mem _ hd))

/-- `HTTP://x/a%2f#b` is valid, and not in normal form. -/
example : ∃ c, TextOf c "HTTP://x/a%2f#b".toList ∧ ValidParts c ∧ (∀ a, c.authority = some a → '@' ∉ a) ∧ ¬ NormalParts c := by
  refine ⟨⟨some ['H', 'T', 'T', 'P'], some ['x'], ['/', 'a', '%', '2', 'f'], none, some ['b']⟩,
    .scheme (.authority .fragment), ⟨⟨fun s e => ?_, fun a e => ?_, by decide, fun e => (by cases e), fun e => (by cases e), fun q e => (by cases e)⟩,
      fun a e => ?_, ?_, fun q e => (by cases e), fun f e => ?_⟩, fun a e => ?_, fun h => ?_⟩
  · cases e; exact ⟨⟨'H', _, rfl, by decide⟩, by decide⟩
  · cases e; exact ⟨by decide, .inr ⟨_, rfl⟩⟩
  · cases e; exact .of (by unfold Unreserved SubDelim; decide)
  · exact .char (.inr (.inr (by decide))) (.char (.inl (.inl (by decide))) (.pct (.inl (.inl (by decide))) (.inr (by decide)) .nil))
  · cases e; exact .of (by unfold Unreserved SubDelim; decide)
  · cases e; decide
  · exact h.scheme _ rfl 'H' (by decide) (by decide)

end Jschon
