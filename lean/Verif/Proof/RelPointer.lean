import Verif.Model.RelPointer
import Verif.Spec.RelPointer
import Verif.Proof.Pointer

namespace Jschon
open Spec

theorem mem_cuts (s : List Char) (p : List Char × List Char) : p ∈ cuts s ↔ s = p.1 ++ p.2 := by
  induction s generalizing p with
  | nil => cases p; simp [cuts]
  | cons c cs ih =>
    obtain ⟨a, b⟩ := p
    simp only [cuts, List.mem_cons, List.mem_map]
    constructor
    · rintro (h | ⟨q, hq, h⟩)
      · cases h; rfl
      · cases h; simp [(ih q).1 hq]
    · intro h
      cases a with
      | nil => left; simp at h; simp [h]
      | cons d ds =>
        right
        simp at h
        exact ⟨(ds, b), (ih _).2 h.2, by simp [h.1]⟩

theorem relMatch_some {s a b c : List Char} (h : relMatch s = some (a, b, c)) :
    s = a ++ b ++ c ∧ jsonIndexRe.fullmatch a = true ∧ indexManipRe.fullmatch b = true ∧
      relRefRe.fullmatch c = true := by
  unfold relMatch at h
  have := List.mem_of_mem_head? h
  simp only [List.mem_flatMap, List.mem_filter, List.mem_map, Bool.and_eq_true] at this
  obtain ⟨p, ⟨hp, hp'⟩, q, ⟨hq, hq1, hq2⟩, he⟩ := this
  cases he
  rw [mem_cuts] at hp hq
  exact ⟨by rw [hp, hq]; simp, hp', hq1, hq2⟩

theorem relMatch_none {s : List Char} (h : relMatch s = none) :
    ¬ ∃ a b c, s = a ++ b ++ c ∧ jsonIndexRe.fullmatch a = true ∧
      indexManipRe.fullmatch b = true ∧ relRefRe.fullmatch c = true := by
  rintro ⟨a, b, c, rfl, h1, h2, h3⟩
  unfold relMatch at h
  rw [List.head?_eq_none_iff, List.flatMap_eq_nil_iff] at h
  have := h (a, b ++ c) (by simp [List.mem_filter, mem_cuts, h1])
  simp only [List.map_eq_nil_iff, List.filter_eq_nil_iff] at this
  exact this (b, c) ((mem_cuts _ _).2 rfl) (by simp [h2, h3])

/-! ## The sub-grammars, as decimal numerals -/

theorem posRe_iff (s : List Char) :
    Re.Matches (.seq (.cls (fun c => '1' ≤ c && c ≤ '9')) (.star (.cls (fun c => '0' ≤ c && c ≤ '9')))) s
      ↔ ∃ n, 0 < n ∧ s = (natStr n).toList := by
  constructor
  · intro h
    have hidx : jsonIndexRe.fullmatch (String.ofList s).toList = true := by
      rw [Re.fullmatch_iff, String.toList_ofList]
      exact .altR h
    obtain ⟨n, hn⟩ := (isIndex_iff _).1 hidx
    refine ⟨n, ?_, by rw [← hn, String.toList_ofList]⟩
    rcases Nat.eq_zero_or_pos n with rfl | h0
    · exfalso
      have hs : s = ['0'] := by
        have : (String.ofList s).toList = (natStr 0).toList := by rw [hn]
        rw [String.toList_ofList, natStr_toList] at this
        exact this
      subst hs
      rw [Re.matches_seq] at h
      obtain ⟨u, v, he, hu, _⟩ := h
      rw [Re.matches_cls] at hu
      obtain ⟨c, hc, rfl⟩ := hu
      simp at he
      rw [← he.1] at hc
      exact absurd hc (by decide)
    · exact h0
  · rintro ⟨n, hn, rfl⟩
    have := (isIndex_iff (natStr n)).2 ⟨n, rfl⟩
    rw [Re.fullmatch_iff] at this
    unfold jsonIndexRe at this
    rw [Re.matches_alt] at this
    rcases this with h | h
    · rw [Re.matches_chr] at h
      have : natStr n = natStr 0 := by rw [← String.toList_inj, h, natStr_toList]; rfl
      rw [natStr_inj] at this
      omega
    · exact h

theorem posInteger_iff (s : List Char) : PosInteger s ↔ ∃ n, 0 < n ∧ s = (natStr n).toList := by
  rw [← posRe_iff, Re.matches_seq]
  constructor
  · rintro ⟨c, r, rfl, h1, h2, h3⟩
    refine ⟨[c], r, rfl, .cls (by simp [h1, h2]), digits_star ?_⟩
    intro d hd
    exact exists_digit_of_ascii (h3 d hd)
  · rintro ⟨u, v, rfl, hu, hv⟩
    rw [Re.matches_cls] at hu
    obtain ⟨c, hc, rfl⟩ := hu
    simp at hc
    refine ⟨c, v, rfl, hc.1, hc.2, ?_⟩
    intro d hd
    obtain ⟨e, he, rfl⟩ := star_digits hv d hd
    exact asciiDigit_digitChar he

theorem indexRe_iff (s : List Char) :
    jsonIndexRe.fullmatch s = true ↔ ∃ n, s = (natStr n).toList := by
  have := isIndex_iff (String.ofList s)
  rw [String.toList_ofList] at this
  rw [this]
  constructor
  · rintro ⟨n, h⟩; exact ⟨n, by rw [← h, String.toList_ofList]⟩
  · rintro ⟨n, rfl⟩; exact ⟨n, by simp⟩

theorem nonNegInteger_iff (s : List Char) :
    NonNegInteger s ↔ ∃ n, s = (natStr n).toList := by
  unfold NonNegInteger
  rw [posInteger_iff]
  have h0 : (natStr 0).toList = ['0'] := by rw [natStr_toList]; rfl
  constructor
  · rintro (rfl | ⟨n, _, h⟩)
    · exact ⟨0, h0.symm⟩
    · exact ⟨n, h⟩
  · rintro ⟨n, rfl⟩
    rcases Nat.eq_zero_or_pos n with rfl | h
    · exact .inl h0
    · exact .inr ⟨n, h, rfl⟩

/-- The text of an index manipulation. -/
def overText (o : Int) : List Char :=
  if o = 0 then [] else if o < 0 then '-' :: (natStr o.natAbs).toList
  else '+' :: (natStr o.natAbs).toList

theorem manipRe_iff (s : List Char) :
    indexManipRe.fullmatch s = true ↔ ∃ o, s = overText o := by
  rw [Re.fullmatch_iff]
  unfold indexManipRe Re.opt
  rw [Re.matches_alt, Re.matches_eps, Re.matches_seq]
  constructor
  · rintro (⟨u, v, rfl, hu, hv⟩ | rfl)
    · rw [Re.matches_cls] at hu
      obtain ⟨c, hc, rfl⟩ := hu
      rw [posRe_iff] at hv
      obtain ⟨n, hn, rfl⟩ := hv
      simp at hc
      rcases hc with rfl | rfl
      · refine ⟨(n : Int), ?_⟩
        have h1 : ¬ ((n : Int) = 0) := by omega
        have h2 : ¬ ((n : Int) < 0) := by omega
        simp [overText, h2]; omega
      · refine ⟨-(n : Int), ?_⟩
        have h1 : ¬ (-(n : Int) = 0) := by omega
        have h2 : (-(n : Int) < 0) := by omega
        simp only [overText, h1, h2, if_true, if_false]
        simp
    · exact ⟨0, by simp [overText]⟩
  · rintro ⟨o, rfl⟩
    unfold overText
    split
    · right; rfl
    · rename_i h0
      have hp : 0 < o.natAbs := by omega
      left
      split
      · exact ⟨['-'], _, rfl, .cls (by decide), (posRe_iff _).2 ⟨_, hp, rfl⟩⟩
      · exact ⟨['+'], _, rfl, .cls (by decide), (posRe_iff _).2 ⟨_, hp, rfl⟩⟩

theorem indexManip_iff (s : List Char) : IndexManip s ↔ ∃ o, s = overText o := by
  unfold IndexManip
  constructor
  · rintro (rfl | ⟨n, hn, h⟩)
    · exact ⟨0, by simp [overText]⟩
    · rw [posInteger_iff] at hn
      obtain ⟨n, hn, rfl⟩ := hn
      rcases h with rfl | rfl
      · refine ⟨(n : Int), ?_⟩
        have h2 : ¬ ((n : Int) < 0) := by omega
        simp [overText, h2]; omega
      · refine ⟨-(n : Int), ?_⟩
        have h1 : ¬ (-(n : Int) = 0) := by omega
        have h2 : (-(n : Int) < 0) := by omega
        simp only [overText, h1, h2, if_true, if_false]
        simp
  · rintro ⟨o, rfl⟩
    unfold overText
    split
    · left; rfl
    · rename_i h0
      have hp : 0 < o.natAbs := by omega
      right
      refine ⟨_, (posInteger_iff _).2 ⟨o.natAbs, hp, rfl⟩, ?_⟩
      split
      · right; rfl
      · left; rfl

/-- The text of the `ref` part. -/
def refText : RelRef → List Char
  | .hash => ['#']
  | .ptr p => textOf p.keys

theorem refRe_iff (s : List Char) : relRefRe.fullmatch s = true ↔ ∃ r, s = refText r := by
  rw [Re.fullmatch_iff]
  unfold relRefRe
  rw [Re.matches_alt, Re.matches_chr, ← Re.fullmatch_iff, re_pointerText, pointerText_iff]
  constructor
  · rintro (h | ⟨keys, h⟩)
    · exact ⟨.hash, h⟩
    · exact ⟨.ptr ⟨keys⟩, h⟩
  · rintro ⟨r, rfl⟩
    cases r with
    | hash => left; rfl
    | ptr p => right; exact ⟨p.keys, rfl⟩

/-- The whole text. -/
def relText (u : Nat) (o : Int) (r : RelRef) : List Char :=
  (natStr u).toList ++ overText o ++ refText r

theorem relText_iff_grammar (s : List Char) : RelText s ↔ ∃ u o r, s = relText u o r := by
  unfold RelText
  constructor
  · rintro ⟨a, b, c, rfl, ha, hb, hc⟩
    obtain ⟨u, rfl⟩ := (nonNegInteger_iff a).1 ha
    obtain ⟨o, rfl⟩ := (indexManip_iff b).1 hb
    rcases hc with rfl | hc
    · exact ⟨u, o, .hash, rfl⟩
    · obtain ⟨keys, rfl⟩ := (pointerText_iff c).1 hc
      exact ⟨u, o, .ptr ⟨keys⟩, rfl⟩
  · rintro ⟨u, o, r, rfl⟩
    refine ⟨_, _, _, rfl, (nonNegInteger_iff _).2 ⟨u, rfl⟩, (indexManip_iff _).2 ⟨o, rfl⟩, ?_⟩
    cases r with
    | hash => left; rfl
    | ptr p => right; exact (pointerText_iff _).2 ⟨p.keys, rfl⟩

/-! ## Uniqueness of the decomposition -/

/-- Does the character count as an ASCII digit? -/
def isDig (c : Char) : Bool := '0' ≤ c && c ≤ '9'

theorem natStr_digits (n : Nat) : ∀ c ∈ (natStr n).toList, isDig c = true := by
  intro c hc
  rw [natStr_toList] at hc
  obtain ⟨d, hd, rfl⟩ := mem_toDigits hc
  have := asciiDigit_digitChar hd
  simp [isDig, this.1, this.2]

/-- The part after a run of digits starts with a non-digit. -/
def NoDig (s : List Char) : Prop := ∀ c ∈ s.head?, isDig c = false

theorem digits_split {a a' b b' : List Char} (ha : ∀ c ∈ a, isDig c = true)
    (ha' : ∀ c ∈ a', isDig c = true) (hb : NoDig b) (hb' : NoDig b')
    (h : a ++ b = a' ++ b') : a = a' ∧ b = b' := by
  induction a generalizing a' with
  | nil =>
    cases a' with
    | nil => exact ⟨rfl, h⟩
    | cons c a' =>
      simp at h
      subst h
      have h1 := hb c (by simp)
      rw [ha' c (by simp)] at h1
      cases h1
  | cons c a ih =>
    cases a' with
    | nil =>
      simp at h
      subst h
      have h1 := hb' c (by simp)
      rw [ha c (by simp)] at h1
      cases h1
    | cons c' a' =>
      simp at h
      obtain ⟨rfl, h⟩ := h
      obtain ⟨rfl, rfl⟩ := ih (fun c hc => ha c (by simp [hc])) (fun c hc => ha' c (by simp [hc])) h
      exact ⟨rfl, rfl⟩

theorem noDig_ref (r : RelRef) : NoDig (refText r) := by
  intro c hc
  cases r with
  | hash => simp [refText] at hc; subst hc; decide
  | ptr p =>
    cases p with
    | mk keys =>
      cases keys with
      | nil => simp [refText, textOf] at hc
      | cons k ks => simp [refText, textOf] at hc; subst hc; decide

theorem noDig_over_ref (o : Int) (r : RelRef) : NoDig (overText o ++ refText r) := by
  unfold overText
  split
  · exact noDig_ref r
  · split <;> (intro c hc; simp at hc; subst hc; decide)

theorem head_ref (r : RelRef) : ∀ c ∈ (refText r).head?, c ≠ '+' ∧ c ≠ '-' := by
  intro c hc
  cases r with
  | hash => simp [refText] at hc; subst hc; decide
  | ptr p =>
    cases p with
    | mk keys =>
      cases keys with
      | nil => simp [refText, textOf] at hc
      | cons k ks => simp [refText, textOf] at hc; subst hc; decide

theorem overRef_inj {o o' : Int} {r r' : RelRef}
    (h : overText o ++ refText r = overText o' ++ refText r') :
    o = o' ∧ refText r = refText r' := by
  unfold overText at h
  have num : ∀ {n n' : Nat}, (natStr n).toList ++ refText r = (natStr n').toList ++ refText r' →
      n = n' ∧ refText r = refText r' := by
    intro n n' h
    obtain ⟨h1, h2⟩ := digits_split (natStr_digits _) (natStr_digits _) (noDig_ref r) (noDig_ref r') h
    exact ⟨natStr_inj.1 (String.toList_inj.1 h1), h2⟩
  by_cases h0 : o = 0
  · by_cases h0' : o' = 0
    · simp [h0, h0'] at h; exact ⟨by omega, h⟩
    · simp only [h0, h0', if_true, if_false, List.nil_append] at h
      have := head_ref r
      rw [h] at this
      split at this <;> simp at this
  · by_cases h0' : o' = 0
    · simp only [h0, h0', if_true, if_false, List.nil_append] at h
      have := head_ref r'
      rw [← h] at this
      split at this <;> simp at this
    · simp only [h0, h0', if_false] at h
      by_cases h1 : o < 0 <;> by_cases h1' : o' < 0 <;>
        simp only [h1, h1', if_true, if_false, List.cons_append, List.cons.injEq] at h
      · obtain ⟨hn, hr⟩ := num h.2; exact ⟨by omega, hr⟩
      · exact absurd h.1 (by decide)
      · exact absurd h.1 (by decide)
      · obtain ⟨hn, hr⟩ := num h.2; exact ⟨by omega, hr⟩

theorem textOf_inj {ks ks' : List String} (h : textOf ks = textOf ks') : ks = ks' := by
  have h1 := ptrArgKeys_text ks
  rw [h, ptrArgKeys_text] at h1
  cases h1; rfl

theorem refText_inj {r r' : RelRef} (h : refText r = refText r') : r = r' := by
  cases r with
  | hash =>
    cases r' with
    | hash => rfl
    | ptr p =>
      cases p with
      | mk keys =>
        cases keys with
        | nil => simp [refText, textOf] at h
        | cons k ks => simp [refText, textOf] at h
  | ptr p =>
    cases r' with
    | hash =>
      cases p with
      | mk keys =>
        cases keys with
        | nil => simp [refText, textOf] at h
        | cons k ks => simp [refText, textOf] at h
    | ptr p' =>
      obtain ⟨ks⟩ := p
      obtain ⟨ks'⟩ := p'
      have h2 : ks = ks' := textOf_inj h
      rw [h2]

theorem relText_parts_inj {u u' : Nat} {o o' : Int} {r r' : RelRef}
    (h : relText u o r = relText u' o' r') : u = u' ∧ o = o' ∧ r = r' := by
  unfold relText at h
  rw [List.append_assoc, List.append_assoc] at h
  obtain ⟨h1, h2⟩ := digits_split (natStr_digits _) (natStr_digits _) (noDig_over_ref o r)
    (noDig_over_ref o' r') h
  obtain ⟨h3, h4⟩ := overRef_inj h2
  exact ⟨natStr_inj.1 (String.toList_inj.1 h1), h3, refText_inj h4⟩

theorem relMatch_relText (u : Nat) (o : Int) (r : RelRef) :
    relMatch (relText u o r) = some ((natStr u).toList, overText o, refText r) := by
  cases h : relMatch (relText u o r) with
  | none =>
    exact absurd ⟨_, _, _, rfl, (indexRe_iff _).2 ⟨u, rfl⟩, (manipRe_iff _).2 ⟨o, rfl⟩,
      (refRe_iff _).2 ⟨r, rfl⟩⟩ (relMatch_none h)
  | some t =>
    obtain ⟨a, b, c⟩ := t
    obtain ⟨h0, h1, h2, h3⟩ := relMatch_some h
    obtain ⟨u', rfl⟩ := (indexRe_iff _).1 h1
    obtain ⟨o', rfl⟩ := (manipRe_iff _).1 h2
    obtain ⟨r', rfl⟩ := (refRe_iff _).1 h3
    obtain ⟨rfl, rfl, rfl⟩ := relText_parts_inj h0
    rfl

/-! ## int() of signed numerals -/

theorem pyInt_signed (n : Nat) :
    pyInt (String.ofList ('+' :: (natStr n).toList)) = some (n : Int) ∧
    pyInt (String.ofList ('-' :: (natStr n).toList)) = some (-(n : Int)) := by
  have hsp : ∀ c ∈ (natStr n).toList, isIntSpace c = false := by
    intro c hc
    rw [natStr_toList] at hc
    obtain ⟨d, hd, rfl⟩ := mem_toDigits hc
    exact not_isIntSpace_digitChar hd
  have key : ∀ s, isIntSpace s = false →
      ((((s :: (natStr n).toList).dropWhile isIntSpace).reverse.dropWhile isIntSpace).reverse
        = s :: (natStr n).toList) := by
    intro s hs
    have h1 : (s :: (natStr n).toList).dropWhile isIntSpace = s :: (natStr n).toList := by
      simp [hs]
    rw [h1]
    have h2 : (s :: (natStr n).toList).reverse.dropWhile isIntSpace
        = (s :: (natStr n).toList).reverse := by
      apply dropWhile_eq_self_of_head
      intro a ha
      have := List.mem_of_mem_head? ha
      simp at this
      rcases this with h | rfl
      · exact hsp a h
      · exact hs
    rw [h2, List.reverse_reverse]
  constructor
  · unfold pyInt
    rw [String.toList_ofList, key '+' (by decide)]
    simp [natStr_toList, intDigits_toDigits]
  · unfold pyInt
    rw [String.toList_ofList, key '-' (by decide)]
    simp [natStr_toList, intDigits_toDigits]

theorem over_int (o : Int) :
    (if overText o = [] then some 0 else pyInt (String.ofList (overText o))) = some o := by
  unfold overText
  by_cases h0 : o = 0
  · simp [h0]
  · by_cases h1 : o < 0
    · simp only [h0, h1, if_true, if_false]
      rw [if_neg (by simp), (pyInt_signed _).2]
      congr 1; omega
    · simp only [h0, h1, if_false]
      rw [if_neg (by simp), (pyInt_signed _).1]
      congr 1; omega

theorem relParse_relText (u : Nat) (o : Int) (r : RelRef) :
    RelPtr.parse (String.ofList (relText u o r)) = .ok (RelPtr.make u o r) := by
  unfold RelPtr.parse
  rw [String.toList_ofList, relMatch_relText]
  simp only [String.ofList_toList, pyInt_natStr, over_int]
  have hostr : (if o = 0 then "" else if o < 0 then String.ofList (overText o)
      else String.ofList ('+' :: (intStr o).toList)) =
      (if o = 0 then "" else if o < 0 then intStr o
      else String.ofList ('+' :: (intStr o).toList)) := by
    by_cases h0 : o = 0
    · simp [h0]
    · by_cases h1 : o < 0
      · simp [h0, h1, overText, intStr]
      · simp [h0, h1]
  rw [hostr]
  cases r with
  | hash => simp [refText, RelPtr.make]
  | ptr p =>
    have hne : refText (.ptr p) ≠ ['#'] := by
      intro h
      have := refText_inj (r := .ptr p) (r' := .hash) h
      cases this
    have hp : Ptr.parse (String.ofList (refText (.ptr p))) = .ok p := by
      rw [ptrParse_iff, String.toList_ofList]; rfl
    simp only [hne, if_false, hp, RelPtr.make]

theorem relStr_make (u : Nat) (o : Int) (r : RelRef) :
    (RelPtr.make u o r).str = String.ofList (relText u o r) := by
  have hu : (intStr (u : Int)).toList = (natStr u).toList := by
    have : ¬ ((u : Int) < 0) := by omega
    simp [intStr, this]
  have ho : (if o = 0 then "" else if o < 0 then intStr o
      else String.ofList ('+' :: (intStr o).toList)).toList = overText o := by
    unfold overText
    by_cases h0 : o = 0
    · simp [h0]
    · by_cases h1 : o < 0
      · simp [h0, h1, intStr]
      · simp [h0, h1, intStr]
  cases r with
  | hash => simp only [RelPtr.str, RelPtr.make, if_true, hu, ho]; rfl
  | ptr p =>
    simp only [RelPtr.str, RelPtr.make, hu, ho, ptrStr_toList]
    rfl

theorem relParse_ok {s : String} {p : RelPtr} (h : RelPtr.parse s = .ok p) :
    ∃ (u : Nat) (o : Int) (r : RelRef), s = String.ofList (relText u o r) ∧ p = RelPtr.make u o r := by
  unfold RelPtr.parse at h
  cases hm : relMatch s.toList with
  | none => simp [hm] at h
  | some t =>
    obtain ⟨a, b, c⟩ := t
    obtain ⟨h0, h1, h2, h3⟩ := relMatch_some hm
    obtain ⟨u, rfl⟩ := (indexRe_iff _).1 h1
    obtain ⟨o, rfl⟩ := (manipRe_iff _).1 h2
    obtain ⟨r, rfl⟩ := (refRe_iff _).1 h3
    have hs : s = String.ofList (relText u o r) := by
      rw [← String.toList_inj, h0]; simp [relText]
    refine ⟨u, o, r, hs, ?_⟩
    have h' := relParse_relText u o r
    rw [← hs] at h'
    unfold RelPtr.parse at h'
    rw [h'] at h
    cases h; rfl

theorem relParse_error {s : String} {e : Exc} (h : RelPtr.parse s = .error e) :
    e = .relMalformed ∧ ¬ ∃ u o r, s.toList = relText u o r := by
  by_cases hg : ∃ u o r, s.toList = relText u o r
  · obtain ⟨u, o, r, hs⟩ := hg
    have : s = String.ofList (relText u o r) := by rw [← String.toList_inj, hs]; simp
    rw [this, relParse_relText] at h
    cases h
  · refine ⟨?_, hg⟩
    unfold RelPtr.parse at h
    cases hm : relMatch s.toList with
    | none => simp [hm] at h; exact h.symm
    | some t =>
      exfalso
      obtain ⟨a, b, c⟩ := t
      obtain ⟨h0, h1, h2, h3⟩ := relMatch_some hm
      obtain ⟨u, rfl⟩ := (indexRe_iff _).1 h1
      obtain ⟨o, rfl⟩ := (manipRe_iff _).1 h2
      obtain ⟨r, rfl⟩ := (refRe_iff _).1 h3
      exact hg ⟨u, o, r, h0⟩

end Jschon
