import Verif.Model.Pointer
import Verif.Spec.Pointer
import Verif.Proof.Py

namespace Jschon
open Spec

/-! ## escape and unescape -/

theorem pyReplaceGo_single (a : Char) (new s : List Char) :
    pyReplaceGo [a] new 0 s = s.flatMap (fun c => if c = a then new else [c]) := by
  induction s with
  | nil => rfl
  | cons c cs ih =>
    simp only [pyReplaceGo, List.flatMap_cons]
    by_cases h : c = a
    · subst h; simp [ih]
    · have : ¬ a = c := fun h' => h h'.symm
      simp [this, h, ih]

theorem escapeL_eq (k : List Char) : escapeL k = k.flatMap encodeChar := by
  unfold escapeL pyReplace
  rw [pyReplaceGo_single, pyReplaceGo_single]
  induction k with
  | nil => rfl
  | cons c cs ih =>
    simp only [List.flatMap_cons, List.flatMap_append, ih]
    congr 1
    unfold encodeChar
    by_cases h : c = '~'
    · subst h; rfl
    · simp [h]

theorem replace_pair_skip (a b : Char) (new : List Char) (r : List Char) :
    pyReplaceGo [a, b] new 0 (a :: b :: r) = new ++ pyReplaceGo [a, b] new 0 r := by
  simp [pyReplaceGo]

theorem replace_pair_no (a b c : Char) (new : List Char) (r : List Char) (h : c ≠ a) :
    pyReplaceGo [a, b] new 0 (c :: r) = c :: pyReplaceGo [a, b] new 0 r := by
  have : ¬ a = c := fun h' => h h'.symm
  simp [pyReplaceGo, this]

theorem replace_pair_no2 (a b c : Char) (new : List Char) (r : List Char) (h : c ≠ b) :
    pyReplaceGo [a, b] new 0 (a :: c :: r) = a :: pyReplaceGo [a, b] new 0 (c :: r) := by
  have : ¬ b = c := fun h' => h h'.symm
  conv => lhs; unfold pyReplaceGo
  simp [this]

theorem unescapeL_escapeL (k : List Char) : unescapeL (escapeL k) = k := by
  unfold unescapeL pyReplace
  rw [escapeL_eq]
  have h1 : pyReplaceGo ['~', '1'] ['/'] 0 (k.flatMap encodeChar) =
      k.flatMap (fun c => if c = '~' then ['~', '0'] else [c]) := by
    induction k with
    | nil => rfl
    | cons c cs ih =>
      simp only [List.flatMap_cons]
      rw [show encodeChar c = (if c = '~' then ['~', '0'] else if c = '/' then ['~', '1'] else [c])
        from rfl]
      by_cases h : c = '~'
      · subst h
        simp only [if_true, List.cons_append, List.nil_append]
        rw [replace_pair_no2 _ _ _ _ _ (by decide), replace_pair_no _ _ _ _ _ (by decide), ih]
      · by_cases h' : c = '/'
        · subst h'
          simp only [show ('/' : Char) ≠ '~' by decide, if_false, if_true, List.cons_append,
            List.nil_append]
          rw [replace_pair_skip, ih]; rfl
        · simp only [h, h', if_false, List.cons_append, List.nil_append]
          rw [replace_pair_no _ _ _ _ _ h, ih]
  rw [h1]
  clear h1
  induction k with
  | nil => rfl
  | cons c cs ih =>
    simp only [List.flatMap_cons]
    by_cases h : c = '~'
    · subst h
      simp only [if_true, List.cons_append, List.nil_append]
      rw [replace_pair_skip, ih]; rfl
    · simp only [h, if_false, List.cons_append, List.nil_append]
      rw [replace_pair_no _ _ _ _ _ h, ih]

theorem encodeChar_no_slash (c : Char) : '/' ∉ encodeChar c := by
  unfold encodeChar
  split
  · decide
  · split
    · decide
    · rename_i h; simp; exact fun h' => h h'.symm

theorem escapeL_no_slash (k : List Char) : '/' ∉ escapeL k := by
  rw [escapeL_eq]
  simp only [List.mem_flatMap, not_exists, not_and]
  intro c _
  exact encodeChar_no_slash c

theorem ptrUnescape_ptrEscape (k : String) : ptrUnescape (ptrEscape k) = k := by
  simp [ptrUnescape, ptrEscape, unescapeL_escapeL]

/-! ## The grammar -/

theorem refToken_flatMap (k : List Char) : RefToken (k.flatMap encodeChar) := by
  induction k with
  | nil => exact .nil
  | cons c cs ih =>
    simp only [List.flatMap_cons]
    unfold encodeChar
    split
    · exact .tilde ih
    · split
      · exact .slash ih
      · exact .unescaped (by assumption) (by assumption) ih

theorem exists_of_refToken {t : List Char} (h : RefToken t) : ∃ k : List Char, t = k.flatMap encodeChar := by
  induction h with
  | nil => exact ⟨[], rfl⟩
  | @unescaped c t h1 h2 _ ih =>
    obtain ⟨k, rfl⟩ := ih
    exact ⟨c :: k, by simp [encodeChar, h1, h2]⟩
  | tilde _ ih => obtain ⟨k, rfl⟩ := ih; exact ⟨'~' :: k, rfl⟩
  | slash _ ih => obtain ⟨k, rfl⟩ := ih; exact ⟨'/' :: k, rfl⟩

/-- The ABNF is the set of encodings of key sequences. -/
theorem pointerText_iff (s : List Char) : PointerText s ↔ ∃ keys, s = textOf keys := by
  constructor
  · intro h
    induction h with
    | nil => exact ⟨[], rfl⟩
    | cons ht _ ih =>
      obtain ⟨k, rfl⟩ := exists_of_refToken ht
      obtain ⟨keys, rfl⟩ := ih
      exact ⟨String.ofList k :: keys, by simp [textOf]⟩
  · rintro ⟨keys, rfl⟩
    induction keys with
    | nil => exact .nil
    | cons k ks ih => exact .cons (refToken_flatMap k.toList) ih

theorem re_refToken (t : List Char) :
    Re.Matches (.star (.alt (.cls (fun c => !(c == '~' || c == '/')))
      (.seq (.chr '~') (.cls (fun c => c == '0' || c == '1'))))) t ↔ RefToken t := by
  constructor
  · intro h
    generalize hr : (Re.star _) = r at h
    induction h with
    | starNil => exact .nil
    | starCons h1 _ _ ih2 =>
      cases hr
      have ih2 := ih2 rfl
      rw [Re.matches_alt, Re.matches_cls, Re.matches_seq] at h1
      rcases h1 with ⟨c, hc, rfl⟩ | ⟨u, v, rfl, hu, hv⟩
      · simp at hc
        exact .unescaped hc.2 hc.1 ih2
      · rw [Re.matches_chr] at hu
        rw [Re.matches_cls] at hv
        obtain ⟨c, hc, rfl⟩ := hv
        subst hu
        simp at hc
        rcases hc with rfl | rfl
        · exact .tilde ih2
        · exact .slash ih2
    | _ => cases hr
  · intro h
    induction h with
    | nil => exact .starNil
    | @unescaped c t h1 h2 _ ih =>
      exact .starCons (s := [c]) (.altL (.cls (by simp [h1, h2]))) ih
    | tilde _ ih =>
      exact .starCons (s := ['~', '0'])
        (.altR (.seq (s := ['~']) (t := ['0']) (Re.matches_chr.2 rfl) (.cls rfl))) ih
    | slash _ ih =>
      exact .starCons (s := ['~', '1'])
        (.altR (.seq (s := ['~']) (t := ['1']) (Re.matches_chr.2 rfl) (.cls rfl))) ih

theorem re_pointerText (s : List Char) : jsonPointerRe.fullmatch s = true ↔ PointerText s := by
  rw [Re.fullmatch_iff]
  unfold jsonPointerRe
  constructor
  · intro h
    generalize hr : (Re.star _) = r at h
    induction h with
    | starNil => exact .nil
    | starCons h1 _ _ ih2 =>
      cases hr
      rw [Re.matches_seq] at h1
      obtain ⟨u, v, rfl, hu, hv⟩ := h1
      rw [Re.matches_chr] at hu
      subst hu
      exact .cons ((re_refToken v).1 hv) (ih2 rfl)
    | _ => cases hr
  · intro h
    induction h with
    | nil => exact .starNil
    | @cons tok rest ht _ ih =>
      exact .starCons (s := '/' :: tok)
        (.seq (s := ['/']) (t := tok) (Re.matches_chr.2 rfl) ((re_refToken tok).2 ht)) ih

/-! ## split -/

theorem pySplit_ne_nil (sep : Char) (s : List Char) : pySplit sep s ≠ [] := by
  cases s with
  | nil => simp [pySplit]
  | cons c cs =>
    unfold pySplit
    split
    · simp
    · split <;> simp

theorem pySplit_append (sep : Char) (t r : List Char) (h : sep ∉ t) :
    pySplit sep (t ++ sep :: r) = t :: pySplit sep r := by
  induction t with
  | nil => simp [pySplit]
  | cons c cs ih =>
    simp at h
    rw [List.cons_append]
    conv => lhs; unfold pySplit
    rw [if_neg (fun h' => h.1 h'.symm), ih h.2]

theorem pySplit_self (sep : Char) (t : List Char) (h : sep ∉ t) : pySplit sep t = [t] := by
  induction t with
  | nil => simp [pySplit]
  | cons c cs ih =>
    simp at h
    unfold pySplit
    rw [if_neg (fun h' => h.1 h'.symm), ih h.2]

theorem pySplit_textOf (keys : List String) :
    (pySplit '/' (textOf keys)).drop 1 = keys.map (fun k => escapeL k.toList) := by
  cases keys with
  | nil => rfl
  | cons k ks =>
    have hgen : ∀ (ks : List String) (t : List Char), '/' ∉ t →
        pySplit '/' (t ++ textOf ks) = t :: ks.map (fun k => escapeL k.toList) := by
      intro ks
      induction ks with
      | nil => intro t ht; simp [textOf, pySplit_self _ _ ht]
      | cons k ks ih =>
        intro t ht
        have : t ++ textOf (k :: ks) = t ++ '/' :: (escapeL k.toList ++ textOf ks) := by
          simp [textOf, escapeL_eq]
        rw [this, pySplit_append _ _ _ ht, ih _ (escapeL_no_slash _)]
        rfl
    have := hgen (k :: ks) [] (by simp)
    simp only [List.nil_append] at this
    rw [this]
    rfl

/-! ## Constructor and text -/

theorem ptrStr_toList (p : Ptr) : p.str.toList = textOf p.keys := by
  simp [Ptr.str, textOf, ptrEscape, escapeL_eq, List.flatMap_def]

theorem ptrArgKeys_text (keys : List String) :
    ptrArgKeys (.text (String.ofList (textOf keys))) = .ok keys := by
  have h : jsonPointerRe.fullmatch (textOf keys) = true :=
    (re_pointerText _).2 ((pointerText_iff _).2 ⟨keys, rfl⟩)
  simp only [ptrArgKeys, String.toList_ofList, h, if_true, pySplit_textOf, List.map_map]
  congr 1
  rw [List.map_congr_left (g := id)]
  · simp
  · intro k _
    simp [ptrUnescape, unescapeL_escapeL]

theorem ptrArgKeys_text_iff (s : String) (keys : List String) :
    ptrArgKeys (.text s) = .ok keys ↔ s.toList = textOf keys := by
  constructor
  · intro h
    have hm : jsonPointerRe.fullmatch s.toList = true := by
      by_cases hm : jsonPointerRe.fullmatch s.toList = true
      · exact hm
      · simp [ptrArgKeys, hm] at h
    obtain ⟨keys', hk⟩ := (pointerText_iff _).1 ((re_pointerText _).1 hm)
    have hs : s = String.ofList (textOf keys') := by rw [← String.toList_inj]; simp [hk]
    rw [hs, ptrArgKeys_text] at h
    cases h
    exact hk
  · intro h
    have hs : s = String.ofList (textOf keys) := by rw [← String.toList_inj]; simp [h]
    rw [hs, ptrArgKeys_text]

theorem ptrParse_iff (s : String) (p : Ptr) : Ptr.parse s = .ok p ↔ s.toList = textOf p.keys := by
  rw [← ptrArgKeys_text_iff]
  unfold Ptr.parse Ptr.new ptrNewGo
  cases h : ptrArgKeys (.text s) with
  | error e => simp
  | ok ks =>
    simp [ptrNewGo]
    constructor
    · rintro rfl; rfl
    · intro h; cases p; simp at h; subst h; rfl

theorem ptrParse_error (s : String) (e : Exc) (h : Ptr.parse s = .error e) : e = .ptrMalformed := by
  unfold Ptr.parse Ptr.new ptrNewGo ptrArgKeys at h
  by_cases hm : jsonPointerRe.fullmatch s.toList = true
  · simp [hm, ptrNewGo] at h
  · simp [hm] at h
    exact h.symm

theorem ptrNewGo_keys (acc : List String) (kss : List (List String)) :
    ptrNewGo acc (kss.map .keys) = .ok (acc ++ kss.flatten) := by
  induction kss generalizing acc with
  | nil => simp [ptrNewGo]
  | cons ks kss ih => simp [ptrNewGo, ptrArgKeys, ih]

theorem ptrNewGo_append (acc : List String) (as bs : List PtrArg) :
    ptrNewGo acc (as ++ bs) =
      match ptrNewGo acc as with
      | .ok ks => ptrNewGo ks bs
      | .error e => .error e := by
  induction as generalizing acc with
  | nil => rfl
  | cons a as ih =>
    simp only [List.cons_append, ptrNewGo]
    cases ptrArgKeys a with
    | error e => rfl
    | ok ks => exact ih _

/-! ## Evaluation on plain documents -/

theorem resolvePlain_complete {v : Value} {ks : List String} {w : Value} (h : Designates v ks w) :
    resolvePlain ks v = .ok w := by
  induction h with
  | here => simp [resolvePlain]
  | member h1 _ ih => simp [resolvePlain, h1, ih]
  | @item xs i ks w v h1 _ ih =>
    rw [← natStr_eq_toString]
    have hi : jsonIndexRe.fullmatch (natStr i).toList = true := (isIndex_iff _).2 ⟨i, rfl⟩
    simp [resolvePlain, hi, pyInt_natStr, pyIndex_natCast, h1, ih]

theorem resolvePlain_sound {v : Value} {ks : List String} {w : Value}
    (h : resolvePlain ks v = .ok w) : Designates v ks w := by
  induction ks generalizing v with
  | nil => cases v <;> (simp [resolvePlain] at h; subst h; exact .here)
  | cons k ks ih =>
    cases v with
    | obj kvs =>
      simp only [resolvePlain] at h
      cases hk : dlookup k kvs with
      | none => simp [hk] at h
      | some u => simp only [hk] at h; exact .member hk (ih h)
    | arr xs =>
      simp only [resolvePlain] at h
      by_cases hi : jsonIndexRe.fullmatch k.toList = true
      · simp only [hi, if_true] at h
        obtain ⟨n, rfl⟩ := (isIndex_iff k).1 hi
        simp only [pyInt_natStr, pyIndex_natCast] at h
        cases hx : xs[n]? with
        | none => simp [hx] at h
        | some u =>
          simp only [hx] at h
          rw [natStr_eq_toString]
          exact .item hx (ih h)
      · simp [hi] at h
    | _ => simp [resolvePlain] at h

theorem resolvePlain_error {v : Value} {ks : List String} {e : Exc}
    (h : resolvePlain ks v = .error e) : e = .ptrReference := by
  induction ks generalizing v with
  | nil => cases v <;> simp [resolvePlain] at h
  | cons k ks ih =>
    cases v with
    | obj kvs =>
      simp only [resolvePlain] at h
      cases hk : dlookup k kvs with
      | none => simp [hk] at h; exact h.symm
      | some u => simp only [hk] at h; exact ih h
    | arr xs =>
      simp only [resolvePlain] at h
      by_cases hi : jsonIndexRe.fullmatch k.toList = true
      · simp only [hi, if_true] at h
        obtain ⟨n, rfl⟩ := (isIndex_iff k).1 hi
        simp only [pyInt_natStr, pyIndex_natCast] at h
        cases hx : xs[n]? with
        | none => simp [hx] at h; exact h.symm
        | some u => simp only [hx] at h; exact ih h
      · simp [hi] at h; exact h.symm
    | _ => simp [resolvePlain] at h; exact h.symm

theorem resolvePlain_append (ks ks' : List String) (v : Value) :
    resolvePlain (ks ++ ks') v =
      match resolvePlain ks v with
      | .ok w => resolvePlain ks' w
      | .error e => .error e := by
  induction ks generalizing v with
  | nil => cases v <;> simp [resolvePlain]
  | cons k ks ih =>
    cases v with
    | obj kvs =>
      simp only [List.cons_append, resolvePlain]
      cases hk : dlookup k kvs with
      | none => simp
      | some u => simp [ih]
    | arr xs =>
      simp only [List.cons_append, resolvePlain]
      by_cases hi : jsonIndexRe.fullmatch k.toList = true
      · simp only [hi, if_true]
        cases pyInt k with
        | none => simp
        | some i =>
          cases hx : pyIndex xs i with
          | none => simp [hx]
          | some u => simp [hx, ih]
      · simp [hi]
    | _ => simp [resolvePlain]

end Jschon
