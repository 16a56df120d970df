import Verif.Proof.JsonStr

/-!
# Values: the scanner and the grammar
-/

namespace Jschon
open Spec

variable {lib : FloatLib}

/-- What may follow a value. -/
def ValStop (t : List Char) : Prop :=
  ∀ c r, t = c :: r → isJsonSpace c = true ∨ c = ',' ∨ c = ']' ∨ c = '}'

theorem ValStop.num {t : List Char} (h : ValStop t) : NumStop t := by
  intro c r e
  rcases h c r e with h | rfl | rfl | rfl
  · simp only [isJsonSpace, Bool.or_eq_true, decide_eq_true_eq] at h
    rcases h with ((rfl | rfl) | rfl) | rfl <;> decide
  all_goals decide

theorem valStop_ws {w t : List Char} (h : Ws w) (ht : ValStop t) : ValStop (w ++ t) := by
  intro c r e
  cases w with
  | nil => exact ht c r e
  | cons d w =>
    simp only [List.cons_append, List.cons.injEq] at e
    exact .inl (e.1 ▸ ws_iff.1 h d (by simp))

theorem valStop_comma (t : List Char) : ValStop (',' :: t) := by
  intro c r e; cases e; exact .inr (.inl rfl)

theorem valStop_bracket (t : List Char) : ValStop (']' :: t) := by
  intro c r e; cases e; exact .inr (.inr (.inl rfl))

theorem valStop_brace (t : List Char) : ValStop ('}' :: t) := by
  intro c r e; cases e; exact .inr (.inr (.inr rfl))

theorem valStop_nil : ValStop [] := by intro c r e; cases e

/-! ## Numbers as values -/

theorem denoted_num {s : List Char} {v : Loaded} (h : NumText lib s v) : Denoted lib s v := by
  cases h with
  | int h => exact .int h
  | @dec d h =>
    unfold floatOf
    cases e : lib.round d with
    | some q => exact .flt h e
    | none => exact .inf h e

/-- How a number begins. -/
theorem intPart_head {s : List Char} {ns : List Nat} (h : IntPart s ns) : ∃ c r, s = c :: r ∧ isDecDigit c = true := by
  cases h with
  | zero => exact ⟨_, _, rfl, by decide⟩
  | pos hc => exact ⟨_, _, rfl, (digit_val hc).1⟩

theorem num_head {s : List Char} {v : Loaded} (h : NumText lib s v) :
    ∃ c r, s = c :: r ∧ (isDecDigit c = true ∨ (c = '-' ∧ ∃ d r', r = d :: r' ∧ isDecDigit d = true)) := by
  have key : ∀ {m : List Char} {σ : Int} {i t : List Char} {ns : List Nat}, Minus m σ → IntPart i ns →
      ∃ c r, m ++ i ++ t = c :: r ∧ (isDecDigit c = true ∨ (c = '-' ∧ ∃ d r', r = d :: r' ∧ isDecDigit d = true)) := by
    intro m σ i t ns hm hi
    obtain ⟨c, r, rfl, hc⟩ := intPart_head hi
    cases hm with
    | none => exact ⟨c, r ++ t, rfl, .inl hc⟩
    | some => exact ⟨'-', c :: (r ++ t), rfl, .inr ⟨rfl, c, _, rfl, hc⟩⟩
  cases h with
  | int h =>
    obtain ⟨hm, hi⟩ := h
    simpa using key (t := []) hm hi
  | dec h =>
    obtain ⟨hm, hi, hf, he, _⟩ := h
    simpa using key hm hi

theorem scanOnce_num {s : List Char} {f : Nat} {c : Char} {r : List Char} (e : s = c :: r)
    (h : isDecDigit c = true ∨ (c = '-' ∧ ∃ d r', r = d :: r' ∧ isDecDigit d = true)) :
    scanOnce lib (f + 1) s = scanNumber lib s := by
  subst e
  unfold scanOnce
  split
  all_goals first
    | rfl
    | (rename_i e
       simp only [List.cons.injEq] at e
       rcases h with h | ⟨rfl, d, r', rfl, h⟩
       · exact absurd h (by rw [e.1]; decide)
       · simp at e
         try exact absurd h (by rw [e.1]; decide))

/-! ## Completeness -/

theorem isSpace_ne {c d : Char} (h : isJsonSpace c = true) (hd : isJsonSpace d = false) : c ≠ d := by
  rintro rfl; rw [h] at hd; cases hd

theorem dig_head {c : Char} (h : isDecDigit c = true) :
    isJsonSpace c = false ∧ c ≠ ']' ∧ c ≠ '}' := by
  obtain ⟨a, b⟩ := isDecDigit_iff.1 h
  refine ⟨?_, ?_, ?_⟩
  · cases hs : isJsonSpace c
    · rfl
    · simp only [isJsonSpace, Bool.or_eq_true, decide_eq_true_eq] at hs
      rcases hs with ((rfl | rfl) | rfl) | rfl <;> (revert a; decide)
  · rintro rfl; revert b; decide
  · rintro rfl; revert b; decide

theorem scanOnce_numText {s t : List Char} {v : Loaded} (h : NumText lib s v) (ht : NumStop t) (f : Nat) :
    scanOnce lib (f + 1) (s ++ t) = .ok (v, t) := by
  rw [← scanNumber_of h ht]
  obtain ⟨c, r, rfl, hc⟩ := num_head h
  refine scanOnce_num (c := c) (r := r ++ t) rfl ?_
  rcases hc with hc | ⟨rfl, d, r', rfl, hd⟩
  · exact .inl hc
  · exact .inr ⟨rfl, d, _, rfl, hd⟩

theorem num_pos {s : List Char} {v : Loaded} (h : NumText lib s v) : 0 < s.length := by
  obtain ⟨c, r, rfl, _⟩ := num_head h
  simp

/-- How a value begins. -/
theorem denoted_head {s : List Char} {x : Loaded} (h : Denoted lib s x) :
    ∃ c r, s = c :: r ∧ isJsonSpace c = false ∧ c ≠ ']' ∧ c ≠ '}' := by
  have num : ∀ {s v}, NumText lib s v → ∃ c r, s = c :: r ∧ isJsonSpace c = false ∧ c ≠ ']' ∧ c ≠ '}' := by
    intro s v h
    obtain ⟨c, r, rfl, hc | ⟨rfl, _⟩⟩ := num_head h
    · exact ⟨c, r, rfl, dig_head hc⟩
    · exact ⟨_, r, rfl, by decide⟩
  cases h with
  | null | true | false => exact ⟨_, _, rfl, by decide⟩
  | int h => exact num (.int h)
  | flt h _ => exact num (.dec h)
  | inf h _ => exact num (.dec h)
  | str h => obtain ⟨_, _⟩ := h; exact ⟨_, _, rfl, by decide⟩
  | arr0 | arr | obj0 | obj => exact ⟨_, _, rfl, by decide⟩

theorem denoted_skip {s : List Char} {x : Loaded} (h : Denoted lib s x) {w : List Char} (hw : Ws w)
    (t : List Char) : skipSpace (w ++ (s ++ t)) = s ++ t := by
  obtain ⟨c, r, rfl, hc, _⟩ := denoted_head h
  rw [skip_ws hw, List.cons_append, skip_cons hc]

theorem elements_head {s : List Char} {xs : List Loaded} (h : Elements lib s xs) (t : List Char) :
    ∃ c r, skipSpace (s ++ t) = c :: r ∧ c ≠ ']' := by
  cases h with
  | one hw hs _ =>
    obtain ⟨c, r, e, _, hc, _⟩ := denoted_head hs
    rw [List.append_assoc, List.append_assoc, denoted_skip hs hw, e]
    exact ⟨c, _, rfl, hc⟩
  | more hw hs _ _ =>
    obtain ⟨c, r, e, _, hc, _⟩ := denoted_head hs
    rw [List.append_assoc, List.append_assoc, List.append_assoc, denoted_skip hs hw, e]
    exact ⟨c, _, rfl, hc⟩

theorem string_head {s : List Char} {ns : List Nat} (h : StringText s ns) : ∃ r, s = '"' :: r := by
  obtain ⟨_, _⟩ := h; exact ⟨_, rfl⟩

theorem string_skip {s : List Char} {ns : List Nat} (h : StringText s ns) {w : List Char} (hw : Ws w)
    (t : List Char) : skipSpace (w ++ (s ++ t)) = s ++ t := by
  obtain ⟨r, rfl⟩ := string_head h
  rw [skip_ws hw, List.cons_append, skip_cons (by decide)]

theorem members_head {s : List Char} {ms : List (List Nat × Loaded)} (h : Members lib s ms) (t : List Char) :
    ∃ r, skipSpace (s ++ t) = '"' :: r := by
  cases h with
  | one hw hn _ _ _ _ =>
    obtain ⟨r, e⟩ := string_head hn
    simp only [List.append_assoc]
    rw [string_skip hn hw, e]
    exact ⟨_, rfl⟩
  | more hw hn _ _ _ _ _ =>
    obtain ⟨r, e⟩ := string_head hn
    simp only [List.append_assoc]
    rw [string_skip hn hw, e]
    exact ⟨_, rfl⟩

theorem scanOnce_bracket {f : Nat} {r : List Char} :
    scanOnce lib (f + 1) ('[' :: r) = match skipSpace r with
      | ']' :: r' => .ok (.arr [], r')
      | r' => scanItems lib f r' := by
  rw [scanOnce]; rfl

theorem scanOnce_brace {f : Nat} {r : List Char} :
    scanOnce lib (f + 1) ('{' :: r) = match skipSpace r with
      | '}' :: r' => .ok (.obj [], r')
      | r' => scanMembers lib f [] r' := by
  rw [scanOnce]; rfl

theorem skip_tail {w : List Char} (hw : Ws w) {c : Char} (hc : isJsonSpace c = false) (t : List Char) :
    skipSpace (w ++ c :: t) = c :: t := by rw [skip_ws hw, skip_cons hc]

mutual
theorem scanOnce_of : ∀ {s : List Char} {x : Loaded}, Denoted lib s x → ∀ (f : Nat) (t : List Char),
    2 * s.length ≤ f → ValStop t → scanOnce lib f (s ++ t) = .ok (x, t)
  | _, _, .null, f, t, hf, _ => by
    obtain ⟨f, rfl⟩ : ∃ g, f = g + 1 := ⟨f - 1, by simp at hf; omega⟩
    show scanOnce lib (f + 1) ('n' :: 'u' :: 'l' :: 'l' :: t) = _
    rw [scanOnce]
  | _, _, .true, f, t, hf, _ => by
    obtain ⟨f, rfl⟩ : ∃ g, f = g + 1 := ⟨f - 1, by simp at hf; omega⟩
    show scanOnce lib (f + 1) ('t' :: 'r' :: 'u' :: 'e' :: t) = _
    rw [scanOnce]
  | _, _, .false, f, t, hf, _ => by
    obtain ⟨f, rfl⟩ : ∃ g, f = g + 1 := ⟨f - 1, by simp at hf; omega⟩
    show scanOnce lib (f + 1) ('f' :: 'a' :: 'l' :: 's' :: 'e' :: t) = _
    rw [scanOnce]
  | s, _, .int h, f, t, hf, ht => by
    have hn : NumText lib s _ := .int h
    obtain ⟨f, rfl⟩ : ∃ g, f = g + 1 := ⟨f - 1, by have := num_pos hn; omega⟩
    exact scanOnce_numText hn ht.num f
  | s, _, .flt (d := d) (q := q) h e, f, t, hf, ht => by
    have hn : NumText lib s (floatOf lib d) := .dec h
    have he : floatOf lib d = .flt q := by simp [floatOf, e]
    rw [he] at hn
    obtain ⟨f, rfl⟩ : ∃ g, f = g + 1 := ⟨f - 1, by have := num_pos hn; omega⟩
    exact scanOnce_numText hn ht.num f
  | s, _, .inf (d := d) h e, f, t, hf, ht => by
    have hn : NumText lib s (floatOf lib d) := .dec h
    have he : floatOf lib d = .inf (decide (d < 0)) := by simp [floatOf, e]
    rw [he] at hn
    obtain ⟨f, rfl⟩ : ∃ g, f = g + 1 := ⟨f - 1, by have := num_pos hn; omega⟩
    exact scanOnce_numText hn ht.num f
  | _, _, .str h, f, t, hf, ht => by
    obtain ⟨f, rfl⟩ : ∃ g, f = g + 1 := ⟨f - 1, by obtain ⟨r, rfl⟩ := string_head h; simp at hf; omega⟩
    obtain ⟨r, e, hr⟩ := scanString_of h t
    rw [e, scanOnce]
    simp only [hr]
  | _, _, .arr0 hw, f, t, hf, ht => by
    obtain ⟨f, rfl⟩ : ∃ g, f = g + 1 := ⟨f - 1, by simp at hf; omega⟩
    simp only [List.cons_append, List.append_assoc, List.nil_append]
    rw [scanOnce_bracket]
    simp only [skip_tail hw (show isJsonSpace ']' = false by decide)]
  | _, _, .arr (s := s) h, f, t, hf, ht => by
    obtain ⟨f, rfl⟩ : ∃ g, f = g + 1 := ⟨f - 1, by simp at hf; omega⟩
    simp only [List.cons_append, List.append_assoc, List.nil_append]
    rw [scanOnce_bracket]
    have := scanItems_of h f t (by simp at hf; omega)
    obtain ⟨c, r, e, hc⟩ := elements_head h (']' :: t)
    split
    · rename_i r' e'; rw [e] at e'; cases e'; exact absurd rfl hc
    · exact this
  | _, _, .obj0 hw, f, t, hf, ht => by
    obtain ⟨f, rfl⟩ : ∃ g, f = g + 1 := ⟨f - 1, by simp at hf; omega⟩
    simp only [List.cons_append, List.append_assoc, List.nil_append]
    rw [scanOnce_brace]
    simp only [skip_tail hw (show isJsonSpace '}' = false by decide)]
  | _, _, .obj (s := s) h hm, f, t, hf, ht => by
    obtain ⟨f, rfl⟩ : ∃ g, f = g + 1 := ⟨f - 1, by simp at hf; omega⟩
    simp only [List.cons_append, List.append_assoc, List.nil_append]
    rw [scanOnce_brace]
    have := scanMembers_of h f [] t (by simp at hf; omega)
    obtain ⟨r, e⟩ := members_head h ('}' :: t)
    rw [merged_iff.1 hm]
    split
    · rename_i r' e'; rw [e] at e'; cases e'
    · exact this
theorem scanItems_of : ∀ {s : List Char} {xs : List Loaded}, Elements lib s xs → ∀ (f : Nat) (t : List Char),
    2 * s.length + 1 ≤ f → scanItems lib f (skipSpace (s ++ ']' :: t)) = .ok (.arr xs, t)
  | _, _, .one (w := w) (s := s) (w' := w') hw hs hw', f, t, hf => by
    obtain ⟨f, rfl⟩ : ∃ g, f = g + 1 := ⟨f - 1, by omega⟩
    have := scanOnce_of hs f (w' ++ ']' :: t) (by simp at hf; omega) (valStop_ws hw' (valStop_bracket t))
    rw [List.append_assoc, List.append_assoc, denoted_skip hs hw, scanItems, this]
    simp only [skip_tail hw' (show isJsonSpace ']' = false by decide)]
  | _, _, .more (w := w) (s := s) (w' := w') (t := u) hw hs hw' ht, f, t, hf => by
    obtain ⟨f, rfl⟩ : ∃ g, f = g + 1 := ⟨f - 1, by omega⟩
    have h1 := scanOnce_of hs f (w' ++ ',' :: (u ++ ']' :: t)) (by simp at hf; omega)
      (valStop_ws hw' (valStop_comma _))
    have h2 := scanItems_of ht f t (by simp at hf; omega)
    simp only [List.append_assoc, List.cons_append]
    rw [denoted_skip hs hw, scanItems, h1]
    simp only [skip_tail hw' (show isJsonSpace ',' = false by decide), h2]
theorem scanMembers_of : ∀ {s : List Char} {ms : List (List Nat × Loaded)}, Members lib s ms →
    ∀ (f : Nat) (d : List (List Nat × Loaded)) (t : List Char),
    2 * s.length + 1 ≤ f → scanMembers lib f d (skipSpace (s ++ '}' :: t)) = .ok (.obj (enterAll d ms), t)
  | _, _, .one (w := w) (n := n) (k := k) (w' := w') (v := v) (s := s) (w'' := w'') hw hn hw' hv hs hw'', f, d, t, hf => by
    obtain ⟨f, rfl⟩ : ∃ g, f = g + 1 := ⟨f - 1, by omega⟩
    have h1 := scanOnce_of hs f (w'' ++ '}' :: t) (by simp at hf; omega) (valStop_ws hw'' (valStop_brace t))
    obtain ⟨r, e, hr⟩ := scanString_of hn (w' ++ ':' :: (v ++ (s ++ (w'' ++ '}' :: t))))
    simp only [List.append_assoc, List.cons_append]
    rw [string_skip hn hw, e, scanMembers]
    simp only [hr, skip_tail hw' (show isJsonSpace ':' = false by decide), denoted_skip hs hv, h1,
      skip_tail hw'' (show isJsonSpace '}' = false by decide)]
    rfl
  | _, _, .more (w := w) (n := n) (k := k) (w' := w') (v := v) (s := s) (w'' := w'') (t := u) hw hn hw' hv hs hw'' hm,
      f, d, t, hf => by
    obtain ⟨f, rfl⟩ : ∃ g, f = g + 1 := ⟨f - 1, by omega⟩
    have h1 := scanOnce_of hs f (w'' ++ ',' :: (u ++ '}' :: t)) (by simp at hf; omega)
      (valStop_ws hw'' (valStop_comma _))
    have h2 := fun d => scanMembers_of hm f d t (by simp at hf; omega)
    obtain ⟨r, e, hr⟩ := scanString_of hn (w' ++ ':' :: (v ++ (s ++ (w'' ++ ',' :: (u ++ '}' :: t)))))
    simp only [List.append_assoc, List.cons_append]
    rw [string_skip hn hw, e, scanMembers]
    simp only [hr, skip_tail hw' (show isJsonSpace ':' = false by decide), denoted_skip hs hv, h1,
      skip_tail hw'' (show isJsonSpace ',' = false by decide), h2]
    rfl
end

/-! ## Soundness -/

/-- What the scanner reads with some fuel follows the grammar. -/
def ScanSound (lib : FloatLib) (f : Nat) : Prop :=
  (∀ s x t, scanOnce lib f s = .ok (x, t) → ∃ p, s = p ++ t ∧ Denoted lib p x) ∧
  (∀ s x t, scanItems lib f s = .ok (x, t) → ∃ p xs, s = p ++ ']' :: t ∧ Elements lib p xs ∧ x = .arr xs) ∧
  (∀ d s x t, scanMembers lib f d s = .ok (x, t) →
    ∃ p ms, s = p ++ '}' :: t ∧ Members lib p ms ∧ x = .obj (enterAll d ms))

theorem elements_ws {s : List Char} {xs : List Loaded} (h : Elements lib s xs) {w : List Char} (hw : Ws w) :
    Elements lib (w ++ s) xs := by
  have app : ∀ {w v : List Char}, Ws w → Ws v → Ws (w ++ v) := fun a b =>
    ws_iff.2 (fun c hc => by
      rcases List.mem_append.1 hc with h | h
      · exact ws_iff.1 a c h
      · exact ws_iff.1 b c h)
  cases h with
  | one hv hs hw' =>
    have := Elements.one (app hw hv) hs hw'
    simpa using this
  | more hv hs hw' ht =>
    have := Elements.more (app hw hv) hs hw' ht
    simpa using this

theorem members_ws {s : List Char} {ms : List (List Nat × Loaded)} (h : Members lib s ms) {w : List Char}
    (hw : Ws w) : Members lib (w ++ s) ms := by
  have app : ∀ {w v : List Char}, Ws w → Ws v → Ws (w ++ v) := fun a b =>
    ws_iff.2 (fun c hc => by
      rcases List.mem_append.1 hc with h | h
      · exact ws_iff.1 a c h
      · exact ws_iff.1 b c h)
  cases h with
  | one hv hn hw' hx hs hw'' =>
    have := Members.one (app hw hv) hn hw' hx hs hw''
    simpa using this
  | more hv hn hw' hx hs hw'' ht =>
    have := Members.more (app hw hv) hn hw' hx hs hw'' ht
    simpa using this

theorem scan_sound (lib : FloatLib) : ∀ f, ScanSound lib f
  | 0 => ⟨(fun s x t h => by rw [scanOnce] at h; cases h), (fun s x t h => by rw [scanItems] at h; cases h),
      (fun d s x t h => by rw [scanMembers] at h; cases h)⟩
  | f + 1 => by
    obtain ⟨ih1, ih2, ih3⟩ := scan_sound lib f
    refine ⟨fun s x t h => ?_, fun s x t h => ?_, fun d s x t h => ?_⟩
    · unfold scanOnce at h
      split at h
      · rename_i r
        split at h
        · rename_i cs r' e
          cases h
          obtain ⟨p, ep, hp⟩ := scanString_sound e
          exact ⟨p, ep, .str hp⟩
        · cases h
      · rename_i r
        obtain ⟨w, hw, e⟩ := skip_split r
        split at h
        · rename_i r' e'
          cases h
          rw [e'] at e
          exact ⟨'{' :: w ++ ['}'], by simp [e], .obj0 hw⟩
        · obtain ⟨p, ms, ep, hm, rfl⟩ := ih3 _ _ _ _ h
          rw [ep] at e
          exact ⟨'{' :: (w ++ p) ++ ['}'], by simp [e], .obj (members_ws hm hw) (merged_iff.2 rfl)⟩
      · rename_i r
        obtain ⟨w, hw, e⟩ := skip_split r
        split at h
        · rename_i r' e'
          cases h
          rw [e'] at e
          exact ⟨'[' :: w ++ [']'], by simp [e], .arr0 hw⟩
        · obtain ⟨p, xs, ep, hm, rfl⟩ := ih2 _ _ _ h
          rw [ep] at e
          exact ⟨'[' :: (w ++ p) ++ [']'], by simp [e], .arr (elements_ws hm hw)⟩
      · cases h; exact ⟨"null".toList, rfl, .null⟩
      · cases h; exact ⟨"true".toList, rfl, .true⟩
      · cases h; exact ⟨"false".toList, rfl, .false⟩
      · cases h
      · cases h
      · cases h
      · obtain ⟨p, ep, hp⟩ := scanNumber_sound h
        exact ⟨p, ep, denoted_num hp⟩
    · rw [scanItems] at h
      split at h
      · cases h
      · rename_i v r e1
        obtain ⟨p, rfl, hp⟩ := ih1 _ _ _ e1
        obtain ⟨w, hw, ew⟩ := skip_split r
        split at h
        · rename_i r' e2
          cases h
          rw [e2] at ew
          refine ⟨p ++ w, [v], by simp [ew], ?_, rfl⟩
          have := Elements.one .nil hp hw
          simpa using this
        · rename_i r' e2
          rw [e2] at ew
          obtain ⟨w2, hw2, ew2⟩ := skip_split r'
          split at h
          · rename_i vs r'' e3
            cases h
            obtain ⟨q, xs, eq, hq, e4⟩ := ih2 _ _ _ e3
            cases e4
            refine ⟨p ++ w ++ ',' :: (w2 ++ q), v :: vs, ?_, ?_, rfl⟩
            · rw [ew, ew2, eq]; simp
            · have := Elements.more .nil hp hw (elements_ws hq hw2)
              simpa using this
          · cases h
          · cases h
        · cases h
    · unfold scanMembers at h
      split at h
      · rename_i r
        split at h
        · cases h
        · rename_i k r1 e1
          obtain ⟨n, en, hn⟩ := scanString_sound e1
          obtain ⟨w1, hw1, ew1⟩ := skip_split r1
          split at h
          · rename_i r2 e2
            rw [e2] at ew1
            obtain ⟨w2, hw2, ew2⟩ := skip_split r2
            split at h
            · cases h
            · rename_i v r3 e3
              obtain ⟨p, ep, hp⟩ := ih1 _ _ _ e3
              obtain ⟨w3, hw3, ew3⟩ := skip_split r3
              split at h
              · rename_i r4 e4
                cases h
                rw [e4] at ew3
                refine ⟨n ++ w1 ++ ':' :: w2 ++ p ++ w3, [(k, v)], ?_, ?_, rfl⟩
                · rw [en, ew1, ew2, ep, ew3]; simp
                · have := Members.one .nil hn hw1 hw2 hp hw3
                  simpa using this
              · rename_i r4 e4
                rw [e4] at ew3
                obtain ⟨w4, hw4, ew4⟩ := skip_split r4
                obtain ⟨q, ms, eq, hq, e5⟩ := ih3 _ _ _ _ h
                refine ⟨n ++ w1 ++ ':' :: w2 ++ p ++ w3 ++ ',' :: (w4 ++ q), (k, v) :: ms, ?_, ?_, e5⟩
                · rw [en, ew1, ew2, ep, ew3, ew4, eq]; simp
                · have := Members.more .nil hn hw1 hw2 hp hw3 (members_ws hq hw4)
                  simpa using this
              · cases h
          · cases h
      · cases h

/-! ## Texts -/

theorem jsonLoads_of {s : List Char} {x : Loaded} (h : JsonText lib s x) : jsonLoads lib s = .ok x := by
  obtain ⟨hw, hs, hw'⟩ := h
  rename_i w s w'
  have h1 := scanOnce_of hs (2 * (w ++ s ++ w').length + 1) w' (by simp; omega)
    (by have := valStop_ws hw' valStop_nil; simpa using this)
  unfold jsonLoads
  split
  · rename_i e
    exfalso
    cases w with
    | nil =>
      obtain ⟨c, r, rfl, hc, _⟩ := denoted_head hs
      simp only [List.nil_append, List.cons_append, List.cons.injEq] at e
      obtain ⟨rfl, _⟩ := e
      have := scanOnce_of hs (2 * ('\ufeff' :: r).length) [] (by omega) valStop_nil
      simp [scanOnce, scanNumber, scanUnsigned, isDecDigit, Nat.mul_succ] at this
    | cons c w =>
      simp only [List.cons_append, List.cons.injEq] at e
      have := ws_iff.1 hw c (by simp)
      rw [e.1] at this
      revert this; decide
  · rw [List.append_assoc, denoted_skip hs hw, ← List.append_assoc, h1]
    simp [skip_all hw']

theorem jsonLoads_sound {s : List Char} {x : Loaded} (h : jsonLoads lib s = .ok x) : JsonText lib s x := by
  unfold jsonLoads at h
  split at h
  · cases h
  · split at h
    · cases h
    · rename_i v r e
      obtain ⟨w, hw, ew⟩ := skip_split s
      obtain ⟨p, ep, hp⟩ := (scan_sound lib _).1 _ _ _ e
      split at h
      · rename_i e2
        cases h
        rw [ep] at ew
        have := JsonText.mk hw hp (skip_nil e2)
        rw [ew]
        simpa using this
      · cases h

end Jschon
