import Verif.Model.Repr
import Verif.Spec.PyLiteral
import Verif.Proof.JsonDump

/-!
# Python literals: what `repr` writes, and the one value that a literal has
-/

namespace Jschon
open Spec

variable {lib : FloatLib} {printable : Nat → Bool}

/-! ## One reading -/

theorem append_split {s s' t t' : List Char} (h : s ++ t = s' ++ t') (hl : s.length = s'.length) :
    s = s' ∧ t = t' := List.append_inj h hl

theorem hexDigits_unique {s : List Char} {n : Nat} (h : HexDigits s n) : ∀ {m}, HexDigits s m → n = m := by
  induction h with
  | nil =>
    intro m h'
    generalize hs : ([] : List Char) = s at h'
    cases h' with
    | nil => rfl
    | snoc _ _ => simp at hs
  | @snoc s n c d h hc ih =>
    intro m h'
    generalize hs : s ++ [c] = s' at h'
    cases h' with
    | nil => simp at hs
    | @snoc s' m c' d' h' hc' =>
      obtain ⟨rfl, e⟩ := List.append_inj' hs rfl
      cases e
      have := hex_val hc
      rw [hex_val hc'] at this
      cases this
      rw [ih h']

theorem pyEscape_unique {e e' t t' : List Char} {n n' : Nat} (h : PyEscape e n) (h' : PyEscape e' n')
    (he : e ++ t = e' ++ t') : e = e' ∧ n = n' ∧ t = t' := by
  have key : ∀ {c : Char} {k : Nat} {a b : List Char} {i j : Nat}, HexDigits a i → a.length = k →
      HexDigits b j → b.length = k → c :: a ++ t = c :: b ++ t' → c :: a = c :: b ∧ i = j ∧ t = t' := by
    intro c k a b i j ha hk hb hk' h
    simp only [List.cons_append, List.cons.injEq, true_and] at h
    obtain ⟨rfl, rfl⟩ := append_split h (by omega)
    exact ⟨rfl, hexDigits_unique ha hb, rfl⟩
  cases h with
  | hex ha hk =>
    cases h' with
    | hex hb hk' => exact key ha hk hb hk' he
    | _ => simp at he
  | short ha hk =>
    cases h' with
    | short hb hk' => exact key ha hk hb hk' he
    | _ => simp at he
  | long ha hk =>
    cases h' with
    | long hb hk' => exact key ha hk hb hk' he
    | _ => simp at he
  | _ =>
    cases h' <;> simp at he <;> simp [he]

theorem pyChars_unique {q : Char} (hq : q ≠ '\\') {s : List Char} {ns : List Nat} (h : PyChars q s ns) :
    ∀ {s' t t' : List Char} {ns' : List Nat}, PyChars q s' ns' → s ++ q :: t = s' ++ q :: t' →
      s = s' ∧ ns = ns' ∧ t = t' := by
  induction h with
  | nil =>
    intro s' t t' ns' h' he
    cases h' with
    | nil => simpa using he
    | char h1 _ _ _ _ _ =>
      simp only [List.nil_append, List.cons_append, List.cons.injEq] at he
      exact absurd he.1.symm h1
    | escape _ _ =>
      simp only [List.nil_append, List.cons_append, List.cons.injEq] at he
      exact absurd he.1 hq
  | char h1 h2 _ _ _ h ih =>
    intro s' t t' ns' h' he
    cases h' with
    | nil =>
      simp only [List.nil_append, List.cons_append, List.cons.injEq] at he
      exact absurd he.1 h1
    | char _ _ _ _ _ h' =>
      simp only [List.cons_append, List.cons.injEq] at he
      obtain ⟨rfl, he⟩ := he
      obtain ⟨rfl, rfl, rfl⟩ := ih h' he
      exact ⟨rfl, rfl, rfl⟩
    | escape _ _ =>
      simp only [List.cons_append, List.cons.injEq] at he
      exact absurd he.1 h2
  | escape h0 h ih =>
    intro s' t t' ns' h' he
    cases h' with
    | nil =>
      simp only [List.nil_append, List.cons_append, List.cons.injEq] at he
      exact absurd he.1.symm hq
    | char _ h2 _ _ _ h' =>
      simp only [List.cons_append, List.cons.injEq] at he
      exact absurd he.1.symm h2
    | escape h0' h' =>
      simp only [List.cons_append, List.cons.injEq, true_and, List.append_assoc] at he
      obtain ⟨rfl, rfl, he⟩ := pyEscape_unique h0 h0' he
      obtain ⟨rfl, rfl, rfl⟩ := ih h' he
      exact ⟨rfl, rfl, rfl⟩

theorem pyString_unique {s s' t t' : List Char} {ns ns' : List Nat} (h : PyString s ns) (h' : PyString s' ns')
    (he : s ++ t = s' ++ t') : s = s' ∧ ns = ns' ∧ t = t' := by
  obtain ⟨hq, h⟩ := h
  obtain ⟨hq', h'⟩ := h'
  simp only [List.cons_append, List.cons.injEq, List.append_assoc, List.nil_append] at he
  obtain ⟨rfl, he⟩ := he
  obtain ⟨rfl, rfl, rfl⟩ := pyChars_unique (by rcases hq with rfl | rfl <;> decide) h h' he
  exact ⟨rfl, rfl, rfl⟩

theorem pyString_head {s : List Char} {ns : List Nat} (h : PyString s ns) :
    ∃ c r, s = c :: r ∧ (c = '\'' ∨ c = '"') := by
  obtain ⟨hq, _⟩ := h
  exact ⟨_, _, rfl, hq⟩

theorem merged_unique {ms d d' : List (List Nat × Loaded)} (h : Merged ms d) (h' : Merged ms d') : d = d' :=
  (merged_iff.1 h).trans (merged_iff.1 h').symm

theorem blanks_split {w w' s s' : List Char} (h : ∀ c ∈ w, c = ' ') (h' : ∀ c ∈ w', c = ' ')
    (hs : ∀ r, s ≠ ' ' :: r) (hs' : ∀ r, s' ≠ ' ' :: r) (he : w ++ s = w' ++ s') : w = w' ∧ s = s' := by
  induction w generalizing w' with
  | nil =>
    cases w' with
    | nil => exact ⟨rfl, he⟩
    | cons c w' => cases h' c (by simp); exact absurd he (hs _)
  | cons c w ih =>
    cases h c (by simp)
    cases w' with
    | nil => exact absurd he.symm (hs' _)
    | cons c w' =>
      simp only [List.cons_append, List.cons.injEq] at he
      obtain ⟨rfl, he⟩ := he
      obtain ⟨rfl, rfl⟩ := ih (fun c hc => h c (by simp [hc])) (fun c hc => h' c (by simp [hc])) he
      exact ⟨rfl, rfl⟩

/-- The first character of a literal. -/
theorem pyLit_head {s : List Char} {x : Loaded} (h : PyLit lib s x) : ∃ c r, s = c :: r ∧ c ≠ ' ' ∧ c ≠ ']' := by
  have num : ∀ {x}, NumText lib s x → ∃ c r, s = c :: r ∧ c ≠ ' ' ∧ c ≠ ']' := by
    intro x h
    obtain ⟨c, r, rfl, hc⟩ := num_head h
    refine ⟨c, r, rfl, ?_⟩
    rcases hc with hc | ⟨rfl, _⟩
    · refine ⟨?_, ?_⟩ <;> rintro rfl <;> exact absurd hc (by decide)
    · decide
  cases h with
  | none => exact ⟨_, _, rfl, by decide, by decide⟩
  | true => exact ⟨_, _, rfl, by decide, by decide⟩
  | false => exact ⟨_, _, rfl, by decide, by decide⟩
  | int h => exact num (.int h)
  | flt h _ => exact num (.dec h)
  | str h =>
    obtain ⟨c, r, rfl, hc⟩ := pyString_head h
    refine ⟨c, r, rfl, ?_⟩
    rcases hc with rfl | rfl <;> decide
  | list0 => exact ⟨_, _, rfl, by decide, by decide⟩
  | list _ => exact ⟨_, _, rfl, by decide, by decide⟩
  | dict0 => exact ⟨_, _, rfl, by decide, by decide⟩
  | dict _ _ => exact ⟨_, _, rfl, by decide, by decide⟩

theorem numText_unique {s s' t t' : List Char} {x x' : Loaded} (h : NumText lib s x) (h' : NumText lib s' x')
    (ht : NumStop t) (ht' : NumStop t') (he : s ++ t = s' ++ t') : s = s' ∧ x = x' ∧ t = t' := by
  have h1 := scanNumber_of h ht
  rw [he, scanNumber_of h' ht'] at h1
  cases h1
  exact ⟨List.append_cancel_right he, rfl, rfl⟩

theorem numText_flt {s : List Char} {d q : Rat} (h : DecText s d) (hq : lib.round d = some q) :
    NumText lib s (.flt q) := by
  have := NumText.dec (lib := lib) h
  simpa [floatOf, hq] using this

/-- Kinds of literals, told apart by the first character. -/
theorem pyLit_num {s t : List Char} {x : Loaded} (h : PyLit lib s x) {c : Char} {r : List Char} (e : s ++ t = c :: r)
    (hc : isDecDigit c = true ∨ c = '-') : NumText lib s x := by
  have no : ∀ d, (isDecDigit d = false ∧ d ≠ '-') → ∀ r', d :: r' ≠ c :: r := by
    rintro d ⟨h1, h2⟩ r' h
    cases h
    rcases hc with hc | hc
    · rw [h1] at hc; cases hc
    · exact h2 hc
  cases h with
  | int h => exact .int h
  | flt h hq => exact numText_flt h hq
  | str h =>
    obtain ⟨d, r', rfl, hd⟩ := pyString_head h
    refine absurd e (no d ?_ _)
    rcases hd with rfl | rfl <;> decide
  | _ => exact absurd e (no _ (by decide) _)

theorem pyLit_str {s t : List Char} {x : Loaded} (h : PyLit lib s x) {c : Char} {r : List Char} (e : s ++ t = c :: r)
    (hc : c = '\'' ∨ c = '"') : ∃ ns, x = .str ns ∧ PyString s ns := by
  have no : ∀ d, (d ≠ '\'' ∧ d ≠ '"') → ∀ r', d :: r' ≠ c :: r := by
    rintro d ⟨h1, h2⟩ r' h
    cases h
    rcases hc with hc | hc
    · exact h1 hc
    · exact h2 hc
  have num : ∀ {x}, NumText lib s x → False := by
    intro x h
    obtain ⟨d, r', rfl, hd⟩ := num_head h
    refine no d ?_ _ e
    rcases hd with hd | ⟨rfl, _⟩
    · refine ⟨?_, ?_⟩ <;> rintro rfl <;> exact absurd hd (by decide)
    · decide
  cases h with
  | str h => exact ⟨_, rfl, h⟩
  | int h => exact (num (.int h)).elim
  | flt h hq => exact (num (.dec h)).elim
  | _ => exact absurd e (no _ (by decide) _)

theorem numStop_cons {c : Char} {t : List Char} (h : isDecDigit c = false ∧ c ≠ '.' ∧ c ≠ 'e' ∧ c ≠ 'E') :
    NumStop (c :: t) := by
  intro d r e; cases e; exact h

theorem numStop_nil : NumStop [] := by intro d r e; cases e

/-- The literal after which a text goes on, and its value, are determined. -/
def OneLit (lib : FloatLib) (s : List Char) (x : Loaded) : Prop :=
  ∀ (s' t t' : List Char) (x' : Loaded), PyLit lib s' x' → s ++ t = s' ++ t' → NumStop t → NumStop t' →
    s = s' ∧ x = x' ∧ t = t'

/-- The other literal starts with the same character, so it is of the same kind. -/
theorem pyLit_word {s' t' : List Char} {x' : Loaded} (h : PyLit lib s' x') {c : Char} {r : List Char}
    (e : c :: r = s' ++ t') (hc : c = 'N' ∨ c = 'T' ∨ c = 'F' ∨ c = '[' ∨ c = '{') :
    (c = 'N' ∧ s' = "None".toList ∧ x' = .null) ∨ (c = 'T' ∧ s' = "True".toList ∧ x' = .bool true) ∨
    (c = 'F' ∧ s' = "False".toList ∧ x' = .bool false) ∨
    (c = '[' ∧ ((s' = ['[', ']'] ∧ x' = .arr []) ∨ ∃ s xs, s' = '[' :: s ++ [']'] ∧ x' = .arr xs ∧ PyItems lib s xs)) ∨
    (c = '{' ∧ ((s' = ['{', '}'] ∧ x' = .obj []) ∨
      ∃ s ms d, s' = '{' :: s ++ ['}'] ∧ x' = .obj d ∧ PyPairs lib s ms ∧ Merged ms d)) := by
  have num : ∀ {x}, NumText lib s' x → False := by
    intro x h
    obtain ⟨d, r', rfl, hd⟩ := num_head h
    simp only [List.cons_append, List.cons.injEq] at e
    rw [← e.1] at hd
    rcases hd with hd | ⟨hd, _⟩
    · rcases hc with rfl | rfl | rfl | rfl | rfl <;> exact absurd hd (by decide)
    · rcases hc with rfl | rfl | rfl | rfl | rfl <;> exact absurd hd (by decide)
  cases h with
  | int h => exact (num (.int h)).elim
  | flt h hq => exact (num (.dec h)).elim
  | str h =>
    obtain ⟨d, r', rfl, hd⟩ := pyString_head h
    simp only [List.cons_append, List.cons.injEq] at e
    rw [← e.1] at hd
    rcases hc with rfl | rfl | rfl | rfl | rfl <;> exact absurd hd (by decide)
  | none => simp at e; simp [e.1]
  | true => simp at e; simp [e.1]
  | false => simp at e; simp [e.1]
  | list0 => simp at e; simp [e.1]
  | dict0 => simp at e; simp [e.1]
  | list h => simp at e; simp [e.1]; exact .inr h
  | dict h hm => simp at e; simp [e.1]; exact .inr ⟨_, h, hm⟩

theorem lit_noBlank {s : List Char} {x : Loaded} (h : PyLit lib s x) (t : List Char) : ∀ r, s ++ t ≠ ' ' :: r := by
  intro r he
  obtain ⟨c, r', rfl, hc, _⟩ := pyLit_head h
  cases he; exact hc rfl

mutual
theorem pyLit_one : ∀ {s : List Char} {x : Loaded}, PyLit lib s x → OneLit lib s x
  | _, _, .none => by
    intro s' t t' x' h' he _ _
    rcases pyLit_word h' (c := 'N') he (by decide) with h | h | h | h | h <;> try (exact absurd h.1 (by decide))
    obtain ⟨_, rfl, rfl⟩ := h
    exact ⟨rfl, rfl, List.append_cancel_left he⟩
  | _, _, .true => by
    intro s' t t' x' h' he _ _
    rcases pyLit_word h' (c := 'T') he (by decide) with h | h | h | h | h <;> try (exact absurd h.1 (by decide))
    obtain ⟨_, rfl, rfl⟩ := h
    exact ⟨rfl, rfl, List.append_cancel_left he⟩
  | _, _, .false => by
    intro s' t t' x' h' he _ _
    rcases pyLit_word h' (c := 'F') he (by decide) with h | h | h | h | h <;> try (exact absurd h.1 (by decide))
    obtain ⟨_, rfl, rfl⟩ := h
    exact ⟨rfl, rfl, List.append_cancel_left he⟩
  | _, _, .int h => by
    intro s' t t' x' h' he ht ht'
    obtain ⟨c, r, rfl, hc⟩ := num_head (NumText.int (lib := lib) h)
    have := pyLit_num h' (t := t') (c := c) (r := r ++ t) (by rw [← he]; rfl)
      (by rcases hc with hc | ⟨hc, _⟩ <;> simp [hc])
    exact numText_unique (.int h) this ht ht' he
  | _, _, .flt h hq => by
    intro s' t t' x' h' he ht ht'
    obtain ⟨c, r, rfl, hc⟩ := num_head (NumText.dec (lib := lib) h)
    have := pyLit_num h' (t := t') (c := c) (r := r ++ t) (by rw [← he]; rfl)
      (by rcases hc with hc | ⟨hc, _⟩ <;> simp [hc])
    exact numText_unique (numText_flt h hq) this ht ht' he
  | _, _, .str h => by
    intro s' t t' x' h' he ht ht'
    obtain ⟨c, r, rfl, hc⟩ := pyString_head h
    obtain ⟨ns, rfl, hn⟩ := pyLit_str h' (t := t') (c := c) (r := r ++ t) (by rw [← he]; rfl) hc
    obtain ⟨e, rfl, rfl⟩ := pyString_unique h hn he
    exact ⟨e, rfl, rfl⟩
  | _, _, .list0 => by
    intro s' t t' x' h' he _ _
    rcases pyLit_word h' he (by simp) with h | h | h | h | h <;> try (exact absurd h.1 (by decide))
    obtain ⟨_, ⟨rfl, rfl⟩ | ⟨s, xs, rfl, rfl, h⟩⟩ := h
    · exact ⟨rfl, rfl, List.append_cancel_left he⟩
    · have : ∃ c r, s = c :: r ∧ c ≠ ']' := by
        cases h with
        | one h => obtain ⟨c, r, rfl, _, h⟩ := pyLit_head h; exact ⟨c, _, rfl, h⟩
        | more h _ _ => obtain ⟨c, r, rfl, _, h⟩ := pyLit_head h; exact ⟨c, _, rfl, h⟩
      obtain ⟨c, r, rfl, hc⟩ := this
      simp only [List.cons_append, List.cons.injEq, true_and] at he
      exact absurd he.1.symm hc
  | _, _, .list h => by
    intro s' t t' x' h' he ht ht'
    rcases pyLit_word h' he (by simp) with h1 | h1 | h1 | h1 | h1 <;> try (exact absurd h1.1 (by decide))
    obtain ⟨_, ⟨rfl, rfl⟩ | ⟨s, xs, rfl, rfl, h1⟩⟩ := h1
    · have : ∀ {s xs}, PyItems lib s xs → ∃ c r, s = c :: r ∧ c ≠ ']' := by
        intro s xs h
        cases h with
        | one h => obtain ⟨c, r, rfl, _, h⟩ := pyLit_head h; exact ⟨c, _, rfl, h⟩
        | more h _ _ => obtain ⟨c, r, rfl, _, h⟩ := pyLit_head h; exact ⟨c, _, rfl, h⟩
      obtain ⟨c, r, rfl, hc⟩ := this h
      simp only [List.cons_append, List.cons.injEq, true_and] at he
      exact absurd he.1 hc
    · simp only [List.cons_append, List.cons.injEq, true_and, List.append_assoc, List.nil_append] at he
      obtain ⟨rfl, rfl, e⟩ := pyItems_one h _ _ _ _ h1 he
      cases e
      exact ⟨rfl, rfl, rfl⟩
  | _, _, .dict0 => by
    intro s' t t' x' h' he _ _
    rcases pyLit_word h' he (by simp) with h | h | h | h | h <;> try (exact absurd h.1 (by decide))
    obtain ⟨_, ⟨rfl, rfl⟩ | ⟨s, ms, d, rfl, rfl, h, _⟩⟩ := h
    · exact ⟨rfl, rfl, List.append_cancel_left he⟩
    · have : ∃ c r, s = c :: r ∧ c ≠ '}' := by
        cases h with
        | one h _ _ =>
          obtain ⟨c, r, rfl, hc⟩ := pyString_head h
          exact ⟨c, _, rfl, by rcases hc with rfl | rfl <;> decide⟩
        | more h _ _ _ _ =>
          obtain ⟨c, r, rfl, hc⟩ := pyString_head h
          exact ⟨c, _, rfl, by rcases hc with rfl | rfl <;> decide⟩
      obtain ⟨c, r, rfl, hc⟩ := this
      simp only [List.cons_append, List.cons.injEq, true_and] at he
      exact absurd he.1.symm hc
  | _, _, .dict h hm => by
    intro s' t t' x' h' he ht ht'
    rcases pyLit_word h' he (by simp) with h1 | h1 | h1 | h1 | h1 <;> try (exact absurd h1.1 (by decide))
    obtain ⟨_, ⟨rfl, rfl⟩ | ⟨s, ms, d, rfl, rfl, h1, hm1⟩⟩ := h1
    · have : ∀ {s xs}, PyPairs lib s xs → ∃ c r, s = c :: r ∧ c ≠ '}' := by
        intro s xs h
        cases h with
        | one h _ _ =>
          obtain ⟨c, r, rfl, hc⟩ := pyString_head h
          exact ⟨c, _, rfl, by rcases hc with rfl | rfl <;> decide⟩
        | more h _ _ _ _ =>
          obtain ⟨c, r, rfl, hc⟩ := pyString_head h
          exact ⟨c, _, rfl, by rcases hc with rfl | rfl <;> decide⟩
      obtain ⟨c, r, rfl, hc⟩ := this h
      simp only [List.cons_append, List.cons.injEq, true_and] at he
      exact absurd he.1 hc
    · simp only [List.cons_append, List.cons.injEq, true_and, List.append_assoc, List.nil_append] at he
      obtain ⟨rfl, rfl, e⟩ := pyPairs_one h _ _ _ _ h1 he
      cases e
      cases merged_unique hm hm1
      exact ⟨rfl, rfl, rfl⟩
theorem pyItems_one : ∀ {s : List Char} {xs : List Loaded}, PyItems lib s xs →
    ∀ (s' t t' : List Char) (xs' : List Loaded), PyItems lib s' xs' → s ++ ']' :: t = s' ++ ']' :: t' →
      s = s' ∧ xs = xs' ∧ t = t'
  | _, _, .one h => by
    intro s' t t' xs' h' he
    cases h' with
    | one h' =>
      obtain ⟨rfl, rfl, e⟩ := pyLit_one h _ _ _ _ h' he (numStop_cons (by decide)) (numStop_cons (by decide))
      cases e; exact ⟨rfl, rfl, rfl⟩
    | more h' hw hs' =>
      simp only [List.cons_append, List.append_assoc] at he
      obtain ⟨_, _, e⟩ := pyLit_one h _ _ _ _ h' he (numStop_cons (by decide)) (numStop_cons (by decide))
      cases e
  | _, _, .more h hw hs => by
    intro s' t t' xs' h' he
    cases h' with
    | one h' =>
      simp only [List.cons_append, List.append_assoc] at he
      obtain ⟨_, _, e⟩ := pyLit_one h _ _ _ _ h' he (numStop_cons (by decide)) (numStop_cons (by decide))
      cases e
    | more h' hw' hs' =>
      simp only [List.cons_append, List.append_assoc] at he
      obtain ⟨rfl, rfl, e⟩ := pyLit_one h _ _ _ _ h' he (numStop_cons (by decide)) (numStop_cons (by decide))
      simp only [List.cons.injEq, true_and] at e
      have hd : ∀ {s xs}, PyItems lib s xs → ∀ t r, s ++ t ≠ ' ' :: r := by
        intro s xs h t r he
        cases h with
        | one h => obtain ⟨c, r, rfl, hc, _⟩ := pyLit_head h; cases he; exact hc rfl
        | more h _ _ => obtain ⟨c, r, rfl, hc, _⟩ := pyLit_head h; cases he; exact hc rfl
      obtain ⟨rfl, e2⟩ := blanks_split hw hw' (hd hs _) (hd hs' _) e
      obtain ⟨rfl, rfl, rfl⟩ := pyItems_one hs _ _ _ _ hs' e2
      exact ⟨rfl, rfl, rfl⟩
theorem pyPairs_one : ∀ {s : List Char} {xs : List (List Nat × Loaded)}, PyPairs lib s xs →
    ∀ (s' t t' : List Char) (xs' : List (List Nat × Loaded)), PyPairs lib s' xs' → s ++ '}' :: t = s' ++ '}' :: t' →
      s = s' ∧ xs = xs' ∧ t = t'
  | _, _, .one hn hw h => by
    intro s' t t' xs' h' he
    cases h' with
    | one hn' hw' h' =>
      simp only [List.cons_append, List.append_assoc] at he
      obtain ⟨rfl, rfl, e⟩ := pyString_unique hn hn' he
      simp only [List.cons.injEq, true_and] at e
      obtain ⟨rfl, e2⟩ := blanks_split hw hw' (lit_noBlank h _) (lit_noBlank h' _) e
      obtain ⟨rfl, rfl, e3⟩ := pyLit_one h _ _ _ _ h' e2 (numStop_cons (by decide)) (numStop_cons (by decide))
      cases e3; exact ⟨rfl, rfl, rfl⟩
    | more hn' hw' h' _ _ =>
      simp only [List.cons_append, List.append_assoc] at he
      obtain ⟨rfl, rfl, e⟩ := pyString_unique hn hn' he
      simp only [List.cons.injEq, true_and] at e
      obtain ⟨rfl, e2⟩ := blanks_split hw hw' (lit_noBlank h _) (lit_noBlank h' _) e
      obtain ⟨_, _, e3⟩ := pyLit_one h _ _ _ _ h' e2 (numStop_cons (by decide)) (numStop_cons (by decide))
      cases e3
  | _, _, .more hn hw h hv hs => by
    intro s' t t' xs' h' he
    cases h' with
    | one hn' hw' h' =>
      simp only [List.cons_append, List.append_assoc] at he
      obtain ⟨rfl, rfl, e⟩ := pyString_unique hn hn' he
      simp only [List.cons.injEq, true_and] at e
      obtain ⟨rfl, e2⟩ := blanks_split hw hw' (lit_noBlank h _) (lit_noBlank h' _) e
      obtain ⟨_, _, e3⟩ := pyLit_one h _ _ _ _ h' e2 (numStop_cons (by decide)) (numStop_cons (by decide))
      cases e3
    | more hn' hw' h' hv' hs' =>
      simp only [List.cons_append, List.append_assoc] at he
      obtain ⟨rfl, rfl, e⟩ := pyString_unique hn hn' he
      simp only [List.cons.injEq, true_and] at e
      obtain ⟨rfl, e2⟩ := blanks_split hw hw' (lit_noBlank h _) (lit_noBlank h' _) e
      obtain ⟨rfl, rfl, e3⟩ := pyLit_one h _ _ _ _ h' e2 (numStop_cons (by decide)) (numStop_cons (by decide))
      simp only [List.cons.injEq, true_and] at e3
      have hd : ∀ {s xs}, PyPairs lib s xs → ∀ t r, s ++ t ≠ ' ' :: r := by
        intro s xs h t r he
        cases h with
        | one h _ _ =>
          obtain ⟨c, r, rfl, hc⟩ := pyString_head h
          cases he; simp at hc
        | more h _ _ _ _ =>
          obtain ⟨c, r, rfl, hc⟩ := pyString_head h
          cases he; simp at hc
      obtain ⟨rfl, e4⟩ := blanks_split hv hv' (hd hs _) (hd hs' _) e3
      obtain ⟨rfl, rfl, rfl⟩ := pyPairs_one hs _ _ _ _ hs' e4
      exact ⟨rfl, rfl, rfl⟩
end

theorem callOn_unique {name t t' : String} {s s' r r' : List Char} (h : CallOn name t s) (h' : CallOn name t' s')
    (he : s ++ r = s' ++ r') : t = t' ∧ r = r' := by
  obtain ⟨h⟩ := h
  obtain ⟨h'⟩ := h'
  simp only [List.append_assoc, List.append_cancel_left_eq, List.cons_append, List.cons.injEq, true_and] at he
  obtain ⟨_, e, e'⟩ := pyString_unique h h' he
  cases e'
  exact ⟨points_inj e, rfl⟩

theorem opConst_unique {o o' : OpName} {s s' r r' : List Char} (h : OpConst o s) (h' : OpConst o' s')
    (he : s ++ ',' :: r = s' ++ ',' :: r') : o = o' ∧ r = r' := by
  cases h <;> cases h' <;> first
    | exact ⟨rfl, by simpa using he⟩
    | (exfalso; simp at he)

theorem fromArg_unique {t t' : Option String} {s s' r r' : List Char} (h : FromArg t s) (h' : FromArg t' s')
    (he : s ++ r = s' ++ r') : t = t' ∧ r = r' := by
  cases h with
  | none =>
    cases h' with
    | none => exact ⟨rfl, List.append_cancel_left he⟩
    | some h' => obtain ⟨_⟩ := h'; simp at he
  | some h =>
    cases h' with
    | none => obtain ⟨_⟩ := h; simp at he
    | some h' =>
      obtain ⟨rfl, rfl⟩ := callOn_unique h h' he
      exact ⟨rfl, rfl⟩

theorem opCall_unique {a a' : OpArgs} {s s' r r' : List Char} (h : OpCall lib a s) (h' : OpCall lib a' s')
    (he : s ++ r = s' ++ r') : a = a' ∧ r = r' := by
  obtain ⟨ho, hp, hf, hv⟩ := h
  obtain ⟨ho', hp', hf', hv'⟩ := h'
  simp only [List.append_assoc, List.append_cancel_left_eq] at he
  obtain ⟨rfl, he⟩ := opConst_unique ho ho' he
  replace he := List.append_cancel_left (as := " path=".toList) he
  obtain ⟨rfl, he⟩ := callOn_unique hp hp' he
  replace he := List.append_cancel_left (as := ", from_=".toList) he
  obtain ⟨rfl, he⟩ := fromArg_unique hf hf' he
  replace he := List.append_cancel_left (as := ", value=".toList) he
  obtain ⟨_, rfl, he⟩ := pyLit_one hv _ _ _ _ hv' he (numStop_cons (by decide)) (numStop_cons (by decide))
  cases he
  exact ⟨rfl, rfl⟩

theorem opCall_head {a : OpArgs} {s : List Char} (h : OpCall lib a s) : ∃ r, s = 'J' :: r := by
  obtain ⟨ho, hp, hf, hv⟩ := h
  exact ⟨_, rfl⟩

theorem opCalls_unique {as : List OpArgs} {s : List Char} (h : OpCalls lib as s) :
    ∀ {as' s'}, OpCalls lib as' s' → ∀ {r r'}, s ++ ']' :: r = s' ++ ']' :: r' → as = as' ∧ r = r' := by
  induction h with
  | nil =>
    intro as' s' h' r r' he
    cases h' with
    | nil => simpa using he
    | one h => obtain ⟨x, rfl⟩ := opCall_head h; simp at he
    | more h _ => obtain ⟨x, rfl⟩ := opCall_head h; simp at he
  | one h =>
    intro as' s' h' r r' he
    cases h' with
    | nil => obtain ⟨x, rfl⟩ := opCall_head h; simp at he
    | one h' =>
      obtain ⟨rfl, e⟩ := opCall_unique h h' he
      cases e; exact ⟨rfl, rfl⟩
    | more h' _ =>
      simp only [List.append_assoc] at he
      obtain ⟨_, e⟩ := opCall_unique h h' he
      cases e
  | more h _ ih =>
    intro as' s' h' r r' he
    cases h' with
    | nil => obtain ⟨x, rfl⟩ := opCall_head h; simp at he
    | one h' =>
      simp only [List.append_assoc] at he
      obtain ⟨_, e⟩ := opCall_unique h h' he
      cases e
    | more h' h2 =>
      simp only [List.append_assoc] at he
      obtain ⟨rfl, e⟩ := opCall_unique h h' he
      obtain ⟨e1, rfl⟩ := ih h2 (List.append_cancel_left e)
      exact ⟨by rw [e1], rfl⟩

/-! ## What `repr` writes -/

theorem lowHexN_digits (k n : Nat) : HexDigits (lowHexN k n) (n % 16 ^ k) ∧ (lowHexN k n).length = k := by
  induction k generalizing n with
  | zero => simp [lowHexN, Nat.mod_one]; exact .nil
  | succ k ih =>
    obtain ⟨h, hl⟩ := ih (n / 16)
    have hd := hex_of (lowHex_hex ⟨n % 16, Nat.mod_lt _ (by decide)⟩)
    have := HexDigits.snoc h hd
    have e : 16 * (n / 16 % 16 ^ k) + n % 16 = n % 16 ^ (k + 1) := by
      rw [Nat.pow_succ, Nat.mul_comm (16 ^ k) 16, Nat.mod_mul]; omega
    simp only at this
    rw [e] at this
    exact ⟨this, by simp [lowHexN, hl]⟩

theorem lowHexN_exact {k n : Nat} (h : n < 16 ^ k) : HexDigits (lowHexN k n) n := by
  have := (lowHexN_digits k n).1
  rwa [Nat.mod_eq_of_lt h] at this

theorem ofNat_toNat {n : Nat} (h : n < 0x7f) : (Char.ofNat n).toNat = n := by
  have : n.isValidChar := by left; omega
  simp [Char.ofNat, this, Char.toNat, Char.ofNatAux]

theorem reprPoint_chars {q : Char} (hq : q = '\'' ∨ q = '"') {n : Nat} (hn : n < 0x110000) {s : List Char}
    {ns : List Nat} (h : PyChars q s ns) : PyChars q (reprPoint printable q n ++ s) (n :: ns) := by
  have hqn : q.toNat = 0x27 ∨ q.toNat = 0x22 := by rcases hq with rfl | rfl <;> simp
  have ne : ∀ (c d : Char), c.toNat ≠ d.toNat → c ≠ d := fun c d h e => h (by rw [e])
  unfold reprPoint
  split
  · rename_i e
    subst e
    rcases hq with rfl | rfl
    · exact .escape .quote h
    · exact .escape .dquote h
  · rename_i h0
    split
    · rename_i e; subst e; exact .escape .backslash h
    · rename_i h1
      split
      · rename_i e; subst e; exact .escape .t h
      · split
        · rename_i e; subst e; exact .escape .n h
        · split
          · rename_i e; subst e; exact .escape .r h
          · rename_i h2 h3 h4
            split
            · rename_i h5
              have h5 : n < 0x20 ∨ n = 0x7f := by simpa using h5
              exact .escape (.hex (lowHexN_exact (k := 2) (by omega)) (lowHexN_digits 2 n).2) h
            · rename_i h5
              have h5 : ¬ (n < 0x20 ∨ n = 0x7f) := by simpa using h5
              split
              · rename_i h6
                have e := ofNat_toNat h6
                have := PyChars.char (q := q) (c := Char.ofNat n) (ne _ _ (by rw [e]; exact h0))
                  (ne _ _ (by rw [e]; exact h1)) (ne _ _ (by rw [e]; exact h3)) (ne _ _ (by rw [e]; exact h4))
                  (by rw [e]; omega) h
                rwa [e] at this
              · rename_i h6
                split
                · rename_i c hc
                  have hc : pointChar n = some c := by
                    split at hc
                    · exact hc
                    · cases hc
                  have e := pointChar_inv hc
                  have := PyChars.char (q := q) (c := c) (ne _ _ (by rw [← e]; exact h0))
                    (ne _ _ (by rw [← e]; exact h1)) (ne _ _ (by rw [← e]; exact h3)) (ne _ _ (by rw [← e]; exact h4))
                    (by rw [← e]; omega) h
                  rwa [← e] at this
                · split
                  · exact .escape (.hex (lowHexN_exact (k := 2) (by omega)) (lowHexN_digits 2 n).2) h
                  · split
                    · exact .escape (.short (lowHexN_exact (k := 4) (by omega)) (lowHexN_digits 4 n).2) h
                    · exact .escape (.long (lowHexN_exact (k := 8) (by omega)) (lowHexN_digits 8 n).2 hn) h

theorem reprStr_string {ns : List Nat} (hn : ∀ n ∈ ns, n < 0x110000) : PyString (reprStr printable ns) ns := by
  have hq : reprQuote ns = '\'' ∨ reprQuote ns = '"' := by unfold reprQuote; split <;> simp
  unfold reprStr
  refine .mk hq ?_
  generalize reprQuote ns = q at hq
  induction ns with
  | nil => exact .nil
  | cons n ns ih =>
    exact reprPoint_chars hq (hn n (by simp)) (ih (fun m hm => hn m (by simp [hm])))

theorem points_lt (s : String) : ∀ n ∈ points s, n < 0x110000 := by
  intro n hn
  obtain ⟨c, _, rfl⟩ := List.mem_map.1 hn
  have := c.valid
  have h2 : c.toNat.isValidChar := this
  rcases h2 with h | h <;> omega

theorem reprText_string (s : String) : PyString (reprText printable s) (points s) := reprStr_string (points_lt s)

mutual
theorem toLoaded_eq : ∀ v : Value, v.toLoaded = ofValue v
  | .null => rfl
  | .bool _ => rfl
  | .num (.int _) => rfl
  | .num (.flt _) => rfl
  | .str _ => rfl
  | .arr xs => by rw [Value.toLoaded, ofValue, toLoadeds_eq xs]
  | .obj kvs => by rw [Value.toLoaded, ofValue, toLoadedMems_eq kvs]
theorem toLoadeds_eq : ∀ xs : List Value, Value.toLoadeds xs = ofValues xs
  | [] => rfl
  | x :: xs => by rw [Value.toLoadeds, ofValues, toLoaded_eq x, toLoadeds_eq xs]
theorem toLoadedMems_eq : ∀ kvs : List (String × Value), Value.toLoadedMems kvs = ofMembers kvs
  | [] => rfl
  | (k, x) :: kvs => by rw [Value.toLoadedMems, ofMembers, toLoaded_eq x, toLoadedMems_eq kvs]; rfl
end

theorem reprItems_map (xs : List Loaded) : reprItems lib printable xs = xs.map (reprLoaded lib printable) := by
  induction xs with
  | nil => rfl
  | cons x xs ih => simp [reprItems, ih]

theorem pyItems_join : ∀ (xs : List Value), xs ≠ [] →
    (∀ x ∈ xs, PyLit lib (reprLoaded lib printable (ofValue x)) (ofValue x)) →
    PyItems lib (joinComma (reprItems lib printable (ofValues xs))) (ofValues xs)
  | [], h, _ => absurd rfl h
  | [x], _, h => .one (h x (by simp))
  | x :: y :: xs, _, h => by
    have := PyItems.more (w := [' ']) (h x (by simp)) (by simp)
      (pyItems_join (y :: xs) (by simp) (fun z hz => h z (List.mem_cons_of_mem _ hz)))
    simpa [reprItems, ofValues, joinComma] using this

theorem pyPairs_join : ∀ (kvs : List (String × Value)), kvs ≠ [] →
    (∀ kv ∈ kvs, PyLit lib (reprLoaded lib printable (ofValue kv.2)) (ofValue kv.2)) →
    PyPairs lib (joinComma (reprMembers lib printable (ofMembers kvs))) (ofMembers kvs)
  | [], h, _ => absurd rfl h
  | [(k, x)], _, h => by
    have := PyPairs.one (w := [' ']) (reprText_string (printable := printable) k) (by simp) (h (k, x) (by simp))
    simpa [reprMembers, ofMembers, joinComma, reprText, points] using this
  | (k, x) :: y :: kvs, _, h => by
    have := PyPairs.more (w := [' ']) (w' := [' ']) (reprText_string (printable := printable) k) (by simp)
      (h (k, x) (by simp)) (by simp)
      (pyPairs_join (y :: kvs) (by simp) (fun z hz => h z (List.mem_cons_of_mem _ hz)))
    simpa [reprMembers, ofMembers, joinComma, reprText, points] using this

theorem reprLoaded_lit (hl : FloatOk lib) {v : Value} (hv : v.WF) (hf : Floats lib v) :
    PyLit lib (reprLoaded lib printable (ofValue v)) (ofValue v) := by
  induction hv with
  | null => exact .none
  | @bool b => cases b <;> simp only [reprLoaded, ofValue] <;> first | exact .true | exact .false
  | @num n =>
    have := dumpNum_denoted hl hf
    cases n with
    | int z =>
      simp only [dumpNum, ofValue] at this
      simp only [ofValue, reprLoaded, reprInt]
      generalize (if z < 0 then '-' :: (natStr z.natAbs).toList else (natStr z.natAbs).toList) = s at *
      generalize hx : Loaded.int z = x at *
      cases this <;> cases hx
      exact .int (by assumption)
    | flt q =>
      simp only [dumpNum, ofValue] at this
      simp only [ofValue, reprLoaded]
      generalize lib.repr q = s at *
      generalize hx : Loaded.flt q = x at *
      cases this <;> cases hx
      exact .flt (by assumption) (by assumption)
  | @str s => exact .str (reprText_string s)
  | @arr xs _ ih =>
    cases hf with
    | arr hf =>
      rw [ofValue, reprLoaded]
      by_cases hx : xs = []
      · subst hx; exact .list0
      · exact .list (pyItems_join xs hx (fun x h => ih x h (hf x h)))
  | @obj kvs hn _ ih =>
    cases hf with
    | obj hf =>
      rw [ofValue, reprLoaded]
      by_cases hx : kvs = []
      · subst hx; exact .dict0
      · refine .dict (pyPairs_join kvs hx (fun kv h => ih kv h (hf kv h))) (merged_nodup ?_)
        rw [ofMembers_map, List.map_map]
        have : (Prod.fst ∘ fun kv : String × Value => (points kv.1, ofValue kv.2)) = points ∘ Prod.fst := rfl
        rw [this, ← List.map_map]
        exact nodup_map_inj (fun _ _ h => points_inj h) hn

end Jschon
