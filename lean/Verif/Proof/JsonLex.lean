import Verif.Spec.JsonText

/-!
# White space, numbers and string literals: the scanner and the grammar
-/

namespace Jschon
open Spec

/-! ## White space -/

theorem ws_iff {s : List Char} : Ws s ↔ ∀ c ∈ s, isJsonSpace c = true := by
  constructor
  · intro h; induction h <;> simp_all [isJsonSpace]
  · intro h
    induction s with
    | nil => exact .nil
    | cons c s ih =>
      have hs := ih (fun d hd => h d (by simp [hd]))
      have hc := h c (by simp)
      simp only [isJsonSpace, Bool.or_eq_true, decide_eq_true_eq] at hc
      rcases hc with ((rfl | rfl) | rfl) | rfl
      · exact .space hs
      · exact .tab hs
      · exact .lf hs
      · exact .cr hs

theorem skip_ws {w : List Char} (h : Ws w) (t : List Char) : skipSpace (w ++ t) = skipSpace t := by
  unfold skipSpace
  induction h with
  | nil => rfl
  | _ _ ih => simpa [List.dropWhile_cons, isJsonSpace] using ih

theorem skip_split (s : List Char) : ∃ w, Ws w ∧ s = w ++ skipSpace s :=
  ⟨s.takeWhile isJsonSpace, ws_iff.2 (fun _ hc => by
    have := List.all_takeWhile (p := isJsonSpace) (l := s)
    exact List.all_eq_true.1 this _ hc), (List.takeWhile_append_dropWhile ..).symm⟩

theorem skip_cons {c : Char} (h : isJsonSpace c = false) (t : List Char) : skipSpace (c :: t) = c :: t := by
  simp [skipSpace, List.dropWhile_cons, h]

theorem skip_all {w : List Char} (h : Ws w) : skipSpace w = [] := by
  have := skip_ws h []
  simpa [skipSpace] using this

theorem skip_nil {s : List Char} (h : skipSpace s = []) : Ws s := by
  obtain ⟨w, hw, e⟩ := skip_split s
  rw [h, List.append_nil] at e
  exact e ▸ hw

/-! ## Digits -/

theorem digit_val {c : Char} {n : Nat} (h : Digit c n) : isDecDigit c = true ∧ c.toNat - 48 = n := by
  cases h <;> decide

theorem char_of_nat {c d : Char} (h : c.toNat = d.toNat) : c = d := Char.toNat_inj.1 h

theorem isDecDigit_iff {c : Char} : isDecDigit c = true ↔ 48 ≤ c.toNat ∧ c.toNat ≤ 57 := by
  simp only [isDecDigit, Bool.and_eq_true, decide_eq_true_eq]
  exact Iff.rfl

theorem digit_of {c : Char} (h : isDecDigit c = true) : Digit c (c.toNat - 48) := by
  obtain ⟨a, b⟩ := isDecDigit_iff.1 h
  have : c.toNat = 48 ∨ c.toNat = 49 ∨ c.toNat = 50 ∨ c.toNat = 51 ∨ c.toNat = 52 ∨ c.toNat = 53 ∨
    c.toNat = 54 ∨ c.toNat = 55 ∨ c.toNat = 56 ∨ c.toNat = 57 := by omega
  rcases this with e | e | e | e | e | e | e | e | e | e
  · cases char_of_nat (d := '0') e; exact .d0
  · cases char_of_nat (d := '1') e; exact .d1
  · cases char_of_nat (d := '2') e; exact .d2
  · cases char_of_nat (d := '3') e; exact .d3
  · cases char_of_nat (d := '4') e; exact .d4
  · cases char_of_nat (d := '5') e; exact .d5
  · cases char_of_nat (d := '6') e; exact .d6
  · cases char_of_nat (d := '7') e; exact .d7
  · cases char_of_nat (d := '8') e; exact .d8
  · cases char_of_nat (d := '9') e; exact .d9

theorem digits_all {s : List Char} {ns : List Nat} (h : Digits s ns) : ∀ c ∈ s, isDecDigit c = true := by
  induction h with
  | nil => simp
  | cons hd _ ih =>
    intro c hc
    rcases List.mem_cons.1 hc with rfl | hc
    · exact (digit_val hd).1
    · exact ih c hc

theorem digits_of {s : List Char} (h : ∀ c ∈ s, isDecDigit c = true) : ∃ ns, Digits s ns := by
  induction s with
  | nil => exact ⟨_, .nil⟩
  | cons c s ih =>
    obtain ⟨ns, hs⟩ := ih (fun d hd => h d (by simp [hd]))
    exact ⟨_, .cons (digit_of (h c (by simp))) hs⟩

theorem digits_len {s : List Char} {ns : List Nat} (h : Digits s ns) : s.length = ns.length := by
  induction h with
  | nil => rfl
  | cons _ _ ih => simp [ih]

theorem digits_append {s t : List Char} {ns ms : List Nat} (h : Digits s ns) (k : Digits t ms) :
    Digits (s ++ t) (ns ++ ms) := by
  induction h with
  | nil => exact k
  | cons hd _ ih => exact .cons hd ih

theorem foldl_whole {s : List Char} {ns : List Nat} (h : Digits s ns) (a : Nat) :
    s.foldl (fun n c => n * 10 + (c.toNat - 48)) a = a * 10 ^ ns.length + whole ns := by
  induction h generalizing a with
  | nil => simp [whole]
  | cons hd _ ih =>
    rw [List.foldl_cons, ih, (digit_val hd).2]
    simp only [whole, List.length_cons, Nat.pow_succ]
    grind

theorem digitsNat_whole {s : List Char} {ns : List Nat} (h : Digits s ns) : digitsNat s = whole ns := by
  unfold digitsNat
  rw [foldl_whole h]
  simp

theorem whole_append (ns ms : List Nat) : whole (ns ++ ms) = whole ns * 10 ^ ms.length + whole ms := by
  induction ns with
  | nil => simp [whole]
  | cons n ns ih =>
    simp only [List.cons_append, whole, ih, List.length_append, Nat.pow_add]
    grind

theorem ten_ne (n : Nat) : (10 : Rat) ^ n ≠ 0 := Rat.ne_of_gt (Rat.pow_pos (by decide))

theorem fraction_whole (ns : List Nat) : fraction ns * 10 ^ ns.length = (whole ns : Nat) := by
  induction ns with
  | nil => simp [fraction, whole]
  | cons n ns ih =>
    simp only [fraction, whole, List.length_cons, Rat.pow_succ, Rat.natCast_add, Rat.natCast_mul,
      Rat.natCast_pow, Rat.natCast_ofNat]
    have := ten_ne ns.length
    grind

theorem ten_scale (A : Rat) (L : Nat) (E : Int) :
    (if 0 ≤ E - L then A * 10 ^ L * 10 ^ ((E - L).toNat) else A * 10 ^ L / 10 ^ ((-(E - L)).toNat)) =
    A * (if 0 ≤ E then (10 : Rat) ^ E.toNat else 1 / 10 ^ (-E).toNat) := by
  by_cases h : 0 ≤ E - L
  · have h2 : 0 ≤ E := by omega
    rw [if_pos h, if_pos h2, Rat.mul_assoc, ← Lean.Grind.Semiring.pow_add]
    congr 2; omega
  · rw [if_neg h]
    have := ten_ne ((-(E - L)).toNat)
    by_cases h2 : 0 ≤ E
    · rw [if_pos h2]
      have e : (10 : Rat) ^ L = 10 ^ E.toNat * 10 ^ ((-(E - L)).toNat) := by
        rw [← Lean.Grind.Semiring.pow_add]; congr 1; omega
      rw [e]; grind
    · rw [if_neg h2]
      have e : (10 : Rat) ^ ((-(E - L)).toNat) = 10 ^ L * 10 ^ ((-E).toNat) := by
        rw [← Lean.Grind.Semiring.pow_add]; congr 1; omega
      have := ten_ne L; have := ten_ne ((-E).toNat)
      rw [e]; grind

/-- The power of ten of an exponent. -/
def tenPow (E : Int) : Rat := if 0 ≤ E then (10 : Rat) ^ E.toNat else 1 / 10 ^ (-E).toNat

theorem decimalOf_eq {s f : List Char} {ns fs : List Nat} (hs : Digits s ns) (hf : Digits f fs)
    (neg : Bool) (E : Int) :
    decimalOf neg s f E = ((if neg then -1 else 1 : Int) : Rat) * (((whole ns : Nat) + fraction fs) * tenPow E) := by
  have hm : ((digitsNat (s ++ f) : Nat) : Rat) = ((whole ns : Nat) + fraction fs) * 10 ^ f.length := by
    rw [digitsNat_whole (digits_append hs hf), whole_append, digits_len hf, Rat.natCast_add, Rat.natCast_mul,
      Rat.natCast_pow, ← fraction_whole fs]
    grind
  have := ten_scale ((whole ns : Nat) + fraction fs) f.length E
  unfold decimalOf
  simp only [hm]
  rw [this]
  cases neg
  · simp [tenPow, Rat.one_mul]
  · simp [tenPow, Rat.neg_mul]

/-! ## Numbers -/

/-- A text after which a number cannot go on. -/
def NumStop (t : List Char) : Prop :=
  ∀ c r, t = c :: r → isDecDigit c = false ∧ c ≠ '.' ∧ c ≠ 'e' ∧ c ≠ 'E'

theorem take_digits {s : List Char} {ns : List Nat} (h : Digits s ns) {t : List Char}
    (ht : ∀ c r, t = c :: r → isDecDigit c = false) :
    (s ++ t).takeWhile isDecDigit = s ∧ (s ++ t).dropWhile isDecDigit = t := by
  have e : t.takeWhile isDecDigit = [] ∧ t.dropWhile isDecDigit = t := by
    cases t with
    | nil => simp
    | cons c r => simp [List.takeWhile_cons, List.dropWhile_cons, ht c r rfl]
  induction h with
  | nil => exact e
  | cons hd _ ih =>
    simp only [List.cons_append, List.takeWhile_cons, List.dropWhile_cons, (digit_val hd).1]
    exact ⟨by simp [ih.1], by simp [ih.2]⟩

theorem split_digits (s : List Char) : ∃ ns, Digits (s.takeWhile isDecDigit) ns ∧
    s = s.takeWhile isDecDigit ++ s.dropWhile isDecDigit := by
  obtain ⟨ns, h⟩ := digits_of (s := s.takeWhile isDecDigit) (fun c hc => by
    have := List.all_takeWhile (p := isDecDigit) (l := s)
    exact List.all_eq_true.1 this _ hc)
  exact ⟨ns, h, (List.takeWhile_append_dropWhile ..).symm⟩

/-- The digits after the point, if there is one. -/
theorem scanFrac_of {f : List Char} {fs : List Nat} (h : FracPart f fs) {t : List Char}
    (ht : ∀ c r, t = c :: r → isDecDigit c = false ∧ (f = [] → c ≠ '.')) :
    ∃ o, scanFrac (f ++ t) = (o, t) ∧ Digits (o.getD []) fs ∧ (o = none ↔ f = []) := by
  cases h with
  | none =>
    refine ⟨none, ?_, .nil, by simp⟩
    cases t with
    | nil => rfl
    | cons c r =>
      have := (ht c r rfl).2 rfl
      rw [List.nil_append]
      unfold scanFrac
      split
      · rename_i e; cases e; exact absurd rfl this
      · rfl
  | @some s ns hd hne =>
    cases hd with
    | nil => exact absurd rfl hne
    | @cons c n s ns hc hs =>
      have := take_digits hs (t := t) (fun c r e => (ht c r e).1)
      refine ⟨some (c :: s), ?_, .cons hc hs, by simp⟩
      simp [scanFrac, (digit_val hc).1, this.1, this.2]

theorem scanFrac_sound (s : List Char) : ∃ f fs, FracPart f fs ∧ s = f ++ (scanFrac s).2 ∧
    Digits ((scanFrac s).1.getD []) fs ∧ ((scanFrac s).1 = none ↔ f = []) := by
  unfold scanFrac
  split
  · rename_i d r
    split
    · rename_i hd
      obtain ⟨ns, hn, e⟩ := split_digits r
      refine ⟨'.' :: d :: r.takeWhile isDecDigit, _, .some (.cons (digit_of hd) hn) (by simp), ?_, .cons (digit_of hd) hn,
        by simp⟩
      simp [List.takeWhile_append_dropWhile]
    · exact ⟨[], [], .none, rfl, .nil, by simp⟩
  · exact ⟨[], [], .none, rfl, .nil, by simp⟩

/-- The exponent, if there is one. -/
theorem scanExp_of {e : List Char} {x : Rat} (h : ExpPart e x) {t : List Char}
    (ht : ∀ c r, t = c :: r → isDecDigit c = false ∧ c ≠ 'e' ∧ c ≠ 'E') :
    ∃ o, scanExp (e ++ t) = (o, t) ∧ x = tenPow (o.getD 0) ∧ (o = none ↔ e = []) := by
  have hnd : ∀ c r, t = c :: r → isDecDigit c = false := fun c r e => (ht c r e).1
  have hsign : ∀ {s ns}, Digits s ns → s ≠ [] → scanSign (s ++ t) = (false, s ++ t) := by
    intro s ns hs hne
    cases hs with
    | nil => exact absurd rfl hne
    | cons hc _ =>
      unfold scanSign
      split
      · rename_i e; cases e; cases hc
      · rename_i e; cases e; cases hc
      · rfl
  cases h with
  | none =>
    refine ⟨none, ?_, by simp [tenPow], by simp⟩
    cases t with
    | nil => rfl
    | cons c r =>
      have := (ht c r rfl).2
      simp [scanExp, this.1, this.2]
  | @plain c s ns hc hs hne =>
    refine ⟨some (whole ns : Nat), ?_, by simp [tenPow], by simp⟩
    simp only [List.cons_append, scanExp, hc, if_true, hsign hs hne, (take_digits hs hnd).1, (take_digits hs hnd).2]
    cases s with
    | nil => exact absurd rfl hne
    | cons d s => simp [digitsNat_whole hs]
  | @plus c s ns hc hs hne =>
    refine ⟨some (whole ns : Nat), ?_, by simp [tenPow], by simp⟩
    simp only [List.cons_append, scanExp, hc, if_true, scanSign, (take_digits hs hnd).1, (take_digits hs hnd).2]
    cases s with
    | nil => exact absurd rfl hne
    | cons d s => simp [digitsNat_whole hs]
  | @minus c s ns hc hs hne =>
    refine ⟨some (-(whole ns : Nat)), ?_, ?_, by simp⟩
    · simp only [List.cons_append, scanExp, hc, if_true, scanSign, (take_digits hs hnd).1, (take_digits hs hnd).2]
      cases s with
      | nil => exact absurd rfl hne
      | cons d s => simp [digitsNat_whole hs]
    · simp only [Option.getD_some, tenPow, Int.neg_neg, Int.toNat_natCast]
      split
      · rename_i h0
        have : whole ns = 0 := by omega
        rw [this]; grind
      · rfl

theorem scanExp_sound (s : List Char) : ∃ e x, ExpPart e x ∧ s = e ++ (scanExp s).2 ∧
    x = tenPow ((scanExp s).1.getD 0) ∧ ((scanExp s).1 = none ↔ e = []) := by
  have hnone : ∃ e x, ExpPart e x ∧ s = e ++ s ∧ x = tenPow ((none : Option Int).getD 0) ∧
      ((none : Option Int) = none ↔ e = []) := ⟨[], 1, .none, rfl, by simp [tenPow], by simp⟩
  cases s with
  | nil => exact hnone
  | cons c r =>
    rw [scanExp]
    split
    · rename_i hc
      dsimp only
      obtain ⟨ns, hn, er⟩ := split_digits (scanSign r).2
      split
      · exact hnone
      · rename_i d ds he
        rw [he] at hn er
        have hw := digitsNat_whole hn
        generalize hr : (scanSign r).2.dropWhile isDecDigit = t at *
        rw [hw]
        simp only [Option.getD_some, reduceCtorEq, false_iff]
        unfold scanSign at er ⊢
        split at er
        · refine ⟨c :: '-' :: d :: ds, _, .minus hc hn (by simp), by simpa using er, ?_, by simp⟩
          simp only [if_true, tenPow, Int.neg_neg, Int.toNat_natCast]
          split
          · rename_i h0
            have : whole ns = 0 := by omega
            rw [this]; grind
          · rfl
        · exact ⟨c :: '+' :: d :: ds, _, .plus hc hn (by simp), by simpa using er, by simp [tenPow], by simp⟩
        · exact ⟨c :: d :: ds, _, .plain hc hn (by simp), by simpa using er, by simp [tenPow], by simp⟩
    · exact hnone

/-- What a number denotes: an `int` without fraction and exponent, otherwise the nearest float. -/
inductive NumText (lib : FloatLib) : List Char → Loaded → Prop
  | int {s z} : IntText s z → NumText lib s (.int z)
  | dec {s d} : DecText s d → NumText lib s (floatOf lib d)

theorem scanTail_of {lib : FloatLib} {neg : Bool} {s f e t : List Char} {ns fs : List Nat} {x : Rat}
    (hs : Digits s ns) (hf : FracPart f fs) (he : ExpPart e x) (ht : NumStop t) :
    scanTail lib neg s (f ++ (e ++ t)) =
      if f = [] ∧ e = [] then (.int (if neg then -(whole ns : Nat) else (whole ns : Nat)), t)
      else (floatOf lib (((if neg then -1 else 1 : Int) : Rat) * (((whole ns : Nat) + fraction fs) * x)), t) := by
  have hstop : ∀ c r, e ++ t = c :: r → isDecDigit c = false ∧ (f = [] → c ≠ '.') := by
    intro c r h
    cases he with
    | none => have := ht c r h; exact ⟨this.1, fun _ => this.2.1⟩
    | plain hc | plus hc | minus hc =>
      simp only [List.cons_append, List.cons.injEq] at h
      rw [← h.1]
      rcases hc with rfl | rfl <;> exact ⟨by decide, fun _ => by decide⟩
  obtain ⟨o, ho, hod, hon⟩ := scanFrac_of hf hstop
  obtain ⟨p, hp, hpx, hpn⟩ := scanExp_of he (t := t) (fun c r h => ⟨(ht c r h).1, (ht c r h).2.2⟩)
  unfold scanTail
  simp only [ho, hp]
  rw [hpx, ← decimalOf_eq hs hod]
  cases o with
  | none =>
    cases p with
    | none => simp [hon.1 rfl, hpn.1 rfl, digitsNat_whole hs]
    | some q =>
      have : e ≠ [] := fun h => by have := hpn.2 h; simp at this
      simp [this]
  | some q =>
    have : f ≠ [] := fun h => by have := hon.2 h; simp at this
    simp [this]

theorem scanTail_sound {lib : FloatLib} {neg : Bool} {s r : List Char} {ns : List Nat} (hs : Digits s ns) :
    ∃ f fs e x, FracPart f fs ∧ ExpPart e x ∧ r = f ++ (e ++ (scanTail lib neg s r).2) ∧
      (scanTail lib neg s r).1 =
        if f = [] ∧ e = [] then .int (if neg then -(whole ns : Nat) else (whole ns : Nat))
        else floatOf lib (((if neg then -1 else 1 : Int) : Rat) * (((whole ns : Nat) + fraction fs) * x)) := by
  obtain ⟨f, fs, hf, er, hfd, hfn⟩ := scanFrac_sound r
  obtain ⟨e, x, he, ee, hx, hen⟩ := scanExp_sound (scanFrac r).2
  refine ⟨f, fs, e, x, hf, he, ?_, ?_⟩
  · have : (scanTail lib neg s r).2 = (scanExp (scanFrac r).2).2 := by
      unfold scanTail; dsimp only; split <;> rfl
    rw [this, ← ee]; exact er
  · unfold scanTail
    dsimp only
    rw [hx, ← decimalOf_eq hs hfd]
    generalize (scanFrac r).1 = o at *
    generalize (scanExp (scanFrac r).2).1 = p at *
    cases o with
    | none =>
      cases p with
      | none => simp [hfn.1 rfl, hen.1 rfl, digitsNat_whole hs]
      | some q =>
        have : e ≠ [] := fun h => by have := hen.2 h; simp at this
        simp [this]
    | some q =>
      have : f ≠ [] := fun h => by have := hfn.2 h; simp at this
      simp [this]

theorem intPart_digits {s : List Char} {ns : List Nat} (h : IntPart s ns) : Digits s ns := by
  cases h with
  | zero => exact .cons .d0 .nil
  | pos hc _ hs => exact .cons hc hs

theorem digit_ne_zero {c : Char} {n : Nat} (h : Digit c n) (hn : n ≠ 0) : c ≠ '0' := by
  cases h <;> first | exact absurd rfl hn | decide

theorem scanUnsigned_of {lib : FloatLib} {neg : Bool} {s f e t : List Char} {ns fs : List Nat} {x : Rat}
    (hs : IntPart s ns) (hf : FracPart f fs) (he : ExpPart e x) (ht : NumStop t) :
    scanUnsigned lib neg (s ++ (f ++ (e ++ t))) = .ok (
      if f = [] ∧ e = [] then (.int (if neg then -(whole ns : Nat) else (whole ns : Nat)), t)
      else (floatOf lib (((if neg then -1 else 1 : Int) : Rat) * (((whole ns : Nat) + fraction fs) * x)), t)) := by
  have hd := intPart_digits hs
  cases hs with
  | zero => simp only [scanUnsigned, List.cons_append, List.nil_append, if_true, scanTail_of hd hf he ht]
  | @pos c n s ns hc hn hs =>
    have hstop : ∀ c r, f ++ (e ++ t) = c :: r → isDecDigit c = false := by
      intro c r h
      cases hf with
      | some => simp only [List.cons_append, List.cons.injEq] at h; rw [← h.1]; decide
      | none =>
        cases he with
        | none => exact (ht c r h).1
        | plain hc | plus hc | minus hc =>
          simp only [List.nil_append, List.cons_append, List.cons.injEq] at h
          rw [← h.1]
          rcases hc with rfl | rfl <;> decide
    simp only [scanUnsigned, List.cons_append, digit_ne_zero hc hn, if_false, (digit_val hc).1, if_true,
      (take_digits hs hstop).1, (take_digits hs hstop).2, scanTail_of hd hf he ht]

theorem scanUnsigned_sound {lib : FloatLib} {neg : Bool} {s t : List Char} {v : Loaded}
    (h : scanUnsigned lib neg s = .ok (v, t)) :
    ∃ i ns f fs e x, IntPart i ns ∧ FracPart f fs ∧ ExpPart e x ∧ s = i ++ (f ++ (e ++ t)) ∧
      v = if f = [] ∧ e = [] then .int (if neg then -(whole ns : Nat) else (whole ns : Nat))
        else floatOf lib (((if neg then -1 else 1 : Int) : Rat) * (((whole ns : Nat) + fraction fs) * x)) := by
  cases s with
  | nil => simp [scanUnsigned] at h
  | cons c r =>
    rw [scanUnsigned] at h
    split at h
    · rename_i hc
      subst hc
      obtain ⟨f, fs, e, x, hf, he, er, ev⟩ := scanTail_sound (lib := lib) (neg := neg) (r := r)
        (intPart_digits .zero)
      simp only [Except.ok.injEq] at h
      rw [h] at er ev
      exact ⟨_, _, f, fs, e, x, .zero, hf, he, by rw [← er]; rfl, ev⟩
    · rename_i hc
      split at h
      · rename_i hd
        obtain ⟨ns, hn, esp⟩ := split_digits r
        have hi : IntPart (c :: r.takeWhile isDecDigit) ((c.toNat - 48) :: ns) := by
          refine .pos (digit_of hd) (fun h0 => hc ?_) hn
          have := isDecDigit_iff.1 hd
          exact char_of_nat (d := '0') (by show c.toNat = 48; omega)
        obtain ⟨f, fs, e, x, hf, he, er, ev⟩ := scanTail_sound (lib := lib) (neg := neg)
          (r := r.dropWhile isDecDigit) (intPart_digits hi)
        simp only [Except.ok.injEq] at h
        rw [h] at er ev
        refine ⟨_, _, f, fs, e, x, hi, hf, he, ?_, ev⟩
        rw [← er, List.cons_append, List.takeWhile_append_dropWhile]
      · simp at h

/-- The scanner reads a number that is followed by something else. -/
theorem scanNumber_of {lib : FloatLib} {s t : List Char} {v : Loaded} (h : NumText lib s v) (ht : NumStop t) :
    scanNumber lib (s ++ t) = .ok (v, t) := by
  have key : ∀ {m : List Char} {σ : Int} {s f e : List Char} {ns fs : List Nat} {x : Rat},
      Minus m σ → IntPart s ns → FracPart f fs → ExpPart e x →
      scanNumber lib (m ++ s ++ f ++ e ++ t) = .ok (
        if f = [] ∧ e = [] then (.int (σ * (whole ns : Nat)), t)
        else (floatOf lib ((σ : Rat) * (((whole ns : Nat) + fraction fs) * x)), t)) := by
    intro m σ s f e ns fs x hm hs hf he
    cases hm with
    | some =>
      have := scanUnsigned_of (lib := lib) (neg := true) hs hf he ht
      simp only [List.cons_append, List.nil_append, List.append_assoc, scanNumber, this, if_true]
      have e1 : (-1 : Int) * (whole ns : Nat) = -(whole ns : Nat) := by omega
      rw [e1]
    | none =>
      have := scanUnsigned_of (lib := lib) (neg := false) hs hf he ht
      have hne : ∀ r, s ++ (f ++ (e ++ t)) ≠ '-' :: r := by
        intro r h
        cases hs with
        | zero => simp at h
        | pos hc => simp only [List.cons_append, List.cons.injEq] at h; rw [h.1] at hc; cases hc
      simp only [List.nil_append, List.append_assoc]
      unfold scanNumber
      split
      · rename_i h; exact absurd h (hne _)
      · rw [this]
        have e1 : (1 : Int) * (whole ns : Nat) = (whole ns : Nat) := by omega
        simp [e1]
  cases h with
  | int h =>
    obtain ⟨hm, hs⟩ := h
    have := key hm hs .none .none
    simpa using this
  | dec h =>
    obtain ⟨hm, hs, hf, he, hne⟩ := h
    have := key hm hs hf he
    rw [if_neg hne] at this
    exact this

/-- What the scanner reads is a number. -/
theorem scanNumber_sound {lib : FloatLib} {s t : List Char} {v : Loaded} (h : scanNumber lib s = .ok (v, t)) :
    ∃ p, s = p ++ t ∧ NumText lib p v := by
  have key : ∀ {m : List Char} {neg : Bool} {r : List Char}, Minus m (if neg then -1 else 1) →
      scanUnsigned lib neg r = .ok (v, t) → ∃ p, m ++ r = p ++ t ∧ NumText lib p v := by
    intro m neg r hm h
    obtain ⟨i, ns, f, fs, e, x, hi, hf, he, er, ev⟩ := scanUnsigned_sound h
    by_cases hne : f = [] ∧ e = []
    · obtain ⟨rfl, rfl⟩ := hne
      simp only [and_self, if_true] at ev
      refine ⟨m ++ i, by simpa using er, ?_⟩
      have := NumText.int (lib := lib) (IntText.mk hm hi)
      rw [ev]
      cases neg
      · simpa using this
      · have e1 : (-1 : Int) * (whole ns : Nat) = -(whole ns : Nat) := by omega
        simpa [e1] using this
    · rw [if_neg hne] at ev
      exact ⟨m ++ i ++ f ++ e, by simp [er], ev ▸ .dec (.mk hm hi hf he hne)⟩
  unfold scanNumber at h
  split at h
  · exact key (m := ['-']) (neg := true) .some h
  · exact key (m := []) (neg := false) .none h

end Jschon
