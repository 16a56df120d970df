import Verif.Model.Eval
import Verif.Spec.SchemaOk
import Verif.Proof.Equality

/-!
# The assertion keywords decide their definitions
-/

namespace Jschon

open Spec

theorem rat_isInt_iff (q : Rat) : (∃ z : Int, q = z) ↔ q.den = 1 := by
  constructor
  · rintro ⟨z, rfl⟩; exact Rat.den_intCast z
  · intro h
    refine ⟨q.num, ?_⟩
    rw [← Rat.mkRat_self q, h, Rat.mkRat_one]
    simp

theorem hasType_iff (v : Value) (t : String) :
    HasType v t ↔ t = v.type.name ∨ (t = "integer" ∧ ∃ n, v = .num n ∧ n.val.den = 1) := by
  unfold HasType
  split
  · cases v <;> simp [Value.type, JType.name]
  · cases v <;> simp [Value.type, JType.name]
  · cases v <;> simp [Value.type, JType.name]
  · simp only [rat_isInt_iff]
    cases v <;> simp [Value.type, JType.name]
  · cases v <;> simp [Value.type, JType.name]
  · cases v <;> simp [Value.type, JType.name]
  · cases v <;> simp [Value.type, JType.name]
  · rename_i h1 h2 h3 h4 h5 h6 h7
    simp only [false_iff, not_or, not_and]
    refine ⟨?_, fun h => absurd h h4⟩
    cases v <;> simp only [Value.type, JType.name] <;> assumption

theorem uniquify_length_le : ∀ (xs acc : List Value), (uniquify acc xs).length ≤ acc.length + xs.length
  | [], acc => by simp [uniquify]
  | x :: xs, acc => by
    simp only [uniquify]
    split
    · have := uniquify_length_le xs acc
      simp only [List.length_cons]; omega
    · have := uniquify_length_le xs (acc ++ [x])
      simp only [List.length_append, List.length_cons, List.length_nil] at this ⊢; omega

theorem uniquify_length : ∀ (xs acc : List Value),
    (uniquify acc xs).length = acc.length + xs.length ↔
      (∀ x ∈ xs, ∀ y ∈ acc, jsonEq y x = false) ∧ xs.Pairwise (fun y x => jsonEq y x = false)
  | [], acc => by simp [uniquify]
  | x :: xs, acc => by
    simp only [uniquify]
    split
    · rename_i h
      have hle := uniquify_length_le xs acc
      simp only [List.any_eq_true] at h
      obtain ⟨y, hy, he⟩ := h
      constructor
      · intro h; simp only [List.length_cons] at h; omega
      · rintro ⟨h, _⟩
        have := h x List.mem_cons_self y hy
        rw [this] at he; contradiction
    · rename_i h
      have hx : ∀ y ∈ acc, jsonEq y x = false := by
        intro y hy
        simp only [List.any_eq_true, not_exists, not_and, Bool.not_eq_true] at h
        exact h y hy
      have ih := uniquify_length xs (acc ++ [x])
      have hl : (acc ++ [x]).length + xs.length = acc.length + (x :: xs).length := by
        simp only [List.length_append, List.length_cons, List.length_nil]; omega
      rw [hl] at ih
      rw [ih]
      simp only [List.mem_append, List.mem_cons, List.not_mem_nil, or_false, List.pairwise_cons]
      constructor
      · rintro ⟨h1, h2⟩
        refine ⟨?_, fun z hz => h1 z hz x (.inr rfl), h2⟩
        rintro z (rfl | hz) y hy
        · exact hx y hy
        · exact h1 z hz y (.inl hy)
      · rintro ⟨h1, h2, h3⟩
        refine ⟨?_, h3⟩
        rintro z hz y (hy | rfl)
        · exact h1 z (.inr hz) y hy
        · exact h2 z hz

theorem pairwise_getElem? {α : Type} {R : α → α → Prop} {l : List α} :
    l.Pairwise R ↔ ∀ (j k : Nat) x y, j < k → l[j]? = some x → l[k]? = some y → R x y := by
  rw [List.pairwise_iff_getElem]
  constructor
  · intro h j k x y hjk hx hy
    obtain ⟨hj, rfl⟩ := List.getElem?_eq_some_iff.1 hx
    obtain ⟨hk, rfl⟩ := List.getElem?_eq_some_iff.1 hy
    exact h j k hj hk hjk
  · intro h j k hj hk hjk
    exact h j k _ _ hjk (List.getElem?_eq_getElem hj) (List.getElem?_eq_getElem hk)

theorem unique_ok_iff (xs : List Value) (hw : ∀ x ∈ xs, x.WF) :
    (!decide (xs.length > (uniquify [] xs).length)) = true ↔
      ∀ (j k : Nat) x y, j < k → xs[j]? = some x → xs[k]? = some y → ¬ Same x y := by
  have hle := uniquify_length_le xs []
  have heq := uniquify_length xs []
  simp only [List.length_nil, Nat.zero_add] at hle heq
  rw [Bool.not_eq_true', decide_eq_false_iff_not]
  have h1 : ¬ xs.length > (uniquify [] xs).length ↔ (uniquify [] xs).length = xs.length := by omega
  rw [h1, heq, pairwise_getElem?]
  simp only [List.not_mem_nil, false_implies, implies_true, true_and]
  have hm : ∀ (j : Nat) x, xs[j]? = some x → x.WF := fun j x h => hw x (List.mem_of_getElem? h)
  constructor
  · intro h j k x y hjk hx hy hs
    have := h j k x y hjk hx hy
    rw [(jsonEq_iff_same x y (hm j x hx) (hm k y hy)).2 hs] at this
    contradiction
  · intro h j k x y hjk hx hy
    have := h j k x y hjk hx hy
    rw [← jsonEq_iff_same x y (hm j x hx) (hm k y hy)] at this
    simpa using this

theorem hasMember_iff {kvs : List (String × Value)} {n : String} :
    HasMember (.obj kvs) n ↔ (dlookup n kvs).isSome = true := by
  rw [dlookup_isSome, mem_dkeys]; rfl

theorem filter_isEmpty_iff {α : Type} {p : α → Bool} {l : List α} :
    (l.filter p).isEmpty = true ↔ ∀ x ∈ l, p x = false := by
  rw [List.isEmpty_iff, List.filter_eq_nil_iff]
  simp only [Bool.not_eq_true]

theorem required_ok_iff {kvs : List (String × Value)} {names : List String} :
    (names.filter (fun n => (dlookup n kvs).isNone)).isEmpty = true ↔
      ∀ n ∈ names, HasMember (.obj kvs) n := by
  rw [filter_isEmpty_iff]
  simp only [hasMember_iff]
  constructor
  · intro h n hn
    have := h n hn
    cases hd : dlookup n kvs with
    | none => rw [hd] at this; contradiction
    | some _ => rfl
  · intro h n hn
    have := h n hn
    cases hd : dlookup n kvs with
    | none => rw [hd] at this; contradiction
    | some _ => rfl

/-- jschon's meaning of "multiple of". -/
def codeMult (env : Env) (n m : Num) : Prop := decimalMultiple (n.decimal env) (m.decimal env) = true

theorem assertion_ok_iff (env : Env) (a : Assertion) (v : Value) (ha : a.WF) (hv : v.WF) :
    a.ok env v = true ↔ AssertHolds env (codeMult env) a v := by
  cases a
  case type_ types =>
    simp only [Assertion.ok, AssertHolds, hasType_iff]
    split
    · rename_i h
      rw [List.contains_iff_mem] at h
      simp only [true_iff]
      exact ⟨_, h, .inl rfl⟩
    · rename_i h
      rw [List.contains_iff_mem] at h
      split
      · rename_i n
        simp only [Bool.and_eq_true, List.contains_iff_mem, beq_iff_eq]
        constructor
        · rintro ⟨h1, h2⟩; exact ⟨_, h1, .inr ⟨rfl, n, rfl, h2⟩⟩
        · rintro ⟨t, ht, rfl | ⟨rfl, m, hm, hd⟩⟩
          · exact absurd ht h
          · cases hm; exact ⟨ht, hd⟩
      · rename_i hn
        simp only [Bool.false_eq_true, false_iff, not_exists, not_and, not_or]
        intro t ht
        refine ⟨fun he => h (he ▸ ht), fun _ m hm => absurd hm (hn m)⟩
  case enum vs =>
    simp only [Assertion.ok, AssertHolds, List.any_eq_true]
    constructor
    · rintro ⟨w, hw, he⟩
      exact ⟨w, hw, same_symm ((jsonEq_iff_same w v (ha w hw) hv).1 he)⟩
    · rintro ⟨w, hw, he⟩
      exact ⟨w, hw, (jsonEq_iff_same w v (ha w hw) hv).2 (same_symm he)⟩
  case const w =>
    simp only [Assertion.ok, AssertHolds, jsonNe, Bool.not_not]
    exact jsonEq_iff_same v w hv ha
  case multipleOf m =>
    cases v <;> simp [Assertion.ok, AssertHolds, codeMult]
  case maximum m =>
    cases v <;> simp [Assertion.ok, AssertHolds, Rat.not_lt]
  case exclusiveMaximum m =>
    cases v <;> simp [Assertion.ok, AssertHolds, Rat.not_le]
  case minimum m =>
    cases v <;> simp [Assertion.ok, AssertHolds, Rat.not_lt]
  case exclusiveMinimum m =>
    cases v <;> simp [Assertion.ok, AssertHolds, Rat.not_le]
  case maxLength m =>
    cases v <;> simp [Assertion.ok, AssertHolds, Rat.not_lt]
  case minLength m =>
    cases v <;> simp [Assertion.ok, AssertHolds, Rat.not_lt]
  case pattern re =>
    cases v <;> simp [Assertion.ok, AssertHolds]
  case maxItems m =>
    cases v <;> simp [Assertion.ok, AssertHolds, Rat.not_lt]
  case minItems m =>
    cases v <;> simp [Assertion.ok, AssertHolds, Rat.not_lt]
  case uniqueItems b =>
    cases v
    case arr xs =>
      cases b
      · simp [Assertion.ok, AssertHolds]
      · cases hv with | arr hw => ?_
        simp only [Assertion.ok, AssertHolds, if_true, true_implies]
        rw [unique_ok_iff xs hw]
        constructor
        · rintro h ys ⟨⟩; exact h
        · intro h; exact h xs rfl
    all_goals simp [Assertion.ok, AssertHolds]
  case maxProperties m =>
    cases v <;> simp [Assertion.ok, AssertHolds, Rat.not_lt]
  case minProperties m =>
    cases v <;> simp [Assertion.ok, AssertHolds, Rat.not_lt]
  case required names =>
    cases v
    case obj kvs =>
      simp only [Assertion.ok, AssertHolds]
      rw [required_ok_iff]
      constructor
      · rintro h ys ⟨⟩; exact h
      · intro h; exact h kvs rfl
    all_goals simp [Assertion.ok, AssertHolds]
  case dependentRequired ps =>
    cases v
    case obj kvs =>
      simp only [Assertion.ok, AssertHolds]
      rw [filter_isEmpty_iff]
      have hp : ∀ p : String × List String, ((dlookup p.1 kvs).isSome &&
          !(p.2.filter (fun d => (dlookup d kvs).isNone)).isEmpty) = false ↔
          (HasMember (.obj kvs) p.1 → ∀ n ∈ p.2, HasMember (.obj kvs) n) := by
        intro p
        rw [← required_ok_iff, hasMember_iff]
        cases (dlookup p.1 kvs).isSome <;>
          cases (p.2.filter (fun d => (dlookup d kvs).isNone)).isEmpty <;> simp
      constructor
      · rintro h ys ⟨⟩ p hpm; exact (hp p).1 (h p hpm)
      · intro h p hpm; exact (hp p).2 (h kvs rfl p hpm)
    all_goals simp [Assertion.ok, AssertHolds]

/-- An assertion keyword holds of every value of a type it does not apply to. -/
theorem assertHolds_of_type (env : Env) (mult : Num → Num → Prop) (a : Assertion) (v : Value)
    (h : a.types.contains v.type = false) : AssertHolds env mult a v := by
  cases a <;> cases v <;> simp_all [Assertion.types, Value.type, AssertHolds] <;> revert h <;> decide

end Jschon
