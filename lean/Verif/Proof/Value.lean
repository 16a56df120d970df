import Verif.Spec.Value

namespace Jschon

/-- Induction over values, with the hypothesis for every child. -/
theorem Value.induct {P : Value → Prop} (null : P .null) (bool : ∀ b, P (.bool b))
    (num : ∀ n, P (.num n)) (str : ∀ s, P (.str s))
    (arr : ∀ xs, (∀ x ∈ xs, P x) → P (.arr xs))
    (obj : ∀ kvs, (∀ kv ∈ kvs, P kv.2) → P (.obj kvs)) (v : Value) : P v := by
  match v with
  | .null => exact null
  | .bool b => exact bool b
  | .num n => exact num n
  | .str s => exact str s
  | .arr xs => exact arr xs (fun x _ => Value.induct null bool num str arr obj x)
  | .obj kvs => exact obj kvs (fun kv _ => Value.induct null bool num str arr obj kv.2)
termination_by sizeOf v
decreasing_by
  · have := List.sizeOf_lt_of_mem ‹x ∈ xs›
    simp; omega
  · have := List.sizeOf_lt_of_mem ‹kv ∈ kvs›
    obtain ⟨k, v⟩ := kv
    simp at this ⊢; omega

/-! ## dict lemmas -/

variable {β : Type}

theorem dlookup_mem {k : String} {v : β} {d : List (String × β)} (h : dlookup k d = some v) :
    (k, v) ∈ d := by
  induction d with
  | nil => simp [dlookup] at h
  | cons kv r ih =>
    obtain ⟨k', v'⟩ := kv
    simp only [dlookup] at h
    split at h
    · rename_i he; cases h; subst he; simp
    · simp [ih h]

theorem dlookup_eq_none {k : String} {d : List (String × β)} :
    dlookup k d = none ↔ k ∉ dkeys d := by
  induction d with
  | nil => simp [dlookup, dkeys]
  | cons kv r ih =>
    obtain ⟨k', v'⟩ := kv
    simp only [dlookup, dkeys, List.map_cons, List.mem_cons, not_or]
    by_cases h : k = k'
    · simp [h]
    · simp only [h, if_false, ih, not_false_eq_true, true_and]; rfl

theorem dlookup_isSome {k : String} {d : List (String × β)} :
    (dlookup k d).isSome = true ↔ k ∈ dkeys d := by
  rw [Option.isSome_iff_ne_none, ne_eq, dlookup_eq_none, Decidable.not_not]

theorem dlookup_of_mem {k : String} {v : β} {d : List (String × β)} (hn : (dkeys d).Nodup)
    (h : (k, v) ∈ d) : dlookup k d = some v := by
  induction d with
  | nil => cases h
  | cons kv r ih =>
    obtain ⟨k', v'⟩ := kv
    simp only [dkeys, List.map_cons, List.nodup_cons] at hn
    simp only [dlookup]
    simp only [List.mem_cons, Prod.mk.injEq] at h
    rcases h with ⟨rfl, rfl⟩ | h
    · simp
    · have : k ≠ k' := by
        rintro rfl
        exact hn.1 (List.mem_map_of_mem (f := Prod.fst) h)
      simp [this, ih hn.2 h]

theorem mem_dkeys {k : String} {d : List (String × β)} : k ∈ dkeys d ↔ ∃ v, (k, v) ∈ d := by
  simp [dkeys]

/-- Splitting a dict at a key that is present. -/
theorem dlookup_split {k : String} {v : β} {d : List (String × β)} :
    dlookup k d = some v ↔ ∃ l r, d = l ++ (k, v) :: r ∧ k ∉ dkeys l := by
  induction d with
  | nil => simp [dlookup]
  | cons kv d ih =>
    obtain ⟨k', v'⟩ := kv
    simp only [dlookup]
    constructor
    · intro h
      split at h
      · rename_i he; cases h; subst he; exact ⟨[], d, rfl, by simp [dkeys]⟩
      · rename_i hne
        obtain ⟨l, r, rfl, hl⟩ := ih.1 h
        refine ⟨(k', v') :: l, r, rfl, ?_⟩
        simp only [dkeys, List.map_cons, List.mem_cons, not_or]
        exact ⟨hne, hl⟩
    · rintro ⟨l, r, he, hl⟩
      cases l with
      | nil => simp at he; simp [he.1]
      | cons a l =>
        simp only [List.cons_append, List.cons.injEq] at he
        obtain ⟨rfl, rfl⟩ := he
        simp only [dkeys, List.map_cons, List.mem_cons, not_or] at hl
        simp only [hl.1, if_false]
        exact ih.2 ⟨l, r, rfl, hl.2⟩

theorem dset_of_mem {k : String} {v w : β} {l r : List (String × β)} (h : k ∉ dkeys l) :
    dset k v (l ++ (k, w) :: r) = l ++ (k, v) :: r := by
  induction l with
  | nil => simp [dset]
  | cons a l ih =>
    obtain ⟨k', v'⟩ := a
    simp only [dkeys, List.map_cons, List.mem_cons, not_or] at h
    simp only [List.cons_append, dset, h.1, if_false, ih h.2]

theorem dset_of_not_mem {k : String} {v : β} {d : List (String × β)} (h : k ∉ dkeys d) :
    dset k v d = d ++ [(k, v)] := by
  induction d with
  | nil => simp [dset]
  | cons a l ih =>
    obtain ⟨k', v'⟩ := a
    simp only [dkeys, List.map_cons, List.mem_cons, not_or] at h
    simp only [List.cons_append, dset, h.1, if_false, ih h.2]

theorem derase_of_mem {k : String} {w : β} {l r : List (String × β)} (h : k ∉ dkeys l) :
    derase k (l ++ (k, w) :: r) = l ++ r := by
  induction l with
  | nil => simp [derase]
  | cons a l ih =>
    obtain ⟨k', v'⟩ := a
    simp only [dkeys, List.map_cons, List.mem_cons, not_or] at h
    simp only [List.cons_append, derase, h.1, if_false, ih h.2]

theorem dkeys_append (l r : List (String × β)) : dkeys (l ++ r) = dkeys l ++ dkeys r := by
  simp [dkeys]

theorem dkeys_cons (a : String × β) (r : List (String × β)) : dkeys (a :: r) = a.1 :: dkeys r := rfl

theorem dlookup_append_of_not_mem {k : String} {l r : List (String × β)} (h : k ∉ dkeys l) :
    dlookup k (l ++ r) = dlookup k r := by
  induction l with
  | nil => rfl
  | cons a l ih =>
    obtain ⟨k', v'⟩ := a
    simp only [dkeys, List.map_cons, List.mem_cons, not_or] at h
    simp only [List.cons_append, dlookup, h.1, if_false, ih h.2]

theorem dlookup_dset {k k' : String} {v : β} {d : List (String × β)} :
    dlookup k' (dset k v d) = if k' = k then some v else dlookup k' d := by
  induction d with
  | nil => simp [dset, dlookup]
  | cons a l ih =>
    obtain ⟨k0, v0⟩ := a
    simp only [dset]
    by_cases h : k = k0
    · subst h
      simp only [if_true, dlookup]
      by_cases h' : k' = k <;> simp [h']
    · simp only [h, if_false, dlookup, ih]
      by_cases h' : k' = k0
      · have : k' ≠ k := by rintro rfl; exact h h'
        rw [if_pos h', if_neg this, if_pos h']
      · simp [h']

end Jschon
