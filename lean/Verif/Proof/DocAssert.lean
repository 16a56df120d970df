import Verif.Model.Decode
import Verif.Spec.Document
import Verif.Spec.Construct
import Verif.Proof.Equality
import Verif.Proof.Value
import Verif.Proof.JsonDoc

/-!
# Assertions as written and as read back
-/

namespace Jschon
open Spec

theorem rearranged_same {a b : Value} (h : Rearranged a b) : Same a b := by
  induction h with
  | null => exact .null
  | bool => exact .bool
  | num => exact .num rfl
  | str => exact .str
  | arr h1 _ ih => exact .arr h1 ih
  | @obj as bs h1 _ ih =>
    refine .obj (fun k => ?_) ih
    have : k ∈ dkeys as ↔ k ∈ dkeys bs := h1.mem_iff
    rw [dlookup_eq_none, dlookup_eq_none, this]

/-- The assertions demand the same. -/
structure Alike (a b : Assertion) : Prop where
  iff : ∀ env mult v, AssertHolds env mult a v ↔ AssertHolds env mult b v
  multipleOf : ∀ m, a = .multipleOf m → b = .multipleOf m

theorem Alike.refl (a : Assertion) : Alike a a := ⟨fun _ _ _ => .rfl, fun _ h => h⟩

theorem rearr_strs {x : Value} {ts : List String} (h : Rearranged x (.arr (ts.map .str))) :
    x = .arr (ts.map .str) := by
  cases h with
  | @arr xs _ h1 h2 =>
    congr 1
    refine List.ext_getElem? fun i => ?_
    cases hx : xs[i]? with
    | none =>
      symm
      rw [List.getElem?_eq_none_iff] at hx ⊢
      omega
    | some x =>
      obtain ⟨hi, -⟩ := List.getElem?_eq_some_iff.1 hx
      have hy := List.getElem?_eq_getElem (l := ts.map Value.str) (i := i) (by omega)
      have := h2 i x _ hx hy
      rw [hy]
      rw [List.getElem_map] at this ⊢
      cases this; rfl

theorem strings_map (ts : List String) : strings (ts.map .str) = some ts := by
  induction ts with
  | nil => rfl
  | cons t ts ih => simp [strings, ih]

/-- What is read of an object of arrays of strings. -/
theorem stringArrays_spec : ∀ {kvs : List (String × Value)},
    (∀ kv ∈ kvs, ∃ ts : List String, kv.2 = .arr (ts.map .str)) →
    ∃ ps, stringArrays kvs = some ps ∧ ∀ k (ts : List String), (k, ts) ∈ ps ↔ (k, .arr (ts.map .str)) ∈ kvs
  | [], _ => ⟨[], rfl, by simp⟩
  | (k, v) :: kvs, h => by
    obtain ⟨ts, hv⟩ := h (k, v) List.mem_cons_self
    cases hv
    obtain ⟨ps, h1, h2⟩ := stringArrays_spec fun kv hkv => h kv (List.mem_cons_of_mem _ hkv)
    refine ⟨(k, ts) :: ps, by simp [stringArrays, strings_map, h1], fun k' ts' => ?_⟩
    simp only [List.mem_cons, Prod.mk.injEq, h2, Value.arr.injEq]
    constructor
    · rintro (⟨rfl, rfl⟩ | h)
      · exact .inl ⟨rfl, rfl⟩
      · exact .inr h
    · rintro (⟨rfl, he⟩ | h)
      · refine .inl ⟨rfl, ?_⟩
        have := congrArg strings he
        rw [strings_map, strings_map] at this
        exact Option.some.inj this
      · exact .inr h

/-- The form of the class of an assertion reads what was written. -/
theorem written_common {k : String} {v x : Value} {a : Assertion} (h : WrittenAs k v a) (hr : Rearranged x v)
    (hx : x.WF) (hv : v.WF) :
    ∃ f a', dlookup k commonForms = some (.plain f) ∧ f x = some (.assert a') ∧ Alike a' a := by
  cases h with
  | type => cases hr; exact ⟨_, _, rfl, rfl, .refl _⟩
  | types =>
    cases rearr_strs hr
    exact ⟨_, _, rfl, by simp only [typeKw, strings_map, Option.map_some], .refl _⟩
  | enum =>
    cases hr with
    | arr h1 h2 =>
      rename_i vs xs
      refine ⟨_, _, rfl, rfl, fun env mult u => ?_, (fun _ h => by cases h)⟩
      simp only [AssertHolds]
      constructor
      · rintro ⟨x, hx, hs⟩
        obtain ⟨i, hi, rfl⟩ := List.mem_iff_getElem.1 hx
        have := h2 i _ _ (List.getElem?_eq_getElem hi) (List.getElem?_eq_getElem (by omega))
        exact ⟨_, List.getElem_mem _, same_trans hs (rearranged_same this)⟩
      · rintro ⟨x, hx, hs⟩
        obtain ⟨i, hi, rfl⟩ := List.mem_iff_getElem.1 hx
        have := h2 i _ _ (List.getElem?_eq_getElem (by omega)) (List.getElem?_eq_getElem hi)
        exact ⟨_, List.getElem_mem _, same_trans hs (same_symm (rearranged_same this))⟩
  | const =>
    refine ⟨_, _, rfl, rfl, fun env mult u => ?_, (fun _ h => by cases h)⟩
    have := rearranged_same hr
    exact ⟨fun h => same_trans h this, fun h => same_trans h (same_symm this)⟩
  | required =>
    cases rearr_strs hr
    exact ⟨_, _, rfl, by simp only [requiredKw, strings_map, Option.map_some], .refl _⟩
  | @dependentRequired ps =>
    cases hr with
    | @obj as _ h1 h2 =>
      have hn : (dkeys as).Nodup := by cases hx with | obj h _ => exact h
      have hn' : (dkeys (ps.map fun p => (p.1, Value.arr (p.2.map .str)))).Nodup := by
        cases hv with | obj h _ => exact h
      have key : ∀ kv ∈ as, (kv.1, kv.2) ∈ ps.map fun p => (p.1, Value.arr (p.2.map .str)) := by
        intro kv hkv
        obtain ⟨w, hw⟩ := mem_dkeys.1 (h1.mem_iff.1 (mem_dkeys.2 ⟨kv.2, hkv⟩))
        have := h2 kv.1 kv.2 w (dlookup_of_mem hn hkv) (dlookup_of_mem hn' hw)
        obtain ⟨k, x⟩ := kv
        obtain ⟨p, hp, e⟩ := List.mem_map.1 hw
        simp only [Prod.mk.injEq] at e
        rw [← e.2] at this hw
        simp only at this
        rw [rearr_strs this]
        exact hw
      obtain ⟨qs, h3, h4⟩ := stringArrays_spec (kvs := as) (fun kv hkv => by
        obtain ⟨p, hp, e⟩ := List.mem_map.1 (key kv hkv)
        cases kv
        cases e
        exact ⟨_, rfl⟩)
      have mem : ∀ k (ts : List String), (k, ts) ∈ qs ↔ (k, ts) ∈ ps := by
        intro k ts
        rw [h4]
        constructor
        · intro h
          obtain ⟨p, hp, e⟩ := List.mem_map.1 (key _ h)
          simp only [Prod.mk.injEq, Value.arr.injEq] at e
          have := congrArg strings e.2
          rw [strings_map, strings_map] at this
          cases p
          cases this
          cases e.1
          exact hp
        · intro h
          have h5 : (k, Value.arr (ts.map .str)) ∈ ps.map fun p => (p.1, Value.arr (p.2.map .str)) :=
            List.mem_map.2 ⟨_, h, rfl⟩
          obtain ⟨w, hw⟩ := mem_dkeys.1 (h1.mem_iff.2 (mem_dkeys.2 ⟨_, h5⟩))
          have h6 := key _ hw
          have n1 := dlookup_of_mem hn' h5
          have n2 := dlookup_of_mem hn' h6
          rw [n1] at n2
          cases n2
          exact hw
      refine ⟨_, .dependentRequired qs, rfl, by simp only [dependentRequiredKw, h3, Option.map_some], fun env mult u => ?_, (fun _ h => by cases h)⟩
      simp only [AssertHolds]
      constructor
      · intro h kvs e p hp; exact h kvs e p ((mem _ _).2 hp)
      · intro h kvs e p hp; exact h kvs e p ((mem _ _).1 hp)
  | _ => cases hr; exact ⟨_, _, rfl, rfl, .refl _⟩

theorem dlookup_append_some {k : String} {b : β} {l r : List (String × β)} (h : dlookup k l = some b) :
    dlookup k (l ++ r) = some b := by
  induction l with
  | nil => cases h
  | cons p l ih =>
    simp only [dlookup, List.cons_append] at h ⊢
    split
    · rename_i e; rw [if_pos e] at h; exact h
    · rename_i e; rw [if_neg e] at h; exact ih h

theorem kwForms_common [dia : Dialect] {k : String} {f : Form} (h : dlookup k commonForms = some f) :
    dlookup k kwForms = some f := by
  cases dia <;> exact dlookup_append_some h

/-- The form of the class of an assertion reads what was written, in either dialect. -/
theorem written_read [Dialect] {k : String} {v x : Value} {a : Assertion} (h : WrittenAs k v a) (hr : Rearranged x v)
    (hx : x.WF) (hv : v.WF) :
    ∃ f a', dlookup k kwForms = some (.plain f) ∧ f x = some (.assert a') ∧ Alike a' a := by
  obtain ⟨f, a', h1, h2, h3⟩ := written_common h hr hx hv
  exact ⟨f, a', kwForms_common h1, h2, h3⟩

end Jschon
