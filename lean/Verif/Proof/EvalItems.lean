import Verif.Proof.EvalLoops
import Verif.Proof.Assertions

/-!
# Items and members of instances; flags
-/

namespace Jschon

open Spec

/-! ## Flags -/

theorem zip_map_map {α β γ : Type} (f : α → β) (g : α → γ) : ∀ l : List α,
    (l.map f).zip (l.map g) = l.map (fun x => (f x, g x))
  | [] => rfl
  | x :: l => by simp [zip_map_map f g l]

theorem failedOf_map {α β : Type} (f : α → β) (g : α → Bool) (l : List α) :
    failedOf (l.map f) (l.map g) = (l.filter (fun x => !g x)).map f := by
  simp only [failedOf, zip_map_map, List.filter_map, List.map_map]
  rfl

theorem passedOf_map {α β : Type} (f : α → β) (g : α → Bool) (l : List α) :
    passedOf (l.map f) (l.map g) = (l.filter g).map f := by
  simp only [passedOf, zip_map_map, List.filter_map, List.map_map]
  rfl

theorem failedOf_map_nil {α β : Type} {f : α → β} {g : α → Bool} {l : List α} :
    failedOf (l.map f) (l.map g) = [] ↔ ∀ x ∈ l, g x = true := by
  rw [failedOf_map, List.map_eq_nil_iff, List.filter_eq_nil_iff]
  simp

theorem passedOf_map_all {α β : Type} {f : α → β} {g : α → Bool} {l : List α}
    (h : ∀ x ∈ l, g x = true) : passedOf (l.map f) (l.map g) = l.map f := by
  rw [passedOf_map, List.filter_eq_self.2 h]

theorem all_map_id {α : Type} {g : α → Bool} {l : List α} :
    (l.map g).all id = true ↔ ∀ x ∈ l, g x = true := by simp

theorem any_map_id {α : Type} {g : α → Bool} {l : List α} :
    (l.map g).any id = true ↔ ∃ x ∈ l, g x = true := by simp

/-! ## Items -/

theorem itemsFrom_length (p : List String) : ∀ (n : Nat) (xs : List Value),
    (Inst.itemsFrom p n xs).length = xs.length
  | _, [] => rfl
  | n, x :: xs => by simp [Inst.itemsFrom, itemsFrom_length p (n + 1) xs]

theorem itemsFrom_getElem? (p : List String) : ∀ (n : Nat) (xs : List Value) (k : Nat),
    (Inst.itemsFrom p n xs)[k]? = xs[k]?.map (fun x => (n + k, ⟨p ++ [natStr (n + k)], x⟩))
  | _, [], k => by simp [Inst.itemsFrom]
  | n, x :: xs, 0 => by simp [Inst.itemsFrom]
  | n, x :: xs, k + 1 => by
    simp only [Inst.itemsFrom, List.getElem?_cons_succ, itemsFrom_getElem? p (n + 1) xs k]
    have : n + 1 + k = n + (k + 1) := by omega
    rw [this]

theorem items_eq (i : Inst) : i.items = Inst.itemsFrom i.path 0 (elems i.value) := by
  unfold Inst.items elems
  cases h : i.value <;> rfl

theorem items_length (i : Inst) : i.items.length = (elems i.value).length := by
  rw [items_eq, itemsFrom_length]

theorem items_getElem? (i : Inst) (k : Nat) :
    i.items[k]? = (elems i.value)[k]?.map (fun x => (k, ⟨i.path ++ [natStr k], x⟩)) := by
  rw [items_eq, itemsFrom_getElem?]; simp

theorem mem_items {i : Inst} {p : Nat × Inst} : p ∈ i.items ↔
    ∃ x, (elems i.value)[p.1]? = some x ∧ p.2 = ⟨i.path ++ [natStr p.1], x⟩ := by
  rw [List.mem_iff_getElem?]
  simp only [items_getElem?, Option.map_eq_some_iff]
  constructor
  · rintro ⟨k, x, hx, rfl⟩; exact ⟨x, hx, rfl⟩
  · rintro ⟨x, hx, hp⟩
    refine ⟨p.1, x, hx, ?_⟩
    rw [← hp]

theorem items_nil_iff (i : Inst) : i.items = [] ↔ elems i.value = [] := by
  rw [← List.length_eq_zero_iff, items_length, List.length_eq_zero_iff]

theorem prefix_snoc {p : List String} {x y : String} : p ++ [x] <+: p ++ [y] ↔ x = y := by
  rw [List.prefix_append_right_inj]
  constructor
  · intro h
    have := List.IsPrefix.eq_of_length h rfl
    simpa using this
  · rintro rfl; exact List.prefix_rfl

theorem itemsFrom_pairwise (p : List String) : ∀ (xs : List Value) (n : Nat),
    (Inst.itemsFrom p n xs).Pairwise (fun a b => ¬ a.2.path <+: b.2.path)
  | [], _ => .nil
  | x :: xs, n => by
    rw [Inst.itemsFrom, List.pairwise_cons]
    refine ⟨?_, itemsFrom_pairwise p xs (n + 1)⟩
    intro b hb
    obtain ⟨k, hk⟩ := List.mem_iff_getElem?.1 hb
    rw [itemsFrom_getElem?, Option.map_eq_some_iff] at hk
    obtain ⟨x, _, rfl⟩ := hk
    simp only
    rw [prefix_snoc, natStr_inj]
    omega

theorem items_pairwise {i : Inst} {l : List (Nat × Inst)} (h : l.Sublist i.items) :
    (insts l).Pairwise (fun a b => ¬ a.path <+: b.path) := by
  rw [insts, List.pairwise_map]
  rw [items_eq] at h
  exact (itemsFrom_pairwise _ _ _).sublist h

theorem elems_wf {v : Value} (h : v.WF) : ∀ x ∈ elems v, x.WF := by
  cases h with
  | arr h => exact h
  | _ => intro x hx; cases hx

theorem items_wf {i : Inst} (h : i.value.WF) {p : Nat × Inst} (hp : p ∈ i.items) : p.2.value.WF := by
  obtain ⟨x, hx, he⟩ := mem_items.1 hp
  rw [he]; exact elems_wf h x (List.mem_of_getElem? hx)

/-! ## Members -/

theorem members_eq (i : Inst) : i.members =
    (members i.value).map (fun kv => (kv.1, ⟨i.path ++ [kv.1], kv.2⟩)) := by
  unfold Inst.members members
  cases h : i.value <;> rfl

theorem names_eq (i : Inst) : i.names =
    (members i.value).map (fun kv => (kv.1, ⟨i.path ++ [kv.1], .str kv.1⟩)) := by
  unfold Inst.names members
  cases h : i.value <;> rfl

theorem mem_members {i : Inst} {p : String × Inst} : p ∈ i.members ↔
    ∃ x, (p.1, x) ∈ members i.value ∧ p.2 = ⟨i.path ++ [p.1], x⟩ := by
  rw [members_eq, List.mem_map]
  constructor
  · rintro ⟨kv, h, rfl⟩; exact ⟨kv.2, h, rfl⟩
  · rintro ⟨x, h, he⟩; exact ⟨(p.1, x), h, by rw [← he]⟩

theorem members_nodup {v : Value} (h : v.WF) : (dkeys (members v)).Nodup := by
  cases h with
  | obj h _ => exact h
  | _ => exact .nil

theorem members_wf {v : Value} (h : v.WF) : ∀ kv ∈ members v, kv.2.WF := by
  cases h with
  | obj _ h => exact h
  | _ => intro x hx; cases hx

theorem members_pairwise {i : Inst} (hw : i.value.WF) {l : List (String × Inst)}
    (h : l.Sublist i.members) : (insts l).Pairwise (fun a b => ¬ a.path <+: b.path) := by
  rw [insts, List.pairwise_map]
  refine List.Pairwise.sublist h ?_
  rw [members_eq, List.pairwise_map]
  have := members_nodup hw
  rw [dkeys, List.Nodup, List.pairwise_map] at this
  refine this.imp ?_
  intro a b hab
  rw [prefix_snoc]; exact hab

theorem names_pairwise {i : Inst} (hw : i.value.WF) :
    (insts i.names).Pairwise (fun a b => ¬ a.path <+: b.path) := by
  rw [insts, List.pairwise_map]
  rw [names_eq, List.pairwise_map]
  have := members_nodup hw
  rw [dkeys, List.Nodup, List.pairwise_map] at this
  refine this.imp ?_
  intro a b hab
  rw [prefix_snoc]; exact hab

theorem member_wf {i : Inst} (h : i.value.WF) {p : String × Inst} (hp : p ∈ i.members) :
    p.2.value.WF := by
  obtain ⟨x, hx, he⟩ := mem_members.1 hp
  rw [he]; exact members_wf h _ hx

theorem has_iff {i : Inst} {n : String} : i.has n = true ↔ HasMember i.value n := by
  unfold Inst.has HasMember members
  split <;> rename_i h
  · rw [h]; exact hasMember_iff.symm
  · split
    · rename_i h'; exact absurd h' (h _)
    · simp

/-! ## Instances strictly below -/

/-- Strictly below path `p`. -/
def SBelow (p : List String) (j : Inst) : Prop := ∃ x r, j.path = p ++ x :: r

theorem sbelow_ne {p : List String} {j : Inst} (h : SBelow p j) : j.path ≠ p := by
  obtain ⟨x, r, h⟩ := h
  intro h'
  have := congrArg List.length (h.symm.trans h')
  simp at this

theorem sbelow_item {i : Inst} {p : Nat × Inst} (hp : p ∈ i.items) : SBelow i.path p.2 := by
  obtain ⟨x, _, he⟩ := mem_items.1 hp
  exact ⟨_, [], by rw [he]⟩

theorem sbelow_member {i : Inst} {p : String × Inst} (hp : p ∈ i.members) : SBelow i.path p.2 := by
  obtain ⟨x, _, he⟩ := mem_members.1 hp
  exact ⟨_, [], by rw [he]⟩

theorem mem_names {i : Inst} {p : String × Inst} : p ∈ i.names ↔
    HasMember i.value p.1 ∧ p.2 = ⟨i.path ++ [p.1], .str p.1⟩ := by
  rw [names_eq, List.mem_map]
  constructor
  · rintro ⟨kv, h, rfl⟩; exact ⟨⟨kv.2, h⟩, rfl⟩
  · rintro ⟨⟨x, h⟩, he⟩; exact ⟨(p.1, x), h, by rw [← he]⟩

theorem sbelow_name {i : Inst} {p : String × Inst} (hp : p ∈ i.names) : SBelow i.path p.2 :=
  ⟨p.1, [], by rw [(mem_names.1 hp).2]⟩

theorem closed_of_path {P : List String → Prop} (h : ∀ p x, P p → P (p ++ [x])) :
    Closed (fun j => P j.path) := by
  refine ⟨?_, ?_, ?_⟩
  · intro i hi p hp
    obtain ⟨x, _, he⟩ := mem_items.1 hp
    rw [he]; exact h _ _ hi
  · intro i hi p hp
    obtain ⟨x, _, he⟩ := mem_members.1 hp
    rw [he]; exact h _ _ hi
  · intro i hi p hp
    rw [(mem_names.1 hp).2]; exact h _ _ hi

theorem closed_sbelow (p : List String) : Closed (SBelow p) :=
  closed_of_path (P := fun q => ∃ x r, q = p ++ x :: r)
    (by rintro q y ⟨x, r, rfl⟩; exact ⟨x, r ++ [y], by simp⟩)

theorem closed_prefix (p : List String) : Closed (fun j => p <+: j.path) :=
  closed_of_path (P := fun q => p <+: q) (fun _ _ h => h.trans (List.prefix_append _ _))

end Jschon
