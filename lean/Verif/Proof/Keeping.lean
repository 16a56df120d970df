import Verif.Spec.Keeping
import Verif.Proof.Later
import Verif.Props.Construct

/-!
# Lemmas about the metaschemas that schemas keep
-/

namespace Jschon
open Spec

theorem read_world {E : CEnv} {k k' : Keeping} {s : Nat} {r : Except Exc Nat} (h : k.read E s = some (k', r)) :
    k'.world = k.world ∧ (∀ x m, k.kept x = some m → k'.kept x = some m) ∧
      ∀ x m, k'.kept x = some m → k.kept x = some m ∨ x = s ∧ k.world.metaschema E s = some (.ok m) := by
  unfold Keeping.read at h
  split at h
  · cases h; exact ⟨rfl, fun _ _ h => h, fun _ _ h => .inl h⟩
  · rename_i hk
    split at h
    · cases h
    · cases h; exact ⟨rfl, fun _ _ h => h, fun _ _ h => .inl h⟩
    · rename_i m hm
      cases h
      refine ⟨rfl, fun x m' h => ?_, fun x m' h => ?_⟩
      · simp only
        rw [if_neg (by rintro rfl; rw [hk] at h; cases h)]; exact h
      · simp only at h
        split at h
        · rename_i e; cases h; exact .inr ⟨e, hm⟩
        · exact .inl h

theorem Spec.KLater.kept {k k' : Keeping} (h : KLater k k') {s m : Nat} (hk : k.kept s = some m) : k'.kept s = some m := by
  induction h with
  | refl => exact hk
  | read _ h ih => exact (read_world h).2.1 _ _ ih
  | any _ h ih => exact h _ _ ih

theorem metaschema_later {E : CEnv} {w w' : World} (ok : WOk w) (ha : CAfter w w')
    (hc : ∀ u m, cacheGet w.caches "__meta__" u = some m → cacheGet w'.caches "__meta__" u = some m) {s m : Nat}
    (hs : s < w.heap.next) (h : w.metaschema E s = some (.ok m)) : w'.metaschema E s = some (.ok m) := by
  obtain ⟨-, g, b⟩ := ha.spec ok
  unfold World.metaschema at h ⊢
  rw [show w'.metaUri s = w.metaUri s from nearest_old ok g b _ _ _ hs]
  cases hu : w.metaUri s with
  | none => rw [hu] at h; cases h
  | some u =>
    rw [hu] at h
    simp only at h ⊢
    cases he : E.metaschema u with
    | error e => rw [he] at h; cases h
    | ok mt =>
      rw [he] at h
      simp only [Option.map_eq_some_iff] at h ⊢
      obtain ⟨a, h1, h2⟩ := h
      exact ⟨a, hc u a h1, h2⟩

theorem metaUri_dom {w : World} (ok : WOk w) {s : Nat} {u : Uri} (h : w.metaUri s = some u) : s < w.heap.next := by
  by_cases hs : s < w.heap.next
  · exact hs
  · exfalso
    have hi : w.info s = none := by
      cases hi : w.info s with
      | none => rfl
      | some i => exact absurd (ok.dom s (by rw [World.isSchema, hi]; rfl)) hs
    have hp : w.heap.parent s = none := by
      have : ¬ w.heap.has s := fun h => hs ((ok.ord.dom s).1 h)
      simp only [JHeap.has, Bool.not_eq_true, Option.isSome_eq_false_iff, Option.isNone_iff_eq_none] at this
      simp [JHeap.parent, this]
    unfold World.metaUri at h
    simp only [World.nearest, hi, hp, Option.bind_none] at h
    cases h

structure Freshly (E : CEnv) (k : Keeping) : Prop where
  ok : WOk k.world
  dom : ∀ s m, k.kept s = some m → s < k.world.heap.next
  fresh : ∀ s m, k.kept s = some m → k.world.metaschema E s = some (.ok m)

theorem Spec.KHistories.freshly {E : CEnv} {k : Keeping} (h : KHistories E k) : Freshly E k := by
  induction h with
  | start => exact ⟨wok_empty, fun _ _ h => (by cases h), fun _ _ h => (by cases h)⟩
  | @grow k w reads _ ha hc ih =>
    obtain ⟨ok, g, -⟩ := ha.spec ih.ok
    have old : ∀ s m, s < k.world.heap.next → (k.grow E w reads).kept s = some m → k.kept s = some m := by
      intro s m hs h
      simpa only [Keeping.grow, if_pos hs] using h
    have new : ∀ s m, ¬ s < k.world.heap.next → (k.grow E w reads).kept s = some m →
        w.metaschema E s = some (.ok m) := by
      intro s m hs h
      simp only [Keeping.grow, if_neg hs] at h
      split at h
      · split at h
        · rename_i hm; cases h; exact hm
        · cases h
      · cases h
    have fresh : ∀ s m, (k.grow E w reads).kept s = some m → w.metaschema E s = some (.ok m) := by
      intro s m h
      by_cases hs : s < k.world.heap.next
      · exact metaschema_later ih.ok ha hc hs (ih.fresh s m (old s m hs h))
      · exact new s m hs h
    refine ⟨ok, fun s m h => ?_, fresh⟩
    have := fresh s m h
    unfold World.metaschema at this
    cases hu : w.metaUri s with
    | none => rw [hu] at this; cases this
    | some u => exact metaUri_dom ok hu
  | @read k k' s r _ h ih =>
    obtain ⟨e, -, h3⟩ := read_world h
    have fresh : ∀ x m, k'.kept x = some m → k.world.metaschema E x = some (.ok m) := by
      intro x m h
      rcases h3 x m h with h | ⟨rfl, h⟩
      · exact ih.fresh x m h
      · exact h
    refine ⟨by rw [e]; exact ih.ok, fun x m h => ?_, fun x m h => by rw [e]; exact fresh x m h⟩
    have := fresh x m h
    unfold World.metaschema at this
    rw [e]
    cases hu : k.world.metaUri x with
    | none => rw [hu] at this; cases this
    | some u => exact metaUri_dom ih.ok hu

theorem read_fresh {E : CEnv} {k : Keeping} {s : Nat} (hk : ∀ m, k.kept s = some m → k.world.metaschema E s = some (.ok m)) :
    (k.read E s).map (·.2) = k.world.metaschema E s := by
  unfold Keeping.read
  split
  · rename_i m h; rw [hk m h]; rfl
  · split <;> rename_i h <;> rw [h] <;> rfl

theorem validate_fresh [Dialect] {E : CEnv} {k : Keeping} {s : Nat}
    (hk : ∀ m, k.kept s = some m → k.world.metaschema E s = some (.ok m)) (env : Env) (n : Nat) :
    (k.validate E env n s).map (·.2) = k.world.validate E env n s := by
  have hr := read_fresh (E := E) hk
  unfold Keeping.validate
  have hv : k.world.validate E env n s = match k.world.metaschema E s with
      | none => none
      | some (.error e) => some (.error e)
      | some (.ok m) => (evaluate (k.world.store E "__meta__") env n m
          ⟨(readPath k.world.heap s).2.keys, val k.world.heap s⟩).map .ok := by
    unfold World.validate World.metaschema
    cases k.world.metaUri s with
    | none => rfl
    | some u =>
      dsimp only
      cases E.metaschema u with
      | error e => rfl
      | ok mt =>
        dsimp only
        cases cacheGet k.world.caches "__meta__" u <;> rfl
  rw [hv, ← hr]
  cases h : k.read E s with
  | none => rfl
  | some a =>
    obtain ⟨k', r⟩ := a
    obtain ⟨e, -, -⟩ := read_world h
    cases r with
    | error e => rfl
    | ok m => simp only [Option.map_some, e, Option.map_map]; rfl

end Jschon
