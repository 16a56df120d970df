import Verif.Model.Locations
import Verif.Spec.Locations
import Verif.Proof.ResultPlaces
import Verif.Proof.DecodeOk
import Verif.Proof.ConstructDoc

/-!
# Results of evaluations over constructed schemas
-/

namespace Jschon
open Spec

variable [dia : Dialect]

/-- The keywords of the form have those subschemas that are at the keyword's value. -/
def Form.Lays : Form → Prop
  | .plain f => ∀ v kw, f v = some kw → kw.direct = none ∧ ∀ k t, ¬ kw.indexed k t
  | .one f => ∀ t, (f t).direct = some t ∧ ∀ k t', ¬ (f t).indexed k t'
  | .many f => ∀ ts, (f ts).direct = none ∧
      ∀ k t, (f ts).indexed k t → ∃ n, k = natStr n ∧ ts[n]? = some t
  | .named f => ∀ ms, (f ms).direct = none ∧ ∀ k t, (f ms).indexed k t → (k, t) ∈ ms
  | .either f g => (∀ t, (f t).direct = some t ∧ ∀ k t', ¬ (f t).indexed k t') ∧
      ∀ ts, (g ts).direct = none ∧ ∀ k t, (g ts).indexed k t → ∃ n, k = natStr n ∧ ts[n]? = some t
  | _ => True

omit dia in
theorem numForm_lays {f : Num → Kw} (h : ∀ m, (f m).direct = none ∧ ∀ k t, ¬ (f m).indexed k t) :
    (numForm f).Lays := by
  intro v kw e
  cases v <;> simp only [numKw, reduceCtorEq, Option.some.injEq] at e
  rw [← e]; exact h _

omit dia in
theorem commonForms_lays : ∀ p ∈ commonForms, p.2.Lays := by
  simp only [commonForms, List.forall_mem_cons, List.not_mem_nil, false_imp_iff, implies_true, and_true]
  refine ⟨?_, ?_, ?_, ?_, ?_, ?_, ?_, ?_, ?_, ?_, ?_, ?_, ?_, ?_, ?_, ?_, ?_, ?_, ?_, ?_, ?_, ?_, ?_, ?_, ?_, ?_,
    ?_, ?_, ?_, ?_, ?_, ?_, ?_, ?_, ?_, ?_, ?_, ?_, ?_, ?_, ?_, ?_, ?_, ?_, ?_, ?_, ?_, ?_, ?_, ?_, ?_, ?_⟩
  all_goals first
    | exact trivial
    | exact fun v kw e => by cases e; exact ⟨rfl, fun _ _ h => h⟩
    | exact numForm_lays fun _ => ⟨rfl, fun _ _ h => h⟩
    | exact fun _ => ⟨rfl, fun _ _ h => h⟩
    | skip
  · intro v kw e
    cases v <;> simp only [typeKw, reduceCtorEq, Option.some.injEq, Option.map_eq_some_iff] at e
    · cases e; exact ⟨rfl, fun _ _ h => h⟩
    · obtain ⟨_, -, e⟩ := e; cases e; exact ⟨rfl, fun _ _ h => h⟩
  · intro v kw e
    cases v <;> simp only [enumKw, reduceCtorEq, Option.some.injEq] at e
    cases e; exact ⟨rfl, fun _ _ h => h⟩
  · intro v kw e
    cases v <;> simp only [patternKw, reduceCtorEq, Option.some.injEq] at e
    cases e; exact ⟨rfl, fun _ _ h => h⟩
  · intro v kw e
    cases v <;> simp only [uniqueKw, reduceCtorEq, Option.some.injEq] at e
    cases e; exact ⟨rfl, fun _ _ h => h⟩
  · intro v kw e
    cases v <;> simp only [requiredKw, reduceCtorEq, Option.map_eq_some_iff] at e
    obtain ⟨_, -, e⟩ := e; cases e; exact ⟨rfl, fun _ _ h => h⟩
  · intro v kw e
    cases v <;> simp only [dependentRequiredKw, reduceCtorEq, Option.map_eq_some_iff] at e
    obtain ⟨_, -, e⟩ := e; cases e; exact ⟨rfl, fun _ _ h => h⟩

theorem kwForms_lays : ∀ p ∈ kwForms, p.2.Lays := by
  have hc := commonForms_lays
  cases dia <;> simp only [kwForms, List.forall_mem_append, List.forall_mem_cons, List.not_mem_nil,
    false_imp_iff, implies_true, and_true]
  · exact ⟨hc, trivial, fun v kw e => (by cases e; exact ⟨rfl, fun _ _ h => h⟩),
      ⟨fun _ => ⟨rfl, fun _ _ h => h⟩, fun _ => ⟨rfl, fun _ _ h => h⟩⟩, fun _ => ⟨rfl, fun _ _ h => h⟩,
      fun _ => ⟨rfl, fun _ _ h => h⟩⟩
  · exact ⟨hc, trivial, fun v kw e => (by cases e; exact ⟨rfl, fun _ _ h => h⟩),
      fun _ => ⟨rfl, fun _ _ h => h⟩, fun _ => ⟨rfl, fun _ _ h => h⟩, fun _ => ⟨rfl, fun _ _ h => h⟩⟩

/-- The subschemas of a keyword are its value, or the items or members of its value. -/
theorem kwOf_lays {E : CEnv} {w : World} {k : String} {o : KwObj} {kw : Kw}
    (h : w.kwOf E (k, o) = some kw) :
    (∀ t, kw.direct = some t → t = o.json) ∧ ∀ k' t, kw.indexed k' t → Child w.heap o.json k' t := by
  have none : kw.direct = none ∧ (∀ k t, ¬ kw.indexed k t) →
      (∀ t, kw.direct = some t → t = o.json) ∧ ∀ k' t, kw.indexed k' t → Child w.heap o.json k' t :=
    fun ⟨a, b⟩ => ⟨fun t ht => (by rw [a] at ht; cases ht), fun k' t ht => absurd ht (b k' t)⟩
  unfold World.kwOf at h
  cases hl : dlookup k kwForms with
  | none =>
    simp only [hl, World.kwOfForm, Option.some.injEq] at h
    subst h
    exact none ⟨rfl, fun _ _ h => h⟩
  | some form =>
    have hm := kwForms_lays _ (dlookup_mem hl)
    cases form with
    | plain f => simp only [hl, World.kwOfForm] at h; exact none (hm _ _ h)
    | one f =>
      simp only [hl, World.kwOfForm, Option.some.injEq] at h; rw [← h]
      exact ⟨fun t ht => (by rw [(hm o.json).1] at ht; cases ht; rfl),
        fun k' t ht => absurd ht ((hm o.json).2 k' t)⟩
    | many f =>
      simp only [hl, World.kwOfForm] at h
      split at h
      · rename_i cs hd
        cases h
        refine ⟨fun t ht => (by rw [(hm cs).1] at ht; cases ht), fun k' t ht => ?_⟩
        simp only [Child, hd, ChildD]; exact (hm cs).2 _ _ ht
      · cases h
    | named f =>
      simp only [hl, World.kwOfForm] at h
      split at h
      · rename_i ms hd
        cases h
        refine ⟨fun t ht => (by rw [(hm ms).1] at ht; cases ht), fun k' t ht => ?_⟩
        simp only [Child, hd, ChildD]; exact (hm ms).2 _ _ ht
      · cases h
    | either f g =>
      simp only [hl, World.kwOfForm] at h
      split at h
      · rename_i cs hd
        cases h
        refine ⟨fun t ht => (by rw [(hm.2 cs).1] at ht; cases ht), fun k' t ht => ?_⟩
        simp only [Child, hd, ChildD]; exact (hm.2 cs).2 _ _ ht
      · cases h
        exact ⟨fun t ht => (by rw [(hm.1 o.json).1] at ht; cases ht; rfl),
          fun k' t ht => absurd ht ((hm.1 o.json).2 k' t)⟩
    | recursiveRef =>
      simp only [hl, World.kwOfForm, Option.map_eq_some_iff] at h
      obtain ⟨t, -, rfl⟩ := h
      exact none ⟨rfl, fun _ _ h => h⟩
    | ref =>
      simp only [hl, World.kwOfForm, Option.map_eq_some_iff] at h
      obtain ⟨t, -, rfl⟩ := h
      exact none ⟨rfl, fun _ _ h => h⟩
    | dynamicRef =>
      simp only [hl, World.kwOfForm] at h
      split at h
      · cases h; exact none ⟨rfl, fun _ _ h => h⟩
      · cases h
    | format =>
      simp only [hl, World.kwOfForm] at h
      split at h
      · cases h; exact none ⟨rfl, fun _ _ h => h⟩
      · cases h

section
variable {E : CEnv} {cid : String} {w : World}

omit dia in
theorem keywords_child (ok : WOk w) {s : Nat} {kv : String × KwObj} (h : kv ∈ w.keywords s) :
    Child w.heap s kv.1 kv.2.json := by
  unfold World.keywords at h
  cases hi : w.info s with
  | none => rw [hi] at h; cases h
  | some i =>
    rw [hi] at h
    have h1 : (kv.1, kv.2.json) ∈ (w.heap.data s).members := by
      rw [← ok.kws s i hi]; exact List.mem_map_of_mem h
    have hs : w.isSchema s = true := by simp [World.isSchema, hi]
    unfold Child
    cases hd : w.heap.data s with
    | obj ms => rw [hd] at h1; exact h1
    | arr cs => exact absurd hd (ok.whole s cs hs)
    | _ => rw [hd] at h1; simp [JData.members] at h1

/-- A keyword of a schema object is a member of it, and its subschemas are where they should be. -/
theorem store_keyword (ok : WOk w) {s : SRef} {kw : Kw}
    (h : kw ∈ (w.store E cid).keywords s) : ∃ j, Child w.heap s kw.key j ∧
      (∀ t, kw.direct = some t → t = j) ∧ ∀ k t, kw.indexed k t → Child w.heap j k t := by
  unfold Store.keywords at h
  simp only [World.store, World.schemaObj] at h
  split at h
  · cases h
  · rename_i kws he
    split at he
    · cases he
    · cases he
      obtain ⟨⟨k, o⟩, hm, hk⟩ := List.mem_filterMap.1 h
      rw [(kwOf_fits ok.ord ok.keys hk).1]
      exact ⟨o.json, keywords_child ok hm, kwOf_lays hk⟩

theorem store_noLoop (ok : WOk w) : NoLoop (w.store E cid) := by
  intro s kw hk
  obtain ⟨j, h1, h2, h3⟩ := store_keyword ok hk
  have hj := (ok.ord.kid _ _ (childD_kid h1)).1
  refine ⟨fun t ht => ?_, fun k t ht => ?_⟩
  · rw [h2 t ht]; omega
  · have := (ok.ord.kid _ _ (childD_kid (h3 k t ht))).1
    omega

theorem nodeAt_reach (ok : WOk w) {info : RInfo} (h : NodeAt (w.store E cid) info) :
    ∃ x, Reach w.heap info.schema info.relpath x := by
  cases h with
  | root h1 => rw [h1]; exact ⟨_, .here⟩
  | kw hm hr =>
    obtain ⟨j, h1, -, -⟩ := store_keyword ok hm
    rw [hr]; exact ⟨j, reach_one.2 h1⟩
  | sub hm hr _ _ hi =>
    obtain ⟨j, h1, -, h3⟩ := store_keyword ok hm
    rw [hr]; exact ⟨_, .step h1 (reach_one.2 (h3 _ _ hi))⟩

theorem leads_dest (ok : WOk w) {info : RInfo} {t x : Nat} (h : Leads (w.store E cid) info t)
    (hx : Reach w.heap info.schema info.relpath x) : info.refschema.getD x = t := by
  cases h with
  | root h1 h2 => rw [h1] at hx; rw [h2]; cases hx; rfl
  | direct hm hr h2 hd =>
    obtain ⟨j, h1, h3, -⟩ := store_keyword ok hm
    rw [hr] at hx
    rw [h2, h3 _ hd]
    exact reach_unique ok.keys.nodup hx (reach_one.2 h1)
  | indexed hm hr h2 hd =>
    obtain ⟨j, h1, -, h3⟩ := store_keyword ok hm
    rw [hr] at hx
    rw [h2]
    exact reach_unique ok.keys.nodup hx (.step h1 (reach_one.2 (h3 _ _ hd)))
  | ref h => rw [h]; rfl

theorem edgeAt_child (ok : WOk w) {info child : RInfo} {x : Nat} (h : EdgeAt (w.store E cid) info child)
    (hc : NodeAt (w.store E cid) child) (hx : Reach w.heap info.schema info.relpath x) :
    ∃ y k, child.key = some k ∧ Reach w.heap child.schema child.relpath y ∧
      Child w.heap (info.refschema.getD x) k y := by
  obtain ⟨y, hy⟩ := nodeAt_reach ok hc
  cases h with
  | @index k h1 h2 h3 h4 =>
    refine ⟨y, k, h3, hy, ?_⟩
    rw [h1, h2] at hy
    obtain ⟨b, e1, e2⟩ := reach_split hy
    rw [h4, ← reach_unique ok.keys.nodup e1 hx]
    exact reach_one.1 e2
  | kw hl hk =>
    obtain ⟨rfl, kw, hm, hr, hkey⟩ := hk
    refine ⟨y, kw.key, hkey, hy, ?_⟩
    rw [leads_dest ok hl hx]
    rw [hr] at hy
    exact reach_one.1 hy

end
end Jschon
