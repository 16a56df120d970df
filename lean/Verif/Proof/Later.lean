import Verif.Proof.ResolveFrame
import Verif.Proof.ConstructDoc
import Verif.Proof.DecodeOk
import Verif.Proof.Island

/-!
# Evaluation after further constructions
-/

namespace Jschon
open Spec

theorem Spec.CAfter.spec {w w' : World} (h : CAfter w w') (ok : WOk w) :
    WOk w' ∧ Grown w w' ∧ Before w.heap.next w w' := by
  induction h with
  | refl => exact ⟨ok, .refl _, .refl _ _⟩
  | new _ hE hd hu h ih =>
    obtain ⟨ok', g, b⟩ := ih
    have p := newDocument_spec hE hd (.doc ok' hu) h
    exact ⟨p.ok, g.trans p.grown,
      b.trans ((newDocument_before hE _ _ _ _ _ _ _ _ hd (.doc ok' hu) h).le g.le)⟩
  | get _ hE h ih =>
    obtain ⟨ok', g, b⟩ := ih
    obtain ⟨ok'', g', -⟩ := getSchema_spec hE ok' h
    exact ⟨ok'', g.trans g', b.trans ((getSchema_before hE ok' h).le g.le)⟩

theorem kwOfForm_congr {E : CEnv} {w w' : World} {k : String} {o : KwObj}
    (hd : w'.heap.data o.json = w.heap.data o.json) (hv : val w'.heap o.json = val w.heap o.json) :
    ∀ f, w'.kwOfForm E k o f = w.kwOfForm E k o f
  | none | some (.plain _) => by simp only [World.kwOfForm, hv]
  | some (.one _) | some .ref | some .recursiveRef => rfl
  | some (.many _) | some (.either _ _) | some (.named _) | some .dynamicRef | some .format => by
    simp only [World.kwOfForm, hd]

theorem keywords_kid {w : World} (ok : WOk w) {x : Nat} {kv : String × KwObj} (h : kv ∈ w.keywords x) :
    x < kv.2.json ∧ kv.2.json < w.heap.next := by
  unfold World.keywords at h
  cases hi : w.info x with
  | none => rw [hi] at h; cases h
  | some i =>
    rw [hi] at h
    have := ok.ord.kid _ _ (ok.kid hi h)
    exact ⟨this.1, this.2.1⟩

/-- A schema object is what it was. -/
theorem schemaObj_later [dia : Dialect] {E : CEnv} {w w' : World} (ok : WOk w) (ok' : WOk w') (g : Grown w w')
    (b : Before w.heap.next w w') {x : Nat} (hx : x < w.heap.next) :
    w'.schemaObj E x = w.schemaObj E x := by
  have hk : w'.keywords x = w.keywords x := by simp only [World.keywords, b x hx]
  have hl : (w.keywords x).filterMap (w'.kwOf E) = (w.keywords x).filterMap (w.kwOf E) := by
    have : ∀ kv ∈ w.keywords x, w'.kwOf E kv = w.kwOf E kv := fun kv h => by
      have hj := (keywords_kid ok h).2
      exact kwOfForm_congr (g.ext.data hj) (g.val ok ok' hj) _
    generalize w.keywords x = l at this
    induction l with
    | nil => rfl
    | cons a l ih =>
      simp only [List.filterMap_cons, this a (by simp), ih fun kv h => this kv (by simp [h])]
  simp only [World.schemaObj, g.ext.data hx, hk, hl]

/-- The schemas that the form refers to are at, or right below, the instance, or the target. -/
def Form.Inside : Form → Prop
  | .plain f => ∀ v kw t, f v = some kw → ¬ Subschema kw t
  | .one f => ∀ s t, Subschema (f s) t → t = s
  | .many f => ∀ ss t, Subschema (f ss) t → t ∈ ss
  | .named f => ∀ ms t, Subschema (f ms) t → ∃ n, (n, t) ∈ ms
  | .either f g => (∀ s t, Subschema (f s) t → t = s) ∧ ∀ ss t, Subschema (g ss) t → t ∈ ss
  | _ => True

theorem numForm_inside {f : Num → Kw} (h : ∀ m t, ¬ Subschema (f m) t) : (numForm f).Inside := by
  intro v kw t e
  cases v <;> simp only [numKw, reduceCtorEq, Option.some.injEq] at e
  rw [← e]; exact h _ _

theorem staticForm_inside {k : String} : (staticForm k).Inside := by
  intro v kw t e; cases e; exact id

theorem defsForm_inside : defsForm.Inside := by
  intro v kw t e; cases e; exact id

theorem annotForm_inside {k : String} {b : Bool} : (annotForm k b).Inside := by
  intro v kw t e; cases e; exact id

theorem commonForms_inside : ∀ p ∈ commonForms, p.2.Inside := by
  simp only [commonForms, List.forall_mem_cons, List.not_mem_nil, false_imp_iff, implies_true, and_true]
  refine ⟨?_, ?_, ?_, ?_, ?_, ?_, ?_, ?_, ?_, ?_, ?_, ?_, ?_, ?_, ?_, ?_, ?_, ?_, ?_, ?_, ?_, ?_, ?_, ?_, ?_, ?_,
    ?_, ?_, ?_, ?_, ?_, ?_, ?_, ?_, ?_, ?_, ?_, ?_, ?_, ?_, ?_, ?_, ?_, ?_, ?_, ?_, ?_, ?_, ?_, ?_, ?_, ?_⟩
  all_goals first
    | exact defsForm_inside
    | exact staticForm_inside
    | exact annotForm_inside
    | exact numForm_inside fun _ _ => id
    | trivial
    | exact fun _ _ h => h
    | skip
  all_goals
    intro v kw t e
    cases v <;> simp only [typeKw, enumKw, patternKw, uniqueKw, requiredKw, dependentRequiredKw, reduceCtorEq,
      Option.some.injEq, Option.map_eq_some_iff] at e
    all_goals first
      | (obtain ⟨_, _, rfl⟩ := e; exact id)
      | (subst e; exact id)

theorem kwForms_inside [dia : Dialect] : ∀ p ∈ kwForms, p.2.Inside := by
  intro p hp
  cases dia <;> rcases List.mem_append.1 hp with hp | hp <;> try exact commonForms_inside p hp
  all_goals
    simp only [List.mem_cons, List.not_mem_nil, or_false] at hp
    rcases hp with rfl | rfl | rfl | rfl | rfl
  all_goals first
    | exact staticForm_inside
    | trivial
    | exact fun _ _ h => h
    | exact ⟨fun _ _ h => h, fun _ _ h => h⟩

/-- The schemas that evaluation may involve are there. -/
theorem subschema_old [dia : Dialect] {E : CEnv} {cid : String} {w : World} (ok : WOk w) {x t : Nat} {kws : List Kw} {kw : Kw}
    (ho : (w.store E cid).obj x = .obj kws) (hk : kw ∈ kws) (ht : Subschema kw t) : t < w.heap.next := by
  have hm : kw ∈ (w.keywords x).filterMap (w.kwOf E) := by
    simp only [World.store, World.schemaObj] at ho
    split at ho
    · cases ho
    · cases ho; exact hk
  obtain ⟨kv, h1, h2⟩ := List.mem_filterMap.1 hm
  have hj := (keywords_kid ok h1).2
  have hkid : ∀ {c}, c ∈ (w.heap.data kv.2.json).kids → c < w.heap.next := fun hc => (ok.ord.kid _ _ hc).2.1
  have href : ∀ {c}, kv.2.refschema = some c → c < w.heap.next := fun hc => by
    unfold World.keywords at h1
    cases hi : w.info x with
    | none => rw [hi] at h1; cases h1
    | some i => rw [hi] at h1; exact ok.dom _ ((ok.shapes x i kv hi h1).2 _ hc)
  unfold World.kwOf at h2
  cases hf : dlookup kv.1 kwForms with
  | none => rw [hf] at h2; cases h2; exact ht.elim
  | some f =>
    rw [hf] at h2
    have hin := kwForms_inside _ (dlookup_mem hf)
    cases f with
    | plain f => exact absurd ht (hin _ _ _ h2)
    | one f => cases h2; rw [hin _ _ ht]; exact hj
    | many f =>
      simp only [World.kwOfForm] at h2
      cases hd : w.heap.data kv.2.json <;> rw [hd] at h2 <;> cases h2
      exact hkid (by rw [hd]; exact hin _ _ ht)
    | named f =>
      simp only [World.kwOfForm] at h2
      cases hd : w.heap.data kv.2.json <;> rw [hd] at h2 <;> cases h2
      obtain ⟨n, hn⟩ := hin _ _ ht
      exact hkid (by rw [hd]; exact List.mem_map.2 ⟨_, hn, rfl⟩)
    | either f g =>
      simp only [World.kwOfForm] at h2
      split at h2
      · rename_i cs hd
        cases h2
        exact hkid (by rw [hd]; exact hin.2 _ _ ht)
      · cases h2; rw [hin.1 _ _ ht]; exact hj
    | recursiveRef =>
      simp only [World.kwOfForm, Option.map_eq_some_iff] at h2
      obtain ⟨c, hc, rfl⟩ := h2
      cases ht; exact href hc
    | ref =>
      simp only [World.kwOfForm, Option.map_eq_some_iff] at h2
      obtain ⟨c, hc, rfl⟩ := h2
      cases ht; exact href hc
    | dynamicRef =>
      simp only [World.kwOfForm] at h2
      cases hd : w.heap.data kv.2.json <;> rw [hd] at h2 <;> try (cases h2; done)
      cases hr : kv.2.refschema <;> rw [hr] at h2 <;> cases h2
      cases ht; exact href hr
    | format =>
      simp only [World.kwOfForm] at h2
      cases hd : w.heap.data kv.2.json <;> rw [hd] at h2 <;> cases h2
      exact ht.elim

/-- Evaluation of a schema involves schemas that were there with it. -/
theorem uses_old [dia : Dialect] {E : CEnv} {cid : String} {w : World} (ok : WOk w) {s x : Nat} (hs : s < w.heap.next)
    (h : Uses (w.store E cid) s x) : x < w.heap.next := by
  cases h with
  | refl => exact hs
  | step _ ho hk ht => exact subschema_old ok ho hk ht

end Jschon
