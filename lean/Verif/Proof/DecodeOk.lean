import Verif.Model.Decode
import Verif.Spec.SchemaOk
import Verif.Spec.Document
import Verif.Proof.ConstructTotal

/-!
# The keywords that evaluation sees
-/

namespace Jschon
open Spec

variable [dia : Dialect]

/-- The names on which the class of the name depends. -/
def depsOf (k : String) : List String :=
  ((dialectMeta.classes.find? (fun c => c.key = k)).map KwCls.deps).getD []

theorem depsOf_cls {k : String} {c : KwCls} (h : getKwclass dialectMeta k = .ok c) : depsOf k = c.deps := by
  unfold getKwclass at h
  unfold depsOf
  cases hf : dialectMeta.classes.find? (fun c => c.key = k) with
  | some c' => rw [hf] at h; cases h; rfl
  | none =>
    rw [hf] at h
    simp only at h
    split at h
    · cases h
    · split at h
      · cases h
      · cases h; rfl

/-- The keyword is one of that name, as evaluation expects it. -/
def Fits (k : String) (kw : Kw) : Prop :=
  kw.key = k ∧ kw.Ok dia ∧ kw.dependsOn (decide (dia = .d2019)) = depsOf k

/-- The form makes keywords of that name. -/
def Form.Makes (k : String) : Form → Prop
  | .plain f => ∀ v kw, v.WF → f v = some kw → Fits k kw
  | .one f => ∀ t, Fits k (f t)
  | .many f => ∀ ts, Fits k (f ts)
  | .named f => ∀ ms, (dkeys ms).Nodup → Fits k (f ms)
  | .either f g => (∀ t, Fits k (f t)) ∧ ∀ ts, Fits k (g ts)
  | .ref => k = "$ref"
  | .recursiveRef => k = "$recursiveRef" ∧ dia = .d2019
  | .dynamicRef => k = "$dynamicRef" ∧ dia = .d2020
  | .format => k = "format"

theorem numForm_makes {k : String} {f : Num → Kw} (h : ∀ m, Fits k (f m)) : (numForm f).Makes k := by
  intro v kw _ e
  cases v <;> simp only [numKw, reduceCtorEq, Option.some.injEq] at e
  rw [← e]; exact h _

theorem staticForm_makes {k : String} (h : k ∉ reserved dia) (hd : depsOf k = []) : (staticForm k).Makes k := by
  intro v kw _ e
  cases e
  exact ⟨rfl, h, hd.symm⟩

theorem annotForm_makes {k : String} {b : Bool} (h : k ∉ reserved dia) (hd : depsOf k = []) :
    (annotForm k b).Makes k := by
  intro v kw _ e
  cases e
  exact ⟨rfl, h, hd.symm⟩

theorem not_reserved {k : String} (h : k ∉ (["if", "contains", "maxContains", "prefixItems", "items", "additionalItems",
    "unevaluatedItems", "properties", "patternProperties", "additionalProperties", "unevaluatedProperties"] : List String)) :
    k ∉ reserved dia := by
  intro hr
  refine h ?_
  have : ∀ k ∈ reserved dia, k ∈ (["if", "contains", "maxContains", "prefixItems", "items", "additionalItems",
    "unevaluatedItems", "properties", "patternProperties", "additionalProperties", "unevaluatedProperties"] : List String) := by
    cases dia <;> decide
  exact this k hr

theorem defsForm_makes : defsForm.Makes "$defs" := by
  intro v kw _ e
  cases e
  exact ⟨rfl, not_reserved (by decide), by cases dia <;> decide +kernel⟩

theorem commonForms_makes : ∀ p ∈ commonForms, p.2.Makes p.1 := by
  simp only [commonForms, List.forall_mem_cons, List.not_mem_nil, false_imp_iff, implies_true, and_true]
  refine ⟨?_, ?_, ?_, ?_, ?_, ?_, ?_, ?_, ?_, ?_, ?_, ?_, ?_, ?_, ?_, ?_, ?_, ?_, ?_, ?_, ?_, ?_, ?_, ?_, ?_, ?_,
    ?_, ?_, ?_, ?_, ?_, ?_, ?_, ?_, ?_, ?_, ?_, ?_, ?_, ?_, ?_, ?_, ?_, ?_, ?_, ?_, ?_, ?_, ?_, ?_, ?_, ?_⟩
  all_goals first
    | exact defsForm_makes
    | exact staticForm_makes (not_reserved (by decide)) (by cases dia <;> decide +kernel)
    | exact annotForm_makes (not_reserved (by decide)) (by cases dia <;> decide +kernel)
    | exact numForm_makes fun _ => ⟨rfl, trivial, by cases dia <;> simp only [Kw.dependsOn] <;> decide +kernel⟩
    | exact fun _ => ⟨rfl, trivial, by cases dia <;> simp only [Kw.dependsOn] <;> decide +kernel⟩
    | exact fun _ h => ⟨rfl, h, by cases dia <;> simp only [Kw.dependsOn] <;> decide +kernel⟩
    | exact rfl
    | skip
  · intro v kw _ e
    cases v <;> simp only [typeKw, reduceCtorEq, Option.some.injEq, Option.map_eq_some_iff] at e
    · cases e; exact ⟨rfl, trivial, by cases dia <;> simp only [Kw.dependsOn] <;> decide +kernel⟩
    · obtain ⟨_, -, e⟩ := e; cases e; exact ⟨rfl, trivial, by cases dia <;> simp only [Kw.dependsOn] <;> decide +kernel⟩
  · intro v kw hw e
    cases v <;> simp only [enumKw, reduceCtorEq, Option.some.injEq] at e
    cases e
    exact ⟨rfl, by cases hw with | arr h => exact h, by cases dia <;> simp only [Kw.dependsOn] <;> decide +kernel⟩
  · intro v kw hw e
    cases e; exact ⟨rfl, hw, by cases dia <;> simp only [Kw.dependsOn] <;> decide +kernel⟩
  · intro v kw _ e
    cases v <;> simp only [patternKw, reduceCtorEq, Option.some.injEq] at e
    cases e; exact ⟨rfl, trivial, by cases dia <;> simp only [Kw.dependsOn] <;> decide +kernel⟩
  · intro v kw _ e
    cases v <;> simp only [uniqueKw, reduceCtorEq, Option.some.injEq] at e
    cases e; exact ⟨rfl, trivial, by cases dia <;> simp only [Kw.dependsOn] <;> decide +kernel⟩
  · intro v kw _ e
    cases v <;> simp only [requiredKw, reduceCtorEq, Option.map_eq_some_iff] at e
    obtain ⟨_, -, e⟩ := e; cases e; exact ⟨rfl, trivial, by cases dia <;> simp only [Kw.dependsOn] <;> decide +kernel⟩
  · intro v kw _ e
    cases v <;> simp only [dependentRequiredKw, reduceCtorEq, Option.map_eq_some_iff] at e
    obtain ⟨_, -, e⟩ := e; cases e; exact ⟨rfl, trivial, by cases dia <;> simp only [Kw.dependsOn] <;> decide +kernel⟩
  · intro v kw _ e
    cases e; exact ⟨rfl, trivial, by cases dia <;> simp only [Kw.dependsOn] <;> decide +kernel⟩

theorem kwForms_makes : ∀ p ∈ kwForms, p.2.Makes p.1 := by
  have hc := commonForms_makes
  cases dia <;> simp only [kwForms, List.forall_mem_append, List.forall_mem_cons, List.not_mem_nil, false_imp_iff,
    implies_true, and_true]
  · letI : Dialect := .d2019
    refine ⟨hc, ⟨rfl, rfl⟩, staticForm_makes (not_reserved (by decide)) (by decide +kernel), ⟨fun _ => ?_, fun _ => ?_⟩, fun _ => ?_,
      fun _ => ?_⟩ <;> exact ⟨rfl, rfl, by simp only [Kw.dependsOn]; decide +kernel⟩
  · letI : Dialect := .d2020
    refine ⟨hc, ⟨rfl, rfl⟩, staticForm_makes (not_reserved (by decide)) (by decide +kernel), fun _ => ?_, fun _ => ?_,
      fun _ => ?_⟩ <;> exact ⟨rfl, rfl, by simp only [Kw.dependsOn]; decide +kernel⟩

theorem reserved_forms : ∀ k ∈ reserved dia, (dlookup k kwForms).isSome = true := by cases dia <;> decide +kernel
theorem classes_forms : ∀ c ∈ dialectMeta.classes, (dlookup c.key kwForms).isSome = true := by cases dia <;> decide +kernel

theorem depsOf_unknown {k : String} (h : dlookup k kwForms = none) : depsOf k = [] := by
  unfold depsOf
  cases hf : dialectMeta.classes.find? (fun c => c.key = k) with
  | none => rfl
  | some c =>
    have h1 := List.mem_of_find?_eq_some hf
    have h2 := List.find?_some hf
    have := classes_forms c h1
    simp only [decide_eq_true_eq] at h2
    rw [h2, h] at this; cases this

/-- The keyword read off a keyword object has its name. -/
theorem kwOf_fits {E : CEnv} {w : World} (ho : Ord w.heap) (hk : Keys w.heap) {k : String} {o : KwObj}
    {kw : Kw} (h : w.kwOf E (k, o) = some kw) : Fits k kw := by
  unfold World.kwOf at h
  cases hl : dlookup k kwForms with
  | none =>
    simp only [hl, World.kwOfForm, Option.some.injEq] at h
    subst h
    refine ⟨rfl, fun hr => ?_, (depsOf_unknown hl).symm⟩
    have := reserved_forms k hr
    rw [hl] at this; cases this
  | some form =>
    have hm := kwForms_makes _ (dlookup_mem hl)
    cases form with
    | plain f =>
      simp only [hl, World.kwOfForm] at h
      exact hm _ _ (val_wf_ord ho hk.nodup _) h
    | one f => simp only [hl, World.kwOfForm, Option.some.injEq] at h; rw [← h]; exact hm _
    | many f =>
      simp only [hl, World.kwOfForm] at h
      split at h
      · cases h; exact hm _
      · cases h
    | named f =>
      simp only [hl, World.kwOfForm] at h
      split at h
      · rename_i hd; cases h; exact hm _ (hk.nodup _ _ hd)
      · cases h
    | either f g =>
      simp only [hl, World.kwOfForm] at h
      split at h
      · cases h; exact hm.2 _
      · cases h; exact hm.1 _
    | recursiveRef =>
      simp only [hl, World.kwOfForm, Option.map_eq_some_iff] at h
      obtain ⟨t, -, rfl⟩ := h
      obtain ⟨rfl, rfl⟩ : k = "$recursiveRef" ∧ dia = .d2019 := hm
      exact ⟨rfl, rfl, by simp only [Kw.dependsOn]; decide +kernel⟩
    | ref =>
      simp only [hl, World.kwOfForm, Option.map_eq_some_iff] at h
      obtain ⟨t, -, rfl⟩ := h
      have : k = "$ref" := hm
      subst this
      exact ⟨rfl, trivial, by cases dia <;> simp only [Kw.dependsOn] <;> decide +kernel⟩
    | dynamicRef =>
      simp only [hl, World.kwOfForm] at h
      obtain ⟨rfl, rfl⟩ : k = "$dynamicRef" ∧ dia = .d2020 := hm
      split at h
      · cases h; exact ⟨rfl, rfl, by simp only [Kw.dependsOn]; decide +kernel⟩
      · cases h
    | format =>
      simp only [hl, World.kwOfForm] at h
      have : k = "format" := hm
      subst this
      split at h
      · cases h; exact ⟨rfl, trivial, by cases dia <;> simp only [Kw.dependsOn] <;> decide +kernel⟩
      · cases h

/-- Keywords read off an ordered list. -/
theorem depsFirst_filterMap {l : List (String × KwObj)} {g : String × KwObj → Option Kw}
    (hg : ∀ k o kw, g (k, o) = some kw → Fits k kw) (hn : (dkeys l).Nodup)
    (hd : DepsFirst id depsOf (dkeys l)) : DepsFirst Kw.key (Kw.dependsOn (decide (dia = .d2019))) (l.filterMap g) := by
  intro pre a post he b hb hk
  obtain ⟨l1, l2, rfl, h1, h2⟩ := List.filterMap_eq_append_iff.1 he
  obtain ⟨l3, ⟨ka, oa⟩, l4, rfl, h3, h4, h5⟩ := List.filterMap_eq_cons_iff.1 h2
  obtain ⟨⟨kb, ob⟩, hbl, hbg⟩ := List.mem_filterMap.1 hb
  have fa := hg _ _ _ h4
  have fb := hg _ _ _ hbg
  have e1 : dkeys (l1 ++ (l3 ++ (ka, oa) :: l4)) = (dkeys (l1 ++ l3)) ++ ka :: dkeys l4 := by simp [dkeys]
  have h6 := hd _ _ _ e1 kb (mem_dkeys.2 ⟨ob, hbl⟩) (by rw [← fa.2.2, ← fb.1]; exact hk)
  obtain ⟨ob', hm⟩ := mem_dkeys.1 h6
  have h7 : (kb, ob') ∈ l1 ++ (l3 ++ (ka, oa) :: l4) := by
    rcases List.mem_append.1 hm with h | h
    · exact List.mem_append_left _ h
    · exact List.mem_append_right _ (List.mem_append_left _ h)
  have : ob' = ob := by
    have n1 := dlookup_of_mem hn hbl
    have n2 := dlookup_of_mem hn h7
    rw [n1] at n2; cases n2; rfl
  subst this
  rw [← h1]
  rcases List.mem_append.1 hm with h | h
  · exact List.mem_filterMap.2 ⟨_, h, hbg⟩
  · have := h3 _ h
    rw [hbg] at this; cases this

theorem nodup_filterMap {l : List (String × KwObj)} {g : String × KwObj → Option Kw}
    (hg : ∀ k o kw, g (k, o) = some kw → Fits k kw) (hn : (dkeys l).Nodup) :
    ((l.filterMap g).map Kw.key).Nodup := by
  refine List.Nodup.sublist ?_ hn
  clear hn
  induction l with
  | nil => exact .slnil
  | cons a l ih =>
    obtain ⟨k, o⟩ := a
    cases hk : g (k, o) with
    | none =>
      rw [List.filterMap_cons_none hk]
      exact .cons _ ih
    | some kw =>
      rw [List.filterMap_cons_some hk]
      simp only [List.map_cons, dkeys]
      rw [(hg _ _ _ hk).1]
      exact ih.cons_cons _

theorem kwsOk_filterMap {l : List (String × KwObj)} {g : String × KwObj → Option Kw}
    (hg : ∀ k o kw, g (k, o) = some kw → Fits k kw) (hn : (dkeys l).Nodup)
    (hd : DepsFirst id depsOf (dkeys l)) : KwsOk dia (l.filterMap g) where
  nodup := nodup_filterMap hg hn
  ok kw h := by
    obtain ⟨⟨k, o⟩, -, h⟩ := List.mem_filterMap.1 h
    exact (hg _ _ _ h).2.1
  deps := depsFirst_filterMap hg hn hd

end Jschon
