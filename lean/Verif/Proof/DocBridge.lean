import Verif.Proof.DocReads
import Verif.Proof.DynScope

/-!
# The meaning of schema objects and the meaning of what was written
-/

namespace Jschon
open Spec

section
variable [dia : Dialect]
variable {lib : UriLib} {L : Links} {enabled : String → Bool} {C : Nat → Site → Prop} {b : Uri} {kws : List Kw}
  {kvs : List (String × Value)} {H : Nat → Value → Prop}

omit dia in
theorem ListReads.mem {ts : List Nat} {vs : List Value} (h : ListReads H ts vs) {t : Nat} (ht : t ∈ ts) :
    ∃ v ∈ vs, H t v := by
  obtain ⟨i, hi, rfl⟩ := List.mem_iff_getElem.1 ht
  have := h.1
  exact ⟨vs[i], List.getElem_mem _, h.2 i _ _ (List.getElem?_eq_getElem hi) (List.getElem?_eq_getElem (by omega))⟩

omit dia in
theorem ListReads.mem' {ts : List Nat} {vs : List Value} (h : ListReads H ts vs) {v : Value} (hv : v ∈ vs) :
    ∃ t ∈ ts, H t v := by
  obtain ⟨i, hi, rfl⟩ := List.mem_iff_getElem.1 hv
  have := h.1
  exact ⟨ts[i], List.getElem_mem _, h.2 i _ _ (List.getElem?_eq_getElem (by omega)) (List.getElem?_eq_getElem hi)⟩

omit dia in
theorem ListReads.get {ts : List Nat} {vs : List Value} (h : ListReads H ts vs) {i t : Nat} (ht : ts[i]? = some t) :
    ∃ v, vs[i]? = some v ∧ H t v := by
  obtain ⟨hi, -⟩ := List.getElem?_eq_some_iff.1 ht
  have := h.1
  have hv := List.getElem?_eq_getElem (l := vs) (i := i) (by omega)
  exact ⟨_, hv, h.2 i _ _ ht hv⟩

omit dia in
theorem ListReads.get' {ts : List Nat} {vs : List Value} (h : ListReads H ts vs) {i : Nat} {v : Value}
    (hv : vs[i]? = some v) : ∃ t, ts[i]? = some t ∧ H t v := by
  obtain ⟨hi, -⟩ := List.getElem?_eq_some_iff.1 hv
  have := h.1
  have ht := List.getElem?_eq_getElem (l := ts) (i := i) (by omega)
  exact ⟨_, ht, h.2 i _ _ ht hv⟩

omit dia in
theorem DictReads.mem {ts : List (String × Nat)} {vs : List (String × Value)} (h : DictReads H ts vs) {n : String}
    {t : Nat} (ht : (n, t) ∈ ts) : ∃ v, (n, v) ∈ vs ∧ H t v := by
  obtain ⟨v, hv⟩ := mem_dkeys.1 (h.1.mem_iff.1 (mem_dkeys.2 ⟨_, ht⟩))
  exact ⟨v, hv, h.2 n t v ht hv⟩

omit dia in
theorem DictReads.mem' {ts : List (String × Nat)} {vs : List (String × Value)} (h : DictReads H ts vs) {n : String}
    {v : Value} (hv : (n, v) ∈ vs) : ∃ t, (n, t) ∈ ts ∧ H t v := by
  obtain ⟨t, ht⟩ := mem_dkeys.1 (h.1.mem_iff.2 (mem_dkeys.2 ⟨_, hv⟩))
  exact ⟨t, ht, h.2 n t v ht hv⟩

/-! ## From the member to the keyword -/

/-- Members of either dialect that matter. -/
def liveNames : List String :=
  ["not", "if", "then", "else", "contains", "additionalProperties", "propertyNames", "unevaluatedItems",
   "unevaluatedProperties", "items", "allOf", "anyOf", "oneOf", "dependentSchemas", "properties", "patternProperties",
   "minContains", "maxContains", "format", "$ref"] ++ assertNames

theorem idle_live : ∀ k ∈ liveNames,
    k ∉ bootNames ∧ k ∉ noteKeys ∧ k ≠ "$defs" ∧ k ∈ definedNames ∧ k ∉ anchorNames := by
  cases dia <;> decide +kernel

theorem idle_live20 (h : dia = .d2020) : ∀ k ∈ ["prefixItems", "$dynamicRef", "$dynamicAnchor"],
    k ∉ bootNames ∧ k ∉ noteKeys ∧ k ≠ "$defs" ∧ k ∈ definedNames := by
  subst h; decide +kernel

theorem idle_live19 (h : dia = .d2019) : ∀ k ∈ ["additionalItems", "$recursiveRef", "$recursiveAnchor"],
    k ∉ bootNames ∧ k ∉ noteKeys ∧ k ≠ "$defs" ∧ k ∈ definedNames := by
  subst h; decide +kernel

theorem not_idle_of {k : String} (h : k ∉ bootNames ∧ k ∉ noteKeys ∧ k ≠ "$defs" ∧ k ∈ definedNames) : ¬ idleName k := by
  obtain ⟨h1, h2, h3, h4⟩ := h
  rintro (h | h | h | h)
  · exact h1 h
  · exact h2 h
  · exact h3 h
  · exact h h4

theorem not_idle {k : String} (h : k ∈ liveNames) : ¬ idleName k := by
  obtain ⟨h1, h2, h3, h4, -⟩ := idle_live k h
  exact not_idle_of ⟨h1, h2, h3, h4⟩

theorem ObjReads.doc_not_ (O : ObjReads lib L enabled C b kws kvs) {v : Value} (h : ("not", v) ∈ kvs) :
    ∃ t, Kw.not_ t ∈ kws ∧ SubOf lib C b t v := by
  obtain ⟨kw, h1, h2⟩ := O.of_doc _ _ h
  have hi : ¬ idleName "not" := not_idle (by decide)
  have ha : "not" ∉ assertNames := by decide
  have hn : "not" ∉ anchorNames := by decide
  cases kw <;> simp only [KwReads, hi, ha, hn, false_and, and_false, or_self, String.reduceEq, true_and] at h2
  exact ⟨_, h1, h2⟩

theorem ObjReads.doc_if_ (O : ObjReads lib L enabled C b kws kvs) {v : Value} (h : ("if", v) ∈ kvs) :
    ∃ t, Kw.if_ t ∈ kws ∧ SubOf lib C b t v := by
  obtain ⟨kw, h1, h2⟩ := O.of_doc _ _ h
  have hi : ¬ idleName "if" := not_idle (by decide)
  have ha : "if" ∉ assertNames := by decide
  have hn : "if" ∉ anchorNames := by decide
  cases kw <;> simp only [KwReads, hi, ha, hn, false_and, and_false, or_self, String.reduceEq, true_and] at h2
  exact ⟨_, h1, h2⟩

theorem ObjReads.doc_then_ (O : ObjReads lib L enabled C b kws kvs) {v : Value} (h : ("then", v) ∈ kvs) :
    ∃ t, Kw.then_ t ∈ kws ∧ SubOf lib C b t v := by
  obtain ⟨kw, h1, h2⟩ := O.of_doc _ _ h
  have hi : ¬ idleName "then" := not_idle (by decide)
  have ha : "then" ∉ assertNames := by decide
  have hn : "then" ∉ anchorNames := by decide
  cases kw <;> simp only [KwReads, hi, ha, hn, false_and, and_false, or_self, String.reduceEq, true_and] at h2
  exact ⟨_, h1, h2⟩

theorem ObjReads.doc_else_ (O : ObjReads lib L enabled C b kws kvs) {v : Value} (h : ("else", v) ∈ kvs) :
    ∃ t, Kw.else_ t ∈ kws ∧ SubOf lib C b t v := by
  obtain ⟨kw, h1, h2⟩ := O.of_doc _ _ h
  have hi : ¬ idleName "else" := not_idle (by decide)
  have ha : "else" ∉ assertNames := by decide
  have hn : "else" ∉ anchorNames := by decide
  cases kw <;> simp only [KwReads, hi, ha, hn, false_and, and_false, or_self, String.reduceEq, true_and] at h2
  exact ⟨_, h1, h2⟩

theorem ObjReads.doc_contains (O : ObjReads lib L enabled C b kws kvs) {v : Value} (h : ("contains", v) ∈ kvs) :
    ∃ t, Kw.contains t ∈ kws ∧ SubOf lib C b t v := by
  obtain ⟨kw, h1, h2⟩ := O.of_doc _ _ h
  have hi : ¬ idleName "contains" := not_idle (by decide)
  have ha : "contains" ∉ assertNames := by decide
  have hn : "contains" ∉ anchorNames := by decide
  cases kw <;> simp only [KwReads, hi, ha, hn, false_and, and_false, or_self, String.reduceEq, true_and] at h2
  exact ⟨_, h1, h2⟩

theorem ObjReads.doc_additionalProperties (O : ObjReads lib L enabled C b kws kvs) {v : Value} (h : ("additionalProperties", v) ∈ kvs) :
    ∃ t, Kw.additionalProperties t ∈ kws ∧ SubOf lib C b t v := by
  obtain ⟨kw, h1, h2⟩ := O.of_doc _ _ h
  have hi : ¬ idleName "additionalProperties" := not_idle (by decide)
  have ha : "additionalProperties" ∉ assertNames := by decide
  have hn : "additionalProperties" ∉ anchorNames := by decide
  cases kw <;> simp only [KwReads, hi, ha, hn, false_and, and_false, or_self, String.reduceEq, true_and] at h2
  exact ⟨_, h1, h2⟩

theorem ObjReads.doc_propertyNames (O : ObjReads lib L enabled C b kws kvs) {v : Value} (h : ("propertyNames", v) ∈ kvs) :
    ∃ t, Kw.propertyNames t ∈ kws ∧ SubOf lib C b t v := by
  obtain ⟨kw, h1, h2⟩ := O.of_doc _ _ h
  have hi : ¬ idleName "propertyNames" := not_idle (by decide)
  have ha : "propertyNames" ∉ assertNames := by decide
  have hn : "propertyNames" ∉ anchorNames := by decide
  cases kw <;> simp only [KwReads, hi, ha, hn, false_and, and_false, or_self, String.reduceEq, true_and] at h2
  exact ⟨_, h1, h2⟩

theorem ObjReads.doc_items (O : ObjReads lib L enabled C b kws kvs) (hd : dia = .d2020) {v : Value}
    (h : ("items", v) ∈ kvs) :
    ∃ t, Kw.items t ∈ kws ∧ SubOf lib C b t v := by
  obtain ⟨kw, h1, h2⟩ := O.of_doc _ _ h
  have hi : ¬ idleName "items" := not_idle (by decide)
  have ha : "items" ∉ assertNames := by decide
  have hn : "items" ∉ anchorNames := by decide
  have hd' : ¬ dia = .d2019 := fun e => by rw [hd] at e; cases e
  cases kw <;> simp only [KwReads, hi, ha, hn, hd', false_and, and_false, or_self, String.reduceEq, true_and] at h2
  exact ⟨_, h1, h2.2⟩

theorem ObjReads.doc_items9 (O : ObjReads lib L enabled C b kws kvs) (hd : dia = .d2019) {v : Value}
    (h : ("items", v) ∈ kvs) :
    (∃ t, Kw.items9 t ∈ kws ∧ (∀ vs, v ≠ .arr vs) ∧ SubOf lib C b t v) ∨
      ∃ ts, Kw.items9Array ts ∈ kws ∧ ∃ vs, v = .arr vs ∧ ListReads (SubOf lib C b) ts vs := by
  obtain ⟨kw, h1, h2⟩ := O.of_doc _ _ h
  have hi : ¬ idleName "items" := not_idle (by decide)
  have ha : "items" ∉ assertNames := by decide
  have hn : "items" ∉ anchorNames := by decide
  have hd' : ¬ dia = .d2020 := fun e => by rw [hd] at e; cases e
  cases kw <;> simp only [KwReads, hi, ha, hn, hd', false_and, and_false, or_self, String.reduceEq, true_and] at h2
  · exact .inl ⟨_, h1, h2.2⟩
  · exact .inr ⟨_, h1, h2.2⟩

theorem ObjReads.doc_additionalItems (O : ObjReads lib L enabled C b kws kvs) (hd : dia = .d2019) {v : Value}
    (h : ("additionalItems", v) ∈ kvs) :
    ∃ t, Kw.additionalItems t ∈ kws ∧ SubOf lib C b t v := by
  obtain ⟨kw, h1, h2⟩ := O.of_doc _ _ h
  have hi : ¬ idleName "additionalItems" := not_idle_of (idle_live19 hd _ (by decide))
  have ha : "additionalItems" ∉ assertNames := by decide
  have hn : "additionalItems" ∉ anchorNames := by decide
  have hd' : ¬ dia = .d2020 := fun e => by rw [hd] at e; cases e
  cases kw <;> simp only [KwReads, hi, ha, hn, hd', false_and, and_false, or_self, String.reduceEq, true_and] at h2
  exact ⟨_, h1, h2.2⟩

theorem ObjReads.doc_unevaluatedItems (O : ObjReads lib L enabled C b kws kvs) {v : Value} (h : ("unevaluatedItems", v) ∈ kvs) :
    ∃ t, (Kw.unevaluatedItems t ∈ kws ∨ Kw.unevaluatedItems9 t ∈ kws) ∧ SubOf lib C b t v := by
  obtain ⟨kw, h1, h2⟩ := O.of_doc _ _ h
  have hi : ¬ idleName "unevaluatedItems" := not_idle (by decide)
  have ha : "unevaluatedItems" ∉ assertNames := by decide
  have hn : "unevaluatedItems" ∉ anchorNames := by decide
  cases kw <;> simp only [KwReads, hi, ha, hn, false_and, and_false, or_self, String.reduceEq, true_and] at h2
  · exact ⟨_, .inl h1, h2.2⟩
  · exact ⟨_, .inr h1, h2.2⟩

theorem ObjReads.doc_unevaluatedProperties (O : ObjReads lib L enabled C b kws kvs) {v : Value} (h : ("unevaluatedProperties", v) ∈ kvs) :
    ∃ t, Kw.unevaluatedProperties t ∈ kws ∧ SubOf lib C b t v := by
  obtain ⟨kw, h1, h2⟩ := O.of_doc _ _ h
  have hi : ¬ idleName "unevaluatedProperties" := not_idle (by decide)
  have ha : "unevaluatedProperties" ∉ assertNames := by decide
  have hn : "unevaluatedProperties" ∉ anchorNames := by decide
  cases kw <;> simp only [KwReads, hi, ha, hn, false_and, and_false, or_self, String.reduceEq, true_and] at h2
  exact ⟨_, h1, h2⟩

theorem ObjReads.doc_allOf (O : ObjReads lib L enabled C b kws kvs) {v : Value} (h : ("allOf", v) ∈ kvs) :
    ∃ ts, Kw.allOf ts ∈ kws ∧ ∃ vs, v = .arr vs ∧ ListReads (SubOf lib C b) ts vs := by
  obtain ⟨kw, h1, h2⟩ := O.of_doc _ _ h
  have hi : ¬ idleName "allOf" := not_idle (by decide)
  have ha : "allOf" ∉ assertNames := by decide
  have hn : "allOf" ∉ anchorNames := by decide
  cases kw <;> simp only [KwReads, hi, ha, hn, false_and, and_false, or_self, String.reduceEq, true_and] at h2
  exact ⟨_, h1, h2⟩

theorem ObjReads.doc_anyOf (O : ObjReads lib L enabled C b kws kvs) {v : Value} (h : ("anyOf", v) ∈ kvs) :
    ∃ ts, Kw.anyOf ts ∈ kws ∧ ∃ vs, v = .arr vs ∧ ListReads (SubOf lib C b) ts vs := by
  obtain ⟨kw, h1, h2⟩ := O.of_doc _ _ h
  have hi : ¬ idleName "anyOf" := not_idle (by decide)
  have ha : "anyOf" ∉ assertNames := by decide
  have hn : "anyOf" ∉ anchorNames := by decide
  cases kw <;> simp only [KwReads, hi, ha, hn, false_and, and_false, or_self, String.reduceEq, true_and] at h2
  exact ⟨_, h1, h2⟩

theorem ObjReads.doc_oneOf (O : ObjReads lib L enabled C b kws kvs) {v : Value} (h : ("oneOf", v) ∈ kvs) :
    ∃ ts, Kw.oneOf ts ∈ kws ∧ ∃ vs, v = .arr vs ∧ ListReads (SubOf lib C b) ts vs := by
  obtain ⟨kw, h1, h2⟩ := O.of_doc _ _ h
  have hi : ¬ idleName "oneOf" := not_idle (by decide)
  have ha : "oneOf" ∉ assertNames := by decide
  have hn : "oneOf" ∉ anchorNames := by decide
  cases kw <;> simp only [KwReads, hi, ha, hn, false_and, and_false, or_self, String.reduceEq, true_and] at h2
  exact ⟨_, h1, h2⟩

theorem ObjReads.doc_prefixItems (O : ObjReads lib L enabled C b kws kvs) (hd : dia = .d2020) {v : Value}
    (h : ("prefixItems", v) ∈ kvs) :
    ∃ ts, Kw.prefixItems ts ∈ kws ∧ ∃ vs, v = .arr vs ∧ ListReads (SubOf lib C b) ts vs := by
  obtain ⟨kw, h1, h2⟩ := O.of_doc _ _ h
  have hi : ¬ idleName "prefixItems" := not_idle_of (idle_live20 hd _ (by decide))
  have ha : "prefixItems" ∉ assertNames := by decide
  have hn : "prefixItems" ∉ anchorNames := by decide
  have hd' : ¬ dia = .d2019 := fun e => by rw [hd] at e; cases e
  cases kw <;> simp only [KwReads, hi, ha, hn, hd', false_and, and_false, or_self, String.reduceEq, true_and] at h2
  exact ⟨_, h1, h2.2⟩

theorem ObjReads.doc_dependentSchemas (O : ObjReads lib L enabled C b kws kvs) {v : Value} (h : ("dependentSchemas", v) ∈ kvs) :
    ∃ ts, Kw.dependentSchemas ts ∈ kws ∧ ∃ vs, v = .obj vs ∧ DictReads (SubOf lib C b) ts vs := by
  obtain ⟨kw, h1, h2⟩ := O.of_doc _ _ h
  have hi : ¬ idleName "dependentSchemas" := not_idle (by decide)
  have ha : "dependentSchemas" ∉ assertNames := by decide
  have hn : "dependentSchemas" ∉ anchorNames := by decide
  cases kw <;> simp only [KwReads, hi, ha, hn, false_and, and_false, or_self, String.reduceEq, true_and] at h2
  exact ⟨_, h1, h2⟩

theorem ObjReads.doc_properties (O : ObjReads lib L enabled C b kws kvs) {v : Value} (h : ("properties", v) ∈ kvs) :
    ∃ ts, Kw.properties ts ∈ kws ∧ ∃ vs, v = .obj vs ∧ DictReads (SubOf lib C b) ts vs := by
  obtain ⟨kw, h1, h2⟩ := O.of_doc _ _ h
  have hi : ¬ idleName "properties" := not_idle (by decide)
  have ha : "properties" ∉ assertNames := by decide
  have hn : "properties" ∉ anchorNames := by decide
  cases kw <;> simp only [KwReads, hi, ha, hn, false_and, and_false, or_self, String.reduceEq, true_and] at h2
  exact ⟨_, h1, h2⟩

theorem ObjReads.doc_patternProperties (O : ObjReads lib L enabled C b kws kvs) {v : Value} (h : ("patternProperties", v) ∈ kvs) :
    ∃ ts, Kw.patternProperties ts ∈ kws ∧ ∃ vs, v = .obj vs ∧ DictReads (SubOf lib C b) ts vs := by
  obtain ⟨kw, h1, h2⟩ := O.of_doc _ _ h
  have hi : ¬ idleName "patternProperties" := not_idle (by decide)
  have ha : "patternProperties" ∉ assertNames := by decide
  have hn : "patternProperties" ∉ anchorNames := by decide
  cases kw <;> simp only [KwReads, hi, ha, hn, false_and, and_false, or_self, String.reduceEq, true_and] at h2
  exact ⟨_, h1, h2⟩

theorem ObjReads.doc_minContains (O : ObjReads lib L enabled C b kws kvs) {v : Value} (h : ("minContains", v) ∈ kvs) :
    ∃ m, Kw.minContains m ∈ kws ∧ v = .num m := by
  obtain ⟨kw, h1, h2⟩ := O.of_doc _ _ h
  have hi : ¬ idleName "minContains" := not_idle (by decide)
  have ha : "minContains" ∉ assertNames := by decide
  have hn : "minContains" ∉ anchorNames := by decide
  cases kw <;> simp only [KwReads, hi, ha, hn, false_and, and_false, or_self, String.reduceEq, true_and] at h2
  exact ⟨_, h1, h2⟩

theorem ObjReads.doc_maxContains (O : ObjReads lib L enabled C b kws kvs) {v : Value} (h : ("maxContains", v) ∈ kvs) :
    ∃ m, Kw.maxContains m ∈ kws ∧ v = .num m := by
  obtain ⟨kw, h1, h2⟩ := O.of_doc _ _ h
  have hi : ¬ idleName "maxContains" := not_idle (by decide)
  have ha : "maxContains" ∉ assertNames := by decide
  have hn : "maxContains" ∉ anchorNames := by decide
  cases kw <;> simp only [KwReads, hi, ha, hn, false_and, and_false, or_self, String.reduceEq, true_and] at h2
  exact ⟨_, h1, h2⟩

theorem ObjReads.doc_format (O : ObjReads lib L enabled C b kws kvs) {v : Value} (h : ("format", v) ∈ kvs) :
    ∃ a e, Kw.format a e ∈ kws ∧ v = .str a ∧ e = enabled a := by
  obtain ⟨kw, h1, h2⟩ := O.of_doc _ _ h
  have hi : ¬ idleName "format" := not_idle (by decide)
  have ha : "format" ∉ assertNames := by decide
  have hn : "format" ∉ anchorNames := by decide
  cases kw <;> simp only [KwReads, hi, ha, hn, false_and, and_false, or_self, String.reduceEq, true_and] at h2
  exact ⟨_, _, h1, h2⟩

theorem ObjReads.doc_ref (O : ObjReads lib L enabled C b kws kvs) {v : Value} (h : ("$ref", v) ∈ kvs) :
    ∃ t, Kw.ref t ∈ kws ∧ ∃ s u, v = .str s ∧ L.refer b s u ∧ ∀ u, L.refer b s u → C t u := by
  obtain ⟨kw, h1, h2⟩ := O.of_doc _ _ h
  have hi : ¬ idleName "$ref" := not_idle (by decide)
  have ha : "$ref" ∉ assertNames := by decide
  have hn : "$ref" ∉ anchorNames := by decide
  cases kw <;> simp only [KwReads, hi, ha, hn, false_and, and_false, or_self, String.reduceEq, true_and] at h2
  exact ⟨_, h1, h2⟩

theorem ObjReads.doc_dynamicRef (O : ObjReads lib L enabled C b kws kvs) (hd : dia = .d2020) {v : Value}
    (h : ("$dynamicRef", v) ∈ kvs) :
    ∃ t f d, Kw.dynamicRef t f d ∈ kws ∧ KwReads lib L enabled C b "$dynamicRef" v (.dynamicRef t f d) := by
  obtain ⟨kw, h1, h2⟩ := O.of_doc _ _ h
  have hi : ¬ idleName "$dynamicRef" := not_idle_of (idle_live20 hd _ (by decide))
  have ha : "$dynamicRef" ∉ assertNames := by decide
  have hn : "$dynamicRef" ∉ anchorNames := by decide
  cases kw
  case dynamicRef => exact ⟨_, _, _, h1, h2⟩
  all_goals simp only [KwReads, hi, ha, hn, false_and, and_false, or_self, String.reduceEq, true_and] at h2

theorem ObjReads.doc_recursiveRef (O : ObjReads lib L enabled C b kws kvs) (hd : dia = .d2019) {v : Value}
    (h : ("$recursiveRef", v) ∈ kvs) :
    ∃ t, Kw.recursiveRef t ∈ kws ∧ ∃ s u, v = .str s ∧ L.refer b s u ∧ ∀ u, L.refer b s u → C t u := by
  obtain ⟨kw, h1, h2⟩ := O.of_doc _ _ h
  have hi : ¬ idleName "$recursiveRef" := not_idle_of (idle_live19 hd _ (by decide))
  have ha : "$recursiveRef" ∉ assertNames := by decide
  have hn : "$recursiveRef" ∉ anchorNames := by decide
  have hd' : ¬ dia = .d2020 := fun e => by rw [hd] at e; cases e
  cases kw <;> simp only [KwReads, hi, ha, hn, hd', false_and, and_false, or_self, String.reduceEq, true_and] at h2
  exact ⟨_, h1, h2.2⟩

theorem ObjReads.doc_assert (O : ObjReads lib L enabled C b kws kvs) {k : String} {v : Value} {a : Assertion}
    (h : (k, v) ∈ kvs) (hw : WrittenAs k v a) : ∃ a', Kw.assert a' ∈ kws ∧ Alike a' a := by
  obtain ⟨kw, h1, h2⟩ := O.of_doc _ _ h
  have hn := written_name hw
  have hi : ¬ idleName k := not_idle (List.mem_append_right _ hn)
  have hk : k ∉ anchorNames := (idle_live k (List.mem_append_right _ hn)).2.2.2.2
  cases kw <;> simp only [KwReads] at h2
  case assert a' => exact ⟨a', h1, h2.2.2 a hw⟩
  case contentSchema => subst h2; exact absurd hn (by decide)
  all_goals first
    | exact absurd h2.2 hi
    | exact h2.2.elim (fun h => absurd h hi) (fun h => absurd h.1 hk)
    | (obtain ⟨rfl, -⟩ := h2; exact absurd hn (by decide))

/-! ## Meaning -/

/-- The schemas of the scopes are made from each other. -/
inductive Scopes (C : Nat → Site → Prop) : List SRef → List Site → Prop
  | nil : Scopes C [] []
  | cons {t q sc sc'} : C t q → Scopes C sc sc' → Scopes C (t :: sc) (q :: sc')

/-- The meanings agree on the schemas made from subschemas. -/
structure DocAgree (C : Nat → Site → Prop) (M : Meaning) (N : DMeaning) : Prop where
  valid : ∀ {t q}, C t q → ∀ {sc sc'}, Scopes C sc sc' → ∀ x, M.valid sc t x ↔ N.valid sc' q x
  ev : ∀ {t q}, C t q → ∀ {sc sc'}, Scopes C sc sc' → ∀ x pt, M.ev sc t x pt ↔ N.ev sc' q x pt

/-- Dynamic and recursive references are to the schemas made from what they refer to. -/
structure Aims (lib : UriLib) (L : Links) (enabled : String → Bool) (C : Nat → Site → Prop) (R : Rules) (sc : List SRef)
    (sc' : List Site) (b : Uri) : Prop where
  dyn : ∀ t f d s, KwReads lib L enabled C b "$dynamicRef" (.str s) (.dynamicRef t f d) →
    (∃ q, DTarget lib L sc' b "$dynamicRef" s q) ∧
    ∀ q, DTarget lib L sc' b "$dynamicRef" s q → C (if d then R.dyn sc t f else t) q
  recr : ∀ t s u, dia = .d2019 → L.refer b s u → (∀ u, L.refer b s u → C t u) →
    (∃ q, DTarget lib L sc' b "$recursiveRef" s q) ∧
    ∀ q, DTarget lib L sc' b "$recursiveRef" s q → C (R.recr sc t) q

variable {M : Meaning} {N : DMeaning} {env : Env} {R : Rules}

theorem ObjReads.named_iff (O : ObjReads lib L enabled C b kws kvs) (n : String) :
    Named env kws n ↔ DNamed env kvs n := by
  constructor
  · rintro (⟨ps, t, h1, h2⟩ | ⟨ps, re, t, h1, h2, h3⟩)
    · obtain ⟨k, v, hv, rfl, vs, rfl, hl⟩ := O.of_kw _ h1
      obtain ⟨v, h, -⟩ := hl.mem h2
      exact .inl ⟨_, _, hv, h⟩
    · obtain ⟨k, v, hv, rfl, vs, rfl, hl⟩ := O.of_kw _ h1
      obtain ⟨v, h, -⟩ := hl.mem h2
      exact .inr ⟨_, _, _, hv, h, h3⟩
  · rintro (⟨ps, t, h1, h2⟩ | ⟨ps, re, t, h1, h2, h3⟩)
    · obtain ⟨ts, h, vs, e, hl⟩ := O.doc_properties h1
      cases e
      obtain ⟨t, ht, -⟩ := hl.mem' h2
      exact .inl ⟨_, _, h, ht⟩
    · obtain ⟨ts, h, vs, e, hl⟩ := O.doc_patternProperties h1
      cases e
      obtain ⟨t, ht, -⟩ := hl.mem' h2
      exact .inr ⟨_, _, _, h, ht, h3⟩

theorem ObjReads.beyond_iff (O : ObjReads lib L enabled C b kws kvs) (hd : dia = .d2020) (j : Nat) :
    BeyondPrefix kws j ↔ DBeyond kvs j := by
  constructor
  · intro h ss hs
    obtain ⟨ts, h1, vs, e, hl⟩ := O.doc_prefixItems hd hs
    cases e
    rw [← hl.1]; exact h _ h1
  · intro h ts hs
    obtain ⟨k, v, hv, rfl, -, vs, rfl, hl⟩ := O.of_kw _ hs
    rw [hl.1]; exact h _ hv

omit dia in
theorem DocAgree.matching (A : DocAgree C M N) {t : Nat} {q : Site} (h : C t q) {sc : List SRef} {sc' : List Site}
    (hsc : Scopes C sc sc') (x : Value) : matching M sc t x = dmatching N sc' q x := by
  unfold Spec.matching dmatching
  congr 1
  funext y
  exact decide_eq_decide.2 (A.valid h hsc y)

theorem ObjReads.ev_iff (O : ObjReads lib L enabled C b kws kvs) (A : DocAgree C M N) (hd : R.dialect = dia)
    {sc : List SRef} {sc' : List Site} (hsc : Scopes C sc sc') (T : Aims lib L enabled C R sc sc' b) (x : Value) (pt : Pt) :
    (∃ kw ∈ kws, KwEv R env M sc kws x kw pt) ↔ DEv env N sc' (site lib b) (DTarget lib L sc' b) kvs x pt := by
  constructor
  · rintro ⟨kw, hk, he⟩
    obtain ⟨k, v, hv, hr⟩ := O.of_kw _ hk
    cases kw <;> simp only [KwReads] at hr
    case allOf =>
      obtain ⟨rfl, vs, rfl, hl⟩ := hr
      obtain ⟨t, h1, h2, h3⟩ := he
      obtain ⟨v, h4, h5⟩ := hl.mem h1
      exact .allOf hv h4 ((A.valid h5 hsc _).1 h2) ((A.ev h5 hsc _ _).1 h3)
    case anyOf =>
      obtain ⟨rfl, vs, rfl, hl⟩ := hr
      obtain ⟨t, h1, h2, h3⟩ := he
      obtain ⟨v, h4, h5⟩ := hl.mem h1
      exact .anyOf hv h4 ((A.valid h5 hsc _).1 h2) ((A.ev h5 hsc _ _).1 h3)
    case oneOf =>
      obtain ⟨rfl, vs, rfl, hl⟩ := hr
      obtain ⟨t, h1, h2, h3⟩ := he
      obtain ⟨v, h4, h5⟩ := hl.mem h1
      exact .oneOf hv h4 ((A.valid h5 hsc _).1 h2) ((A.ev h5 hsc _ _).1 h3)
    case if_ =>
      obtain ⟨rfl, hc⟩ := hr
      exact .if_ hv ((A.valid hc hsc _).1 he.1) ((A.ev hc hsc _ _).1 he.2)
    case then_ =>
      obtain ⟨rfl, hc⟩ := hr
      obtain ⟨⟨c, h1, h2⟩, h3, h4⟩ := he
      obtain ⟨_, c', hv', rfl, hc'⟩ := O.of_kw _ h1
      exact .then_ hv hv' ((A.valid hc' hsc _).1 h2) ((A.valid hc hsc _).1 h3) ((A.ev hc hsc _ _).1 h4)
    case else_ =>
      obtain ⟨rfl, hc⟩ := hr
      obtain ⟨⟨c, h1, h2⟩, h3, h4⟩ := he
      obtain ⟨_, c', hv', rfl, hc'⟩ := O.of_kw _ h1
      exact .else_ hv hv' (fun h => h2 ((A.valid hc' hsc _).2 h)) ((A.valid hc hsc _).1 h3) ((A.ev hc hsc _ _).1 h4)
    case dependentSchemas =>
      obtain ⟨rfl, vs, rfl, hl⟩ := hr
      obtain ⟨⟨n, t⟩, h1, h2, h3, h4⟩ := he
      obtain ⟨v, h5, h6⟩ := hl.mem h1
      exact .dependentSchemas hv h5 h2 ((A.valid h6 hsc _).1 h3) ((A.ev h6 hsc _ _).1 h4)
    case ref =>
      obtain ⟨rfl, s, u, rfl, h1, h2⟩ := hr
      exact .ref hv (.ref h1) ((A.valid (h2 _ h1) hsc _).1 he.1) ((A.ev (h2 _ h1) hsc _ _).1 he.2)
    case dynamicRef =>
      have hr' := hr
      obtain ⟨rfl, -, s, u, rfl, -⟩ := hr'
      obtain ⟨⟨q, hq⟩, h2⟩ := T.dyn _ _ _ _ hr
      exact .ref hv hq ((A.valid (h2 _ hq) hsc _).1 he.1) ((A.ev (h2 _ hq) hsc _ _).1 he.2)
    case recursiveRef =>
      obtain ⟨rfl, h19, s, u, rfl, h0, h1⟩ := hr
      obtain ⟨⟨q, hq⟩, h2⟩ := T.recr _ _ _ h19 h0 h1
      exact .ref hv hq ((A.valid (h2 _ hq) hsc _).1 he.1) ((A.ev (h2 _ hq) hsc _ _).1 he.2)
    case properties =>
      obtain ⟨rfl, vs, rfl, hl⟩ := hr
      cases pt with
      | item => cases he
      | name n =>
        obtain ⟨t, ht⟩ := he
        obtain ⟨v, h, -⟩ := hl.mem ht
        exact .properties hv h
    case patternProperties =>
      obtain ⟨rfl, vs, rfl, hl⟩ := hr
      cases pt with
      | item => cases he
      | name n =>
        obtain ⟨re, t, ht, h2⟩ := he
        obtain ⟨v, h, -⟩ := hl.mem ht
        exact .patternProperties hv h h2
    case additionalProperties =>
      obtain ⟨rfl, hc⟩ := hr
      cases pt with
      | item => cases he
      | name n => exact .additionalProperties hv fun h => he ((O.named_iff n).2 h)
    case prefixItems =>
      obtain ⟨rfl, h20, vs, rfl, hl⟩ := hr
      cases pt with
      | name => cases he
      | item n => exact .prefixItems h20 hv (hl.1 ▸ he)
    case items =>
      obtain ⟨rfl, h20, hc⟩ := hr
      cases pt with
      | name => cases he
      | item n => exact .items h20 hv ((O.beyond_iff h20 n).1 he)
    case items9 =>
      obtain ⟨rfl, h19, ha, hc⟩ := hr
      cases pt with
      | name => cases he
      | item n => exact .itemsAll h19 hv ha
    case items9Array =>
      obtain ⟨rfl, h19, vs, rfl, hl⟩ := hr
      cases pt with
      | name => cases he
      | item n => exact .itemsEach h19 hv (hl.1 ▸ he)
    case additionalItems =>
      obtain ⟨rfl, h19, hc⟩ := hr
      cases pt with
      | name => cases he
      | item n =>
        obtain ⟨ss, h1, h2⟩ := he
        obtain ⟨_, v, hv', rfl, -, vs, rfl, hl⟩ := O.of_kw _ h1
        exact .additionalItems h19 hv hv' (hl.1 ▸ h2)
    case contains =>
      obtain ⟨rfl, hc⟩ := hr
      cases pt with
      | name => cases he
      | item n =>
        obtain ⟨h20, y, h1, h2⟩ := he
        exact .contains (hd.symm.trans h20) hv h1 ((A.valid hc hsc _).1 h2)
    all_goals (cases pt <;> cases he)
  · intro h
    cases h with
    | properties h1 h2 =>
      obtain ⟨ts, h, vs, e, hl⟩ := O.doc_properties h1
      cases e
      obtain ⟨t, ht, -⟩ := hl.mem' h2
      exact ⟨_, h, t, ht⟩
    | patternProperties h1 h2 h3 =>
      obtain ⟨ts, h, vs, e, hl⟩ := O.doc_patternProperties h1
      cases e
      obtain ⟨t, ht, -⟩ := hl.mem' h2
      exact ⟨_, h, _, t, ht, h3⟩
    | additionalProperties h1 h2 =>
      obtain ⟨t, h, -⟩ := O.doc_additionalProperties h1
      exact ⟨_, h, fun h => h2 ((O.named_iff _).1 h)⟩
    | prefixItems h20 h1 h2 =>
      obtain ⟨ts, h, vs, e, hl⟩ := O.doc_prefixItems h20 h1
      cases e
      exact ⟨_, h, show _ < ts.length from hl.1.symm ▸ h2⟩
    | items h20 h1 h2 =>
      obtain ⟨t, h, -⟩ := O.doc_items h20 h1
      exact ⟨_, h, (O.beyond_iff h20 _).2 h2⟩
    | contains h20 h1 h2 h3 =>
      obtain ⟨t, h, hc⟩ := O.doc_contains h1
      exact ⟨_, h, hd.trans h20, _, h2, (A.valid hc hsc _).2 h3⟩
    | itemsAll h19 h1 h2 =>
      rcases O.doc_items9 h19 h1 with ⟨t, h, -⟩ | ⟨ts, h, vs, e, -⟩
      · exact ⟨_, h, trivial⟩
      · exact absurd e (h2 vs)
    | itemsEach h19 h1 h2 =>
      rcases O.doc_items9 h19 h1 with ⟨t, h, e, -⟩ | ⟨ts, h, vs, e, hl⟩
      · exact absurd rfl (e _)
      · cases e
        exact ⟨_, h, show _ < ts.length from hl.1.symm ▸ h2⟩
    | additionalItems h19 h1 h2 h3 =>
      obtain ⟨t, h, -⟩ := O.doc_additionalItems h19 h1
      rcases O.doc_items9 h19 h2 with ⟨t, h', e, -⟩ | ⟨ts, h', vs, e, hl⟩
      · exact absurd rfl (e _)
      · cases e
        exact ⟨_, h, ts, h', show ts.length ≤ _ from hl.1.symm ▸ h3⟩
    | allOf h1 h2 h3 h4 =>
      obtain ⟨ts, h, vs, e, hl⟩ := O.doc_allOf h1
      cases e
      obtain ⟨t, ht, hc⟩ := hl.mem' h2
      exact ⟨_, h, t, ht, (A.valid hc hsc _).2 h3, (A.ev hc hsc _ _).2 h4⟩
    | anyOf h1 h2 h3 h4 =>
      obtain ⟨ts, h, vs, e, hl⟩ := O.doc_anyOf h1
      cases e
      obtain ⟨t, ht, hc⟩ := hl.mem' h2
      exact ⟨_, h, t, ht, (A.valid hc hsc _).2 h3, (A.ev hc hsc _ _).2 h4⟩
    | oneOf h1 h2 h3 h4 =>
      obtain ⟨ts, h, vs, e, hl⟩ := O.doc_oneOf h1
      cases e
      obtain ⟨t, ht, hc⟩ := hl.mem' h2
      exact ⟨_, h, t, ht, (A.valid hc hsc _).2 h3, (A.ev hc hsc _ _).2 h4⟩
    | if_ h1 h2 h3 =>
      obtain ⟨t, h, hc⟩ := O.doc_if_ h1
      exact ⟨_, h, (A.valid hc hsc _).2 h2, (A.ev hc hsc _ _).2 h3⟩
    | then_ h1 h2 h3 h4 h5 =>
      obtain ⟨t, h, hc⟩ := O.doc_then_ h1
      obtain ⟨t', h', hc'⟩ := O.doc_if_ h2
      exact ⟨_, h, ⟨t', h', (A.valid hc' hsc _).2 h3⟩, (A.valid hc hsc _).2 h4, (A.ev hc hsc _ _).2 h5⟩
    | else_ h1 h2 h3 h4 h5 =>
      obtain ⟨t, h, hc⟩ := O.doc_else_ h1
      obtain ⟨t', h', hc'⟩ := O.doc_if_ h2
      exact ⟨_, h, ⟨t', h', fun h => h3 ((A.valid hc' hsc _).1 h)⟩, (A.valid hc hsc _).2 h4, (A.ev hc hsc _ _).2 h5⟩
    | dependentSchemas h1 h2 h3 h4 h5 =>
      obtain ⟨ts, h, vs, e, hl⟩ := O.doc_dependentSchemas h1
      cases e
      obtain ⟨t, ht, hc⟩ := hl.mem' h2
      exact ⟨_, h, (_, t), ht, h3, (A.valid hc hsc _).2 h4, (A.ev hc hsc _ _).2 h5⟩
    | ref h1 h2 h3 h4 =>
      have dyn : dia = .d2020 → ∀ {s}, ("$dynamicRef", .str s) ∈ kvs → ∀ {q}, DTarget lib L sc' b "$dynamicRef" s q → N.valid sc' q x →
          N.ev sc' q x pt → ∃ kw ∈ kws, KwEv R env M sc kws x kw pt := by
        intro h20 s h1 q h2 h3 h4
        obtain ⟨t, f, d, h, hr⟩ := O.doc_dynamicRef h20 h1
        have hc := (T.dyn _ _ _ _ hr).2 _ h2
        exact ⟨_, h, (A.valid hc hsc _).2 h3, (A.ev hc hsc _ _).2 h4⟩
      have h2' := h2
      cases h2' with
      | ref hu =>
        obtain ⟨t, h, s, _, e, -, hc⟩ := O.doc_ref h1
        cases e
        have hc := hc _ hu
        exact ⟨_, h, (A.valid hc hsc _).2 h3, (A.ev hc hsc _ _).2 h4⟩
      | static h20 _ _ => exact dyn h20 h1 h2 h3 h4
      | dynamic h20 _ _ _ => exact dyn h20 h1 h2 h3 h4
      | recursive h19 hu hq =>
        obtain ⟨t, h, s, _, e, -, hc⟩ := O.doc_recursiveRef h19 h1
        cases e
        have hc := (T.recr _ _ _ h19 hu hc).2 _ h2
        exact ⟨_, h, (A.valid hc hsc _).2 h3, (A.ev hc hsc _ _).2 h4⟩

theorem ObjReads.holds_iff (O : ObjReads lib L enabled C b kws kvs) (A : DocAgree C M N) (hd : R.dialect = dia)
    (hmul : R.mult = IsMultiple env.dec) {sc : List SRef} {sc' : List Site} (hsc : Scopes C sc sc')
    (T : Aims lib L enabled C R sc sc' b) (x : Value) :
    (∀ kw ∈ kws, KwHolds R env M sc kws x kw) ↔
      DHolds env enabled N sc' (site lib b) (DTarget lib L sc' b) kvs x := by
  have hev := O.ev_iff (env := env) A hd hsc T x
  constructor
  · intro H
    refine ⟨?_, ?_, ?_, ?_, ?_, ?_, ?_, ?_, ?_, ?_, ?_, ?_, ?_, ?_, ?_, ?_, ?_, ?_, ?_, ?_, ?_, ?_, ?_, ?_⟩
    · intro k v a hv hw
      obtain ⟨a', h, ha⟩ := O.doc_assert hv hw
      have := H _ h
      rw [KwHolds, hmul] at this
      exact (ha.iff _ _ _).1 this
    · intro ss hs t ht
      obtain ⟨ts, h, vs, e, hl⟩ := O.doc_allOf hs
      cases e
      obtain ⟨y, hy, hc⟩ := hl.mem' ht
      exact (A.valid hc hsc _).1 (H _ h y hy)
    · intro ss hs
      obtain ⟨ts, h, vs, e, hl⟩ := O.doc_anyOf hs
      cases e
      obtain ⟨y, hy, h1⟩ := H _ h
      obtain ⟨v, hv, hc⟩ := hl.mem hy
      exact ⟨v, hv, (A.valid hc hsc _).1 h1⟩
    · intro ss hs
      obtain ⟨ts, h, vs, e, hl⟩ := O.doc_oneOf hs
      cases e
      obtain ⟨j, y, hy, h1, h2⟩ := H _ h
      obtain ⟨v, hv, hc⟩ := hl.get hy
      refine ⟨j, v, hv, (A.valid hc hsc _).1 h1, fun k u hu hk => ?_⟩
      obtain ⟨z, hz, hc'⟩ := hl.get' hu
      exact h2 k z hz ((A.valid hc' hsc _).2 hk)
    · intro t ht hv
      obtain ⟨y, h, hc⟩ := O.doc_not_ ht
      exact H _ h ((A.valid hc hsc _).2 hv)
    · intro c t hc ht hv
      obtain ⟨y, h, hy⟩ := O.doc_then_ ht
      obtain ⟨z, h', hz⟩ := O.doc_if_ hc
      exact (A.valid hy hsc _).1 (H _ h z h' ((A.valid hz hsc _).2 hv))
    · intro c t hc ht hv
      obtain ⟨y, h, hy⟩ := O.doc_else_ ht
      obtain ⟨z, h', hz⟩ := O.doc_if_ hc
      exact (A.valid hy hsc _).1 (H _ h z h' fun hn => hv ((A.valid hz hsc _).1 hn))
    · intro ps hp n t ht hn
      obtain ⟨ts, h, vs, e, hl⟩ := O.doc_dependentSchemas hp
      cases e
      obtain ⟨y, hy, hc⟩ := hl.mem' ht
      exact (A.valid hc hsc _).1 (H _ h _ hy hn)
    · intro ps hp n t z ht hn
      obtain ⟨ts, h, vs, e, hl⟩ := O.doc_properties hp
      cases e
      obtain ⟨y, hy, hc⟩ := hl.mem' ht
      exact (A.valid hc hsc _).1 (H _ h _ _ _ hy hn)
    · intro ps hp re t n z ht hn hre
      obtain ⟨ts, h, vs, e, hl⟩ := O.doc_patternProperties hp
      cases e
      obtain ⟨y, hy, hc⟩ := hl.mem' ht
      exact (A.valid hc hsc _).1 (H _ h _ _ _ _ hy hn hre)
    · intro t ht n z hn hnn
      obtain ⟨y, h, hc⟩ := O.doc_additionalProperties ht
      exact (A.valid hc hsc _).1 (H _ h n z hn fun h => hnn ((O.named_iff n).1 h))
    · intro t ht n hn
      obtain ⟨y, h, hc⟩ := O.doc_propertyNames ht
      exact (A.valid hc hsc _).1 (H _ h n hn)
    · intro t ht n z hn hnn
      obtain ⟨y, h, hc⟩ := O.doc_unevaluatedProperties ht
      exact (A.valid hc hsc _).1 (H _ h n z hn fun h => hnn ((hev _).1 h))
    · intro h20 ss hs k t z ht hz
      obtain ⟨ts, h, vs, e, hl⟩ := O.doc_prefixItems h20 hs
      cases e
      obtain ⟨y, hy, hc⟩ := hl.get' ht
      exact (A.valid hc hsc _).1 (H _ h k y z hy hz)
    · intro h20 t ht k z hz hb
      obtain ⟨y, h, hc⟩ := O.doc_items h20 ht
      exact (A.valid hc hsc _).1 (H _ h k z hz ((O.beyond_iff h20 k).2 hb))
    · intro h19 t ht ha z hz
      rcases O.doc_items9 h19 ht with ⟨y, h, -, hc⟩ | ⟨ts, h, vs, e, -⟩
      · exact (A.valid hc hsc _).1 (H _ h z hz)
      · exact absurd e (ha vs)
    · intro h19 ss hs k t z ht hz
      rcases O.doc_items9 h19 hs with ⟨y, h, e, -⟩ | ⟨ts, h, vs, e, hl⟩
      · exact absurd rfl (e _)
      · cases e
        obtain ⟨y, hy, hc⟩ := hl.get' ht
        exact (A.valid hc hsc _).1 (H _ h k y z hy hz)
    · intro h19 t ss ht hs k z hz hk
      obtain ⟨y, h, hc⟩ := O.doc_additionalItems h19 ht
      rcases O.doc_items9 h19 hs with ⟨y, h', e, -⟩ | ⟨ts, h', vs, e, hl⟩
      · exact absurd rfl (e _)
      · cases e
        exact (A.valid hc hsc _).1 (H _ h _ h' k z hz (hl.1.symm ▸ hk))
    · intro t ht hx hm
      obtain ⟨y, h, hc⟩ := O.doc_contains ht
      rw [← A.matching hc hsc]
      refine H _ h hx fun m hk => ?_
      obtain ⟨_, v, hv, rfl, rfl⟩ := O.of_kw _ hk
      exact hm _ hv
    · intro m t hm ht hx
      obtain ⟨y, h, hc⟩ := O.doc_contains ht
      obtain ⟨m', h', e⟩ := O.doc_minContains hm
      cases e
      rw [← A.matching hc hsc]
      exact H _ h' hx _ h
    · intro m t hm ht hx
      obtain ⟨y, h, hc⟩ := O.doc_contains ht
      obtain ⟨m', h', e⟩ := O.doc_maxContains hm
      cases e
      rw [← A.matching hc hsc]
      exact H _ h' hx _ h
    · intro t ht n z hn hnn
      obtain ⟨y, h | h, hc⟩ := O.doc_unevaluatedItems ht
      · exact (A.valid hc hsc _).1 (H _ h n z hn fun h => hnn ((hev _).1 h))
      · exact (A.valid hc hsc _).1 (H _ h n z hn fun h => hnn ((hev _).1 h))
    · intro k s u hs hu
      have dyn : dia = .d2020 → ("$dynamicRef", .str s) ∈ kvs → DTarget lib L sc' b "$dynamicRef" s u →
          N.valid sc' u x := by
        intro h20 h1 h2
        obtain ⟨t, f, d, h, hr⟩ := O.doc_dynamicRef h20 h1
        exact (A.valid ((T.dyn _ _ _ _ hr).2 _ h2) hsc _).1 (H _ h)
      have hu' := hu
      cases hu' with
      | ref hr =>
        obtain ⟨t, h, s', _, e, -, hc⟩ := O.doc_ref hs
        cases e
        exact (A.valid (hc _ hr) hsc _).1 (H _ h)
      | static h20 _ _ => exact dyn h20 hs hu
      | dynamic h20 _ _ _ => exact dyn h20 hs hu
      | recursive h19 hr _ =>
        obtain ⟨t, h, s', _, e, -, hc⟩ := O.doc_recursiveRef h19 hs
        cases e
        exact (A.valid ((T.recr _ _ _ h19 hr hc).2 _ hu) hsc _).1 (H _ h)
    · intro a ha he ht
      obtain ⟨a', b, h, e, e'⟩ := O.doc_format ha
      cases e
      exact H _ h (e'.trans he) ht
  · intro H kw hk
    obtain ⟨k, v, hv, hr⟩ := O.of_kw _ hk
    cases kw <;> simp only [KwReads] at hr <;> simp only [KwHolds]
    case assert a =>
      obtain ⟨-, ⟨b, hb⟩, hr⟩ := hr
      rw [hmul]
      exact ((hr b hb).iff _ _ _).2 (H.assert _ _ _ hv hb)
    case allOf =>
      obtain ⟨rfl, vs, rfl, hl⟩ := hr
      intro t ht
      obtain ⟨v, h1, hc⟩ := hl.mem ht
      exact (A.valid hc hsc _).2 (H.allOf _ hv _ h1)
    case anyOf =>
      obtain ⟨rfl, vs, rfl, hl⟩ := hr
      obtain ⟨v, h1, h2⟩ := H.anyOf _ hv
      obtain ⟨t, ht, hc⟩ := hl.mem' h1
      exact ⟨t, ht, (A.valid hc hsc _).2 h2⟩
    case oneOf =>
      obtain ⟨rfl, vs, rfl, hl⟩ := hr
      obtain ⟨j, v, h1, h2, h3⟩ := H.oneOf _ hv
      obtain ⟨t, ht, hc⟩ := hl.get' h1
      refine ⟨j, t, ht, (A.valid hc hsc _).2 h2, fun k u hu hk => ?_⟩
      obtain ⟨z, hz, hc'⟩ := hl.get hu
      exact h3 k z hz ((A.valid hc' hsc _).1 hk)
    case not_ =>
      obtain ⟨rfl, hc⟩ := hr
      exact fun h => H.not_ _ hv ((A.valid hc hsc _).1 h)
    case then_ =>
      obtain ⟨rfl, hc⟩ := hr
      intro c h1 h2
      obtain ⟨_, c', hv', rfl, hc'⟩ := O.of_kw _ h1
      exact (A.valid hc hsc _).2 (H.then_ _ _ hv' hv ((A.valid hc' hsc _).1 h2))
    case else_ =>
      obtain ⟨rfl, hc⟩ := hr
      intro c h1 h2
      obtain ⟨_, c', hv', rfl, hc'⟩ := O.of_kw _ h1
      exact (A.valid hc hsc _).2 (H.else_ _ _ hv' hv fun h => h2 ((A.valid hc' hsc _).2 h))
    case dependentSchemas =>
      obtain ⟨rfl, vs, rfl, hl⟩ := hr
      rintro ⟨n, t⟩ ht hn
      obtain ⟨v, h1, hc⟩ := hl.mem ht
      exact (A.valid hc hsc _).2 (H.dependentSchemas _ hv _ _ h1 hn)
    case properties =>
      obtain ⟨rfl, vs, rfl, hl⟩ := hr
      intro n t y ht hn
      obtain ⟨v, h1, hc⟩ := hl.mem ht
      exact (A.valid hc hsc _).2 (H.properties _ hv _ _ _ h1 hn)
    case patternProperties =>
      obtain ⟨rfl, vs, rfl, hl⟩ := hr
      intro re t n y ht hn hre
      obtain ⟨v, h1, hc⟩ := hl.mem ht
      exact (A.valid hc hsc _).2 (H.patternProperties _ hv _ _ _ _ h1 hn hre)
    case additionalProperties =>
      obtain ⟨rfl, hc⟩ := hr
      intro n y hn hnn
      exact (A.valid hc hsc _).2 (H.additionalProperties _ hv _ _ hn fun h => hnn ((O.named_iff n).2 h))
    case propertyNames =>
      obtain ⟨rfl, hc⟩ := hr
      intro n hn
      exact (A.valid hc hsc _).2 (H.propertyNames _ hv _ hn)
    case unevaluatedProperties =>
      obtain ⟨rfl, hc⟩ := hr
      intro n y hn hnn
      exact (A.valid hc hsc _).2 (H.unevaluatedProperties _ hv _ _ hn fun h => hnn ((hev _).2 h))
    case prefixItems =>
      obtain ⟨rfl, h20, vs, rfl, hl⟩ := hr
      intro j t y ht hy
      obtain ⟨v, h1, hc⟩ := hl.get ht
      exact (A.valid hc hsc _).2 (H.prefixItems h20 _ hv _ _ _ h1 hy)
    case items =>
      obtain ⟨rfl, h20, hc⟩ := hr
      intro j y hy hb
      exact (A.valid hc hsc _).2 (H.items h20 _ hv _ _ hy ((O.beyond_iff h20 j).1 hb))
    case items9 =>
      obtain ⟨rfl, h19, ha, hc⟩ := hr
      intro y hy
      exact (A.valid hc hsc _).2 (H.itemsAll h19 _ hv ha _ hy)
    case items9Array =>
      obtain ⟨rfl, h19, vs, rfl, hl⟩ := hr
      intro j t y ht hy
      obtain ⟨v, h1, hc⟩ := hl.get ht
      exact (A.valid hc hsc _).2 (H.itemsEach h19 _ hv _ _ _ h1 hy)
    case additionalItems =>
      obtain ⟨rfl, h19, hc⟩ := hr
      intro ss h1 j y hy hj
      obtain ⟨_, v, hv', rfl, -, vs, rfl, hl⟩ := O.of_kw _ h1
      exact (A.valid hc hsc _).2 (H.additionalItems h19 _ _ hv hv' _ _ hy (hl.1 ▸ hj))
    case contains =>
      obtain ⟨rfl, hc⟩ := hr
      intro hx hm
      rw [A.matching hc hsc]
      refine H.contains _ hv hx fun m h => ?_
      obtain ⟨m', h', -⟩ := O.doc_minContains h
      exact hm _ h'
    case minContains =>
      obtain ⟨rfl, rfl⟩ := hr
      intro hx t ht
      obtain ⟨_, v, hv', rfl, hc⟩ := O.of_kw _ ht
      rw [A.matching hc hsc]
      exact H.minContains _ _ hv hv' hx
    case maxContains =>
      obtain ⟨rfl, rfl⟩ := hr
      intro hx t ht
      obtain ⟨_, v, hv', rfl, hc⟩ := O.of_kw _ ht
      rw [A.matching hc hsc]
      exact H.maxContains _ _ hv hv' hx
    case unevaluatedItems =>
      obtain ⟨rfl, -, hc⟩ := hr
      intro n y hn hnn
      exact (A.valid hc hsc _).2 (H.unevaluatedItems _ hv _ _ hn fun h => hnn ((hev _).2 h))
    case unevaluatedItems9 =>
      obtain ⟨rfl, -, hc⟩ := hr
      intro n y hn hnn
      exact (A.valid hc hsc _).2 (H.unevaluatedItems _ hv _ _ hn fun h => hnn ((hev _).2 h))
    case ref =>
      obtain ⟨rfl, s, u, rfl, h1, h2⟩ := hr
      exact (A.valid (h2 _ h1) hsc _).2 (H.ref _ _ _ hv (.ref h1))
    case dynamicRef =>
      have hr' := hr
      obtain ⟨rfl, -, s, u, rfl, -⟩ := hr'
      obtain ⟨⟨q, hq⟩, h2⟩ := T.dyn _ _ _ _ hr
      exact (A.valid (h2 _ hq) hsc _).2 (H.ref _ _ _ hv hq)
    case recursiveRef =>
      obtain ⟨rfl, h19, s, u, rfl, h0, h1⟩ := hr
      obtain ⟨⟨q, hq⟩, h2⟩ := T.recr _ _ _ h19 h0 h1
      exact (A.valid (h2 _ hq) hsc _).2 (H.ref _ _ _ hv hq)
    case format =>
      obtain ⟨rfl, rfl, rfl⟩ := hr
      exact fun he ht => H.format _ hv he ht

/-! ## Scopes -/

omit dia in
theorem Scopes.split {C : Nat → Site → Prop} {s : SRef} {outer : List SRef} : ∀ {inner : List SRef} {sc' : List Site},
    Scopes C (inner ++ s :: outer) sc' → ∃ inner' p outer', sc' = inner' ++ p :: outer' ∧ C s p ∧ Scopes C outer outer'
  | [], _, h => by
    cases h with | cons h1 h2 => exact ⟨[], _, _, rfl, h1, h2⟩
  | _ :: inner, _, h => by
    cases h with
    | cons h1 h2 =>
      obtain ⟨i', p, o', rfl, h3, h4⟩ := Scopes.split h2
      exact ⟨_ :: i', p, o', rfl, h3, h4⟩

omit dia in
theorem Scopes.mem {C : Nat → Site → Prop} {sc : List SRef} {sc' : List Site} (h : Scopes C sc sc') {p : Site}
    (hp : p ∈ sc') : ∃ s ∈ sc, C s p := by
  induction h with
  | nil => cases hp
  | cons h1 _ ih =>
    rcases List.mem_cons.1 hp with rfl | hp
    · exact ⟨_, List.mem_cons_self, h1⟩
    · obtain ⟨s, hs, hc⟩ := ih hp
      exact ⟨s, List.mem_cons_of_mem _ hs, hc⟩

omit dia in
theorem Scopes.mem' {C : Nat → Site → Prop} {sc : List SRef} {sc' : List Site} (h : Scopes C sc sc') {s : SRef}
    (hs : s ∈ sc) : ∃ p ∈ sc', C s p := by
  induction h with
  | nil => cases hs
  | cons h1 _ ih =>
    rcases List.mem_cons.1 hs with rfl | hs
    · exact ⟨_, List.mem_cons_self, h1⟩
    · obtain ⟨p, hp, hc⟩ := ih hs
      exact ⟨p, List.mem_cons_of_mem _ hp, hc⟩

omit dia in
theorem Scopes.sublist {C : Nat → Site → Prop} {sc : List SRef} {sc' : List Site} (h : Scopes C sc sc') :
    ∀ {l : List SRef}, List.Sublist l sc → ∃ l', List.Sublist l' sc' ∧ Scopes C l l' := by
  induction h with
  | nil =>
    intro l hl
    cases hl
    exact ⟨[], .slnil, .nil⟩
  | cons h1 _ ih =>
    intro l hl
    cases hl with
    | cons _ hl =>
      obtain ⟨l', h2, h3⟩ := ih hl
      exact ⟨l', .cons _ h2, h3⟩
    | cons_cons _ hl =>
      obtain ⟨l', h2, h3⟩ := ih hl
      exact ⟨_ :: l', .cons_cons _ h2, .cons h1 h3⟩

/-! ## Stores -/

/-- The store has the schemas made from subschemas. -/
structure StoreReads (lib : UriLib) (L : Links) (enabled : String → Bool) (C : Nat → Site → Prop) (st : Store) : Prop where
  obj : ∀ {s q}, C s q → (∃ v, q.schema = .bool v ∧ st.obj s = .bool v) ∨
      ∃ kvs kws, q.schema = .obj kvs ∧ st.obj s = .obj kws ∧ ObjReads lib L enabled C q.base kws kvs
  at_ : ∀ {s q}, C s q → L.sites q
  base : ∀ {s q}, C s q → st.base s = some q.base.str
  text : ∀ {s p t q}, C s p → C t q → p.base.str = q.base.str → p.base = q.base
  anchor : ∀ {s q f}, dia = .d2020 → C s q → q.Has "$dynamicAnchor" (.str f) → AnchorText f
  lookup : ∀ {s p f t}, C s p → AnchorText f → st.lookup p.base.str f = some t → ∃ q, C t q ∧ q.base = p.base
  found : ∀ {s p f q}, C s p → L.dyn p.base f q → ∃ t, st.lookup p.base.str f = some t ∧ C t q
  dyn : ∀ {b f q}, L.dyn b f q ↔ L.sites q ∧ q.base = b ∧ dia = .d2020 ∧ q.Has "$dynamicAnchor" (.str f)

theorem StoreReads.members {st : Store} (S : StoreReads lib L enabled C st) {s : Nat} {q : Site} {kws : List Kw} (h : C s q)
    (hs : st.obj s = .obj kws) : ∃ kvs, q.schema = .obj kvs ∧ ObjReads lib L enabled C q.base kws kvs := by
  rcases S.obj h with ⟨b, -, e⟩ | ⟨kvs, kws', h1, e, O⟩
  · rw [e] at hs; cases hs
  · rw [e] at hs; cases hs; exact ⟨kvs, h1, O⟩

theorem ObjReads.static (O : ObjReads lib L enabled C b kws kvs) {a : String} {v : Value}
    (hk : a = "$dynamicAnchor" ∨ a = "$recursiveAnchor") (hi : ¬ idleName a) :
    (SchemaObj.obj kws).getStatic a = some v ↔ (a, v) ∈ kvs := by
  have mem : ∀ {v}, Kw.static a v ∈ kws → (a, v) ∈ kvs := by
    intro v h
    obtain ⟨k, v', hv, rfl, h⟩ := O.of_kw _ h
    rcases h with h | ⟨-, rfl⟩
    · exact absurd h hi
    · exact hv
  constructor
  · intro h
    simp only [SchemaObj.getStatic] at h
    obtain ⟨kw, h1, h2⟩ := List.exists_of_findSome?_eq_some h
    cases kw <;> simp only [reduceCtorEq] at h2
    split at h2
    · rename_i e
      cases h2
      subst e
      exact mem h1
    · cases h2
  · intro h
    obtain ⟨kw, h1, h2⟩ := O.of_doc _ _ h
    have hs : Kw.static a v ∈ kws := by
      have hs' : ∀ {v'}, Kw.static a v' ∈ kws → (False ∨ a ∈ anchorNames ∧ v' = v) → Kw.static a v ∈ kws := by
        rintro v' h1 (h2 | ⟨-, rfl⟩)
        · exact h2.elim
        · exact h1
      have ha : a ∉ assertNames := by rcases hk with rfl | rfl <;> decide
      rcases hk with rfl | rfl <;> cases kw <;>
        simp only [KwReads, hi, ha, false_and, and_false, String.reduceEq] at h2
      · obtain ⟨rfl, h2⟩ := h2; exact hs' h1 h2
      · obtain ⟨rfl, h2⟩ := h2; exact hs' h1 h2
    simp only [SchemaObj.getStatic]
    cases hf : List.findSome? _ kws with
    | none =>
      have := List.findSome?_eq_none_iff.1 hf _ hs
      simp at this
    | some v' =>
      obtain ⟨kw, h1, h2⟩ := List.exists_of_findSome?_eq_some hf
      cases kw <;> simp only [reduceCtorEq] at h2
      split at h2
      · rename_i e
        cases h2
        subst e
        have := mem h1
        rw [Option.some.injEq]
        have e1 := dlookup_of_mem O.nodup this
        have e2 := dlookup_of_mem O.nodup h
        rw [e1] at e2
        cases e2; rfl
      · cases h2

section
variable {st : Store} (S : StoreReads lib L enabled C st)
include S

theorem StoreReads.hasAnchor {s : Nat} {q : Site} (h : C s q) {a : String} {v : Value}
    (hk : a = "$dynamicAnchor" ∨ a = "$recursiveAnchor") (hi : ¬ idleName a) :
    (st.obj s).getStatic a = some v ↔ q.Has a v := by
  rcases S.obj h with ⟨b, e1, e2⟩ | ⟨kvs, kws, e1, e2, O⟩
  · rw [e2]
    constructor
    · intro h; cases h
    · rintro ⟨kvs, h, -⟩; rw [e1] at h; cases h
  · rw [e2, O.static hk hi]
    constructor
    · exact fun h => ⟨kvs, e1, h⟩
    · rintro ⟨kvs', h, h'⟩; rw [e1] at h; cases h; exact h'

theorem StoreReads.has (hd : dia = .d2020) {s : Nat} {q : Site} (h : C s q) {v : Value} :
    (st.obj s).getStatic "$dynamicAnchor" = some v ↔ q.Has "$dynamicAnchor" v :=
  S.hasAnchor h (.inl rfl) (not_idle_of (idle_live20 hd _ (by decide)))

theorem StoreReads.recursive (hd : dia = .d2019) {s : Nat} {q : Site} (h : C s q) : RecAnchor st s ↔ q.Recursive :=
  S.hasAnchor h (.inr rfl) (not_idle_of (idle_live19 hd _ (by decide)))

theorem StoreReads.dynAnchor (hd20 : dia = .d2020) {s : Nat} {p : Site} (h : C s p) {f : String} (hf : AnchorText f) {t : Nat}
    (hd : DynAnchor st p.base.str f t) : ∃ q, C t q ∧ L.dyn p.base f q := by
  obtain ⟨h1, -, h3⟩ := hd
  obtain ⟨q, h4, h5⟩ := S.lookup h hf h1
  exact ⟨q, h4, S.dyn.2 ⟨S.at_ h4, h5, hd20, (S.has hd20 h4).1 h3⟩⟩

theorem StoreReads.dynAnchor' {s : Nat} {p q : Site} (h : C s p) {f : String} (hd : L.dyn p.base f q) :
    ∃ t, C t q ∧ DynAnchor st p.base.str f t := by
  obtain ⟨t, h1, h2⟩ := S.found h hd
  obtain ⟨-, -, hd20, h3⟩ := S.dyn.1 hd
  exact ⟨t, h2, h1, (S.anchor hd20 h2 h3).ne, (S.has hd20 h2).2 h3⟩

/-- The outermost schema with a dynamic anchor is made from the outermost subschema with it. -/
theorem StoreReads.outermost (hd20 : dia = .d2020) {sc : List SRef} {sc' : List Site} (hsc : Scopes C sc sc') {f : String} (hf : AnchorText f)
    {t t' : SRef} {u : Site} (hu : C t u) (h : Outermost st f sc t t') :
    (∃ q, DOutermost L f sc' u q) ∧ ∀ q, DOutermost L f sc' u q → C t' q := by
  have hno : ∀ {l l'}, Scopes C l l' → (∀ s' ∈ l, ∀ b', st.base s' = some b' → ∀ t', ¬ DynAnchor st b' f t') →
      ∀ p' ∈ l', ∀ q', ¬ L.dyn p'.base f q' := by
    intro l l' hl hn p' hp' q' hq'
    obtain ⟨s, hs, hc⟩ := hl.mem hp'
    obtain ⟨t, -, ht⟩ := S.dynAnchor' hc hq'
    exact hn s hs _ (S.base hc) t ht
  cases h with
  | @found inner outer s b _ h1 h2 h3 h4 =>
    subst h1
    obtain ⟨inner', p, outer', rfl, hp, ho⟩ := hsc.split
    rw [S.base hp] at h2
    cases h2
    obtain ⟨q, hq1, hq2⟩ := S.dynAnchor hd20 hp hf h3
    refine ⟨⟨q, .found rfl hq2 (hno ho h4)⟩, fun q' hq' => ?_⟩
    cases hq' with
    | found e1 e2 e3 =>
      rename_i p'
      have : p = p' := last_unique (P := fun p : Site => ∃ q, L.dyn p.base f q) e1 ⟨_, hq2⟩ ⟨_, e2⟩
        (fun y hy ⟨q, h⟩ => hno ho h4 y hy q h) (fun y hy ⟨q, h⟩ => e3 y hy q h)
      subst this
      obtain ⟨t'', g1, g2⟩ := S.found hp e2
      rw [h3.1] at g1
      cases g1
      exact g2
    | none e => exact absurd hq2 (e p (by simp) q)
  | none h1 =>
    refine ⟨⟨u, .none (hno hsc h1)⟩, fun q hq => ?_⟩
    cases hq with
    | found e1 e2 _ => subst e1; exact absurd e2 (hno hsc h1 _ (by simp) _)
    | none => exact hu

omit S in
theorem Spec.DTarget.dyn {sc : List Site} {b : Uri} {s : String} {q : Site} (h : DTarget lib L sc b "$dynamicRef" s q) :
    (L.refer b s q ∧ ∀ f, ¬ Dynamic lib s f q) ∨ ∃ f u, L.refer b s u ∧ Dynamic lib s f u ∧ DOutermost L f sc u q := by
  generalize hk : "$dynamicRef" = k at h
  cases h with
  | ref => exact absurd hk (by decide)
  | static _ h1 h2 => exact .inl ⟨h1, h2⟩
  | dynamic _ h1 h2 h3 => exact .inr ⟨_, _, h1, h2, h3⟩
  | recursive => exact absurd hk (by decide)

omit S in
theorem Spec.DTarget.recr {sc : List Site} {b : Uri} {s : String} {q : Site} (h : DTarget lib L sc b "$recursiveRef" s q) :
    dia = .d2019 ∧ ∃ u, L.refer b s u ∧ DOutermostRec sc u q := by
  generalize hk : "$recursiveRef" = k at h
  cases h with
  | ref => exact absurd hk (by decide)
  | static => exact absurd hk (by decide)
  | dynamic => exact absurd hk (by decide)
  | recursive h0 h1 h2 => exact ⟨h0, _, h1, h2⟩

/-- The outermost schema with a recursive anchor is made from the outermost subschema with one. -/
theorem StoreReads.outermostRec (h19 : dia = .d2019) {sc : List SRef} {sc' : List Site} (hsc : Scopes C sc sc')
    {t t' : SRef} {u : Site} (hu : C t u) (h : OutermostRec st sc t t') :
    (∃ q, DOutermostRec sc' u q) ∧ ∀ q, DOutermostRec sc' u q → C t' q := by
  have hno : ∀ {l l'}, Scopes C l l' → (∀ s' ∈ l, ¬ RecAnchor st s') → ∀ p' ∈ l', ¬ p'.Recursive := by
    intro l l' hl hn p' hp' hr
    obtain ⟨s, hs, hc⟩ := hl.mem hp'
    exact hn s hs ((S.recursive h19 hc).2 hr)
  cases h with
  | static h1 =>
    have h1' : ¬ u.Recursive := fun h => h1 ((S.recursive h19 hu).2 h)
    refine ⟨⟨u, .static h1'⟩, fun q hq => ?_⟩
    cases hq with
    | static => exact hu
    | found h => exact absurd h h1'
    | none h => exact absurd h h1'
  | @found inner outer s h1 h2 h3 h4 =>
    subst h2
    have h1' := (S.recursive h19 hu).1 h1
    obtain ⟨inner', p, outer', rfl, hp, ho⟩ := hsc.split
    have hp' := (S.recursive h19 hp).1 h3
    refine ⟨⟨p, .found h1' rfl hp' (hno ho h4)⟩, fun q hq => ?_⟩
    cases hq with
    | static h => exact absurd h1' h
    | found _ e1 e2 e3 =>
      have : p = q := last_unique (P := fun p : Site => p.Recursive) e1 hp' e2 (hno ho h4) e3
      exact this ▸ hp
    | none _ e => exact absurd hp' (e p (by simp))
  | none h1 h2 =>
    have h1' := (S.recursive h19 hu).1 h1
    refine ⟨⟨u, .none h1' (hno hsc h2)⟩, fun q hq => ?_⟩
    cases hq with
    | static => exact hu
    | found _ e1 e2 _ => subst e1; exact absurd e2 (hno hsc h2 _ (by simp))
    | none => exact hu

theorem StoreReads.aims (hd : ∀ sc t f, Outermost st f sc t (R.dyn sc t f))
    (hr : ∀ sc t, OutermostRec st sc t (R.recr sc t)) {sc : List SRef} {sc' : List Site}
    (hsc : Scopes C sc sc') (b : Uri) : Aims lib L enabled C R sc sc' b := by
  refine ⟨?_, fun t s u h19 h1 h2 => ?_⟩
  rotate_left
  · refine ⟨?_, fun q hq => ?_⟩
    · obtain ⟨⟨q, hq⟩, -⟩ := S.outermostRec h19 hsc (h2 u h1) (hr sc t)
      exact ⟨q, .recursive h19 h1 hq⟩
    · obtain ⟨-, u', g1, g2⟩ := hq.recr
      exact (S.outermostRec h19 hsc (h2 u' g1) (hr sc t)).2 _ g2
  rintro t f d s ⟨-, h20, s', u, e, h1, hf, h2⟩
  cases e
  have h3 : ∀ {f' u}, L.refer b s u → Dynamic lib s f' u → d = true ∧ f = f' ∧ AnchorText f' ∧ C t u := by
    intro f' u hu hdy
    obtain ⟨c1, c2⟩ := h2 u hu
    exact ⟨c2.2 ⟨_, hdy⟩, by rw [hf, hdy.1]; rfl, S.anchor h20 c1 hdy.2, c1⟩
  refine ⟨?_, fun q hq => ?_⟩
  · by_cases hdy : ∃ f', Dynamic lib s f' u
    · obtain ⟨f', hdy⟩ := hdy
      obtain ⟨-, -, ha, hc⟩ := h3 h1 hdy
      obtain ⟨⟨q, hq⟩, -⟩ := S.outermost h20 hsc ha hc (hd sc t f')
      exact ⟨q, .dynamic h20 h1 hdy hq⟩
    · exact ⟨u, .static h20 h1 fun f' h => hdy ⟨f', h⟩⟩
  · rcases hq.dyn with ⟨g1, g2⟩ | ⟨f', u, g1, g2, g3⟩
    · obtain ⟨c1, c2⟩ := h2 _ g1
      have : d = false := by
        cases d with
        | false => rfl
        | true => obtain ⟨f', h⟩ := c2.1 rfl; exact absurd h (g2 f')
      subst this
      exact c1
    · obtain ⟨rfl, rfl, ha, hc⟩ := h3 g1 g2
      exact (S.outermost h20 hsc ha hc (hd sc t f)).2 _ g3

/-- One unrolling. -/
theorem StoreReads.step (A : DocAgree C M N) (hd : R.dialect = dia) (hmul : R.mult = IsMultiple env.dec)
    (ho : ∀ sc t f, Outermost st f sc t (R.dyn sc t f)) (hr : ∀ sc t, OutermostRec st sc t (R.recr sc t)) :
    DocAgree C (step R env M st) (dstep lib env enabled L N) where
  valid {t q} h sc sc' hsc x := by
    have T := S.aims ho hr (.cons h hsc) q.base
    rcases S.obj h with ⟨b, e', e⟩ | ⟨kvs, kws, e', e, O⟩
    · simp only [Spec.step, e, dstep, e']
    · simp only [Spec.step, e, dstep, e']
      exact O.holds_iff A hd hmul (.cons h hsc) T x
  ev {t q} h sc sc' hsc x pt := by
    have T := S.aims ho hr (.cons h hsc) q.base
    rcases S.obj h with ⟨b, e', e⟩ | ⟨kvs, kws, e', e, O⟩
    · simp only [Spec.step, e, dstep, e']
    · simp only [Spec.step, e, dstep, e']
      refine or_congr (O.ev_iff A hd (.cons h hsc) T x pt) ?_
      cases pt with
      | name n =>
        constructor
        · rintro ⟨t, ht⟩
          obtain ⟨_, v, hv, rfl, -⟩ := O.of_kw _ ht
          exact ⟨v, hv⟩
        · rintro ⟨v, hv⟩
          obtain ⟨t, ht, -⟩ := O.doc_unevaluatedProperties hv
          exact ⟨t, ht⟩
      | item n =>
        constructor
        · rintro ⟨t, ht | ht⟩
          · obtain ⟨_, v, hv, rfl, -⟩ := O.of_kw _ ht
            exact ⟨v, hv⟩
          · obtain ⟨_, v, hv, rfl, -⟩ := O.of_kw _ ht
            exact ⟨v, hv⟩
        · rintro ⟨v, hv⟩
          obtain ⟨t, ht, -⟩ := O.doc_unevaluatedItems hv
          exact ⟨t, ht⟩

/-- The unrollings agree. -/
theorem StoreReads.unroll (hd : R.dialect = dia) (hmul : R.mult = IsMultiple env.dec)
    (ho : ∀ sc t f, Outermost st f sc t (R.dyn sc t f)) (hr : ∀ sc t, OutermostRec st sc t (R.recr sc t)) :
    ∀ n, DocAgree C (unroll R env st n) (dunroll lib env enabled L n)
  | 0 => ⟨fun _ _ _ _ _ => .rfl, fun _ _ _ _ _ _ => .rfl⟩
  | n + 1 => S.step (StoreReads.unroll hd hmul ho hr n) hd hmul ho hr

end
end
end Jschon
