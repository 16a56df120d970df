import Verif.Proof.ConstructTotal
import Verif.Spec.Document

/-!
# Construction of documents
-/

namespace Jschon
open Spec

variable [dia : Dialect]

/-! ## Keyword classes of the members -/

theorem cls_one {k : String} (h : k ∈ oneKeys) : ∃ c, getKwclass dialectMeta k = .ok c ∧ c.shape = .subschema := by
  cases dia <;> simp only [oneKeys, List.cons_append, List.nil_append, List.mem_cons, List.not_mem_nil, or_false] at h <;>
    rcases h with rfl | rfl | rfl | rfl | rfl | rfl | rfl | rfl | rfl | rfl <;> exact ⟨_, rfl, rfl⟩

theorem cls_either {k : String} (h : k ∈ eitherKeys) :
    ∃ c, getKwclass dialectMeta k = .ok c ∧ c.shape = .subschemaOrArray := by
  cases dia <;> simp only [eitherKeys, List.mem_cons, List.not_mem_nil, or_false] at h
  subst h
  exact ⟨_, rfl, rfl⟩

theorem Spec.OneKey.cls {k : String} {u : Value} (h : OneKey k u) :
    ∃ c, getKwclass dialectMeta k = .ok c ∧ (c.shape = .subschema ∨ c.shape = .subschemaOrArray) := by
  rcases h with h | ⟨h, -⟩
  · obtain ⟨c, h1, h2⟩ := cls_one h; exact ⟨c, h1, .inl h2⟩
  · obtain ⟨c, h1, h2⟩ := cls_either h; exact ⟨c, h1, .inr h2⟩

theorem cls_many {k : String} (h : k ∈ manyKeys) :
    ∃ c, getKwclass dialectMeta k = .ok c ∧ c.shape = .arrayOfSubschemas := by
  cases dia <;> simp only [manyKeys, List.cons_append, List.nil_append, List.append_nil, List.mem_cons, List.not_mem_nil, or_false] at h
  · rcases h with rfl | rfl | rfl <;> exact ⟨_, rfl, rfl⟩
  · rcases h with rfl | rfl | rfl | rfl <;> exact ⟨_, rfl, rfl⟩

theorem Spec.ManyKey.cls {k : String} (h : ManyKey k) :
    ∃ c, getKwclass dialectMeta k = .ok c ∧ (c.shape = .arrayOfSubschemas ∨ c.shape = .subschemaOrArray) := by
  rcases h with h | h
  · obtain ⟨c, h1, h2⟩ := cls_many h; exact ⟨c, h1, .inl h2⟩
  · obtain ⟨c, h1, h2⟩ := cls_either h; exact ⟨c, h1, .inr h2⟩

theorem cls_named {k : String} (h : k ∈ namedKeys) :
    ∃ c, getKwclass dialectMeta k = .ok c ∧ c.shape = .objectOfSubschemas := by
  simp only [namedKeys, List.mem_cons, List.not_mem_nil, or_false] at h
  rcases h with rfl | rfl | rfl | rfl <;> cases dia <;> exact ⟨_, rfl, rfl⟩

theorem cls_note {k : String} (h : k ∈ noteKeys) :
    ∃ c, getKwclass dialectMeta k = .ok c ∧ c.shape = .plain := by
  simp only [noteKeys, List.mem_cons, List.not_mem_nil, or_false] at h
  rcases h with rfl | rfl | rfl | rfl | rfl | rfl | rfl | rfl | rfl | rfl | rfl <;> cases dia <;>
    exact ⟨_, rfl, rfl⟩

theorem cls_assert {k : String} {v : Value} {a : Assertion} (h : WrittenAs k v a) :
    ∃ c, getKwclass dialectMeta k = .ok c ∧
      ((c.shape = .plain ∧ ∀ re, a ≠ .pattern re) ∨ ∃ re, c.shape = .pattern ∧ a = .pattern re ∧ v = .str re) := by
  cases h
  case pattern re => cases dia <;> exact ⟨_, rfl, .inr ⟨re, rfl, rfl, rfl⟩⟩
  all_goals cases dia <;> exact ⟨_, rfl, .inl ⟨rfl, by simp⟩⟩

/-- The metaschemas that the library ships are of the dialect. -/
theorem ofDialect_shipped : OfDialect dialectMeta :=
  ⟨fun _ _ => rfl, by cases dia <;> exact ⟨_, rfl, .inl rfl⟩⟩

theorem keys_defined : ∀ c ∈ dialectMeta.classes, c.key ∈ definedNames := by cases dia <;> decide +kernel

theorem cls_unknown {k : String} (h : k ∉ definedNames) (h1 : k ≠ "") (h2 : '\x00' ∉ k.toList) :
    getKwclass dialectMeta k = .ok ⟨k, .unknown, []⟩ := by
  unfold getKwclass
  cases hf : dialectMeta.classes.find? (fun c => c.key = k) with
  | some c =>
    have h3 := List.find?_some hf
    simp only [decide_eq_true_eq] at h3
    exact absurd (h3 ▸ keys_defined c (List.mem_of_find?_eq_some hf)) h
  | none => simp only [if_neg h1, if_neg h2]

theorem definedNames_common {k : String} (h : k ∈ (["$schema", "$vocabulary", "$id", "$anchor", "$ref", "format"] : List String)) :
    k ∈ definedNames := by
  have : ∀ k ∈ (["$schema", "$vocabulary", "$id", "$anchor", "$ref", "format"] : List String), k ∈ definedNames := by
    cases dia <;> decide +kernel
  exact this k h

/-- A name that occurs in none of the lists of names of particular forms. -/
structure Special (k : String) : Prop where
  one : k ∉ oneKeys
  many : k ∉ manyKeys
  either : k ∉ eitherKeys
  named : k ∉ namedKeys
  note : k ∉ noteKeys

theorem Special.oneKey {k : String} (h : Special k) {u : Value} : ¬ OneKey k u := by
  rintro (h1 | ⟨h1, -⟩)
  · exact h.one h1
  · exact h.either h1

theorem Special.manyKey {k : String} (h : Special k) : ¬ ManyKey k := by
  rintro (h1 | h1)
  · exact h.many h1
  · exact h.either h1

theorem special {k : String} (h : k ∈ (["$schema", "$vocabulary", "$id", "$anchor", "$dynamicAnchor", "$recursiveAnchor",
    "$ref", "$dynamicRef", "$recursiveRef", "format", "minContains", "maxContains"] : List String)) : Special k := by
  simp only [List.mem_cons, List.not_mem_nil, or_false] at h
  rcases h with rfl | rfl | rfl | rfl | rfl | rfl | rfl | rfl | rfl | rfl | rfl | rfl <;>
    exact ⟨by cases dia <;> decide, by cases dia <;> decide, by cases dia <;> decide, by decide, by decide⟩

/-- No member has the name `$schema` or `$vocabulary`. -/
theorem memberForm_boot {E : CEnv} {L : Links} {b : Uri} {k : String} {v : Value}
    (h : MemberForm E L b k v) : k ≠ "$schema" ∧ k ≠ "$vocabulary" := by
  cases h with
  | assert h => cases h <;> exact ⟨by decide, by decide⟩
  | one h => exact ⟨by rintro rfl; exact (special (by decide)).oneKey h, by rintro rfl; exact (special (by decide)).oneKey h⟩
  | many h => exact ⟨by rintro rfl; exact (special (by decide)).manyKey h, by rintro rfl; exact (special (by decide)).manyKey h⟩
  | named h | note h =>
    refine ⟨?_, ?_⟩ <;> rintro rfl <;> exact absurd h (by decide)
  | count h => rcases h with rfl | rfl <;> exact ⟨by decide, by decide⟩
  | anchor h => rcases h with rfl | ⟨-, rfl⟩ <;> exact ⟨by decide, by decide⟩
  | format | ref | id | dynamicRef | recursiveAnchor | recursiveRef => exact ⟨by decide, by decide⟩
  | unknown h =>
    refine ⟨?_, ?_⟩ <;> rintro rfl <;> exact absurd (definedNames_common (by decide)) h

theorem memberForm_id {E : CEnv} {L : Links} {b : Uri} {v : Value} (h : MemberForm E L b "$id" v) :
    ∃ t, v = .str t ∧ IdText E.lib t := by
  generalize hk : "$id" = k at h
  cases h with
  | id h => exact ⟨_, rfl, h⟩
  | assert h => cases h <;> exact absurd hk (by decide)
  | one h => subst hk; exact absurd h (special (by decide)).oneKey
  | many h => subst hk; exact absurd h (special (by decide)).manyKey
  | named h | note h => subst hk; exact absurd h (by decide)
  | count h => rcases h with rfl | rfl <;> exact absurd hk (by decide)
  | anchor h => rcases h with rfl | ⟨-, rfl⟩ <;> exact absurd hk (by decide)
  | format | ref | dynamicRef | recursiveAnchor | recursiveRef => exact absurd hk (by decide)
  | unknown h => subst hk; exact absurd (definedNames_common (by decide)) h

theorem schemaForm_boot {E : CEnv} {L : Links} {b : Uri} {kvs : List (String × Value)}
    (h : ∀ kv ∈ kvs, MemberForm E L b kv.1 kv.2) {k : String}
    (hk : k = "$schema" ∨ k = "$vocabulary") : dlookup k kvs = none := by
  refine dlookup_eq_none.2 fun hm => ?_
  obtain ⟨v, hv⟩ := mem_dkeys.1 hm
  obtain ⟨a, b⟩ := memberForm_boot (h _ hv)
  rcases hk with hk | hk
  · exact a hk
  · exact b hk

/-- All keyword classes; base URIs are absolute. -/
def absolute (lib : UriLib) : Allowed where
  cls _ := True
  base b := Solid lib b ∧ b.fragment = none

omit dia in
theorem noFragment_of {u : Uri} (h : u.fragment = none) : u.noFragment = u := by
  cases u with | mk b f => cases h; rfl

omit dia in
theorem noFragment_fragment (u : Uri) : u.noFragment.fragment = none := rfl

/-- `$id` with a well-formed text. -/
theorem idFor {E : CEnv} (hL : SiteLib E.lib) {kvs : List (String × Value)}
    (h : ∀ v, ("$id", v) ∈ kvs → ∃ t, v = .str t ∧ IdText E.lib t) {m : Meta} : IdFor E (absolute E.lib) (some m) kvs := by
  cases hl : dlookup "$id" kvs with
  | none => exact .inl hl
  | some v =>
    obtain ⟨t, rfl, h1, h2, h4, h5⟩ := h v (dlookup_mem hl)
    refine .inr ⟨t, _, hl, rfl, by cases m.knownCore <;> simp [Uri.validate, h1, h2], fun h3 => ?_, fun h3 b hb => ?_⟩
    · rw [noFragment_of h2]; exact ⟨h4 h3, h2⟩
    · obtain ⟨r, e1, e2, -⟩ := h5 h3 b hb.1 hb.2
      exact ⟨r, e1, e2, rfl⟩

omit dia in
/-- The base URI in a schema is absolute if the one around it is. -/
theorem ownBase_absolute {E : CEnv} (hL : SiteLib E.lib) {b : Uri} (hb : (absolute E.lib).base b) {v : Value}
    (h : ∀ kvs, v = .obj kvs → ∀ w, ("$id", w) ∈ kvs → ∃ t, w = .str t ∧ IdText E.lib t) :
    (absolute E.lib).base (ownBase E.lib b v) := by
  unfold ownBase
  split
  · rename_i kvs
    split
    · rename_i t hl
      obtain ⟨t', e, h1, h2, h4, h5⟩ := h kvs rfl _ (dlookup_mem hl)
      cases e
      split
      · rename_i h3; exact ⟨h4 h3, h2⟩
      · rename_i h3
        obtain ⟨r, e1, e2, e3⟩ := h5 (by simpa using h3) b hb.1 hb.2
        rw [e1]
        rw [noFragment_of e3] at e2
        exact ⟨e2, e3⟩
    · exact hb
  · exact hb

/-- A member whose class the dialect has. -/
theorem fine_kw {E : CEnv} {A : Allowed} {m : Meta} (hm : OfDialect m) {k : String} {c : KwCls} {v : Value}
    (hc : getKwclass dialectMeta k = .ok c) (ha : A.cls c) (hv : FineValue E A m c.shape v) :
    FineMember E A (some m) k v := by
  by_cases h : k = "$id"
  · exact .boot (.inr (.inr h))
  · exact .kw ((hm.same k h).trans hc) ha hv

theorem bothForm_fine {E : CEnv} (hL : SiteLib E.lib) {L : Links} {m : Meta} (hm : OfDialect m) (v : Value) :
    (∀ b, SchemaForm E L b v → Fine E (absolute E.lib) (some m) v) ∧
    ∀ b k, MemberForm E L b k v → FineMember E (absolute E.lib) (some m) k v := by
  have hA : ∀ c, (absolute E.lib).cls c := fun _ => trivial
  generalize hAA : absolute E.lib = A at hA
  have member : ∀ v, (∀ b, SchemaForm E L b v → Fine E A (some m) v) →
      (∀ vs, v = .arr vs → ∀ x ∈ vs, ∀ b, SchemaForm E L b x → Fine E A (some m) x) →
      (∀ ms, v = .obj ms → ∀ x ∈ ms, ∀ b, SchemaForm E L b x.2 → Fine E A (some m) x.2) →
      ∀ b k, MemberForm E L b k v → FineMember E A (some m) k v := by
    intro v i1 i2 i3 b k h
    cases h with
    | assert h1 h2 =>
      obtain ⟨c, hc, h | ⟨re, h3, h4, rfl⟩⟩ := cls_assert h1
      · exact fine_kw hm hc (hA c) (.lenient (.inl h.1))
      · exact fine_kw hm hc (hA c) (h3 ▸ .pattern (h2 re h4))
    | one h1 h2 =>
      obtain ⟨c, hc, h⟩ := h1.cls
      exact fine_kw hm hc (hA c) (.schema h (i1 _ h2))
    | many h1 h2 =>
      obtain ⟨c, hc, h⟩ := h1.cls
      exact fine_kw hm hc (hA c) (.array h fun x hx => i2 _ rfl x hx _ (h2 x hx))
    | named h1 h2 =>
      obtain ⟨c, hc, h⟩ := cls_named h1
      exact fine_kw hm hc (hA c) (h ▸ .object fun x hx => i3 _ rfl x hx _ (h2 x hx))
    | count h => rcases h with rfl | rfl <;> cases dia <;> exact fine_kw (dia := _) hm rfl (hA _) (.lenient (.inl rfl))
    | format h => cases dia <;> exact fine_kw (dia := _) hm rfl (hA _) (.format h)
    | id h => exact .boot (.inr (.inr rfl))
    | anchor h =>
      rcases h with rfl | ⟨rfl, rfl⟩
      · cases dia <;> exact fine_kw (dia := _) hm rfl (hA _) (.anchor (.inl rfl))
      · exact fine_kw (dia := _) hm rfl (hA _) (.anchor (.inr rfl))
    | ref _ => cases dia <;> exact fine_kw (dia := _) hm rfl (hA _) (.ref (.inl rfl))
    | dynamicRef hd _ => subst hd; exact fine_kw (dia := _) hm rfl (hA _) (.ref (.inr rfl))
    | recursiveAnchor hd => subst hd; exact fine_kw (dia := _) hm rfl (hA _) (.lenient (.inl rfl))
    | recursiveRef hd _ => subst hd; exact fine_kw (dia := _) hm rfl (hA _) .recursive
    | note h =>
      obtain ⟨c, hc, h⟩ := cls_note h
      exact fine_kw hm hc (hA c) (.lenient (.inl h))
    | unknown h1 h2 h3 => exact fine_kw hm (cls_unknown h1 h2 h3) (hA _) (.lenient (.inr (.inl rfl)))
  induction v using Value.induct with
  | null =>
    have h : ∀ b, SchemaForm E L b .null → Fine E A (some m) .null := fun _ h => by cases h
    exact ⟨h, member _ h (fun _ h => by cases h) (fun _ h => by cases h)⟩
  | num n =>
    have h : ∀ b, SchemaForm E L b (.num n) → Fine E A (some m) (.num n) := fun _ h => by cases h
    exact ⟨h, member _ h (fun _ h => by cases h) (fun _ h => by cases h)⟩
  | str t =>
    have h : ∀ b, SchemaForm E L b (.str t) → Fine E A (some m) (.str t) := fun _ h => by cases h
    exact ⟨h, member _ h (fun _ h => by cases h) (fun _ h => by cases h)⟩
  | bool b =>
    have h : ∀ b', SchemaForm E L b' (.bool b) → Fine E A (some m) (.bool b) := fun _ _ => .bool
    exact ⟨h, member _ h (fun _ h => by cases h) (fun _ h => by cases h)⟩
  | arr xs ih =>
    have h : ∀ b, SchemaForm E L b (.arr xs) → Fine E A (some m) (.arr xs) := fun _ h => by cases h
    exact ⟨h, member _ h (fun _ h => by cases h; exact fun x hx => (ih x hx).1) (fun _ h => by cases h)⟩
  | obj kvs ih =>
    have h : ∀ b, SchemaForm E L b (.obj kvs) → Fine E A (some m) (.obj kvs) := fun _ h => by
      cases h with
      | obj h =>
        exact .obj (.inl ⟨schemaForm_boot h (.inl rfl), rfl⟩) (hAA ▸ idFor hL fun v hv => memberForm_id (h _ hv))
          fun kv hkv => (ih kv hkv).2 _ _ (h kv hkv)
    exact ⟨h, member _ h (fun _ h => by cases h) (fun _ h => by cases h; exact fun m hm => (ih m hm).1)⟩

theorem memberForm_fine {E : CEnv} (hL : SiteLib E.lib) {L : Links} {b : Uri} {k : String}
    {v : Value} {m : Meta} (hm : OfDialect m) (h : MemberForm E L b k v) : FineMember E (absolute E.lib) (some m) k v := (bothForm_fine hL hm v).2 b k h

theorem docForm_fine {E : CEnv} (hL : SiteLib E.lib) {L : Links} {mo : Option Meta} {b : Uri} {kvs : List (String × Value)}
    (hf : DocForm E mo L ⟨b, .obj kvs⟩) : Fine E (absolute E.lib) mo (.obj kvs) := by
  cases hf with
  | obj hmeta hm hmem =>
    refine .obj hmeta (idFor hL fun v hv => ?_) fun kv hkv => ?_
    · rcases hmem _ hv with h | h
      · exact absurd h (show "$id" ≠ "$schema" by decide)
      · exact memberForm_id h
    · rcases hmem _ hkv with h | h
      · exact .boot (.inl h)
      · exact memberForm_fine hL hm h

omit dia in
theorem M.Returns.and {α : Type} {m : M α} {w : World} {Q R : World → α → Prop} (h1 : m.Returns w Q)
    (h2 : m.Returns w R) : m.Returns w (fun w' a => Q w' a ∧ R w' a) := by
  obtain ⟨w1, a, e1, q⟩ := h1
  obtain ⟨w2, b, e2, r⟩ := h2
  rw [e1] at e2
  cases e2
  exact ⟨w1, a, e1, q, r⟩

omit dia in
theorem metaFor_unique {E : CEnv} {mo m1 m2 : Option Meta} {kvs : List (String × Value)} (h : MetaFor E mo kvs m1)
    (h' : MetaFor E mo kvs m2) : m1 = m2 := by
  rcases h with ⟨h1, rfl⟩ | ⟨t, m, h1, -, h2, rfl⟩ <;> rcases h' with ⟨h3, rfl⟩ | ⟨t', m', h3, -, h4, rfl⟩
  · rfl
  · rw [h1] at h3; cases h3
  · rw [h1] at h3; cases h3
  · rw [h1] at h3; cases h3; rw [h2] at h4; cases h4; rfl

end Jschon
