import Verif.Proof.DocResolve
import Verif.Proof.DocAssert
import Verif.Proof.DecodeOk
import Verif.Proof.RelPointer

/-!
# What evaluation reads of a constructed document

The keywords that evaluation finds in a schema object, and the members that were written.
-/

namespace Jschon
open Spec

variable [dia : Dialect]

/-- The names of assertions. -/
def assertNames : List String :=
  ["type", "enum", "const", "multipleOf", "maximum", "exclusiveMaximum", "minimum", "exclusiveMinimum",
   "maxLength", "minLength", "pattern", "maxItems", "minItems", "uniqueItems", "maxProperties",
   "minProperties", "required", "dependentRequired"]

/-- The names that mean nothing to validation. -/
def idleName (k : String) : Prop := k ∈ bootNames ∨ k ∈ noteKeys ∨ k = "$defs" ∨ k ∉ definedNames

/-- The names of anchors. -/
def anchorNames : List String := ["$anchor", "$dynamicAnchor", "$recursiveAnchor"]

omit dia in
theorem written_name {k : String} {v : Value} {a : Assertion} (h : WrittenAs k v a) : k ∈ assertNames := by
  cases h <;> decide

/-- The schemas are those of the values, in order. -/
def ListReads (C : Nat → Value → Prop) (ts : List Nat) (vs : List Value) : Prop :=
  ts.length = vs.length ∧ ∀ (i : Nat) t v, ts[i]? = some t → vs[i]? = some v → C t v

/-- The schemas are those of the values, by name. -/
def DictReads (C : Nat → Value → Prop) (ts : List (String × Nat)) (vs : List (String × Value)) : Prop :=
  (dkeys ts).Perm (dkeys vs) ∧ ∀ n t v, (n, t) ∈ ts → (n, v) ∈ vs → C t v

/-- `t` is made from `v`, which is written where `b` is the base URI. -/
abbrev SubOf (lib : UriLib) (C : Nat → Site → Prop) (b : Uri) (t : Nat) (v : Value) : Prop := C t (site lib b v)

/-- `kw` is the keyword that evaluation finds for the member `(k, v)`.  `C t q`: the schema object `t` is
made from the subschema `q`. -/
def KwReads (lib : UriLib) (L : Links) (enabled : String → Bool) (C : Nat → Site → Prop) (b : Uri) (k : String)
    (v : Value) : Kw → Prop
  | .assert a' => k ∈ assertNames ∧ (∃ a, WrittenAs k v a) ∧ ∀ a, WrittenAs k v a → Alike a' a
  | .allOf ts => k = "allOf" ∧ ∃ vs, v = .arr vs ∧ ListReads (SubOf lib C b) ts vs
  | .anyOf ts => k = "anyOf" ∧ ∃ vs, v = .arr vs ∧ ListReads (SubOf lib C b) ts vs
  | .oneOf ts => k = "oneOf" ∧ ∃ vs, v = .arr vs ∧ ListReads (SubOf lib C b) ts vs
  | .prefixItems ts => k = "prefixItems" ∧ dia = .d2020 ∧ ∃ vs, v = .arr vs ∧ ListReads (SubOf lib C b) ts vs
  | .not_ t => k = "not" ∧ SubOf lib C b t v
  | .if_ t => k = "if" ∧ SubOf lib C b t v
  | .then_ t => k = "then" ∧ SubOf lib C b t v
  | .else_ t => k = "else" ∧ SubOf lib C b t v
  | .contains t => k = "contains" ∧ SubOf lib C b t v
  | .additionalProperties t => k = "additionalProperties" ∧ SubOf lib C b t v
  | .propertyNames t => k = "propertyNames" ∧ SubOf lib C b t v
  | .items t => k = "items" ∧ dia = .d2020 ∧ SubOf lib C b t v
  | .unevaluatedItems t => k = "unevaluatedItems" ∧ dia = .d2020 ∧ SubOf lib C b t v
  | .items9 t => k = "items" ∧ dia = .d2019 ∧ (∀ vs, v ≠ .arr vs) ∧ SubOf lib C b t v
  | .items9Array ts => k = "items" ∧ dia = .d2019 ∧ ∃ vs, v = .arr vs ∧ ListReads (SubOf lib C b) ts vs
  | .additionalItems t => k = "additionalItems" ∧ dia = .d2019 ∧ SubOf lib C b t v
  | .unevaluatedItems9 t => k = "unevaluatedItems" ∧ dia = .d2019 ∧ SubOf lib C b t v
  | .recursiveRef t => k = "$recursiveRef" ∧ dia = .d2019 ∧ ∃ s u, v = .str s ∧ L.refer b s u ∧ ∀ u, L.refer b s u → C t u
  | .unevaluatedProperties t => k = "unevaluatedProperties" ∧ SubOf lib C b t v
  | .dependentSchemas ts => k = "dependentSchemas" ∧ ∃ vs, v = .obj vs ∧ DictReads (SubOf lib C b) ts vs
  | .properties ts => k = "properties" ∧ ∃ vs, v = .obj vs ∧ DictReads (SubOf lib C b) ts vs
  | .patternProperties ts => k = "patternProperties" ∧ ∃ vs, v = .obj vs ∧ DictReads (SubOf lib C b) ts vs
  | .minContains m => k = "minContains" ∧ v = .num m
  | .maxContains m => k = "maxContains" ∧ v = .num m
  | .format a e => k = "format" ∧ v = .str a ∧ e = enabled a
  | .ref t => k = "$ref" ∧ ∃ s u, v = .str s ∧ L.refer b s u ∧ ∀ u, L.refer b s u → C t u
  | .dynamicRef t f d => k = "$dynamicRef" ∧ dia = .d2020 ∧ ∃ s u, v = .str s ∧ L.refer b s u ∧
      f = (lib.ofText s).fragment.getD "" ∧ ∀ u, L.refer b s u → C t u ∧ (d = true ↔ ∃ f, Dynamic lib s f u)
  | .static k' v' => k' = k ∧ (idleName k ∨ k ∈ anchorNames ∧ v' = v)
  | .annot k' _ _ | .unknown k' _ => k' = k ∧ idleName k
  | .contentSchema _ => k = "contentSchema"

section
variable {lib : UriLib} {L : Links} {enabled : String → Bool} {C : Nat → Site → Prop} {b : Uri}

theorem oneForm_reads : ∀ k ∈ oneKeys, ∃ f, dlookup k kwForms = some (.one f) ∧
    ∀ t v, SubOf lib C b t v → KwReads lib L enabled C b k v (f t) := by
  intro k hk
  cases dia <;> simp only [oneKeys, List.cons_append, List.nil_append, List.mem_cons, List.not_mem_nil, or_false] at hk <;>
    rcases hk with rfl | rfl | rfl | rfl | rfl | rfl | rfl | rfl | rfl | rfl <;>
    first
      | exact ⟨_, rfl, fun t v h => ⟨rfl, h⟩⟩
      | exact ⟨_, rfl, fun t v h => ⟨rfl, rfl, h⟩⟩

theorem manyForm_reads : ∀ k ∈ manyKeys, ∃ f, dlookup k kwForms = some (.many f) ∧
    ∀ ts vs, ListReads (SubOf lib C b) ts vs → KwReads lib L enabled C b k (.arr vs) (f ts) := by
  intro k hk
  cases dia <;> simp only [manyKeys, List.cons_append, List.nil_append, List.append_nil, List.mem_cons, List.not_mem_nil, or_false] at hk
  · rcases hk with rfl | rfl | rfl <;>
      exact ⟨_, rfl, fun t v h => ⟨rfl, _, rfl, h⟩⟩
  · rcases hk with rfl | rfl | rfl | rfl <;>
      first
        | exact ⟨_, rfl, fun t v h => ⟨rfl, _, rfl, h⟩⟩
        | exact ⟨_, rfl, fun t v h => ⟨rfl, rfl, _, rfl, h⟩⟩

theorem eitherForm_reads : ∀ k ∈ eitherKeys, ∃ f g, dlookup k kwForms = some (.either f g) ∧
    (∀ t v, (∀ vs, v ≠ .arr vs) → SubOf lib C b t v → KwReads lib L enabled C b k v (f t)) ∧
    ∀ ts vs, ListReads (SubOf lib C b) ts vs → KwReads lib L enabled C b k (.arr vs) (g ts) := by
  intro k hk
  cases dia <;> simp only [eitherKeys, List.mem_cons, List.not_mem_nil, or_false] at hk
  subst hk
  exact ⟨_, _, rfl, fun t v h h' => ⟨rfl, rfl, h, h'⟩, fun t v h => ⟨rfl, rfl, _, rfl, h⟩⟩

theorem namedForm_reads : ∀ k ∈ namedKeys, k ≠ "$defs" → ∃ f, dlookup k kwForms = some (.named f) ∧
    ∀ ts vs, DictReads (SubOf lib C b) ts vs → KwReads lib L enabled C b k (.obj vs) (f ts) := by
  intro k hk hd
  simp only [namedKeys, List.mem_cons, List.not_mem_nil, or_false] at hk
  rcases hk with rfl | rfl | rfl | rfl
  · exact absurd rfl hd
  all_goals exact ⟨_, kwForms_common rfl, fun t v h => ⟨rfl, _, rfl, h⟩⟩

theorem noteForm_reads : ∀ k ∈ noteKeys, ∃ f, dlookup k kwForms = some (.plain f) ∧
    ∀ v x, ∃ kw, f x = some kw ∧ KwReads lib L enabled C b k v kw := by
  intro k hk
  have hk' := hk
  simp only [noteKeys, List.mem_cons, List.not_mem_nil, or_false] at hk
  rcases hk with rfl | rfl | rfl | rfl | rfl | rfl | rfl | rfl | rfl | rfl | rfl
  rotate_right
  · exact ⟨_, kwForms_common rfl, fun v x => ⟨_, rfl, rfl⟩⟩
  all_goals first
    | exact ⟨_, kwForms_common rfl, fun v x => ⟨_, rfl, rfl, .inr (.inl hk')⟩⟩
    | exact ⟨_, kwForms_common rfl, fun v x => ⟨_, rfl, rfl, .inl (.inr (.inl hk'))⟩⟩

theorem bootForm_reads : ∀ k ∈ bootNames, ∃ f, dlookup k kwForms = some (.plain f) ∧
    ∀ v x, ∃ kw, f x = some kw ∧ KwReads lib L enabled C b k v kw := by
  intro k hk
  have hk' := hk
  simp only [bootNames, List.mem_cons, List.not_mem_nil, or_false] at hk
  rcases hk with rfl | rfl | rfl
  all_goals exact ⟨_, kwForms_common rfl, fun v x => ⟨_, rfl, rfl, .inl (.inl hk')⟩⟩

end

theorem dynamic_forms (h : dia = .d2020) : dlookup "$dynamicRef" kwForms = some .dynamicRef ∧
    dlookup "$dynamicAnchor" kwForms = some (staticForm "$dynamicAnchor") ∧
    getKwclass dialectMeta "$dynamicRef" = .ok ⟨"$dynamicRef", .dynamicRef, []⟩ := by
  subst h; exact ⟨rfl, rfl, rfl⟩

theorem recursive_forms (h : dia = .d2019) : dlookup "$recursiveRef" kwForms = some .recursiveRef ∧
    dlookup "$recursiveAnchor" kwForms = some (staticForm "$recursiveAnchor") ∧
    getKwclass dialectMeta "$recursiveRef" = .ok ⟨"$recursiveRef", .recursiveRef, []⟩ := by
  subst h; exact ⟨rfl, rfl, rfl⟩

theorem depsOf_boot : ∀ k ∈ bootNames, depsOf k = [] := by cases dia <;> decide +kernel

theorem kwForms_names : ∀ p ∈ kwForms, p.1 ∈ definedNames := by
  have : ∀ k ∈ dkeys kwForms, k ∈ definedNames := by cases dia <;> decide +kernel
  exact fun p hp => this _ (List.mem_map.2 ⟨p, hp, rfl⟩)

section
variable {E : CEnv} {L : Links} {c0 : Caches} {cid : String} {u : Uri} {root : Nat} {kvs0 : List (String × Value)} {w : World}
  {roots : List (Nat × Site)}

/-- A constructed document whose references are resolved. -/
structure DocDone (E : CEnv) (L : Links) (roots : List (Nat × Site)) (c0 : Caches) (cid : String) (u : Uri) (root : Nat)
    (kvs : List (String × Value)) (w w' : World) : Prop where
  made : DocMade E L c0 cid u root kvs w
  mid : Mid E L (MadeFrom E L roots w) root w w'
  resolved : AllResolved w' root
  mem : (root, ⟨u, .obj kvs⟩) ∈ roots

/-- A document in a later world, in which its references are resolved, and anything else may have been
constructed.  `C t q`: the schema object `t` is made from the subschema `q`. -/
structure DocRead (E : CEnv) (L : Links) (C : Nat → Site → Prop) (c0 : Caches) (cid : String) (u : Uri) (root : Nat)
    (kvs : List (String × Value)) (w w' : World) : Prop where
  made : DocMade E L c0 cid u root kvs w
  ok : WOk w'
  grown : Grown w w'
  kws : ∀ {ks x q}, Corr E L root ⟨u, .obj kvs⟩ w ks x q → ∀ kv ∈ w'.keywords x, Bare kv.2 ∨ Aimed E.lib L C w x kv.2
  resolved : AllResolved w' root
  mem : ∀ {ks x q}, Corr E L root ⟨u, .obj kvs⟩ w ks x q → C x q

variable {w' : World} {C : Nat → Site → Prop}

theorem DocDone.read (D : DocDone E L roots c0 cid u root kvs0 w w') :
    DocRead E L (MadeFrom E L roots w) c0 cid u root kvs0 w w' where
  made := D.made
  ok := D.mid.ok
  grown := D.mid.grown
  kws c kv h := (D.mid.kws _ (c.le D.made) kv h).imp id And.left
  resolved := D.resolved
  mem c := ⟨root, _, _, D.mem, c⟩

omit dia in
theorem Grown.kw {w w' : World} (g : Grown w w') {x : Nat} (hx : x < w.heap.next) {kv : String × KwObj}
    (h : kv ∈ w'.keywords x) : ∃ o, (kv.1, o) ∈ w.keywords x ∧ kv.2.shape = o.shape ∧ kv.2.json = o.json := by
  obtain ⟨f, f1, f2⟩ := g.keywords hx
  rw [f1] at h
  obtain ⟨kv0, h1, rfl⟩ := List.mem_map.1 h
  exact ⟨kv0.2, h1, (f2 _ _).1, (f2 _ _).2.1⟩

/-- The keyword that evaluation finds for a member. -/
theorem DocRead.reads (D : DocRead E L C c0 cid u root kvs0 w w') {ks : List String} {x : Nat} {b : Uri}
    {kvs : List (String × Value)} (c : Corr E L root ⟨u, .obj kvs0⟩ w ks x ⟨b, .obj kvs⟩) {k : String} {v : Value}
    (hm : (k, v) ∈ kvs) {o' : KwObj} (ho' : (k, o') ∈ w'.keywords x) :
    ∃ kw, w'.kwOf E (k, o') = some kw ∧
      KwReads E.lib L E.fmtEnabled (C) b k v kw := by
  have hx := D.made.ok.dom x c.isSchema
  obtain ⟨o, ho, b1, b2⟩ := D.grown.kw hx ho'
  simp only at ho b1 b2
  have f := c.kw D.made hm ho
  have hj := (D.made.ok.ord.kid _ _ (childD_kid f.child)).2.1
  have hval : val w'.heap o'.json = val w.heap o.json := by rw [b2, D.grown.val D.made.ok D.ok hj]
  have hdat : w'.heap.data o'.json = w.heap.data o.json := by rw [b2, D.grown.ext.data hj]
  have plain : ∀ {g}, dlookup k kwForms = some (.plain g) → ∀ {kw}, g (val w.heap o.json) = some kw →
      w'.kwOf E (k, o') = some kw := by
    intro g h kw hg
    simp only [World.kwOf, h, World.kwOfForm, hval, hg]
  by_cases hb : k ∈ bootNames
  · obtain ⟨g, h1, h2⟩ := bootForm_reads (lib := E.lib) (L := L) (b := b) (enabled := E.fmtEnabled)
      (C := C) k hb
    obtain ⟨kw, h3, h4⟩ := h2 v (val w.heap o.json)
    exact ⟨kw, plain h1 h3, h4⟩
  have made : ∀ {ls y q}, Corr E L root ⟨u, .obj kvs0⟩ w ls y q → C y q := D.mem
  -- references
  have aimed : ∀ {sh : KwShape}, o'.shape = sh → sh.isRef = true → ∀ {s}, v = .str s →
      ∃ t, o'.refschema = some t ∧ (∀ q, L.refer b s q → C t q) ∧
        (sh = .dynamicRef → ∀ q, L.refer b s q → (o'.dynamic = true ↔ ∃ f, Dynamic E.lib s f q)) := by
    rintro sh rfl hr s rfl
    have hres : o'.refschema.isSome = true := by
      refine D.resolved x ?_ ?_ _ ho' hr
      · exact (desc_ext D.grown.ext D.made.ok.ord (D.made.ok.dom _ D.made.isSchema)).2 (reach_desc c.reach)
      · rw [D.grown.isSchema hx]; exact c.isSchema
    rcases D.kws c _ ho' with h | h
    · have := h.1
      simp only at this
      rw [this] at hres; cases hres
    · obtain ⟨b', s', q, t, h1, h2, h3, h4, h5, h6⟩ := h.target
      rw [c.base] at h1
      cases h1
      have hd := rearr_str D.made.ok.ord f.rearr
      rw [← b2] at hd
      rw [hd] at h2
      cases h2
      exact ⟨t, h4, h5, h6⟩
  have hmem := c.member hm (not_schema hb)
  cases hmem with
  | @assert _ _ _ a ha =>
    obtain ⟨g, a', h1, h2, h3⟩ := written_read ha f.rearr (val_wf_ord D.made.ok.ord D.made.ok.keys.nodup _) (c.memWF hm)
    refine ⟨_, plain h1 h2, written_name ha, ⟨a, ha⟩, fun b hb => ?_⟩
    obtain ⟨g', b', h4, h5, h6⟩ := written_read hb f.rearr (val_wf_ord D.made.ok.ord D.made.ok.keys.nodup _) (c.memWF hm)
    rw [h1] at h4
    cases h4
    rw [h2] at h5
    cases h5
    exact h6
  | one hk =>
    have hc := c.one D.made hk hm ho
    rcases hk with hk | ⟨hk, ha⟩
    · obtain ⟨g, h1, h2⟩ := oneForm_reads (lib := E.lib) (L := L) (b := b) (enabled := E.fmtEnabled)
        (C := C) k hk
      refine ⟨g o'.json, by simp only [World.kwOf, h1, World.kwOfForm], h2 _ _ ?_⟩
      rw [b2]
      exact made hc
    · obtain ⟨g, g', h1, h2, -⟩ := eitherForm_reads (lib := E.lib) (L := L) (b := b) (enabled := E.fmtEnabled)
        (C := C) k hk
      refine ⟨g o'.json, ?_, h2 _ _ ha ?_⟩
      · have := fun cs => D.made.ok.whole _ cs hc.isSchema
        simp only [World.kwOf, h1, World.kwOfForm, hdat]
      · rw [b2]
        exact made hc
  | @many _ _ vs hk =>
    obtain ⟨cs, h3, -, h4, h5⟩ := c.many D.made hk hm ho
    rcases hk with hk | hk
    · obtain ⟨g, h1, h2⟩ := manyForm_reads (lib := E.lib) (L := L) (b := b) (enabled := E.fmtEnabled)
        (C := C) k hk
      exact ⟨g cs, by simp only [World.kwOf, h1, World.kwOfForm, hdat, h3], h2 _ _ ⟨h4, fun i t v ht hv => made (h5 i t v ht hv)⟩⟩
    · obtain ⟨g, g', h1, -, h2⟩ := eitherForm_reads (lib := E.lib) (L := L) (b := b) (enabled := E.fmtEnabled)
        (C := C) k hk
      exact ⟨g' cs, by simp only [World.kwOf, h1, World.kwOfForm, hdat, h3], h2 _ _ ⟨h4, fun i t v ht hv => made (h5 i t v ht hv)⟩⟩
  | @named _ _ vs hk =>
    by_cases hd : k = "$defs"
    · subst hd
      exact ⟨_, plain (kwForms_common rfl) rfl, rfl, .inl (.inr (.inr (.inl rfl)))⟩
    obtain ⟨g, h1, h2⟩ := namedForm_reads (lib := E.lib) (L := L) (b := b) (enabled := E.fmtEnabled)
      (C := C) k hk hd
    obtain ⟨cs, h3, -, h4, h5⟩ := c.named D.made hk hm ho
    refine ⟨g cs, by simp only [World.kwOf, h1, World.kwOfForm, hdat, h3], h2 _ _ ⟨h4, fun i t v ht hv => made (h5 i t v ht hv)⟩⟩
  | @count _ _ m hk =>
    have hd : val w.heap o.json = .num m := by have := f.rearr; generalize val w.heap o.json = y at this; cases this; rfl
    rcases hk with rfl | rfl
    · exact ⟨.minContains m, plain (kwForms_common rfl) (by rw [hd]; rfl), rfl, rfl⟩
    · exact ⟨.maxContains m, plain (kwForms_common rfl) (by rw [hd]; rfl), rfl, rfl⟩
  | @format _ a hk =>
    have hd := rearr_str D.made.ok.ord f.rearr
    have : dlookup "format" kwForms = some .format := kwForms_common rfl
    exact ⟨.format a (E.fmtEnabled a), by simp only [World.kwOf, this, World.kwOfForm, hdat, hd], rfl, rfl, rfl⟩
  | id => exact absurd (by decide) hb
  | @anchor _ _ t hk =>
    have hd : val w.heap o.json = .str t := by have := f.rearr; generalize val w.heap o.json = y at this; cases this; rfl
    rcases hk with rfl | ⟨hdia, rfl⟩
    · exact ⟨.static "$anchor" (.str t), plain (kwForms_common rfl) (by rw [hd]), rfl, .inr ⟨by decide, rfl⟩⟩
    · exact ⟨.static "$dynamicAnchor" (.str t), plain (dynamic_forms hdia).2.1 (by rw [hd]), rfl, .inr ⟨by decide, rfl⟩⟩
  | @ref _ s q hr =>
    have hsh : o'.shape = .ref := by
      rw [b1]; exact f.shape hb (c := ⟨"$ref", .ref, []⟩) (by cases dia <;> rfl)
    obtain ⟨t, h1, h2, -⟩ := aimed hsh rfl rfl
    have : dlookup "$ref" kwForms = some .ref := kwForms_common rfl
    exact ⟨.ref t, by simp only [World.kwOf, this, World.kwOfForm, h1, Option.map_some], rfl, s, q, rfl, hr, h2⟩
  | @recursiveAnchor _ v hdia =>
    have hd : val w.heap o.json = .bool v := by have := f.rearr; generalize val w.heap o.json = y at this; cases this; rfl
    exact ⟨.static "$recursiveAnchor" (.bool v), plain (recursive_forms hdia).2.1 (by rw [hd]), rfl, .inr ⟨by decide, rfl⟩⟩
  | @recursiveRef _ q hdia hr =>
    have hsh : o'.shape = .recursiveRef := by
      rw [b1]; exact f.shape hb (recursive_forms hdia).2.2
    obtain ⟨t, h1, h2, -⟩ := aimed hsh rfl rfl
    have : dlookup "$recursiveRef" kwForms = some .recursiveRef := (recursive_forms hdia).1
    exact ⟨.recursiveRef t, by simp only [World.kwOf, this, World.kwOfForm, h1, Option.map_some], rfl, hdia, _, q, rfl, hr, h2⟩
  | @dynamicRef _ s q _ hdia hr =>
    have hd := rearr_str D.made.ok.ord f.rearr
    have hsh : o'.shape = .dynamicRef := by
      rw [b1]; exact f.shape hb (dynamic_forms hdia).2.2
    obtain ⟨t, h1, h2, h3⟩ := aimed hsh rfl rfl
    have : dlookup "$dynamicRef" kwForms = some .dynamicRef := (dynamic_forms hdia).1
    exact ⟨.dynamicRef t ((E.lib.ofText s).fragment.getD "") o'.dynamic,
      by simp only [World.kwOf, this, World.kwOfForm, hdat, hd, h1], rfl, hdia, s, q, rfl, hr, rfl,
      fun q hq => ⟨h2 q hq, h3 rfl q hq⟩⟩
  | note hk =>
    obtain ⟨g, h1, h2⟩ := noteForm_reads (lib := E.lib) (L := L) (b := b) (enabled := E.fmtEnabled)
      (C := C) k hk
    obtain ⟨kw, h3, h4⟩ := h2 v (val w.heap o.json)
    exact ⟨kw, plain h1 h3, h4⟩
  | unknown hk =>
    have : dlookup k kwForms = none := by
      rw [dlookup_eq_none]
      intro h
      obtain ⟨f, hf⟩ := mem_dkeys.1 h
      exact hk (kwForms_names _ hf)
    exact ⟨.unknown k (val w'.heap o'.json), by simp only [World.kwOf, this, World.kwOfForm], rfl, .inr (.inr (.inr hk))⟩

/-- The keywords that evaluation finds in the schema object of a subschema. -/
structure ObjReads (lib : UriLib) (L : Links) (enabled : String → Bool) (C : Nat → Site → Prop) (b : Uri)
    (kws : List Kw) (kvs : List (String × Value)) : Prop where
  of_doc : ∀ k v, (k, v) ∈ kvs → ∃ kw ∈ kws, KwReads lib L enabled C b k v kw
  of_kw : ∀ kw ∈ kws, ∃ k v, (k, v) ∈ kvs ∧ KwReads lib L enabled C b k v kw
  nodup : (dkeys kvs).Nodup

theorem DocRead.obj_reads (D : DocRead E L C c0 cid u root kvs0 w w') {ks : List String} {x : Nat} {b : Uri}
    {kvs : List (String × Value)} (c : Corr E L root ⟨u, .obj kvs0⟩ w ks x ⟨b, .obj kvs⟩) :
    ObjReads E.lib L E.fmtEnabled (C) b
      ((w'.keywords x).filterMap (w'.kwOf E)) kvs where
  of_doc k v hm := by
    obtain ⟨o, f⟩ := c.kw_exists D.made hm
    obtain ⟨g, g1, g2⟩ := D.grown.keywords (D.made.ok.dom x c.isSchema)
    have ho' : (k, g k o) ∈ w'.keywords x := by
      rw [g1]; exact List.mem_map.2 ⟨_, f.mem, rfl⟩
    obtain ⟨kw, h1, h2⟩ := D.reads c hm ho'
    exact ⟨kw, List.mem_filterMap.2 ⟨_, ho', h1⟩, h2⟩
  of_kw kw hkw := by
    obtain ⟨⟨k, o'⟩, ho', h⟩ := List.mem_filterMap.1 hkw
    obtain ⟨o, ho, -⟩ := D.grown.kw (D.made.ok.dom x c.isSchema) ho'
    obtain ⟨v, hv, -⟩ := c.member_exists D.made ho
    obtain ⟨kw', h1, h2⟩ := D.reads c hv ho'
    rw [h] at h1
    cases h1
    exact ⟨k, v, hv, h2⟩
  nodup := by
    have := c.wf
    cases this with | obj h _ => exact h

/-- The order of the keywords. -/
theorem DocRead.kwsOk (D : DocRead E L C c0 cid u root kvs0 w w') {ks : List String} {x : Nat} {b : Uri}
    {kvs : List (String × Value)} (c : Corr E L root ⟨u, .obj kvs0⟩ w ks x ⟨b, .obj kvs⟩) :
    KwsOk dia ((w'.keywords x).filterMap (w'.kwOf E)) := by
  obtain ⟨g, g1, -⟩ := D.grown.keywords (D.made.ok.dom x c.isSchema)
  have hkeys : dkeys (w'.keywords x) = dkeys (w.keywords x) := by
    rw [g1]; simp [dkeys, Function.comp_def]
  refine kwsOk_filterMap (fun k o kw h => kwOf_fits D.ok.ord D.ok.keys h) ?_ ?_
  · rw [hkeys]; exact (c.keys D.made).2
  · rw [hkeys]
    obtain ⟨-, bs, cs, t1, t2, -, t4, t5, -⟩ := D.made.tidy x (c.le D.made) c.isSchema
    have e : dkeys (w.keywords x) = bs.map Prod.fst ++ cs.map KwCls.key := by
      rw [← sigs_keys, t1]; simp [Function.comp_def]
    have hc : ∀ cl ∈ cs, depsOf cl.key = cl.deps := by
      intro cl hcl
      obtain ⟨m, hm1, hm2⟩ := t5 (by rintro rfl; cases hcl)
      obtain ⟨m', hd, hm3⟩ := c.meta_ kvs rfl
      have := hm1.unique hm3
      subst this
      have hcls := hm2 cl hcl
      by_cases hid : cl.key = "$id"
      · obtain ⟨sh, e1, -⟩ := hd.id
        rw [hid, e1] at hcls
        cases hcls
        exact depsOf_boot "$id" (by decide)
      · exact depsOf_cls ((hd.same _ hid).symm.trans hcls)
    rw [e]
    intro pre a post he b hb hd
    have late : ∀ l, pre = bs.map Prod.fst ++ l → cs.map KwCls.key = l ++ a :: post → b ∈ pre := by
      intro l h1 h2
      obtain ⟨c1, c2, rfl, h3, h4⟩ := List.map_eq_append_iff.1 h2
      obtain ⟨cl, c3, rfl, h5, h6⟩ := List.map_eq_cons_iff.1 h4
      rw [h1]
      rcases List.mem_append.1 hb with hb | hb
      · exact List.mem_append_left _ hb
      · obtain ⟨cb, hcb, rfl⟩ := List.mem_map.1 hb
        refine List.mem_append_right _ ?_
        have := t4 c1 cl c3 rfl cb hcb (by rw [← hc cl (by simp), h5]; exact hd)
        rw [← h3]
        exact List.mem_map.2 ⟨_, this, rfl⟩
    rcases List.append_eq_append_iff.1 he with ⟨l, h1, h2⟩ | ⟨l, h1, h2⟩
    · exact late l h1 h2
    · cases l with
      | nil => exact late [] (by simpa using h1.symm) (by simpa using h2.symm)
      | cons y l =>
        -- those of `_bootstrap` depend on nothing
        cases h2
        have h : a ∈ bs.map Prod.fst := by rw [h1]; simp
        obtain ⟨p, hp, rfl⟩ := List.mem_map.1 h
        have : depsOf p.1 = [] := by
          rcases t2 p hp with ⟨h, -⟩ | ⟨h, -⟩ | ⟨h, -⟩ <;> rw [h] <;> exact depsOf_boot _ (by decide)
        simp only [this, id] at hd
        cases hd

end
end Jschon
