import Verif.Props.Outputs
import Verif.Proof.Locations
import Verif.Proof.EvalGood
import Verif.Proof.Output
import Verif.Props.Construct
import Verif.Props.Results

/-!
# C81: which part of a schema a result is about
-/

namespace Jschon
open Spec

variable [dia : Dialect] {E : CEnv} {env : Env} {cid : String} {w : World} {n : Nat} {s : Nat} {i : Inst}
  {r : RNode}

omit dia in
theorem Placed.within {st : Store} {r m : RNode} (h : Placed st r) (hm : InTree r m) : Placed st m := by
  induction hm with
  | self => exact h
  | child _ he ih => exact ih.sub _ he

/-- Both invariants of the tree of an evaluation that ends. -/
theorem evaluate_located (ok : WOk w) (h : evaluate (w.store E cid) env n s i = some r) :
    Placed (w.store E cid) r ∧ r.info.schema = s ∧ r.info.relpath = [] ∧ Good (fun _ => True) r := by
  obtain ⟨h1, h2, h3, -⟩ := evaluate_placed (store_noLoop ok) h
  exact ⟨h1, h2, h3, (evalSchema_good (Q := fun _ => True) ⟨fun _ _ _ _ => trivial, fun _ _ _ _ => trivial,
    fun _ _ _ _ => trivial⟩ n _ _ _ _ _ trivial (.mk trivial (by simp) (by simp)) h).1⟩

theorem found_reach (ok : WOk w) (h : evaluate (w.store E cid) env n s i = some r) {m : RNode} {x : Nat}
    (hf : FoundAt w.heap s r m x) : InTree r m ∧ Reach w.heap m.info.schema m.info.relpath x := by
  obtain ⟨hp, h1, h2, hg⟩ := evaluate_located ok h
  induction hf with
  | root => rw [h1, h2]; exact ⟨.self, .here⟩
  | @child m x e y _ he hc ih =>
    obtain ⟨a, b⟩ := ih
    have hpm := hp.within a
    obtain ⟨y', k, c1, c2, c3⟩ := edgeAt_child ok (hpm.edges e he) (hpm.sub e he).node b
    rw [((hg.within a).edges e he).1] at c1
    cases c1
    rw [reach_unique ok.keys.nodup (reach_one.2 hc) (reach_one.2 c3)]
    exact ⟨.child a he, c2⟩

/-- C81: `schema_node` of every result of an evaluation that ends exists, and it is what is found by
following the keys of the results above it from the schema, and the references. -/
theorem C81_found (hw : CHistory w) (h : evaluate (w.store E cid) env n s i = some r) {m : RNode}
    (hm : InTree r m) : ∃ x, FoundAt w.heap s r m x ∧ w.schemaNode m.info = .ok x := by
  have ok := hw.ok
  obtain ⟨hp, h1, h2, hg⟩ := evaluate_located ok h
  have main : ∃ x, FoundAt w.heap s r m x := by
    induction hm with
    | self => exact ⟨s, .root⟩
    | @child m e hm he ih =>
      obtain ⟨x, hx⟩ := ih
      have hpm := hp.within hm
      obtain ⟨y, k, c1, c2, c3⟩ := edgeAt_child ok (hpm.edges e he) (hpm.sub e he).node
        (found_reach ok h hx).2
      rw [((hg.within hm).edges e he).1] at c1
      cases c1
      exact ⟨y, .child hx he c3⟩
  obtain ⟨x, hx⟩ := main
  exact ⟨x, hx, reach_resolve ok.keys.nodup (found_reach ok h hx).2⟩

/-- C81: nothing else is found in that way. -/
theorem C81_only (hw : CHistory w) (h : evaluate (w.store E cid) env n s i = some r) {m : RNode} {x : Nat}
    (hf : FoundAt w.heap s r m x) : w.schemaNode m.info = .ok x :=
  reach_resolve hw.ok.keys.nodup (found_reach hw.ok h hf).2

/-- C81: where there is no reference above a result, its path leads from the schema to `schema_node`. -/
theorem C81_path (hw : CHistory w) (h : evaluate (w.store E cid) env n s i = some r) {m : RNode}
    (hm : Along (fun m => m.info.refschema = none) r m) {e} (he : e ∈ m.children) :
    ∃ x, Reach w.heap s e.2.info.path x ∧ w.schemaNode e.2.info = .ok x := by
  have ok := hw.ok
  obtain ⟨hp, h1, h2, hg⟩ := evaluate_located ok h
  have hpath : r.info.path = [] := by
    have := (evalSchema_good (Q := fun _ => True) ⟨fun _ _ _ _ => trivial, fun _ _ _ _ => trivial,
      fun _ _ _ _ => trivial⟩ n _ _ _ _ _ trivial (.mk trivial (by simp) (by simp)) h).2.path
    exact this
  have main : InTree r m ∧ ∃ x, FoundAt w.heap s r m x ∧ Reach w.heap s m.info.path x := by
    clear he
    induction hm with
    | self => rw [hpath]; exact ⟨.self, s, .root, .here⟩
    | @child m e hm he _ ih =>
      obtain ⟨a, x, hx, hr⟩ := ih
      have hn : m.info.refschema = none := by cases hm <;> assumption
      obtain ⟨y, hy, -⟩ := C81_found hw h (.child a he)
      refine ⟨.child a he, ?_⟩
      have hpm := hp.within a
      obtain ⟨y, k, c1, c2, c3⟩ := edgeAt_child ok (hpm.edges e he) (hpm.sub e he).node
        (found_reach ok h hx).2
      have hed := (hg.within a).edges e he
      rw [hed.1] at c1
      cases c1
      refine ⟨y, .child hx he c3, ?_⟩
      rw [hed.2.2]
      rw [hn] at c3
      exact reach_append hr (reach_one.2 c3)
  obtain ⟨a, x, hx, hr⟩ := main
  have hn : m.info.refschema = none := by cases hm <;> assumption
  have hpm := hp.within a
  obtain ⟨y, k, c1, c2, c3⟩ := edgeAt_child ok (hpm.edges e he) (hpm.sub e he).node (found_reach ok h hx).2
  have hed := (hg.within a).edges e he
  rw [hed.1] at c1
  cases c1
  refine ⟨y, ?_, reach_resolve ok.keys.nodup c2⟩
  rw [hed.2.2]
  rw [hn] at c3
  exact reach_append hr (reach_one.2 c3)

/-! ## Absolute URIs -/

omit dia in
theorem uriFragment_ne {k : String} {ks : List String} : Ptr.uriFragment ⟨k :: ks⟩ ≠ "" := by
  obtain ⟨l, hl⟩ := uriFragment_slash k ks
  intro h; rw [h] at hl; cases hl

omit dia in
theorem relKeys_pointer {u : Uri} {k : String} {ks rel : List String} :
    relKeys (u.withFragment (Ptr.uriFragment ⟨k :: ks⟩)) rel = .ok (k :: ks ++ rel) := by
  unfold relKeys
  split
  · rename_i h; cases h
  · rename_i h; exact absurd (Option.some.inj h) uriFragment_ne
  · rename_i f _ h
    have : f = Ptr.uriFragment ⟨k :: ks⟩ := (Option.some.inj h).symm
    rw [this, C04_fragment_roundtrip]

omit dia in
/-- What `canonical_uri` consists of. -/
theorem canonical_parts (ok : WOk w) {root t : Nat} (hs : SchemaIn w root t) (hf : PlainUris w t)
    {cu : Uri} (hc : w.canonicalUri t = .ok (some cu)) : ∃ q u ks, w.uri q = some u ∧
      w.cacheid q = w.cacheid t ∧ Reach w.heap q ks t ∧ u.fragment = none ∧
      ((ks = [] ∧ cu = u) ∨ (ks ≠ [] ∧ cu = u.withFragment (Ptr.uriFragment ⟨ks⟩))) := by
  obtain ⟨hroot, ⟨ks, hr⟩, hsc⟩ := hs
  unfold World.canonicalUri at hc
  cases hus : w.uri t with
  | some u =>
    rw [hus] at hc; cases hc
    exact ⟨t, _, [], hus, rfl, .here, hf t _ ⟨[], .here⟩ hus, .inl ⟨rfl, rfl⟩⟩
  | none =>
    rw [hus] at hc
    obtain ⟨q, u, k, ks', e1, e2, e3, e4⟩ := canonicalUp_spec ok hroot (t + 1) t ks [] cu hr
      (.inl ⟨hsc, rfl⟩) (fun r u ks' hr => hf r u ⟨ks', hr⟩) hc
    rw [List.append_nil] at e4
    exact ⟨q, u, k :: ks', e2, e3, e1, hf q u ⟨_, e1⟩ e2, .inr ⟨by simp, e4⟩⟩

omit dia in
/-- What `absolute_uri` consists of. -/
theorem absolute_parts (ok : WOk w) {info : RInfo} {root : Nat} (hs : SchemaIn w root info.schema)
    (hf : PlainUris w info.schema) (hn : info.refschema = none) {au : Uri}
    (ha : w.absoluteUri info = .ok (some au)) : ∃ q u ks, w.uri q = some u ∧
      w.cacheid q = w.cacheid info.schema ∧ Reach w.heap q ks info.schema ∧ u.fragment = none ∧
      au = u.withFragment (Ptr.uriFragment ⟨ks ++ info.relpath⟩) := by
  unfold World.absoluteUri at ha
  rw [hn] at ha
  cases hc : w.canonicalUri info.schema with
  | error e => simp only [hc] at ha; cases ha
  | ok o =>
    cases o with
    | none => simp only [hc] at ha; cases ha
    | some cu =>
      simp only [hc] at ha
      obtain ⟨q, u, ks, h1, h2, h3, h4, h5⟩ := canonical_parts ok hs hf hc
      refine ⟨q, u, ks, h1, h2, h3, h4, ?_⟩
      rcases h5 with ⟨rfl, rfl⟩ | ⟨h5, rfl⟩
      · have : relKeys cu info.relpath = .ok info.relpath := by unfold relKeys; rw [h4]
        rw [this] at ha
        cases ha; rfl
      · cases ks with
        | nil => exact absurd rfl h5
        | cons k ks =>
          rw [relKeys_pointer] at ha
          cases ha; rfl

omit dia in
theorem cached_uri (ok : WOk w) {q : Nat} {u : Uri} (h1 : w.uri q = some u)
    (h2 : u.fragment = none) (hu : UrisDiffer w (w.cacheid q)) :
    cacheGet w.caches (w.cacheid q) u = some q := by
  obtain ⟨t, a, b, c⟩ := ok.uris q u h1 h2
  rw [b, hu q t u h1 a rfl c]

omit dia in
theorem noFragment_with {u : Uri} {f : String} (h : u.fragment = none) :
    (u.withFragment f).noFragment = u := by
  cases u; simp only [Uri.noFragment, Uri.withFragment] at h ⊢; rw [h]

/-- C81 (`_partial`: URIs must differ and have no fragments, as in C51): `absolute_uri` of a result that
is not about a reference is the URI of a schema resource with a fragment that leads from there to the
result's `schema_node`. -/
theorem C81_uri_partial (hw : CHistory w) (h : evaluate (w.store E cid) env n s i = some r) {m : RNode}
    (hm : InTree r m) (hn : m.info.refschema = none) {root : Nat} (hs : SchemaIn w root m.info.schema)
    (hu : UrisDiffer w (w.cacheid m.info.schema)) (hf : PlainUris w m.info.schema) {au : Uri}
    (ha : w.absoluteUri m.info = .ok (some au)) :
    ∃ x, FoundAt w.heap s r m x ∧ PointsTo w (w.cacheid m.info.schema) au x := by
  obtain ⟨x, hx, -⟩ := C81_found hw h hm
  obtain ⟨q, u, ks, h1, h2, h3, h4, h5⟩ := absolute_parts hw.ok hs hf hn ha
  refine ⟨x, hx, q, ks ++ m.info.relpath, ?_, ?_, by rw [h5]; rfl,
    reach_append h3 (found_reach hw.ok h hx).2⟩
  · rw [h5, noFragment_with h4, ← h2]
    exact cached_uri hw.ok h1 h4 (by rw [h2]; exact hu)
  · rw [h5, noFragment_with h4]; exact h1

/-- C81: if the `schema_node` of such a result, other than the root, is a schema, then `get_schema` returns
it for `absolute_uri`. -/
theorem C81_schema_partial (hw : CHistory w) (h : evaluate (w.store E cid) env n s i = some r) {m : RNode}
    (hm : InTree r m) (hn : m.info.refschema = none) {root : Nat} (hs : SchemaIn w root m.info.schema)
    (hu : UrisDiffer w (w.cacheid m.info.schema)) (hf : PlainUris w m.info.schema)
    (hp : PlainAnchors w (w.cacheid m.info.schema)) {au : Uri}
    (ha : w.absoluteUri m.info = .ok (some au)) {x : Nat} (hx : w.schemaNode m.info = .ok x)
    (hsx : w.isSchema x = true) (hk : m.info.key ≠ none) (E' : CEnv) (n' : Nat) (mu : Option Uri) :
    getSchema E' n' au mu (w.cacheid m.info.schema) w = some (w, .ok x) := by
  have ok := hw.ok
  obtain ⟨x', hf', hx'⟩ := C81_found hw h hm
  rw [hx] at hx'
  cases hx'
  have hreach := (found_reach ok h hf').2
  obtain ⟨q, u, ks, h1, h2, h3, h4, h5⟩ := absolute_parts ok hs hf hn ha
  have hne : ∃ k ks', ks ++ m.info.relpath = k :: ks' := by
    have hpm := ((evaluate_located ok h).1.within hm).node
    cases hpm with
    | root _ _ h3 => exact absurd h3 hk
    | kw _ h2 => rw [h2]; cases ks <;> exact ⟨_, _, rfl⟩
    | sub _ h2 => rw [h2]; cases ks <;> exact ⟨_, _, rfl⟩
  obtain ⟨k, ks', hks⟩ := hne
  rw [hks] at h5
  have hfr : au.fragment = some (Ptr.uriFragment ⟨k :: ks'⟩) := by rw [h5]; rfl
  refine getSchemaWith_fragment (r := q) (ks := k :: ks') ?_ hfr uriFragment_ne ?_
    (C04_fragment_roundtrip _) ?_ hsx
  · cases hcg : cacheGet w.caches (w.cacheid m.info.schema) au with
    | none => rfl
    | some y =>
      obtain ⟨l, hl⟩ := uriFragment_slash k ks'
      exact absurd hl (hp au _ l (by rw [hcg]; rfl) hfr)
  · rw [h5, noFragment_with h4, ← h2]
    exact cached_uri ok h1 h4 (by rw [h2]; exact hu)
  · rw [← hks]; exact reach_resolve ok.keys.nodup (reach_append h3 hreach)

omit dia in
/-- C81: `absolute_uri` of a result about a reference is the canonical URI of the schema referred to, for
which `get_schema` returns that schema (under the hypotheses of C51). -/
theorem C81_reference_partial (hw : CHistory w) {m : RNode} {t : Nat} (hn : m.info.refschema = some t)
    {root : Nat} (hs : SchemaIn w root t) (hu : UrisDiffer w (w.cacheid t)) (hf : PlainUris w t)
    (hp : PlainAnchors w (w.cacheid t)) {au : Uri} (ha : w.absoluteUri m.info = .ok (some au)) (E' : CEnv)
    (n' : Nat) (mu : Option Uri) : getSchema E' n' au mu (w.cacheid t) w = some (w, .ok t) := by
  unfold World.absoluteUri at ha
  rw [hn] at ha
  exact C51_canonical_partial hw hs hu hf hp ha E' n' mu

omit dia in
/-- C81: results have an absolute URI where the roots of the documents have URIs. -/
theorem C81_exists {m : RNode} (hw : CHistory w) {root : Nat}
    (hs : SchemaIn w root (m.info.refschema.getD m.info.schema)) (hr : (w.uri root).isSome = true)
    (hf : PlainUris w (m.info.refschema.getD m.info.schema)) :
    ∃ au, w.absoluteUri m.info = .ok (some au) := by
  obtain ⟨cu, hc⟩ := C51_exists hw hs hr hf
  unfold World.absoluteUri
  cases hn : m.info.refschema with
  | some t => rw [hn] at hc; exact ⟨cu, hc⟩
  | none =>
    rw [hn] at hc hs hf
    simp only [Option.getD_none] at hc hs hf
    simp only [hc]
    obtain ⟨q, u, ks, h1, h2, h3, h4, h5⟩ := canonical_parts hw.ok hs hf hc
    rcases h5 with ⟨rfl, rfl⟩ | ⟨h5, rfl⟩
    · have : relKeys cu m.info.relpath = .ok m.info.relpath := by unfold relKeys; rw [h4]
      rw [this]; exact ⟨_, rfl⟩
    · cases ks with
      | nil => exact absurd rfl h5
      | cons k ks => rw [relKeys_pointer]; exact ⟨_, rfl⟩

/-! ## In outputs -/

/-- C81: a result counts as that of a schema if the node where it is found is a schema. -/
theorem C81_atSchema (hw : CHistory w) (h : evaluate (w.store E cid) env n s i = some r) {m : RNode}
    (hm : InTree r m) : w.atSchema m.info = true ↔ ∃ x, FoundAt w.heap s r m x ∧ w.isSchema x = true := by
  obtain ⟨x, h1, h2⟩ := C81_found hw h hm
  simp only [World.atSchema, h2]
  refine ⟨fun hs => ⟨x, h1, hs⟩, fun ⟨y, h3, h4⟩ => ?_⟩
  have := C81_only hw h h3
  rw [h2] at this
  cases this
  exact h4

/-- C81: the hierarchical output of every evaluation of a schema exists, and is a unit for the root. -/
theorem C81_hierarchical (hw : CHistory w) (h : evaluate (w.store E cid) env n s i = some r)
    (hs : w.isSchema s = true) : ∃ o, outHierarchical w.uriText w.atSchema r = some o ∧
      HierUnit w.uriText w.atSchema r o := by
  have hr := (C81_atSchema hw h .self).2 ⟨s, .root, hs⟩
  have hf : (firsts w.atSchema r).head? = some r := by
    cases r
    simp only [RNode.info] at hr
    rw [firsts, if_pos hr]; rfl
  obtain ⟨h1, h2⟩ := C60_hierarchical (uri := w.uriText) (isSchema := w.atSchema) r
  obtain ⟨o, ho⟩ := h2 r hf
  obtain ⟨m, h3, h4⟩ := h1 o ho
  rw [hf] at h3
  cases h3
  exact ⟨o, ho, h4⟩

omit dia in
theorem along_tree {P : RNode → Prop} {r m : RNode} (h : Along P r m) : InTree r m := by
  induction h with
  | self => exact .self
  | child _ he _ ih => exact .child ih he

omit dia in
/-- C81: the locations in a unit of the basic output are those of a result. -/
theorem C81_basic {keys : Option (List String)} {us : List Value}
    (hus : member (if r.info.valid then "annotations" else "errors") (outBasic w.uriText keys r) =
      some (.arr us)) {u : Value} (hu : u ∈ us) : ∃ m, InTree r m ∧
      member "keywordLocation" u = some (.str (Ptr.mk m.info.path).str) ∧
      member "instanceLocation" u = some (.str (Ptr.mk m.info.inst.path).str) ∧
      ∀ au, w.absoluteUri m.info = .ok (some au) →
        member "absoluteKeywordLocation" u = some (.str au.str) := by
  have hb : us = basicVisit w.uriText keys r.info.valid r := by
    cases hv : r.info.valid <;> simp [outBasic, hv, childKey, member, dlookup] at hus <;> exact hus.symm
  rw [hb] at hu
  obtain ⟨m, h1, -, rfl⟩ := mem_basicVisit hu
  refine ⟨m, along_tree h1, rfl, rfl, fun au ha => ?_⟩
  have : w.uriText m.info = au.str := by simp only [World.uriText, ha]
  rw [← this]; rfl

/-! ## What `additionalProperties` and `items` read off `schema_node` -/

theorem store_nodup (ok : WOk w) (t : SRef) : (((w.store E cid).keywords t).map Kw.key).Nodup := by
  unfold Store.keywords
  simp only [World.store, World.schemaObj]
  split
  · exact List.nodup_nil
  · rename_i kws he
    split at he
    · cases he
    · cases he
      refine nodup_filterMap (fun k o kw h => kwOf_fits ok.ord ok.keys h) ?_
      unfold World.keywords
      cases hi : w.info t with
      | none => exact List.nodup_nil
      | some i =>
        have h1 := ok.kws t i hi
        have h2 : dkeys i.keywords = dkeys (w.heap.data t).members := by
          rw [← h1]; simp [kwMembers, dkeys]
        show (dkeys i.keywords).Nodup
        rw [h2]
        have hs : w.isSchema t = true := by simp [World.isSchema, hi]
        cases hd : w.heap.data t with
        | obj ms => exact ok.keys.nodup t ms hd
        | arr cs => exact absurd hd (ok.whole t cs hs)
        | _ => exact List.nodup_nil

omit dia in
theorem flatMap_single {α β : Type} {f : α → List β} {key : α → String} {a : α} : ∀ {l : List α},
    (l.map key).Nodup → a ∈ l → (∀ b ∈ l, key b ≠ key a → f b = []) → l.flatMap f = f a
  | b :: l, hn, ha, hf => by
    rw [List.map_cons, List.nodup_cons] at hn
    rw [List.flatMap_cons]
    rcases List.mem_cons.1 ha with rfl | ha
    · have : l.flatMap f = [] := by
        rw [List.flatMap_eq_nil_iff]
        intro b hb
        refine hf b (List.mem_cons_of_mem _ hb) fun he => hn.1 ?_
        rw [← he]; exact List.mem_map_of_mem hb
      rw [this, List.append_nil]
    · have hne : key b ≠ key a := fun he => hn.1 (by rw [he]; exact List.mem_map_of_mem ha)
      rw [hf b List.mem_cons_self hne, List.nil_append]
      exact flatMap_single hn.2 ha (fun c hc => hf c (List.mem_cons_of_mem _ hc))

theorem named_data (ok : WOk w) {t : SRef} {kw : Kw} (hm : kw ∈ (w.store E cid).keywords t) {j : Nat}
    (hc : Child w.heap t kw.key j) {f : List (String × Nat) → Kw}
    (hf : dlookup kw.key (kwForms (dia := dia)) = some (.named f)) :
    ∃ ms, kw = f ms ∧ w.heap.data j = .obj ms := by
  unfold Store.keywords at hm
  simp only [World.store, World.schemaObj] at hm
  split at hm
  · cases hm
  · rename_i kws he
    split at he
    · cases he
    · cases he
      obtain ⟨⟨k, o⟩, hm, hk⟩ := List.mem_filterMap.1 hm
      have e := (kwOf_fits ok.ord ok.keys hk).1
      rw [e] at hc hf
      have hj : j = o.json :=
        reach_unique ok.keys.nodup (reach_one.2 hc) (reach_one.2 (keywords_child ok hm))
      subst hj
      unfold World.kwOf at hk
      simp only [hf, World.kwOfForm] at hk
      split at hk
      · rename_i ms hd
        exact ⟨ms, (Option.some.inj hk).symm, hd⟩
      · cases hk

/-- C81: what the model of `additionalProperties` takes for the keys of a sibling's `schema_node` are the
keys of that object. -/
theorem C81_keys (hw : CHistory w) (h : evaluate (w.store E cid) env n s i = some r) {m : RNode}
    (hm : InTree r m) {key : String} (hkey : key = "properties" ∨ key = "patternProperties")
    (hr : m.info.relpath = [key]) : ∃ x ms, w.schemaNode m.info = .ok x ∧ w.heap.data x = .obj ms ∧
      schemaKeys (w.store E cid) key m = dkeys ms := by
  have ok := hw.ok
  have hnode := ((evaluate_located ok h).1.within hm).node
  have main : ∃ kw, kw ∈ (w.store E cid).keywords m.info.schema ∧ kw.key = key := by
    cases hnode with
    | root h1 => rw [h1] at hr; cases hr
    | kw h1 h2 => rw [hr] at h2; cases h2; exact ⟨_, h1, rfl⟩
    | sub h1 h2 => rw [hr] at h2; cases h2
  obtain ⟨kw, h1, rfl⟩ := main
  obtain ⟨j, hc, -, -⟩ := store_keyword ok h1
  have hj : w.schemaNode m.info = .ok j := by
    unfold World.schemaNode
    rw [hr]
    exact reach_resolve ok.keys.nodup (reach_one.2 hc)
  have hf : ∀ b : Kw, b ∈ (w.store E cid).keywords m.schema → b.key ≠ kw.key → (match b with
      | .properties ps => if kw.key = "properties" then dkeys ps else []
      | .patternProperties ps => if kw.key = "patternProperties" then dkeys ps else []
      | _ => []) = ([] : List String) := by
    intro b _ hb
    split
    · rw [if_neg fun he => hb he.symm]
    · rw [if_neg fun he => hb he.symm]
    · rfl
  have hs : schemaKeys (w.store E cid) kw.key m = _ := flatMap_single (store_nodup ok _) h1 hf
  rw [hs]
  rcases hkey with hk | hk
  · obtain ⟨ms, rfl, hd⟩ := named_data ok h1 hc (f := .properties) (by rw [hk]; cases dia <;> rfl)
    exact ⟨j, ms, hj, hd, by simp [Kw.key]⟩
  · obtain ⟨ms, rfl, hd⟩ := named_data ok h1 hc (f := .patternProperties) (by rw [hk]; cases dia <;> rfl)
    exact ⟨j, ms, hj, hd, by simp [Kw.key]⟩

omit dia in
theorem findSome_single {α β : Type} {f : α → Option β} {key : α → String} {a : α} : ∀ {l : List α},
    (l.map key).Nodup → a ∈ l → (∀ b ∈ l, key b ≠ key a → f b = none) → l.findSome? f = f a
  | b :: l, hn, ha, hf => by
    rw [List.map_cons, List.nodup_cons] at hn
    rw [List.findSome?_cons]
    rcases List.mem_cons.1 ha with rfl | ha
    · have : l.findSome? f = none := by
        rw [List.findSome?_eq_none_iff]
        intro b hb
        refine hf b (List.mem_cons_of_mem _ hb) fun he => hn.1 ?_
        rw [← he]; exact List.mem_map_of_mem hb
      cases f a <;> simp [this]
    · have hne : key b ≠ key a := fun he => hn.1 (by rw [he]; exact List.mem_map_of_mem ha)
      rw [hf b List.mem_cons_self hne]
      exact findSome_single hn.2 ha (fun c hc => hf c (List.mem_cons_of_mem _ hc))

/-- C81: what the model of `items` takes for the length of the `schema_node` of a sibling `prefixItems` is
the length of that array. -/
theorem C81_length (hd : dia = .d2020) (hw : CHistory w)
    (h : evaluate (w.store E cid) env n s i = some r) {m : RNode} (hm : InTree r m)
    (hr : m.info.relpath = ["prefixItems"]) : ∃ x cs, w.schemaNode m.info = .ok x ∧
      w.heap.data x = .arr cs ∧ schemaLen (w.store E cid) m = cs.length := by
  have ok := hw.ok
  have hnode := ((evaluate_located ok h).1.within hm).node
  have main : ∃ kw, kw ∈ (w.store E cid).keywords m.info.schema ∧ kw.key = "prefixItems" := by
    cases hnode with
    | root h1 => rw [h1] at hr; cases hr
    | kw h1 h2 =>
      rw [hr] at h2
      simp only [List.cons.injEq, and_true] at h2
      exact ⟨_, h1, h2.symm⟩
    | sub h1 h2 => rw [hr] at h2; simp at h2
  obtain ⟨kw, h1, hk⟩ := main
  obtain ⟨j, hc, -, -⟩ := store_keyword ok h1
  have hj : w.schemaNode m.info = .ok j := by
    unfold World.schemaNode
    rw [hr, ← hk]
    exact reach_resolve ok.keys.nodup (reach_one.2 hc)
  have hl : ∃ cs, kw = .prefixItems cs ∧ w.heap.data j = .arr cs := by
    have h1' := h1
    unfold Store.keywords at h1'
    simp only [World.store, World.schemaObj] at h1'
    split at h1'
    · cases h1'
    · rename_i kws he
      split at he
      · cases he
      · cases he
        obtain ⟨⟨k, o⟩, hmm, hko⟩ := List.mem_filterMap.1 h1'
        have e := (kwOf_fits ok.ord ok.keys hko).1
        rw [e] at hc hk
        subst hk
        have hj : j = o.json :=
          reach_unique ok.keys.nodup (reach_one.2 hc) (reach_one.2 (keywords_child ok hmm))
        subst hj
        have hform : dlookup "prefixItems" (kwForms (dia := dia)) = some (.many .prefixItems) := by
          subst hd; rfl
        unfold World.kwOf at hko
        simp only [hform, World.kwOfForm] at hko
        split at hko
        · rename_i cs hd
          exact ⟨cs, (Option.some.inj hko).symm, hd⟩
        · cases hko
  obtain ⟨cs, rfl, hdata⟩ := hl
  refine ⟨j, cs, hj, hdata, ?_⟩
  unfold schemaLen
  rw [findSome_single (key := Kw.key) (l := (w.store E cid).keywords m.schema) (store_nodup ok _) h1]
  · rfl
  · intro b _ hb
    split
    · exact absurd rfl hb
    · rfl

/-! ## A concrete case -/

/-- The keyword location and the absolute URI of every result of a tree. -/
def Toy.tour (w : World) (r : RNode) : List (String × String) :=
  (preorder r).map fun m => ((Ptr.mk m.info.path).str, w.uriText m.info)

/-- The locations of the results of evaluating the schema `a/~% ` of `Toy.doc`: two references lead into
the embedded resource and back to the root. -/
def Toy.toured : List (String × String) :=
  [("", "h/r#/$defs/a~1~0%25%20"),
    ("/allOf", "h/r#/$defs/a~1~0%25%20/allOf"),
    ("/allOf/0", "h/r#/$defs/a~1~0%25%20/allOf/0"),
    ("/allOf/1", "h/r#/$defs/a~1~0%25%20/allOf/1"),
    ("/allOf/1/$ref", "h/e"),
    ("/allOf/1/$ref/not", "h/e#/not"),
    ("/allOf/1/$ref/not/$ref", "h/r")]

/-- The hypotheses of C81 can hold, of an evaluation that follows references. -/
example : ∃ (w : World) (r : RNode), CHistory w ∧ SchemaIn w 0 4 ∧ UrisDiffer w "" ∧ PlainUris w 4 ∧
    PlainAnchors w "" ∧ evaluate (@World.store .d2020 Toy.env "" w) demoEnv 20 4 ⟨[], .null⟩ = some r ∧
    Toy.tour w r = Toy.toured := by
  have h : (Toy.build Toy.doc).map (fun p => ((Toy.plain p.1 && p.1.isSchema 4 &&
      (p.1.heap.parent 0).isNone) && Toy.gives (resolveJson p.1.heap ["$defs", "a/~% "] 0) 4 &&
      decide ((evaluate (@World.store .d2020 Toy.env "" p.1) demoEnv 20 4 ⟨[], .null⟩).map (Toy.tour p.1) =
        some Toy.toured))) = some true := by
    decide +kernel
  obtain ⟨⟨w, r⟩, hb, hp⟩ := Option.map_eq_some_iff.1 h
  simp only [Bool.and_eq_true, Option.isNone_iff_eq_none, Toy.gives_iff, decide_eq_true_eq,
    Option.map_eq_some_iff] at hp
  obtain ⟨⟨⟨⟨h1, h2⟩, h3⟩, h4⟩, q, h5, h6⟩ := hp
  have hw : CHistory w :=
    .new .start Toy.env_ok (Toy.wf_spec _ (by decide +kernel)) (fun u hu => by cases hu) hb
  obtain ⟨ks, -, hk⟩ := resolve_reach h4
  obtain ⟨a, b, c⟩ := Toy.plain_spec hw h1 "" 4
  exact ⟨w, q, hw, ⟨h3, ⟨ks, hk⟩, h2⟩, a, b, c, h5, h6⟩

end Jschon
