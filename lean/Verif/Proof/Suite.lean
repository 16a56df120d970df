import Verif.Spec.Suite
import Verif.Proof.DocLater
import Verif.Proof.ConstructMono

/-!
# Documents that refer to each other
-/

namespace Jschon
open Spec

variable [dia : Dialect]

/-! ## More documents -/

theorem schemaForm_mono {E : CEnv} {L L' : Links} (hL : ∀ b t q, L.refer b t q → L'.refer b t q) (v : Value) :
    (∀ b, SchemaForm E L b v → SchemaForm E L' b v) ∧ (∀ b k, MemberForm E L b k v → MemberForm E L' b k v) := by
  have member : ∀ v, (∀ b, SchemaForm E L b v → SchemaForm E L' b v) →
      (∀ vs, v = .arr vs → ∀ x ∈ vs, ∀ b, SchemaForm E L b x → SchemaForm E L' b x) →
      (∀ ms, v = .obj ms → ∀ x ∈ ms, ∀ b, SchemaForm E L b x.2 → SchemaForm E L' b x.2) →
      ∀ b k, MemberForm E L b k v → MemberForm E L' b k v := by
    intro v i1 i2 i3 b k h
    cases h with
    | assert h1 h2 => exact .assert h1 h2
    | one h1 h2 => exact .one h1 (i1 _ h2)
    | many h1 h2 => exact .many h1 fun x hx => i2 _ rfl x hx _ (h2 x hx)
    | named h1 h2 => exact .named h1 fun x hx => i3 _ rfl x hx _ (h2 x hx)
    | count h => exact .count h
    | format h => exact .format h
    | id h => exact .id h
    | anchor h1 h2 => exact .anchor h1 h2
    | ref h => exact .ref (hL _ _ _ h)
    | recursiveAnchor h => exact .recursiveAnchor h
    | recursiveRef h h' => exact .recursiveRef h (hL _ _ _ h')
    | dynamicRef h20 h h' => exact .dynamicRef h20 (hL _ _ _ h) h'
    | note h => exact .note h
    | unknown h1 h2 h3 => exact .unknown h1 h2 h3
  induction v using Value.induct with
  | null =>
    have h : ∀ b, SchemaForm E L b .null → SchemaForm E L' b .null := fun _ h => by cases h
    exact ⟨h, member _ h (fun _ h => by cases h) (fun _ h => by cases h)⟩
  | num n =>
    have h : ∀ b, SchemaForm E L b (.num n) → SchemaForm E L' b (.num n) := fun _ h => by cases h
    exact ⟨h, member _ h (fun _ h => by cases h) (fun _ h => by cases h)⟩
  | str t =>
    have h : ∀ b, SchemaForm E L b (.str t) → SchemaForm E L' b (.str t) := fun _ h => by cases h
    exact ⟨h, member _ h (fun _ h => by cases h) (fun _ h => by cases h)⟩
  | bool b =>
    have h : ∀ b', SchemaForm E L b' (.bool b) → SchemaForm E L' b' (.bool b) := fun _ _ => .bool
    exact ⟨h, member _ h (fun _ h => by cases h) (fun _ h => by cases h)⟩
  | arr xs ih =>
    have h : ∀ b, SchemaForm E L b (.arr xs) → SchemaForm E L' b (.arr xs) := fun _ h => by cases h
    exact ⟨h, member _ h (fun _ h => by cases h; exact fun x hx => (ih x hx).1) (fun _ h => by cases h)⟩
  | obj kvs ih =>
    have h : ∀ b, SchemaForm E L b (.obj kvs) → SchemaForm E L' b (.obj kvs) := fun _ h => by
      cases h with
      | obj h => exact .obj fun kv hkv => (ih kv hkv).2 _ _ (h kv hkv)
    exact ⟨h, member _ h (fun _ h => by cases h) (fun _ h => by cases h; exact fun m hm => (ih m hm).1)⟩

theorem located_append {lib : UriLib} {roots more : List Site} {i : Nat} {ks : List String} {q : Site}
    (h : Located lib roots i ks q) : Located lib (roots ++ more) i ks q := by
  obtain ⟨p, h1, h2⟩ := h
  obtain ⟨hi, -⟩ := List.getElem?_eq_some_iff.1 h1
  exact ⟨p, by rw [List.getElem?_append_left hi]; exact h1, h2⟩

theorem refer_append {lib : UriLib} {roots : List Site} (more : List Site) (b : Uri) (t : String) (q : Site)
    (h : (links lib roots).refer b t q) : (links lib (roots ++ more)).refer b t q := by
  obtain ⟨r, h1, h2⟩ := h
  refine ⟨r, h1, ?_⟩
  cases h2 with
  | pointer h1 h2 h3 h4 => exact .pointer ⟨located_append h1.1, h1.2⟩ h2 h3 h4
  | anchor h1 h2 h3 h4 => exact .anchor (located_append h1) h2 h3 h4

/-! ## What a reference refers to is unique -/

theorem one_not_many {k : String} {us : List Value} (h : OneKey k (.arr us)) : ¬ ManyKey k := by
  rintro (h' | h')
  · rcases h with h | ⟨h, -⟩
    · exact (keys_disjoint.1 _ h).1 h'
    · exact (keys_disjoint.2.2.1 _ h).2.1 h'
  · rcases h with h | ⟨-, h⟩
    · exact (keys_disjoint.1 _ h).2.1 h'
    · exact h _ rfl

theorem one_not_named {k : String} {u : Value} (h : OneKey k u) : k ∉ namedKeys := by
  rcases h with h | ⟨h, -⟩
  · exact (keys_disjoint.1 _ h).2.2.1
  · exact (keys_disjoint.2.2.1 _ h).2.2.1

theorem many_not_named {k : String} (h : ManyKey k) : k ∉ namedKeys := by
  rcases h with h | h
  · exact (keys_disjoint.2.1 _ h).2.2.1
  · exact (keys_disjoint.2.2.1 _ h).2.2.1

/-- There is one subschema at a place. -/
theorem Spec.Stands.unique {lib : UriLib} {p q q' : Site} {ks : List String} (hw : p.schema.WF) (h : Stands lib p ks q)
    (h' : Stands lib p ks q') : q = q' := by
  have only : ∀ {kvs : List (String × Value)} {k u u'}, (Value.obj kvs).WF → (k, u) ∈ kvs → (k, u') ∈ kvs → u = u' := by
    intro kvs k u u' hw h h'
    cases hw with
    | obj hn _ =>
      have := (dlookup_of_mem hn h).symm.trans (dlookup_of_mem hn h')
      cases this; rfl
  have sub : ∀ {kvs : List (String × Value)} {k u}, (Value.obj kvs).WF → (k, u) ∈ kvs → u.WF := by
    intro kvs k u hw h
    cases hw with | obj _ h' => exact h' _ h
  induction h with
  | here => cases h'; rfl
  | one h1 h2 _ ih =>
    cases h' with
    | one _ h3 h4 => cases only hw h2 h3; exact ih (sub hw h2) h4
    | many h3 h4 => cases only hw h2 h4; exact absurd h3 (one_not_many h1)
    | named h3 => exact absurd h3 (one_not_named h1)
  | @many b kvs k us i u ks q h1 h2 h3 _ ih =>
    generalize hk : k :: toString i :: ks = l at h'
    cases h' with
    | here => cases hk
    | one h4 h5 => cases hk; cases only hw h2 h5; exact absurd h1 (one_not_many h4)
    | @many _ _ _ _ j _ _ _ _ h4 h5 h6 =>
      rw [List.cons.injEq, List.cons.injEq] at hk
      obtain ⟨rfl, hi, rfl⟩ := hk
      have : i = j := natStr_inj.1 (by rw [natStr_eq_toString, natStr_eq_toString]; exact hi)
      subst this
      cases only hw h2 h4
      rw [h3] at h5
      cases h5
      refine ih ?_ h6
      cases sub hw h2 with | arr h => exact h _ (List.mem_of_getElem? h3)
    | named h4 => cases hk; exact absurd h4 (many_not_named h1)
  | named h1 h2 h3 _ ih =>
    cases h' with
    | one h4 => exact absurd h1 (one_not_named h4)
    | many h4 => exact absurd h1 (many_not_named h4)
    | named _ h4 h5 h6 =>
      cases only hw h2 h4
      have hw' := sub hw h2
      cases only hw' h3 h5
      exact ih (sub hw' h3) h6

theorem located_unique {lib : UriLib} {roots : List Site} (hw : ∀ p ∈ roots, p.schema.WF) {i : Nat} {ks : List String}
    {q q' : Site} (h : Located lib roots i ks q) (h' : Located lib roots i ks q') : q = q' := by
  obtain ⟨p, h1, h2⟩ := h
  obtain ⟨p', h3, h4⟩ := h'
  rw [h1] at h3
  cases h3
  exact h2.unique (hw p (List.mem_of_getElem? h1)) h4

/-- A reference refers to one schema. -/
theorem refer_unique {lib : UriLib} {roots : List Site} (hw : ∀ p ∈ roots, p.schema.WF) (hu : UniqueNames lib roots)
    (ha : ∀ i ks q f, Located lib roots i ks q → Anchored q f → AnchorText f) {b : Uri} {t : String} {q q' : Site}
    (h : (links lib roots).refer b t q) (h' : (links lib roots).refer b t q') : q = q' := by
  obtain ⟨r, h1, h2⟩ := h
  obtain ⟨r', h3, h4⟩ := h'
  cases refUri_unique h1 h3
  cases h2 with
  | pointer a1 a2 a3 a4 =>
    cases h4 with
    | pointer b1 b2 b3 b4 =>
      obtain ⟨rfl, rfl⟩ := hu.resource _ _ _ _ _ _ a1 b1 (a2.trans b2.symm)
      cases located_unique hw a1.1 b1.1
      cases textOf_inj (a3.unquote.symm.trans b3.unquote)
      obtain ⟨p, c1, c2⟩ := a1.1
      exact (Spec.Stands.unique (hw p (List.mem_of_getElem? c1)) (c2.trans a4) (c2.trans b4))
    | anchor b1 b2 b3 b4 =>
      rw [b3] at a3
      exact absurd a3 (ha _ _ _ _ b1 b4).notPointer
  | anchor a1 a2 a3 a4 =>
    cases h4 with
    | pointer b1 b2 b3 b4 =>
      rw [a3] at b3
      exact absurd b3 (ha _ _ _ _ a1 a4).notPointer
    | anchor b1 b2 b3 b4 =>
      rw [a3] at b3
      cases b3
      obtain ⟨rfl, rfl⟩ := hu.anchor _ _ _ _ _ _ _ a1 b1 (a2.trans b2.symm) a4 b4
      exact located_unique hw a1 b1

/-! ## Later worlds -/

omit dia in
theorem Grown.base {w w' : World} (ok : WOk w) (g : Grown w w') {x : Nat} (hx : x < w.heap.next) :
    w'.baseUri x = w.baseUri x :=
  base_le ok.ord fun y hy => ⟨g.uri (by omega), by simp only [JHeap.parent, g.node y (by omega)]⟩

omit dia in
theorem Grown.metaUri {w w' : World} (g : Grown w w') {x : Nat} (hx : x < w.heap.next) :
    (w'.info x).bind SInfo.metaUri = (w.info x).bind SInfo.metaUri := by
  cases hi : w.info x with
  | none => rw [g.none x hx hi]
  | some i => obtain ⟨f, h, -⟩ := g.info x i hx hi; rw [h]; rfl

omit dia in
theorem HasMeta.grown {E : CEnv} {w w' : World} {m : Meta} (g : Grown w w') {x : Nat} (h : HasMeta E w m x) :
    x < w.heap.next → HasMeta E w' m x := by
  induction h with
  | here h1 h2 => intro hx; exact .here ((g.metaUri hx).trans h1) h2
  | @up s p h1 h2 h3 _ ih =>
    intro hx
    exact .up ((g.metaUri hx).trans h1) (by simp only [JHeap.parent, g.node s hx]; exact h2) h3 (ih (by omega))

section
variable {E : CEnv} {L L' : Links} {cid : String} {w w' : World} {docs : List (Nat × Site)}

theorem Corr.grown (ok : WOk w) (ok' : WOk w') (g : Grown w w') (hL : ∀ b t q, L.refer b t q → L'.refer b t q)
    {root : Nat} {p : Site} {ks : List String} {x : Nat} {q : Site} (c : Corr E L root p w ks x q) :
    Corr E L' root p w' ks x q := by
  have hx := ok.dom x c.isSchema
  have hr : root < w.heap.next := by have := reach_le ok.ord c.reach; omega
  refine ⟨reach_ext g.ext ok.ord c.reach hr, c.at_, (g.isSchema hx).trans c.isSchema, ?_, fun kvs h => (c.meta_ kvs h).imp fun _ m => ⟨m.1, m.2.grown g hx⟩,
    c.wf, (g.base ok hx).trans c.base, c.absolute, ?_, fun t h => (g.uri hx).trans (c.id t h),
    fun h1 h2 => (g.uri hx).trans (c.noId h1 h2)⟩
  · rw [g.val ok ok' hx]; exact c.rearr
  · rcases c.good with h | ⟨kvs, h1, h2⟩
    · exact .inl h
    · exact .inr ⟨kvs, h1, fun kv hkv => (h2 kv hkv).imp (fun h => h) fun h => (schemaForm_mono hL kv.2).2 _ _ h⟩

/-- The schema object of a subschema is there already. -/
theorem DocNames.back (D : DocNames E L cid docs w) (g : Grown w w') {root : Nat} {p : Site}
    {ks : List String} {x : Nat} {q : Site} (h : (root, p) ∈ docs)
    (c : Corr E L' root p w' ks x q) : Corr E L root p w ks x q := by
  obtain ⟨y, cy⟩ := D.find h c.at_
  have hr : root < w.heap.next := by
    have := reach_le D.ok.ord cy.reach
    have := D.ok.dom y cy.isSchema
    omega
  have := reach_unique D.ok.keys.nodup cy.reach (ext_reach g.ext D.ok.ord c.reach hr)
  subst this
  exact cy

/-- The names of documents are known in later worlds, unless they are taken. -/
theorem DocNames.grown (D : DocNames E L cid docs w) (ok' : WOk w') (g : Grown w w')
    (hc : ∀ s p ks q v, (s, p) ∈ docs → Stands E.lib p ks q → q.base = v.noFragment →
        cacheGet w'.caches cid v = cacheGet w.caches cid v) : DocNames E L cid docs w' where
  lib := D.lib
  ok := ok'
  find h hs := by
    obtain ⟨x, c⟩ := D.find h hs
    exact ⟨x, c.grown D.ok ok' g fun _ _ _ h => h⟩
  uri h c hr := by
    have c0 := D.back g h c
    have hx := D.ok.dom _ c0.isSchema
    rw [g.uri hx, g.cacheid hx]
    exact D.uri h c0 hr
  resource h c hr := by
    have c0 := D.back g h c
    rw [hc _ _ _ _ _ h c.at_ (noFragment_of c.absolute.2).symm]
    exact D.resource h c0 hr
  anchored h c hf := by
    have c0 := D.back g h c
    rw [hc _ _ _ _ (Uri.withFragment _ _) h c.at_ (noFragment_of c.absolute.2).symm]
    exact D.anchored h c0 hf
  only h hs hb hv := by
    rw [hc _ _ _ _ _ h hs hb] at hv
    obtain ⟨root', p', ls, q', h', c, e⟩ := D.only h hs hb hv
    exact ⟨root', p', ls, q', h', c.grown D.ok ok' g fun _ _ _ h => h, e⟩

/-- The names of one more document. -/
theorem DocNames.add (D0 : DocNames E L cid docs w) {u : Uri} {root : Nat} {kvs : List (String × Value)}
    (D : DocMade E L' w.caches cid u root kvs w') (g : Grown w w') (hL : ∀ b t q, L.refer b t q → L'.refer b t q)
    (A : DocAlone E w.caches cid ⟨u, .obj kvs⟩) : DocNames E L' cid (docs ++ [(root, ⟨u, .obj kvs⟩)]) w' := by
  -- what is new is of the new document
  have new : ∀ {v y}, cacheGet w'.caches cid v = some y → root ≤ y →
      ∃ ls q', Corr E L' root ⟨u, .obj kvs⟩ w' ls y q' ∧ q'.base = v.noFragment ∧
      ((v = q'.base ∧ (ls = [] ∨ ∃ t, q'.Has "$id" (.str t))) ∨
        ∃ f, AnchorText f ∧ Anchored q' f ∧ v = q'.base.withFragment f) := by
    intro v y h hy
    have hcl := (D.names.claim cid v y h hy).2
    obtain ⟨ls, q', cy⟩ := D.all y hy hcl.isSchema
    refine ⟨ls, q', cy, ?_, cy.claims D hcl⟩
    rcases cy.claims D hcl with ⟨rfl, -⟩ | ⟨f, -, -, rfl⟩
    · exact (noFragment_of cy.absolute.2).symm
    · exact (noFragment_of (u := q'.base) cy.absolute.2).symm
  have keep : ∀ {v x y}, cacheGet w.caches cid v = some x → cacheGet w'.caches cid v = some y → y = x := by
    intro v x y h0 h
    rcases Nat.lt_or_ge y root with hy | hy
    · have := D.names.old cid v y h hy
      rw [h0] at this
      cases this; rfl
    · obtain ⟨ls, q', cy, e, -⟩ := new h hy
      rw [A.2 v ls q' cy.at_ e] at h0
      cases h0
  have up : ∀ {root' p ks x q}, Corr E L root' p w ks x q → Corr E L' root' p w' ks x q := fun c => c.grown D0.ok D.ok g hL
  have huri : ∀ {root' p ks x q}, (root', p) ∈ docs → Corr E L' root' p w' ks x q →
      (ks = [] ∨ ∃ t, q.Has "$id" (.str t)) → w'.uri x = some q.base ∧ w'.cacheid x = cid := by
    intro root' p ks x q h c hr
    have c0 := D0.back g h c
    have hx := D0.ok.dom _ c0.isSchema
    rw [g.uri hx, g.cacheid hx]
    exact D0.uri h c0 hr
  refine ⟨D.lib, D.ok, fun h hs => ?_, fun h c hr => ?_, fun h c hr => ?_, fun h c hf => ?_, fun h hs hb hv => ?_⟩
  · rcases List.mem_append.1 h with h | h
    · obtain ⟨x, c⟩ := D0.find h hs
      exact ⟨x, up c⟩
    · cases List.mem_singleton.1 h
      exact D.find hs
  · rcases List.mem_append.1 h with h | h
    · exact huri h c hr
    · cases List.mem_singleton.1 h
      exact ⟨c.uri D hr, D.cacheids _ c.reach c.isSchema⟩
  · rcases List.mem_append.1 h with h | h
    · have c0 := D0.back g h c
      obtain ⟨h1, h2⟩ := huri h c hr
      obtain ⟨t, -, h3, -⟩ := D.ok.uris _ _ h1 c.absolute.2
      rw [h2] at h3
      rw [h3, keep (D0.resource h c0 hr) h3]
    · cases List.mem_singleton.1 h
      exact D.named A c hr
  · rcases List.mem_append.1 h with h | h
    · have c0 := D0.back g h c
      have h1 := D0.anchored h c0 hf
      obtain ⟨y, h2⟩ := D.names.kept _ _ _ (fun h => by cases h) h1
      rw [h2, keep h1 h2]
    · cases List.mem_singleton.1 h
      exact D.anchored A c hf
  · rename_i root0 p0 ks q v y
    rcases Nat.lt_or_ge y root with hy | hy
    · have h0 := D.names.old cid v y hv hy
      rcases List.mem_append.1 h with h | h
      · obtain ⟨root', p', ls, q', h', c, e⟩ := D0.only h hs hb h0
        exact ⟨root', p', ls, q', List.mem_append_left _ h', up c, e⟩
      · cases List.mem_singleton.1 h
        rw [A.2 v _ _ hs hb] at h0
        cases h0
    · obtain ⟨ls, q', cy, -, e⟩ := new hv hy
      exact ⟨_, _, ls, q', List.mem_append_right _ (List.mem_singleton.2 rfl), cy, e⟩

end

/-- The base URI of a schema is that of a schema resource. -/
theorem Spec.Stands.resource {lib : UriLib} {p q : Site} {ks : List String} (h : Stands lib p ks q) :
    ∃ ls r, Stands lib p ls r ∧ (ls = [] ∨ ∃ t, r.Has "$id" (.str t)) ∧ r.base = q.base := by
  have step : ∀ {b : Uri} {kvs : List (String × Value)} {u : Value} {q : Site} (k : List String),
      (∀ {ls r}, Stands lib (site lib b u) ls r → Stands lib ⟨b, .obj kvs⟩ (k ++ ls) r) →
      (∃ ls r, Stands lib (site lib b u) ls r ∧ (ls = [] ∨ ∃ t, r.Has "$id" (.str t)) ∧ r.base = q.base) →
      ∃ ls r, Stands lib ⟨b, .obj kvs⟩ ls r ∧ (ls = [] ∨ ∃ t, r.Has "$id" (.str t)) ∧ r.base = q.base := by
    rintro b kvs u q k up ⟨ls, r, h1, h2, h3⟩
    by_cases hi : ∃ t, r.Has "$id" (.str t)
    · exact ⟨_, r, up h1, .inr hi, h3⟩
    · cases h2.resolve_right hi
      cases h1
      refine ⟨[], _, .here, .inl rfl, ?_⟩
      rw [← h3]
      show b = ownBase lib b u
      unfold ownBase
      split
      · split
        · rename_i t ht
          exact absurd ⟨t, _, rfl, dlookup_mem ht⟩ hi
        · rfl
      · rfl
  induction h with
  | here => exact ⟨[], _, .here, .inl rfl, rfl⟩
  | one h1 h2 _ ih => exact step [_] (fun h => .one h1 h2 h) ih
  | many h1 h2 h3 _ ih => exact step [_, _] (fun h => .many h1 h2 h3 h) ih
  | named h1 h2 h3 _ ih => exact step [_, _] (fun h => .named h1 h2 h3 h) ih

/-- What is known by the names of the documents is not changed by one more document. -/
theorem DocNames.known {E : CEnv} {L L' : Links} {cid : String} {w w' : World} {docs : List (Nat × Site)}
    {d : Nat × Site} (D0 : DocNames E L cid docs w) (D : DocNames E L' cid (docs ++ [d]) w')
    (g : Grown w w') (hL : ∀ b t q, L.refer b t q → L'.refer b t q)
    (hf : ∀ v ks q, Stands E.lib d.2 ks q → q.base = v.noFragment → cacheGet w.caches cid v = none)
    {s : Nat} {p : Site} {ks : List String} {q : Site} {v : Uri} (h : (s, p) ∈ docs) (hs : Stands E.lib p ks q)
    (hb : q.base = v.noFragment) : cacheGet w'.caches cid v = cacheGet w.caches cid v := by
  cases h0 : cacheGet w.caches cid v with
  | some x =>
    obtain ⟨root', p', ls, q', h', c, ⟨rfl, e⟩ | ⟨f, -, e, rfl⟩⟩ := D0.only h hs hb h0
    · exact D.resource (List.mem_append_left _ h') (c.grown D0.ok D.ok g hL) e
    · exact D.anchored (List.mem_append_left _ h') (c.grown D0.ok D.ok g hL) e
  | none =>
    cases h1 : cacheGet w'.caches cid v with
    | none => rfl
    | some y =>
      exfalso
      obtain ⟨root', p', ls, q', h', c, e⟩ := D.only (List.mem_append_left _ h) hs hb h1
      rcases List.mem_append.1 h' with h' | h'
      · have c0 := D0.back g h' c
        rcases e with ⟨rfl, e⟩ | ⟨f, -, e, rfl⟩
        · rw [D0.resource h' c0 e] at h0; cases h0
        · rw [D0.anchored h' c0 e] at h0; cases h0
      · cases List.mem_singleton.1 h'
        obtain ⟨ks', r, r1, r2, r3⟩ := hs.resource
        obtain ⟨x, cx⟩ := D0.find h r1
        have h2 := D0.resource h cx r2
        have hq : q'.base = q.base := by
          rw [hb]
          rcases e with ⟨rfl, -⟩ | ⟨f, -, -, rfl⟩
          · exact (noFragment_of c.absolute.2).symm
          · exact (noFragment_of (u := q'.base) c.absolute.2).symm
        rw [r3, ← hq, hf _ _ _ c.at_ (noFragment_of c.absolute.2).symm] at h2
        cases h2

/-! ## What evaluation finds -/

section
variable {lib : UriLib} {L L' : Links} {enabled : String → Bool} {C C' : Nat → Site → Prop} {b : Uri}

theorem KwReads.mono (hC : ∀ t q, C t q → C' t q) (hL : ∀ b s q, L.refer b s q → L'.refer b s q)
    (hu : ∀ b s q q', L'.refer b s q → L'.refer b s q' → q = q') {k : String} {v : Value} {kw : Kw}
    (h : KwReads lib L enabled C b k v kw) : KwReads lib L' enabled C' b k v kw := by
  have list : ∀ {ts vs}, ListReads (SubOf lib C b) ts vs → ListReads (SubOf lib C' b) ts vs :=
    fun h => ⟨h.1, fun i t v h1 h2 => hC _ _ (h.2 i t v h1 h2)⟩
  have dict : ∀ {ts vs}, DictReads (SubOf lib C b) ts vs → DictReads (SubOf lib C' b) ts vs :=
    fun h => ⟨h.1, fun i t v h1 h2 => hC _ _ (h.2 i t v h1 h2)⟩
  cases kw <;> simp only [KwReads] at h ⊢
  case allOf | anyOf | oneOf => obtain ⟨h1, vs, h2, h3⟩ := h; exact ⟨h1, vs, h2, list h3⟩
  case prefixItems | items9Array => obtain ⟨h1, hd, vs, h2, h3⟩ := h; exact ⟨h1, hd, vs, h2, list h3⟩
  case dependentSchemas | properties | patternProperties =>
    obtain ⟨h1, vs, h2, h3⟩ := h; exact ⟨h1, vs, h2, dict h3⟩
  case ref =>
    obtain ⟨h1, s, u, h2, h3, h4⟩ := h
    refine ⟨h1, s, u, h2, hL _ _ _ h3, fun u' h' => ?_⟩
    cases hu _ _ _ _ (hL _ _ _ h3) h'
    exact hC _ _ (h4 _ h3)
  case recursiveRef =>
    obtain ⟨h1, hd, s, u, h2, h3, h4⟩ := h
    refine ⟨h1, hd, s, u, h2, hL _ _ _ h3, fun u' h' => ?_⟩
    cases hu _ _ _ _ (hL _ _ _ h3) h'
    exact hC _ _ (h4 _ h3)
  case dynamicRef =>
    obtain ⟨h1, hd, s, u, h2, h3, h4, h5⟩ := h
    refine ⟨h1, hd, s, u, h2, hL _ _ _ h3, h4, fun u' h' => ?_⟩
    cases hu _ _ _ _ (hL _ _ _ h3) h'
    exact ⟨hC _ _ (h5 _ h3).1, (h5 _ h3).2⟩
  case not_ | if_ | then_ | else_ | contains | additionalProperties | propertyNames | unevaluatedProperties =>
    exact ⟨h.1, hC _ _ h.2⟩
  case items | unevaluatedItems | additionalItems | unevaluatedItems9 => exact ⟨h.1, h.2.1, hC _ _ h.2.2⟩
  case items9 => exact ⟨h.1, h.2.1, h.2.2.1, hC _ _ h.2.2.2⟩
  all_goals exact h

theorem ObjReads.mono (hC : ∀ t q, C t q → C' t q) (hL : ∀ b s q, L.refer b s q → L'.refer b s q)
    (hu : ∀ b s q q', L'.refer b s q → L'.refer b s q' → q = q') {kws : List Kw} {kvs : List (String × Value)}
    (h : ObjReads lib L enabled C b kws kvs) : ObjReads lib L' enabled C' b kws kvs where
  of_doc k v hm := by
    obtain ⟨kw, h1, h2⟩ := h.of_doc k v hm
    exact ⟨kw, h1, h2.mono hC hL hu⟩
  of_kw kw hk := by
    obtain ⟨k, v, h1, h2⟩ := h.of_kw kw hk
    exact ⟨k, v, h1, h2.mono hC hL hu⟩
  nodup := h.nodup

end

/-- The schemas of the documents are there, and evaluation finds what was written. -/
structure Stock (E : CEnv) (cid : String) (docs : List (Nat × Site)) (w : World) : Prop where
  names : DocNames E (links E.lib (docs.map (·.2))) cid docs w
  unique : UniqueNames E.lib (docs.map (·.2))
  objs : ∀ {s q}, MadeFrom E (links E.lib (docs.map (·.2))) docs w s q →
    (∃ v, q.schema = .bool v ∧ w.schemaObj E s = .bool v) ∨
    ∃ kvs kws, q.schema = .obj kvs ∧ w.schemaObj E s = .obj kws ∧
      ObjReads E.lib (links E.lib (docs.map (·.2))) E.fmtEnabled (MadeFrom E (links E.lib (docs.map (·.2))) docs w)
        q.base kws kvs ∧ KwsOk dia kws

section
variable {E : CEnv} {cid : String} {w w' : World} {docs : List (Nat × Site)}

theorem DocNames.refer_unique (D : DocNames E (links E.lib (docs.map (·.2))) cid docs w)
    (hu : UniqueNames E.lib (docs.map (·.2))) (b : Uri) (t : String) (q q' : Site)
    (h : (links E.lib (docs.map (·.2))).refer b t q) (h' : (links E.lib (docs.map (·.2))).refer b t q') : q = q' := by
  refine Jschon.refer_unique (fun p hp => ?_) hu (fun i ks q f hl hf => ?_) h h'
  · obtain ⟨⟨root, p'⟩, h, rfl⟩ := List.mem_map.1 hp
    obtain ⟨x, c⟩ := D.find h .here
    exact c.wf
  · obtain ⟨root, p, h, -, hs⟩ := located_mem hl
    obtain ⟨x, c⟩ := D.find h hs
    exact c.anchorText hf

theorem Stock.start (hL : SiteLib E.lib) (ok : WOk w) : Stock E cid [] w where
  names := ⟨hL, ok, (fun h => by cases h), (fun h => by cases h), (fun h => by cases h), (fun h => by cases h),
    (fun h => by cases h)⟩
  unique := by
    have none : ∀ {i ks q}, ¬ Located E.lib [] i ks q := by rintro i ks q ⟨p, h, -⟩; cases h
    exact ⟨fun _ _ _ _ _ _ h => absurd h.1 none, fun _ _ _ _ _ _ _ h => absurd h none⟩
  objs := by rintro s q ⟨_, _, _, h, -⟩; cases h

theorem Stock.other (S : Stock E cid docs w) (ha : CAfter w w')
    (hc : ∀ s p ks q v, (s, p) ∈ docs → Stands E.lib p ks q → q.base = v.noFragment →
        cacheGet w'.caches cid v = cacheGet w.caches cid v) : Stock E cid docs w' := by
  obtain ⟨ok', g, bf⟩ := ha.spec S.names.ok
  refine ⟨S.names.grown ok' g hc, S.unique, ?_⟩
  rintro s q ⟨root, p, ks, h, c⟩
  have c0 := S.names.back g h c
  rw [schemaObj_later S.names.ok ok' g bf (S.names.ok.dom _ c0.isSchema)]
  rcases S.objs ⟨_, _, _, h, c0⟩ with h | ⟨kvs, kws, h1, h2, h3, h4⟩
  · exact .inl h
  · refine .inr ⟨kvs, kws, h1, h2, h3.mono ?_ (fun _ _ _ h => h) (S.names.refer_unique S.unique), h4⟩
    rintro t q ⟨root, p, ks, h, c⟩
    exact ⟨root, p, ks, h, c.grown S.names.ok ok' g fun _ _ _ h => h⟩

theorem uniqueNames_last {lib : UriLib} {roots : List Site} {p : Site} (h : UniqueNames lib (roots ++ [p])) :
    UniqueNames lib [p] := by
  have shift : ∀ {i ks q}, Located lib [p] i ks q → Located lib (roots ++ [p]) (roots.length + i) ks q := by
    rintro i ks q ⟨p', h1, h2⟩
    refine ⟨p', ?_, h2⟩
    rw [List.getElem?_append_right (by omega), Nat.add_sub_cancel_left]
    exact h1
  refine ⟨fun i ks q j ls r h1 h2 e => ?_, fun i ks q j ls r f h1 h2 e h3 h4 => ?_⟩
  · obtain ⟨h3, h4⟩ := h.resource _ _ _ _ _ _ ⟨shift h1.1, h1.2⟩ ⟨shift h2.1, h2.2⟩ e
    exact ⟨by omega, h4⟩
  · obtain ⟨h5, h6⟩ := h.anchor _ _ _ _ _ _ f (shift h1) (shift h2) e h3 h4
    exact ⟨by omega, h6⟩

variable (hE : CEnvOk E) (hO : ∀ u m, E.metaschema u = .ok m → Ordered m) (hL : SiteLib E.lib)
include hE hO hL

/-- One more document. -/
theorem Stock.add (S : Stock E cid docs w) {uri metaUri : Option Uri} {kvs : List (String × Value)} {p : Site}
    (A : Addition E w cid docs uri metaUri kvs p) :
    ∃ N w', (∀ n, N ≤ n → newDocument E n cid uri metaUri (.obj kvs) w = some (w', .ok w.heap.next)) ∧
      Stock E cid (docs ++ [(w.heap.next, p)]) w' ∧
      ∀ s p ks q v, (s, p) ∈ docs → Stands E.lib p ks q → q.base = v.noFragment →
        cacheGet w'.caches cid v = cacheGet w.caches cid v := by
  have hS := S.names
  obtain ⟨mo, hf, hm⟩ := A.form
  have hp := A.site
  have ok := hS.ok
  have pre : SPre w cid uri none := .doc ok fun u h => (A.given u h).2.2
  have mono : ∀ b t q, (links E.lib (docs.map (·.2))).refer b t q →
      (links E.lib ((docs ++ [(w.heap.next, p)]).map (·.2))).refer b t q := by
    rw [List.map_append]; exact refer_append _
  have hlast := uniqueNames_last A.unique
  have hsame := A.same
  have hfree := A.free
  have hall : UniqueNames E.lib ((docs ++ [(w.heap.next, p)]).map (·.2)) := by rw [List.map_append]; exact A.unique
  rw [show docs.map (·.2) ++ [p] = (docs ++ [(w.heap.next, p)]).map (·.2) by rw [List.map_append]; rfl] at hf
  have hpe : p = ⟨p.base, .obj kvs⟩ := by rw [hp]; rfl
  generalize hL' : links E.lib ((docs ++ [(w.heap.next, p)]).map (·.2)) = L' at hf mono
  obtain ⟨w1, s, h1, rfl, hg, D⟩ := returns_docMade hE hO hL A.wf (hp ▸ hf) pre hm
    (fun u h => ⟨(A.given u h).1, (A.given u h).2.1⟩) (hp ▸ hsame)
  rw [← hp] at D
  have al : DocAlone E w.caches cid ⟨p.base, .obj kvs⟩ := by rw [← hpe]; exact ⟨hlast, hfree⟩
  have N1 := hS.add D hg.grown mono al
  rw [← hpe] at N1
  have F := N1.finds hL'.symm
  obtain ⟨w', ⟨⟩, h2, hmid⟩ := settles_resolve D F _ D.corr (Nat.le_refl _) w1 D.mid
  have hn : ∀ n, w1.heap.next - w.heap.next ≤ n →
      newDocument E n cid uri metaUri (.obj kvs) w = some (w', .ok w.heap.next) := fun n hn => by
    simp only [newDocument, newDocWith, Bind.bind, M.andThen, h1, h2 n hn, pure, M.ret]
  have D' : DocDone E L' (docs ++ [(w.heap.next, p)]) w.caches cid p.base w.heap.next kvs w1 w' :=
    ⟨D, hmid, (resolveReferences_ok hE _ _ _ _ _ D.ok D.isSchema (h2 _ (Nat.le_refl _))).2.2 rfl,
      List.mem_append_right _ (by rw [← hpe]; exact List.mem_singleton.2 rfl)⟩
  have N2 : DocNames E L' cid (docs ++ [(w.heap.next, p)]) w' :=
    N1.grown hmid.ok hmid.grown fun _ _ _ _ _ _ _ _ => by rw [hmid.caches]
  have hu : ∀ b t q q', L'.refer b t q → L'.refer b t q' → q = q' := by
    rw [← hL'] at N2 ⊢
    exact N2.refer_unique hall
  refine ⟨_, w', hn, ?_⟩
  have hca : CAfter w w' := .new .refl hE A.wf (fun u h => (A.given u h).2.2) (hn _ (Nat.le_refl _))
  obtain ⟨ok', g, bf⟩ := hca.spec ok
  refine ⟨⟨by rw [hL']; exact N2, hall, ?_⟩, fun _ _ _ _ _ h h1 h2 => hS.known N2 g mono hfree h h1 h2⟩
  rw [hL']
  rintro s q ⟨root, p', ks, h, c⟩
  rcases List.mem_append.1 h with h | h
  · have c0 := hS.back g h c
    rw [schemaObj_later ok ok' g bf (ok.dom _ c0.isSchema)]
    rcases S.objs ⟨_, _, _, h, c0⟩ with h | ⟨kvs, kws, h1, h2, h3, h4⟩
    · exact .inl h
    · refine .inr ⟨kvs, kws, h1, h2, h3.mono ?_ mono hu, h4⟩
      rintro t q ⟨root, p, ks, h, c⟩
      exact ⟨root, p, ks, List.mem_append_left _ h, c.grown ok ok' g mono⟩
  · have c1 := N1.back hmid.grown (List.mem_append_right _ h) c
    cases List.mem_singleton.1 h
    rw [hpe] at c1
    rcases D'.read.objs c1 with h | ⟨kvs, kws, h1, h2, h3, h4⟩
    · exact .inl h
    · refine .inr ⟨kvs, kws, h1, h2, h3.mono ?_ (fun _ _ _ h => h) hu, h4⟩
      rintro t q ⟨root, p, ks, h, c⟩
      exact ⟨root, p, ks, h, c.grown D.ok ok' hmid.grown fun _ _ _ h => h⟩

/-- The schemas of a suite. -/
theorem Spec.Suite.stock (h : Suite E cid docs w) : Stock E cid docs w := by
  induction h with
  | start h => exact .start hL h.ok
  | add _ hA hn ih =>
    obtain ⟨N, w', h1, h2, -⟩ := ih.add hE hO hL hA
    cases newDocument_det hn (h1 N (Nat.le_refl _))
    exact h2
  | other _ ha hc ih => exact ih.other ha hc

omit hE hO hL

theorem Stock.storeReads (S : Stock E cid docs w) : StoreReads E.lib (links E.lib (docs.map (·.2))) E.fmtEnabled
    (MadeFrom E (links E.lib (docs.map (·.2))) docs w) (w.store E cid) := by
  refine S.names.storeReads rfl rfl (fun _ => rfl) fun h => ?_
  rcases S.objs h with h | ⟨kvs, kws, h1, h2, h3, -⟩
  · exact .inl h
  · exact .inr ⟨kvs, kws, h1, h2, h3⟩

theorem Stock.made (S : Stock E cid docs w) {s : Nat} {p : Site} (h : (s, p) ∈ docs) :
    MadeFrom E (links E.lib (docs.map (·.2))) docs w s p := by
  obtain ⟨x, c⟩ := S.names.find h .here
  have hr := c.reach
  cases hr
  exact ⟨_, _, _, h, c⟩

/-- Evaluation gives the same in later worlds. -/
theorem Stock.later (S : Stock E cid docs w) (ha : CAfter w w')
    (hc : ∀ s p ks q v, (s, p) ∈ docs → Stands E.lib p ks q → q.base = v.noFragment →
        cacheGet w'.caches cid v = cacheGet w.caches cid v) {s : Nat} {p : Site} (hp : (s, p) ∈ docs) (env : Env)
    (n : Nat) (i : Inst) : evaluate (w'.store E cid) env n s i = evaluate (w.store E cid) env n s i := by
  obtain ⟨ok', g, bf⟩ := ha.spec S.names.ok
  have R := S.storeReads
  have lt : ∀ {x q}, MadeFrom E (links E.lib (docs.map (·.2))) docs w x q → x < w.heap.next := by
    rintro x q ⟨root', p, ks, h1, c⟩
    exact S.names.ok.dom _ c.isSchema
  refine evaluate_island R.island ⟨fun s hs => ?_, fun s kws t f hs' he hk x hx => ?_⟩ ⟨_, S.made hp⟩
  · obtain ⟨v, hv⟩ := hs
    exact schemaObj_later S.names.ok ok' g bf (lt hv)
  · obtain ⟨v, hv⟩ := hs'
    obtain ⟨r, _, -, h1, -, -, h4, -⟩ := R.dynamic hv he hk
    obtain ⟨q, hq⟩ := hx
    have hb : (w'.store E cid).base x = (w.store E cid).base x := by
      simp only [World.store, baseUri_later S.names.ok g bf (lt hq)]
    refine ⟨hb, fun b' hb' => ?_⟩
    rw [R.base hq] at hb'
    cases hb'
    obtain ⟨root', p, ks, h5, c⟩ := hq
    rw [lookup_anchor S.names.lib c.absolute h4, lookup_anchor S.names.lib c.absolute h4]
    exact hc _ _ _ _ (Uri.withFragment _ _) h5 c.at_ (noFragment_of (u := q.base) c.absolute.2).symm

/-- The verdict of a schema made from a document of a suite. -/
theorem Stock.verdict (S : Stock E cid docs w) {s : Nat} {p : Site} (hp : (s, p) ∈ docs) {env : Env} {i : Inst}
    (hw : i.value.WF) (hf : DFaithful E.lib (links E.lib (docs.map (·.2))) p env i.value) {n : Nat} {r : RNode}
    (h : evaluate (w.store E cid) env n s i = some r) {m : Nat} (hm : n ≤ m) :
    r.valid = true ↔ (dunroll E.lib env E.fmtEnabled (links E.lib (docs.map (·.2))) m).valid [] p i.value := by
  refine S.storeReads.verdict (fun s q kws hc he => ?_) (S.made hp) hw hf h hm
  rcases S.objs hc with ⟨b, -, h⟩ | ⟨kvs, kws, -, h, -, h'⟩
  · rw [show w.schemaObj E s = _ from he] at h; cases h
  · rw [show w.schemaObj E s = _ from he] at h; cases h; exact h'

end
end Jschon
