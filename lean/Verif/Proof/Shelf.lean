import Verif.Proof.LoadResolve

/-!
# Documents that are loaded when they are referred to
-/

namespace Jschon
open Spec

variable [dia : Dialect]

/-! ## Documents that are not constructed -/

theorem docForm_mono {E : CEnv} {L L' : Links} (hL : ∀ b t q, L.refer b t q → L'.refer b t q) {mo : Option Meta} {p : Site}
    (h : DocForm E mo L p) : DocForm E mo L' p := by
  cases h with
  | bool => exact .bool
  | obj h1 hd h2 => exact .obj h1 hd fun kv hkv => (h2 kv hkv).imp (fun h => h) fun h => (schemaForm_mono hL kv.2).2 _ _ h

theorem onShelf_mono {E : CEnv} {L L' : Links} (hL : ∀ b t q, L.refer b t q → L'.refer b t q) {p : Site}
    (h : OnShelf E L p) : OnShelf E L' p :=
  { h with form := fun m hm => docForm_mono hL (h.form m hm) }

/-- The members of the schemas of a document. -/
theorem stands_members {E : CEnv} {L : Links} {p q : Site} {ks : List String} (h : Stands E.lib p ks q)
    (hp : ∀ kvs, p.schema = .obj kvs → ∀ kv ∈ kvs, kv.1 = "$schema" ∨ MemberForm E L p.base kv.1 kv.2) :
    ∀ kvs, q.schema = .obj kvs → ∀ kv ∈ kvs, kv.1 = "$schema" ∨ MemberForm E L q.base kv.1 kv.2 := by
  have sub : ∀ {b : Uri} {u : Value}, SchemaForm E L b u →
      ∀ kvs, (site E.lib b u).schema = .obj kvs → ∀ kv ∈ kvs, kv.1 = "$schema" ∨ MemberForm E L (site E.lib b u).base kv.1 kv.2 := by
    intro b u h kvs he kv hkv
    cases he
    cases h with | obj h => exact .inr (h kv hkv)
  have not_meta : ∀ {k : String}, PartKey k → k ≠ "$schema" := fun h => not_schema h.boot
  induction h with
  | here => exact hp
  | one h1 h2 _ ih =>
    exact ih (sub (memberForm_one h1 ((hp _ rfl _ h2).resolve_left (not_meta h1.part))))
  | many h1 h2 h3 _ ih =>
    have h := memberForm_many h1 ((hp _ rfl _ h2).resolve_left (not_meta h1.part))
    exact ih (sub (h _ (List.mem_of_getElem? h3)))
  | named h1 h2 h3 _ ih =>
    obtain ⟨vs, e, h⟩ := memberForm_named h1 ((hp _ rfl _ h2).resolve_left (not_meta (.inr (.inr (.inr h1)))))
    cases e
    exact ih (sub (h _ h3))

theorem Spec.OnShelf.anchorText {E : CEnv} {L : Links} {p q : Site} {ks : List String} (h : OnShelf E L p)
    (hs : Stands E.lib p ks q) {f : String} (hf : Anchored q f) : AnchorText f := by
  have hm := stands_members (L := L) hs (by
    intro kvs he kv hkv
    have := h.form _ ofDialect_shipped
    obtain ⟨b, v⟩ := p
    cases he
    cases this with | obj _ _ h2 => exact h2 kv hkv)
  have go : ∀ {k : String}, q.Has k (.str f) → k = "$anchor" ∨ dia = .d2020 ∧ k = "$dynamicAnchor" → AnchorText f := by
    rintro k ⟨kvs, he, hkv⟩ hk
    obtain ⟨t, e, ht⟩ := memberForm_anchor ((hm kvs he _ hkv).resolve_left (by rcases hk with rfl | ⟨-, rfl⟩ <;> simp)) hk
    cases e
    exact ht
  rcases hf with h | ⟨hd, h⟩
  · exact go h (.inl rfl)
  · exact go h (.inr ⟨hd, rfl⟩)

section
variable {E : CEnv} {cid : String} {all : List Site} {made : List (Nat × Site)} {todo : List Nat} {w w' : World}

theorem Shelved.refer_unique (S : Shelved E cid all made todo w) (hl : Loadable E all made todo) (b : Uri) (t : String)
    (q q' : Site) (h : (links E.lib all).refer b t q) (h' : (links E.lib all).refer b t q') : q = q' := by
  refine Jschon.refer_unique (fun p hp => ?_) S.unique (fun i ks q f hq hf => ?_) h h'
  · obtain ⟨i, hi⟩ := List.getElem?_of_mem hp
    rcases S.here hi with h | ⟨root, h⟩
    · exact (hl h hi).1.wf
    · obtain ⟨x, c⟩ := S.names.find h .here
      exact c.wf
  · obtain ⟨p, hp, hs⟩ := hq
    rcases S.here hp with h | ⟨root, h⟩
    · exact (hl h hp).1.anchorText hs hf
    · obtain ⟨x, c⟩ := S.names.find h hs
      exact c.anchorText hf

theorem DocNames.links {L L' : Links} (D : DocNames E L cid made w) (hL : ∀ b t q, L.refer b t q → L'.refer b t q) :
    DocNames E L' cid made w where
  lib := D.lib
  ok := D.ok
  find h hs := by
    obtain ⟨x, c⟩ := D.find h hs
    exact ⟨x, c.grown D.ok D.ok (.refl _) hL⟩
  uri h c hr := D.uri h (D.back (.refl _) h c) hr
  resource h c hr := D.resource h (D.back (.refl _) h c) hr
  anchored h c hf := D.anchored h (D.back (.refl _) h c) hf
  only h hs hb hv := by
    obtain ⟨root', p', ls, q', h', c, e⟩ := D.only h hs hb hv
    exact ⟨root', p', ls, q', h', c.grown D.ok D.ok (.refl _) hL, e⟩

omit dia in
theorem Aimed.back {lib : UriLib} {L : Links} {C : Nat → Site → Prop} (ok : WOk w) (g : Grown w w') {x : Nat}
    (hx : x < w.heap.next) {o : KwObj} (ho : o.json < w.heap.next) (h : Aimed lib L C w' x o) : Aimed lib L C w x o := by
  obtain ⟨b, s, q, t, h1, h2, h3, h4, h5, h6⟩ := h.target
  exact ⟨h.shape, b, s, q, t, (g.base ok hx).symm.trans h1, (g.ext.data ho).symm.trans h2, h3, h4, h5, h6⟩

/-! ## The schemas of the documents that are there -/

/-- The schemas of the documents `made` are there, and evaluation finds what was written; the others can be
loaded. -/
structure Depot (E : CEnv) (cid : String) (all : List Site) (made : List (Nat × Site)) (todo : List Nat) (w : World) :
    Prop where
  shelved : Shelved E cid all made todo w
  shelf : Loadable E all made todo
  lt : ∀ i ∈ todo, i < all.length
  objs : ∀ {s q}, MadeFrom E (links E.lib all) made w s q →
    (∃ v, q.schema = .bool v ∧ w.schemaObj E s = .bool v) ∨
    ∃ kvs kws, q.schema = .obj kvs ∧ w.schemaObj E s = .obj kws ∧
      ObjReads E.lib (links E.lib all) E.fmtEnabled (MadeFrom E (links E.lib all) made w)
        q.base kws kvs ∧ KwsOk dia kws

theorem Depot.start (hL : SiteLib E.lib) (ok : WOk w) {shelf : List Site} (hs : Shelf E shelf)
    (hf : ∀ p ∈ shelf, ∀ v ks q, Stands E.lib p ks q → q.base = v.noFragment → cacheGet w.caches cid v = none) :
    Depot E cid shelf [] (List.range shelf.length) w where
  shelved := {
    names := ⟨hL, ok, (fun h => by cases h), (fun h => by cases h), (fun h => by cases h), (fun h => by cases h),
      (fun h => by cases h)⟩
    unique := hs.unique
    here := fun {i p} hi => .inl (List.mem_range.2 (List.getElem?_eq_some_iff.1 hi).1)
    back := fun h => by cases h
    free := fun {i p} _ hp => hf p (List.mem_of_getElem? hp) }
  shelf {i p} _ hp := by
    have hm := List.mem_of_getElem? hp
    refine ⟨hs.each p hm, fun ks q k t r h1 h2 h3 h4 => ?_⟩
    rcases hs.near p hm ks q k t r h1 h2 h3 h4 with ⟨d, rfl | hd, h⟩ | h
    · exact .inl h
    · cases hd
    · exact .inr (.inr h)
  lt i hi := List.mem_range.1 hi
  objs := by rintro s q ⟨_, _, _, h, -⟩; cases h

theorem Depot.other (S : Depot E cid all made todo w) (ha : CAfter w w')
    (hc : ∀ p ∈ all, ∀ ks q v, Stands E.lib p ks q → q.base = v.noFragment →
        cacheGet w'.caches cid v = cacheGet w.caches cid v) : Depot E cid all made todo w' := by
  have N := S.shelved.names
  obtain ⟨ok', g, bf⟩ := ha.spec N.ok
  have hmem : ∀ {root p}, (root, p) ∈ made → p ∈ all := fun h => by
    obtain ⟨i, hi, -⟩ := S.shelved.back h
    exact List.mem_of_getElem? hi
  refine ⟨⟨N.grown ok' g fun s p ks q v h => hc p (hmem h) ks q v, S.shelved.unique, S.shelved.here, S.shelved.back,
    fun hi hp v ks q hq hb => ?_⟩, S.shelf, S.lt, ?_⟩
  · rw [hc _ (List.mem_of_getElem? hp) ks q v hq hb]
    exact S.shelved.free hi hp v ks q hq hb
  · rintro s q ⟨root, p, ks, h, c⟩
    have c0 := N.back g h c
    rw [schemaObj_later N.ok ok' g bf (N.ok.dom _ c0.isSchema)]
    rcases S.objs ⟨_, _, _, h, c0⟩ with h | ⟨kvs, kws, h1, h2, h3, h4⟩
    · exact .inl h
    · exact .inr ⟨kvs, kws, h1, h2, h3.mono (fun t q hm => hm.grown N.ok ok' g fun _ h => h) (fun _ _ _ h => h)
        (S.shelved.refer_unique S.shelf), h4⟩

/-- The documents that were being constructed are there. -/
theorem Depot.finish (S : Depot E cid all made todo w) {all' : List Site}
    (hL : ∀ b t q, (links E.lib all).refer b t q → (links E.lib all').refer b t q) {new : List (Nat × Site)}
    {todo' : List Nat} (l : Loading E cid all' made new todo' w') (ha : CAfter w w')
    (hdone : ∀ d ∈ new, AllResolved w' d.1) :
    ∃ todo'', Depot E cid all' (made ++ new) todo'' w' := by
  have N := S.shelved.names
  obtain ⟨ok', g, bf⟩ := ha.spec N.ok
  have S' := l.shelved
  have hu := S'.refer_unique l.shelf
  refine ⟨todo'.filter (· < all'.length), ⟨S'.names, S'.unique, fun {i p} hi => ?_, fun h => ?_, fun hi hp => ?_⟩,
    fun hi hp => l.shelf (List.mem_filter.1 hi).1 hp, fun i hi => by simpa using (List.mem_filter.1 hi).2, ?_⟩
  · exact (S'.here hi).imp (fun h => List.mem_filter.2 ⟨h, by simpa using (List.getElem?_eq_some_iff.1 hi).1⟩) fun h => h
  · obtain ⟨i, h1, h2⟩ := S'.back h
    exact ⟨i, h1, fun h => h2 (List.mem_filter.1 h).1⟩
  · exact S'.free (List.mem_filter.1 hi).1 hp
  rintro s q ⟨root, p, ks, h, c⟩
  rcases List.mem_append.1 h with h | h
  · have c0 := N.back g h c
    rw [schemaObj_later N.ok ok' g bf (N.ok.dom _ c0.isSchema)]
    rcases S.objs ⟨_, _, _, h, c0⟩ with h | ⟨kvs, kws, h1, h2, h3, h4⟩
    · exact .inl h
    · refine .inr ⟨kvs, kws, h1, h2, h3.mono ?_ hL hu, h4⟩
      rintro t q ⟨root, p, ks, h, c⟩
      exact ⟨root, p, ks, List.mem_append_left _ h, c.grown N.ok ok' g hL⟩
  · obtain ⟨c0, kvs, w0, hk, D, g0⟩ := l.snap h
    have hpe : p = ⟨p.base, .obj kvs⟩ := by rw [← hk]
    have R : DocRead E (links E.lib all') (MadeFrom E (links E.lib all') (made ++ new) w') c0 cid p.base root kvs w0 w' := {
      made := D
      ok := ok'
      grown := g0
      kws := by
        rintro ls x q' cx kv hkv
        have hx := D.ok.dom _ cx.isSchema
        rw [← hpe] at cx
        have hm : MadeFrom E (links E.lib all') new w' x q' :=
          ⟨root, p, ls, h, cx.grown D.ok ok' g0 fun _ _ _ h => h⟩
        refine (l.kws hm kv hkv).imp (fun h => h) fun ha => ?_
        obtain ⟨o, ho, -, hj⟩ := g0.kw hx hkv
        exact ha.back D.ok g0 hx (by rw [hj]; exact (keywords_kid D.ok ho).2)
      resolved := hdone _ h
      mem := by
        rintro ls x q' cx
        rw [← hpe] at cx
        exact ⟨root, p, ls, List.mem_append_right _ h, cx.grown D.ok ok' g0 fun _ _ _ h => h⟩ }
    obtain ⟨y, cy⟩ := D.find (hpe ▸ c.at_)
    have hr : root < w0.heap.next := by
      have := reach_le D.ok.ord cy.reach
      have := D.ok.dom y cy.isSchema
      omega
    have := reach_unique D.ok.keys.nodup cy.reach (ext_reach g0.ext D.ok.ord c.reach hr)
    subst this
    exact R.objs cy

theorem Spec.NearRefs.nearby {lib : UriLib} {there shelf : List Site} {p : Site} (h : NearRefs lib there shelf p)
    (h1 : ∀ d ∈ there, ∃ root, (root, d) ∈ made) (h2 : ∀ d ∈ shelf, d ∈ all) : Nearby lib made all p := by
  intro ks q k t r a1 a2 a3 a4
  rcases h ks q k t r a1 a2 a3 a4 with ⟨d, rfl | hd, hr⟩ | ⟨d, hd, hb⟩
  · exact .inl hr
  · obtain ⟨root, hm⟩ := h1 d hd
    exact .inr (.inl ⟨root, d, hm, hr⟩)
  · exact .inr (.inr ⟨d, h2 d hd, hb⟩)

/-- One more document, which is not there yet. -/
theorem Shelved.append (S : Shelved E cid all made todo w) (hlt : ∀ i ∈ todo, i < all.length) {p : Site}
    (hu : UniqueNames E.lib (all ++ [p]))
    (hf : ∀ v ks q, Stands E.lib p ks q → q.base = v.noFragment → cacheGet w.caches cid v = none) :
    Shelved E cid (all ++ [p]) made (todo ++ [all.length]) w where
  names := S.names.links (refer_append _)
  unique := hu
  here {i d} hi := by
    by_cases h : i < all.length
    · rw [List.getElem?_append_left h] at hi
      exact (S.here hi).imp (fun h => List.mem_append_left _ h) fun h => h
    · have := (List.getElem?_eq_some_iff.1 hi).1
      rw [List.length_append, List.length_singleton] at this
      exact .inl (List.mem_append_right _ (List.mem_singleton.2 (by omega)))
  back h := by
    obtain ⟨i, h1, h2⟩ := S.back h
    have := (List.getElem?_eq_some_iff.1 h1).1
    refine ⟨i, by rw [List.getElem?_append_left this]; exact h1, fun h => ?_⟩
    rcases List.mem_append.1 h with h | h
    · exact h2 h
    · have := List.mem_singleton.1 h
      omega
  free {i d} hi hd := by
    rcases List.mem_append.1 hi with hi | hi
    · rw [List.getElem?_append_left (hlt i hi)] at hd
      exact S.free hi hd
    · cases List.mem_singleton.1 hi
      rw [List.getElem?_append_right (Nat.le_refl _), Nat.sub_self] at hd
      cases hd
      exact hf

omit dia in
theorem getSchema_det {n m : Nat} {r : Uri} {metaUri : Option Uri} {x y : World × Except Exc Nat}
    (h : getSchema E n r metaUri cid w = some x) (h' : getSchema E m r metaUri cid w = some y) : x = y := by
  have h1 := getSchema_mono (Nat.le_max_left n m) _ _ _ _ _ h
  have h2 := getSchema_mono (Nat.le_max_right n m) _ _ _ _ _ h'
  rw [h1] at h2
  cases h2
  rfl

theorem Spec.Obtainable.avail {shelf : List Site} {docs : List (Nat × Site)} {metaUri : Option Uri} {r : Uri} {q : Site}
    (h : Obtainable E shelf (docs.map (·.2)) metaUri r q) (hin : ∀ d ∈ docs, d ∈ made) :
    Avail E.lib made (shelf ++ docs.map (·.2)) r.noFragment := by
  rcases h.near with ⟨d, hd, hr⟩ | ⟨d, hd, hb⟩
  · obtain ⟨⟨root, d⟩, h, rfl⟩ := List.mem_map.1 hd
    exact .inl ⟨root, d, hin _ h, hr⟩
  · exact .inr ⟨d, List.mem_append_left _ hd, hb⟩

/-! ## Evaluation -/

theorem Depot.storeReads (S : Depot E cid all made todo w) : StoreReads E.lib (links E.lib all) E.fmtEnabled
    (MadeFrom E (links E.lib all) made w) (w.store E cid) := by
  refine S.shelved.names.storeReads_of ?_ .rfl ?_ rfl (fun _ => rfl) fun h => ?_
  · rintro s q ⟨root, p, ks, h, c⟩
    obtain ⟨i, hi, -⟩ := S.shelved.back h
    exact ⟨i, ks, p, hi, c.at_⟩
  · rintro s p f q ⟨root, d, ks, h, c⟩ ⟨⟨i, ls, d', h1, h2⟩, h3, -⟩
    obtain ⟨j, hj, -⟩ := S.shelved.back h
    obtain ⟨ks', r, r1, r2, r3⟩ := c.at_.resource
    cases S.shelved.unique.same h1 hj h2 h3 ⟨ks', r, r1, r2, r3⟩
    rw [hj] at h1
    cases h1
    exact ⟨root, d, ls, h, h2⟩
  · rcases S.objs h with h | ⟨kvs, kws, h1, h2, h3, -⟩
    · exact .inl h
    · exact .inr ⟨kvs, kws, h1, h2, h3⟩

theorem Depot.from_ (S : Depot E cid all made todo w) {s : Nat} {p : Site} (h : (s, p) ∈ made) :
    MadeFrom E (links E.lib all) made w s p := by
  obtain ⟨x, c⟩ := S.shelved.names.find h .here
  have hr := c.reach
  cases hr
  exact ⟨_, _, _, h, c⟩

/-- The verdict of a schema. -/
theorem Depot.verdict (S : Depot E cid all made todo w) {s : Nat} {p : Site}
    (hp : MadeFrom E (links E.lib all) made w s p) {env : Env} {i : Inst}
    (hw : i.value.WF) (hf : DFaithful E.lib (links E.lib all) p env i.value) {n : Nat} {r : RNode}
    (h : evaluate (w.store E cid) env n s i = some r) :
    (r.valid = true ↔ DAccepts E.lib env E.fmtEnabled (links E.lib all) p i.value) ∧
    (r.valid = false ↔ DRejects E.lib env E.fmtEnabled (links E.lib all) p i.value) := by
  have main : ∀ m, n ≤ m → (r.valid = true ↔
      (dunroll E.lib env E.fmtEnabled (links E.lib all) m).valid [] p i.value) := by
    intro m hm
    refine S.storeReads.verdict (fun s q kws hc he => ?_) hp hw hf h hm
    rcases S.objs hc with ⟨b, -, h⟩ | ⟨kvs, kws, -, h, -, h'⟩
    · rw [show w.schemaObj E s = _ from he] at h; cases h
    · rw [show w.schemaObj E s = _ from he] at h; cases h; exact h'
  refine ⟨⟨fun hv => ⟨n, fun m hm => (main m hm).1 hv⟩, ?_⟩, ⟨fun hv => ⟨n, fun m hm h' => ?_⟩, ?_⟩⟩
  · rintro ⟨m, hm⟩
    exact (main (max n m) (Nat.le_max_left _ _)).2 (hm _ (Nat.le_max_right _ _))
  · rw [(main m hm).2 h'] at hv
    cases hv
  · rintro ⟨m, hm⟩
    cases hv : r.valid with
    | false => rfl
    | true => exact absurd ((main (max n m) (Nat.le_max_left _ _)).1 hv) (hm _ (Nat.le_max_right _ _))

/-- What is known by the names of the documents is not changed by further ones. -/
theorem Depot.known (S : Depot E cid all made todo w) {all' : List Site} {new : List (Nat × Site)} {todo' : List Nat}
    (S' : Depot E cid all' (made ++ new) todo' w') (g : Grown w w')
    (hL : ∀ b t q, (links E.lib all).refer b t q → (links E.lib all').refer b t q)
    {s : Nat} {p : Site} {ks : List String} {q : Site} {v : Uri} (h : (s, p) ∈ made) (hs : Stands E.lib p ks q)
    (hb : q.base = v.noFragment) : cacheGet w'.caches cid v = cacheGet w.caches cid v := by
  have D0 := S.shelved.names
  have D := S'.shelved.names
  cases h0 : cacheGet w.caches cid v with
  | some x =>
    obtain ⟨root', p', ls, q', h', c, ⟨rfl, e⟩ | ⟨f, -, e, rfl⟩⟩ := D0.only h hs hb h0
    · exact D.resource (List.mem_append_left _ h') (c.grown D0.ok D.ok g hL) e
    · exact D.anchored (List.mem_append_left _ h') (c.grown D0.ok D.ok g hL) e
  | none =>
    cases h1 : cacheGet w'.caches cid v with
    | none => rfl
    | some y =>
      exfalso
      obtain ⟨root', p', ls, q', h', c, e⟩ := D.only (List.mem_append_left _ h) hs hb h1
      have hq : q'.base = q.base := by
        rw [hb]
        rcases e with ⟨rfl, -⟩ | ⟨f, -, -, rfl⟩
        · exact (noFragment_of c.absolute.2).symm
        · exact (noFragment_of (u := q'.base) c.absolute.2).symm
      obtain ⟨i, hi, -⟩ := S'.shelved.back (List.mem_append_left _ h)
      obtain ⟨j, hj, -⟩ := S'.shelved.back h'
      obtain ⟨ks', r, r1, r2, r3⟩ := hs.resource
      cases S'.shelved.unique.same hj hi c.at_ hq ⟨ks', r, r1, r2, r3⟩
      rw [hi] at hj
      cases hj
      obtain ⟨x, cx⟩ := D.find (List.mem_append_left _ h) .here
      obtain ⟨x', cx'⟩ := D.find h' .here
      have e1 := D.resource (List.mem_append_left _ h) cx (.inl rfl)
      have e2 := D.resource h' cx' (.inl rfl)
      have hr := cx.reach
      have hr' := cx'.reach
      cases hr
      cases hr'
      rw [e1] at e2
      cases e2
      have c0 := D0.back g h c
      rcases e with ⟨rfl, e⟩ | ⟨f, -, e, rfl⟩
      · rw [D0.resource h c0 e] at h0; cases h0
      · rw [D0.anchored h c0 e] at h0; cases h0

/-- Evaluation gives the same in later worlds. -/
theorem Depot.later (S : Depot E cid all made todo w) {all' : List Site} {new : List (Nat × Site)} {todo' : List Nat}
    (S' : Depot E cid all' (made ++ new) todo' w')
    (hL : ∀ b t q, (links E.lib all).refer b t q → (links E.lib all').refer b t q) (ha : CAfter w w')
    {s : Nat} {p : Site} (hp : MadeFrom E (links E.lib all) made w s p) (env : Env)
    (n : Nat) (i : Inst) : evaluate (w'.store E cid) env n s i = evaluate (w.store E cid) env n s i := by
  have N := S.shelved.names
  obtain ⟨ok', g, bf⟩ := ha.spec N.ok
  have R := S.storeReads
  have lt : ∀ {x q}, MadeFrom E (Spec.links E.lib all) made w x q → x < w.heap.next := fun m => N.ok.dom _ m.isSchema
  refine evaluate_island R.island ⟨fun s hs => ?_, fun s kws t f hs' he hk x hx => ?_⟩ ⟨_, hp⟩
  · obtain ⟨v, hv⟩ := hs
    exact schemaObj_later N.ok ok' g bf (lt hv)
  · obtain ⟨v, hv⟩ := hs'
    obtain ⟨r, _, -, h1, -, -, h4, -⟩ := R.dynamic hv he hk
    obtain ⟨q, hq⟩ := hx
    have hb : (w'.store E cid).base x = (w.store E cid).base x := by
      simp only [World.store, baseUri_later N.ok g bf (lt hq)]
    refine ⟨hb, fun b' hb' => ?_⟩
    rw [R.base hq] at hb'
    cases hb'
    obtain ⟨root', p, ks, h5, c⟩ := hq
    rw [lookup_anchor N.lib c.absolute h4, lookup_anchor N.lib c.absolute h4]
    exact S.known S' g hL h5 c.at_ (noFragment_of (u := q.base) c.absolute.2).symm

/-! ## Construction -/

variable (hE : CEnvOk E) (hO : ∀ u m, E.metaschema u = .ok m → Ordered m) (hL : SiteLib E.lib)
include hE hO hL

/-- A document is constructed. -/
theorem Depot.add (S : Depot E cid all made todo w) {shelf there : List Site} (hall : all = shelf ++ there)
    (hthere : ∀ d ∈ there, ∃ root, (root, d) ∈ made) {uri metaUri : Option Uri} {kvs : List (String × Value)} {p : Site}
    (A : Arrival E w cid shelf there uri metaUri kvs p) :
    ∃ N w', (∀ n, N ≤ n → newDocument E n cid uri metaUri (.obj kvs) w = some (w', .ok w.heap.next)) ∧
      ∃ new todo', (w.heap.next, p) ∈ new ∧ Depot E cid (all ++ [p]) (made ++ new) todo' w' := by
  have hp := A.site
  obtain ⟨mo, hf, hm⟩ := A.form
  have hu := A.unique
  rw [← hall] at hf hu
  have pre : SPre w cid uri none := .doc S.shelved.names.ok fun u h => (A.given u h).2.2
  have hsame := A.same
  have hpe : p = ⟨p.base, .obj kvs⟩ := by rw [hp]; rfl
  have hk : p.schema = .obj kvs := by rw [hp]; rfl
  obtain ⟨w1, s, h1, rfl, hg, D⟩ := returns_docMade hE hO hL A.wf (hp ▸ hf) pre hm
    (fun u h => ⟨(A.given u h).1, (A.given u h).2.1⟩) (hp ▸ hsame)
  rw [← hp] at D
  have hat : (all ++ [p])[all.length]? = some p := by
    rw [List.getElem?_append_right (Nat.le_refl _), Nat.sub_self]; rfl
  have S1 := (S.shelved.append S.lt hu A.free).add (List.mem_append_right _ (List.mem_singleton.2 rfl)) hat hk D hg
  have last : (w.heap.next, p) ∈ [(w.heap.next, p)] := List.mem_singleton.2 rfl
  have l1 : Loading E cid (all ++ [p]) made [(w.heap.next, p)] ((todo ++ [all.length]).filter (· ≠ all.length)) w1 := {
    shelved := S1
    shelf := by
      intro i d hi hd
      obtain ⟨h2, h3⟩ := List.mem_filter.1 hi
      rcases List.mem_append.1 h2 with h2 | h2
      · rw [List.getElem?_append_left (S.lt i h2)] at hd
        exact ⟨onShelf_mono (refer_append _) (S.shelf h2 hd).1,
          (S.shelf h2 hd).2.mono (fun _ h => List.mem_append_left _ h) fun _ h => List.mem_append_left _ h⟩
      · cases List.mem_singleton.1 h2
        simp at h3
    snap := by
      intro root d h
      cases List.mem_singleton.1 h
      exact ⟨_, kvs, w1, hk, D, .refl _⟩
    kws := by
      rintro x q ⟨root, d, ks, h, c⟩ kv hkv
      cases List.mem_singleton.1 h
      have c : Corr E (links E.lib (all ++ [p])) w.heap.next ⟨p.base, .obj kvs⟩ w1 ks x q := hpe ▸ c
      exact .inl ((D.tidy x (c.le D) c.isSchema).1 kv hkv)
    near := by
      intro root d h
      cases List.mem_singleton.1 h
      refine A.near.nearby (fun d hd => ?_) fun d hd => ?_
      · obtain ⟨root, h⟩ := hthere d hd
        exact ⟨root, List.mem_append_left _ h⟩
      · rw [hall]
        exact List.mem_append_left _ (List.mem_append_left _ hd) }
  obtain ⟨N, w2, ⟨⟩, h2, new2, o2⟩ := ends_resolve hE hO hL _ (Nat.le_refl _) l1 last
  obtain ⟨todo2, -, l2⟩ := o2.load
  have hn : ∀ n, N ≤ n → newDocument E n cid uri metaUri (.obj kvs) w = some (w2, .ok w.heap.next) := fun n hn => by
    simp only [newDocument, newDocWith, Bind.bind, M.andThen, h1, h2 n hn, pure, M.ret]
  have hca : CAfter w w2 := .new .refl hE A.wf (fun u h => (A.given u h).2.2) (hn _ (Nat.le_refl _))
  obtain ⟨todo3, S3⟩ := S.finish (refer_append _) l2 hca (fun d hd => by
    rcases o2.done d hd with h | h
    · cases List.mem_singleton.1 h
      exact (resolveReferences_ok hE _ _ _ _ _ D.ok D.isSchema (h2 _ (Nat.le_refl _))).2.2 rfl
    · exact h)
  exact ⟨N, w2, hn, new2, todo3, o2.sub _ last, S3⟩

/-- A schema is obtained. -/
theorem Depot.get (S : Depot E cid all made todo w) {r : Uri} {q : Site} (hd : Denotes E.lib all r q)
    (ha : Avail E.lib made all r.noFragment) {mu : Option Uri} (hmu : ∃ u m, mu = some u ∧ E.metaschema u = .ok m ∧ OfDialect m) :
    ∃ N w' y, (∀ n, N ≤ n → getSchema E n r mu cid w = some (w', .ok y)) ∧
      ∃ new todo', Depot E cid all (made ++ new) todo' w' ∧ MadeFrom E (links E.lib all) (made ++ new) w' y q := by
  have l : Loading E cid all made [] todo w := {
    shelved := by rw [List.append_nil]; exact S.shelved
    shelf := by rw [List.append_nil]; exact S.shelf
    snap := fun h => by cases h
    kws := by rintro x q ⟨_, _, _, h, -⟩; cases h
    near := fun h => by cases h }
  obtain ⟨N, w', y, h1, new, o, h2⟩ := ends_get hE hO hL (fun k _ => ends_resolve hE hO hL k) l (Nat.le_refl _) hd
    (by rw [List.append_nil]; exact ha) hmu
  obtain ⟨todo2, -, l2⟩ := o.load
  have hca : CAfter w w' := .get .refl hE (h1 N (Nat.le_refl _))
  obtain ⟨todo3, S3⟩ := S.finish (fun _ _ _ h => h) l2 hca (fun d hd => by
    rcases o.done d hd with h | h
    · cases h
    · exact h)
  exact ⟨N, w', y, h1, new, todo3, S3, h2 q hd⟩

/-- The documents that were constructed or loaded. -/
theorem Spec.Stocked.depot {shelf : List Site} {docs : List (Nat × Site)} (h : Stocked E cid shelf docs w) :
    ∃ made todo, Depot E cid (shelf ++ docs.map (·.2)) made todo w ∧ ∀ d ∈ docs, d ∈ made := by
  induction h with
  | start h hs hf =>
    have S := Depot.start hL h.ok hs hf
    refine ⟨[], List.range shelf.length, ?_, (fun d hd => by cases hd)⟩
    rw [List.map_nil, List.append_nil]
    exact S
  | add _ hA hn ih =>
    obtain ⟨made, todo, S, hin⟩ := ih
    obtain ⟨N, w', h1, new, todo', h2, S'⟩ := S.add hE hO hL rfl (fun d hd => by
      obtain ⟨⟨root, d⟩, h, rfl⟩ := List.mem_map.1 hd
      exact ⟨root, hin _ h⟩) hA
    cases newDocument_det hn (h1 N (Nat.le_refl _))
    refine ⟨made ++ new, todo', ?_, fun d hd => ?_⟩
    · rw [List.map_append, ← List.append_assoc]
      exact S'
    · rcases List.mem_append.1 hd with h | h
      · exact List.mem_append_left _ (hin d h)
      · cases List.mem_singleton.1 h
        exact List.mem_append_right _ h2
  | get _ hA hn ih =>
    obtain ⟨made, todo, S, hin⟩ := ih
    obtain ⟨N, w', y, h1, new, todo', S', -⟩ := S.get hE hO hL hA.denotes (hA.avail hin) hA.form
    cases getSchema_det hn (h1 N (Nat.le_refl _))
    exact ⟨_, _, S', fun d hd => List.mem_append_left _ (hin d hd)⟩
  | other _ ha hc ih =>
    obtain ⟨made, todo, S, hin⟩ := ih
    exact ⟨made, todo, S.other ha hc, hin⟩

end
end Jschon
