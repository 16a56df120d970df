import Verif.Proof.DocCorr

/-!
# Resolution of references
-/

namespace Jschon
open Spec

variable [dia : Dialect]

/-! ## The document before its references are resolved -/

omit dia in
theorem rootUri_site {lib : UriLib} {u0 : Uri} (h0 : u0.fragment = none) {kvs : List (String × Value)} {u : Option Uri}
    (h : RootUri lib u0 kvs u)
    (hs : lib.same u0 (ownBase lib u0 (.obj kvs)) = true → u0 = ownBase lib u0 (.obj kvs)) :
    u = some (ownBase lib u0 (.obj kvs)) := by
  rcases h with ⟨h1, rfl⟩ | ⟨t, r, h1, h2, h3⟩
  · simp only [ownBase, dlookup_eq_none.2 h1]
  · have e : ownBase lib u0 (.obj kvs) = r := by
      simp only [ownBase, h1]
      rcases h2 with ⟨j1, rfl⟩ | ⟨j1, b', j2, j3⟩
      · rw [if_pos j1]
      · rw [noFragment_of h0] at j2
        cases j2
        rw [if_neg (by rw [j1]; exact Bool.false_ne_true), j3]
        rfl
    rw [e] at hs ⊢
    rcases h3 with h3 | ⟨h3, h4⟩
    · exact h3
    · rw [← hs h3]; exact h4

theorem returns_docMade {E : CEnv} (hE : CEnvOk E) (hO : ∀ u m, E.metaschema u = .ok m → Ordered m)
    (hL : SiteLib E.lib) {L : Links} {mo : Option Meta}
    {kvs : List (String × Value)} (hwf : (Value.obj kvs).WF) {cid : String}
    {uri metaUri : Option Uri} {w : World} (hf : DocForm E mo L (docSite E.lib w uri (.obj kvs)))
    (pre : SPre w cid uri none)
    (hm : ∀ m, mo = some m → ∃ u, metaUri = some u ∧ E.metaschema u = .ok m)
    (hu : ∀ u, uri = some u → u.fragment = none ∧ Solid E.lib u)
    (hs : E.lib.same (uri.getD (E.lib.uuid w.uris)) (docSite E.lib w uri (.obj kvs)).base = true →
      uri.getD (E.lib.uuid w.uris) = (docSite E.lib w uri (.obj kvs)).base) :
    (newSchema E cid uri metaUri none none (.obj kvs)).Returns w (fun w' s => s = w.heap.next ∧ Grow w w' ∧
      DocMade E L w.caches cid (docSite E.lib w uri (.obj kvs)).base s kvs w') := by
  have dom : ∀ x, w.heap.next ≤ x → w.info x = none := by
    intro x hx
    cases hi : w.info x with
    | none => rfl
    | some i => have := pre.ok.dom x (by simp [World.isSchema, hi]); omega
  have hfine := docForm_fine hL hf
  have h0 : (absolute E.lib).base (uri.getD (E.lib.uuid w.uris)) := by
    cases uri with
    | none => exact ⟨(hL.uuid _).2, (hL.uuid _).1⟩
    | some u => exact ⟨(hu u rfl).2, (hu u rfl).1⟩
  have nf : ∀ {u : Uri}, u.fragment = none ∧ Solid E.lib u → (absolute E.lib).base u.noFragment :=
    fun h => by rw [noFragment_of h.1]; exact ⟨h.2, h.1⟩
  have h1 : (newSchema E cid uri metaUri none none (.obj kvs)).Returns w (fun w' s =>
      ((Calm (absolute E.lib) w.heap.next w w' ∧ Made E (absolute E.lib) w w') ∧ s = w.heap.next) ∧
        ∃ mo', MetaFor E mo kvs mo' ∧ Ready E (absolute E.lib) mo' w.heap.next w') := by
    simp only [newSchema]
    exact returns_objSchema (A := absolute E.lib) hO (fun kv _ => (fine_returns hO kv.2).2 kv.1) hwf hfine
      ⟨fun _ => hm, (fun p h => by cases h), dom⟩ ⟨fun u h => nf (hu u h), fun _ l => nf (hL.uuid l)⟩
  obtain ⟨w', s, e, ⟨⟨c, md⟩, rfl⟩, mo', m1, r⟩ := h1
  refine ⟨w', _, e, rfl, ?_⟩
  have p := (works hE (.obj kvs) hwf).1 _ _ _ _ _ _ _ _ pre e
  have hn := (names (c0 := w.caches) hE (fun l => (hL.uuid l).1) w.heap.next (.obj kvs) hwf).1 _ _ _ _ _ _ _ _ pre
    ⟨(fun p h => by cases h), fun u h => (hu u h).1⟩ (Nat.le_refl _) (names_start E.lib pre.ok) e
  have hh := (hangs hE (.obj kvs) hwf).1 _ _ _ _ _ _ _ _ pre e
  have hr := rootUri_site h0.2 (newSchema_rootUri hE hwf pre e) hs
  cases hf with
  | obj hmeta hd hmem =>
    have := metaFor_unique m1 hmeta
    subst this
    refine ⟨p.grow, hL, p.ok, p.parent, p.isSchema, md.tidy, (p.ret _ rfl).2, hwf, ⟨_, hd, r.metas _ rfl⟩, hmem, hr, ?_,
      p.cacheid, hn, fun x h1 h2 _ => by simpa using hh x h1 h2⟩
    show (absolute E.lib).base (ownBase E.lib _ (.obj kvs))
    refine ownBase_absolute hL h0 fun kvs' he v hv => ?_
    cases he
    rcases hmem _ hv with h | h
    · exact absurd h (show "$id" ≠ "$schema" by decide)
    · exact memberForm_id h

/-! ## Procedures with a bound -/

/-- With bounds from `N` on, the procedure returns the same. -/
def M.Settles {α : Type} (m : Nat → M α) (N : Nat) (w : World) (Q : World → α → Prop) : Prop :=
  ∃ w' a, (∀ n, N ≤ n → m n w = some (w', .ok a)) ∧ Q w' a

omit dia in
theorem M.Settles.bind {α β : Type} {m : Nat → M α} {f : Nat → α → M β} {N : Nat} {w : World} {Q : World → α → Prop}
    {R : World → β → Prop} (h : M.Settles m N w Q) (hf : ∀ w' a, Q w' a → M.Settles (fun n => f n a) N w' R) :
    M.Settles (fun n => m n >>= f n) N w R := by
  obtain ⟨w1, a, h1, h2⟩ := h
  obtain ⟨w2, b, h3, h4⟩ := hf w1 a h2
  refine ⟨w2, b, fun n hn => ?_, h4⟩
  simp only [Bind.bind, M.andThen, h1 n hn, h3 n hn]

omit dia in
theorem M.Settles.mono {α : Type} {m : Nat → M α} {N : Nat} {w : World} {Q R : World → α → Prop}
    (h : M.Settles m N w Q) (hq : ∀ w' a, Q w' a → R w' a) : M.Settles m N w R := by
  obtain ⟨w1, a, h1, h2⟩ := h
  exact ⟨w1, a, h1, hq _ _ h2⟩

omit dia in
theorem M.Returns.settles {α : Type} {m : M α} {N : Nat} {w : World} {Q : World → α → Prop}
    (h : m.Returns w Q) : M.Settles (fun _ => m) N w Q := by
  obtain ⟨w1, a, h1, h2⟩ := h
  exact ⟨w1, a, fun _ _ => h1, h2⟩

omit dia in
theorem M.settles_read {α β : Type} {g : World → α} {f : Nat → α → M β} {N : Nat} {w : World} {R : World → β → Prop}
    (h : M.Settles (fun n => f n (g w)) N w R) : M.Settles (fun n => M.read g >>= f n) N w R := by
  obtain ⟨w1, a, h1, h2⟩ := h
  exact ⟨w1, a, h1, h2⟩

omit dia in
theorem M.settles_each {α : Type} {f : Nat → α → M Unit} {N : Nat} {I : World → Prop} : ∀ {l : List α},
    (∀ a ∈ l, ∀ w, I w → M.Settles (fun n => f n a) N w (fun w' _ => I w')) → ∀ w, I w →
    M.Settles (fun n => M.each (f n) l) N w (fun w' _ => I w')
  | [], _, w, hw => ⟨w, (), fun _ _ => rfl, hw⟩
  | a :: as, h, w, hw =>
    (h a (by simp) w hw).bind (f := fun n _ => M.each (f n) as) fun w' _ hw' =>
      M.settles_each (fun b hb => h b (by simp [hb])) w' hw'

/-! ## Anchors -/

theorem memberForm_anchor {E : CEnv} {L : Links} {b : Uri} {k : String} {v : Value} (h : MemberForm E L b k v)
    (hk : k = "$anchor" ∨ dia = .d2020 ∧ k = "$dynamicAnchor") : ∃ t, v = .str t ∧ AnchorText t := by
  have hk' : k ∈ ["$anchor", "$dynamicAnchor"] := by rcases hk with rfl | ⟨-, rfl⟩ <;> decide
  have hsp : Special k := by rcases hk with rfl | ⟨-, rfl⟩ <;> exact special (by decide)
  cases h with
  | anchor _ h => exact ⟨_, rfl, h⟩
  | assert h => cases h <;> exact absurd hk' (by decide)
  | one h => exact absurd h hsp.oneKey
  | many h => exact absurd h hsp.manyKey
  | named h => exact absurd h hsp.named
  | note h => exact absurd h hsp.note
  | count h => rcases h with rfl | rfl <;> exact absurd hk' (by decide)
  | format | ref | dynamicRef | id | recursiveRef | recursiveAnchor => exact absurd hk' (by decide)
  | unknown h =>
    rcases hk with rfl | ⟨rfl, rfl⟩
    · exact absurd (definedNames_common (by decide)) h
    · exact absurd (by decide) h

/-- What a member whose keyword is a reference is written as. -/
structure RefForm (L : Links) (b : Uri) (k : String) (v : Value) : Prop where
  key : k = "$ref" ∨ k = "$dynamicRef" ∨ k = "$recursiveRef"
  text : ∃ t q, v = .str t ∧ L.refer b t q ∧ (k = "$dynamicRef" → dia = .d2020 ∧ ∃ kvs, q.schema = .obj kvs) ∧
    (k = "$recursiveRef" → dia = .d2019 ∧ t = "#")

theorem memberForm_shape {E : CEnv} {L : Links} {b : Uri} {k : String} {v : Value} {c : KwCls} (h : MemberForm E L b k v)
    (hc : getKwclass dialectMeta k = .ok c) :
    (c.shape.isRef = true → RefForm L b k v) ∧
    (AnchorShape c.shape → k = "$anchor" ∨ dia = .d2020 ∧ k = "$dynamicAnchor") := by
  have plain : ∀ {sh : KwShape}, c.shape = sh → sh.isRef = false → ¬ AnchorShape sh → (c.shape.isRef = true →
      RefForm L b k v) ∧ (AnchorShape c.shape → k = "$anchor" ∨ dia = .d2020 ∧ k = "$dynamicAnchor") := by
    intro sh h1 h2 h3
    rw [h1]
    exact ⟨(fun h => by rw [h2] at h; cases h), fun h => absurd h h3⟩
  have na : ∀ {sh : KwShape}, sh ≠ .anchor → sh ≠ .dynamicAnchor → ¬ AnchorShape sh :=
    fun h1 h2 h => h.elim h1 h2
  cases h with
  | ref h =>
    refine ⟨fun _ => ⟨.inl rfl, _, _, rfl, h, fun h => ?_, fun h => ?_⟩, fun h => ?_⟩
    · exact absurd h (by decide)
    · exact absurd h (by decide)
    · cases dia <;> cases hc <;> exact absurd h (na (by decide) (by decide))
  | dynamicRef hd h h' =>
    refine ⟨fun _ => ⟨.inr (.inl rfl), _, _, rfl, h, fun _ => ⟨hd, _, h'⟩, fun h => absurd h (by decide)⟩, fun h => ?_⟩
    subst hd
    cases hc
    exact absurd h (na (by decide) (by decide))
  | recursiveRef hd h =>
    refine ⟨fun _ => ⟨.inr (.inr rfl), _, _, rfl, h, fun h => absurd h (by decide), fun _ => ⟨hd, rfl⟩⟩, fun h => ?_⟩
    subst hd
    cases hc
    exact absurd h (na (by decide) (by decide))
  | recursiveAnchor hd =>
    subst hd
    cases hc
    exact plain rfl rfl (na (by decide) (by decide))
  | anchor h =>
    refine ⟨fun h' => ?_, fun _ => h⟩
    rcases h with rfl | ⟨rfl, rfl⟩
    · cases dia <;> cases hc <;> cases h'
    · cases hc; cases h'
  | assert h =>
    obtain ⟨c', e1, h | ⟨re, h, -⟩⟩ := cls_assert h <;> rw [hc] at e1 <;> cases e1
    · exact plain h.1 rfl (na (by decide) (by decide))
    · exact plain h rfl (na (by decide) (by decide))
  | one h =>
    obtain ⟨c', e1, h | h⟩ := h.cls <;> rw [hc] at e1 <;> cases e1 <;> exact plain h rfl (na (by decide) (by decide))
  | many h =>
    obtain ⟨c', e1, h | h⟩ := h.cls <;> rw [hc] at e1 <;> cases e1 <;> exact plain h rfl (na (by decide) (by decide))
  | named h => obtain ⟨c', e1, h⟩ := cls_named h; rw [hc] at e1; cases e1; exact plain h rfl (na (by decide) (by decide))
  | note h => obtain ⟨c', e1, h⟩ := cls_note h; rw [hc] at e1; cases e1; exact plain h rfl (na (by decide) (by decide))
  | count h =>
    rcases h with rfl | rfl <;> cases dia <;> cases hc <;> exact plain rfl rfl (na (by decide) (by decide))
  | format | id => cases dia <;> cases hc <;> exact plain rfl rfl (na (by decide) (by decide))
  | unknown h1 h2 h3 =>
    rw [cls_unknown h1 h2 h3] at hc
    cases hc
    exact plain (sh := .unknown) rfl rfl (na (by decide) (by decide))

omit dia in
theorem bootKw_isRef {k : String} {shape : KwShape} (h : BootKw k shape) : shape.isRef = false := by
  rcases h with ⟨-, rfl⟩ | ⟨-, rfl⟩ | ⟨-, rfl | rfl⟩ <;> rfl

omit dia in
theorem bootKw_anchor {k : String} {shape : KwShape} (h : BootKw k shape) : ¬ AnchorShape shape := by
  rintro (h' | h') <;> subst h' <;> rcases h with ⟨-, h⟩ | ⟨-, h⟩ | ⟨-, h | h⟩ <;> cases h

omit dia in
theorem Spec.AnchorText.ne {t : String} (h : AnchorText t) : t ≠ "" := by
  rintro rfl
  obtain ⟨c, cs, h, -⟩ := h
  cases h

omit dia in
/-- An anchor does not stand for a JSON pointer. -/
theorem Spec.AnchorText.notPointer {t : String} (h : AnchorText t) {ks : List String} : ¬ PctText t.toList (textOf ks) := by
  obtain ⟨c, cs, h1, h2, -⟩ := h
  rw [h1]
  intro h
  have hc : c ≠ '/' ∧ c ≠ '%' := by
    refine ⟨?_, ?_⟩ <;> rintro rfl <;> rcases h2 with h2 | h2 | h2 <;> revert h2 <;> decide
  generalize he : c :: cs = e at h
  generalize hp : textOf ks = p at h
  cases h with
  | nil => cases he
  | @plain c' e p hx _ =>
    cases he
    cases ks with
    | nil => cases hp
    | cons k ks =>
      have := (List.cons.inj (show '/' :: _ = c :: p from hp)).1
      exact hc.1 this.symm
  | @coded c' e p _ =>
    have hb : ∃ b bs, utf8EncNat c'.toNat = b :: bs := by
      unfold utf8EncNat
      repeat' split
      all_goals exact ⟨_, _, rfl⟩
    obtain ⟨b, bs, hb⟩ := hb
    rw [hb] at he
    simp only [List.flatMap_cons, pctByte, List.cons_append, List.nil_append] at he
    exact hc.2 (List.cons.inj he).1

/-! ## Where references lead -/

section
variable {E : CEnv} {L : Links} {c0 : Caches} {cid : String} {u : Uri} {root : Nat} {kvs0 : List (String × Value)}
  {w : World} {p q : Site} {ks : List String} {x : Nat}

/-- What a keyword of the class of an anchor was written as. -/
theorem Corr.anchor (D : DocMade E L c0 cid u root kvs0 w) (c : Corr E L root p w ks x q) {k t : String} {sh : KwShape}
    (h : Says w x k sh t) (hs : AnchorShape sh) : AnchorText t ∧ Anchored q t := by
  obtain ⟨o, h1, rfl, h3⟩ := h
  obtain ⟨b, kvs, rfl⟩ := c.obj D h1
  obtain ⟨v, hv, f⟩ := c.member_exists D h1
  rcases f.cls with h | ⟨cl, e1, e2⟩
  · exact absurd hs (bootKw_anchor h)
  · have hk : k ≠ "$schema" := by
      rintro rfl
      cases dia <;> cases e1 <;> rw [e2] at hs <;> rcases hs with h | h <;> cases h
    have hm := c.member hv hk
    have hk' := (memberForm_shape hm e1).2 (e2 ▸ hs)
    obtain ⟨t', rfl, ht⟩ := memberForm_anchor hm hk'
    have := rearr_str D.ok.ord f.rearr
    rw [h3] at this
    cases this
    refine ⟨ht, ?_⟩
    rcases hk' with rfl | ⟨hd, rfl⟩
    · exact .inl ⟨kvs, rfl, hv⟩
    · exact .inr ⟨hd, kvs, rfl, hv⟩

theorem Corr.anchorText (c : Corr E L root p w ks x q) {t : String} (h : Anchored q t) : AnchorText t := by
  have go : ∀ {k : String}, q.Has k (.str t) → k = "$anchor" ∨ dia = .d2020 ∧ k = "$dynamicAnchor" → AnchorText t := by
    rintro k ⟨kvs, he, hm⟩ hk
    obtain ⟨b, s⟩ := q
    cases he
    have hb : k ≠ "$schema" := by rcases hk with rfl | ⟨-, rfl⟩ <;> decide
    obtain ⟨t', e, ht⟩ := memberForm_anchor (c.member hm hb) hk
    cases e
    exact ht
  rcases h with h | ⟨hd, h⟩
  · exact go h (.inl rfl)
  · exact go h (.inr ⟨hd, rfl⟩)

theorem Corr.says (D : DocMade E L c0 cid u root kvs0 w) (c : Corr E L root p w ks x q) {t : String} (h : Anchored q t) :
    AnchorText t ∧ ∃ k sh, Says w x k sh t ∧ AnchorShape sh := by
  have go : ∀ {k : String} {sh : KwShape}, q.Has k (.str t) → k = "$anchor" ∨ dia = .d2020 ∧ k = "$dynamicAnchor" →
      (∃ cl, getKwclass dialectMeta k = .ok cl ∧ cl.shape = sh) → AnchorShape sh →
      AnchorText t ∧ ∃ k sh, Says w x k sh t ∧ AnchorShape sh := by
    rintro k sh ⟨kvs, he, hm⟩ hk ⟨cl, e1, rfl⟩ e3
    obtain ⟨b, s⟩ := q
    cases he
    have hb : k ∉ bootNames := by rcases hk with rfl | ⟨-, rfl⟩ <;> decide
    obtain ⟨t', e, ht⟩ := memberForm_anchor (c.member hm (not_schema hb)) hk
    cases e
    obtain ⟨o, f⟩ := c.kw_exists D hm
    exact ⟨ht, k, cl.shape, ⟨o, f.mem, f.shape hb e1, rearr_str D.ok.ord f.rearr⟩, e3⟩
  rcases h with h | ⟨hd, h⟩
  · exact go (sh := .anchor) h (.inl rfl) (by cases dia <;> exact ⟨_, rfl, rfl⟩) (.inl rfl)
  · exact go (sh := .dynamicAnchor) h (.inr ⟨hd, rfl⟩) (by subst hd; exact ⟨_, rfl, rfl⟩) (.inr rfl)

/-- The URIs that a schema is said to have. -/
theorem Corr.claims (D : DocMade E L c0 cid u root kvs0 w) (c : Corr E L root ⟨u, .obj kvs0⟩ w ks x q) {v : Uri}
    (h : Claims E.lib w x v) :
    (v = q.base ∧ (ks = [] ∨ ∃ t, q.Has "$id" (.str t))) ∨
    ∃ f, AnchorText f ∧ Anchored q f ∧ v = q.base.withFragment f := by
  cases h with
  | uri h =>
    left
    by_cases hk : ks = []
    · subst hk
      have h1 := c.reach
      have h2 := c.at_
      cases h1
      cases h2
      rw [D.uri] at h
      cases h
      exact ⟨rfl, .inl rfl⟩
    · by_cases hi : ∃ t, q.Has "$id" (.str t)
      · obtain ⟨t, ht⟩ := hi
        rw [c.id t ht] at h
        cases h
        exact ⟨rfl, .inr ⟨t, ht⟩⟩
      · rw [c.noId hk fun t ht => hi ⟨t, ht⟩] at h
        cases h
  | @anchor k sh t b h1 h2 h3 =>
    obtain ⟨e1, e2⟩ := c.anchor D h1 h2
    rw [c.base] at h3
    cases h3
    exact .inr ⟨t, e1, e2, D.lib.anchor _ _ c.absolute.1 c.absolute.2 e1⟩

/-- The document alone. -/
abbrev DocAlone (E : CEnv) (c0 : Caches) (cid : String) (p : Site) : Prop :=
  UniqueNames E.lib [p] ∧ ∀ v ks q, Stands E.lib p ks q → q.base = v.noFragment → cacheGet c0 cid v = none

theorem Corr.unique (D : DocMade E L c0 cid u root kvs0 w) {y : Nat} {q' : Site}
    (c : Corr E L root ⟨u, .obj kvs0⟩ w ks x q) (c' : Corr E L root ⟨u, .obj kvs0⟩ w ks y q') : x = y :=
  reach_unique D.ok.keys.nodup c.reach c'.reach

/-- What is cached with the base URI of one of the subschemas. -/
theorem DocMade.cached (D : DocMade E L c0 cid u root kvs0 w) (A : DocAlone E c0 cid ⟨u, .obj kvs0⟩) {v : Uri} {y : Nat}
    (h : Stands E.lib ⟨u, .obj kvs0⟩ ks q) (hb : q.base = v.noFragment) (hc : cacheGet w.caches cid v = some y) :
    ∃ ls q', Corr E L root ⟨u, .obj kvs0⟩ w ls y q' ∧
      ((v = q'.base ∧ (ls = [] ∨ ∃ t, q'.Has "$id" (.str t))) ∨
        ∃ f, AnchorText f ∧ Anchored q' f ∧ v = q'.base.withFragment f) := by
  have hy : root ≤ y := by
    rcases Nat.lt_or_ge y root with hy | hy
    · have := D.names.old cid v y hc hy
      rw [A.2 v ks q h hb] at this
      cases this
    · exact hy
  have hcl := (D.names.claim cid v y hc hy).2
  obtain ⟨ls, q', cy⟩ := D.all y hy hcl.isSchema
  exact ⟨ls, q', cy, cy.claims D hcl⟩

theorem Corr.uri (D : DocMade E L c0 cid u root kvs0 w) (c : Corr E L root ⟨u, .obj kvs0⟩ w ks x q)
    (hr : ks = [] ∨ ∃ t, q.Has "$id" (.str t)) : w.uri x = some q.base := by
  by_cases hk : ks = []
  · subst hk
    have h1 := c.reach
    have h2 := c.at_
    cases h1; cases h2
    exact D.uri
  · obtain ⟨t, ht⟩ := hr.resolve_left hk
    exact c.id t ht

theorem DocMade.named (D : DocMade E L c0 cid u root kvs0 w) (A : DocAlone E c0 cid ⟨u, .obj kvs0⟩)
    (c : Corr E L root ⟨u, .obj kvs0⟩ w ks x q) (hr : ks = [] ∨ ∃ t, q.Has "$id" (.str t)) :
    cacheGet w.caches cid q.base = some x := by
  have hu := c.uri D hr
  obtain ⟨y, hy, hc⟩ := D.names.cached x _ (c.le D) (.uri hu)
  rw [D.cacheids x c.reach c.isSchema] at hc
  obtain ⟨ls, q', cy, h⟩ := D.cached A c.at_ (by rw [noFragment_of c.absolute.2]) hc
  rcases h with ⟨h1, h2⟩ | ⟨f, -, -, h⟩
  · obtain ⟨-, e⟩ := A.1.resource 0 ks q 0 ls q' ⟨⟨_, rfl, c.at_⟩, hr⟩ ⟨⟨_, rfl, cy.at_⟩, h2⟩ h1
    subst e
    rw [hc, c.unique D cy]
  · have := c.absolute.2
    rw [h] at this
    cases this

theorem DocMade.anchored (D : DocMade E L c0 cid u root kvs0 w) (A : DocAlone E c0 cid ⟨u, .obj kvs0⟩)
    (c : Corr E L root ⟨u, .obj kvs0⟩ w ks x q) {f : String} (hf : Anchored q f) :
    cacheGet w.caches cid (q.base.withFragment f) = some x := by
  obtain ⟨ht, k, sh, h1, h2⟩ := c.says D hf
  obtain ⟨y, hy, hc⟩ := D.names.cached x _ (c.le D) (.anchor h1 h2 c.base)
  rw [D.cacheids x c.reach c.isSchema, D.lib.anchor _ _ c.absolute.1 c.absolute.2 ht] at hc
  have hnf : (q.base.withFragment f).noFragment = q.base := noFragment_of (u := q.base) c.absolute.2
  obtain ⟨ls, q', cy, h⟩ := D.cached A c.at_ hnf.symm hc
  rcases h with ⟨h1, h2⟩ | ⟨f', -, h3, h⟩
  · have := cy.absolute.2
    rw [← h1] at this
    cases this
  · have e1 : f = f' := Option.some.inj (congrArg Uri.fragment h)
    subst e1
    have e2 : q.base = q'.base := by
      have := congrArg Uri.noFragment h
      rwa [hnf, show (q'.base.withFragment f).noFragment = q'.base from noFragment_of (u := q'.base) cy.absolute.2] at this
    obtain ⟨-, e⟩ := A.1.anchor 0 ks q 0 ls q' f ⟨_, rfl, c.at_⟩ ⟨_, rfl, cy.at_⟩ e2 hf h3
    subst e
    rw [hc, c.unique D cy]

/-- A world with the same instances and the same caches. -/
structure SameCaches (w w' : World) : Prop where
  heap : w'.heap = w.heap
  caches : w'.caches = w.caches
  isSchema : ∀ x, x < w.heap.next → w'.isSchema x = w.isSchema x

/-- The schema object is made from the subschema of one of the documents. -/
def MadeFrom (E : CEnv) (L : Links) (roots : List (Nat × Site)) (w : World) (x : Nat) (q : Site) : Prop :=
  ∃ root p ks, (root, p) ∈ roots ∧ Corr E L root p w ks x q

/-- The cache knows the documents, whose schema objects are given, by their names; and what it knows by one of
their names is one of their schemas. -/
structure DocNames (E : CEnv) (L : Links) (cid : String) (docs : List (Nat × Site)) (w : World) : Prop where
  lib : SiteLib E.lib
  ok : WOk w
  find : ∀ {root p ks q}, (root, p) ∈ docs → Stands E.lib p ks q → ∃ x, Corr E L root p w ks x q
  uri : ∀ {root p ks x q}, (root, p) ∈ docs → Corr E L root p w ks x q → (ks = [] ∨ ∃ t, q.Has "$id" (.str t)) →
    w.uri x = some q.base ∧ w.cacheid x = cid
  resource : ∀ {root p ks x q}, (root, p) ∈ docs → Corr E L root p w ks x q → (ks = [] ∨ ∃ t, q.Has "$id" (.str t)) →
    cacheGet w.caches cid q.base = some x
  anchored : ∀ {root p ks x q f}, (root, p) ∈ docs → Corr E L root p w ks x q → Anchored q f →
    cacheGet w.caches cid (q.base.withFragment f) = some x
  only : ∀ {root p ks q v y}, (root, p) ∈ docs → Stands E.lib p ks q → q.base = v.noFragment →
    cacheGet w.caches cid v = some y → ∃ root' p' ls q', (root', p') ∈ docs ∧ Corr E L root' p' w ls y q' ∧
      ((v = q'.base ∧ (ls = [] ∨ ∃ t, q'.Has "$id" (.str t))) ∨
        ∃ f, AnchorText f ∧ Anchored q' f ∧ v = q'.base.withFragment f)

theorem DocMade.docNames (D : DocMade E L c0 cid u root kvs0 w) (A : DocAlone E c0 cid ⟨u, .obj kvs0⟩) :
    DocNames E L cid [(root, ⟨u, .obj kvs0⟩)] w where
  lib := D.lib
  ok := D.ok
  find h hs := by cases List.mem_singleton.1 h; exact D.find hs
  uri h c hr := by cases List.mem_singleton.1 h; exact ⟨c.uri D hr, D.cacheids _ c.reach c.isSchema⟩
  resource h c hr := by cases List.mem_singleton.1 h; exact D.named A c hr
  anchored h c hf := by cases List.mem_singleton.1 h; exact D.anchored A c hf
  only h hs hb hc := by
    cases List.mem_singleton.1 h
    obtain ⟨ls, q', cy, h'⟩ := D.cached A hs hb hc
    exact ⟨_, _, ls, q', h, cy, h'⟩

theorem located_mem {lib : UriLib} {docs : List (Nat × Site)} {i : Nat} {ks : List String} {q : Site}
    (h : Located lib (docs.map (·.2)) i ks q) : ∃ root p, (root, p) ∈ docs ∧ p ∈ (docs.map (·.2))[i]? ∧ Stands lib p ks q := by
  obtain ⟨p, h1, h2⟩ := h
  obtain ⟨⟨root, p'⟩, h3, rfl⟩ := List.mem_map.1 (List.mem_of_getElem? h1)
  exact ⟨root, p', h3, h1, h2⟩

theorem mem_located {lib : UriLib} {docs : List (Nat × Site)} {root : Nat} {p : Site} {ks : List String} {q : Site}
    (h : (root, p) ∈ docs) (hs : Stands lib p ks q) : ∃ i, Located lib (docs.map (·.2)) i ks q := by
  obtain ⟨i, hi⟩ := List.getElem?_of_mem (List.mem_map.2 ⟨(root, p), h, rfl⟩)
  exact ⟨i, p, hi, hs⟩

/-- The schema that a URI is for is found. -/
theorem DocNames.denotes {docs : List (Nat × Site)} (D : DocNames E L cid docs w) {r : Uri}
    (h : Denotes E.lib (docs.map (·.2)) r q) : ∃ y, MadeFrom E L docs w y q ∧
      (∀ w', SameCaches w w' → ∀ newDoc m, getSchemaWith E newDoc r m cid w' = some (w', .ok y)) ∧
      (r.fragment = some "" →
        ∀ w', SameCaches w w' → ∀ newDoc m, getSchemaWith E newDoc r.noFragment m cid w' = some (w', .ok y)) := by
  cases h with
  | @pointer i ks p ks' _ h1 h2 h3 h4 =>
    obtain ⟨root, d, hd, -, hs⟩ := located_mem h1.1
    obtain ⟨x, cx⟩ := D.find hd hs
    obtain ⟨y, cy⟩ := D.find hd (hs.trans h4)
    have hx := D.resource hd cx h1.2
    have same : ks' = [] → x = y := by
      rintro rfl
      have hc := cy.reach
      rw [List.append_nil] at hc
      exact reach_unique D.ok.keys.nodup cx.reach hc
    refine ⟨y, ⟨_, _, _, hd, cy⟩, fun w' m newDoc mu => ?_, fun he w' m newDoc mu => ?_⟩
    rotate_left
    · rw [he] at h3
      cases same (h3.nil_iff rfl)
      refine getSchemaWith_cached ?_
      rw [m.caches, ← h2]
      exact hx
    have hys : w'.isSchema y = true := by rw [m.isSchema _ (D.ok.dom y cy.isSchema)]; exact cy.isSchema
    cases hf : r.fragment with
    | none =>
      rw [hf] at h3
      cases same (h3.nil_iff rfl)
      refine getSchemaWith_cached ?_
      rw [m.caches, ← noFragment_of hf, ← h2]
      exact hx
    | some f =>
      rw [hf] at h3
      have hnone : cacheGet w'.caches cid r = none := by
        rw [m.caches]
        cases hc : cacheGet w.caches cid r with
        | none => rfl
        | some z =>
          obtain ⟨_, _, ls, q', -, cz, ⟨e, -⟩ | ⟨f', e1, -, e⟩⟩ := D.only hd hs h2 hc
          · have := cz.absolute.2
            rw [← e, hf] at this
            cases this
          · rw [e] at hf
            cases hf
            exact absurd h3 e1.notPointer
      have hb : cacheGet w'.caches cid r.noFragment = some x := by rw [m.caches, ← h2]; exact hx
      by_cases he : f = ""
      · subst he
        cases same (h3.nil_iff rfl)
        have hb' : baseCached w' cid r = some x := by
          unfold baseCached
          rw [hf, ← hb]
          rfl
        have hend : getSchemaEnd r x w' = some (w', .ok x) := by
          simp only [getSchemaEnd, followFragment, hf, if_true, bind, M.andThen, M.read, pure, M.ret, hys]
        simp only [getSchemaWith, bind, M.andThen, M.read, hnone, hb', hend]
      · refine getSchemaWith_fragment hnone hf he hb h3.parse ?_ hys
        obtain ⟨y', hy'⟩ : ∃ y', Jschon.Reach w.heap x ks' y' := by
          obtain ⟨y', h⟩ := reach_split cy.reach
          have := reach_unique D.ok.keys.nodup h.1 cx.reach
          subst this
          exact ⟨_, h.2⟩
        have := reach_unique D.ok.keys.nodup (reach_append cx.reach hy') cy.reach
        subst this
        exact reach_resolve (by rw [m.heap]; exact D.ok.keys.nodup) (by rw [m.heap]; exact hy')
  | @anchor i ks _ f h1 h2 h3 h4 =>
    obtain ⟨root, d, hd, -, hs⟩ := located_mem h1
    obtain ⟨x, cx⟩ := D.find hd hs
    refine ⟨x, ⟨_, _, _, hd, cx⟩, fun w' m newDoc mu => getSchemaWith_cached ?_, fun he => ?_⟩
    rotate_left
    · rw [h3] at he
      cases he
      exact absurd rfl (cx.anchorText h4).ne
    rw [m.caches, ← D.anchored hd cx h4, h2]
    cases r with | mk b g => cases h3; rfl

/-- References lead to schema objects made from what is referred to. -/
def Finds (E : CEnv) (L : Links) (cid : String) (C : Nat → Site → Prop) (w : World) : Prop :=
  ∀ b t q, L.refer b t q → ∃ r y, RefUri E.lib b t r ∧ C y q ∧
    (∀ w', SameCaches w w' → ∀ newDoc m, getSchemaWith E newDoc r m cid w' = some (w', .ok y)) ∧
    (r.fragment = some "" →
      ∀ w', SameCaches w w' → ∀ newDoc m, getSchemaWith E newDoc r.noFragment m cid w' = some (w', .ok y))

theorem DocNames.finds {docs : List (Nat × Site)} (D : DocNames E L cid docs w) (hL : L = links E.lib (docs.map (·.2))) :
    Finds E L cid (MadeFrom E L docs w) w := by
  intro b t q h
  rw [hL] at h
  obtain ⟨r, h1, h2⟩ := h
  obtain ⟨y, c, h⟩ := D.denotes h2
  exact ⟨r, y, h1, c, h⟩

theorem DocMade.finds (D : DocMade E L c0 cid u root kvs0 w) (A : DocAlone E c0 cid ⟨u, .obj kvs0⟩)
    (hL : L = links E.lib [⟨u, .obj kvs0⟩]) : Finds E L cid (MadeFrom E L [(root, ⟨u, .obj kvs0⟩)] w) w :=
  (D.docNames A).finds hL

omit dia in
theorem refUri_unique {lib : UriLib} {b r r' : Uri} {t : String} (h : RefUri lib b t r) (h' : RefUri lib b t r') : r = r' := by
  rcases h with ⟨h1, rfl⟩ | ⟨h1, h2⟩ <;> rcases h' with ⟨h3, rfl⟩ | ⟨h3, h4⟩
  · rfl
  · rw [h1] at h3; cases h3
  · rw [h1] at h3; cases h3
  · rw [h2] at h4; cases h4; rfl

omit dia in
theorem Finds.only {C : Nat → Site → Prop} (F : Finds E L cid C w) {b : Uri} {t : String} (h : L.refer b t q) :
    ∃ r y, RefUri E.lib b t r ∧ (∀ q', L.refer b t q' → C y q') ∧
    (∀ w', SameCaches w w' → ∀ newDoc m, getSchemaWith E newDoc r m cid w' = some (w', .ok y)) ∧
    (r.fragment = some "" →
      ∀ w', SameCaches w w' → ∀ newDoc m, getSchemaWith E newDoc r.noFragment m cid w' = some (w', .ok y)) := by
  obtain ⟨r, y, h1, -, h3, h4⟩ := F b t q h
  refine ⟨r, y, h1, fun q' h' => ?_, h3, h4⟩
  obtain ⟨r', y', g1, g2, g3, -⟩ := F b t q' h'
  cases refUri_unique h1 g1
  have S : SameCaches w w := ⟨rfl, rfl, fun _ _ => rfl⟩
  have := (h3 w S (fun _ _ _ _ => M.raise .schemaError) none).symm.trans (g3 w S (fun _ _ _ _ => M.raise .schemaError) none)
  cases this
  exact g2

/-- Whether the target of a dynamic reference has the dynamic anchor. -/
theorem Corr.dynamic (hd0 : dia = .d2020) (ok : WOk w) (c : Corr E L root p w ks x q) {kvs : List (String × Value)}
    (hq : q.schema = .obj kvs) (frag : Option String) : ∃ d, isDynamic w x frag = .ok d ∧
      (d = true ↔ ∃ f, frag = some f ∧ q.Has "$dynamicAnchor" (.str f)) := by
  obtain ⟨b, s⟩ := q
  replace hq : s = .obj kvs := hq
  subst hq
  obtain ⟨ms, h1, h2, h3⟩ := rearr_obj ok.ord c.rearr
  have hn : (dkeys kvs).Nodup := by
    have := c.wf
    cases this with | obj h _ => exact h
  unfold isDynamic
  rw [h1]
  simp only
  cases hl : dlookup "$dynamicAnchor" ms with
  | none =>
    refine ⟨false, rfl, (fun h => by cases h), ?_⟩
    rintro ⟨f, -, kvs', he, hm⟩
    cases he
    exact absurd (h2.mem_iff.2 (mem_dkeys.2 ⟨_, hm⟩)) (dlookup_eq_none.1 hl)
  | some j =>
    obtain ⟨v, hv⟩ := mem_dkeys.1 (h2.mem_iff.1 (mem_dkeys.2 ⟨_, dlookup_mem hl⟩))
    obtain ⟨a, rfl, ha⟩ := memberForm_anchor (c.member hv (by decide)) (.inr ⟨hd0, rfl⟩)
    have hd := rearr_str ok.ord (h3 _ _ _ hl (dlookup_of_mem hn hv))
    simp only [hd]
    refine ⟨_, rfl, ?_⟩
    rw [Bool.and_eq_true, decide_eq_true_eq, decide_eq_true_eq]
    constructor
    · rintro ⟨-, h⟩
      exact ⟨a, h, kvs, rfl, hv⟩
    · rintro ⟨f, rfl, kvs', he, hm⟩
      cases he
      have := (dlookup_of_mem hn hv).symm.trans (dlookup_of_mem hn hm)
      cases this
      exact ⟨ha.ne, rfl⟩

end

/-! ## Resolution -/

/-- The reference is resolved to what it refers to. -/
structure Aimed (lib : UriLib) (L : Links) (C : Nat → Site → Prop) (w : World) (x : Nat) (o : KwObj) : Prop where
  shape : o.shape = .ref ∨ o.shape = .dynamicRef ∨ o.shape = .recursiveRef
  target : ∃ b s q t, w.baseUri x = some b ∧ w.heap.data o.json = .str s ∧ L.refer b s q ∧ o.refschema = some t ∧
    (∀ q, L.refer b s q → C t q) ∧
    (o.shape = .dynamicRef → ∀ q, L.refer b s q → (o.dynamic = true ↔ ∃ f, Dynamic lib s f q))

/-- The reference is resolved to what the catalog has for its URI. -/
structure Led (E : CEnv) (w : World) (x : Nat) (o : KwObj) : Prop where
  target : ∃ b s r t, w.baseUri x = some b ∧ w.heap.data o.json = .str s ∧ RefUri E.lib b s r ∧ o.refschema = some t ∧
    ∀ newDoc m, getSchemaWith E newDoc r m (w.cacheid x) w = some (w, .ok t)

/-- Some references have been resolved. -/
structure Mid (E : CEnv) (L : Links) (C : Nat → Site → Prop) (root : Nat) (w w' : World) : Prop where
  ok : WOk w'
  heap : w'.heap = w.heap
  caches : w'.caches = w.caches
  grown : Grown w w'
  below : ∀ x, x < root → w'.info x = w.info x
  dom : ∀ x, w.info x = none → w'.info x = none
  kws : ∀ x, root ≤ x → ∀ kv ∈ w'.keywords x, Bare kv.2 ∨ (Aimed E.lib L C w x kv.2 ∧ Led E w x kv.2)

omit dia in
theorem nearest_congr {w w' : World} (attr : SInfo → Option Uri) (h1 : ∀ x, (w'.info x).bind attr = (w.info x).bind attr)
    (h2 : w'.heap = w.heap) : ∀ n x, w'.nearest attr n x = w.nearest attr n x
  | 0, _ => rfl
  | n + 1, x => by
    simp only [World.nearest, h1, h2]
    split
    · rfl
    · split
      · rfl
      · exact nearest_congr attr h1 h2 n _

section
variable {E : CEnv} {L : Links} {c0 : Caches} {cid : String} {u : Uri} {root : Nat} {kvs0 : List (String × Value)}
  {w : World} {roots : List (Nat × Site)} {lib : UriLib} {C : Nat → Site → Prop}

theorem DocMade.mid (D : DocMade E L c0 cid u root kvs0 w) : Mid E L C root w w where
  ok := D.ok
  heap := rfl
  caches := rfl
  grown := .refl _
  below _ _ := rfl
  dom _ h := h
  kws x hx kv hkv := by
    refine .inl ?_
    cases hi : w.info x with
    | none => simp [World.keywords, hi] at hkv
    | some i => exact (D.tidy x hx (by simp [World.isSchema, hi])).1 kv hkv

omit dia in
theorem Mid.same {w' : World} (m : Mid E L C root w w') : SameCaches w w' :=
  ⟨m.heap, m.caches, fun _ h => m.grown.isSchema h⟩

omit dia in
theorem Mid.lt {w' : World} (m : Mid E L C root w w') (x : Nat) : (∃ i, ∃ f : String → KwObj → KwObj, w.info x = some i ∧
    w'.info x = some { i with keywords := i.keywords.map (fun kv => (kv.1, f kv.1 kv.2)) }) ∨
    (w.info x = none ∧ w'.info x = none) ∨ w.heap.next ≤ x := by
  by_cases hx : x < w.heap.next
  · cases hi : w.info x with
    | none => exact .inr (.inl ⟨rfl, m.dom x hi⟩)
    | some i =>
      obtain ⟨f, h, -⟩ := m.grown.info x i hx hi
      exact .inl ⟨i, f, rfl, h⟩
  · exact .inr (.inr (by omega))

omit dia in
theorem Mid.uri (ok : WOk w) {w' : World} (m : Mid E L C root w w') (x : Nat) :
    (w'.info x).bind SInfo.uri = (w.info x).bind SInfo.uri := by
  rcases m.lt x with ⟨i, f, h1, h2⟩ | ⟨h1, h2⟩ | h
  · rw [h1, h2]; rfl
  · rw [h1, h2]
  · have : w.info x = none := by
      cases hi : w.info x with
      | none => rfl
      | some i => have := ok.dom x (by simp [World.isSchema, hi]); omega
    rw [this, m.dom x this]

omit dia in
theorem Mid.base (ok : WOk w) {w' : World} (m : Mid E L C root w w') (x : Nat) : w'.baseUri x = w.baseUri x := by
  simp only [World.baseUri, nearest_congr SInfo.uri (m.uri ok) m.heap]

/-- What a reference of a schema is written as, and the class of its keyword. -/
theorem KwFor.isRef {p : Site} {ks : List String} {x : Nat} {b : Uri} {kvs : List (String × Value)}
    (c : Corr E L root p w ks x ⟨b, .obj kvs⟩) {k : String} {v : Value} {o : KwObj} (f : KwFor w x k v o)
    (hv : (k, v) ∈ kvs) (hr : o.shape.isRef = true) :
    ((k = "$ref" ∧ o.shape = .ref) ∨ (k = "$dynamicRef" ∧ o.shape = .dynamicRef) ∨
      (k = "$recursiveRef" ∧ o.shape = .recursiveRef)) ∧
    ∃ t q, v = .str t ∧ L.refer b t q ∧ (k = "$dynamicRef" → dia = .d2020 ∧ ∃ kvs, q.schema = .obj kvs) ∧
      (k = "$recursiveRef" → dia = .d2019 ∧ t = "#") := by
  rcases f.cls with h | ⟨cl, h1, h2⟩
  · rw [bootKw_isRef h] at hr; cases hr
  · have hk : k ≠ "$schema" := by
      rintro rfl
      cases dia <;> cases h1 <;> rw [h2] at hr <;> cases hr
    obtain ⟨h3, h4⟩ := (memberForm_shape (c.member hv hk) h1).1 (h2 ▸ hr)
    refine ⟨?_, h4⟩
    obtain ⟨t, q, -, -, h5, h6⟩ := h4
    rcases h3 with rfl | rfl | rfl
    · cases dia <;> cases h1 <;> exact .inl ⟨rfl, h2⟩
    · obtain ⟨rfl, -⟩ := h5 rfl
      cases h1
      exact .inr (.inl ⟨rfl, h2⟩)
    · obtain ⟨rfl, -⟩ := h6 rfl
      cases h1
      exact .inr (.inr ⟨rfl, h2⟩)

omit dia in
/-- The keywords of a world in which some references are resolved. -/
theorem Mid.kw {w' : World} (m : Mid E L C root w w') {x : Nat} (hx : x < w.heap.next) {kv : String × KwObj}
    (h : kv ∈ w'.keywords x) : ∃ o, (kv.1, o) ∈ w.keywords x ∧ kv.2.shape = o.shape ∧ kv.2.json = o.json := by
  obtain ⟨f, f1, f2⟩ := m.grown.keywords hx
  rw [f1] at h
  obtain ⟨kv0, h1, rfl⟩ := List.mem_map.1 h
  exact ⟨kv0.2, h1, (f2 _ _).1, (f2 _ _).2.1⟩

omit dia in
theorem isDynamic_heap {w w' : World} (h : w'.heap = w.heap) (t : Nat) (f : Option String) :
    isDynamic w' t f = isDynamic w t f := by
  unfold isDynamic; rw [h]

/-- One reference. -/
theorem returns_resolveKw (D : DocMade E L c0 cid u root kvs0 w) (F : Finds E L cid (MadeFrom E L roots w) w)
    {p : Site} {ks : List String} {x : Nat} {b : Uri} {kvs : List (String × Value)}
    (c : Corr E L root p w ks x ⟨b, .obj kvs⟩)
    {w' : World} (m : Mid E L (MadeFrom E L roots w) root w w') {k : String} {kw o : KwObj} (ho : (k, o) ∈ w.keywords x)
    (hsh : kw.shape = o.shape) (hj : kw.json = o.json) (hr : o.shape.isRef = true) :
    ∃ w'', (∀ newDoc, resolveKw E newDoc x k kw w' = some (w'', .ok ())) ∧
      Mid E L (MadeFrom E L roots w) root w w'' := by
  obtain ⟨v, hv, f⟩ := c.member_exists D ho
  obtain ⟨hk, t, q, rfl, h2, h3, h3'⟩ := f.isRef c hv hr
  obtain ⟨r, y, r1, r2, r3, r4⟩ := F.only h2
  have hdat : w.heap.data o.json = .str t := rearr_str D.ok.ord f.rearr
  have hx := D.ok.dom x c.isSchema
  have hcid : w'.cacheid x = cid := by rw [m.grown.cacheid hx]; exact D.cacheids x c.reach c.isSchema
  obtain ⟨root', p', ks', -, cy⟩ := r2 q h2
  have hys : w'.isSchema y = true := by
    rw [m.grown.isSchema (D.ok.dom y cy.isSchema)]; exact cy.isSchema
  -- the flag
  obtain ⟨d, hd, hd'⟩ : ∃ d, (refDynamic o.shape y (E.lib.ofText t).fragment w' = some (w', .ok d)) ∧
      (o.shape = .dynamicRef → ∀ q, L.refer b t q → (d = true ↔ ∃ f, Dynamic E.lib t f q)) := by
    rcases hk with ⟨-, hs⟩ | ⟨hk, hs⟩ | ⟨-, hs⟩
    · exact ⟨false, by rw [hs]; rfl, fun h => by rw [hs] at h; cases h⟩
    rotate_left
    · exact ⟨false, by rw [hs]; rfl, fun h => by rw [hs] at h; cases h⟩
    · obtain ⟨hd20, kvs1, hq⟩ := h3 hk
      obtain ⟨d, e1, e2⟩ := cy.dynamic hd20 D.ok hq (E.lib.ofText t).fragment
      have hrun : refDynamic o.shape y (E.lib.ofText t).fragment w' = some (w', .ok d) := by
        unfold refDynamic
        rw [hs, if_pos rfl]
        show M.ofExcept (isDynamic w' y _) w' = _
        rw [isDynamic_heap m.heap, e1]
        rfl
      refine ⟨d, hrun, fun _ q' hq' => ?_⟩
      obtain ⟨root2, p2, ks2, -, cy2⟩ := r2 q' hq'
      -- both were made into the same object
      have hq2 : ∃ kvs2, q'.schema = .obj kvs2 := by
        rcases cy2.good with ⟨b', h⟩ | ⟨kvs2, h, -⟩
        · exfalso
          have h5 := cy2.rearr
          rw [h] at h5
          have h6 := cy.rearr
          rw [hq] at h6
          obtain ⟨ms, h7, -⟩ := rearr_obj D.ok.ord h6
          rw [rearr_bool D.ok.ord h5] at h7
          cases h7
        · exact ⟨kvs2, h⟩
      obtain ⟨kvs2, hq2⟩ := hq2
      obtain ⟨d2, e3, e4⟩ := cy2.dynamic hd20 D.ok hq2 (E.lib.ofText t).fragment
      rw [e1] at e3
      cases e3
      exact e4
  obtain ⟨w2, hset⟩ : ∃ w2, setRef x k y d w' = some (w2, .ok ()) := ⟨_, rfl⟩
  obtain ⟨a1, a2, -, a4⟩ := setRef_spec m.ok hys hset
  have hrun : ∀ newDoc, resolveKw E newDoc x k kw w' = some (w2, .ok ()) := by
    intro newDoc
    suffices h : (resolveKw E newDoc x k kw).Returns w' (fun w'' _ => w'' = w2) by
      obtain ⟨_, _, e, rfl⟩ := h
      exact e
    unfold resolveKw
    refine M.returns_read (M.returns_read ?_)
    rw [hcid]
    have huri : ∃ r' fr, (refUri E x kw).Returns w' (fun w'' rf => w' = w'' ∧ rf = (r', fr)) ∧
        refDynamic o.shape y fr w' = some (w', .ok d) ∧
        ∀ m, getSchemaWith E newDoc r' m cid w' = some (w', .ok y) := by
      by_cases hrec : o.shape = .recursiveRef
      · -- the base URI itself is looked up
        have hk' : k = "$recursiveRef" := by
          rcases hk with ⟨-, h⟩ | ⟨-, h⟩ | ⟨h, -⟩
          · rw [h] at hrec; cases hrec
          · rw [h] at hrec; cases hrec
          · exact h
        obtain ⟨-, rfl⟩ := h3' hk'
        have hfr : Fragment "".toList := .nil
        have hrel := D.lib.relative "" hfr
        have hres := D.lib.resolve "" b hfr c.absolute.1 c.absolute.2
        have hr' : r = b.withFragment "" := by
          rcases r1 with ⟨e1, -⟩ | ⟨-, e2⟩
          · exact absurd (hrel.symm.trans e1) Bool.false_ne_true
          · exact Option.some.inj (e2.symm.trans hres)
        have hb : r.noFragment = b := by rw [hr']; exact noFragment_of (u := b) c.absolute.2
        refine ⟨b, none, ?_, ?_, fun m' => ?_⟩
        · unfold refUri
          rw [hsh, hrec]
          refine M.returns_read ?_
          rw [m.base D.ok, c.base]
          exact M.returns_pure ⟨rfl, rfl⟩
        · rw [hrec] at hd ⊢
          exact hd
        · rw [← hb]
          exact r4 (by rw [hr']; rfl) w' m.same newDoc m'
      refine ⟨r, (E.lib.ofText t).fragment, ?_, hd, r3 w' m.same newDoc⟩
      have : refUri E x kw = (do
          match ← M.read (fun w => w.heap.data kw.json) with
          | .str text =>
            resolveUri E x (E.lib.ofText text) (E.lib.isAbsolute (E.lib.ofText text).noFragment) >>= fun r =>
              pure (r, (E.lib.ofText text).fragment)
          | _ => M.unmodelled) := by
        unfold refUri
        rcases hk with ⟨-, h⟩ | ⟨-, h⟩ | ⟨-, h⟩
        · rw [hsh, h]; rfl
        · rw [hsh, h]; rfl
        · exact absurd h hrec
      rw [this]
      refine M.returns_read ?_
      rw [m.heap, hj, hdat]
      refine M.Returns.bind (Q := fun w'' r' => w' = w'' ∧ r' = r) ?_ ?_
      · unfold resolveUri
        rcases r1 with ⟨e1, rfl⟩ | ⟨e1, e2⟩
        · rw [if_pos e1]
          exact M.returns_pure ⟨rfl, rfl⟩
        · rw [if_neg (by rw [e1]; exact Bool.false_ne_true)]
          refine M.returns_read ?_
          rw [m.base D.ok, c.base]
          simp only [e2]
          exact M.returns_pure ⟨rfl, rfl⟩
      · rintro w1 r ⟨rfl, rfl⟩
        exact M.returns_pure ⟨rfl, rfl⟩
    obtain ⟨r', fr, huri, hd2, hget⟩ := huri
    refine huri.bind ?_
    rintro _ _ ⟨rfl, rfl⟩
    refine M.Returns.bind (Q := fun w'' t => w' = w'' ∧ t = y) ⟨_, _, hget _, rfl, rfl⟩ ?_
    rintro _ _ ⟨rfl, rfl⟩
    rw [hsh]
    refine M.Returns.bind (Q := fun w'' d' => w' = w'' ∧ d' = d) ⟨_, _, hd2, rfl, rfl⟩ ?_
    rintro _ _ ⟨rfl, rfl⟩
    exact ⟨w2, (), hset, rfl⟩
  have hw2 : w2.heap = w'.heap ∧ w2.caches = w'.caches ∧ ∀ z, z ≠ x → w2.info z = w'.info z := by
    unfold setRef at hset
    obtain ⟨rfl, -⟩ := M.change_run hset
    exact ⟨rfl, rfl, fun z hz => by simp [World.setInfo, hz]⟩
  have hle := c.le D
  refine ⟨w2, hrun, a1, hw2.1.trans m.heap, hw2.2.1.trans m.caches, m.grown.trans a2, fun z hz => ?_, fun z hz => ?_,
    fun z hz kv hkv => ?_⟩
  · rw [hw2.2.2 z (by omega)]; exact m.below z hz
  · by_cases hzx : z = x
    · subst hzx
      have := c.isSchema
      simp [World.isSchema, hz] at this
    · rw [hw2.2.2 z hzx]; exact m.dom z hz
  · by_cases hzx : z = x
    · subst hzx
      rw [a4] at hkv
      obtain ⟨kv0, b1, rfl⟩ := List.mem_map.1 hkv
      simp only [refObj]
      split
      · rename_i hk0
        obtain ⟨o', b2, b3, b4⟩ := m.kw hx b1
        rw [hk0] at b2
        have : o' = o := by
          have n1 := dlookup_of_mem (c.keys D).2 b2
          have n2 := dlookup_of_mem (c.keys D).2 ho
          rw [n1] at n2; cases n2; rfl
        subst this
        have hdat' : w.heap.data kv0.2.json = .str t := by rw [show kv0.2.json = o'.json from b4]; exact hdat
        refine .inr ⟨⟨?_, b, t, q, y, c.base, hdat', h2, rfl, r2, ?_⟩, ⟨b, t, r, y, c.base, hdat', r1, rfl, fun nd mu => ?_⟩⟩
        · show kv0.2.shape = _ ∨ kv0.2.shape = _ ∨ kv0.2.shape = _
          rw [b3]
          rcases hk with ⟨-, h⟩ | ⟨-, h⟩ | ⟨-, h⟩
          · exact .inl h
          · exact .inr (.inl h)
          · exact .inr (.inr h)
        · intro h
          replace h : kv0.2.shape = _ := h
          rw [b3] at h
          exact hd' h
        · rw [D.cacheids _ c.reach c.isSchema]
          exact r3 w ⟨rfl, rfl, fun _ _ => rfl⟩ nd mu
      · exact m.kws z hz kv0 b1
    · rw [keywords_of_info (hw2.2.2 z hzx)] at hkv
      exact m.kws z hz kv hkv

/-- Resolution of the references of a schema and those below it. -/
theorem settles_resolve (D : DocMade E L c0 cid u root kvs0 w) (F : Finds E L cid (MadeFrom E L roots w) w) {p : Site} :
    ∀ (d : Nat) {ks : List String} {x : Nat} {q : Site}, Corr E L root p w ks x q → w.heap.next - x ≤ d →
      ∀ w', Mid E L (MadeFrom E L roots w) root w w' →
        M.Settles (fun n => resolveReferences E n x) d w' (fun w'' _ => Mid E L (MadeFrom E L roots w) root w w'') := by
  intro d
  generalize hI : Mid E L (MadeFrom E L roots w) root w = I
  induction d with
  | zero => intro ks x q c hd; have := D.ok.dom x c.isSchema; omega
  | succ d ih =>
    intro ks x q c hd w' m
    have hx := D.ok.dom x c.isSchema
    have step : M.Settles (fun n => resolveReferences E (n + 1) x) d w' (fun w'' _ => I w'') := by
      simp only [resolveReferences]
      refine M.settles_read (f := fun n kws => M.each (resolveOne E (newDocWith E (resolveReferences E n))
        (resolveReferences E n) x) kws) ?_
      refine M.settles_each (I := I) (fun kv hkv w1 m1 => ?_) w' m
      rw [← hI] at m m1
      obtain ⟨o, ho, b1, b2⟩ := m.kw hx hkv
      obtain ⟨b, kvs, rfl⟩ := c.obj D ho
      have below : ∀ {ls : List String} {y : Nat} {q' : Site}, Corr E L root p w ls y q' → x < y →
          ∀ w1, I w1 → M.Settles (fun n => resolveReferences E n y) d w1 (fun w'' _ => I w'') :=
        fun cy hy w1 m1 => ih cy (by omega) w1 m1
      obtain ⟨v, hv, f⟩ := c.member_exists D ho
      have hjx := D.ok.ord.kid _ _ (childD_kid f.child)
      by_cases hr : o.shape.isRef = true
      · obtain ⟨w2, e, h⟩ := returns_resolveKw D F c m1 ho b1 b2 hr
        refine ⟨w2, (), fun n _ => ?_, hI ▸ h⟩
        show resolveOne E _ _ x kv w1 = _
        unfold resolveOne
        rw [if_pos (by rw [b1]; exact hr)]
        exact e _
      · suffices h : M.Settles (fun n => (do
            if ← M.read (fun w => w.isSchema o.json) then resolveReferences E n o.json
            else M.read (fun w => (w.heap.data o.json).kids) >>= M.each (resolveItem (resolveReferences E n)) : M Unit))
            d w1 (fun w'' _ => I w'') by
          obtain ⟨w2, a, e, h⟩ := h
          refine ⟨w2, a, fun n hn => ?_, h⟩
          show resolveOne E _ _ x kv w1 = _
          unfold resolveOne
          rw [if_neg (by rw [b1]; exact hr), b2]
          exact e n hn
        refine M.settles_read (f := fun n b => if b = true then resolveReferences E n o.json
          else M.read (fun w => (w.heap.data o.json).kids) >>= M.each (resolveItem (resolveReferences E n))) ?_
        rw [m1.grown.isSchema hjx.2.1]
        have kids : w.isSchema o.json = false → (∀ y ∈ (w.heap.data o.json).kids, w.isSchema y = true →
            ∃ ls q', Corr E L root p w ls y q') →
            M.Settles (fun n => if w.isSchema o.json = true then resolveReferences E n o.json
              else M.read (fun w => (w.heap.data o.json).kids) >>= M.each (resolveItem (resolveReferences E n)))
            d w1 (fun w'' _ => I w'') := by
          intro hns hk
          rw [hns]
          simp only [Bool.false_eq_true, if_false]
          refine M.settles_read (f := fun n l => M.each (resolveItem (resolveReferences E n)) l) ?_
          rw [m1.heap]
          refine M.settles_each (I := I) (fun y hy w2 m2 => ?_) w1 (hI ▸ m1)
          have hyk := D.ok.ord.kid _ _ hy
          unfold resolveItem
          refine M.settles_read (f := fun n b => if b = true then resolveReferences E n y else pure ()) ?_
          have m2' := m2
          rw [← hI] at m2'
          rw [m2'.grown.isSchema hyk.2.1]
          cases hys : w.isSchema y with
          | false => exact ⟨w2, (), fun _ _ => rfl, m2⟩
          | true =>
            obtain ⟨ls, v', cy⟩ := hk y hy hys
            exact below cy (by omega) w2 m2
        rcases c.parts D ho with h | ⟨q', cy⟩ | ⟨h, h'⟩
        · refine kids (h _ .refl) fun y hy hys => ?_
          rw [h y (.step hy .refl)] at hys; cases hys
        · rw [cy.isSchema]
          exact below cy hjx.1 w1 (hI ▸ m1)
        · refine kids h fun y hy _ => ?_
          obtain ⟨n, q', cy⟩ := h' y hy
          exact ⟨_, _, cy⟩
    obtain ⟨w2, a, h1, h2⟩ := step
    refine ⟨w2, a, fun n hn => ?_, h2⟩
    obtain ⟨n, rfl⟩ : ∃ m, n = m + 1 := ⟨n - 1, by omega⟩
    exact h1 n (by omega)

end
end Jschon
