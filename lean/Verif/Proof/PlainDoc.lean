import Verif.Proof.PlainEdit
import Verif.Proof.SchemaEdit

/-!
# A document whose plain keywords are edited

After the edits the world is one that has the edited document.
-/

namespace Jschon
open Spec

section
variable {w w' : World} (ok : WOk w) (a : Amended w w')
include ok a

/-- The way to a schema stays. -/
theorem Amended.reach {s t : Nat} {ks : List String} (h : Jschon.Reach w.heap s ks t) (ht : w.isSchema t = true) :
    Jschon.Reach w'.heap s ks t := by
  induction h with
  | here => exact .here
  | @step r k c ks d hc hr ih =>
    refine .step ?_ (ih ht)
    have hd : Desc w.heap r d := .step (childD_kid hc) (reach_desc hr)
    have hl : r < w.heap.next := Nat.lt_of_le_of_lt (desc_le ok.ord hd) (ok.dom _ ht)
    show ChildD (w'.heap.data r) k c
    rw [a.data r hl fun hp => schema_notPlain ok ht (hp.below ok hd)]
    exact hc

theorem Amended.resolve {t : Nat} (ht : w.isSchema t = true) : ∀ {ks : List String} {s : Nat},
    resolveJson w.heap ks s = .ok t → resolveJson w'.heap ks s = .ok t
  | [], s, h => h
  | k :: ks, s, h => by
    obtain ⟨ks', -, hr⟩ := resolve_reach h
    have hd := reach_desc hr
    have hl : s < w.heap.next := Nat.lt_of_le_of_lt (desc_le ok.ord hd) (ok.dom _ ht)
    have e := a.data s hl fun hp => schema_notPlain ok ht (hp.below ok hd)
    simp only [resolveJson, e] at h ⊢
    cases hs : w.heap.data s with
    | obj ms =>
      rw [hs] at h
      simp only [] at h ⊢
      cases hk : dlookup k ms with
      | none => rw [hk] at h; cases h
      | some c => rw [hk] at h; exact Amended.resolve ht h
    | arr cs =>
      rw [hs] at h
      simp only [] at h ⊢
      cases hi : pyInt k with
      | none => rw [hi] at h; cases h
      | some i =>
        rw [hi] at h
        simp only [] at h ⊢
        cases hk : pyIndex cs i with
        | none => rw [hk] at h; cases h
        | some c => rw [hk] at h; exact Amended.resolve ht h
    | _ => rw [hs] at h; exact h

/-- What is found without loading anything. -/
theorem Amended.getSchema {E : CEnv} {u : Uri} {cid : String} {t : Nat}
    (h : ∀ newDoc m, getSchemaWith E newDoc u m cid w = some (w, .ok t)) (newDoc : NewDoc) (m : Option Uri) :
    getSchemaWith E newDoc u m cid w' = some (w', .ok t) := by
  replace h := h (fun _ _ _ _ => M.raise .typeError) m
  rw [getSchemaWith_split] at h ⊢
  have hb : baseCached w' cid u = baseCached w cid u := by simp only [baseCached, a.caches]
  rw [a.caches, hb]
  cases hc : cacheGet w.caches cid u with
  | some s => rw [hc] at h; cases h; rfl
  | none =>
    rw [hc] at h
    simp only [] at h ⊢
    cases hs : baseCached w cid u with
    | none =>
      rw [hs] at h
      simp only [loadSchema] at h
      exfalso
      rcases M.bind_run h with ⟨w1, doc, h1, h2⟩ | ⟨e, h1, h2⟩
      · rcases M.bind_run h2 with ⟨w2, s, h3, h4⟩ | ⟨e, h3, h4⟩
        · cases h3
        · cases h4
      · cases h2
    | some s =>
      rw [hs] at h
      simp only [] at h ⊢
      simp only [getSchemaEnd] at h ⊢
      obtain ⟨w1, y, h1, h2⟩ : ∃ w1 y, followFragment u s w = some (w1, .ok y) ∧
          ((M.read fun w => w.isSchema y) >>= fun b => if b = true then (pure y : M Nat) else M.raise .catalogError) w1 =
            some (w, .ok t) := by
        rcases M.bind_run h with ⟨w1, y, h1, h2⟩ | ⟨e, h1, h2⟩
        · exact ⟨w1, y, h1, h2⟩
        · cases h2
      replace h2 := M.read_bind h2
      split at h2
      case isFalse => cases h2
      case isTrue hy =>
      obtain ⟨rfl, e⟩ := M.pure_run h2
      cases e
      have h3 : followFragment u s w' = some (w', .ok t) := by
        revert h1
        simp only [followFragment]
        cases hf : u.fragment with
        | none => intro h1; cases h1; rfl
        | some f =>
          simp only []
          by_cases h0 : f = ""
          · rw [if_pos h0]; intro h1; cases h1; rfl
          · rw [if_neg h0]
            intro h1
            replace h1 := M.read_bind h1
            have : w'.evalFragment f s = .ok t := by
              simp only [World.evalFragment] at h1 ⊢
              cases hp : Ptr.parseUriFragment f with
              | error e => rw [hp] at h1; cases h1
              | ok ptr =>
                rw [hp] at h1
                simp only [] at h1 ⊢
                cases hr : resolveJson w.heap ptr.keys s with
                | error e => rw [hr] at h1; cases h1
                | ok y =>
                  rw [hr] at h1
                  cases h1
                  exact a.resolve ok hy hr
            show (match w'.evalFragment f s with
              | .ok t => (pure t : M Nat)
              | .error e => M.raise (if isPtrErr e then .catalogError else e)) w' = _
            rw [this]
            rfl
      show M.andThen (followFragment u s) _ w' = _
      simp only [M.andThen, h3]
      show (if w'.isSchema t = true then (pure t : M Nat) else M.raise .catalogError) w' = _
      rw [a.isSchema, if_pos hy]
      rfl

end

section
variable [dia : Dialect] {E : CEnv} {L L' : Links} {c0 : Caches} {cid : String} {u : Uri} {root : Nat}
  {kvs kvs' : List (String × Value)} {w w' : World}

/-- The edited document, before the references are resolved. -/
theorem DocMade.amend (D : DocMade E L c0 cid u root kvs w) (a : Amended w w') (hv : val w'.heap root = .obj kvs')
    (hm : ∀ kv ∈ kvs', kv.1 = "$schema" ∨ MemberForm E L' u kv.1 kv.2) : DocMade E L' c0 cid u root kvs' w' where
  lib := D.lib
  ok := a.wok D.ok
  parent := (a.parent root (D.ok.dom _ D.isSchema)).trans D.parent
  isSchema := (a.isSchema root).trans D.isSchema
  tidy x hx hs := by
    rw [a.isSchema] at hs
    have hl := D.ok.dom x hs
    exact (D.tidy x hx hs).mono (by rw [a.info]) ⟨a.parent x hl, fun m h => a.hasMeta D.ok h hl⟩
  rearr := by rw [hv]; exact rearranged_refl _
  wf := hv ▸ val_wf a.inv.weak root
  meta_ := by
    obtain ⟨m, h1, h2⟩ := D.meta_
    exact ⟨m, h1, a.hasMeta D.ok h2 (D.ok.dom _ D.isSchema)⟩
  members := hm
  uri := (a.uri root).trans D.uri
  absolute := D.absolute
  cacheid := (a.cacheid root).trans D.cacheid
  names := D.names.same D.ok (a.sameNames D.ok) a.caches
  hangs := a.hung D.ok D.parent D.hangs

theorem DocMade.amend_obj (D : DocMade E L c0 cid u root kvs w) (a : Amended w w') :
    ∃ kvs', val w'.heap root = .obj kvs' := by
  obtain ⟨ms, h, -⟩ := rearr_obj D.ok.ord D.rearr
  rw [← a.schemaData D.ok D.isSchema] at h
  exact ⟨_, val_obj a.inv.ord h⟩

omit dia in
theorem rearr_of_str {h : JHeap} (ho : Ord h) {x : Nat} {t : String} {v : Value} (hd : h.data x = .str t)
    (hr : Rearranged (val h x) v) : v = .str t := by
  rw [val_eq ho, hd] at hr
  cases hr
  rfl

/-- Both subschemas from which a schema object is made have the members that were not edited. -/
theorem Corr.has_same {c1 : Caches} {cid1 : String} {u1 : Uri} (D : DocMade E L c0 cid u root kvs w)
    (D' : DocMade E L' c1 cid1 u1 root kvs' w') {p p' q q' : Site} {ks ks' : List String} {x : Nat}
    (c : Corr E L root p w ks x q) (c' : Corr E L' root p' w' ks' x q')
    (hk : w'.keywords x = w.keywords x) {k t : String}
    (hd : ∀ o v, KwFor w x k v o → w'.heap.data o.json = w.heap.data o.json) (h : q.Has k (.str t)) :
    q'.Has k (.str t) := by
  obtain ⟨b, s⟩ := q
  obtain ⟨kvs1, rfl, hm⟩ := h
  obtain ⟨o, f⟩ := c.kw_exists D hm
  have ho : (k, o) ∈ w'.keywords x := hk ▸ f.mem
  obtain ⟨b', kvs2, rfl⟩ := c'.obj D' ho
  obtain ⟨v, hv, f'⟩ := c'.member_exists D' ho
  have h1 := rearr_str D.ok.ord f.rearr
  rw [← hd o _ f] at h1
  have := rearr_of_str D'.ok.ord h1 f'.rearr
  subst this
  exact ⟨kvs2, rfl, hv⟩

/-- The keywords that give names are not plain. -/
theorem KwFor.notPlain {x : Nat} {k : String} {v : Value} {o : KwObj} (f : KwFor w x k v o)
    (hk : k = "$id" ∨ k = "$anchor" ∨ (dia = .d2020 ∧ k = "$dynamicAnchor")) : k = "$id" ∨ ¬ PlainShape o.shape := by
  rcases hk with h | rfl | ⟨hd, rfl⟩
  · exact .inl h
  · right
    have : o.shape = .anchor := by cases dia <;> exact f.shape (dia := _) (by decide) rfl
    rw [this]; rintro (h | h) <;> cases h
  · right
    subst hd
    have : o.shape = .dynamicAnchor := f.shape (dia := _) (by decide) rfl
    rw [this]; rintro (h | h) <;> cases h

theorem Corr.names_same (D : DocMade E L c0 cid u root kvs w) (D' : DocMade E L' c0 cid u root kvs' w')
    (a : Amended w w') {p p' q q' : Site} {ks ks' : List String} {x : Nat}
    (c : Corr E L root p w ks x q) (c' : Corr E L' root p' w' ks' x q') {k t : String}
    (hk : k = "$id" ∨ k = "$anchor" ∨ (dia = .d2020 ∧ k = "$dynamicAnchor")) :
    q'.Has k (.str t) ↔ q.Has k (.str t) := by
  constructor
  · refine c'.has_same D' D c (a.keywords x).symm fun o v f => ?_
    have hm : (k, o) ∈ w.keywords x := a.keywords x ▸ f.mem
    exact (a.kwData D.ok hm (f.notPlain hk)).symm
  · exact c.has_same D D' c' (a.keywords x) fun o v f => a.kwData D.ok f.mem (f.notPlain hk)

theorem Corr.base_same (D : DocMade E L c0 cid u root kvs w) (a : Amended w w') {p p' q q' : Site}
    {ks ks' : List String} {x : Nat} (c : Corr E L root p w ks x q) (c' : Corr E L' root p' w' ks' x q') :
    q'.base = q.base := by
  have h := c'.base
  rw [a.baseUri D.ok (D.ok.dom x c.isSchema), c.base] at h
  exact (Option.some.inj h).symm

theorem Corr.anchored_same (D : DocMade E L c0 cid u root kvs w) (D' : DocMade E L' c0 cid u root kvs' w')
    (a : Amended w w') {p p' q q' : Site} {ks ks' : List String} {x : Nat}
    (c : Corr E L root p w ks x q) (c' : Corr E L' root p' w' ks' x q') {f : String} :
    Anchored q' f ↔ Anchored q f := by
  unfold Anchored
  rw [c.names_same D D' a c' (.inr (.inl rfl))]
  refine or_congr .rfl (and_congr_right fun hd => c.names_same D D' a c' (.inr (.inr ⟨hd, rfl⟩)))

/-- What stands in the edited document stands, as another schema with the same names, in the document. -/
theorem DocMade.unedit (D : DocMade E L c0 cid u root kvs w) (D' : DocMade E L' c0 cid u root kvs' w')
    (a : Amended w w') {ks : List String} {q' : Site} (h : Stands E.lib ⟨u, .obj kvs'⟩ ks q') :
    ∃ q, Stands E.lib ⟨u, .obj kvs⟩ ks q ∧ q.base = q'.base ∧ (∀ t, q'.Has "$id" (.str t) → q.Has "$id" (.str t)) ∧
      ∀ f, Anchored q' f → Anchored q f := by
  obtain ⟨x, c'⟩ := D'.find h
  have hs : w.isSchema x = true := by rw [← a.isSchema]; exact c'.isSchema
  obtain ⟨ks2, q, c⟩ := D.all x (c'.le D') hs
  have hr := a.reach D.ok c.reach hs
  have := reach_parent_unique a.inv.ord a.inv.keys D'.parent D'.parent hr c'.reach
  subst this
  exact ⟨q, c.at_, (c.base_same D a c').symm, fun t => (c.names_same D D' a c' (.inl rfl)).1,
    fun f => (c.anchored_same D D' a c').1⟩

theorem DocMade.alone (D : DocMade E L c0 cid u root kvs w) (D' : DocMade E L' c0 cid u root kvs' w')
    (a : Amended w w') (A : DocAlone E c0 cid ⟨u, .obj kvs⟩) : DocAlone E c0 cid ⟨u, .obj kvs'⟩ := by
  have loc : ∀ {i ks q}, Located E.lib [(⟨u, .obj kvs'⟩ : Site)] i ks q → i = 0 ∧ Stands E.lib ⟨u, .obj kvs'⟩ ks q := by
    rintro i ks q ⟨p, h1, h2⟩
    cases i with
    | zero => cases h1; exact ⟨rfl, h2⟩
    | succ i => cases h1
  refine ⟨⟨fun i ks p j ls q h1 h2 hb => ?_, fun i ks p j ls q f h1 h2 hb f1 f2 => ?_⟩, fun v ks q h hb => ?_⟩
  · obtain ⟨rfl, s1⟩ := loc h1.1
    obtain ⟨rfl, s2⟩ := loc h2.1
    obtain ⟨q1, a1, a2, a3, -⟩ := D.unedit D' a s1
    obtain ⟨q2, b1, b2, b3, -⟩ := D.unedit D' a s2
    exact A.1.resource 0 ks q1 0 ls q2 ⟨⟨_, rfl, a1⟩, h1.2.imp id fun ⟨t, h⟩ => ⟨t, a3 t h⟩⟩
      ⟨⟨_, rfl, b1⟩, h2.2.imp id fun ⟨t, h⟩ => ⟨t, b3 t h⟩⟩ (by rw [a2, b2, hb])
  · obtain ⟨rfl, s1⟩ := loc h1
    obtain ⟨rfl, s2⟩ := loc h2
    obtain ⟨q1, a1, a2, -, a3⟩ := D.unedit D' a s1
    obtain ⟨q2, b1, b2, -, b3⟩ := D.unedit D' a s2
    exact A.1.anchor 0 ks q1 0 ls q2 f ⟨_, rfl, a1⟩ ⟨_, rfl, b1⟩ (by rw [a2, b2, hb]) (a3 f f1) (b3 f f2)
  · obtain ⟨q1, a1, a2, -⟩ := D.unedit D' a h
    exact A.2 v ks q1 a1 (a2.trans hb)

/-- The world before the references were resolved, with the edits. -/
theorem Amended.made {C : Nat → Site → Prop} {w1 wd w2 : World} (ok : WOk w1) (m : Mid E L C root w1 wd)
    (a : Amended wd w2) : Amended w1 { w1 with heap := w2.heap } where
  info := rfl
  caches := rfl
  le := by rw [← m.heap]; exact a.le
  parent x hx := by
    rw [← m.heap] at hx ⊢
    exact a.parent x hx
  data x hx hn := by
    rw [← m.heap] at hx ⊢
    refine a.data x hx fun h => hn ?_
    obtain ⟨s, k, o, h1, h2, h3, h4⟩ := inPlain_desc.1 h
    have hs : s < w1.heap.next := by
      rw [← m.heap]
      refine m.ok.dom s ?_
      cases hi : wd.info s with
      | none => simp [World.keywords, hi] at h1
      | some i => simp [World.isSchema, hi]
    obtain ⟨o0, b1, b2, b3⟩ := m.kw hs h1
    exact inPlain_desc.2 ⟨s, k, o0, b1, h2, b2 ▸ h3, by rw [← b3, ← m.heap]; exact h4⟩
  inv := a.inv
  old hd hb := by
    rw [← m.heap] at hb ⊢
    exact a.old hd hb

/-- After the edits the world is one in which the edited document is constructed and its references are
resolved. -/
theorem DocDone.amend {w1 wd w2 : World}
    (D : DocDone E L [(root, ⟨u, .obj kvs⟩)] c0 cid u root kvs w1 wd) (A : DocAlone E c0 cid ⟨u, .obj kvs⟩)
    (a : Amended wd w2) (hv : val w2.heap root = .obj kvs') (hL' : L' = links E.lib [⟨u, .obj kvs'⟩])
    (hm : ∀ kv ∈ kvs', kv.1 = "$schema" ∨ MemberForm E L' u kv.1 kv.2) :
    DocAlone E c0 cid ⟨u, .obj kvs'⟩ ∧
    DocDone E L' [(root, ⟨u, .obj kvs'⟩)] c0 cid u root kvs' { w1 with heap := w2.heap } w2 := by
  have a1 := a.made D.made.ok D.mid
  have D' := D.made.amend a1 hv hm
  have A' := D.made.alone D' a1 A
  have F' := D'.finds A' hL'
  have ok1 := D.made.ok
  have okd := D.mid.ok
  refine ⟨A', D', ⟨a.wok okd, rfl, a.caches.trans D.mid.caches, ?_, fun x hx => ?_, fun x hx => ?_, fun x hx kv hkv => ?_⟩,
    fun t ht hs => ?_, List.mem_singleton.2 rfl⟩
  · refine ⟨Nat.le_refl _, fun _ _ => rfl, fun x _ hn => ?_, fun x i _ hi => ?_⟩
    · rw [a.info]; exact D.mid.dom x hn
    · rw [a.info]
      exact D.mid.grown.info x i (ok1.dom x (by
        have : w1.info x = some i := hi
        simp [World.isSchema, this])) hi
  · rw [a.info]; exact D.mid.below x hx
  · rw [a.info]; exact D.mid.dom x hx
  · rw [a.keywords] at hkv
    rcases D.mid.kws x hx kv hkv with h | ⟨h1, h2⟩
    · exact .inl h
    right
    obtain ⟨k, o⟩ := kv
    have hxs : wd.isSchema x = true := by
      cases hi : wd.info x with
      | none => simp [World.keywords, hi] at hkv
      | some i => simp [World.isSchema, hi]
    have hxl : x < w1.heap.next := by rw [← D.mid.heap]; exact okd.dom x hxs
    have hxs1 : w1.isSchema x = true := by rw [← D.mid.grown.isSchema hxl]; exact hxs
    obtain ⟨o0, b1, b2, b3⟩ := D.mid.kw hxl hkv
    simp only at b1 b2 b3
    obtain ⟨ks', q', c'⟩ := D'.all x hx hxs1
    obtain ⟨b', kvs2, rfl⟩ := c'.obj D' (show (k, o0) ∈ _ from b1)
    obtain ⟨v, hv2, f⟩ := c'.member_exists D' (show (k, o0) ∈ _ from b1)
    have hsh := h1.shape
    simp only at hsh
    rw [b2] at hsh
    have hr : o0.shape.isRef = true := by rcases hsh with h | h | h <;> rw [h] <;> rfl
    have hnp : ¬ PlainShape o0.shape := by
      rcases hsh with h | h | h <;> rw [h] <;> rintro (h | h) <;> cases h
    obtain ⟨hk, t', q2, rfl, g1, g2, g3⟩ := f.isRef c' hv2 hr
    obtain ⟨b, s, q, t, t1, t2, t3, t4, t5, t6⟩ := h1.target
    obtain ⟨b9, s9, r, t9, l1, l2, l3, l4, l5⟩ := h2.target
    rw [l1] at t1; cases t1
    rw [l2] at t2; cases t2
    rw [l4] at t4; cases t4
    have hdata : w2.heap.data o.json = w1.heap.data o.json := by
      have := a1.kwData ok1 b1 (.inr hnp)
      rw [← b3] at this
      exact this
    have hs' : s = t' := by
      have h3 := rearr_str D'.ok.ord f.rearr
      rw [← b3] at h3
      replace h3 : w2.heap.data o.json = .str t' := h3
      rw [hdata, l2] at h3
      cases h3; rfl
    subst hs'
    have hbase : b = b' := by
      have := c'.base
      rw [a1.baseUri ok1 hxl, l1] at this
      cases this; rfl
    subst hbase
    obtain ⟨r', y, r1, r2, r3, -⟩ := F'.only g1
    have := refUri_unique l3 r1
    subst this
    have hcid := D'.cacheids x c'.reach c'.isSchema
    have hcid1 : w1.cacheid x = cid := hcid
    rw [hcid1] at l5
    have hget := a1.getSchema ok1 l5
    have hy : y = t := by
      have e1 := r3 _ ⟨rfl, rfl, fun _ _ => rfl⟩ (fun _ _ _ _ => M.raise .typeError) none
      have e2 := hget (fun _ _ _ _ => M.raise .typeError) none
      rw [e1] at e2
      cases e2
      rfl
    subst hy
    have hb2 : World.baseUri { w1 with heap := w2.heap } x = some b := by rw [a1.baseUri ok1 hxl]; exact l1
    refine ⟨⟨h1.shape, b, s, q2, y, hb2, hdata.trans l2, g1, l4, r2, fun hdyn q3 hq3 => ?_⟩,
      ⟨b, s, r, y, hb2, hdata.trans l2, l3, l4, fun nd mu => ?_⟩⟩
    · rw [t6 hdyn q t3]
      simp only at hdyn
      have hd20 : dia = .d2020 := by
        rw [b2] at hdyn
        rcases hk with ⟨-, h⟩ | ⟨h, -⟩ | ⟨-, h⟩
        · rw [hdyn] at h; cases h
        · exact (g2 h).1
        · rw [hdyn] at h; cases h
      obtain ⟨_, _, ls, m1, cq⟩ := t5 q t3
      cases List.mem_singleton.1 m1
      obtain ⟨_, _, ls', m2, cq'⟩ := r2 q3 hq3
      cases List.mem_singleton.1 m2
      refine exists_congr fun f => and_congr_right fun _ => ?_
      exact (cq.names_same D.made D' a1 cq' (.inr (.inr ⟨hd20, rfl⟩))).symm
    · have : World.cacheid { w1 with heap := w2.heap } x = cid := hcid
      rw [this]
      exact hget nd mu
  · rw [a.isSchema] at hs
    have := D.resolved t (a.old ht (okd.dom t hs)) hs
    unfold Resolved at this ⊢
    rw [a.keywords]
    exact this

end
end Jschon
