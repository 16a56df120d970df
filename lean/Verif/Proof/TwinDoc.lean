import Verif.Proof.Twin

/-!
# Documents that are equal as JSON have the same meaning: places, references and keywords
-/

namespace Jschon
open Spec

variable [dia : Dialect] {dec : Rat → Rat} {lib : UriLib}

/-! ## Places -/

omit dia in
theorem Spec.TwinSite.twins {p q : Site} (h : TwinSite dec p q) : Twins dec p.schema q.schema := ⟨h.twin, h.wf, h.wf'⟩

omit dia in
theorem Spec.TwinSite.symm {p q : Site} (h : TwinSite dec p q) : TwinSite dec q p :=
  ⟨h.base.symm, h.twin.symm, h.wf', h.wf⟩

omit dia in
theorem Spec.TwinSites.symm {ps qs : List Site} (h : TwinSites dec ps qs) : TwinSites dec qs ps := by
  induction h with
  | nil => exact .nil
  | cons h _ ih => exact .cons h.symm ih

omit dia in
theorem ownBase_twin {u u' : Value} (h : Twins dec u u') (b : Uri) : ownBase lib b u = ownBase lib b u' := by
  cases u with
  | obj as =>
    obtain ⟨bs, rfl, -, -⟩ := h.obj
    rcases h.dlookup "$id" with ⟨e, e'⟩ | ⟨v, w, e, e', h⟩
    · simp only [ownBase, e, e']
    · simp only [ownBase, e, e']
      obtain ⟨h, -, -⟩ := h
      cases h <;> rfl
  | _ => obtain ⟨h, -, -⟩ := h; cases h <;> rfl

omit dia in
theorem site_twin {u u' : Value} (h : Twins dec u u') (b : Uri) : TwinSite dec (site lib b u) (site lib b u') :=
  ⟨ownBase_twin h b, h.twin, h.wf, h.wf'⟩

omit dia in
theorem Spec.TwinSite.has {p q : Site} (h : TwinSite dec p q) {k : String} {v : Value} (hk : p.Has k v) :
    ∃ w, q.Has k w ∧ Twins dec v w := by
  obtain ⟨kvs, e, hm⟩ := hk
  have t := h.twins
  rw [e] at t
  obtain ⟨bs, e', -, h'⟩ := t.obj
  obtain ⟨w, hw, ht⟩ := h' k v hm
  exact ⟨w, ⟨bs, e', hw⟩, ht⟩

omit dia in
theorem Spec.TwinSite.hasStr {p q : Site} (h : TwinSite dec p q) {k s : String} (hk : p.Has k (.str s)) :
    q.Has k (.str s) := by
  obtain ⟨w, hw, ht⟩ := h.has hk
  rwa [ht.str] at hw

omit dia in
theorem Spec.TwinSite.recursive {p q : Site} (h : TwinSite dec p q) (hk : p.Recursive) : q.Recursive := by
  obtain ⟨w, hw, ht⟩ := h.has hk
  rw [ht.bool] at hw
  exact hw

theorem stands_twin {p q : Site} {ks : List String} (hs : Stands lib p ks q) {p' : Site} (h : TwinSite dec p p') :
    ∃ q', Stands lib p' ks q' ∧ TwinSite dec q q' := by
  induction hs generalizing p' with
  | here => exact ⟨p', .here, h⟩
  | @one b kvs k u ks q hk hm _ ih =>
    obtain ⟨bs, e, -, h'⟩ := h.twins.obj
    obtain ⟨u', hm', ht⟩ := h' k u hm
    obtain ⟨q', hq, htq⟩ := ih (site_twin ht b)
    obtain ⟨b', s'⟩ := p'
    cases e
    cases h.base
    refine ⟨q', .one (hk.imp_right fun ⟨h1, h2⟩ => ⟨h1, fun us e => ?_⟩) hm' hq, htq⟩
    subst e
    obtain ⟨ys, e, -⟩ := ht.symm.arr
    exact h2 ys e
  | @many b kvs k us i u ks q hk hm hi _ ih =>
    obtain ⟨bs, e, -, h'⟩ := h.twins.obj
    obtain ⟨u', hm', ht⟩ := h' k _ hm
    obtain ⟨ys, rfl, -, hys, -⟩ := ht.arr
    obtain ⟨y, hy, ht'⟩ := hys i u hi
    obtain ⟨q', hq, htq⟩ := ih (site_twin ht' b)
    obtain ⟨b', s'⟩ := p'
    cases e
    cases h.base
    exact ⟨q', .many hk hm' hy hq, htq⟩
  | @named b kvs k ms n u ks q hk hm hi _ ih =>
    obtain ⟨bs, e, -, h'⟩ := h.twins.obj
    obtain ⟨u', hm', ht⟩ := h' k _ hm
    obtain ⟨ys, rfl, -, hys⟩ := ht.obj
    obtain ⟨y, hy, ht'⟩ := hys n u hi
    obtain ⟨q', hq, htq⟩ := ih (site_twin ht' b)
    obtain ⟨b', s'⟩ := p'
    cases e
    cases h.base
    exact ⟨q', .named hk hm' hy hq, htq⟩

/-! ## References -/

omit dia in
theorem Spec.TwinSites.get {ps qs : List Site} (h : TwinSites dec ps qs) {i : Nat} {p : Site} (hi : ps[i]? = some p) :
    ∃ q, qs[i]? = some q ∧ TwinSite dec p q := by
  induction h generalizing i with
  | nil => simp at hi
  | @cons p' q ps qs h _ ih =>
    cases i with
    | zero => cases hi; exact ⟨q, rfl, h⟩
    | succ i => exact ih hi

omit dia in
theorem Spec.TwinSites.split {ps qs : List Site} (h : TwinSites dec ps qs) {xs ys : List Site} {p : Site}
    (e : ps = xs ++ p :: ys) :
    ∃ xs' p' ys', qs = xs' ++ p' :: ys' ∧ TwinSites dec xs xs' ∧ TwinSite dec p p' ∧ TwinSites dec ys ys' := by
  induction h generalizing xs with
  | nil => simp at e
  | @cons p0 q ps qs h hs ih =>
    cases xs with
    | nil => cases e; exact ⟨[], q, qs, rfl, .nil, h, hs⟩
    | cons x xs =>
      simp only [List.cons_append, List.cons.injEq] at e
      obtain ⟨rfl, e⟩ := e
      obtain ⟨xs', p', ys', rfl, h1, h2, h3⟩ := ih e
      exact ⟨q :: xs', p', ys', rfl, .cons h h1, h2, h3⟩

omit dia in
theorem Spec.TwinSites.append {ps qs ps' qs' : List Site} (h : TwinSites dec ps qs) (h' : TwinSites dec ps' qs') :
    TwinSites dec (ps ++ ps') (qs ++ qs') := by
  induction h with
  | nil => exact h'
  | cons h _ ih => exact .cons h ih

omit dia in
theorem Spec.TwinSites.mem {ps qs : List Site} (h : TwinSites dec ps qs) {p : Site} (hp : p ∈ ps) :
    ∃ q ∈ qs, TwinSite dec p q := by
  obtain ⟨i, hi⟩ := List.getElem?_of_mem hp
  obtain ⟨q, hq, ht⟩ := h.get hi
  exact ⟨q, List.mem_of_getElem? hq, ht⟩

theorem located_twin {roots roots' : List Site} (h : TwinSites dec roots roots') {i : Nat} {ks : List String} {q : Site}
    (hl : Located lib roots i ks q) : ∃ q', Located lib roots' i ks q' ∧ TwinSite dec q q' := by
  obtain ⟨p, hp, hs⟩ := hl
  obtain ⟨p', hp', ht⟩ := h.get hp
  obtain ⟨q', hq, ht'⟩ := stands_twin hs ht
  exact ⟨q', ⟨p', hp', hq⟩, ht'⟩

theorem anchored_twin {p q : Site} (h : TwinSite dec p q) {f : String} (ha : Anchored p f) : Anchored q f :=
  ha.imp h.hasStr fun ⟨e, h'⟩ => ⟨e, h.hasStr h'⟩

theorem denotes_twin {roots roots' : List Site} (h : TwinSites dec roots roots') {r : Uri} {q : Site}
    (hd : Denotes lib roots r q) : ∃ q', Denotes lib roots' r q' ∧ TwinSite dec q q' := by
  cases hd with
  | pointer hr hb hp hs =>
    obtain ⟨hl, hr⟩ := hr
    obtain ⟨p', hl', ht⟩ := located_twin h hl
    obtain ⟨q', hq, ht'⟩ := stands_twin hs ht
    exact ⟨q', .pointer ⟨hl', hr.imp_right fun ⟨t, h⟩ => ⟨t, ht.hasStr h⟩⟩ (ht.base ▸ hb) hp hq, ht'⟩
  | anchor hl hb hf ha =>
    obtain ⟨q', hl', ht⟩ := located_twin h hl
    exact ⟨q', .anchor hl' (ht.base ▸ hb) hf (anchored_twin ht ha), ht⟩

/-- The links of two sets of documents agree. -/
structure TwinLinks (dec : Rat → Rat) (L L' : Links) : Prop where
  refer : ∀ {b t q}, L.refer b t q → ∃ q', L'.refer b t q' ∧ TwinSite dec q q'
  dyn : ∀ {b f q}, L.dyn b f q → ∃ q', L'.dyn b f q' ∧ TwinSite dec q q'

theorem links_twin {roots roots' : List Site} (h : TwinSites dec roots roots') :
    TwinLinks dec (links lib roots) (links lib roots') where
  refer := by
    rintro b t q ⟨r, hr, hd⟩
    obtain ⟨q', hd', ht⟩ := denotes_twin h hd
    exact ⟨q', ⟨r, hr, hd'⟩, ht⟩
  dyn := by
    rintro b f q ⟨⟨i, ks, hl⟩, hb, hd, ha⟩
    obtain ⟨q', hl', ht⟩ := located_twin h hl
    exact ⟨q', ⟨⟨i, ks, hl'⟩, ht.base ▸ hb, hd, ht.hasStr ha⟩, ht⟩

section
variable {L L' : Links} (hL : TwinLinks dec L L') (hL' : TwinLinks dec L' L) {sc sc' : List Site}
  (hs : TwinSites dec sc sc')
include hL hL' hs

omit dia in
theorem odyn_twin {f : String} {u u' q : Site} (hu : TwinSite dec u u') (h : ODyn L f sc u q) :
    ∃ q', ODyn L' f sc' u' q' ∧ TwinSite dec q q' := by
  cases h with
  | @found inner outer p _ e hd hn ho =>
    obtain ⟨inner', p', outer', e', h1, h2, h3⟩ := hs.split e
    rw [h2.base] at hd
    obtain ⟨q', hd', ht⟩ := hL.dyn hd
    refine ⟨q', .found e' hd' (fun a ha e => ?_) (fun o1 p1 o2 eo q1 hq1 => ?_), ht⟩
    · obtain ⟨a', ha', hb⟩ := h1.symm.mem ha
      exact hn a' ha' (hb.base.symm.trans (e.trans h2.base.symm))
    · obtain ⟨o1', p1', o2', rfl, h4, h5, h6⟩ := h3.symm.split eo
      rw [h5.base] at hq1
      obtain ⟨q2, hq2, -⟩ := hL'.dyn hq1
      obtain ⟨a, ha, hab⟩ := ho o1' p1' o2' rfl q2 hq2
      obtain ⟨a', ha', hb⟩ := (h1.append (.cons h2 h4.symm)).mem ha
      exact ⟨a', ha', hb.base.symm.trans (hab.trans h5.base.symm)⟩
  | none h =>
    refine ⟨u', .none fun p' hp' q' hq' => ?_, hu⟩
    obtain ⟨p, hp, hb⟩ := hs.symm.mem hp'
    rw [hb.base] at hq'
    obtain ⟨q, hq, -⟩ := hL'.dyn hq'
    exact h p hp q hq

omit hL hL' in
omit dia in
theorem outermostRec_twin {u u' q : Site} (hu : TwinSite dec u u') (h : DOutermostRec sc u q) :
    ∃ q', DOutermostRec sc' u' q' ∧ TwinSite dec q q' := by
  cases h with
  | static h => exact ⟨u', .static fun h' => h (hu.symm.recursive h'), hu⟩
  | found h e hp ho =>
    obtain ⟨inner', p', outer', e', h1, h2, h3⟩ := hs.split e
    refine ⟨p', .found (hu.recursive h) e' (h2.recursive hp) fun a ha hr => ?_, h2⟩
    obtain ⟨a', ha', hb⟩ := h3.symm.mem ha
    exact ho a' ha' (hb.recursive hr)
  | none h ho =>
    refine ⟨u', .none (hu.recursive h) fun a ha hr => ?_, hu⟩
    obtain ⟨a', ha', hb⟩ := hs.symm.mem ha
    exact ho a' ha' (hb.recursive hr)

theorem otarget_twin {b : Uri} {k s : String} {u : Site} (h : OTarget lib L sc b k s u) :
    ∃ u', OTarget lib L' sc' b k s u' ∧ TwinSite dec u u' := by
  cases h with
  | ref h =>
    obtain ⟨u', h', ht⟩ := hL.refer h
    exact ⟨u', .ref h', ht⟩
  | static hd h hn =>
    obtain ⟨u', h', ht⟩ := hL.refer h
    exact ⟨u', .static hd h' fun f hf => hn f ⟨hf.1, ht.symm.hasStr hf.2⟩, ht⟩
  | dynamic hd h hf ho =>
    obtain ⟨u', h', ht⟩ := hL.refer h
    obtain ⟨q', ho', hq⟩ := odyn_twin hL hL' hs ht ho
    exact ⟨q', .dynamic hd h' ⟨hf.1, ht.hasStr hf.2⟩ ho', hq⟩
  | recursive hd h ho =>
    obtain ⟨u', h', ht⟩ := hL.refer h
    obtain ⟨q', ho', hq⟩ := outermostRec_twin hs ht ho
    exact ⟨q', .recursive hd h' ho', hq⟩

end

/-! ## Keywords -/

/-- Two meanings that agree in two dynamic scopes, and what is referred to in these. -/
structure Pairing (dec : Rat → Rat) (M M' : DMeaning) (sc sc' : List Site) (sub : Value → Site)
    (T T' : String → String → Site → Prop) : Prop where
  valid : ∀ {p p' v v'}, TwinSite dec p p' → Twins dec v v' → (M.valid sc p v ↔ M'.valid sc' p' v')
  ev : ∀ {p p' v v'} pt, TwinSite dec p p' → Twins dec v v' → (M.ev sc p v pt ↔ M'.ev sc' p' v' pt)
  sub : ∀ {t t'}, Twins dec t t' → TwinSite dec (sub t) (sub t')
  target : ∀ {k s u}, T k s u → ∃ u', T' k s u' ∧ TwinSite dec u u'
  target' : ∀ {k s u'}, T' k s u' → ∃ u, T k s u ∧ TwinSite dec u u'

omit dia in
theorem Pairing.symm {M M' : DMeaning} {sc sc' : List Site} {sub : Value → Site}
    {T T' : String → String → Site → Prop} (P : Pairing dec M M' sc sc' sub T T') :
    Pairing dec M' M sc' sc sub T' T where
  valid h h' := (P.valid h.symm h'.symm).symm
  ev pt h h' := (P.ev pt h.symm h'.symm).symm
  sub h := P.sub h
  target h := by
    obtain ⟨u, hu, ht⟩ := P.target' h
    exact ⟨u, hu, ht.symm⟩
  target' h := by
    obtain ⟨u, hu, ht⟩ := P.target h
    exact ⟨u, hu, ht.symm⟩

section
variable {env : Env} {enabled : String → Bool} {M M' : DMeaning} {sc sc' : List Site} {sub : Value → Site}
    {T T' : String → String → Site → Prop} (P : Pairing env.dec M M' sc sc' sub T T')
    {kvs kvs' : List (String × Value)} (hk : Twins env.dec (.obj kvs) (.obj kvs')) {v v' : Value}
    (hv : Twins env.dec v v')

omit dia in
theorem Twins.mem {as bs : List (String × Value)} (h : Twins dec (.obj as) (.obj bs)) {k : String} {x : Value}
    (hm : (k, x) ∈ as) : ∃ y, (k, y) ∈ bs ∧ Twins dec x y := by
  obtain ⟨cs, e, -, h⟩ := h.obj
  cases e
  exact h k x hm

omit dia in
theorem dnamed_twin (hk : Twins env.dec (.obj kvs) (.obj kvs')) {n : String} (h : DNamed env kvs n) :
    DNamed env kvs' n := by
  rcases h with ⟨ps, t, hm, hn⟩ | ⟨ps, re, t, hm, hn, hr⟩
  · obtain ⟨y, hy, ht⟩ := hk.mem hm
    obtain ⟨qs, rfl, -, hq⟩ := ht.obj
    obtain ⟨u, hu, -⟩ := hq _ _ hn
    exact .inl ⟨qs, u, hy, hu⟩
  · obtain ⟨y, hy, ht⟩ := hk.mem hm
    obtain ⟨qs, rfl, -, hq⟩ := ht.obj
    obtain ⟨u, hu, -⟩ := hq _ _ hn
    exact .inr ⟨qs, re, u, hy, hu, hr⟩

omit dia in
theorem dbeyond_twin (hk : Twins dec (.obj kvs) (.obj kvs')) {n : Nat} (h : DBeyond kvs n) : DBeyond kvs' n := by
  intro ss hs
  obtain ⟨y, hy, ht⟩ := hk.symm.mem hs
  obtain ⟨ys, rfl, hl, -⟩ := ht.arr
  rw [hl]
  exact h ys hy

open Classical in
omit dia in
theorem countP_twin {p q : Value → Prop} {xs ys : List Value} (hl : xs.length = ys.length)
    (h : ∀ (i : Nat) x y, xs[i]? = some x → ys[i]? = some y → (p x ↔ q y)) :
    xs.countP (fun x => decide (p x)) = ys.countP (fun y => decide (q y)) := by
  induction xs generalizing ys with
  | nil =>
    cases ys with
    | nil => rfl
    | cons y ys => simp at hl
  | cons x xs ih =>
    cases ys with
    | nil => simp at hl
    | cons y ys =>
      have e := ih (by simpa using hl) fun i x y hx hy => h (i + 1) x y hx hy
      have h0 := h 0 x y rfl rfl
      simp only [List.countP_cons, e, h0]

include P hv in
omit dia in
theorem dmatching_twin {t t' : Site} (ht : TwinSite env.dec t t') : dmatching M sc t v = dmatching M' sc' t' v' := by
  unfold dmatching
  refine countP_twin hv.elems_length fun i x y hx hy => P.valid ht ?_
  obtain ⟨z, hz, h⟩ := hv.item hx
  rw [hy] at hz
  cases hz
  exact h

include P hk hv in
theorem omet_twin (hf : FormatsAlike env enabled) {k : String} {w w' : Value} (hw : Twins env.dec w w')
    (h : OMet env enabled M sc sub T kvs v k w) : OMet env enabled M' sc' sub T' kvs' v' k w' where
  assert a' ha' := by
    obtain ⟨a, ha, hi⟩ := written_twin hw ha' hv
    exact hi (h.assert a ha)
  allOf e ss' es t' ht' := by
    subst es
    obtain ⟨ss, rfl, -, -, hm⟩ := hw.symm.arr
    obtain ⟨t, ht, htt⟩ := hm t' ht'
    exact (P.valid (P.sub htt.symm) hv).1 (h.allOf e ss rfl t ht)
  anyOf e ss' es := by
    subst es
    obtain ⟨ss, rfl, -, -, -⟩ := hw.symm.arr
    obtain ⟨zs, ez, -, -, hm⟩ := hw.arr
    cases ez
    obtain ⟨t, ht, hvt⟩ := h.anyOf e ss rfl
    obtain ⟨t', ht', htt⟩ := hm t ht
    exact ⟨t', ht', (P.valid (P.sub htt) hv).1 hvt⟩
  oneOf e ss' es := by
    subst es
    obtain ⟨ss, rfl, -, hb, -⟩ := hw.symm.arr
    obtain ⟨zs, ez, -, hm, -⟩ := hw.arr
    cases ez
    obtain ⟨j, t, ht, hvt, hu⟩ := h.oneOf e ss rfl
    obtain ⟨t', ht', htt⟩ := hm j t ht
    refine ⟨j, t', ht', (P.valid (P.sub htt) hv).1 hvt, fun k u' hu' hvu => ?_⟩
    obtain ⟨u, hu1, huu⟩ := hb k u' hu'
    exact hu k u hu1 ((P.valid (P.sub huu.symm) hv).2 hvu)
  not_ e hn := h.not_ e ((P.valid (P.sub hw) hv).2 hn)
  then_ e c' hc' hvc := by
    obtain ⟨c, hc, ht⟩ := hk.symm.mem hc'
    exact (P.valid (P.sub hw) hv).1 (h.then_ e c hc ((P.valid (P.sub ht.symm) hv).2 hvc))
  else_ e c' hc' hvc := by
    obtain ⟨c, hc, ht⟩ := hk.symm.mem hc'
    exact (P.valid (P.sub hw) hv).1 (h.else_ e c hc fun hn => hvc ((P.valid (P.sub ht.symm) hv).1 hn))
  dependentSchemas e ps' es n t' hm hn := by
    subst es
    obtain ⟨ps, rfl, -, hb⟩ := hw.symm.obj
    obtain ⟨t, ht, htt⟩ := hb n t' hm
    exact (P.valid (P.sub htt.symm) hv).1 (h.dependentSchemas e ps rfl n t ht (hv.symm.hasMember hn))
  properties e ps' es n t' x' hm hx' := by
    subst es
    obtain ⟨ps, rfl, -, hb⟩ := hw.symm.obj
    obtain ⟨t, ht, htt⟩ := hb n t' hm
    obtain ⟨x, hx, hxx⟩ := hv.symm.member hx'
    exact (P.valid (P.sub htt.symm) hxx.symm).1 (h.properties e ps rfl n t x ht hx)
  patternProperties e ps' es re t' n x' hm hx' hr := by
    subst es
    obtain ⟨ps, rfl, -, hb⟩ := hw.symm.obj
    obtain ⟨t, ht, htt⟩ := hb re t' hm
    obtain ⟨x, hx, hxx⟩ := hv.symm.member hx'
    exact (P.valid (P.sub htt.symm) hxx.symm).1 (h.patternProperties e ps rfl re t n x ht hx hr)
  additionalProperties e n x' hx' hn := by
    obtain ⟨x, hx, hxx⟩ := hv.symm.member hx'
    exact (P.valid (P.sub hw) hxx.symm).1 (h.additionalProperties e n x hx fun h => hn (dnamed_twin hk h))
  propertyNames e n hn := (P.valid (P.sub hw) ⟨.str, .str, .str⟩).1 (h.propertyNames e n (hv.symm.hasMember hn))
  prefixItems e ed ss' es j t' x' ht' hx' := by
    subst es
    obtain ⟨ss, rfl, -, hb, -⟩ := hw.symm.arr
    obtain ⟨t, ht, htt⟩ := hb j t' ht'
    obtain ⟨x, hx, hxx⟩ := hv.symm.item hx'
    exact (P.valid (P.sub htt.symm) hxx.symm).1 (h.prefixItems e ed ss rfl j t x ht hx)
  items e ed j x' hx' hb := by
    obtain ⟨x, hx, hxx⟩ := hv.symm.item hx'
    exact (P.valid (P.sub hw) hxx.symm).1 (h.items e ed j x hx (dbeyond_twin hk.symm hb))
  itemsBool e ed b eb hne := by
    subst eb
    refine (P.valid (P.sub hw) hv).1 (h.itemsBool e ed b hw.symm.bool fun hn => hne ?_)
    exact List.eq_nil_of_length_eq_zero (by rw [← hv.elems_length, hn]; rfl)
  itemsAll e ed ms' em x' hx' := by
    subst em
    obtain ⟨ms, rfl, -⟩ := hw.symm.obj
    obtain ⟨x, hx, hxx⟩ := hv.symm.elem hx'
    exact (P.valid (P.sub hw) hxx.symm).1 (h.itemsAll e ed ms rfl x hx)
  itemsEach e ed ss' es j t' x' ht' hx' := by
    subst es
    obtain ⟨ss, rfl, -, hb, -⟩ := hw.symm.arr
    obtain ⟨t, ht, htt⟩ := hb j t' ht'
    obtain ⟨x, hx, hxx⟩ := hv.symm.item hx'
    exact (P.valid (P.sub htt.symm) hxx.symm).1 (h.itemsEach e ed ss rfl j t x ht hx)
  additionalItems e ed ss' hs' hne hall j x' hx' hj := by
    obtain ⟨y, hs, hss⟩ := hk.symm.mem hs'
    obtain ⟨ss, rfl, hl, -, -⟩ := hss.arr
    obtain ⟨zs, ez, -, hm, -⟩ := hss.symm.arr
    cases ez
    obtain ⟨x, hx, hxx⟩ := hv.symm.item hx'
    refine (P.valid (P.sub hw) hxx.symm).1 (h.additionalItems e ed ss hs (fun e => hne ?_)
      (fun i t x ht hx => ?_) j x hx (hl ▸ hj))
    · exact List.eq_nil_of_length_eq_zero (by rw [hl, e]; rfl)
    · obtain ⟨t', ht', htt⟩ := hm i t ht
      obtain ⟨x', hx', hxx⟩ := hv.item hx
      exact (P.valid (P.sub htt) hxx).2 (hall i t' x' ht' hx')
  contains e ha hn := by
    rw [← dmatching_twin P hv (P.sub hw)]
    refine h.contains e (hv.symm.isArr ha) fun m hm => ?_
    obtain ⟨y, hy, -⟩ := hk.mem hm
    exact hn y hy
  minContains e m' t' em ht' ha := by
    subst em
    obtain ⟨m, rfl, hm, -⟩ := hw.symm.num
    obtain ⟨t, ht, htt⟩ := hk.symm.mem ht'
    rw [hm, ← dmatching_twin P hv (P.sub htt.symm)]
    exact h.minContains e m t rfl ht (hv.symm.isArr ha)
  maxContains e m' t' em ht' ha := by
    subst em
    obtain ⟨m, rfl, hm, -⟩ := hw.symm.num
    obtain ⟨t, ht, htt⟩ := hk.symm.mem ht'
    rw [hm, ← dmatching_twin P hv (P.sub htt.symm)]
    exact h.maxContains e m t rfl ht (hv.symm.isArr ha)
  ref s u' es hu' := by
    subst es
    obtain ⟨u, hu, ht⟩ := P.target' hu'
    exact (P.valid ht hv).1 (h.ref s u hw.symm.str hu)
  format e a ea hen hty := by
    subst ea
    rw [← hf a v v' hen hv.twin.same]
    exact h.format e a hw.symm.str hen (hv.type ▸ hty)

include P hk hv in
theorem oev_twin (hf : FormatsAlike env enabled) {pt : Pt} (h : OEv env enabled M sc sub T kvs v pt) :
    OEv env enabled M' sc' sub T' kvs' v' pt := by
  have met : ∀ {k w w'}, Twins env.dec w w' → OMet env enabled M sc sub T kvs v k w →
      OMet env enabled M' sc' sub T' kvs' v' k w' := fun hw h => omet_twin P hk hv hf hw h
  have one : ∀ {k w}, (k, w) ∈ kvs → ∃ w', (k, w') ∈ kvs' ∧ Twins env.dec w w' := fun h => hk.mem h
  have many : ∀ {k ss}, (k, Value.arr ss) ∈ kvs → ∃ ss', (k, Value.arr ss') ∈ kvs' ∧
      Twins env.dec (.arr ss) (.arr ss') ∧ ss.length = ss'.length ∧ ∀ t ∈ ss, ∃ t' ∈ ss', Twins env.dec t t' := by
    intro k ss h
    obtain ⟨w, hw, ht⟩ := hk.mem h
    obtain ⟨ss', rfl, hl, -, hm⟩ := ht.arr
    exact ⟨ss', hw, ht, hl, hm⟩
  have named : ∀ {k ps}, (k, Value.obj ps) ∈ kvs → ∃ ps', (k, Value.obj ps') ∈ kvs' ∧
      Twins env.dec (.obj ps) (.obj ps') ∧ ∀ n t, (n, t) ∈ ps → ∃ t', (n, t') ∈ ps' ∧ Twins env.dec t t' := by
    intro k ps h
    obtain ⟨w, hw, ht⟩ := hk.mem h
    obtain ⟨ps', rfl, hl, hm⟩ := ht.obj
    exact ⟨ps', hw, ht, hm⟩
  cases h with
  | properties hm h hn =>
    obtain ⟨ps', hm', ht, hs⟩ := named hm
    obtain ⟨t', hn', -⟩ := hs _ _ hn
    exact .properties hm' (met ht h) hn'
  | patternProperties hm h hn hr =>
    obtain ⟨ps', hm', ht, hs⟩ := named hm
    obtain ⟨t', hn', -⟩ := hs _ _ hn
    exact .patternProperties hm' (met ht h) hn' hr
  | additionalProperties hm h hn =>
    obtain ⟨t', hm', ht⟩ := one hm
    exact .additionalProperties hm' (met ht h) fun h => hn (dnamed_twin hk.symm h)
  | prefixItems ed hm h hl =>
    obtain ⟨ss', hm', ht, hl', hs⟩ := many hm
    exact .prefixItems ed hm' (met ht h) (hl' ▸ hl)
  | items ed hm h hl hb =>
    obtain ⟨t', hm', ht⟩ := one hm
    exact .items ed hm' (met ht h) (hv.elems_length ▸ hl) (dbeyond_twin hk hb)
  | contains ed hm hx h =>
    obtain ⟨t', hm', ht⟩ := one hm
    obtain ⟨x', hx', hxx⟩ := hv.item hx
    exact .contains ed hm' hx' ((P.valid (P.sub ht) hxx).1 h)
  | itemsAll ed hm h =>
    obtain ⟨ms', hm', ht, -⟩ := named hm
    exact .itemsAll ed hm' (met ht h)
  | itemsEach ed hm h hl =>
    obtain ⟨ss', hm', ht, hl', hs⟩ := many hm
    exact .itemsEach ed hm' (met ht h) (hl' ▸ hl)
  | additionalItems ed hm hi hne h h' hl =>
    obtain ⟨t', hm', ht⟩ := one hm
    obtain ⟨ss', hi', ht', hl', hs⟩ := many hi
    refine .additionalItems ed hm' hi' (fun e => hne ?_) (met ht' h) (met ht h') ?_
    · exact List.eq_nil_of_length_eq_zero (by rw [hl', e]; rfl)
    · rw [← hl', ← hv.elems_length]; exact hl
  | allOf hm h ht he =>
    obtain ⟨ss', hm', htt, -, hs⟩ := many hm
    obtain ⟨t', ht', h'⟩ := hs _ ht
    exact .allOf hm' (met htt h) ht' ((P.ev _ (P.sub h') hv).1 he)
  | anyOf hm ht hva he =>
    obtain ⟨ss', hm', htt, -, hs⟩ := many hm
    obtain ⟨t', ht', h'⟩ := hs _ ht
    exact .anyOf hm' ht' ((P.valid (P.sub h') hv).1 hva) ((P.ev _ (P.sub h') hv).1 he)
  | oneOf hm h ht hva he =>
    obtain ⟨ss', hm', htt, -, hs⟩ := many hm
    obtain ⟨t', ht', h'⟩ := hs _ ht
    exact .oneOf hm' (met htt h) ht' ((P.valid (P.sub h') hv).1 hva) ((P.ev _ (P.sub h') hv).1 he)
  | not_ hm hn he =>
    obtain ⟨t', hm', ht⟩ := one hm
    exact .not_ hm' (fun h => hn ((P.valid (P.sub ht) hv).2 h)) ((P.ev _ (P.sub ht) hv).1 he)
  | if_ hm hn he =>
    obtain ⟨t', hm', ht⟩ := one hm
    exact .if_ hm' ((P.valid (P.sub ht) hv).1 hn) ((P.ev _ (P.sub ht) hv).1 he)
  | then_ hm hc hvc hvt he =>
    obtain ⟨t', hm', ht⟩ := one hm
    obtain ⟨c', hc', htc⟩ := one hc
    exact .then_ hm' hc' ((P.valid (P.sub htc) hv).1 hvc) ((P.valid (P.sub ht) hv).1 hvt) ((P.ev _ (P.sub ht) hv).1 he)
  | else_ hm hc hvc hvt he =>
    obtain ⟨t', hm', ht⟩ := one hm
    obtain ⟨c', hc', htc⟩ := one hc
    exact .else_ hm' hc' (fun h => hvc ((P.valid (P.sub htc) hv).2 h)) ((P.valid (P.sub ht) hv).1 hvt)
      ((P.ev _ (P.sub ht) hv).1 he)
  | dependentSchemas hm h hn hmem he =>
    obtain ⟨ps', hm', ht, hs⟩ := named hm
    obtain ⟨t', hn', h'⟩ := hs _ _ hn
    exact .dependentSchemas hm' (met ht h) hn' (hv.hasMember hmem) ((P.ev _ (P.sub h') hv).1 he)
  | ref hm ht hva he =>
    obtain ⟨w', hm', h'⟩ := one hm
    cases h'.str
    obtain ⟨u', hu', htu⟩ := P.target ht
    exact .ref hm' hu' ((P.valid htu hv).1 hva) ((P.ev _ htu hv).1 he)

include P hk hv in
theorem oholds_twin (hf : FormatsAlike env enabled) {k : String} {w w' : Value} (hw : Twins env.dec w w')
    (h : OHolds env enabled M sc sub T kvs v k w) : OHolds env enabled M' sc' sub T' kvs' v' k w' where
  toOMet := omet_twin P hk hv hf hw h.toOMet
  unevaluatedProperties e n x' hx' hn := by
    obtain ⟨x, hx, hxx⟩ := hv.symm.member hx'
    exact (P.valid (P.sub hw) hxx.symm).1 (h.unevaluatedProperties e n x hx fun h => hn (oev_twin P hk hv hf h))
  unevaluatedItems e j x' hx' hn := by
    obtain ⟨x, hx, hxx⟩ := hv.symm.item hx'
    exact (P.valid (P.sub hw) hxx.symm).1 (h.unevaluatedItems e j x hx fun h => hn (oev_twin P hk hv hf h))

end

/-! ## Unrolling -/

theorem ounroll_twin {env : Env} {enabled : String → Bool} (hf : FormatsAlike env enabled) {L L' : Links}
    (hL : TwinLinks env.dec L L') (hL' : TwinLinks env.dec L' L) (n : Nat) {sc sc' : List Site} (hs : TwinSites env.dec sc sc')
    {p p' : Site} (hp : TwinSite env.dec p p') {v v' : Value} (hv : Twins env.dec v v') :
    ((ounroll lib env enabled L n).valid sc p v ↔ (ounroll lib env enabled L' n).valid sc' p' v') ∧
    ∀ pt, ((ounroll lib env enabled L n).ev sc p v pt ↔ (ounroll lib env enabled L' n).ev sc' p' v' pt) := by
  induction n generalizing sc sc' p p' v v' with
  | zero => exact ⟨Iff.rfl, fun _ => Iff.rfl⟩
  | succ n ih =>
    have P : Pairing env.dec (ounroll lib env enabled L n) (ounroll lib env enabled L' n) (p :: sc) (p' :: sc')
        (site lib p.base) (OTarget lib L (p :: sc) p.base) (OTarget lib L' (p' :: sc') p'.base) :=
      { valid := fun h h' => (ih (.cons hp hs) h h').1
        ev := fun pt h h' => (ih (.cons hp hs) h h').2 pt
        sub := fun h => site_twin h _
        target := fun h => hp.base ▸ otarget_twin hL hL' (.cons hp hs) h
        target' := fun h => by
          obtain ⟨u, hu, ht⟩ := otarget_twin hL' hL (.cons hp hs : TwinSites env.dec (p :: sc) (p' :: sc')).symm h
          exact ⟨u, hp.base ▸ hu, ht.symm⟩ }
    obtain ⟨b, s⟩ := p
    obtain ⟨b', s'⟩ := p'
    obtain ⟨eb, ht, hw, hw'⟩ := hp
    simp only at eb ht hw hw' P
    subst eb
    simp only [ounroll, ostep]
    have tw : Twins env.dec s s' := ⟨ht, hw, hw'⟩
    cases s with
    | bool x => cases tw.bool; exact ⟨Iff.rfl, fun _ => Iff.rfl⟩
    | obj kvs =>
      obtain ⟨kvs', rfl, -, -⟩ := tw.obj
      have step : ∀ {k w}, OMember lib env enabled L (ounroll lib env enabled L n) sc ⟨b, .obj kvs⟩ kvs v k w →
          ∀ {w'}, Twins env.dec w w' →
          OMember lib env enabled L' (ounroll lib env enabled L' n) sc' ⟨b, .obj kvs'⟩ kvs' v' k w' :=
        fun h _ hw => oholds_twin P tw hv hf hw h
      have back : ∀ {k w'}, OMember lib env enabled L' (ounroll lib env enabled L' n) sc' ⟨b, .obj kvs'⟩ kvs' v' k w' →
          ∀ {w}, Twins env.dec w w' →
          OMember lib env enabled L (ounroll lib env enabled L n) sc ⟨b, .obj kvs⟩ kvs v k w :=
        fun h _ hw => oholds_twin P.symm tw.symm hv.symm hf hw.symm h
      refine ⟨⟨fun h k w' hm' => ?_, fun h k w hm => ?_⟩, fun pt => or_congr ⟨oev_twin P tw hv hf,
        oev_twin P.symm tw.symm hv.symm hf⟩ ?_⟩
      · obtain ⟨w, hm, hw⟩ := tw.symm.mem hm'
        exact step (h k w hm) hw.symm
      · obtain ⟨w', hm', hw⟩ := tw.mem hm
        exact back (h k w' hm') hw
      · cases pt with
        | name =>
          constructor
          · rintro ⟨t, hm, h⟩
            obtain ⟨t', hm', ht⟩ := tw.mem hm
            exact ⟨t', hm', step h ht⟩
          · rintro ⟨t', hm', h⟩
            obtain ⟨t, hm, ht⟩ := tw.symm.mem hm'
            exact ⟨t, hm, back h ht.symm⟩
        | item =>
          constructor
          · rintro ⟨t, hm, h⟩
            obtain ⟨t', hm', ht⟩ := tw.mem hm
            exact ⟨t', hm', step h ht⟩
          · rintro ⟨t', hm', h⟩
            obtain ⟨t, hm, ht⟩ := tw.symm.mem hm'
            exact ⟨t, hm, back h ht.symm⟩
    | null => cases ht; exact ⟨Iff.rfl, fun _ => Iff.rfl⟩
    | num => cases ht; exact ⟨Iff.rfl, fun _ => Iff.rfl⟩
    | str => cases ht; exact ⟨Iff.rfl, fun _ => Iff.rfl⟩
    | arr => cases ht; exact ⟨Iff.rfl, fun _ => Iff.rfl⟩

/-- Documents that are equal as JSON have the same meaning for values that are equal as JSON. -/
theorem accepts_twin {env : Env} {enabled : String → Bool} (hf : FormatsAlike env enabled) {roots roots' : List Site}
    (h : TwinSites env.dec roots roots') {p p' : Site} (hp : TwinSite env.dec p p') {v v' : Value}
    (hv : Twins env.dec v v') (ha : OAccepts lib env enabled (links lib roots) p v) :
    OAccepts lib env enabled (links lib roots') p' v' := by
  obtain ⟨n, hn⟩ := ha
  exact ⟨n, fun m hm => (ounroll_twin hf (links_twin h) (links_twin h.symm) m .nil hp hv).1.1 (hn m hm)⟩

theorem rejects_twin {env : Env} {enabled : String → Bool} (hf : FormatsAlike env enabled) {roots roots' : List Site}
    (h : TwinSites env.dec roots roots') {p p' : Site} (hp : TwinSite env.dec p p') {v v' : Value}
    (hv : Twins env.dec v v') (ha : ORejects lib env enabled (links lib roots) p v) :
    ORejects lib env enabled (links lib roots') p' v' := by
  obtain ⟨n, hn⟩ := ha
  exact ⟨n, fun m hm h' => hn m hm ((ounroll_twin hf (links_twin h) (links_twin h.symm) m .nil hp hv).1.2 h')⟩

end Jschon
