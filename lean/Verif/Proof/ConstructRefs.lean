import Verif.Proof.ConstructSchema

/-!
# Resolution of references
-/

namespace Jschon
open Spec

/-- Old nodes are unchanged, but references may be resolved. -/
structure Grown (w w' : World) : Prop where
  le : w.heap.next ≤ w'.heap.next
  node : ∀ x, x < w.heap.next → w'.heap.node x = w.heap.node x
  none : ∀ x, x < w.heap.next → w.info x = none → w'.info x = none
  info : ∀ x i, x < w.heap.next → w.info x = some i → ∃ f : String → KwObj → KwObj,
    w'.info x = some { i with keywords := i.keywords.map (fun kv => (kv.1, f kv.1 kv.2)) } ∧
    ∀ k o, (f k o).shape = o.shape ∧ (f k o).json = o.json ∧
      (o.refschema.isSome = true → (f k o).refschema.isSome = true)

theorem Grow.grown {w w' : World} (a : Grow w w') : Grown w w' where
  le := a.le
  node x hx := a.node x hx id
  none x hx h := by rw [a.info x hx id, h]
  info x i hx h := ⟨fun _ o => o, by rw [a.info x hx id, h]; simp, fun _ _ => ⟨rfl, rfl, id⟩⟩

theorem Grown.refl (w : World) : Grown w w := Grow.grown (.refl _ _)

theorem Grown.trans {w w' w'' : World} (a : Grown w w') (b : Grown w' w'') : Grown w w'' where
  le := Nat.le_trans a.le b.le
  node x hx := (b.node x (Nat.lt_of_lt_of_le hx a.le)).trans (a.node x hx)
  none x hx h := b.none x (Nat.lt_of_lt_of_le hx a.le) (a.none x hx h)
  info x i hx h := by
    obtain ⟨f, f1, f2⟩ := a.info x i hx h
    obtain ⟨g, g1, g2⟩ := b.info x _ (Nat.lt_of_lt_of_le hx a.le) f1
    refine ⟨fun k o => g k (f k o), by rw [g1]; simp [List.map_map, Function.comp_def], fun k o => ?_⟩
    obtain ⟨a1, a2, a3⟩ := f2 k o
    obtain ⟨b1, b2, b3⟩ := g2 k (f k o)
    exact ⟨b1.trans a1, b2.trans a2, fun h => b3 (a3 h)⟩

theorem Grown.ext {w w' : World} (a : Grown w w') : Ext w.heap w'.heap := ⟨a.le, a.node⟩

theorem Grown.isSchema {w w' : World} (a : Grown w w') {x : Nat} (hx : x < w.heap.next) :
    w'.isSchema x = w.isSchema x := by
  cases h : w.info x with
  | none => simp [World.isSchema, h, a.none x hx h]
  | some i =>
    obtain ⟨f, h1, -⟩ := a.info x i hx h
    simp [World.isSchema, h, h1]

theorem Grown.uri {w w' : World} (a : Grown w w') {x : Nat} (hx : x < w.heap.next) :
    w'.uri x = w.uri x := by
  cases h : w.info x with
  | none => simp [World.uri, h, a.none x hx h]
  | some i =>
    obtain ⟨f, h1, -⟩ := a.info x i hx h
    simp [World.uri, h, h1]

theorem Grown.cacheid {w w' : World} (a : Grown w w') {x : Nat} (hx : x < w.heap.next) :
    w'.cacheid x = w.cacheid x := by
  cases h : w.info x with
  | none => simp [World.cacheid, h, a.none x hx h]
  | some i =>
    obtain ⟨f, h1, -⟩ := a.info x i hx h
    simp [World.cacheid, h, h1]

theorem Grown.keywords {w w' : World} (a : Grown w w') {x : Nat} (hx : x < w.heap.next) :
    ∃ f : String → KwObj → KwObj,
    w'.keywords x = (w.keywords x).map (fun kv => (kv.1, f kv.1 kv.2)) ∧
    ∀ k o, (f k o).shape = o.shape ∧ (f k o).json = o.json ∧
      (o.refschema.isSome = true → (f k o).refschema.isSome = true) := by
  cases h : w.info x with
  | none => exact ⟨fun _ o => o, by simp [World.keywords, h, a.none x hx h], fun _ _ => ⟨rfl, rfl, id⟩⟩
  | some i =>
    obtain ⟨f, h1, h2⟩ := a.info x i hx h
    exact ⟨f, by simp [World.keywords, h, h1], h2⟩

/-! ## Getting schemas -/

/-- What may be relied on of a constructor of schema documents. -/
def NewDocOk (newDoc : NewDoc) : Prop :=
  ∀ cid uri metaUri doc w w' r, doc.WF → SPre w cid uri none →
    newDoc cid uri metaUri doc w = some (w', r) →
    WOk w' ∧ Grown w w' ∧ ∀ t, r = .ok t → w'.isSchema t = true

theorem getSchemaEnd_spec {u : Uri} {s : Nat} {w w' : World} {r : Except Exc Nat}
    (h : getSchemaEnd u s w = some (w', r)) :
    w' = w ∧ ∀ t, r = .ok t → w.isSchema t = true := by
  unfold getSchemaEnd at h
  have end_ : ∀ t, (do if ← M.read (fun w => w.isSchema t) then pure t else M.raise .catalogError : M Nat) w
      = some (w', r) → w' = w ∧ ∀ t, r = .ok t → w.isSchema t = true := by
    intro t h
    have h := M.read_bind h
    split at h
    · rename_i hs
      obtain ⟨rfl, rfl⟩ := M.pure_run h
      exact ⟨rfl, fun t ht => by cases ht; exact hs⟩
    · obtain ⟨rfl, rfl⟩ := M.raise_run h
      exact ⟨rfl, fun t ht => by cases ht⟩
  have ff : ∀ w1 r1, followFragment u s w = some (w1, r1) → w1 = w := by
    intro w1 r1 h
    unfold followFragment at h
    cases hf : u.fragment with
    | none => rw [hf] at h; exact (M.pure_run h).1
    | some f =>
      rw [hf] at h
      simp only at h
      split at h
      · exact (M.pure_run h).1
      · replace h := M.read_bind h
        cases he : w.evalFragment f s with
        | ok t => rw [he] at h; exact (M.pure_run h).1
        | error e => rw [he] at h; exact (M.raise_run h).1
  rcases M.bind_run h with ⟨w1, t, h1, h2⟩ | ⟨e, h1, rfl⟩
  · obtain rfl := ff _ _ h1
    exact end_ t h2
  · obtain rfl := ff _ _ h1
    exact ⟨rfl, fun t ht => by cases ht⟩

theorem getSchemaWith_spec {E : CEnv} (hE : CEnvOk E) {newDoc : NewDoc} (hN : NewDocOk newDoc) {u : Uri}
    {metaUri : Option Uri} {cid : String} {w w' : World} {r : Except Exc Nat} (ok : WOk w)
    (h : getSchemaWith E newDoc u metaUri cid w = some (w', r)) :
    WOk w' ∧ Grown w w' ∧ ∀ t, r = .ok t → w'.isSchema t = true := by
  unfold getSchemaWith at h
  replace h := M.read_bind h
  cases hc : cacheGet w.caches cid u with
  | some s =>
    rw [hc] at h
    obtain ⟨rfl, rfl⟩ := M.pure_run h
    exact ⟨ok, .refl _, fun t ht => by cases ht; exact ok.cached _ _ _ hc⟩
  | none =>
    rw [hc] at h
    replace h := M.read_bind h
    cases hb : baseCached w cid u with
    | some s =>
      rw [hb] at h
      obtain ⟨rfl, h2⟩ := getSchemaEnd_spec h
      exact ⟨ok, .refl _, h2⟩
    | none =>
      rw [hb] at h
      have hn : cacheGet w.caches cid u.noFragment = none := by
        unfold baseCached at hb
        split at hb
        · exact hb
        · rename_i hf
          have : u.noFragment = u := by
            cases u with
            | mk b f => simp at hf; subst hf; rfl
          rw [this, hc]
      have pre : SPre w cid (some u.noFragment) none := by
        refine ⟨ok, (fun p h => by cases h), (fun p h => by cases h), fun u' hu' hf q hq hcq => ?_⟩
        cases hu'
        obtain ⟨t, _, h2, _⟩ := ok.uris q _ hq hf
        rw [hcq, hn] at h2
        cases h2
      simp only [loadSchema] at h
      rcases M.bind_run h with ⟨w1, doc, h1, h2⟩ | ⟨e, h1, rfl⟩
      · obtain ⟨rfl, hl⟩ := M.ofExcept_run h1
        rcases M.bind_run h2 with ⟨w2, s, h3, h4⟩ | ⟨e, h3, rfl⟩
        · obtain ⟨a1, a2, a3⟩ := hN _ _ _ _ _ _ _ (hE.docs _ _ hl.symm) pre h3
          replace h4 := M.read_bind h4
          cases hc2 : cacheGet w2.caches cid u with
          | some t =>
            rw [hc2] at h4
            obtain ⟨rfl, rfl⟩ := M.pure_run h4
            exact ⟨a1, a2, fun t ht => by cases ht; exact a1.cached _ _ _ hc2⟩
          | none =>
            rw [hc2] at h4
            obtain ⟨rfl, h5⟩ := getSchemaEnd_spec h4
            exact ⟨a1, a2, h5⟩
        · obtain ⟨a1, a2, -⟩ := hN _ _ _ _ _ _ _ (hE.docs _ _ hl.symm) pre h3
          exact ⟨a1, a2, fun t ht => by cases ht⟩
      · obtain ⟨rfl, _⟩ := M.ofExcept_run h1
        exact ⟨ok, .refl _, fun t ht => by cases ht⟩

/-! ## Keywords -/

theorem refUri_world {E : CEnv} {s : Nat} {kw : KwObj} {w w' : World} {r : Except Exc (Uri × Option String)}
    (h : refUri E s kw w = some (w', r)) : w' = w := by
  have other : (do
      match ← M.read (fun w => w.heap.data kw.json) with
      | .str text =>
        resolveUri E s (E.lib.ofText text) (E.lib.isAbsolute (E.lib.ofText text).noFragment) >>= fun r =>
          pure (r, (E.lib.ofText text).fragment)
      | _ => M.unmodelled : M (Uri × Option String)) w = some (w', r) → w' = w := by
    intro h
    replace h := M.read_bind h
    cases hd : w.heap.data kw.json with
    | str text =>
      rw [hd] at h
      rcases M.bind_run h with ⟨w1, x, h1, h2⟩ | ⟨e, h1, rfl⟩
      · obtain rfl := resolveUri_world h1
        exact (M.pure_run h2).1
      · exact resolveUri_world h1
    | _ => rw [hd] at h; cases h
  unfold refUri at h
  cases hk : kw.shape with
  | recursiveRef =>
    rw [hk] at h
    replace h := M.read_bind h
    cases hb : w.baseUri s with
    | none => rw [hb] at h; exact (M.raise_run h).1
    | some b => rw [hb] at h; exact (M.pure_run h).1
  | _ => rw [hk] at h; exact other h

theorem refDynamic_world {shape : KwShape} {t : Nat} {frag : Option String} {w w' : World}
    {r : Except Exc Bool} (h : refDynamic shape t frag w = some (w', r)) : w' = w := by
  unfold refDynamic at h
  split at h
  · exact (M.ofExcept_run (M.read_bind h)).1
  · exact (M.pure_run h).1

/-- The effect of `setRef` on a keyword object. -/
def refObj (key : String) (t : Nat) (d : Bool) (k : String) (o : KwObj) : KwObj :=
  if k = key then { o with refschema := some t, dynamic := d } else o

theorem setRef_spec {s : Nat} {key : String} {t : Nat} {d : Bool} {w w' : World} {r : Except Exc Unit}
    (ok : WOk w) (ht : w.isSchema t = true) (h : setRef s key t d w = some (w', r)) :
    WOk w' ∧ Grown w w' ∧ r = .ok () ∧
      w'.keywords s = (w.keywords s).map (fun kv => (kv.1, refObj key t d kv.1 kv.2)) := by
  unfold setRef at h
  obtain ⟨hw, rfl⟩ := M.change_run h
  have hm : ∀ l : List (String × KwObj), l.map (fun kv => if kv.1 = key then
      (kv.1, { kv.2 with refschema := some t, dynamic := d }) else kv) =
      l.map (fun kv => (kv.1, refObj key t d kv.1 kv.2)) := by
    intro l
    refine List.map_congr_left fun kv _ => ?_
    simp only [refObj]
    split <;> rfl
  simp only [hm] at hw
  have hr : ∀ k o, (refObj key t d k o).shape = o.shape ∧ (refObj key t d k o).json = o.json ∧
      (o.refschema.isSome = true → (refObj key t d k o).refschema.isSome = true) := by
    intro k o
    unfold refObj
    split
    · exact ⟨rfl, rfl, fun _ => rfl⟩
    · exact ⟨rfl, rfl, id⟩
  refine ⟨?_, ?_, rfl, ?_⟩
  · rw [hw]
    refine setInfo_ok ok (fun _ => rfl) (fun _ => rfl) (fun i _ => ?_) (fun i kv' _ hkv => ?_)
    · simp only [kwMembers, List.map_map]
      refine List.map_congr_left fun kv _ => ?_
      simp [(hr kv.1 kv.2).2.1]
    · obtain ⟨kv, h1, rfl⟩ := List.mem_map.1 hkv
      refine ⟨kv, h1, (hr _ _).1.symm, (hr _ _).2.1.symm, ?_⟩
      unfold refObj
      split
      · right; intro t' ht'; cases ht'; exact ht
      · left; rfl
  · rw [hw]
    refine ⟨Nat.le_refl _, fun _ _ => rfl, fun x _ h => ?_, fun x i _ h => ?_⟩
    · rw [setInfo_info, h]; split <;> rfl
    · rw [setInfo_info, h]
      split
      · exact ⟨refObj key t d, rfl, hr⟩
      · exact ⟨fun _ o => o, by simp, fun _ _ => ⟨rfl, rfl, id⟩⟩
  · rw [hw]
    simp only [World.keywords, setInfo_info, if_pos]
    cases w.info s <;> simp

theorem resolveKw_spec {E : CEnv} (hE : CEnvOk E) {newDoc : NewDoc} (hN : NewDocOk newDoc) {s : Nat}
    {key : String} {kw : KwObj} {w w' : World} {r : Except Exc Unit} (ok : WOk w)
    (hs : w.isSchema s = true)
    (h : resolveKw E newDoc s key kw w = some (w', r)) :
    WOk w' ∧ Grown w w' ∧ (r = .ok () → ∀ kv ∈ w'.keywords s, kv.1 = key → kv.2.refschema.isSome = true) := by
  unfold resolveKw at h
  replace h := M.read_bind h
  replace h := M.read_bind h
  rcases M.bind_run h with ⟨w1, u, h1, h2⟩ | ⟨e, h1, rfl⟩
  rotate_left
  · obtain rfl := refUri_world h1
    exact ⟨ok, .refl _, fun h => by cases h⟩
  obtain rfl := refUri_world h1
  rcases M.bind_run h2 with ⟨w2, t, h3, h4⟩ | ⟨e, h3, rfl⟩
  rotate_left
  · obtain ⟨a1, a2, -⟩ := getSchemaWith_spec hE hN ok h3
    exact ⟨a1, a2, fun h => by cases h⟩
  obtain ⟨a1, a2, a3⟩ := getSchemaWith_spec hE hN ok h3
  rcases M.bind_run h4 with ⟨w3, d, h5, h6⟩ | ⟨e, h5, rfl⟩
  rotate_left
  · obtain rfl := refDynamic_world h5
    exact ⟨a1, a2, fun h => by cases h⟩
  obtain rfl := refDynamic_world h5
  obtain ⟨b1, b2, b3, b4⟩ := setRef_spec a1 (a3 t rfl) h6
  refine ⟨b1, a2.trans b2, fun _ kv hkv hk => ?_⟩
  rw [b4] at hkv
  obtain ⟨kv0, h7, rfl⟩ := List.mem_map.1 hkv
  simp only at hk
  simp only [refObj, if_pos hk]
  rfl

/-! ## Schemas -/

/-- Every reference of schema `s` is resolved. -/
def Resolved (w : World) (s : Nat) : Prop :=
  ∀ kv ∈ w.keywords s, kv.2.shape.isRef = true → kv.2.refschema.isSome = true

theorem Resolved.mono {w w' : World} (a : Grown w w') {s : Nat} (hs : s < w.heap.next)
    (h : Resolved w s) : Resolved w' s := by
  intro kv' hkv hr
  obtain ⟨f, f1, f2⟩ := a.keywords hs
  rw [f1] at hkv
  obtain ⟨kv, h1, rfl⟩ := List.mem_map.1 hkv
  obtain ⟨a1, a2, a3⟩ := f2 kv.1 kv.2
  exact a3 (h kv h1 (by rw [← a1]; exact hr))

/-- Every reference of every schema at `s` or below is resolved. -/
def AllResolved (w : World) (s : Nat) : Prop :=
  ∀ t, Desc w.heap s t → w.isSchema t = true → Resolved w t

theorem AllResolved.mono {w w' : World} (ok : WOk w) (a : Grown w w') {s : Nat} (hs : s < w.heap.next)
    (h : AllResolved w s) : AllResolved w' s := by
  intro t ht hst
  have h1 := (desc_ext a.ext ok.ord hs).1 ht
  have h2 := desc_has ok.ord h1 hs
  refine (h t h1 ?_).mono a h2
  rw [← a.isSchema h2]; exact hst

/-- What is shown of `resolveReferences`. -/
def ResolveOk (resolve : Nat → M Unit) : Prop :=
  ∀ s w w' r, WOk w → w.isSchema s = true → resolve s w = some (w', r) →
    WOk w' ∧ Grown w w' ∧ (r = .ok () → AllResolved w' s)

theorem newDocWith_ok {E : CEnv} (hE : CEnvOk E) {resolve : Nat → M Unit} (hR : ResolveOk resolve) :
    NewDocOk (newDocWith E resolve) := by
  intro cid uri metaUri doc w w' r hd pre h
  unfold newDocWith at h
  rcases M.bind_run h with ⟨w1, s, h1, h2⟩ | ⟨e, h1, rfl⟩
  rotate_left
  · have p := (works hE doc hd).1 _ _ _ _ _ _ _ _ pre h1
    exact ⟨p.ok, p.grow.grown, fun t ht => by cases ht⟩
  have p := (works hE doc hd).1 _ _ _ _ _ _ _ _ pre h1
  obtain ⟨rfl, -⟩ := p.ret s rfl
  rcases M.bind_run h2 with ⟨w2, x, h3, h4⟩ | ⟨e, h3, rfl⟩
  rotate_left
  · obtain ⟨a1, a2, -⟩ := hR _ _ _ _ p.ok p.isSchema h3
    exact ⟨a1, p.grow.grown.trans a2, fun t ht => by cases ht⟩
  obtain ⟨a1, a2, -⟩ := hR _ _ _ _ p.ok p.isSchema h3
  obtain ⟨rfl, rfl⟩ := M.pure_run h4
  refine ⟨a1, p.grow.grown.trans a2, fun t ht => ?_⟩
  cases ht
  rw [a2.isSchema p.lt]; exact p.isSchema

theorem resolveItem_spec {resolve : Nat → M Unit} (hR : ResolveOk resolve) {c : Nat} {w w' : World}
    {r : Except Exc Unit} (ok : WOk w) (hc : c < w.heap.next) (h : resolveItem resolve c w = some (w', r)) :
    WOk w' ∧ Grown w w' ∧ (r = .ok () → w.isSchema c = true → AllResolved w' c) := by
  unfold resolveItem at h
  replace h := M.read_bind h
  split at h
  · rename_i hs
    obtain ⟨a1, a2, a3⟩ := hR _ _ _ _ ok hs h
    exact ⟨a1, a2, fun hr _ => a3 hr⟩
  · rename_i hs
    obtain ⟨rfl, _⟩ := M.pure_run h
    exact ⟨ok, .refl _, fun _ h => absurd h hs⟩

/-- What one iteration achieves. -/
def OneResolved (w : World) (s : Nat) (kv : String × KwObj) : Prop :=
  if kv.2.shape.isRef then ∀ kv' ∈ w.keywords s, kv'.1 = kv.1 → kv'.2.refschema.isSome = true
  else AllResolved w kv.2.json

theorem OneResolved.mono {w w' : World} (ok : WOk w) (a : Grown w w') {s : Nat} {kv : String × KwObj}
    (hs : s < w.heap.next) (hj : kv.2.json < w.heap.next) (h : OneResolved w s kv) : OneResolved w' s kv := by
  unfold OneResolved at h ⊢
  split
  · rename_i hr
    rw [if_pos hr] at h
    intro kv' hkv hk
    obtain ⟨f, f1, f2⟩ := a.keywords hs
    rw [f1] at hkv
    obtain ⟨kv0, h1, rfl⟩ := List.mem_map.1 hkv
    exact (f2 _ _).2.2 (h kv0 h1 hk)
  · rename_i hr
    rw [if_neg hr] at h
    exact h.mono ok a hj

/-- Below what a keyword class other than a reference makes, all schemas are at the instance or are
below its items or members. -/
theorem resolved_kids {w : World} {shape : KwShape} {j : Nat} (h : KwOk w shape j)
    (hn : w.isSchema j = false) (hk : ∀ c ∈ (w.heap.data j).kids, w.isSchema c = true → AllResolved w c) :
    AllResolved w j := by
  have cont : (∀ c ∈ (w.heap.data j).kids, w.isSchema c = true) → AllResolved w j := by
    intro hs t ht hst
    cases ht with
    | refl => rw [hn] at hst; cases hst
    | step hc hd => exact hk _ hc (hs _ hc) t hd hst
  have no : NoSchema w j → AllResolved w j := fun hno t ht hst => by
    rw [hno t ht] at hst; cases hst
  have arr : ∀ {cs}, w.heap.data j = .arr cs → (∀ c ∈ cs, w.isSchema c = true) → AllResolved w j :=
    fun h2 h3 => cont (by rw [h2]; exact h3)
  cases shape with
  | subschema => simp only [KwOk, hn] at h; cases h
  | arrayOfSubschemas =>
    rcases h with ⟨_, cs, h2, h3⟩ | ⟨h1, _⟩
    · exact arr h2 h3
    · exact no h1
  | subschemaOrArray =>
    rcases h with h1 | ⟨_, cs, h2, h3⟩ | ⟨h1, _⟩
    · rw [hn] at h1; cases h1
    · exact arr h2 h3
    · exact no h1
  | objectOfSubschemas =>
    obtain ⟨_, ms, h2, h3⟩ := h
    refine cont ?_
    rw [h2]
    intro c hc
    obtain ⟨kc, h4, rfl⟩ := List.mem_map.1 hc
    exact h3 kc h4
  | _ => exact no h

theorem resolveOne_spec {E : CEnv} (hE : CEnvOk E) {newDoc : NewDoc} (hN : NewDocOk newDoc)
    {resolve : Nat → M Unit} (hR : ResolveOk resolve) {s : Nat} {kv : String × KwObj}
    {w w' : World} {r : Except Exc Unit} (ok : WOk w) (hs : w.isSchema s = true)
    (hj : kv.2.json < w.heap.next) (hk : KwOk w kv.2.shape kv.2.json)
    (h : resolveOne E newDoc resolve s kv w = some (w', r)) :
    WOk w' ∧ Grown w w' ∧ (r = .ok () → OneResolved w' s kv) := by
  unfold resolveOne at h
  unfold OneResolved
  split at h
  · rename_i hr
    rw [if_pos hr]
    exact resolveKw_spec hE hN ok hs h
  · rename_i hr
    rw [if_neg hr]
    replace h := M.read_bind h
    split at h
    · rename_i hsj
      exact hR _ _ _ _ ok hsj h
    · rename_i hsj
      simp only [Bool.not_eq_true] at hsj
      replace h := M.read_bind h
      have hkid : ∀ c ∈ (w.heap.data kv.2.json).kids, c < w.heap.next :=
        fun c hc => (ok.ord.kid _ _ hc).2.1
      generalize hl : (w.heap.data kv.2.json).kids = l at h
      have key : ∀ (l : List Nat) {w0 w1 : World} {r : Except Exc Unit}, WOk w0 → Grown w w0 →
          (∀ c ∈ l, c < w.heap.next) → M.each (resolveItem resolve) l w0 = some (w1, r) →
          WOk w1 ∧ Grown w0 w1 ∧ (r = .ok () → ∀ c ∈ l, w.isSchema c = true → AllResolved w1 c) := by
        intro l
        induction l with
        | nil =>
          intro w0 w1 r ok0 _ _ h
          obtain ⟨rfl, _⟩ := M.pure_run (a := ()) h
          exact ⟨ok0, .refl _, fun _ _ h => nomatch h⟩
        | cons a as ih =>
          intro w0 w1 r ok0 g0 hl h
          have ha := hl a (by simp)
          have ha0 := Nat.lt_of_lt_of_le ha g0.le
          rcases M.bind_run (m := resolveItem resolve a) (f := fun _ => M.each (resolveItem resolve) as) h with
            ⟨w2, x, h1, h2⟩ | ⟨e, h1, rfl⟩
          · obtain ⟨a1, a2, a3⟩ := resolveItem_spec hR ok0 ha0 h1
            obtain ⟨b1, b2, b3⟩ := ih a1 (g0.trans a2) (fun c hc => hl c (by simp [hc])) h2
            refine ⟨b1, a2.trans b2, fun hr c hc hsc => ?_⟩
            rcases List.mem_cons.1 hc with rfl | hc
            · exact (a3 rfl ((g0.isSchema ha).trans hsc)).mono a1 b2 (Nat.lt_of_lt_of_le ha0 a2.le)
            · exact b3 hr c hc hsc
          · obtain ⟨a1, a2, -⟩ := resolveItem_spec hR ok0 ha0 h1
            exact ⟨a1, a2, fun h => by cases h⟩
      obtain ⟨b1, b2, b3⟩ := key l ok (.refl _) (by rw [← hl]; exact hkid) h
      refine ⟨b1, b2, fun hr => ?_⟩
      have hk' : KwOk w' kv.2.shape kv.2.json :=
        hk.mono (P := (· < w.heap.next)) (steady_old ok.ord (fun x hx => b2.isSchema hx)
          (fun x hx _ => b2.ext.data hx)) hj
      refine resolved_kids hk' ((b2.isSchema hj).trans hsj) fun c hc hsc => ?_
      rw [b2.ext.data hj] at hc
      exact b3 hr c (by rw [← hl]; exact hc) ((b2.isSchema (hkid c hc)).symm.trans hsc)

theorem resolveReferences_ok {E : CEnv} (hE : CEnvOk E) : ∀ n, ResolveOk (resolveReferences E n) := by
  intro n
  induction n with
  | zero => intro s w w' r _ _ h; cases h
  | succ n ih =>
    intro s w w' r ok hs h
    simp only [resolveReferences] at h
    replace h := M.read_bind h
    have hN := newDocWith_ok hE ih
    have hsl := ok.dom s hs
    obtain ⟨i, hi⟩ := Option.isSome_iff_exists.1 hs
    have hkw : w.keywords s = i.keywords := by simp [World.keywords, hi]
    generalize hl : w.keywords s = l at h
    have hjl : ∀ kv ∈ l, kv.2.json < w.heap.next ∧ KwOk w kv.2.shape kv.2.json := by
      intro kv hkv
      rw [← hl, hkw] at hkv
      exact ⟨(ok.ord.kid _ _ (ok.kid hi hkv)).2.1, (ok.shapes s i kv hi hkv).1⟩
    have key : ∀ (l : List (String × KwObj)) {w0 w1 : World} {r : Except Exc Unit}, WOk w0 → Grown w w0 →
        (∀ kv ∈ l, kv.2.json < w.heap.next ∧ KwOk w kv.2.shape kv.2.json) →
        M.each (resolveOne E (newDocWith E (resolveReferences E n)) (resolveReferences E n) s) l w0 =
          some (w1, r) →
        WOk w1 ∧ Grown w0 w1 ∧ (r = .ok () → ∀ kv ∈ l, OneResolved w1 s kv) := by
      intro l
      induction l with
      | nil =>
        intro w0 w1 r ok0 _ _ h
        obtain ⟨rfl, _⟩ := M.pure_run (a := ()) h
        exact ⟨ok0, .refl _, fun _ _ h => nomatch h⟩
      | cons a as iha =>
        intro w0 w1 r ok0 g0 hl h
        obtain ⟨ha, hka⟩ := hl a (by simp)
        have ha0 := Nat.lt_of_lt_of_le ha g0.le
        have hs0 : w0.isSchema s = true := (g0.isSchema hsl).trans hs
        have hk0 : KwOk w0 a.2.shape a.2.json :=
          hka.mono (P := (· < w.heap.next)) (steady_old ok.ord (fun x hx => g0.isSchema hx)
            (fun x hx _ => g0.ext.data hx)) ha
        rcases M.bind_run (m := resolveOne E _ _ s a) (f := fun _ => M.each _ as) h with
          ⟨w2, x, h1, h2⟩ | ⟨e, h1, rfl⟩
        · obtain ⟨a1, a2, a3⟩ := resolveOne_spec hE hN ih ok0 hs0 ha0 hk0 h1
          obtain ⟨b1, b2, b3⟩ := iha a1 (g0.trans a2) (fun c hc => hl c (by simp [hc])) h2
          refine ⟨b1, a2.trans b2, fun hr c hc => ?_⟩
          rcases List.mem_cons.1 hc with rfl | hc
          · exact (a3 rfl).mono a1 b2 (a1.dom _ ((a2.isSchema (ok0.dom _ hs0)).trans hs0))
              (Nat.lt_of_lt_of_le ha0 a2.le)
          · exact b3 hr c hc
        · obtain ⟨a1, a2, -⟩ := resolveOne_spec hE hN ih ok0 hs0 ha0 hk0 h1
          exact ⟨a1, a2, fun h => by cases h⟩
    obtain ⟨b1, b2, b3⟩ := key l ok (.refl _) hjl h
    refine ⟨b1, b2, fun hr => ?_⟩
    have b4 := b3 hr
    obtain ⟨f, f1, f2⟩ := b2.keywords hsl
    have self : Resolved w' s := by
      intro kv' hkv hr'
      have hkv0 := hkv
      rw [f1, hl] at hkv
      obtain ⟨kv, h1, rfl⟩ := List.mem_map.1 hkv
      have := b4 kv h1
      unfold OneResolved at this
      rw [if_pos (by rw [← (f2 kv.1 kv.2).1]; exact hr')] at this
      exact this _ hkv0 rfl
    intro t ht hst
    cases ht with
    | refl => exact self
    | step hc hd =>
      rename_i c
      rw [b2.ext.data hsl] at hc
      have hmem : ∃ kv ∈ l, kv.2.json = c := by
        cases hdat : w.heap.data s with
        | obj ms =>
          rw [hdat] at hc
          obtain ⟨m, hm, rfl⟩ := List.mem_map.1 hc
          have := ok.kws s i hi
          rw [hdat] at this
          simp only [JData.members] at this
          rw [← this] at hm
          obtain ⟨kv, h1, rfl⟩ := List.mem_map.1 hm
          exact ⟨kv, by rw [← hl, hkw]; exact h1, rfl⟩
        | arr cs =>
          rw [hdat] at hc
          have := ok.kws s i hi
          rw [hdat] at this
          have hm : ("", c) ∈ kwMembers i.keywords := by
            rw [this]; exact List.mem_map_of_mem hc
          obtain ⟨kv, h1, h2⟩ := List.mem_map.1 hm
          rw [Prod.mk.injEq] at h2
          exact ⟨kv, by rw [← hl, hkw]; exact h1, h2.2⟩
        | _ => rw [hdat] at hc; simp [JData.kids] at hc
      obtain ⟨kv, h1, rfl⟩ := hmem
      have := b4 kv h1
      unfold OneResolved at this
      split at this
      · rename_i hr'
        have hno : NoSchema w kv.2.json := by
          have := (hjl kv h1).2
          cases hsh : kv.2.shape <;> rw [hsh] at hr' this <;> first | exact this | (cases hr'; done)
        have hno' := hno.mono (P := (· < w.heap.next)) (steady_old ok.ord (fun x hx => b2.isSchema hx)
            (fun x hx _ => b2.ext.data hx)) (hjl kv h1).1
        rw [hno' t hd] at hst; cases hst
      · exact this t hd hst

end Jschon
