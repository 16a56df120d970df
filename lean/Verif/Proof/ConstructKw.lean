import Verif.Proof.Construct
import Verif.Proof.JsonOps

/-!
# What the constructors of keywords and of schemas do
-/

namespace Jschon
open Spec

/-- What part of the construction of schema `s` does to the world: only new nodes and `s` change. -/
structure Init (s : Nat) (w w' : World) : Prop where
  ok : WOk w'
  keep : Keep (· = s) w w'
  node : SameNode s w w'

theorem Init.refl {s : Nat} {w : World} (ok : WOk w) : Init s w w := ⟨ok, .refl _ _, .refl _ _⟩
theorem Init.trans {s : Nat} {w w' w'' : World} (a : Init s w w') (b : Init s w' w'') : Init s w w'' :=
  ⟨b.ok, a.keep.trans b.keep, a.node.trans b.node⟩
theorem Grow.init {s : Nat} {w w' : World} (g : Grow w w') (ok : WOk w') (hs : s < w.heap.next) :
    Init s w w' := ⟨ok, g.keep, g.sameNode hs⟩

/-- What is below `s` is unchanged. -/
theorem Init.val {s : Nat} {w w' : World} (a : Init s w w') (ok : WOk w) {c : Nat} (h1 : s < c)
    (h2 : c < w.heap.next) : Jschon.val w'.heap c = Jschon.val w.heap c := by
  refine val_congr ok.ord a.ok.ord (fun x => s < x ∧ x < w.heap.next) (fun x hx => ?_)
    (fun x hx c hc => ?_) c ⟨h1, h2⟩
  · simp only [JHeap.data, a.keep.node x hx.2 (by omega)]
  · have := ok.ord.kid x c hc
    exact ⟨by omega, this.2.1⟩

/-- The URIs and caches of old nodes are unchanged, too. -/
structure SameUris (w w' : World) : Prop where
  uri : ∀ x, w'.uri x = w.uri x
  cacheid : ∀ x, w'.cacheid x = w.cacheid x

theorem SameUris.refl (w : World) : SameUris w w := ⟨fun _ => rfl, fun _ => rfl⟩
theorem SameUris.trans {w w' w'' : World} (a : SameUris w w') (b : SameUris w' w'') : SameUris w w'' :=
  ⟨fun x => (b.uri x).trans (a.uri x), fun x => (b.cacheid x).trans (a.cacheid x)⟩
theorem SameUris.of_info {w w' : World} (h : w'.info = w.info) : SameUris w w' :=
  ⟨fun x => by simp [World.uri, h], fun x => by simp [World.cacheid, h]⟩
theorem SameUris.unique {w w' : World} (a : SameUris w w') {s : Nat} (h : UniqueUri w s) :
    UniqueUri w' s := by
  intro q u hq h1 hf h2
  rw [a.uri] at h1 h2
  rw [a.cacheid, a.cacheid]
  exact h q u hq h1 hf h2

/-- The classes that set the URI of the schema. -/
def KwShape.isId : KwShape → Bool
  | .id | .idNext => true
  | _ => false

theorem resolveUri_world {E : CEnv} {s : Nat} {u : Uri} {a : Bool} {w w' : World} {r : Except Exc Uri}
    (h : resolveUri E s u a w = some (w', r)) : w' = w := by
  unfold resolveUri at h
  split at h
  · exact (M.pure_run h).1
  · have := M.read_bind h
    cases hb : w.baseUri s with
    | none => rw [hb] at this; exact (M.raise_run this).1
    | some b =>
      rw [hb] at this
      cases hr : E.lib.resolve u b with
      | none => simp only [hr] at this; exact (M.raise_run this).1
      | some v => simp only [hr] at this; exact (M.pure_run this).1

/-- What `initKw` does. -/
structure InitKw (s : Nat) (w w' : World) : Prop extends Init s w w' where
  heap : w'.heap = w.heap
  keywords : w'.keywords s = w.keywords s

theorem InitKw.same {s : Nat} {w : World} (ok : WOk w) : InitKw s w w := ⟨.refl ok, rfl, rfl⟩

theorem InitKw.steady {s : Nat} {w w' : World} (a : InitKw s w w') (ok : WOk w)
    (hs : w.isSchema s = true) : Steady (· < w.heap.next) w w' := by
  refine steady_old ok.ord (fun x hx => ?_) fun x _ _ => by rw [a.heap]
  by_cases h : x = s
  · subst h; exact a.node.isSchema
  · simp only [World.isSchema, a.keep.info x hx h]

theorem initId_spec {E : CEnv} {s : Nat} {u : Uri} {a : Bool} {w w' : World}
    {r : Except Exc Unit} (ok : WOk w) (hs : w.isSchema s = true) (hu : UniqueUri w s)
    (h : (do let r ← resolveUri E s u a; setUri E.lib s r : M Unit) w = some (w', r)) :
    InitKw s w w' := by
  rcases M.bind_run h with ⟨w1, v, h1, h2⟩ | ⟨e, h1, _⟩
  · have := resolveUri_world h1; subst this
    obtain ⟨rfl, _⟩ := M.change_run h2
    obtain ⟨a1, a2, a3, a4, a5, a6⟩ := putUri_spec (lib := E.lib) (u := v) ok hs hu
    exact ⟨⟨a1, a3, a4⟩, a2, a5⟩
  · have := resolveUri_world h1; subst this
    exact .same ok

theorem addAnchor_spec {E : CEnv} (hE : LibOk E.lib) {s : Nat} {t : String} {w w' : World}
    {r : Except Exc Unit} (ok : WOk w) (hs : w.isSchema s = true)
    (h : addAnchor E s t w = some (w', r)) : InitKw s w w' ∧ SameUris w w' := by
  have h := M.read_bind h
  cases hb : w.baseUri s with
  | none =>
    rw [hb] at h
    obtain ⟨rfl, _⟩ := M.raise_run h
    exact ⟨.same ok, .refl _⟩
  | some b =>
    rw [hb] at h
    obtain ⟨rfl, _⟩ := M.change_run h
    exact ⟨⟨⟨addFragment_ok ok hs (hE.hash _ _), ⟨Nat.le_refl _, fun _ _ _ => rfl, fun _ _ _ => rfl⟩,
      ⟨rfl, rfl, rfl, rfl, id⟩⟩, rfl, rfl⟩, ⟨fun _ => rfl, fun _ => rfl⟩⟩

theorem initKw_spec {E : CEnv} (hE : LibOk E.lib) {s : Nat} {shape : KwShape} {v : Value} {w w' : World}
    {r : Except Exc Unit} (ok : WOk w) (hs : w.isSchema s = true)
    (hu : shape.isId = true → UniqueUri w s) (h : initKw E s shape v w = some (w', r)) :
    InitKw s w w' ∧ (shape.isId = false → SameUris w w') := by
  unfold initKw at h
  split at h
  all_goals try dsimp only at h
  all_goals try (split at h)
  all_goals first
    | (obtain ⟨rfl, _⟩ := M.pure_run h; exact ⟨.same ok, fun _ => .refl _⟩)
    | (obtain ⟨rfl, _⟩ := M.raise_run h; exact ⟨.same ok, fun _ => .refl _⟩)
    | exact ⟨initId_spec ok hs (hu rfl) h, fun h => by cases h⟩
    | exact ⟨(addAnchor_spec hE ok hs h).1, fun _ => (addAnchor_spec hE ok hs h).2⟩
    | (exact nomatch (show (none : Option (World × Except Exc Unit)) = some (w', r) from h))
    | skip
  · generalize Uri.validate E.lib (E.lib.ofText _) true true true true = x at h
    obtain e | _ := x
    · obtain ⟨rfl, _⟩ := M.raise_run h
      exact ⟨.same ok, fun _ => .refl _⟩
    obtain ⟨rfl, _⟩ := M.change_run h
    refine ⟨⟨⟨setInfo_ok ok (fun _ => rfl) (fun _ => rfl) (fun _ _ => rfl) (fun _ kv _ h => ⟨kv, h, rfl, rfl, .inl rfl⟩), setInfo_keep,
      setInfo_sameNode (fun _ => rfl) (fun _ => rfl)⟩, rfl, ?_⟩, fun _ => ⟨setInfo_uri_same _ _ _ (fun _ => rfl),
      setInfo_cacheid _ _ _ (fun _ => rfl)⟩⟩
    simp only [World.keywords, setInfo_info, if_pos]
    cases w.info s <;> rfl
  all_goals
    generalize Uri.validate E.lib (E.lib.ofText _) _ _ _ _ = x at h
    obtain e | _ := x
    · obtain ⟨rfl, _⟩ := M.raise_run h
      exact ⟨.same ok, fun _ => .refl _⟩
    · exact ⟨initId_spec ok hs (hu rfl) h, fun h => by cases h⟩

/-! ## Adding a keyword to a schema -/

theorem mem_dkeys_dset {β : Type} {k k' : String} {v : β} {d : List (String × β)} :
    k' ∈ dkeys (dset k v d) ↔ k' = k ∨ k' ∈ dkeys d := by
  rcases dset_cases (k := k) (v := v) (d := d) with ⟨h1, h2⟩ | ⟨l, w, r, h1, h2, h3⟩
  · rw [h2]; simp [dkeys, or_comm]
  · rw [h3, h2]; simp only [dkeys, List.map_append, List.map_cons, List.mem_append, List.mem_cons]
    constructor
    · rintro (h | h | h)
      · exact .inr (.inl h)
      · exact .inl h
      · exact .inr (.inr (.inr h))
    · rintro (h | h | h | h)
      · exact .inr (.inl h)
      · exact .inl h
      · exact .inr (.inl h)
      · exact .inr (.inr h)

/-- The classes that `_bootstrap` uses; their values are plain JSON. -/
def KwShape.boot : KwShape → Bool
  | .schema | .vocabulary | .id | .idNext => true
  | _ => false

/-- The constructor `b` makes an instance of `v` with key `k`, for a schema of cache `cid`. -/
def Builds (cid k : String) (v : Value) (b : KwBuild) : Prop :=
  ∀ shape s w w' r, WOk w → w.isSchema s = true → w.cacheid s = cid → b shape s w = some (w', r) →
    WOk w' ∧ Grow w w' ∧ (shape.boot = true → w'.info = w.info) ∧
    ∀ j, r = .ok j → w.heap.next ≤ j ∧ j < w'.heap.next ∧ w'.heap.parent j = some s ∧
      w'.heap.key j = some k ∧ Rearranged (val w'.heap j) v ∧ KwOk w' shape j

theorem mem_snd {ms : List (String × Nat)} {c : Nat} (h : c ∈ ms.map Prod.snd) : ∃ k, (k, c) ∈ ms := by
  obtain ⟨⟨k, c'⟩, h1, rfl⟩ := List.mem_map.1 h
  exact ⟨k, h1⟩

/-- A keyword is entered in `keywords` and in `data`. -/
theorem enter_ok {w : World} {s j : Nat} {shape : KwShape} {key : String} {ms : List (String × Nat)}
    (ok : WOk w) (hs : w.isSchema s = true) (hd : w.heap.data s = .obj ms)
    (hj : j < w.heap.next) (hnew : j ∉ ms.map Prod.snd) (hsj : s < j)
    (hp : w.heap.parent j = some s) (hk : w.heap.key j = some key) (hsh : KwOk w shape j) :
    WOk { w.setInfo s (fun i => { i with keywords := dset key { shape, json := j } i.keywords }) with
      heap := w.heap.setData s (.obj (dset key j ms)) } := by
  have hlt := ok.dom s hs
  have hmem : ∀ k c, (k, c) ∈ dset key j ms → s < c ∧ c < w.heap.next ∧ w.heap.parent c = some s ∧
      w.heap.key c = some k := by
    intro k c hc
    rcases mem_dset hc with ⟨rfl, rfl⟩ | hc
    · exact ⟨hsj, hj, hp, hk⟩
    · have hch : Child w.heap s k c := by simp only [Child, ChildD, hd]; exact hc
      have := ok.ord.kid s c (childD_kid hch)
      exact ⟨this.1, this.2.1, this.2.2, ok.keys.key s k c hch⟩
  have hkw' : kwMembers ((w.info s).map SInfo.keywords |>.getD []) = ms := by
    obtain ⟨i, hi⟩ := Option.isSome_iff_exists.1 hs
    have := ok.kws s i hi
    rw [hd] at this
    simpa [hi, JData.members] using this
  have hh := setData_heap ok.ord ok.keys (s := s) (d := .obj (dset key j ms)) hlt hmem
    (by
      have := ok.ord.nodup s
      rw [hd] at this
      exact kids_dset_nodup this hnew)
    (by
      intro ms' h
      cases h
      exact dkeys_dset_nodup (ok.keys.nodup s ms hd))
  constructor
  · exact hh.1
  · exact hh.2
  · intro t ht
    exact ok.dom t (by rw [← setInfo_isSchema w s]; exact ht)
  · intro t i hi
    have hhas : w.heap.has s := (ok.ord.dom s).2 hlt
    simp only [setData_data _ _ _ _ hhas]
    simp only [setInfo_info] at hi
    split at hi
    · rename_i he; subst he
      obtain ⟨i0, hi0⟩ := Option.isSome_iff_exists.1 hs
      rw [hi0] at hi hkw'
      simp only [Option.map_some, Option.some.injEq] at hi
      subst hi
      simp only [if_pos, JData.members]
      simp only [Option.map_some, Option.getD_some] at hkw'
      rw [← hkw']
      simp only [kwMembers]
      rw [map_dset (fun o : KwObj => o.json)]
    · rename_i he
      rw [if_neg he]
      exact ok.kws t i hi
  · exact ok.caches
  · intro id u t ht
    exact (setInfo_isSchema w s _ t).trans (ok.cached id u t ht)
  · intro t u ht hf
    have hu : ∀ x, World.uri { w.setInfo s (fun i => { i with keywords := dset key { shape, json := j } i.keywords }) with
      heap := w.heap.setData s (.obj (dset key j ms)) } x = w.uri x :=
      setInfo_uri_same w s _ (fun _ => rfl)
    have hc : ∀ x, World.cacheid { w.setInfo s (fun i => { i with keywords := dset key { shape, json := j } i.keywords }) with
      heap := w.heap.setData s (.obj (dset key j ms)) } x = w.cacheid x :=
      setInfo_cacheid w s _ (fun _ => rfl)
    rw [hu] at ht
    obtain ⟨q, h1, h2, h3⟩ := ok.uris t u ht hf
    exact ⟨q, by rw [hu, h1], by rw [hc]; exact h2, by rw [hc, hc, h3]⟩
  · intro t p ht hp
    have hsch : ∀ x, World.isSchema { w.setInfo s (fun i => { i with keywords := dset key { shape, json := j } i.keywords }) with
      heap := w.heap.setData s (.obj (dset key j ms)) } x = w.isSchema x := setInfo_isSchema w s _
    simp only [setData_parent] at hp
    rw [hsch] at ht
    have := ok.ord.par t p hp
    have := ok.dom t ht
    have hc := setInfo_cacheid w s (fun i => { i with keywords := dset key { shape, json := j } i.keywords }) (fun _ => rfl)
    refine (congrArg (fun c => Near _ c p) (hc t)).mpr ?_
    exact (ok.near t p ht hp).mono ok.ord (by omega) (fun x _ => hsch x) (fun x _ => hc x)
      (fun _ _ => setData_parent ..)
  · intro t i kv hi hkv
    have hhas : w.heap.has s := (ok.ord.dom s).2 hlt
    have st : Steady (· < w.heap.next) w { w.setInfo s (fun i => { i with keywords := dset key { shape, json := j } i.keywords }) with
        heap := w.heap.setData s (.obj (dset key j ms)) } := by
      refine steady_old ok.ord (fun x _ => setInfo_isSchema w s _ x) fun x _ hn => ?_
      simp only [setData_data _ _ _ _ hhas]
      rw [if_neg]
      rintro rfl
      rw [hs] at hn; cases hn
    have hold : ∀ i0, w.info t = some i0 → kv ∈ i0.keywords →
        KwObjOk { w.setInfo s (fun i => { i with keywords := dset key { shape, json := j } i.keywords }) with
        heap := w.heap.setData s (.obj (dset key j ms)) } kv.2 := fun i0 h0 h1 => by
      obtain ⟨a, b⟩ := ok.shapes t i0 kv h0 h1
      exact ⟨a.mono st (ok.ord.kid _ _ (ok.kid h0 h1)).2.1,
        fun t ht => (setInfo_isSchema w s _ t).trans (b t ht)⟩
    replace hi := (setInfo_info w s (fun i => { i with keywords := dset key { shape, json := j } i.keywords }) t).symm.trans hi
    split at hi
    · rename_i he; subst he
      cases h0 : w.info t with
      | none => simp [h0] at hi
      | some i0 =>
        rw [h0] at hi
        simp only [Option.map_some, Option.some.injEq] at hi
        subst hi
        rcases mem_dset (k' := kv.1) (w := kv.2) hkv with ⟨_, h2⟩ | h2
        · rw [h2]; exact ⟨hsh.mono st hj, fun t ht => by cases ht⟩
        · exact hold i0 h0 h2
    · exact hold i hi hkv
  · intro t cs ht
    have hhas : w.heap.has s := (ok.ord.dom s).2 hlt
    have ht : w.isSchema t = true := (setInfo_isSchema w s _ t).symm.trans ht
    simp only [setData_data _ _ _ _ hhas]
    split
    · intro h; cases h
    · exact ok.whole t cs ht

/-- The members of `s` so far are copies of members of `kvs`. -/
structure Filled (kvs : List (String × Value)) (s : Nat) (w : World) (ms : List (String × Nat)) : Prop where
  data : w.heap.data s = .obj ms
  copy : ∀ k j, (k, j) ∈ ms → ∃ v, dlookup k kvs = some v ∧ Rearranged (val w.heap j) v

theorem Filled.step {kvs : List (String × Value)} {s : Nat} {w w' : World} {ms : List (String × Nat)}
    (f : Filled kvs s w ms) (ok : WOk w) (i : Init s w w') (hd : w'.heap.data s = w.heap.data s) :
    Filled kvs s w' ms where
  data := hd.trans f.data
  copy k j hj := by
    obtain ⟨v, h1, h2⟩ := f.copy k j hj
    have : Child w.heap s k j := by simp only [Child, ChildD, f.data]; exact hj
    have := ok.ord.kid s j (childD_kid this)
    exact ⟨v, h1, by rw [i.val ok this.1 this.2.1]; exact h2⟩

theorem addKeyword_spec {E : CEnv} (hE : LibOk E.lib) {kvs : List (String × Value)} {s : Nat}
    {shape : KwShape} {key : String} {v : Value} {b : KwBuild} {w w' : World} {r : Except Exc Unit}
    {ms : List (String × Nat)} (ok : WOk w) (hs : w.isSchema s = true) (f : Filled kvs s w ms)
    (hk : dlookup key kvs = some v) (hb : Builds (w.cacheid s) key v b)
    (hu : shape.isId = true → UniqueUri w s)
    (h : addKeyword E s shape key v b w = some (w', r)) :
    Init s w w' ∧ (shape.boot = true → shape.isId = false → SameUris w w') ∧ ∃ ms', Filled kvs s w' ms' ∧
      (∀ k, k ∈ dkeys ms → k ∈ dkeys ms') ∧ (r = .ok () → key ∈ dkeys ms') := by
  have hlt := ok.dom s hs
  unfold addKeyword at h
  rcases M.bind_run h with ⟨w1, j, h1, h2⟩ | ⟨e, h1, rfl⟩
  · obtain ⟨ok1, g1, i1, c1⟩ := hb shape s w w1 _ ok hs rfl h1
    obtain ⟨j1, j2, j3, j4, j5, j6⟩ := c1 j rfl
    have n1 := g1.init ok1 hlt
    have hs1 : w1.isSchema s = true := by rw [g1.isSchema hlt]; exact hs
    have d1 : w1.heap.data s = w.heap.data s := g1.ext.data hlt
    have f1 := f.step ok n1 d1
    have hu1 : shape.isId = true → UniqueUri w1 s := fun hi =>
      (SameUris.of_info (i1 (by cases shape <;> simp_all [KwShape.boot, KwShape.isId]))).unique (hu hi)
    rcases M.bind_run h2 with ⟨w2, x, h3, h4⟩ | ⟨e, h3, rfl⟩
    · obtain ⟨n2, u2⟩ := initKw_spec hE ok1 hs1 hu1 h3
      obtain ⟨hw, rfl⟩ := M.change_run h4
      have d2 : w2.heap.data s = .obj ms := by rw [n2.heap, d1, f.data]
      simp only [World.setInfo, d2] at hw
      have f2 := f1.step ok1 n2.toInit (by rw [n2.heap])
      have hs2 : w2.isSchema s = true := by rw [n2.node.isSchema]; exact hs1
      have hnew : j ∉ ms.map Prod.snd := by
        intro hj
        obtain ⟨k, hj⟩ := mem_snd hj
        have : Child w.heap s k j := by simp only [Child, ChildD, f.data]; exact hj
        have := ok.ord.kid s j (childD_kid this)
        omega
      have hj2 : j < w2.heap.next := by rw [n2.heap]; exact j2
      have ok3 := enter_ok (shape := shape) (key := key) n2.ok hs2 d2 hj2 hnew (by omega)
        (by rw [n2.heap]; exact j3) (by rw [n2.heap]; exact j4)
        (j6.mono (n2.steady ok1 hs1) j2)
      have e3 : w' = { w2.setInfo s (fun i => { i with keywords := dset key { shape, json := j } i.keywords }) with
          heap := w2.heap.setData s (.obj (dset key j ms)) } := hw
      have hhas : w2.heap.has s := (n2.ok.ord.dom s).2 (n2.ok.dom s hs2)
      have n3 : Init s w2 w' := by
        refine ⟨by rw [e3]; exact ok3, ⟨by rw [e3]; exact Nat.le_refl _, fun x _ hx => ?_, fun x _ hx => ?_⟩,
          ⟨by rw [e3]; exact setData_parent .., by rw [e3]; exact setData_key .., by rw [e3]; exact setInfo_isSchema .., by rw [e3]; exact setInfo_cacheid w2 s (fun i => { i with keywords := dset key { shape, json := j } i.keywords }) (fun _ => rfl) s,
            fun h => by rw [e3]; exact (congrArg Option.isSome (setInfo_uri_same w2 s (fun i => { i with keywords := dset key { shape, json := j } i.keywords }) (fun _ => rfl) s)).trans h⟩⟩
        · rw [e3]; simp only [JHeap.setData, JHeap.alter]; rw [if_neg hx]
        · rw [e3]; exact (setInfo_info ..).trans (if_neg hx)
      have u3 : SameUris w2 w' := by
        rw [e3]
        exact ⟨setInfo_uri_same w2 s (fun i => { i with keywords := dset key { shape, json := j } i.keywords }) (fun _ => rfl), setInfo_cacheid w2 s (fun i => { i with keywords := dset key { shape, json := j } i.keywords }) (fun _ => rfl)⟩
      refine ⟨n1.trans (n2.toInit.trans n3), fun hbt hni => ?_, dset key j ms, ⟨?_, ?_⟩, ?_, ?_⟩
      · exact (SameUris.of_info (i1 hbt)).trans ((u2 hni).trans u3)
      · rw [e3]; simp only [setData_data _ _ _ _ hhas, if_pos]
      · intro k c hc
        rcases mem_dset hc with ⟨rfl, rfl⟩ | hc
        · refine ⟨v, hk, ?_⟩
          rw [n3.val n2.ok (by omega) hj2, n2.heap]
          exact j5
        · obtain ⟨v', h5, h6⟩ := f2.copy k c hc
          have : Child w2.heap s k c := by simp only [Child, ChildD, d2]; exact hc
          have := n2.ok.ord.kid s c (childD_kid this)
          exact ⟨v', h5, by rw [n3.val n2.ok this.1 this.2.1]; exact h6⟩
      · intro k hk'; rw [mem_dkeys_dset]; exact .inr hk'
      · intro _; rw [mem_dkeys_dset]; exact .inl rfl
    · obtain ⟨n2, u2⟩ := initKw_spec hE ok1 hs1 hu1 h3
      refine ⟨n1.trans n2.toInit, fun hbt hni => ?_, ms, f1.step ok1 n2.toInit (by rw [n2.heap]), fun _ h => h, fun h => by cases h⟩
      exact (SameUris.of_info (i1 hbt)).trans (u2 hni)
  · obtain ⟨ok1, g1, i1, _⟩ := hb shape s w w' _ ok hs rfl h1
    have n1 := g1.init ok1 hlt
    exact ⟨n1, fun hbt _ => .of_info (i1 hbt), ms, f.step ok n1 (g1.ext.data hlt), fun _ h => h, fun h => by cases h⟩

/-! ## The keywords of an object -/

/-- Every member has a constructor, and it works. -/
def BuildsAll (cid : String) (kvs : List (String × Value)) (builds : List (String × KwBuild)) : Prop :=
  ∀ k v, dlookup k kvs = some v → ∃ b, dlookup k builds = some b ∧ Builds cid k v b

theorem bootOne_spec {E : CEnv} (hE : LibOk E.lib) {kvs : List (String × Value)}
    {builds : List (String × KwBuild)} {s : Nat} {cid : String} (hb : BuildsAll cid kvs builds)
    {shape : KwShape} {key : String} {w w' : World} {r : Except Exc Unit}
    {ms : List (String × Nat)} (ok : WOk w) (hs : w.isSchema s = true) (hc : w.cacheid s = cid)
    (f : Filled kvs s w ms) (hu : shape.isId = true → UniqueUri w s)
    (h : bootOne E s kvs builds key shape w = some (w', r)) :
    Init s w w' ∧ (shape.boot = true → shape.isId = false → SameUris w w') ∧
      ∃ ms', Filled kvs s w' ms' ∧
      (∀ k, k ∈ dkeys ms → k ∈ dkeys ms') ∧ (r = .ok () → key ∈ dkeys kvs → key ∈ dkeys ms') := by
  unfold bootOne at h
  cases hk : dlookup key kvs with
  | none =>
    simp only [hk] at h
    obtain ⟨rfl, _⟩ := M.pure_run h
    exact ⟨.refl ok, fun _ _ => .refl _, ms, f, fun _ h => h,
      fun _ h => absurd h (dlookup_eq_none.1 hk)⟩
  | some v =>
    obtain ⟨b, hb1, hb2⟩ := hb key v hk
    simp only [hk, hb1] at h
    obtain ⟨a1, a2, ms', a3, a4, a5⟩ := addKeyword_spec hE ok hs f hk (hc ▸ hb2) hu h
    exact ⟨a1, a2, ms', a3, a4, fun h _ => a5 h⟩

theorem getMeta_spec {E : CEnv} {s : Nat} {w w' : World} {r : Except Exc Meta}
    (h : getMeta E s w = some (w', r)) : w' = w ∧ ∀ m, r = .ok m → ∃ u, E.metaschema u = .ok m := by
  have h := M.read_bind h
  cases hm : w.metaUri s with
  | none =>
    rw [hm] at h
    obtain ⟨rfl, rfl⟩ := M.raise_run h
    exact ⟨rfl, fun m h => by cases h⟩
  | some u =>
    rw [hm] at h
    obtain ⟨rfl, rfl⟩ := M.ofExcept_run h
    exact ⟨rfl, fun m h => ⟨u, h⟩⟩

theorem bootstrap_spec {E : CEnv} (hE : LibOk E.lib) {kvs : List (String × Value)}
    {builds : List (String × KwBuild)} {s : Nat} {cid : String} (hb : BuildsAll cid kvs builds) {w w' : World}
    {r : Except Exc Unit} {ms : List (String × Nat)} (ok : WOk w) (hs : w.isSchema s = true)
    (hc : w.cacheid s = cid) (f : Filled kvs s w ms) (hu : UniqueUri w s)
    (h : bootstrap E s kvs builds w = some (w', r)) :
    Init s w w' ∧ ∃ ms', Filled kvs s w' ms' ∧ (r = .ok () → "$id" ∈ dkeys kvs → "$id" ∈ dkeys ms') := by
  unfold bootstrap at h
  rcases M.bind_run h with ⟨w1, x1, h1, h⟩ | ⟨e, h1, rfl⟩
  · obtain ⟨a1, a2, ms1, a3, -, -⟩ := bootOne_spec hE hb ok hs hc f (fun h => by cases h) h1
    have hu1 := (a2 rfl rfl).unique hu
    have hs1 : w1.isSchema s = true := a1.node.isSchema.trans hs
    rcases M.bind_run h with ⟨w2, x2, h2, h⟩ | ⟨e, h2, rfl⟩
    · obtain ⟨b1, b2, ms2, b3, -, -⟩ := bootOne_spec hE hb a1.ok hs1 (a1.node.cacheid.trans hc) a3 (fun h => by cases h) h2
      have hu2 := (b2 rfl rfl).unique hu1
      have hs2 : w2.isSchema s = true := b1.node.isSchema.trans hs1
      split at h
      · rcases M.bind_run h with ⟨w3, m, h3, h4⟩ | ⟨e, h3, rfl⟩
        · obtain ⟨rfl, -⟩ := getMeta_spec h3
          obtain ⟨c1, -, ms3, c3, -, c5⟩ := bootOne_spec hE hb b1.ok hs2 (b1.node.cacheid.trans (a1.node.cacheid.trans hc)) b3 (fun _ => hu2) h4
          exact ⟨a1.trans (b1.trans c1), ms3, c3, c5⟩
        · obtain ⟨rfl, -⟩ := getMeta_spec h3
          exact ⟨a1.trans b1, ms2, b3, fun h => by cases h⟩
      · rename_i hid
        obtain ⟨rfl, _⟩ := M.pure_run h
        refine ⟨a1.trans b1, ms2, b3, fun _ h => ?_⟩
        cases hk : dlookup "$id" kvs with
        | none => exact absurd h (dlookup_eq_none.1 hk)
        | some v => rw [hk] at hid; exact absurd rfl hid
    · obtain ⟨b1, b2, ms2, b3, -, -⟩ := bootOne_spec hE hb a1.ok hs1 (a1.node.cacheid.trans hc) a3 (fun h => by cases h) h2
      exact ⟨a1.trans b1, ms2, b3, fun h => by cases h⟩
  · obtain ⟨a1, a2, ms1, a3, -, -⟩ := bootOne_spec hE hb ok hs hc f (fun h => by cases h) h1
    exact ⟨a1, ms1, a3, fun h => by cases h⟩

theorem getKwclass_spec {m : Meta} {key : String} {c : KwCls} (h : getKwclass m key = .ok c) :
    c.key = key ∧ (c ∈ m.classes ∨ c.shape = .unknown) := by
  unfold getKwclass at h
  split at h
  · rename_i c' hf
    cases h
    exact ⟨by simpa using List.find?_some hf, .inl (List.mem_of_find?_eq_some hf)⟩
  · split at h
    · cases h
    · split at h
      · cases h
      · cases h; exact ⟨rfl, .inr rfl⟩

theorem kwClasses_spec {E : CEnv} (hE : CEnvOk E) {s : Nat} {w : World} : ∀ {ks : List String}
    {w' : World} {r : Except Exc (List KwCls)}, kwClasses E s ks w = some (w', r) →
    w' = w ∧ ∀ cs, r = .ok cs →
      (∀ c ∈ cs, c.key ∉ dkeys (w.keywords s) ∧ (c.shape.isId = true → c.key = "$id")) ∧
      (cs.map KwCls.key).Sublist ks ∧
      ∀ k ∈ ks, k ∈ dkeys (w.keywords s) ∨ k ∈ cs.map KwCls.key := by
  intro ks
  induction ks with
  | nil =>
    intro w' r h
    obtain ⟨rfl, rfl⟩ := M.pure_run h
    refine ⟨rfl, fun cs h => ?_⟩
    cases h
    simp
  | cons k ks ih =>
    intro w' r h
    simp only [kwClasses] at h
    have h := M.read_bind h
    split at h
    · rename_i hk
      obtain ⟨rfl, h2⟩ := ih h
      refine ⟨rfl, fun cs hcs => ?_⟩
      obtain ⟨h3, h4, h5⟩ := h2 cs hcs
      refine ⟨h3, h4.cons _, fun k' hk' => ?_⟩
      rcases List.mem_cons.1 hk' with rfl | hk'
      · left
        exact dlookup_isSome.1 hk
      · exact h5 k' hk'
    · rename_i hk
      rcases M.bind_run h with ⟨w1, m, h1, hA⟩ | ⟨e, h1, rfl⟩
      · obtain ⟨rfl, hm⟩ := getMeta_spec h1
        obtain ⟨u, hm⟩ := hm m rfl
        rcases M.bind_run hA with ⟨w2, c, h2, hB⟩ | ⟨e, h2, rfl⟩
        · obtain ⟨rfl, hc⟩ := M.ofExcept_run h2
          obtain ⟨hk1, hk2⟩ := getKwclass_spec hc.symm
          rcases M.bind_run hB with ⟨w3, cs, h3, hC⟩ | ⟨e, h3, rfl⟩
          · obtain ⟨rfl, hcs⟩ := ih h3
            obtain ⟨a1, a2, a3⟩ := hcs cs rfl
            obtain ⟨rfl, rfl⟩ := M.pure_run hC
            refine ⟨rfl, fun cs' h => ?_⟩
            cases h
            refine ⟨fun c' hc' => ?_, ?_, fun k' hk' => ?_⟩
            · rcases List.mem_cons.1 hc' with rfl | hc'
              · refine ⟨?_, fun hi => ?_⟩
                · rw [hk1]
                  exact fun hmem => hk (dlookup_isSome.2 hmem)
                · rcases hk2 with hk2 | hk2
                  · refine hE.ids u m hm c' hk2 ?_
                    revert hi
                    cases c'.shape <;> simp [KwShape.isId]
                  · rw [hk2] at hi; cases hi
              · exact a1 c' hc'
            · rw [List.map_cons, hk1]; exact a2.cons_cons _
            · rcases List.mem_cons.1 hk' with rfl | hk'
              · right; simp [hk1]
              · rcases a3 k' hk' with h | h
                · exact .inl h
                · right; simp only [List.map_cons, List.mem_cons]; exact .inr h
          · obtain ⟨rfl, _⟩ := ih h3
            exact ⟨rfl, fun cs h => by cases h⟩
        · obtain ⟨rfl, _⟩ := M.ofExcept_run h2
          exact ⟨rfl, fun cs h => by cases h⟩
      · obtain ⟨rfl, _⟩ := getMeta_spec h1
        exact ⟨rfl, fun cs h => by cases h⟩

theorem each_addClass_spec {E : CEnv} (hE : LibOk E.lib) {kvs : List (String × Value)}
    {builds : List (String × KwBuild)} {s : Nat} {cid : String} (hb : BuildsAll cid kvs builds) :
    ∀ {order : List KwCls} {w w' : World} {r : Except Exc Unit}
    {ms : List (String × Nat)}, WOk w → w.isSchema s = true → w.cacheid s = cid → Filled kvs s w ms →
    (∀ c ∈ order, c.shape.isId = false) → (∀ c ∈ order, c.key ∈ dkeys kvs) →
    M.each (addClass E s kvs builds) order w = some (w', r) →
    Init s w w' ∧ ∃ ms', Filled kvs s w' ms' ∧ (∀ k, k ∈ dkeys ms → k ∈ dkeys ms') ∧
      (r = .ok () → ∀ c ∈ order, c.key ∈ dkeys ms') := by
  intro order
  induction order with
  | nil =>
    intro w w' r ms ok hs hc f _ _ h
    obtain ⟨rfl, _⟩ := M.pure_run h
    exact ⟨.refl ok, ms, f, fun _ h => h, fun _ c hc => by cases hc⟩
  | cons c order ih =>
    intro w w' r ms ok hs hc f hi hk h
    have hone : ∀ {w1 : World} {r1 : Except Exc Unit}, addClass E s kvs builds c w = some (w1, r1) →
        Init s w w1 ∧ ∃ ms', Filled kvs s w1 ms' ∧ (∀ k, k ∈ dkeys ms → k ∈ dkeys ms') ∧
        (r1 = .ok () → c.key ∈ dkeys ms') := by
      intro w1 r1 h1
      unfold addClass at h1
      cases hd : dlookup c.key kvs with
      | none => exact absurd (hk c (by simp)) (dlookup_eq_none.1 hd)
      | some v =>
        obtain ⟨b, hb1, hb2⟩ := hb c.key v hd
        simp only [hd, hb1] at h1
        obtain ⟨a1, -, ms', a3, a4, a5⟩ := addKeyword_spec hE ok hs f hd (hc ▸ hb2)
          (fun h => by rw [hi c (by simp)] at h; cases h) h1
        exact ⟨a1, ms', a3, a4, a5⟩
    rcases M.bind_run (m := addClass E s kvs builds c) (f := fun _ => M.each (addClass E s kvs builds) order) h
      with ⟨w1, x, h1, h⟩ | ⟨e, h1, rfl⟩
    · obtain ⟨a1, ms1, a3, a4, a5⟩ := hone h1
      obtain ⟨b1, ms2, b3, b4, b5⟩ := ih a1.ok (a1.node.isSchema.trans hs) (a1.node.cacheid.trans hc) a3
        (fun c hc => hi c (by simp [hc])) (fun c hc => hk c (by simp [hc])) h
      refine ⟨a1.trans b1, ms2, b3, fun k h => b4 k (a4 k h), fun hr c' hc' => ?_⟩
      rcases List.mem_cons.1 hc' with rfl | hc'
      · exact b4 _ (a5 rfl)
      · exact b5 hr c' hc'
    · obtain ⟨a1, ms1, a3, a4, a5⟩ := hone h1
      exact ⟨a1, ms1, a3, a4, fun h => by cases h⟩

end Jschon
