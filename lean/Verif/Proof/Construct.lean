import Verif.Spec.Construct
import Verif.Proof.Catalog
import Verif.Proof.JsonBuild
import Verif.Proof.KwOrder

/-!
# Invariants of construction
-/

namespace Jschon
open Spec

/-! ## The monad -/

theorem M.bind_run {α β : Type} {m : M α} {f : α → M β} {w w' : World} {r : Except Exc β}
    (h : (m >>= f) w = some (w', r)) :
    (∃ w1 a, m w = some (w1, .ok a) ∧ f a w1 = some (w', r)) ∨
    (∃ e, m w = some (w', .error e) ∧ r = .error e) := by
  simp only [bind, M.andThen] at h
  split at h
  · cases h
  · rename_i w1 a hm; exact .inl ⟨w1, a, hm, h⟩
  · rename_i w1 e hm
    simp only [Option.some.injEq, Prod.mk.injEq] at h
    obtain ⟨rfl, rfl⟩ := h
    exact .inr ⟨e, hm, rfl⟩

theorem M.pure_run {α : Type} {a : α} {w w' : World} {r : Except Exc α}
    (h : (pure a : M α) w = some (w', r)) : w' = w ∧ r = .ok a := by
  simp only [pure, M.ret, Option.some.injEq, Prod.mk.injEq] at h
  exact ⟨h.1.symm, h.2.symm⟩

theorem M.raise_run {α : Type} {e : Exc} {w w' : World} {r : Except Exc α}
    (h : (M.raise e : M α) w = some (w', r)) : w' = w ∧ r = .error e := by
  simp only [M.raise, Option.some.injEq, Prod.mk.injEq] at h
  exact ⟨h.1.symm, h.2.symm⟩

theorem M.read_bind {α β : Type} {g : World → α} {f : α → M β} {w w' : World} {r : Except Exc β}
    (h : (M.read g >>= f) w = some (w', r)) : f (g w) w = some (w', r) := by
  simpa only [bind, M.andThen, M.read] using h

theorem M.ofExcept_run {α : Type} {x : Except Exc α} {w w' : World} {r : Except Exc α}
    (h : (M.ofExcept x : M α) w = some (w', r)) : w' = w ∧ r = x := by
  simp only [M.ofExcept, Option.some.injEq, Prod.mk.injEq] at h
  exact ⟨h.1.symm, h.2.symm⟩

theorem M.change_run {g : World → World} {w w' : World} {r : Except Exc Unit}
    (h : (M.change g) w = some (w', r)) : w' = g w ∧ r = .ok () := by
  simp only [M.change, Option.some.injEq, Prod.mk.injEq] at h
  exact ⟨h.1.symm, h.2.symm⟩

/-! ## Invariants -/

/-- The members of an object, and the items of an array. -/
def JData.members : JData → List (String × Nat)
  | .obj ms => ms
  | .arr cs => cs.map (fun c => ("", c))
  | _ => []

/-- The keyword objects of a schema, as data. -/
def kwMembers (kws : List (String × KwObj)) : List (String × Nat) :=
  kws.map (fun kv => (kv.1, kv.2.json))

/-- Old nodes, except those in `S`, are unchanged. -/
structure Keep (S : Nat → Prop) (w w' : World) : Prop where
  le : w.heap.next ≤ w'.heap.next
  node : ∀ x, x < w.heap.next → ¬ S x → w'.heap.node x = w.heap.node x
  info : ∀ x, x < w.heap.next → ¬ S x → w'.info x = w.info x

/-- No old node is changed. -/
abbrev Grow (w w' : World) : Prop := Keep (fun _ => False) w w'

theorem Keep.refl (S : Nat → Prop) (w : World) : Keep S w w := ⟨Nat.le_refl _, fun _ _ _ => rfl, fun _ _ _ => rfl⟩

theorem Keep.trans {S : Nat → Prop} {w w' w'' : World} (a : Keep S w w') (b : Keep S w' w'') :
    Keep S w w'' where
  le := Nat.le_trans a.le b.le
  node x hx hs := (b.node x (Nat.lt_of_lt_of_le hx a.le) hs).trans (a.node x hx hs)
  info x hx hs := (b.info x (Nat.lt_of_lt_of_le hx a.le) hs).trans (a.info x hx hs)

theorem Keep.mono {S T : Nat → Prop} {w w' : World} (a : Keep S w w') (h : ∀ x, x < w.heap.next → S x → T x) :
    Keep T w w' where
  le := a.le
  node x hx hs := a.node x hx fun h' => hs (h x hx h')
  info x hx hs := a.info x hx fun h' => hs (h x hx h')

theorem Grow.ext {w w' : World} (a : Grow w w') : Ext w.heap w'.heap :=
  ⟨a.le, fun x hx => a.node x hx id⟩

theorem Grow.keep {S : Nat → Prop} {w w' : World} (a : Grow w w') : Keep S w w' :=
  a.mono fun _ _ h => h.elim

theorem Grow.isSchema {w w' : World} (a : Grow w w') {x : Nat} (hx : x < w.heap.next) :
    w'.isSchema x = w.isSchema x := by simp [World.isSchema, a.info x hx id]
theorem Grow.uri {w w' : World} (a : Grow w w') {x : Nat} (hx : x < w.heap.next) :
    w'.uri x = w.uri x := by simp [World.uri, a.info x hx id]
theorem Grow.cacheid {w w' : World} (a : Grow w w') {x : Nat} (hx : x < w.heap.next) :
    w'.cacheid x = w.cacheid x := by simp [World.cacheid, a.info x hx id]

/-- No schema is at `j` or below. -/
def NoSchema (w : World) (j : Nat) : Prop := ∀ x, Desc w.heap j x → w.isSchema x = false

/-- The instance `j` made by a keyword class: a schema, a container of schemas, or plain JSON.  (A
string is accepted in place of an array of schemas.) -/
def KwOk (w : World) (shape : KwShape) (j : Nat) : Prop :=
  match shape with
  | .subschema => w.isSchema j = true
  | .arrayOfSubschemas =>
    (w.isSchema j = false ∧ ∃ cs, w.heap.data j = .arr cs ∧ ∀ c ∈ cs, w.isSchema c = true) ∨
    (NoSchema w j ∧ ∃ t, w.heap.data j = .str t)
  | .objectOfSubschemas =>
    w.isSchema j = false ∧ ∃ ms, w.heap.data j = .obj ms ∧ ∀ kc ∈ ms, w.isSchema kc.2 = true
  | .subschemaOrArray =>
    w.isSchema j = true ∨
    (w.isSchema j = false ∧ ∃ cs, w.heap.data j = .arr cs ∧ ∀ c ∈ cs, w.isSchema c = true) ∨
    (NoSchema w j ∧ ∃ t, w.heap.data j = .str t)
  | _ => NoSchema w j

/-- Old nodes are schemas if they were, and those in `P` that are not are unchanged. -/
structure Steady (P : Nat → Prop) (w w' : World) : Prop where
  isSchema : ∀ x, x < w.heap.next → w'.isSchema x = w.isSchema x
  data : ∀ x, P x → w.isSchema x = false → w'.heap.data x = w.heap.data x
  old : ∀ x, P x → x < w.heap.next
  kid : ∀ x c, P x → c ∈ (w.heap.data x).kids → P c

/-- `x` is a child. -/
def IsKid (w : World) (x : Nat) : Prop := ∃ p, x ∈ (w.heap.data p).kids

theorem steady_kids {w w' : World} (ho : Ord w.heap)
    (h1 : ∀ x, x < w.heap.next → w'.isSchema x = w.isSchema x)
    (h2 : ∀ x p, x ∈ (w.heap.data p).kids → w.isSchema x = false → w'.heap.data x = w.heap.data x) :
    Steady (IsKid w) w w' :=
  ⟨h1, fun x ⟨p, hp⟩ => h2 x p hp, fun _ ⟨_, hp⟩ => (ho.kid _ _ hp).2.1, fun x _ _ hc => ⟨x, hc⟩⟩

theorem steady_old {w w' : World} (ho : Ord w.heap)
    (h1 : ∀ x, x < w.heap.next → w'.isSchema x = w.isSchema x)
    (h2 : ∀ x, x < w.heap.next → w.isSchema x = false → w'.heap.data x = w.heap.data x) :
    Steady (· < w.heap.next) w w' :=
  ⟨h1, h2, fun _ h => h, fun _ _ _ hc => (ho.kid _ _ hc).2.1⟩

theorem NoSchema.mono {P : Nat → Prop} {w w' : World} (st : Steady P w w') {j : Nat}
    (hp : P j) (h : NoSchema w j) : NoSchema w' j := by
  intro x hx
  have key : ∀ a, Desc w'.heap a x → P a → NoSchema w a → w'.isSchema x = false := by
    intro a ha
    induction ha with
    | refl => intro hp hn; rw [st.isSchema _ (st.old _ hp)]; exact hn _ .refl
    | step hc _ ih =>
      intro hp hn
      rw [st.data _ hp (hn _ .refl)] at hc
      exact ih ‹_› (st.kid _ _ hp hc) (fun y hy => hn y (.step hc hy))
  exact key j hx hp h

theorem KwOk.mono {P : Nat → Prop} {w w' : World} (st : Steady P w w') {shape : KwShape} {j : Nat}
    (hp : P j) (h : KwOk w shape j) : KwOk w' shape j := by
  have hj := st.old j hp
  have harr : ∀ {cs}, w.isSchema j = false → w.heap.data j = .arr cs → (∀ c ∈ cs, w.isSchema c = true) →
      w'.isSchema j = false ∧ ∃ cs, w'.heap.data j = .arr cs ∧ ∀ c ∈ cs, w'.isSchema c = true := by
    intro cs h1 h2 h3
    refine ⟨by rw [st.isSchema j hj, h1], cs, by rw [st.data j hp h1, h2], fun c hc => ?_⟩
    have := st.kid j c hp (by rw [h2]; exact hc)
    rw [st.isSchema c (st.old c this)]; exact h3 c hc
  have hstr : ∀ {t}, NoSchema w j → w.heap.data j = .str t →
      NoSchema w' j ∧ ∃ t, w'.heap.data j = .str t := fun h1 h2 =>
    ⟨h1.mono st hp, _, by rw [st.data j hp (h1 j .refl), h2]⟩
  cases shape with
  | subschema => exact (st.isSchema j hj).trans h
  | arrayOfSubschemas =>
    rcases h with ⟨h1, cs, h2, h3⟩ | ⟨h1, t, h2⟩
    · exact .inl (harr h1 h2 h3)
    · exact .inr (hstr h1 h2)
  | subschemaOrArray =>
    rcases h with h1 | ⟨h1, cs, h2, h3⟩ | ⟨h1, t, h2⟩
    · exact .inl ((st.isSchema j hj).trans h1)
    · exact .inr (.inl (harr h1 h2 h3))
    · exact .inr (.inr (hstr h1 h2))
  | objectOfSubschemas =>
    obtain ⟨h1, ms, h2, h3⟩ := h
    refine ⟨by rw [st.isSchema j hj, h1], ms, by rw [st.data j hp h1, h2], fun c hc => ?_⟩
    have := st.kid j c.2 hp (by rw [h2]; exact List.mem_map_of_mem hc)
    rw [st.isSchema _ (st.old _ this)]; exact h3 c hc
  | _ => exact NoSchema.mono st hp h

/-- `p` is a schema of cache `cid`, or is directly below one. -/
def Near (w : World) (cid : String) (p : Nat) : Prop :=
  (w.isSchema p = true ∧ w.cacheid p = cid) ∨
  (w.isSchema p = false ∧ ∃ g, w.heap.parent p = some g ∧ w.isSchema g = true ∧ w.cacheid g = cid)

theorem Near.mono {w w' : World} {cid : String} {p : Nat} (ho : Ord w.heap) (hp : p < w.heap.next)
    (h1 : ∀ x, x < w.heap.next → w'.isSchema x = w.isSchema x)
    (h2 : ∀ x, x < w.heap.next → w'.cacheid x = w.cacheid x)
    (h3 : ∀ x, x < w.heap.next → w'.heap.parent x = w.heap.parent x)
    (h : Near w cid p) : Near w' cid p := by
  rcases h with ⟨a, b⟩ | ⟨a, g, b, c, d⟩
  · exact .inl ⟨by rw [h1 p hp, a], by rw [h2 p hp, b]⟩
  · have := ho.par p g b
    have hg : g < w.heap.next := by omega
    exact .inr ⟨by rw [h1 p hp, a], g, by rw [h3 p hp, b], by rw [h1 g hg, c], by rw [h2 g hg, d]⟩

/-- The instance of a keyword is what its class makes, and its reference is to a schema. -/
def KwObjOk (w : World) (o : KwObj) : Prop :=
  KwOk w o.shape o.json ∧ ∀ t, o.refschema = some t → w.isSchema t = true

/-- The invariant of the world. -/
structure WOk (w : World) : Prop where
  ord : Ord w.heap
  keys : Keys w.heap
  dom : ∀ s, w.isSchema s = true → s < w.heap.next
  kws : ∀ s i, w.info s = some i → kwMembers i.keywords = (w.heap.data s).members
  caches : CachesOk w.caches
  /-- what is cached is a schema -/
  cached : ∀ id u s, cacheGet w.caches id u = some s → w.isSchema s = true
  /-- the URI of a schema is cached, for that schema or for another one with the same URI -/
  uris : ∀ s u, w.uri s = some u → u.fragment = none →
    ∃ t, w.uri t = some u ∧ cacheGet w.caches (w.cacheid s) u = some t ∧ w.cacheid t = w.cacheid s
  /-- a schema is below a schema or an item or member of a keyword, and has the same cache -/
  near : ∀ s p, w.isSchema s = true → w.heap.parent s = some p → Near w (w.cacheid s) p
  /-- the instances of keywords are what their classes make -/
  shapes : ∀ s i kv, w.info s = some i → kv ∈ i.keywords → KwObjOk w kv.2
  /-- a schema is no array -/
  whole : ∀ s cs, w.isSchema s = true → w.heap.data s ≠ .arr cs

theorem WOk.kid {w : World} (ok : WOk w) {s : Nat} {i : SInfo} (hi : w.info s = some i)
    {kv : String × KwObj} (hk : kv ∈ i.keywords) :
    kv.2.json ∈ (w.heap.data s).kids := by
  have h1 : (kv.1, kv.2.json) ∈ (w.heap.data s).members := by
    rw [← ok.kws s i hi]; exact List.mem_map_of_mem hk
  cases hd : w.heap.data s with
  | obj ms => rw [hd] at h1; exact List.mem_map.2 ⟨_, h1, rfl⟩
  | arr cs =>
    rw [hd] at h1
    obtain ⟨c, h2, h3⟩ := List.mem_map.1 h1
    rw [Prod.mk.injEq] at h3; rw [← h3.2]; exact h2
  | _ => rw [hd] at h1; simp [JData.members] at h1

/-- The keywords keep their instances and classes, and new references are to schemas. -/
theorem WOk.shapes_mono {w w' : World} (ok : WOk w) (st : Steady (IsKid w) w w')
    (h : ∀ s i' kv', w'.info s = some i' → kv' ∈ i'.keywords →
      ∃ i kv, w.info s = some i ∧ kv ∈ i.keywords ∧ kv.2.shape = kv'.2.shape ∧ kv.2.json = kv'.2.json ∧
        (kv.2.refschema = kv'.2.refschema ∨ ∀ t, kv'.2.refschema = some t → w.isSchema t = true)) :
    ∀ s i kv, w'.info s = some i → kv ∈ i.keywords → KwObjOk w' kv.2 := by
  intro s i' kv' hi hk
  obtain ⟨i, kv, h1, h2, h3, h4, h5⟩ := h s i' kv' hi hk
  obtain ⟨a, b⟩ := ok.shapes s i kv h1 h2
  refine ⟨?_, fun t ht => ?_⟩
  · rw [← h3, ← h4]
    exact a.mono st ⟨s, ok.kid h1 h2⟩
  · have hs : w.isSchema t = true := by
      rcases h5 with h5 | h5
      · exact b t (h5.trans ht)
      · exact h5 t ht
    rw [st.isSchema t (ok.dom t hs)]; exact hs

/-- The keywords of old schemas are unchanged, and new schemas have none. -/
theorem WOk.shapes_old {w w' : World} (ok : WOk w) (st : Steady (IsKid w) w w')
    (h : ∀ s i', w'.info s = some i' → i'.keywords = [] ∨
      ∃ i, w.info s = some i ∧ i.keywords = i'.keywords) :
    ∀ s i kv, w'.info s = some i → kv ∈ i.keywords → KwObjOk w' kv.2 := by
  refine ok.shapes_mono st fun s i' kv' hi hk => ?_
  rcases h s i' hi with h | ⟨i, h1, h2⟩
  · rw [h] at hk; cases hk
  · exact ⟨i, kv', h1, by rw [h2]; exact hk, rfl, rfl, .inl rfl⟩

/-- No other schema of the same cache has the URI of `s`. -/
def UniqueUri (w : World) (s : Nat) : Prop :=
  ∀ q u, q ≠ s → w.uri s = some u → u.fragment = none → w.uri q = some u → w.cacheid q ≠ w.cacheid s

theorem wok_empty : WOk .empty where
  ord := inv_empty.ord
  keys := inv_empty.keys
  dom s h := by simp [World.isSchema, World.empty] at h
  kws s i h := by simp [World.empty] at h
  caches := .nil
  cached id u s h := by simp [World.empty, cacheGet, alookup] at h
  uris s u h := by simp [World.empty, World.uri] at h
  near s p h := by simp [World.isSchema, World.empty] at h
  shapes s i kv h := by simp [World.empty] at h
  whole s cs h := by simp [World.isSchema, World.empty] at h

/-! ## Creating nodes -/

theorem push_keys {h : JHeap} (hk : Keys h) (par : Option Nat) (key : Option String) (ho : Ord h) :
    Keys (h.push { data := .null, parent := par, key := key }) where
  key r k c hc := by
    simp only [Child, push_data] at hc
    split at hc
    · exact hc.elim
    · have := ho.kid r c (childD_kid hc)
      rw [push_key, if_neg (by omega)]
      exact hk.key r k c hc
  nodup r ms hm := by
    rw [push_data] at hm
    split at hm
    · cases hm
    · exact hk.nodup r ms hm

theorem newJsonNode_spec {w w' : World} {r : Except Exc Nat} {parent : Option Nat} {key : Option String}
    (ok : WOk w) (hp : ∀ p, parent = some p → p < w.heap.next)
    (h : newJsonNode parent key w = some (w', r)) :
    r = .ok w.heap.next ∧ WOk w' ∧ Grow w w' ∧ w'.heap.next = w.heap.next + 1 ∧
    w'.heap.parent w.heap.next = parent ∧ w'.heap.key w.heap.next = key ∧
    w'.info = w.info ∧ w'.caches = w.caches ∧ w'.heap.data w.heap.next = .null := by
  simp only [newJsonNode, Option.some.injEq, Prod.mk.injEq] at h
  obtain ⟨rfl, rfl⟩ := h
  have hlt : ∀ s, w.isSchema s = true → s < w.heap.next := ok.dom
  refine ⟨rfl, ?_, ?_, rfl, ?_, ?_, rfl, rfl, ?_⟩
  · refine ⟨push_ord ok.ord _ _ hp, push_keys ok.keys _ _ ok.ord, ?_, ?_, ok.caches, ok.cached, ok.uris, ?_, ?_, ?_⟩
    · intro s hs
      exact Nat.lt_succ_of_lt (hlt s hs)
    · intro s i hi
      have : s < w.heap.next := hlt s (by
        have : w.info s = some i := hi
        simp [World.isSchema, this])
      simp only [push_data]
      rw [if_neg (by omega)]
      exact ok.kws s i hi
    · intro s p hs hp'
      have hs' : s < w.heap.next := hlt s hs
      simp only [push_parent] at hp'
      rw [if_neg (by omega)] at hp'
      have := ok.ord.par s p hp'
      refine (ok.near s p hs hp').mono ok.ord (by omega) (fun _ _ => rfl) (fun _ _ => rfl) fun x hx => ?_
      simp only [push_parent]
      rw [if_neg (by omega)]
    · refine ok.shapes_old (steady_kids ok.ord (fun _ _ => rfl) (fun x p hx _ => ?_)) fun s i' hi => .inr ⟨i', hi, rfl⟩
      have := ok.ord.kid _ _ hx
      simp only [push_data]; rw [if_neg (by omega)]
    · intro s cs hs
      have := hlt s hs
      simp only [push_data]
      rw [if_neg (by omega)]
      exact ok.whole s cs hs
  · refine ⟨Nat.le_succ _, fun x hx _ => ?_, fun _ _ _ => rfl⟩
    exact (push_ext w.heap _).old x hx
  · simp [push_parent]
  · simp [push_key]
  · simp [push_data]

theorem newSchemaNode_spec {w w' : World} {r : Except Exc Nat} {cid : String} {uri metaUri : Option Uri}
    {parent : Option Nat} {key : Option String}
    (ok : WOk w) (hp : ∀ p, parent = some p → p < w.heap.next)
    (hn : ∀ p, parent = some p → Near w cid p)
    (hu : ∀ u, uri = some u → u.fragment = none → ∀ q, w.uri q = some u → w.cacheid q ≠ cid)
    (h : newSchemaNode cid uri metaUri parent key w = some (w', r)) :
    r = .ok w.heap.next ∧ WOk w' ∧ Grow w w' ∧ w'.heap.next = w.heap.next + 1 ∧
    w'.heap.parent w.heap.next = parent ∧ w'.heap.key w.heap.next = key ∧
    w'.info w.heap.next = some { cacheid := cid, uri := uri, metaUri := metaUri } ∧
    w'.heap.data w.heap.next = .null ∧ UniqueUri w' w.heap.next := by
  simp only [newSchemaNode, Option.some.injEq, Prod.mk.injEq] at h
  obtain ⟨hw, rfl⟩ := h
  have hlt : ∀ s, w.isSchema s = true → s < w.heap.next := ok.dom
  have hlt' : ∀ s i, w.info s = some i → s < w.heap.next := fun s i hi => hlt s (by simp [World.isSchema, hi])
  have hinfo : ∀ x, w'.info x = if x = w.heap.next then
      some { cacheid := cid, uri := uri, metaUri := metaUri } else w.info x := by rw [← hw]; intro x; rfl
  have hheap : w'.heap = w.heap.push { data := .null, parent := parent, key := key } := by rw [← hw]
  have hsch : ∀ x, w'.isSchema x = (decide (x = w.heap.next) || w.isSchema x) := by
    intro x; simp only [World.isSchema, hinfo]; split <;> simp_all
  have hold : ∀ x, x ≠ w.heap.next → w'.uri x = w.uri x := by
    intro x hx; simp [World.uri, hinfo, hx]
  have holdc : ∀ x, x ≠ w.heap.next → w'.cacheid x = w.cacheid x := by
    intro x hx; simp [World.cacheid, hinfo, hx]
  have hnew : w'.uri w.heap.next = uri := by simp [World.uri, hinfo]
  have hnewc : w'.cacheid w.heap.next = cid := by simp [World.cacheid, hinfo]
  have hget : ∀ id u, cacheGet w'.caches id u =
      if id = cid ∧ some u = uri then some w.heap.next else cacheGet w.caches id u := by
    intro id u
    rw [← hw]
    cases uri with
    | none => simp
    | some v => simp [cacheGet_add]
  refine ⟨rfl, ?_, ?_, ?_, ?_, ?_, ?_, ?_, ?_⟩
  · constructor
    · rw [hheap]; exact push_ord ok.ord _ _ hp
    · rw [hheap]; exact push_keys ok.keys _ _ ok.ord
    · intro s hs
      rw [hsch] at hs
      rw [hheap]
      simp only [Bool.or_eq_true, decide_eq_true_eq] at hs
      show s < w.heap.next + 1
      rcases hs with rfl | hs
      · omega
      · have := hlt s hs; omega
    · intro s i hi
      rw [hinfo] at hi
      rw [hheap, push_data]
      split at hi
      · cases hi
        rw [if_pos (by assumption)]
        rfl
      · rw [if_neg (by assumption)]
        exact ok.kws s i hi
    · rw [← hw]
      cases uri with
      | none => exact ok.caches
      | some u => exact ok.caches.step (.add cid u w.heap.next)
    · intro id u s hs
      rw [hget] at hs
      rw [hsch]
      split at hs
      · cases hs; simp
      · simp [ok.cached id u s hs]
    · intro s u hs hf
      by_cases hsn : s = w.heap.next
      · subst hsn
        rw [hnew] at hs
        refine ⟨w.heap.next, by rw [hnew, hs], ?_, rfl⟩
        rw [hget, hnewc, if_pos ⟨rfl, hs.symm⟩]
      · rw [hold s hsn] at hs
        rw [holdc s hsn]
        obtain ⟨t, h1, h2, h3⟩ := ok.uris s u hs hf
        have htn : t ≠ w.heap.next := by
          intro he
          have := hlt t (ok.cached _ _ _ h2)
          omega
        by_cases hc : w.cacheid s = cid ∧ some u = uri
        · exact absurd hc.1 (hu u hc.2.symm hf s hs)
        · exact ⟨t, by rw [hold t htn, h1], by rw [hget, if_neg hc, h2], by rw [holdc t htn, h3]⟩
    · intro s p hs hp'
      rw [hsch] at hs
      rw [hheap, push_parent] at hp'
      simp only [Bool.or_eq_true, decide_eq_true_eq] at hs
      have fin : ∀ cid' q, q < w.heap.next → Near w cid' q → Near w' cid' q := by
        intro cid' q hq h
        refine h.mono ok.ord hq (fun x hx => ?_) (fun x hx => holdc x (by omega)) (fun x hx => ?_)
        · rw [hsch]; simp only [Bool.or_eq_right_iff_imp, decide_eq_true_eq]; omega
        · rw [hheap, push_parent, if_neg (by omega)]
      split at hp'
      · rename_i he
        rw [he, hnewc]
        exact fin cid p (hp p hp') (hn p hp')
      · rename_i hne
        have hs := hs.resolve_left hne
        have := hlt s hs
        rw [holdc s hne]
        exact fin _ p (by have := ok.ord.par s p hp'; omega) (ok.near s p hs hp')
    · refine ok.shapes_old (steady_kids ok.ord (fun x hx => ?_) (fun x p hx _ => ?_)) fun s i' hi => ?_
      · rw [hsch]; simp only [Bool.or_eq_right_iff_imp, decide_eq_true_eq]; omega
      · have := ok.ord.kid _ _ hx
        rw [hheap, push_data, if_neg (by omega)]
      · rw [hinfo] at hi
        split at hi
        · cases hi; exact .inl rfl
        · exact .inr ⟨i', hi, rfl⟩
    · intro s cs hs
      rw [hsch] at hs
      rw [hheap, push_data]
      split
      · intro h; cases h
      · rename_i hne
        exact ok.whole s cs (by simpa [hne] using hs)
  · refine ⟨?_, fun x hx _ => ?_, fun x hx _ => ?_⟩
    · rw [hheap]; exact Nat.le_succ _
    · rw [hheap]; exact (push_ext w.heap _).old x hx
    · rw [hinfo, if_neg (by omega)]
  · rw [hheap]; rfl
  · rw [hheap]; simp [push_parent]
  · rw [hheap]; simp [push_key]
  · rw [hinfo, if_pos rfl]
  · rw [hheap]; simp [push_data]
  · intro q u hq h1 hf h2
    rw [hnew] at h1
    rw [hold q hq] at h2
    rw [holdc q hq, hnewc]
    exact hu u h1 hf q h2

/-! ## Changing nodes -/

theorem setData_heap {h : JHeap} {s : Nat} {d : JData} (ho : Ord h) (hks : Keys h) (hs : s < h.next)
    (hkid : ∀ k c, ChildD d k c → s < c ∧ c < h.next ∧ h.parent c = some s ∧ h.key c = some k)
    (hnd : d.kids.Nodup) (hkeys : ∀ ms, d = .obj ms → (dkeys ms).Nodup) :
    Ord (h.setData s d) ∧ Keys (h.setData s d) := by
  have hhas : h.has s := (ho.dom s).2 hs
  have hd := fun x => setData_data h s x d hhas
  constructor
  · refine ⟨fun r => ?_, fun r c hc => ?_, fun r => ?_, fun r p h => ?_⟩
    · simp only [setData_has]; exact ho.dom r
    · simp only [hd] at hc
      simp only [setData_parent]
      split at hc
      · rename_i he; subst he
        obtain ⟨k, hk⟩ := kid_childD hc
        obtain ⟨h1, h2, h3, _⟩ := hkid k c hk
        exact ⟨h1, h2, h3⟩
      · exact ho.kid r c hc
    · simp only [hd]
      split
      · exact hnd
      · exact ho.nodup r
    · simp only [setData_parent] at h
      exact ho.par r p h
  · refine ⟨fun r k c hc => ?_, fun r ms hm => ?_⟩
    · simp only [Child, hd] at hc
      simp only [setData_key]
      split at hc
      · exact (hkid k c hc).2.2.2
      · exact hks.key r k c hc
    · simp only [hd] at hm
      split at hm
      · exact hkeys ms hm
      · exact hks.nodup r ms hm

/-- The data of a node that has none becomes `d`. -/
theorem setData_ok {w : World} {s : Nat} {d : JData} (ok : WOk w) (hs : s < w.heap.next)
    (hkid : ∀ k c, ChildD d k c → s < c ∧ c < w.heap.next ∧ w.heap.parent c = some s ∧
      w.heap.key c = some k)
    (hnd : d.kids.Nodup) (hkeys : ∀ ms, d = .obj ms → (dkeys ms).Nodup)
    (hkw : ∀ i, w.info s = some i → kwMembers i.keywords = d.members)
    (hsc : (w.isSchema s = true ∧ ∀ cs, d ≠ .arr cs) ∨ (w.isSchema s = false ∧ ∀ p, s ∉ (w.heap.data p).kids)) :
    WOk { w with heap := w.heap.setData s d } := by
  have hhas : w.heap.has s := (ok.ord.dom s).2 hs
  have hd := fun x => setData_data w.heap s x d hhas
  have hh := setData_heap ok.ord ok.keys hs hkid hnd hkeys
  constructor
  · exact hh.1
  · exact hh.2
  · exact ok.dom
  · intro t i hi
    simp only [hd]
    split
    · rename_i he; subst he; exact hkw i hi
    · exact ok.kws t i hi
  · exact ok.caches
  · exact ok.cached
  · exact ok.uris
  · intro t p ht hp
    simp only [setData_parent] at hp
    have := ok.ord.par t p hp
    have := ok.dom t ht
    exact (ok.near t p ht hp).mono ok.ord (by omega) (fun _ _ => rfl) (fun _ _ => rfl)
      (fun _ _ => setData_parent ..)
  · refine ok.shapes_old (steady_kids ok.ord (fun _ _ => rfl) (fun x p hx hn => ?_)) fun s i' hi => .inr ⟨i', hi, rfl⟩
    simp only [hd]
    rw [if_neg]
    rintro rfl
    rcases hsc with ⟨h, -⟩ | ⟨-, h⟩
    · rw [h] at hn; cases hn
    · exact h p hx
  · intro t cs ht
    simp only [hd]
    split
    · rename_i he; subst he
      rcases hsc with ⟨-, h⟩ | ⟨h, -⟩
      · exact h cs
      · exact absurd (ht.symm.trans h) (by decide)
    · exact ok.whole t cs ht

theorem setInfo_info (w : World) (s : Nat) (f : SInfo → SInfo) (x : Nat) :
    (w.setInfo s f).info x = if x = s then (w.info x).map f else w.info x := rfl

theorem setInfo_isSchema (w : World) (s : Nat) (f : SInfo → SInfo) (x : Nat) :
    (w.setInfo s f).isSchema x = w.isSchema x := by
  simp only [World.isSchema, setInfo_info]; split <;> simp

theorem setInfo_uri (w : World) (s : Nat) (f : SInfo → SInfo) (x : Nat) :
    (w.setInfo s f).uri x = if x = s then ((w.info x).map f).bind SInfo.uri else w.uri x := by
  simp only [World.uri, setInfo_info]; split <;> rfl

theorem setInfo_cacheid (w : World) (s : Nat) (f : SInfo → SInfo) (hf : ∀ i, (f i).cacheid = i.cacheid)
    (x : Nat) : (w.setInfo s f).cacheid x = w.cacheid x := by
  simp only [World.cacheid, setInfo_info]
  split
  · cases w.info x <;> simp [hf]
  · rfl

theorem setInfo_uri_same (w : World) (s : Nat) (f : SInfo → SInfo) (hf : ∀ i, (f i).uri = i.uri)
    (x : Nat) : (w.setInfo s f).uri x = w.uri x := by
  rw [setInfo_uri]
  split
  · simp only [World.uri]; cases w.info x <;> simp [hf]
  · rfl

/-- A change of attributes other than the cache, the URI and the members. -/
theorem setInfo_ok {w : World} {s : Nat} {f : SInfo → SInfo} (ok : WOk w)
    (hc : ∀ i, (f i).cacheid = i.cacheid) (hu : ∀ i, (f i).uri = i.uri)
    (hk : ∀ i, w.info s = some i → kwMembers (f i).keywords = kwMembers i.keywords)
    (hk' : ∀ i kv', w.info s = some i → kv' ∈ (f i).keywords →
      ∃ kv ∈ i.keywords, kv.2.shape = kv'.2.shape ∧ kv.2.json = kv'.2.json ∧
        (kv.2.refschema = kv'.2.refschema ∨ ∀ t, kv'.2.refschema = some t → w.isSchema t = true)) :
    WOk (w.setInfo s f) := by
  constructor
  · exact ok.ord
  · exact ok.keys
  · intro t ht
    rw [setInfo_isSchema] at ht
    exact ok.dom t ht
  · intro t i hi
    rw [setInfo_info] at hi
    split at hi
    · rename_i he; subst he
      cases h0 : w.info t with
      | none => simp [h0] at hi
      | some i0 =>
        rw [h0] at hi
        simp only [Option.map_some, Option.some.injEq] at hi
        subst hi
        rw [hk i0 h0]
        exact ok.kws t i0 h0
    · exact ok.kws t i hi
  · exact ok.caches
  · intro id u t ht
    rw [setInfo_isSchema]
    exact ok.cached id u t ht
  · intro t u ht hf
    rw [setInfo_uri_same _ _ _ hu] at ht
    obtain ⟨q, h1, h2, h3⟩ := ok.uris t u ht hf
    rw [setInfo_cacheid _ _ _ hc]
    exact ⟨q, by rw [setInfo_uri_same _ _ _ hu, h1], h2, by rw [setInfo_cacheid _ _ _ hc, h3]⟩
  · intro t p ht hp
    simp only [setInfo_isSchema] at ht
    have := ok.ord.par t p hp
    have := ok.dom t ht
    rw [setInfo_cacheid _ _ _ hc]
    exact (ok.near t p ht hp).mono ok.ord (by omega) (fun _ _ => setInfo_isSchema ..)
      (fun _ _ => setInfo_cacheid _ _ _ hc _) (fun _ _ => rfl)
  · refine ok.shapes_mono (steady_kids ok.ord (fun _ _ => setInfo_isSchema ..) (fun _ _ _ _ => rfl)) fun t i' kv' hi hkv => ?_
    rw [setInfo_info] at hi
    split at hi
    · rename_i he; subst he
      cases h0 : w.info t with
      | none => simp [h0] at hi
      | some i0 =>
        rw [h0] at hi
        simp only [Option.map_some, Option.some.injEq] at hi
        subst hi
        obtain ⟨kv, h1, h2⟩ := hk' i0 kv' h0 hkv
        exact ⟨i0, kv, rfl, h1, h2⟩
    · exact ⟨i', kv', hi, hkv, rfl, rfl, .inl rfl⟩
  · intro t cs ht
    rw [setInfo_isSchema] at ht
    exact ok.whole t cs ht

theorem setInfo_keep {w : World} {s : Nat} {f : SInfo → SInfo} : Keep (· = s) w (w.setInfo s f) :=
  ⟨Nat.le_refl _, fun _ _ _ => rfl, fun x _ hx => by rw [setInfo_info, if_neg hx]⟩

/-- A schema is registered under a URI with a fragment. -/
theorem addFragment_ok {w : World} {s : Nat} {id : String} {u : Uri} (ok : WOk w)
    (hs : w.isSchema s = true) (hu : u.fragment ≠ none) :
    WOk { w with caches := addSchema w.caches id u s } := by
  constructor
  · exact ok.ord
  · exact ok.keys
  · exact ok.dom
  · exact ok.kws
  · exact ok.caches.step (.add id u s)
  · intro id' u' t ht
    simp only [cacheGet_add] at ht
    split at ht
    · cases ht; exact hs
    · exact ok.cached id' u' t ht
  · intro t v ht hf
    obtain ⟨q, h1, h2, h3⟩ := ok.uris t v ht hf
    refine ⟨q, h1, ?_, h3⟩
    simp only [cacheGet_add]
    rw [if_neg]
    · exact h2
    · rintro ⟨_, rfl⟩; exact hu hf
  · exact ok.near
  · exact ok.shapes_old (steady_kids ok.ord (fun _ _ => rfl) (fun _ _ _ _ => rfl)) fun s i' hi => .inr ⟨i', hi, rfl⟩
  · exact ok.whole

theorem delOld_ok {cs : Caches} (h : CachesOk cs) (cid : String) (o : Option Uri) :
    CachesOk (delOld cs cid o) := by
  cases o with
  | none => exact h
  | some o => exact h.step (.del cid o)

theorem cacheGet_delOld {cs : Caches} (h : CachesOk cs) (cid id : String) (o : Option Uri) (u : Uri) :
    cacheGet (delOld cs cid o) id u = if id = cid ∧ some u = o then none else cacheGet cs id u := by
  cases o with
  | none => simp [delOld]
  | some o => simp [delOld, cacheGet_del h]

/-- Between two worlds, schema `s` is the same but for its metaschema URI, URI and keywords' values. -/
structure SameNode (s : Nat) (w w' : World) : Prop where
  parent : w'.heap.parent s = w.heap.parent s
  key : w'.heap.key s = w.heap.key s
  isSchema : w'.isSchema s = w.isSchema s
  cacheid : w'.cacheid s = w.cacheid s
  uri : (w.uri s).isSome = true → (w'.uri s).isSome = true

theorem SameNode.refl (s : Nat) (w : World) : SameNode s w w := ⟨rfl, rfl, rfl, rfl, id⟩
theorem SameNode.trans {s : Nat} {w w' w'' : World} (a : SameNode s w w') (b : SameNode s w' w'') :
    SameNode s w w'' :=
  ⟨b.parent.trans a.parent, b.key.trans a.key, b.isSchema.trans a.isSchema, b.cacheid.trans a.cacheid,
    fun h => b.uri (a.uri h)⟩

theorem Grow.sameNode {s : Nat} {w w' : World} (g : Grow w w') (hs : s < w.heap.next) : SameNode s w w' :=
  ⟨g.ext.parent hs, g.ext.key hs, g.isSchema hs, g.cacheid hs, fun h => by rw [g.uri hs]; exact h⟩

theorem setInfo_sameNode {w : World} {s : Nat} {f : SInfo → SInfo} (hf : ∀ i, (f i).cacheid = i.cacheid)
    (hu : ∀ i, (f i).uri = i.uri) :
    SameNode s w (w.setInfo s f) := ⟨rfl, rfl, setInfo_isSchema .., setInfo_cacheid _ _ _ hf _,
      fun h => by rw [setInfo_uri_same _ _ _ hu]; exact h⟩

theorem putUri_spec {lib : UriLib} {w : World} {s : Nat} {u : Uri} (ok : WOk w)
    (hs : w.isSchema s = true) (huniq : UniqueUri w s) :
    WOk (w.putUri lib s u) ∧ (w.putUri lib s u).heap = w.heap ∧ Keep (· = s) w (w.putUri lib s u) ∧
    SameNode s w (w.putUri lib s u) ∧ (w.putUri lib s u).keywords s = w.keywords s ∧
    (w.putUri lib s u).isSchema = w.isSchema := by
  unfold World.putUri
  split
  · exact ⟨ok, rfl, .refl _ _, .refl _ _, rfl, rfl⟩
  · generalize hw : ({ w.setInfo s (fun i => { i with uri := some u }) with
      caches := addSchema (delOld w.caches (w.cacheid s) (w.uri s)) (w.cacheid s) u s } : World) = w'
    have hinfo : ∀ x, w'.info x = if x = s then (w.info x).map (fun i => { i with uri := some u })
        else w.info x := by rw [← hw]; exact fun x => rfl
    have hheap : w'.heap = w.heap := by rw [← hw]; rfl
    have hget : ∀ id v, cacheGet w'.caches id v = if id = w.cacheid s ∧ v = u then some s
        else if id = w.cacheid s ∧ some v = w.uri s then none else cacheGet w.caches id v := by
      intro id v
      rw [← hw]
      simp only [cacheGet_add, cacheGet_delOld ok.caches]
    have hsch : ∀ x, w'.isSchema x = w.isSchema x := by
      intro x; simp only [World.isSchema, hinfo]; split <;> simp
    have hcid : ∀ x, w'.cacheid x = w.cacheid x := by
      intro x; simp only [World.cacheid, hinfo]; split <;> cases w.info x <;> rfl
    have hold : ∀ x, x ≠ s → w'.uri x = w.uri x := by
      intro x hx; simp [World.uri, hinfo, hx]
    have hnew : w'.uri s = some u := by
      simp only [World.uri, hinfo, if_pos]
      obtain ⟨i, hi⟩ := Option.isSome_iff_exists.1 hs
      simp [hi]
    refine ⟨?_, hheap, ⟨by rw [hheap]; exact Nat.le_refl _, fun x _ _ => by rw [hheap], fun x _ hx => ?_⟩,
      ⟨by rw [hheap], by rw [hheap], hsch s, hcid s, fun _ => by rw [hnew]; rfl⟩, ?_, funext hsch⟩
    · constructor
      · rw [hheap]; exact ok.ord
      · rw [hheap]; exact ok.keys
      · intro t ht
        rw [hsch] at ht
        rw [hheap]
        exact ok.dom t ht
      · intro t i hi
        rw [hheap]
        rw [hinfo] at hi
        split at hi
        · cases h0 : w.info t with
          | none => simp [h0] at hi
          | some i0 =>
            rw [h0] at hi
            simp only [Option.map_some, Option.some.injEq] at hi
            subst hi
            exact ok.kws t i0 h0
        · exact ok.kws t i hi
      · rw [← hw]
        exact (delOld_ok ok.caches _ _).step (.add _ _ _)
      · intro id v t ht
        rw [hget] at ht
        rw [hsch]
        split at ht
        · cases ht; exact hs
        · split at ht
          · cases ht
          · exact ok.cached id v t ht
      · intro t v ht hf
        rw [hcid]
        by_cases hc : w.cacheid t = w.cacheid s ∧ v = u
        · exact ⟨s, by rw [hnew, hc.2], by rw [hget, if_pos hc], by rw [hcid, hc.1]⟩
        · by_cases hts : t = s
          · subst hts
            rw [hnew] at ht
            exact absurd ⟨rfl, (Option.some.inj ht).symm⟩ hc
          · rw [hold t hts] at ht
            have hne : ¬ (w.cacheid t = w.cacheid s ∧ some v = w.uri s) := by
              rintro ⟨h1, h2⟩
              exact huniq t v hts h2.symm hf ht h1
            obtain ⟨q, h1, h2, h3⟩ := ok.uris t v ht hf
            have hqs : q ≠ s := by
              rintro rfl
              exact hne ⟨h3.symm, h1.symm⟩
            exact ⟨q, by rw [hold q hqs, h1], by rw [hget, if_neg hc, if_neg hne, h2], by rw [hcid, h3]⟩
      · intro t p ht hp
        rw [hheap] at hp
        rw [hsch] at ht
        have := ok.ord.par t p hp
        have := ok.dom t ht
        rw [hcid]
        exact (ok.near t p ht hp).mono ok.ord (by omega) (fun x _ => hsch x) (fun x _ => hcid x)
          (fun _ _ => by rw [hheap])
      · refine ok.shapes_old (steady_kids ok.ord (fun x _ => hsch x) (fun _ _ _ _ => by rw [hheap])) fun t i' hi => .inr ?_
        rw [hinfo] at hi
        split at hi
        · cases h0 : w.info t with
          | none => simp [h0] at hi
          | some i0 =>
            rw [h0] at hi
            simp only [Option.map_some, Option.some.injEq] at hi
            subst hi
            exact ⟨i0, rfl, rfl⟩
        · exact ⟨i', hi, rfl⟩
      · intro t cs ht
        rw [hsch] at ht
        rw [hheap]
        exact ok.whole t cs ht
    · rw [hinfo, if_neg hx]
    · simp only [World.keywords, hinfo, if_pos]
      cases w.info s <;> rfl

end Jschon
