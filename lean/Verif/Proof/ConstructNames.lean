import Verif.Spec.Names
import Verif.Proof.ConstructSchema

/-!
# Construction registers schemas with their URIs
-/

namespace Jschon
open Spec

variable {c0 : Caches}

/-! ## Base URIs -/

theorem nearest_le {w w' : World} (ho : Ord w.heap) (attr : SInfo → Option Uri) : ∀ (n x : Nat),
    (∀ y, y ≤ x → (w'.info y).bind attr = (w.info y).bind attr ∧ w'.heap.parent y = w.heap.parent y) →
    w'.nearest attr n x = w.nearest attr n x
  | 0, _, _ => rfl
  | n + 1, x, h => by
    simp only [World.nearest, (h x (Nat.le_refl _)).1, (h x (Nat.le_refl _)).2]
    split
    · rfl
    · cases hp : w.heap.parent x with
      | none => rfl
      | some p =>
        have := ho.par x p hp
        exact nearest_le ho attr n p fun y hy => h y (by omega)

theorem base_le {w w' : World} (ho : Ord w.heap) {x : Nat}
    (h : ∀ y, y ≤ x → w'.uri y = w.uri y ∧ w'.heap.parent y = w.heap.parent y) : w'.baseUri x = w.baseUri x := by
  unfold World.baseUri
  rw [nearest_le ho SInfo.uri (x + 1) x h]

theorem nearest_fuel {w : World} (ho : Ord w.heap) (attr : SInfo → Option Uri) : ∀ (n m x : Nat), x < n → x < m →
    w.nearest attr n x = w.nearest attr m x
  | 0, _, _, h, _ => absurd h (Nat.not_lt_zero _)
  | _ + 1, 0, _, _, h => absurd h (Nat.not_lt_zero _)
  | n + 1, m + 1, x, h1, h2 => by
    simp only [World.nearest]
    split
    · rfl
    · cases hp : w.heap.parent x with
      | none => rfl
      | some p =>
        have := ho.par x p hp
        exact nearest_fuel ho attr n m p (by omega) (by omega)

/-- A schema without URI has the base URI of its parent. -/
theorem base_up {w : World} (ho : Ord w.heap) {x p : Nat} (hp : w.heap.parent x = some p) (hu : w.uri x = none) :
    w.baseUri x = w.baseUri p := by
  unfold World.baseUri
  have := ho.par x p hp
  conv => lhs; rw [World.nearest]
  unfold World.uri at hu
  rw [hu, hp]
  simp only
  rw [nearest_fuel ho SInfo.uri x (p + 1) p this (by omega)]

theorem base_own {w : World} {x : Nat} {u : Uri} (hu : w.uri x = some u) : w.baseUri x = some u.noFragment := by
  unfold World.baseUri World.nearest
  unfold World.uri at hu
  rw [hu]
  rfl

/-! ## What keywords say -/

theorem Spec.Says.isSchema {w : World} {x : Nat} {k : String} {sh : KwShape} {t : String} (h : Says w x k sh t) :
    w.isSchema x = true := by
  obtain ⟨o, h, -⟩ := h
  unfold World.keywords at h
  unfold World.isSchema
  cases hi : w.info x with
  | none => simp [hi] at h
  | some i => rfl

theorem uri_isSchema {w : World} {x : Nat} {u : Uri} (h : w.uri x = some u) : w.isSchema x = true := by
  unfold World.uri at h
  unfold World.isSchema
  cases hi : w.info x with
  | none => simp [hi] at h
  | some i => rfl

theorem Spec.Claims.isSchema {lib : UriLib} {w : World} {x : Nat} {v : Uri} (h : Claims lib w x v) : w.isSchema x = true := by
  cases h with
  | uri h => exact uri_isSchema h
  | anchor h => exact h.isSchema

/-- The instance of a keyword is a child of the schema. -/
theorem WOk.kwKid {w : World} (ok : WOk w) {x : Nat} {k : String} {o : KwObj} (h : (k, o) ∈ w.keywords x) :
    o.json ∈ (w.heap.data x).kids := by
  unfold World.keywords at h
  cases hi : w.info x with
  | none => simp [hi] at h
  | some i =>
    rw [hi] at h
    exact ok.kid hi (kv := (k, o)) h

/-- The worlds have the same URIs and the same of what determines them. -/
structure SameNames (w w' : World) : Prop where
  isSchema : ∀ x, w'.isSchema x = w.isSchema x
  uri : ∀ x, w'.uri x = w.uri x
  cacheid : ∀ x, w'.cacheid x = w.cacheid x
  parent : ∀ x, x < w.heap.next → w'.heap.parent x = w.heap.parent x
  anchors : ∀ x k sh t, AnchorShape sh → (Says w' x k sh t ↔ Says w x k sh t)
  idKey : ∀ x p, w.heap.parent x = some p → ("$id" ∈ dkeys (w'.keywords x) ↔ "$id" ∈ dkeys (w.keywords x))
  idSays : ∀ x p sh t, w'.heap.parent x = some p → (Says w' x "$id" sh t ↔ Says w x "$id" sh t)

theorem SameNames.refl (w : World) : SameNames w w :=
  ⟨fun _ => rfl, fun _ => rfl, fun _ => rfl, fun _ _ => rfl, fun _ _ _ _ _ => .rfl, fun _ _ _ => .rfl, fun _ _ _ _ _ => .rfl⟩

theorem SameNames.base {w w' : World} (ok : WOk w) (h : SameNames w w') {x : Nat} (hx : x < w.heap.next) :
    w'.baseUri x = w.baseUri x :=
  base_le ok.ord fun y hy => ⟨h.uri y, h.parent y (by omega)⟩

theorem SameNames.claims {lib : UriLib} {w w' : World} (ok : WOk w) (h : SameNames w w') {x : Nat} {v : Uri} :
    Claims lib w' x v ↔ Claims lib w x v := by
  constructor
  · intro c
    have hx := c.isSchema
    rw [h.isSchema] at hx
    have hx := ok.dom x hx
    cases c with
    | uri c => exact .uri ((h.uri x).symm.trans c)
    | anchor c1 c2 c3 => exact .anchor ((h.anchors _ _ _ _ c2).1 c1) c2 ((h.base ok hx).symm.trans c3)
  · intro c
    have hx := ok.dom x c.isSchema
    cases c with
    | uri c => exact .uri ((h.uri x).trans c)
    | anchor c1 c2 c3 => exact .anchor ((h.anchors _ _ _ _ c2).2 c1) c2 ((h.base ok hx).trans c3)

theorem NamesOk.same {lib : UriLib} {b : Nat} {w w' : World} (N : NamesOk lib c0 b w) (ok : WOk w) (h : SameNames w w')
    (hc : w'.caches = w.caches) : NamesOk lib c0 b w' where
  claim cid v x hv hb := by
    rw [hc] at hv
    obtain ⟨h1, h2⟩ := N.claim cid v x hv hb
    exact ⟨(h.cacheid x).trans h1, (h.claims ok).2 h2⟩
  cached x v hb hv := by
    rw [hc, h.cacheid]
    exact N.cached x v hb ((h.claims ok).1 hv)
  noId x p hb hs hp hk := by
    rw [h.isSchema] at hs
    rw [h.parent x (ok.dom x hs)] at hp
    rw [h.uri]
    exact N.noId x p hb hs hp fun hi => hk ((h.idKey x p hp).2 hi)
  id x p sh t hb hp hs := by
    have hs := (h.idSays x p sh t hp).1 hs
    have hx := ok.dom x hs.isSchema
    rw [h.parent x hx] at hp
    rw [h.uri, h.base ok (by have := ok.ord.par x p hp; omega)]
    exact N.id x p sh t hb hp hs
  old cid v x hv hx := N.old cid v x (hc ▸ hv) hx
  kept cid v x hf hv := hc ▸ N.kept cid v x hf hv

/-! ## Steps that leave URIs alone -/

theorem SameNames.of {w w' : World} (hi : w'.info = w.info)
    (hp : ∀ x, x < w.heap.next → w'.heap.parent x = w.heap.parent x)
    (hd : ∀ x k o, (k, o) ∈ w.keywords x → w'.heap.data o.json = w.heap.data o.json) : SameNames w w' := by
  have hk : ∀ x, w'.keywords x = w.keywords x := fun x => by simp only [World.keywords, hi]
  have hs : ∀ x k sh t, Says w' x k sh t ↔ Says w x k sh t := by
    intro x k sh t
    constructor
    · rintro ⟨o, h1, h2, h3⟩
      rw [hk] at h1
      exact ⟨o, h1, h2, (hd x k o h1).symm.trans h3⟩
    · rintro ⟨o, h1, h2, h3⟩
      exact ⟨o, by rw [hk]; exact h1, h2, (hd x k o h1).trans h3⟩
  exact ⟨fun x => by simp only [World.isSchema, hi], fun x => by simp only [World.uri, hi],
    fun x => by simp only [World.cacheid, hi], hp, fun x k sh t _ => hs x k sh t, fun x _ _ => by rw [hk],
    fun x _ sh t _ => hs x _ sh t⟩

/-- New plain JSON. -/
theorem NamesOk.grow {lib : UriLib} {b : Nat} {w w' : World} (N : NamesOk lib c0 b w) (ok : WOk w) (g : Grow w w')
    (hi : w'.info = w.info) (hc : w'.caches = w.caches) : NamesOk lib c0 b w' := by
  refine N.same ok (.of hi (fun x hx => g.ext.parent hx) fun x k o h => ?_) hc
  exact g.ext.data (ok.ord.kid _ _ (ok.kwKid h)).2.1

/-- A node that is not yet a child of another one is not the instance of a keyword. -/
theorem NamesOk.setData {lib : UriLib} {b : Nat} {w : World} (N : NamesOk lib c0 b w) (ok : WOk w) {s : Nat} {d : JData}
    (hs : w.heap.has s) (hk : ∀ x, s ∉ (w.heap.data x).kids) : NamesOk lib c0 b { w with heap := w.heap.setData s d } := by
  refine N.same ok (.of rfl (fun x _ => setData_parent ..) fun x k o h => ?_) rfl
  simp only [setData_data _ _ _ _ hs]
  rw [if_neg]
  rintro e
  exact hk x (e ▸ ok.kwKid h)

theorem not_kid {w w' : World} (ok : WOk w) (ok' : WOk w') (g : Grow w w')
    (hp : ∀ p, w'.heap.parent w.heap.next = some p → p < w.heap.next) :
    ∀ x, w.heap.next ∉ (w'.heap.data x).kids := by
  intro x hx
  have h1 := ok'.ord.kid _ _ hx
  have h2 := hp x h1.2.2
  rw [g.ext.data h2] at hx
  have := (ok.ord.kid _ _ hx).2.1
  omega

/-- Attributes of schemas other than their URIs. -/
theorem SameNames.setInfo {w : World} {s : Nat} {f : SInfo → SInfo} (h1 : ∀ i, (f i).uri = i.uri)
    (h2 : ∀ i, (f i).cacheid = i.cacheid)
    (h3 : ∀ i k o, (k, o) ∈ (f i).keywords → ∃ o', (k, o') ∈ i.keywords ∧ o'.shape = o.shape ∧ o'.json = o.json)
    (h4 : ∀ i k o, (k, o) ∈ i.keywords → ∃ o', (k, o') ∈ (f i).keywords ∧ o'.shape = o.shape ∧ o'.json = o.json) :
    SameNames w (w.setInfo s f) := by
  have hk1 : ∀ x k o, (k, o) ∈ (w.setInfo s f).keywords x → ∃ o', (k, o') ∈ w.keywords x ∧ o'.shape = o.shape ∧ o'.json = o.json := by
    intro x k o h
    simp only [World.keywords, setInfo_info] at h ⊢
    split at h
    · cases hi : w.info x with
      | none => simp [hi] at h
      | some i =>
        rw [hi] at h
        exact h3 i k o h
    · exact ⟨o, h, rfl, rfl⟩
  have hk2 : ∀ x k o, (k, o) ∈ w.keywords x → ∃ o', (k, o') ∈ (w.setInfo s f).keywords x ∧ o'.shape = o.shape ∧ o'.json = o.json := by
    intro x k o h
    simp only [World.keywords, setInfo_info] at h ⊢
    split
    · cases hi : w.info x with
      | none => simp [hi] at h
      | some i =>
        rw [hi] at h
        exact h4 i k o h
    · exact ⟨o, h, rfl, rfl⟩
  have hs : ∀ x k sh t, Says (w.setInfo s f) x k sh t ↔ Says w x k sh t := by
    intro x k sh t
    constructor
    · rintro ⟨o, a, b, c⟩
      obtain ⟨o', a', b', c'⟩ := hk1 x k o a
      exact ⟨o', a', b'.trans b, by rw [c']; exact c⟩
    · rintro ⟨o, a, b, c⟩
      obtain ⟨o', a', b', c'⟩ := hk2 x k o a
      exact ⟨o', a', b'.trans b, by rw [c']; exact c⟩
  refine ⟨setInfo_isSchema w s f, setInfo_uri_same w s f h1, setInfo_cacheid w s f h2, fun _ _ => rfl,
    fun x k sh t _ => hs x k sh t, fun x _ _ => ?_, fun x _ sh t _ => hs x _ sh t⟩
  constructor
  · intro h
    obtain ⟨o, h⟩ := mem_dkeys.1 h
    obtain ⟨o', h, -⟩ := hk1 x _ o h
    exact mem_dkeys.2 ⟨o', h⟩
  · intro h
    obtain ⟨o, h⟩ := mem_dkeys.1 h
    obtain ⟨o', h, -⟩ := hk2 x _ o h
    exact mem_dkeys.2 ⟨o', h⟩

theorem initKw_same {E : CEnv} {s : Nat} {shape : KwShape} {v : Value} {w w' : World} {r : Except Exc Unit}
    (h1 : shape.isId = false) (h2 : ¬ AnchorShape shape) (h : initKw E s shape v w = some (w', r)) :
    SameNames w w' ∧ w'.caches = w.caches := by
  unfold initKw at h
  split at h
  all_goals try dsimp only at h
  all_goals try (split at h)
  all_goals first
    | (obtain ⟨rfl, _⟩ := M.pure_run h; exact ⟨.refl _, rfl⟩)
    | (obtain ⟨rfl, _⟩ := M.raise_run h; exact ⟨.refl _, rfl⟩)
    | (cases h1; done)
    | exact absurd (.inl rfl) h2
    | exact absurd (.inr rfl) h2
    | (exact nomatch (show (none : Option (World × Except Exc Unit)) = some (w', r) from h))
    | skip
  · generalize Uri.validate E.lib (E.lib.ofText _) true true true true = x at h
    obtain e | _ := x
    · obtain ⟨rfl, _⟩ := M.raise_run h
      exact ⟨.refl _, rfl⟩
    obtain ⟨rfl, _⟩ := M.change_run h
    exact ⟨.setInfo (fun _ => rfl) (fun _ => rfl) (fun _ _ o h => ⟨o, h, rfl, rfl⟩) (fun _ _ o h => ⟨o, h, rfl, rfl⟩), rfl⟩

/-! ## Entering a keyword -/

/-- The world after a keyword has been entered. -/
def World.entered (w : World) (s : Nat) (key : String) (shape : KwShape) (j : Nat) (ms : List (String × Nat)) : World :=
  { w.setInfo s (fun i => { i with keywords := dset key { shape, json := j } i.keywords }) with
    heap := w.heap.setData s (.obj (dset key j ms)) }

section
variable {w : World} {s j : Nat} {shape : KwShape} {key : String} {ms : List (String × Nat)}

theorem entered_keywords (hs : w.isSchema s = true) (x : Nat) : (w.entered s key shape j ms).keywords x =
    if x = s then dset key { shape, json := j } (w.keywords s) else w.keywords x := by
  obtain ⟨i, hi⟩ := Option.isSome_iff_exists.1 hs
  unfold World.entered World.keywords
  show (Option.map SInfo.keywords ((w.setInfo s _).info x)).getD [] = _
  rw [setInfo_info]
  by_cases h : x = s
  · subst h; simp [hi]
  · simp [h]

theorem entered_uri (x : Nat) : (w.entered s key shape j ms).uri x = w.uri x :=
  setInfo_uri_same w s (fun i => { i with keywords := dset key { shape, json := j } i.keywords }) (fun _ => rfl) x

theorem entered_cacheid (x : Nat) : (w.entered s key shape j ms).cacheid x = w.cacheid x :=
  setInfo_cacheid w s (fun i => { i with keywords := dset key { shape, json := j } i.keywords }) (fun _ => rfl) x

theorem entered_isSchema (x : Nat) : (w.entered s key shape j ms).isSchema x = w.isSchema x :=
  setInfo_isSchema w s _ x

theorem entered_parent (x : Nat) : (w.entered s key shape j ms).heap.parent x = w.heap.parent x := setData_parent ..

theorem entered_base (ok : WOk w) (x : Nat) : (w.entered s key shape j ms).baseUri x = w.baseUri x :=
  base_le ok.ord fun y _ => ⟨entered_uri y, entered_parent y⟩

theorem entered_says (ok : WOk w) (hs : w.isSchema s = true) (hd : w.heap.data s = .obj ms)
    (hnew : key ∉ dkeys (w.keywords s)) (hj : j ≠ s) {x : Nat} {k : String} {sh : KwShape} {t : String} :
    Says (w.entered s key shape j ms) x k sh t ↔
      Says w x k sh t ∨ (x = s ∧ k = key ∧ sh = shape ∧ w.heap.data j = .str t) := by
  have hhas : w.heap.has s := (ok.ord.dom s).2 (ok.dom s hs)
  have hdata : ∀ y, (w.entered s key shape j ms).heap.data y = if y = s then .obj (dset key j ms) else w.heap.data y :=
    fun y => setData_data _ _ _ _ hhas
  have happ : dset key { shape, json := j } (w.keywords s) = w.keywords s ++ [(key, { shape, json := j })] := by
    rcases dset_cases (k := key) (v := ({ shape, json := j } : KwObj)) (d := w.keywords s) with ⟨-, h⟩ | ⟨l, o, r, -, h, -⟩
    · exact h
    · exact absurd (by rw [h]; simp [dkeys]) hnew
  have hold : ∀ o : KwObj, (w.entered s key shape j ms).heap.data o.json = .str t ↔ w.heap.data o.json = .str t := by
    intro o
    rw [hdata]
    split
    · rename_i e; rw [e, hd]; simp
    · exact .rfl
  constructor
  · rintro ⟨o, h1, h2, h3⟩
    rw [entered_keywords hs] at h1
    split at h1
    · rename_i e
      rw [happ] at h1
      rcases List.mem_append.1 h1 with h1 | h1
      · exact .inl ⟨o, by rw [e]; exact h1, h2, (hold o).1 h3⟩
      · simp only [List.mem_cons, List.not_mem_nil, or_false, Prod.mk.injEq] at h1
        obtain ⟨rfl, rfl⟩ := h1
        exact .inr ⟨e, rfl, h2.symm, by rw [hdata, if_neg hj] at h3; exact h3⟩
    · exact .inl ⟨o, h1, h2, (hold o).1 h3⟩
  · rintro (⟨o, h1, h2, h3⟩ | ⟨rfl, rfl, rfl, h3⟩)
    · refine ⟨o, ?_, h2, (hold o).2 h3⟩
      rw [entered_keywords hs]
      split
      · rename_i e
        rw [happ]; exact List.mem_append_left _ (e ▸ h1)
      · exact h1
    · refine ⟨{ shape := sh, json := j }, ?_, rfl, by rw [hdata, if_neg hj]; exact h3⟩
      rw [entered_keywords hs, if_pos rfl, happ]
      simp

theorem entered_idKey (hs : w.isSchema s = true) (hk : key ≠ "$id") (x : Nat) :
    "$id" ∈ dkeys ((w.entered s key shape j ms).keywords x) ↔ "$id" ∈ dkeys (w.keywords x) := by
  rw [entered_keywords hs]
  split
  · rename_i e
    subst e
    rw [mem_dkeys_dset]
    exact ⟨fun h => h.resolve_left (Ne.symm hk), .inr⟩
  · exact .rfl

theorem entered_same (ok : WOk w) (hs : w.isSchema s = true) (hd : w.heap.data s = .obj ms)
    (hnew : key ∉ dkeys (w.keywords s)) (hj : j ≠ s) (hk : key ≠ "$id" ∨ w.heap.parent s = none)
    (hsh : ¬ AnchorShape shape) : SameNames w (w.entered s key shape j ms) where
  isSchema := entered_isSchema
  uri := entered_uri
  cacheid := entered_cacheid
  parent x _ := entered_parent x
  anchors x k sh t ha := by
    rw [entered_says ok hs hd hnew hj]
    exact ⟨fun h => h.resolve_right fun h => hsh (h.2.2.1 ▸ ha), .inl⟩
  idKey x p hp := by
    by_cases hx : x = s
    · subst hx
      exact entered_idKey hs (hk.resolve_right (by rw [hp]; simp)) x
    · rw [entered_keywords hs, if_neg hx]
  idSays x p sh t hp := by
    rw [entered_parent] at hp
    rw [entered_says ok hs hd hnew hj]
    refine ⟨fun h => h.resolve_right fun h => ?_, .inl⟩
    refine hk.resolve_right ?_ h.2.1.symm
    rw [← h.1, hp]; simp

end

/-! ## Anchors and `$id` -/

/-- An anchor is registered, and its keyword entered. -/
theorem NamesOk.anchor {lib : UriLib} {b : Nat} {w : World} (N : NamesOk lib c0 b w) (ok : WOk w) {s j : Nat}
    {shape : KwShape} {key t : String} {ms : List (String × Nat)} {u : Uri} (hb : b ≤ s) (hs : w.isSchema s = true)
    (hd : w.heap.data s = .obj ms) (hnew : key ∉ dkeys (w.keywords s)) (hj : j ≠ s) (hk : key ≠ "$id")
    (hsh : AnchorShape shape) (ht : w.heap.data j = .str t) (hu : w.baseUri s = some u) :
    NamesOk lib c0 b (World.entered { w with caches := addSchema w.caches (w.cacheid s) (lib.ofText (u.str ++ "#" ++ t)) s }
      s key shape j ms) := by
  generalize hv : lib.ofText (u.str ++ "#" ++ t) = v
  have hsays : ∀ {x k sh t'}, Says (World.entered { w with caches := addSchema w.caches (w.cacheid s) v s } s key shape j ms) x k sh t'
      ↔ Says w x k sh t' ∨ (x = s ∧ k = key ∧ sh = shape ∧ w.heap.data j = .str t') :=
    entered_says (w := w) ok hs hd hnew hj
  have hbase : ∀ x, World.baseUri (World.entered { w with caches := addSchema w.caches (w.cacheid s) v s } s key shape j ms) x
      = w.baseUri x := fun x =>
    base_le (w := w) ok.ord fun y _ => ⟨entered_uri (w := w) (s := s) (key := key) (shape := shape) (j := j) (ms := ms) y,
      entered_parent (w := w) (s := s) (key := key) (shape := shape) (j := j) (ms := ms) y⟩
  have huri : ∀ x, World.uri (World.entered { w with caches := addSchema w.caches (w.cacheid s) v s } s key shape j ms) x
      = w.uri x := entered_uri (w := w) (s := s) (key := key) (shape := shape) (j := j) (ms := ms)
  have hcid : ∀ x, World.cacheid (World.entered { w with caches := addSchema w.caches (w.cacheid s) v s } s key shape j ms) x
      = w.cacheid x := entered_cacheid (w := w) (s := s) (key := key) (shape := shape) (j := j) (ms := ms)
  have hpar : ∀ x, (World.entered { w with caches := addSchema w.caches (w.cacheid s) v s } s key shape j ms).heap.parent x
      = w.heap.parent x := entered_parent (w := w) (s := s) (key := key) (shape := shape) (j := j) (ms := ms)
  have hget : ∀ id v', cacheGet (World.entered { w with caches := addSchema w.caches (w.cacheid s) v s } s key shape j ms).caches id v'
      = if id = w.cacheid s ∧ v' = v then some s else cacheGet w.caches id v' := by
    intro id v'
    show cacheGet (addSchema w.caches (w.cacheid s) v s) id v' = _
    rw [cacheGet_add]
  have hsch := entered_isSchema (w := { w with caches := addSchema w.caches (w.cacheid s) v s }) (s := s) (key := key)
    (shape := shape) (j := j) (ms := ms)
  have hidk := entered_idKey (w := { w with caches := addSchema w.caches (w.cacheid s) v s }) (s := s) (key := key)
    (shape := shape) (j := j) (ms := ms) hs hk
  generalize World.entered { w with caches := addSchema w.caches (w.cacheid s) v s } s key shape j ms = w' at *
  have mono : ∀ {x v'}, Claims lib w x v' → Claims lib w' x v' := by
    intro x v' c
    cases c with
    | uri c => exact .uri ((huri x).trans c)
    | anchor c1 c2 c3 => exact .anchor (hsays.2 (.inl c1)) c2 ((hbase x).trans c3)
  have back : ∀ {x v'}, Claims lib w' x v' → Claims lib w x v' ∨ (x = s ∧ v' = v) := by
    intro x v' c
    cases c with
    | uri c => exact .inl (.uri ((huri x).symm.trans c))
    | @anchor k sh t' b' c1 c2 c3 =>
      rcases hsays.1 c1 with c1 | ⟨rfl, rfl, rfl, c4⟩
      · exact .inl (.anchor c1 c2 ((hbase x).symm.trans c3))
      · rw [hbase, hu] at c3
        cases c3
        rw [ht] at c4
        cases c4
        exact .inr ⟨rfl, hv⟩
  refine ⟨fun cid v' x h hx => ?_, fun x v' hx c => ?_, fun x p hx h1 h2 h3 => ?_, fun x p sh t' hx h1 h2 => ?_, fun cid v' x h hx => ?_,
    fun cid v' x hf h => ?_⟩
  · rw [hget] at h
    split at h
    · rename_i e
      cases h
      refine ⟨(hcid _).trans e.1.symm, ?_⟩
      rw [e.2, ← hv]
      exact .anchor (hsays.2 (.inr ⟨rfl, rfl, rfl, ht⟩)) hsh ((hbase _).trans hu)
    · obtain ⟨h1, h2⟩ := N.claim cid v' x h hx
      exact ⟨(hcid x).trans h1, mono h2⟩
  · rw [hcid, hget]
    split
    · exact ⟨s, hb, rfl⟩
    · rename_i e
      rcases back c with c | ⟨rfl, rfl⟩
      · exact N.cached x v' hx c
      · exact absurd ⟨rfl, rfl⟩ e
  · rw [hsch] at h1
    rw [hpar] at h2
    rw [huri]
    exact N.noId x p hx h1 h2 fun h => h3 ((hidk x).2 h)
  · rw [hpar] at h1
    rw [huri, hbase]
    rcases hsays.1 h2 with h2 | h2
    · exact N.id x p sh t' hx h1 h2
    · exact absurd h2.2.1.symm hk
  · rw [hget] at h
    split at h
    · cases h; omega
    · exact N.old cid v' x h hx
  · rw [hget]
    split
    · exact ⟨s, rfl⟩
    · exact N.kept cid v' x hf h

/-- What holds of a schema while it is given its URI: it is the newest one and has no anchors yet. -/
structure Unsettled (w : World) (s : Nat) : Prop where
  newest : ∀ y, s < y → w.isSchema y = false
  bare : ∀ k sh t, AnchorShape sh → ¬ Says w s k sh t
  child : ∀ p, w.heap.parent s = some p → w.uri s = none
  plain : ∀ u, w.uri s = some u → u.fragment = none

theorem anchor_fragment {lib : UriLib} (hE : LibOk lib) {w : World} {x : Nat} {v : Uri} (h : Claims lib w x v)
    (hf : v.fragment = none) : w.uri x = some v := by
  cases h with
  | uri h => exact h
  | anchor => exact absurd hf (hE.hash _ _)

/-- `schema.uri = u`, with a change of the URI. -/
theorem putUri_change {lib : UriLib} {w : World} {s : Nat} {u : Uri}
    (h : ¬ ((w.uri s).map (fun o => lib.same o u)).getD false = true) (hs : w.isSchema s = true) (ok : WOk w) :
    (w.putUri lib s u).heap = w.heap ∧ (∀ x, (w.putUri lib s u).uri x = if x = s then some u else w.uri x) ∧
    (∀ x, (w.putUri lib s u).cacheid x = w.cacheid x) ∧ (∀ x, (w.putUri lib s u).keywords x = w.keywords x) ∧
    (∀ x, (w.putUri lib s u).isSchema x = w.isSchema x) ∧
    ∀ id v, cacheGet (w.putUri lib s u).caches id v = if id = w.cacheid s ∧ v = u then some s
        else if id = w.cacheid s ∧ some v = w.uri s then none else cacheGet w.caches id v := by
  obtain ⟨i, hi⟩ := Option.isSome_iff_exists.1 hs
  unfold World.putUri
  rw [if_neg h]
  refine ⟨rfl, fun x => ?_, fun x => ?_, fun x => ?_, fun x => ?_, fun id v => ?_⟩
  · refine (setInfo_uri w s (fun i => { i with uri := some u }) x).trans ?_
    split
    · rename_i e; rw [e, hi]; rfl
    · rfl
  · exact setInfo_cacheid w s (fun i => { i with uri := some u }) (fun _ => rfl) x
  · show (Option.map SInfo.keywords ((w.setInfo s _).info x)).getD [] = _
    rw [setInfo_info]
    split
    · rename_i e; rw [e]; simp [World.keywords, hi]
    · rfl
  · exact setInfo_isSchema w s _ x
  · simp only [cacheGet_add, cacheGet_delOld ok.caches]

/-- A schema gets its URI, and the keyword `$id` if it is that which says so. -/
theorem NamesOk.putUri {lib : UriLib} (hE : LibOk lib) {b : Nat} {w w' : World} (N : NamesOk lib c0 b w) (ok : WOk w) {s : Nat}
    {u : Uri} (hb : b ≤ s) (hs : w.isSchema s = true) (hun : UniqueUri w s) (U : Unsettled w s)
    (hch : ¬ ((w.uri s).map (fun o => lib.same o u)).getD false = true)
    (hpar : ∀ x, w'.heap.parent x = w.heap.parent x)
    (huri : ∀ x, w'.uri x = (w.putUri lib s u).uri x) (hcid : ∀ x, w'.cacheid x = w.cacheid x)
    (hsch : ∀ x, w'.isSchema x = w.isSchema x) (hget : w'.caches = (w.putUri lib s u).caches)
    (hsays : ∀ x k sh t, Says w' x k sh t → k ≠ "$id" ∨ x ≠ s → Says w x k sh t)
    (hanch : ∀ x k sh t, AnchorShape sh → Says w' x k sh t → Says w x k sh t)
    (hanch' : ∀ x k sh t, AnchorShape sh → Says w x k sh t → Says w' x k sh t)
    (hkey : ∀ x, x ≠ s → ("$id" ∈ dkeys (w'.keywords x) ↔ "$id" ∈ dkeys (w.keywords x)))
    (hid : ∀ p, w.heap.parent s = some p → "$id" ∈ dkeys (w'.keywords s) ∧
      ∀ sh t, Says w' s "$id" sh t → IdUri lib (w.baseUri p) t u) :
    NamesOk lib c0 b w' := by
  obtain ⟨-, q1, -, -, -, q5⟩ := putUri_change (u := u) hch hs ok
  have lt : ∀ {x}, w.isSchema x = true → x ≠ s → x < s := by
    intro x hx hne
    by_cases h : s < x
    · rw [U.newest x h] at hx; cases hx
    · omega
  have hbase : ∀ {x}, x < s → w'.baseUri x = w.baseUri x := fun {x} hx =>
    base_le ok.ord fun y hy => ⟨by rw [huri, q1, if_neg (by omega)], hpar y⟩
  have claims : ∀ {x v}, x ≠ s → (Claims lib w' x v ↔ Claims lib w x v) := by
    intro x v hne
    constructor
    · intro c
      have hx := c.isSchema
      rw [hsch] at hx
      cases c with
      | uri c => rw [huri, q1, if_neg hne] at c; exact .uri c
      | anchor c1 c2 c3 => exact .anchor (hanch _ _ _ _ c2 c1) c2 ((hbase (lt hx hne)).symm.trans c3)
    · intro c
      have hx := c.isSchema
      cases c with
      | uri c => refine .uri ?_; rw [huri, q1, if_neg hne]; exact c
      | anchor c1 c2 c3 => exact .anchor (hanch' _ _ _ _ c2 c1) c2 ((hbase (lt hx hne)).trans c3)
  have hclaim : ∀ {v}, Claims lib w' s v → v = u := by
    intro v c
    cases c with
    | uri c => rw [huri, q1, if_pos rfl] at c; exact (Option.some.inj c).symm
    | anchor c1 c2 => exact absurd (hanch _ _ _ _ c2 c1) (U.bare _ _ _ c2)
  have hu : w'.uri s = some u := by rw [huri, q1, if_pos rfl]
  refine ⟨fun cid v x h hx => ?_, fun x v hx c => ?_, fun x p hx h1 h2 h3 => ?_, fun x p sh t hx h1 h2 => ?_, fun cid v x h hx => ?_,
    fun cid v x hf h => ?_⟩
  · rw [hget, q5] at h
    split at h
    · rename_i e
      cases h
      exact ⟨(hcid _).trans e.1.symm, e.2 ▸ .uri hu⟩
    · split at h
      · cases h
      · rename_i e1 e2
        obtain ⟨h1, h2⟩ := N.claim cid v x h hx
        by_cases hne : x = s
        · subst hne
          cases h2 with
          | uri h2 => exact absurd ⟨h1.symm, h2.symm⟩ e2
          | anchor h3 h4 => exact absurd h3 (U.bare _ _ _ h4)
        · exact ⟨(hcid x).trans h1, (claims hne).2 h2⟩
  · rw [hget, hcid, q5]
    split
    · exact ⟨s, hb, rfl⟩
    · rename_i e1
      by_cases hne : x = s
      · subst hne
        exact absurd ⟨rfl, hclaim c⟩ e1
      · have c := (claims hne).1 c
        split
        · rename_i e2
          have hf := U.plain v e2.2.symm
          exact absurd e2.1 (hun x v hne e2.2.symm hf (anchor_fragment hE c hf))
        · exact N.cached x v hx c
  · rw [hsch] at h1
    rw [hpar] at h2
    by_cases hne : x = s
    · subst hne
      exact absurd (hid p h2).1 h3
    · rw [huri, q1, if_neg hne]
      exact N.noId x p hx h1 h2 fun h => h3 ((hkey x hne).2 h)
  · have hx' := h2.isSchema
    rw [hsch] at hx'
    rw [hpar] at h1
    have hp := ok.ord.par x p h1
    by_cases hne : x = s
    · subst hne
      refine ⟨u, hu, ?_⟩
      rw [hbase hp]
      exact (hid p h1).2 sh t h2
    · have := lt hx' hne
      rw [hbase (by omega), huri, q1, if_neg hne]
      exact N.id x p sh t hx h1 (hsays x _ sh t h2 (.inr hne))
  · rw [hget, q5] at h
    split at h
    · cases h; omega
    · split at h
      · cases h
      · exact N.old cid v x h hx
  · rw [hget, q5]
    split
    · exact ⟨s, rfl⟩
    · split
      · rename_i e
        exact absurd (U.plain v e.2.symm) hf
      · exact N.kept cid v x hf h

theorem Unsettled.same {w w' : World} {s : Nat} (U : Unsettled w s) (ok : WOk w) (hs : w.isSchema s = true)
    (h : SameNames w w') : Unsettled w' s where
  newest y hy := (h.isSchema y).trans (U.newest y hy)
  bare k sh t ha hs := U.bare k sh t ha ((h.anchors _ _ _ _ ha).1 hs)
  child p hp := by
    rw [h.parent s (ok.dom s hs)] at hp
    rw [h.uri]; exact U.child p hp
  plain u hu := U.plain u (by rw [← h.uri]; exact hu)

/-! ## Adding keywords -/

theorem resolveUri_ok {E : CEnv} {s : Nat} {u r : Uri} {a : Bool} {w w' : World}
    (h : resolveUri E s u a w = some (w', .ok r)) :
    (a = true ∧ r = u) ∨ (a = false ∧ ∃ b, w.baseUri s = some b ∧ E.lib.resolve u b = some r) := by
  cases a with
  | true =>
    obtain ⟨_, h⟩ := M.pure_run h
    cases h
    exact .inl ⟨rfl, rfl⟩
  | false =>
    have h := M.read_bind (show (M.read (fun w => w.baseUri s) >>= _) w = _ from h)
    cases hb : w.baseUri s with
    | none =>
      rw [hb] at h
      cases (M.raise_run h).2
    | some b =>
      rw [hb] at h
      cases hr : E.lib.resolve u b with
      | none => simp only [hr] at h; cases (M.raise_run h).2
      | some v =>
        simp only [hr] at h
        obtain ⟨_, h⟩ := M.pure_run h
        cases h
        exact .inr ⟨rfl, b, rfl, hr⟩

theorem setId_run {E : CEnv} {s : Nat} {t : String} {w w' : World} {r : Except Exc Unit}
    (h : (do let r ← resolveUri E s (E.lib.ofText t) (E.lib.isAbsolute (E.lib.ofText t)); setUri E.lib s r : M Unit) w
      = some (w', r)) :
    (w' = w ∧ ∃ e, r = .error e) ∨ ∃ u, r = .ok () ∧ w' = w.putUri E.lib s u ∧ IdUri E.lib (w.baseUri s) t u := by
  rcases M.bind_run h with ⟨w1, v, h1, h2⟩ | ⟨e, h1, rfl⟩
  · have := resolveUri_world h1; subst this
    obtain ⟨rfl, rfl⟩ := M.change_run h2
    exact .inr ⟨v, rfl, rfl, resolveUri_ok h1⟩
  · have := resolveUri_world h1; subst this
    exact .inl ⟨rfl, e, rfl⟩

theorem initId_run {E : CEnv} {s : Nat} {shape : KwShape} {v : Value} {w w' : World} {r : Except Exc Unit}
    (hsh : shape.isId = true) (h : initKw E s shape v w = some (w', r)) :
    (w' = w ∧ ∃ e, r = .error e) ∨ ∃ t u, v = .str t ∧ r = .ok () ∧ w' = w.putUri E.lib s u ∧ IdUri E.lib (w.baseUri s) t u := by
  have key : ∀ {t : String} {x : Except Exc Unit}, (match x with
      | .error e => M.raise e
      | .ok () => (do
          let r ← resolveUri E s (E.lib.ofText t) (E.lib.isAbsolute (E.lib.ofText t))
          setUri E.lib s r : M Unit)) w = some (w', r) →
      (w' = w ∧ ∃ e, r = .error e) ∨ ∃ u, r = .ok () ∧ w' = w.putUri E.lib s u ∧ IdUri E.lib (w.baseUri s) t u := by
    intro t x h
    obtain e | _ := x
    · obtain ⟨rfl, rfl⟩ := M.raise_run h
      exact .inl ⟨rfl, e, rfl⟩
    · exact setId_run h
  cases shape <;> cases hsh
  all_goals
    cases v <;> simp only [initKw] at h
    all_goals first
      | exact nomatch (show (none : Option (World × Except Exc Unit)) = some (w', r) from h)
      | skip
    rcases key h with h | ⟨u, h0, h1, h2⟩
    · exact .inl h
    · exact .inr ⟨_, u, rfl, h0, h1, h2⟩

theorem initAnchor_run {E : CEnv} {s : Nat} {shape : KwShape} {v : Value} {w w' : World} {r : Except Exc Unit}
    (hsh : AnchorShape shape) (h : initKw E s shape v w = some (w', r)) :
    (w' = w ∧ ∃ e, r = .error e) ∨ ∃ t u, v = .str t ∧ r = .ok () ∧ w.baseUri s = some u ∧
      w' = { w with caches := addSchema w.caches (w.cacheid s) (E.lib.ofText (u.str ++ "#" ++ t)) s } := by
  have key : ∀ {t : String}, addAnchor E s t w = some (w', r) → (w' = w ∧ ∃ e, r = .error e) ∨ ∃ u, r = .ok () ∧ w.baseUri s = some u ∧
      w' = { w with caches := addSchema w.caches (w.cacheid s) (E.lib.ofText (u.str ++ "#" ++ t)) s } := by
    intro t h
    have h := M.read_bind h
    cases hb : w.baseUri s with
    | none =>
      rw [hb] at h
      obtain ⟨rfl, rfl⟩ := M.raise_run h
      exact .inl ⟨rfl, _, rfl⟩
    | some b =>
      rw [hb] at h
      obtain ⟨rfl, rfl⟩ := M.change_run h
      exact .inr ⟨b, rfl, rfl, rfl⟩
  rcases hsh with rfl | rfl
  all_goals
    cases v <;> simp only [initKw] at h
    all_goals first
      | exact nomatch (show (none : Option (World × Except Exc Unit)) = some (w', r) from h)
      | skip
    rcases key h with h | ⟨u, h0, h1, h2⟩
    · exact .inl h
    · exact .inr ⟨_, u, rfl, h0, h1, h2⟩

/-- The constructor `b` keeps the URIs in order. -/
def NBuilds (lib : UriLib) (c0 : Caches) (n : Nat) (cid : String) (b : KwBuild) : Prop :=
  ∀ shape s w w' r, WOk w → w.isSchema s = true → w.cacheid s = cid → n ≤ s → NamesOk lib c0 n w →
    b shape s w = some (w', r) → NamesOk lib c0 n w'

theorem rearranged_text {w : World} {j : Nat} {t : String} (ho : Ord w.heap)
    (h : Rearranged (val w.heap j) (.str t)) : w.heap.data j = .str t := by
  refine noSchema_of_str ho ?_
  generalize val w.heap j = v at h
  cases h; rfl

theorem unique_or_same {w : World} {lib : UriLib} {s : Nat} {u : Uri} :
    w.putUri lib s u = w ∧ (w.uri s).isSome = true ∨ ¬ ((w.uri s).map (fun o => lib.same o u)).getD false = true := by
  by_cases h : ((w.uri s).map (fun o => lib.same o u)).getD false = true
  · refine .inl ⟨by unfold World.putUri; rw [if_pos h], ?_⟩
    cases hu : w.uri s with
    | none => rw [hu] at h; cases h
    | some _ => rfl
  · exact .inr h

theorem addKeyword_names {E : CEnv} (hE : LibOk E.lib) {kvs : List (String × Value)} {s n : Nat}
    {shape : KwShape} {key : String} {v : Value} {b : KwBuild} {w w' : World} {r : Except Exc Unit}
    {ms : List (String × Nat)} (ok : WOk w) (hs : w.isSchema s = true) (f : Filled kvs s w ms)
    (hb : Builds (w.cacheid s) key v b) (hn : NBuilds E.lib c0 n (w.cacheid s) b)
    (hns : n ≤ s) (N : NamesOk E.lib c0 n w) (hnew : key ∉ dkeys (w.keywords s))
    (hid : shape.isId = true → key = "$id" ∧ UniqueUri w s ∧ Unsettled w s)
    (hni : shape.isId = false → key ≠ "$id")
    (h : addKeyword E s shape key v b w = some (w', r)) :
    NamesOk E.lib c0 n w' ∧ (∀ k ∈ dkeys (w'.keywords s), k = key ∨ k ∈ dkeys (w.keywords s)) ∧
      (shape.boot = true → shape.isId = false → Unsettled w s → Unsettled w' s) := by
  have hlt := ok.dom s hs
  unfold addKeyword at h
  have same1 : ∀ {w1 : World}, Grow w w1 → w1.info = w.info → SameNames w w1 := fun g hi =>
    .of hi (fun x hx => g.ext.parent hx) fun x k o h => g.ext.data (ok.ord.kid _ _ (ok.kwKid h)).2.1
  have kw1 : ∀ {w1 : World}, Grow w w1 → w1.keywords s = w.keywords s := fun g => by
    simp only [World.keywords, g.info s hlt id]
  rcases M.bind_run h with ⟨w1, j, h1, h2⟩ | ⟨e, h1, rfl⟩
  rotate_left
  · obtain ⟨ok1, g1, i1, -⟩ := hb shape s w w' _ ok hs rfl h1
    refine ⟨hn shape s w w' _ ok hs rfl hns N h1, fun k hk => .inr ?_, fun hbt _ U => U.same ok hs (same1 g1 (i1 hbt))⟩
    rw [← kw1 g1]; exact hk
  obtain ⟨ok1, g1, i1, c1⟩ := hb shape s w w1 _ ok hs rfl h1
  have N1 := hn shape s w w1 _ ok hs rfl hns N h1
  obtain ⟨j1, j2, j3, j4, j5, j6⟩ := c1 j rfl
  have hs1 : w1.isSchema s = true := by rw [g1.isSchema hlt]; exact hs
  have d1 : w1.heap.data s = .obj ms := (g1.ext.data hlt).trans f.data
  have hnew1 : key ∉ dkeys (w1.keywords s) := by rw [kw1 g1]; exact hnew
  have hjs : j ≠ s := by omega
  have hid1 : shape.isId = true → key = "$id" ∧ UniqueUri w1 s ∧ Unsettled w1 s := by
    intro hi
    obtain ⟨a, b, c⟩ := hid hi
    have hbt : shape.boot = true := by cases shape <;> simp_all [KwShape.boot, KwShape.isId]
    exact ⟨a, (SameUris.of_info (i1 hbt)).unique b, c.same ok hs (same1 g1 (i1 hbt))⟩
  have un1 : shape.boot = true → Unsettled w s → Unsettled w1 s := fun hbt U => U.same ok hs (same1 g1 (i1 hbt))
  -- entering
  have fin : ∀ {w2 : World} {r' : Except Exc Unit}, WOk w2 → w2.heap = w1.heap → w2.isSchema s = true →
      w2.keywords s = w1.keywords s →
      M.change (fun w =>
        let w := w.setInfo s (fun i => { i with keywords := dset key { shape, json := j } i.keywords })
        match w.heap.data s with
        | .obj ms => { w with heap := w.heap.setData s (.obj (dset key j ms)) }
        | _ => w) w2 = some (w', r') →
      w' = w2.entered s key shape j ms ∧ ∀ k ∈ dkeys (w'.keywords s), k = key ∨ k ∈ dkeys (w.keywords s) := by
    intro w2 r' ok2 hh hs2 hk2 h
    obtain ⟨hw, -⟩ := M.change_run h
    have d2 : w2.heap.data s = .obj ms := by rw [hh, d1]
    simp only [World.setInfo, d2] at hw
    have hw : w' = w2.entered s key shape j ms := hw
    refine ⟨hw, fun k hk => ?_⟩
    rw [hw, entered_keywords hs2, if_pos rfl, mem_dkeys_dset, hk2, kw1 g1] at hk
    exact hk
  cases hisId : shape.isId with
  | true =>
    obtain ⟨hkey, hu1, U1⟩ := hid1 hisId
    have hanc : ¬ AnchorShape shape := by rintro (rfl | rfl) <;> cases hisId
    rcases M.bind_run h2 with ⟨w2, x, h3, h4⟩ | ⟨e, h3, rfl⟩
    rotate_left
    · rcases initId_run hisId h3 with ⟨rfl, -⟩ | ⟨t, u, rfl, h, -⟩
      · exact ⟨N1, fun k hk => .inr (by rw [← kw1 g1]; exact hk), fun _ h => by cases h⟩
      · cases h
    · rcases initId_run hisId h3 with ⟨-, _, h⟩ | ⟨t, u, rfl, -, rfl, hidu⟩
      · cases h
      · obtain ⟨a1, a2, a3, a4, a5, a6⟩ := putUri_spec (lib := E.lib) (u := u) ok1 hs1 hu1
        have hs2 : (w1.putUri E.lib s u).isSchema s = true := a4.isSchema.trans hs1
        obtain ⟨hw, hks⟩ := fin a1 a2 hs2 a5 h4
        refine ⟨?_, hks, fun _ h => by cases h⟩
        have ht := rearranged_text ok1.ord j5
        subst hkey
        have hd2 : (w1.putUri E.lib s u).heap.data s = .obj ms := by rw [a2]; exact d1
        have hnew2 : "$id" ∉ dkeys ((w1.putUri E.lib s u).keywords s) := by rw [a5]; exact hnew1
        rcases unique_or_same (w := w1) (lib := E.lib) (s := s) (u := u) with ⟨e, hsome⟩ | hch
        · rw [e] at hw
          rw [hw]
          refine N1.same ok1 (entered_same ok1 hs1 d1 hnew1 hjs (.inr ?_) hanc) rfl
          cases hp : w1.heap.parent s with
          | none => rfl
          | some p => rw [U1.child p hp] at hsome; cases hsome
        · obtain ⟨q0, q1, q2, q3, q4, q5⟩ := putUri_change (u := u) hch hs1 ok1
          have says2 : ∀ x k sh t, Says (w1.putUri E.lib s u) x k sh t ↔ Says w1 x k sh t := by
            intro x k sh t
            unfold Says
            rw [q3, q0]
          have says3 : ∀ x k sh t', Says w' x k sh t' ↔ Says w1 x k sh t' ∨ (x = s ∧ k = "$id" ∧ sh = shape ∧ w1.heap.data j = .str t') := by
            intro x k sh t'
            rw [hw, entered_says a1 hs2 hd2 hnew2 hjs, says2, q0]
          refine N1.putUri hE ok1 hns hs1 hu1 U1 hch (fun x => ?_) (fun x => ?_) (fun x => ?_) (fun x => ?_) ?_ ?_ ?_ ?_ ?_ ?_
          · rw [hw, entered_parent, q0]
          · rw [hw, entered_uri]
          · rw [hw, entered_cacheid, q2]
          · rw [hw, entered_isSchema, q4]
          · rw [hw]; rfl
          · intro x k sh t' h hne
            rcases (says3 _ _ _ _).1 h with h | h
            · exact h
            · exact absurd h.1 (hne.resolve_left (fun hk => hk h.2.1))
          · intro x k sh t' ha h
            rcases (says3 _ _ _ _).1 h with h | h
            · exact h
            · exact absurd (h.2.2.1 ▸ ha) hanc
          · intro x k sh t' _ h
            exact (says3 _ _ _ _).2 (.inl h)
          · intro x hx
            rw [hw, entered_keywords hs2, if_neg hx, q3]
          · intro p hp
            refine ⟨by rw [hw, entered_keywords hs2, if_pos rfl, mem_dkeys_dset]; exact .inl rfl, fun sh t' h => ?_⟩
            rcases (says3 _ _ _ _).1 h with ⟨o, h, -⟩ | h
            · exact absurd (mem_dkeys.2 ⟨o, h⟩) hnew1
            · rw [ht] at h
              cases h.2.2.2
              rw [base_up ok1.ord hp (U1.child p hp)] at hidu
              exact hidu
  | false =>
    have hkey := hni hisId
    have hu1 : shape.isId = true → UniqueUri w1 s := fun h => by rw [hisId] at h; cases h
    by_cases hanc : AnchorShape shape
    · have hbt : shape.boot = false := by rcases hanc with rfl | rfl <;> rfl
      rcases M.bind_run h2 with ⟨w2, x, h3, h4⟩ | ⟨e, h3, rfl⟩
      rotate_left
      · rcases initAnchor_run hanc h3 with ⟨rfl, -⟩ | ⟨t, u, rfl, h, -⟩
        · exact ⟨N1, fun k hk => .inr (by rw [← kw1 g1]; exact hk), fun h => by rw [hbt] at h; cases h⟩
        · cases h
      · obtain ⟨n2, -⟩ := initKw_spec hE ok1 hs1 hu1 h3
        rcases initAnchor_run hanc h3 with ⟨-, _, h⟩ | ⟨t, u, rfl, -, hbu, e2⟩
        · cases h
        · obtain ⟨hw, hks⟩ := fin n2.ok n2.heap (n2.node.isSchema.trans hs1) n2.keywords h4
          refine ⟨?_, hks, fun h => by rw [hbt] at h; cases h⟩
          rw [hw, e2]
          exact N1.anchor ok1 hns hs1 d1 hnew1 hjs hkey hanc (rearranged_text ok1.ord j5) hbu
    · rcases M.bind_run h2 with ⟨w2, x, h3, h4⟩ | ⟨e, h3, rfl⟩
      · obtain ⟨n2, -⟩ := initKw_spec hE ok1 hs1 hu1 h3
        obtain ⟨sn, hc⟩ := initKw_same hisId hanc h3
        have N2 := N1.same ok1 sn hc
        have hs2 := n2.node.isSchema.trans hs1
        have hd2 : w2.heap.data s = .obj ms := by rw [n2.heap]; exact d1
        have hnew2 : key ∉ dkeys (w2.keywords s) := by rw [n2.keywords]; exact hnew1
        obtain ⟨hw, hks⟩ := fin n2.ok n2.heap hs2 n2.keywords h4
        have sn2 := entered_same (key := key) (shape := shape) (j := j) (ms := ms) n2.ok hs2 hd2 hnew2 hjs (.inl hkey) hanc
        refine ⟨?_, hks, fun hbt _ U => ?_⟩
        · rw [hw]
          exact N2.same n2.ok sn2 rfl
        · rw [hw]
          exact ((un1 hbt U).same ok1 hs1 sn).same n2.ok hs2 sn2
      · obtain ⟨n2, -⟩ := initKw_spec hE ok1 hs1 hu1 h3
        obtain ⟨sn, hc⟩ := initKw_same hisId hanc h3
        refine ⟨N1.same ok1 sn hc, fun k hk => .inr ?_, fun hbt _ U => (un1 hbt U).same ok1 hs1 sn⟩
        rw [n2.keywords, kw1 g1] at hk
        exact hk

end Jschon
