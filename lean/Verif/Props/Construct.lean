import Verif.Proof.ConstructDoc
import Verif.Proof.ResolveFrame
import Verif.Proof.ToyEnv

/-!
# C51 and C55 to C58: constructed schemas
-/

namespace Jschon
open Spec

/-! ## C51: canonical URIs -/

/-- No two schemas in a cache have the same URI. -/
def Spec.UrisDiffer (w : World) (cid : String) : Prop :=
  ∀ s t u, w.uri s = some u → w.uri t = some u → w.cacheid s = cid → w.cacheid t = cid → s = t

/-- No schema above `s` (or `s` itself) has a URI with a fragment. -/
def Spec.PlainUris (w : World) (s : Nat) : Prop :=
  ∀ r u, Within w.heap r s → w.uri r = some u → u.fragment = none

/-- No anchor in the cache looks like a JSON pointer. -/
def Spec.PlainAnchors (w : World) (cid : String) : Prop :=
  ∀ u f l, (cacheGet w.caches cid u).isSome = true → u.fragment = some f → f.toList ≠ '/' :: l

/-- C51 (`_partial`: the three hypotheses after the first are needed, see the witnesses below): the
canonical URI of every schema of every document is a URI for which `get_schema` returns that schema,
without changing anything. -/
theorem C51_canonical_partial {w : World} (hw : CHistory w) {root s : Nat} (hs : SchemaIn w root s)
    (hu : UrisDiffer w (w.cacheid s)) (hf : PlainUris w s) (ha : PlainAnchors w (w.cacheid s))
    {cu : Uri} (hc : w.canonicalUri s = .ok (some cu)) (E : CEnv) (n : Nat) (m : Option Uri) :
    getSchema E n cu m (w.cacheid s) w = some (w, .ok s) := by
  have ok := hw.ok
  obtain ⟨hroot, ⟨ks, hr⟩, hsc⟩ := hs
  have get : ∀ r u, w.uri r = some u → u.fragment = none → w.cacheid r = w.cacheid s →
      cacheGet w.caches (w.cacheid s) u = some r := by
    intro r u h1 h2 h3
    obtain ⟨t, a, b, c⟩ := ok.uris r u h1 h2
    rw [h3] at b c
    rw [hu r t u h1 a h3 c]; exact b
  unfold World.canonicalUri at hc
  cases hus : w.uri s with
  | some u =>
    rw [hus] at hc; cases hc
    exact getSchemaWith_cached (get s _ hus (hf s _ ⟨[], .here⟩ hus) rfl)
  | none =>
    rw [hus] at hc
    obtain ⟨r, u, k, ks', e1, e2, e3, e4⟩ := canonicalUp_spec ok hroot (s + 1) s ks [] cu hr
      (.inl ⟨hsc, rfl⟩) (fun r u ks' hr => hf r u ⟨ks', hr⟩) hc
    rw [List.append_nil] at e4
    have hfu := hf r u ⟨_, e1⟩ e2
    obtain ⟨l, hl⟩ := uriFragment_slash k ks'
    have hfr : cu.fragment = some (Ptr.uriFragment ⟨k :: ks'⟩) := by rw [e4]; rfl
    have hnf : cu.noFragment = u := by
      rw [e4]; cases u; simp only [Uri.noFragment, Uri.withFragment] at hfu ⊢; rw [hfu]
    refine getSchemaWith_fragment (r := r) (ks := k :: ks') ?_ hfr ?_ ?_ (C04_fragment_roundtrip _)
      (reach_resolve ok.keys.nodup e1) hsc
    · cases hcg : cacheGet w.caches (w.cacheid s) cu with
      | none => rfl
      | some x => exact absurd hl (ha cu _ l (by rw [hcg]; rfl) hfr)
    · intro h0; rw [h0] at hl; cases hl
    · rw [hnf]; exact get r u e2 hfu e3

/-- C51: every schema of a document whose root has a URI has a canonical URI; `DocPost` and
`C55_value` say that the root of every document that is an object has one. -/
theorem C51_exists {w : World} (hw : CHistory w) {root s : Nat} (hs : SchemaIn w root s)
    (hr : (w.uri root).isSome = true) (hf : PlainUris w s) :
    ∃ cu, w.canonicalUri s = .ok (some cu) := by
  obtain ⟨hroot, ⟨ks, hk⟩, hsc⟩ := hs
  unfold World.canonicalUri
  cases hus : w.uri s with
  | some u => exact ⟨u, rfl⟩
  | none =>
    refine canonicalUp_some hw.ok hroot hr (s + 1) s ks [] hk (by omega) ?_
      fun r u ks' h => hf r u ⟨ks', h⟩
    rintro rfl
    rw [hus] at hr; cases hr

/-- Construct a document in an empty catalog. -/
def Toy.build (doc : Value) : Option (World × Except Exc Nat) :=
  newDocument Toy.env 9 "" none (some ⟨"m20", none⟩) doc .empty

/-- What `get_schema(s.canonical_uri)` returns. -/
def Toy.lookup (w : World) (s : Nat) : Option (Except Exc Nat) :=
  match w.canonicalUri s with
  | .ok (some cu) => (getSchema Toy.env 9 cu none (w.cacheid s) w).map (·.2)
  | _ => none

/-- `r` is the instance `s`. -/
def Toy.gives (r : Except Exc Nat) (s : Nat) : Bool :=
  match r with
  | .ok t => t == s
  | .error _ => false

theorem Toy.gives_iff {r : Except Exc Nat} {s : Nat} : Toy.gives r s = true ↔ r = .ok s := by
  cases r <;> simp [Toy.gives]

/-- Construction of `doc` succeeds, `keys` lead from its root to a schema, and that schema is not what
its canonical URI leads to. -/
def Toy.lost (doc : Value) (keys : List String) (s : Nat) : Bool :=
  match Toy.build doc with
  | some (w, r) => Toy.gives r 0 && (w.heap.parent 0).isNone && w.isSchema s &&
      Toy.gives (resolveJson w.heap keys 0) s &&
      (match Toy.lookup w s with | some r => !Toy.gives r s | none => false)
  | none => false

/-- There is a history, and a schema in a document, whose canonical URI does not lead to it. -/
def Spec.CanonicalLost : Prop :=
  ∃ (E : CEnv) (n : Nat) (w w' : World) (root s : Nat) (cu : Uri) (r : Except Exc Nat), CEnvOk E ∧
    CHistory w ∧ SchemaIn w root s ∧ w.canonicalUri s = .ok (some cu) ∧
    getSchema E n cu none (w.cacheid s) w = some (w', r) ∧ r ≠ .ok s

theorem Toy.lost_spec {doc : Value} (hd : doc.WF) {keys : List String} {s : Nat}
    (h : Toy.lost doc keys s = true) : CanonicalLost := by
  unfold Toy.lost at h
  cases hb : Toy.build doc with
  | none => rw [hb] at h; cases h
  | some p =>
    obtain ⟨w, r⟩ := p
    rw [hb] at h
    simp only [Bool.and_eq_true, Toy.gives_iff, Option.isNone_iff_eq_none] at h
    obtain ⟨⟨⟨⟨h1, h2⟩, h3⟩, h4⟩, h5⟩ := h
    have hw : CHistory w := .new .start Toy.env_ok hd (fun u hu => by cases hu) hb
    obtain ⟨ks, -, hk⟩ := resolve_reach h4
    unfold Toy.lookup at h5
    cases hc : w.canonicalUri s with
    | error e => rw [hc] at h5; cases h5
    | ok o =>
      cases o with
      | none => rw [hc] at h5; cases h5
      | some cu =>
        rw [hc] at h5
        simp only at h5
        cases hg : getSchema Toy.env 9 cu none (w.cacheid s) w with
        | none => rw [hg] at h5; cases h5
        | some q =>
          obtain ⟨w', r'⟩ := q
          rw [hg] at h5
          refine ⟨_, 9, w, w', 0, s, cu, r', Toy.env_ok, hw, ⟨h2, ⟨ks, hk⟩, h3⟩, hc, hg, ?_⟩
          rintro rfl
          simp [Toy.gives] at h5

/-- C51 fails when two schemas have the same `$id`: the later one is found. -/
theorem C51_duplicate_id : CanonicalLost :=
  Toy.lost_spec (doc := .obj [("$defs", .obj [("a", .obj [("$id", .str "h/d")]),
    ("b", .obj [("$id", .str "h/d")])])]) (Toy.wf_spec _ (by decide +kernel)) (keys := ["$defs", "a"]) (s := 2)
    (by decide +kernel)

/-- C51 fails when an anchor looks like a JSON pointer: the schema with the anchor is found. -/
theorem C51_slash_anchor : CanonicalLost :=
  Toy.lost_spec (doc := .obj [("$id", .str "h/r"), ("$defs", .obj [("a", .obj []),
    ("b", .obj [("$anchor", .str "/$defs/a")])])]) (Toy.wf_spec _ (by decide +kernel)) (keys := ["$defs", "a"]) (s := 3)
    (by decide +kernel)

/-- C51 fails below a schema whose `$id` has an empty fragment: nothing is found. -/
theorem C51_empty_fragment : CanonicalLost :=
  Toy.lost_spec (doc := .obj [("$id", .str "h/r"), ("$defs", .obj [("a",
    .obj [("$id", .str "h/b#"), ("not", .bool true)])])]) (Toy.wf_spec _ (by decide +kernel))
    (keys := ["$defs", "a", "not"]) (s := 5) (by decide +kernel)

/-- A check of the hypotheses of `C51_canonical_partial` for a particular world. -/
def Toy.plain (w : World) : Bool :=
  (List.range w.heap.next).all (fun s => (w.uri s).all (fun u => u.fragment.isNone) &&
    (List.range w.heap.next).all (fun t => w.uri s = none || w.uri s ≠ w.uri t || s = t)) &&
  w.caches.all (fun c => c.2.all (fun e => (e.1.fragment.getD "").toList.head? ≠ some '/'))

theorem Toy.plain_spec {w : World} (hw : CHistory w) (h : Toy.plain w = true) (cid : String) (s : Nat) :
    UrisDiffer w cid ∧ PlainUris w s ∧ PlainAnchors w cid := by
  simp only [Toy.plain, Bool.and_eq_true, List.all_eq_true, List.mem_range] at h
  have dom : ∀ s u, w.uri s = some u → s < w.heap.next := fun s u h => hw.ok.dom s (isSchema_of_uri h)
  refine ⟨fun a b u ha hb _ _ => ?_, fun r u _ hr => ?_, fun u f l hc hf hl => ?_⟩
  · have := (h.1 a (dom a u ha)).2 b (dom b u hb)
    rw [ha, hb] at this
    simpa using this
  · have := (h.1 r (dom r u hr)).1
    rw [hr] at this
    simpa using this
  · unfold cacheGet at hc
    cases h1 : alookup cid w.caches with
    | none => rw [h1] at hc; cases hc
    | some c =>
      rw [h1] at hc
      simp only [Option.bind_some] at hc
      cases h2 : alookup u c with
      | none => rw [h2] at hc; cases hc
      | some t =>
        have := h.2 _ (alookup_mem h1) _ (alookup_mem h2)
        simp [hf, hl] at this

/-- A document with anchors, embedded resources and awkward member names. -/
def Toy.doc : Value :=
  .obj [("$id", .str "h/r"), ("$anchor", .str "top"),
    ("$defs", .obj [("a/~% ", .obj [("allOf", .arr [.bool true, .obj [("$ref", .str "e")]])]),
      ("b", .obj [("$id", .str "h/e"), ("not", .obj [("$ref", .str "r#top")])])])]

/-- The hypotheses of `C51_canonical_partial` can hold. -/
example : ∃ (w : World) (s : Nat) (cu : Uri), CHistory w ∧ SchemaIn w 0 s ∧ UrisDiffer w (w.cacheid s) ∧
    PlainUris w s ∧ PlainAnchors w (w.cacheid s) ∧ w.canonicalUri s = .ok (some cu) ∧
    cu.str = "h/r#/$defs/a~1~0%25%20/allOf/1" := by
  have h : (Toy.build Toy.doc).map (fun p => Toy.plain p.1 && p.1.isSchema 7 &&
      (p.1.heap.parent 0).isNone && Toy.gives (resolveJson p.1.heap ["$defs", "a/~% ", "allOf", "1"] 0) 7 &&
      (match p.1.canonicalUri 7 with
        | .ok (some cu) => decide (cu.str = "h/r#/$defs/a~1~0%25%20/allOf/1")
        | _ => false)) = some true := by decide +kernel
  obtain ⟨⟨w, r⟩, hb, hp⟩ := Option.map_eq_some_iff.1 h
  simp only [Bool.and_eq_true, Option.isNone_iff_eq_none, Toy.gives_iff] at hp
  obtain ⟨⟨⟨⟨h1, h2⟩, h3⟩, h4⟩, h5⟩ := hp
  have hw : CHistory w :=
    .new .start Toy.env_ok (Toy.wf_spec _ (by decide +kernel)) (fun u hu => by cases hu) hb
  obtain ⟨ks, -, hk⟩ := resolve_reach h4
  obtain ⟨a, b, c⟩ := Toy.plain_spec hw h1 (w.cacheid 7) 7
  cases hc : w.canonicalUri 7 with
  | error e => rw [hc] at h5; cases h5
  | ok o =>
    cases o with
    | none => rw [hc] at h5; cases h5
    | some cu =>
      rw [hc] at h5
      exact ⟨w, 7, cu, hw, ⟨h3, ⟨ks, hk⟩, h2⟩, a, b, c, hc, of_decide_eq_true h5⟩

/-! ## C55: the value of a constructed schema -/

/-- C55: a schema that was constructed successfully is a new instance without a parent, in the given
cache, and its value is the given one but for the order of the members of objects. -/
theorem C55_value {E : CEnv} (hE : CEnvOk E) {n : Nat} {cid : String} {uri metaUri : Option Uri}
    {doc : Value} {w w' : World} {s : Nat} (hw : CHistory w) (hd : doc.WF)
    (hu : ∀ u, uri = some u → ∀ q, w.uri q = some u → w.cacheid q ≠ cid)
    (h : newDocument E n cid uri metaUri doc w = some (w', .ok s)) :
    w.isSchema s = false ∧ w'.isSchema s = true ∧ w'.heap.parent s = none ∧ w'.cacheid s = cid ∧
      Rearranged (val w'.heap s) doc := by
  obtain ⟨rfl, -, h3, h4, h5, h6, -⟩ := (newDocument_spec hE hd (.doc hw.ok hu) h).ret s rfl
  refine ⟨?_, h3, h4, h5, h6⟩
  cases hs : w.isSchema w.heap.next with
  | false => rfl
  | true => exact absurd (hw.ok.dom _ hs) (Nat.lt_irrefl _)

/-- C55: a schema object constructed as a document has a URI. -/
theorem C55_named {E : CEnv} (hE : CEnvOk E) {n : Nat} {cid : String} {uri metaUri : Option Uri}
    {kvs : List (String × Value)} {w w' : World} {s : Nat} (hw : CHistory w) (hd : (Value.obj kvs).WF)
    (hu : ∀ u, uri = some u → ∀ q, w.uri q = some u → w.cacheid q ≠ cid)
    (h : newDocument E n cid uri metaUri (.obj kvs) w = some (w', .ok s)) :
    ∃ u, w'.uri s = some u := by
  obtain ⟨-, -, -, -, -, -, -, h8⟩ := (newDocument_spec hE hd (.doc hw.ok hu) h).ret s rfl
  exact Option.isSome_iff_exists.1 (h8 kvs rfl)

/-! ## C56: references are resolved -/

/-- C56: every reference keyword of every schema of a document that was constructed successfully refers
to a schema. -/
theorem C56_resolved {E : CEnv} (hE : CEnvOk E) {n : Nat} {cid : String} {uri metaUri : Option Uri}
    {doc : Value} {w w' : World} {s : Nat} (hw : CHistory w) (hd : doc.WF)
    (hu : ∀ u, uri = some u → ∀ q, w.uri q = some u → w.cacheid q ≠ cid)
    (h : newDocument E n cid uri metaUri doc w = some (w', .ok s)) {t : Nat} (ht : SchemaIn w' s t)
    {k : String} {o : KwObj} (hk : (k, o) ∈ w'.keywords t) (hr : Refers o) :
    ∃ r, o.refschema = some r ∧ w'.isSchema r = true := by
  have p := newDocument_spec hE hd (.doc hw.ok hu) h
  obtain ⟨-, -, -, -, -, -, h7, -⟩ := p.ret s rfl
  obtain ⟨-, ⟨ks, hks⟩, hts⟩ := ht
  have hi : o.shape.isRef = true := by rcases hr with hr | hr | hr <;> rw [hr] <;> rfl
  obtain ⟨r, hr'⟩ := Option.isSome_iff_exists.1 (h7 t (reach_desc hks) hts _ hk hi)
  refine ⟨r, hr', ?_⟩
  simp only [World.keywords] at hk
  cases hi : w'.info t with
  | none => rw [hi] at hk; cases hk
  | some i =>
    rw [hi] at hk
    exact (p.ok.shapes t i _ hi hk).2 r hr'

/-! ## C57: nothing else changes -/

/-- Everything that instance `x` is, including what its reference keywords refer to, is the same in both
worlds. -/
structure Spec.Unchanged (w w' : World) (x : Nat) : Prop where
  value : val w'.heap x = val w.heap x
  parent : w'.heap.parent x = w.heap.parent x
  key : w'.heap.key x = w.heap.key x
  isSchema : w'.isSchema x = w.isSchema x
  uri : w'.uri x = w.uri x
  baseUri : w'.baseUri x = w.baseUri x
  metaUri : w'.metaUri x = w.metaUri x
  cacheid : w'.cacheid x = w.cacheid x
  keywords : w'.keywords x = w.keywords x

theorem nearest_old {w w' : World} (ok : WOk w) (g : Grown w w') (b : Before w.heap.next w w')
    (attr : SInfo → Option Uri) : ∀ n x, x < w.heap.next → w'.nearest attr n x = w.nearest attr n x
  | 0, _, _ => rfl
  | n + 1, x, hx => by
    simp only [World.nearest, b x hx, g.ext.parent hx]
    cases (w.info x).bind attr with
    | some u => rfl
    | none =>
      cases hp : w.heap.parent x with
      | none => rfl
      | some p => exact nearest_old ok g b attr n p (Nat.lt_trans (ok.ord.par x p hp) hx)

theorem Grown.unchanged {w w' : World} (g : Grown w w') (ok : WOk w) (ok' : WOk w')
    (b : Before w.heap.next w w') {x : Nat} (hx : x < w.heap.next) : Unchanged w w' x where
  value := g.val ok ok' hx
  parent := g.ext.parent hx
  key := by simp only [JHeap.key, g.node x hx]
  isSchema := g.isSchema hx
  uri := g.uri hx
  metaUri := nearest_old ok g b _ _ _ hx
  baseUri := by simp only [World.baseUri, nearest_old ok g b _ _ _ hx]
  cacheid := g.cacheid hx
  keywords := by simp only [World.keywords, b x hx]

/-- C57: constructing a schema changes no instance that exists already, whether construction succeeds or
raises. -/
theorem C57_new {E : CEnv} (hE : CEnvOk E) {n : Nat} {cid : String} {uri metaUri : Option Uri}
    {doc : Value} {w w' : World} {r : Except Exc Nat} (hw : CHistory w) (hd : doc.WF)
    (hu : ∀ u, uri = some u → ∀ q, w.uri q = some u → w.cacheid q ≠ cid)
    (h : newDocument E n cid uri metaUri doc w = some (w', r)) {x : Nat} (hx : x < w.heap.next) :
    Unchanged w w' x :=
  let p := newDocument_spec hE hd (.doc hw.ok hu) h
  p.grown.unchanged hw.ok p.ok (newDocument_before hE n _ _ _ _ _ _ _ hd (.doc hw.ok hu) h) hx

/-- C57: neither does `get_schema`. -/
theorem C57_get {E : CEnv} (hE : CEnvOk E) {n : Nat} {u : Uri} {metaUri : Option Uri} {cid : String}
    {w w' : World} {r : Except Exc Nat} (hw : CHistory w)
    (h : getSchema E n u metaUri cid w = some (w', r)) {x : Nat} (hx : x < w.heap.next) :
    Unchanged w w' x :=
  let p := getSchema_spec hE hw.ok h
  p.2.1.unchanged hw.ok p.1 (getSchema_before hE hw.ok h) hx

/-! ## C58: what `get_schema` returns -/

/-- C58: `get_schema` returns nothing but schemas. -/
theorem C58_schema {E : CEnv} (hE : CEnvOk E) {n : Nat} {u : Uri} {metaUri : Option Uri} {cid : String}
    {w w' : World} {t : Nat} (hw : CHistory w)
    (h : getSchema E n u metaUri cid w = some (w', .ok t)) : w'.isSchema t = true :=
  (getSchema_spec hE hw.ok h).2.2 t rfl

/-- The hypotheses of C55 to C58 can hold, with references within and across resources. -/
example : ∃ (w w' : World), newDocument Toy.env 9 "" none (some ⟨"m20", none⟩) Toy.doc .empty = some (w, .ok 0) ∧
    CHistory w ∧ SchemaIn w 0 7 ∧ (∃ o, ("$ref", o) ∈ w.keywords 7 ∧ Refers o ∧ o.refschema = some 9) ∧
    getSchema Toy.env 9 ⟨"h/r", some "top"⟩ none "" w = some (w', .ok 0) := by
  have h : (Toy.build Toy.doc).map (fun p => Toy.gives p.2 0 && p.1.isSchema 7 &&
      (p.1.heap.parent 0).isNone && Toy.gives (resolveJson p.1.heap ["$defs", "a/~% ", "allOf", "1"] 0) 7 &&
      (p.1.keywords 7).any (fun kv => kv.1 = "$ref" && kv.2.shape = .ref && kv.2.refschema = some 9) &&
      (match getSchema Toy.env 9 ⟨"h/r", some "top"⟩ none "" p.1 with
        | some (_, r) => Toy.gives r 0
        | none => false)) = some true := by decide +kernel
  obtain ⟨⟨w, r⟩, hb, hp⟩ := Option.map_eq_some_iff.1 h
  simp only [Bool.and_eq_true, Option.isNone_iff_eq_none, Toy.gives_iff, List.any_eq_true,
    decide_eq_true_eq] at hp
  obtain ⟨⟨⟨⟨⟨rfl, h2⟩, h3⟩, h4⟩, ⟨⟨k, o⟩, h5, ⟨rfl, h6⟩, h7⟩⟩, h8⟩ := hp
  have hw : CHistory w :=
    .new .start Toy.env_ok (Toy.wf_spec _ (by decide +kernel)) (fun u hu => by cases hu) hb
  obtain ⟨ks, -, hk⟩ := resolve_reach h4
  cases hg : getSchema Toy.env 9 ⟨"h/r", some "top"⟩ none "" w with
  | none => rw [hg] at h8; cases h8
  | some q =>
    obtain ⟨w', r'⟩ := q
    rw [hg] at h8
    rw [Toy.gives_iff.1 h8] at hg
    exact ⟨w, w', hb, hw, ⟨h3, ⟨ks, hk⟩, h2⟩, ⟨o, h5, .inl h6, h7⟩, hg⟩

end Jschon
