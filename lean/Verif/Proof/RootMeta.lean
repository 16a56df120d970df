import Verif.Proof.RootUri
import Verif.Spec.Validate

/-!
# The metaschema of a document
-/

namespace Jschon
open Spec

/-- `schema._metaschema_uri` -/
def World.ownMeta (w : World) (s : Nat) : Option Uri := (w.info s).bind SInfo.metaUri

theorem setInfo_ownMeta {w : World} {s : Nat} {f : SInfo → SInfo} (hf : ∀ i, (f i).metaUri = i.metaUri) (x : Nat) :
    (w.setInfo s f).ownMeta x = w.ownMeta x := by
  unfold World.ownMeta
  rw [setInfo_info]
  split
  · cases h : w.info x with
    | none => simp_all
    | some i => subst x; simp [h, hf]
  · rfl

theorem putUri_ownMeta {lib : UriLib} {w : World} {s : Nat} {u : Uri} (x : Nat) :
    (w.putUri lib s u).ownMeta x = w.ownMeta x := by
  unfold World.putUri
  split
  · rfl
  · exact setInfo_ownMeta (w := w) (s := s) (f := fun i => { i with uri := some u }) (fun _ => rfl) x

theorem resolveSet_ownMeta {E : CEnv} {s : Nat} {u : Uri} {a : Bool} {w w' : World} {r : Except Exc Unit}
    (h : (do let r ← resolveUri E s u a; setUri E.lib s r : M Unit) w = some (w', r)) (x : Nat) :
    w'.ownMeta x = w.ownMeta x := by
  rcases M.bind_run h with ⟨w1, v, h1, h2⟩ | ⟨e, h1, _⟩
  · have := resolveUri_world h1; subst this
    obtain ⟨rfl, _⟩ := M.change_run h2
    exact putUri_ownMeta x
  · have := resolveUri_world h1; subst this
    rfl

theorem addAnchor_ownMeta {E : CEnv} {s : Nat} {t : String} {w w' : World} {r : Except Exc Unit}
    (h : addAnchor E s t w = some (w', r)) (x : Nat) : w'.ownMeta x = w.ownMeta x := by
  have h := M.read_bind h
  cases hb : w.baseUri s with
  | none =>
    rw [hb] at h
    obtain ⟨rfl, _⟩ := M.raise_run h
    rfl
  | some b =>
    rw [hb] at h
    obtain ⟨rfl, _⟩ := M.change_run h
    rfl

/-- Only `$schema` sets the metaschema. -/
theorem initKw_ownMeta {E : CEnv} {s : Nat} {shape : KwShape} {v : Value} {w w' : World} {r : Except Exc Unit}
    (hs : shape ≠ .schema) (h : initKw E s shape v w = some (w', r)) : w'.ownMeta s = w.ownMeta s := by
  unfold initKw at h
  split at h
  all_goals try dsimp only at h
  all_goals try (split at h)
  all_goals first
    | (exact absurd rfl hs)
    | (obtain ⟨rfl, _⟩ := M.pure_run h; rfl)
    | (obtain ⟨rfl, _⟩ := M.raise_run h; rfl)
    | exact resolveSet_ownMeta h _
    | exact addAnchor_ownMeta h _
    | (exact nomatch (show (none : Option (World × Except Exc Unit)) = some (w', r) from h))
    | skip
  all_goals
    generalize Uri.validate E.lib (E.lib.ofText _) _ _ _ _ = x at h
    obtain e | _ := x
    · obtain ⟨rfl, _⟩ := M.raise_run h
      rfl
    · exact resolveSet_ownMeta h _

theorem initSchema_ownMeta {E : CEnv} {s : Nat} {v : Value} {w w' : World} (hs : w.isSchema s = true)
    (h : initKw E s .schema v w = some (w', .ok ())) : ∃ t, v = .str t ∧ w'.ownMeta s = some (E.lib.ofText t) := by
  cases v <;> simp only [initKw] at h
  case str t =>
    refine ⟨_, rfl, ?_⟩
    generalize Uri.validate E.lib (E.lib.ofText _) true true true true = x at h
    obtain e | _ := x
    · obtain ⟨-, h⟩ := M.raise_run h
      cases h
    obtain ⟨rfl, _⟩ := M.change_run h
    obtain ⟨i, hi⟩ := Option.isSome_iff_exists.1 hs
    simp [World.ownMeta, setInfo_info, hi]
  all_goals cases h

theorem resolveSet_heap {E : CEnv} {s : Nat} {u : Uri} {a : Bool} {w w' : World} {r : Except Exc Unit}
    (h : (do let r ← resolveUri E s u a; setUri E.lib s r : M Unit) w = some (w', r)) : w'.heap = w.heap := by
  rcases M.bind_run h with ⟨w1, v, h1, h2⟩ | ⟨e, h1, _⟩
  · have := resolveUri_world h1; subst this
    obtain ⟨rfl, _⟩ := M.change_run h2
    unfold World.putUri
    split <;> rfl
  · have := resolveUri_world h1; subst this
    rfl

theorem addAnchor_heap {E : CEnv} {s : Nat} {t : String} {w w' : World} {r : Except Exc Unit}
    (h : addAnchor E s t w = some (w', r)) : w'.heap = w.heap := by
  have h := M.read_bind h
  cases hb : w.baseUri s with
  | none =>
    rw [hb] at h
    obtain ⟨rfl, _⟩ := M.raise_run h
    rfl
  | some b =>
    rw [hb] at h
    obtain ⟨rfl, _⟩ := M.change_run h
    rfl

theorem initKw_heap {E : CEnv} {s : Nat} {shape : KwShape} {v : Value} {w w' : World} {r : Except Exc Unit}
    (h : initKw E s shape v w = some (w', r)) : w'.heap = w.heap := by
  unfold initKw at h
  split at h
  all_goals try dsimp only at h
  all_goals try (split at h)
  all_goals first
    | (obtain ⟨rfl, _⟩ := M.pure_run h; rfl)
    | (obtain ⟨rfl, _⟩ := M.raise_run h; rfl)
    | exact resolveSet_heap h
    | exact addAnchor_heap h
    | (exact nomatch (show (none : Option (World × Except Exc Unit)) = some (w', r) from h))
    | skip
  all_goals
    generalize Uri.validate E.lib (E.lib.ofText _) _ _ _ _ = x at h
    obtain e | _ := x
    · obtain ⟨rfl, _⟩ := M.raise_run h
      rfl
    · first
        | exact resolveSet_heap h
        | (obtain ⟨rfl, _⟩ := M.change_run h; rfl)

/-- What a keyword does to the metaschema of its schema. -/
theorem addKeyword_ownMeta {E : CEnv} {kvs : List (String × Value)} {s : Nat}
    {shape : KwShape} {key : String} {v : Value} {b : KwBuild} {w w' : World}
    {ms : List (String × Nat)} (ok : WOk w) (hs : w.isSchema s = true) (f : Filled kvs s w ms)
    (hb : Builds (w.cacheid s) key v b)
    (h : addKeyword E s shape key v b w = some (w', .ok ())) :
    (shape ≠ .schema → w'.ownMeta s = w.ownMeta s) ∧
    (shape = .schema → ∃ t, v = .str t ∧ w'.ownMeta s = some (E.lib.ofText t)) := by
  have hlt := ok.dom s hs
  unfold addKeyword at h
  rcases M.bind_run h with ⟨w1, j, h1, h2⟩ | ⟨e, h1, h2⟩
  rotate_left
  · cases h2
  obtain ⟨ok1, g1, i1, c1⟩ := hb shape s w w1 _ ok hs rfl h1
  have hs1 : w1.isSchema s = true := by rw [g1.isSchema hlt]; exact hs
  have d1 : w1.heap.data s = .obj ms := (g1.ext.data hlt).trans f.data
  have e1 : w1.ownMeta s = w.ownMeta s := by rw [World.ownMeta, g1.info s hlt id]; rfl
  rcases M.bind_run h2 with ⟨w2, x, h3, h4⟩ | ⟨e, h3, h4⟩
  rotate_left
  · cases h4
  have fin : w'.ownMeta s = w2.ownMeta s := by
    obtain ⟨hw, -⟩ := M.change_run h4
    have d2 : w2.heap.data s = .obj ms := by rw [initKw_heap h3, d1]
    simp only [World.setInfo, d2] at hw
    have hw : w' = w2.entered s key shape j ms := hw
    rw [hw]
    exact setInfo_ownMeta (w := w2) (s := s)
      (f := fun i => { i with keywords := dset key { shape, json := j } i.keywords }) (fun _ => rfl) s
  constructor
  · intro hne
    rw [fin, initKw_ownMeta hne h3, e1]
  · rintro rfl
    obtain ⟨t, h, h'⟩ := initSchema_ownMeta hs1 h3
    exact ⟨t, h, fin.trans h'⟩

theorem each_addClass_ownMeta {E : CEnv} (hE : LibOk E.lib) {kvs : List (String × Value)}
    {builds : List (String × KwBuild)} {s : Nat} {cid : String} (hb : BuildsAll cid kvs builds) :
    ∀ {order : List KwCls} {w w' : World}
    {ms : List (String × Nat)}, WOk w → w.isSchema s = true → w.cacheid s = cid → Filled kvs s w ms →
    (∀ c ∈ order, c.shape.isId = false) → (∀ c ∈ order, c.shape ≠ .schema) → (∀ c ∈ order, c.key ∈ dkeys kvs) →
    M.each (addClass E s kvs builds) order w = some (w', .ok ()) → w'.ownMeta s = w.ownMeta s := by
  intro order
  induction order with
  | nil =>
    intro w w' ms ok hs hc f _ _ _ h
    obtain ⟨rfl, _⟩ := M.pure_run h
    rfl
  | cons c order ih =>
    intro w w' ms ok hs hc f hi hn hk h
    rcases M.bind_run (m := addClass E s kvs builds c) (f := fun _ => M.each (addClass E s kvs builds) order) h
      with ⟨w1, x, h1, h⟩ | ⟨e, h1, h2⟩
    rotate_left
    · cases h2
    unfold addClass at h1
    cases hd : dlookup c.key kvs with
    | none => exact absurd (hk c (by simp)) (dlookup_eq_none.1 hd)
    | some v =>
      obtain ⟨b, hb1, hb2⟩ := hb c.key v hd
      simp only [hd, hb1] at h1
      subst hc
      have hi' := hi c (by simp)
      obtain ⟨a1, -, ms', a3, a4, a5⟩ := addKeyword_spec hE ok hs f hd hb2
        (fun h => by rw [hi'] at h; cases h) h1
      have e := (addKeyword_ownMeta ok hs f hb2 h1).1 (hn c (by simp))
      rw [← e]
      exact ih a1.ok (a1.node.isSchema.trans hs) a1.node.cacheid a3
        (fun c hc => hi c (by simp [hc])) (fun c hc => hn c (by simp [hc])) (fun c hc => hk c (by simp [hc])) h

/-- The metaschema that a document gets, `m0` being the one that it is given. -/
def RootMeta (lib : UriLib) (m0 : Option Uri) (kvs : List (String × Value)) (m : Option Uri) : Prop :=
  ("$schema" ∉ dkeys kvs ∧ m = m0) ∨ ∃ t, dlookup "$schema" kvs = some (.str t) ∧ m = some (lib.ofText t)

theorem bootOne_ownMeta {E : CEnv} {kvs : List (String × Value)}
    {builds : List (String × KwBuild)} {s : Nat} {cid : String} (hb : BuildsAll cid kvs builds)
    {shape : KwShape} {key : String} {w w' : World}
    {ms : List (String × Nat)} (ok : WOk w) (hs : w.isSchema s = true) (hc : w.cacheid s = cid)
    (f : Filled kvs s w ms) (hsh : shape ≠ .schema)
    (h : bootOne E s kvs builds key shape w = some (w', .ok ())) : w'.ownMeta s = w.ownMeta s := by
  unfold bootOne at h
  cases hk : dlookup key kvs with
  | none =>
    simp only [hk] at h
    obtain ⟨rfl, _⟩ := M.pure_run h
    rfl
  | some v =>
    obtain ⟨b, hb1, hb2⟩ := hb key v hk
    simp only [hk, hb1] at h
    subst hc
    exact (addKeyword_ownMeta ok hs f hb2 h).1 hsh

theorem bootstrap_ownMeta {E : CEnv} (hE : LibOk E.lib) {kvs : List (String × Value)}
    {builds : List (String × KwBuild)} {s : Nat} {cid : String} (hb : BuildsAll cid kvs builds) {w w' : World}
    {ms : List (String × Nat)} (ok : WOk w) (hs : w.isSchema s = true)
    (hc : w.cacheid s = cid) (f : Filled kvs s w ms) (hu : UniqueUri w s)
    (h : bootstrap E s kvs builds w = some (w', .ok ())) : RootMeta E.lib (w.ownMeta s) kvs (w'.ownMeta s) ∧
      ∃ ms', w'.heap.data s = .obj ms' ∧ ("$schema" ∈ dkeys kvs → "$schema" ∈ dkeys ms') := by
  unfold bootstrap at h
  rcases M.bind_run h with ⟨w1, x1, h1, h⟩ | ⟨e, h1, h2⟩
  rotate_left
  · cases h2
  obtain ⟨a1, a2, ms1, a3, -, a5⟩ := bootOne_spec hE hb ok hs hc f (fun h => by cases h) h1
  have hs1 : w1.isSchema s = true := a1.node.isSchema.trans hs
  have hc1 := a1.node.cacheid.trans hc
  have hu1 := (a2 rfl rfl).unique hu
  have R : RootMeta E.lib (w.ownMeta s) kvs (w1.ownMeta s) := by
    unfold bootOne at h1
    cases hk : dlookup "$schema" kvs with
    | none =>
      simp only [hk] at h1
      obtain ⟨rfl, _⟩ := M.pure_run h1
      exact .inl ⟨dlookup_eq_none.1 hk, rfl⟩
    | some v =>
      obtain ⟨b, hb1, hb2⟩ := hb _ v hk
      simp only [hk, hb1] at h1
      subst hc
      obtain ⟨t, rfl, h⟩ := (addKeyword_ownMeta ok hs f hb2 h1).2 rfl
      exact .inr ⟨t, hk, h⟩
  rcases M.bind_run h with ⟨w2, x2, h2, h⟩ | ⟨e, h2, h3⟩
  rotate_left
  · cases h3
  obtain ⟨b1, b2, ms2, b3, b4, -⟩ := bootOne_spec hE hb a1.ok hs1 hc1 a3 (fun h => by cases h) h2
  have hu2 := (b2 rfl rfl).unique hu1
  have e2 := bootOne_ownMeta hb a1.ok hs1 hc1 a3 (by simp) h2
  have hs2 : w2.isSchema s = true := b1.node.isSchema.trans hs1
  have hc2 := b1.node.cacheid.trans hc1
  rw [← e2] at R
  split at h
  · rcases M.bind_run h with ⟨w3, m, h3, h4⟩ | ⟨e, h3, h4⟩
    rotate_left
    · cases h4
    obtain ⟨rfl, -⟩ := getMeta_spec h3
    obtain ⟨-, -, ms3, c3, c4, -⟩ := bootOne_spec hE hb b1.ok hs2 hc2 b3 (fun _ => hu2) h4
    rw [bootOne_ownMeta hb b1.ok hs2 hc2 b3 (by split <;> simp) h4]
    exact ⟨R, ms3, c3.data, fun h => c4 _ (b4 _ (a5 rfl h))⟩
  · obtain ⟨rfl, _⟩ := M.pure_run h
    exact ⟨R, ms2, b3.data, fun h => b4 _ (a5 rfl h)⟩

/-- The classes of the keywords of a schema, where only `$schema` has its class. -/
theorem kwClasses_schemaOnly {E : CEnv} (hM : ∀ u m, E.metaschema u = .ok m → SchemaOnly m) {s : Nat} {w : World} :
    ∀ {ks : List String} {w' : World} {cs : List KwCls}, kwClasses E s ks w = some (w', .ok cs) →
    ∀ c ∈ cs, c.shape = .schema → c.key = "$schema" := by
  intro ks
  induction ks with
  | nil =>
    intro w' cs h
    obtain ⟨rfl, h⟩ := M.pure_run h
    cases h
    simp
  | cons k ks ih =>
    intro w' cs h
    simp only [kwClasses] at h
    have h := M.read_bind h
    split at h
    · exact ih h
    · rcases M.bind_run h with ⟨w1, m, h1, hA⟩ | ⟨e, h1, h2⟩
      rotate_left
      · cases h2
      obtain ⟨rfl, hm⟩ := getMeta_spec h1
      obtain ⟨u, hm⟩ := hm m rfl
      rcases M.bind_run hA with ⟨w2, c, h2, hB⟩ | ⟨e, h2, h3⟩
      rotate_left
      · cases h3
      obtain ⟨rfl, hc⟩ := M.ofExcept_run h2
      rcases M.bind_run hB with ⟨w3, cs', h3, hC⟩ | ⟨e, h3, h4⟩
      rotate_left
      · cases h4
      obtain ⟨rfl, h4⟩ := M.pure_run hC
      cases h4
      have hc : getKwclass m k = .ok c := hc.symm
      intro c' hc' hsh
      rcases List.mem_cons.1 hc' with rfl | hc'
      · unfold getKwclass at hc
        split at hc
        · rename_i c0 hf
          cases hc
          exact hM u m hm _ (List.mem_of_find?_eq_some hf) hsh
        · split at hc
          · cases hc
          · split at hc
            · cases hc
            · cases hc
              cases hsh
      · exact ih h3 c' hc' hsh

theorem newSchema_rootMeta {E : CEnv} (hE : CEnvOk E) (hM : ∀ u m, E.metaschema u = .ok m → SchemaOnly m)
    {kvs : List (String × Value)} (hwf : (Value.obj kvs).WF)
    {cid : String} {uri metaUri : Option Uri} {w w' : World} {s : Nat} (pre : SPre w cid uri none)
    (h : newSchema E cid uri metaUri none none (.obj kvs) w = some (w', .ok s)) :
    RootMeta E.lib metaUri kvs (w'.ownMeta w.heap.next) := by
  have hn : (dkeys kvs).Nodup := by cases hwf with | obj h _ => exact h
  have hw : ∀ kv ∈ kvs, kv.2.WF := by cases hwf with | obj _ h => exact h
  have hb : BuildsAll cid kvs (kwBuilds E cid kvs) := by
    intro k v hkv
    refine ⟨kwBuild E cid k v, by rw [dlookup_kwBuilds, hkv]; rfl, ?_⟩
    exact (works hE v (hw _ (dlookup_mem hkv))).2 cid k
  obtain ⟨w1, h1⟩ := newSchemaNode_run (w := w) (cid := cid) (parent := none) (key := none)
    (uri := uri) (metaUri := metaUri)
  obtain ⟨-, a2, a3, a4, a5, a6, a7, a8, a9⟩ := newSchemaNode_spec pre.ok pre.old pre.near pre.uri h1
  simp only [newSchema, objSchema] at h
  rcases M.bind_run h with ⟨w2, s', h2, h3⟩ | ⟨e, h2, h3⟩
  rotate_left
  · cases h3
  rw [h1] at h2
  simp only [Option.some.injEq, Prod.mk.injEq, Except.ok.injEq] at h2
  obtain ⟨rfl, rfl⟩ := h2
  rcases M.bind_run h3 with ⟨w3, x, h4, h5⟩ | ⟨e, h4, h5⟩
  rotate_left
  · cases h5
  obtain ⟨rfl, -⟩ := M.pure_run h5
  clear h h3 h5
  have hcid : w1.cacheid w.heap.next = cid := by simp [World.cacheid, a7]
  have hs : w1.isSchema w.heap.next = true := by simp [World.isSchema, a7]
  have hmeta : w1.ownMeta w.heap.next = metaUri := by simp [World.ownMeta, a7]
  have hlt := a2.dom _ hs
  have hhas : w1.heap.has w.heap.next := (a2.ord.dom _).2 hlt
  unfold initObject at h4
  rcases M.bind_run h4 with ⟨w0, x0, h0, hA⟩ | ⟨e, h0, h5⟩
  rotate_left
  · cases h5
  obtain ⟨hw0, -⟩ := M.change_run h0
  generalize hss : w.heap.next = s at *
  have ok0 : WOk w0 := by
    rw [hw0]
    refine setData_ok a2 hlt (fun k c hc => by cases hc) (by simp [JData.kids]) (fun ms h => by cases h; simp [dkeys]) (fun i hi => ?_) (.inl ⟨hs, fun _ h => by cases h⟩)
    have := a2.kws s i hi
    rw [a8] at this
    exact this
  have hd0 : w0.heap.data s = .obj [] := by
    rw [hw0]; simp only [setData_data _ _ _ _ hhas, if_pos]
  have u0 : UniqueUri w0 s := (SameUris.of_info (by rw [hw0])).unique a9
  have hs0 : w0.isSchema s = true := by rw [hw0]; exact hs
  have hc0 : w0.cacheid s = cid := by rw [hw0]; exact hcid
  have hm0 : w0.ownMeta s = metaUri := by rw [hw0]; exact hmeta
  have f0 : Filled kvs s w0 [] := ⟨hd0, fun k j hj => by cases hj⟩
  have han : ∀ {w1 : World} {r1 : Except Exc Unit}, nameAnonymous E s w0 = some (w1, r1) →
      Init s w0 w1 ∧ Filled kvs s w1 [] ∧ UniqueUri w1 s ∧ w1.ownMeta s = metaUri := by
    intro w1' r1 h1
    replace h1 := M.read_bind h1
    split at h1
    · rename_i ha
      replace h1 := M.read_bind h1
      obtain ⟨hw1, rfl⟩ := M.change_run h1
      obtain ⟨b1, b2, b3, b4, b5, b6⟩ := putUri_spec (lib := E.lib) (u := E.lib.uuid w0.uris) ok0 hs0 u0
      have n1 : Init s w0 w1' := by rw [hw1]; exact ⟨b1, b3, b4⟩
      have hur0 : w0.uri s = none := by
        simp only [Bool.and_eq_true, Option.isNone_iff_eq_none] at ha
        exact ha.2
      refine ⟨n1, f0.step ok0 n1 (by rw [hw1, b2]), ?_, ?_⟩
      · rw [hw1]; exact putUri_fresh hE.lib ok0 hs0 hur0
      · rw [hw1, putUri_ownMeta, hm0]
    · obtain ⟨rfl, rfl⟩ := M.pure_run h1
      exact ⟨.refl ok0, f0, u0, hm0⟩
  rcases M.bind_run hA with ⟨w1', x1, h1', hB⟩ | ⟨e, h1', h5⟩
  rotate_left
  · cases h5
  obtain ⟨n1, f1, u1, hu1⟩ := han h1'
  have hs1 := n1.node.isSchema.trans hs0
  have hc1 := n1.node.cacheid.trans hc0
  rcases M.bind_run hB with ⟨w2, x2, h2, hC⟩ | ⟨e, h2, h5⟩
  rotate_left
  · cases h5
  obtain ⟨b1, ms2, f2, b3⟩ := bootstrap_spec hE.lib hb n1.ok hs1 hc1 f1 u1 h2
  obtain ⟨R, ms2', d2, hms⟩ := bootstrap_ownMeta hE.lib hb n1.ok hs1 hc1 f1 u1 h2
  rw [f2.data] at d2
  cases d2
  rw [hu1] at R
  have hs2 : w2.isSchema s = true := b1.node.isSchema.trans hs1
  rcases M.bind_run hC with ⟨w3', cs, h3, hD⟩ | ⟨e, h3, h5⟩
  rotate_left
  · cases h5
  have hso := kwClasses_schemaOnly hM h3
  obtain ⟨rfl, hcs⟩ := kwClasses_spec hE h3
  obtain ⟨c1, c2, c3⟩ := hcs cs rfl
  cases ho : resolveDependencies KwCls.key KwCls.deps cs with
  | none => simp only [addClasses, ho] at hD; cases hD
  | some order =>
    simp only [addClasses, ho] at hD
    have hperm := (resolveDependencies_spec KwCls.key KwCls.deps cs order (c2.nodup hn) ho).1
    have hne : ∀ c ∈ order, c.key ≠ "$id" ∧ c.key ≠ "$schema" := by
      intro c hc
      have hc' := hperm.mem_iff.1 hc
      obtain ⟨e1, -⟩ := c1 c hc'
      have hin := c2.mem (List.mem_map_of_mem hc')
      rw [f2.keys b1.ok hs2] at e1
      constructor <;> intro hk <;> rw [hk] at e1 hin
      · exact e1 (b3 rfl hin)
      · exact e1 (hms hin)
    rw [each_addClass_ownMeta hE.lib hb b1.ok hs2 (b1.node.cacheid.trans hc1) f2
      (fun c hc => ?_) (fun c hc hi => ?_) (fun c hc => c2.mem (List.mem_map_of_mem (hperm.mem_iff.1 hc))) hD]
    · exact R
    · cases hi : c.shape.isId with
      | false => rfl
      | true => exact absurd ((c1 c (hperm.mem_iff.1 hc)).2 hi) (hne c hc).1
    · exact (hne c hc).2 (hso c (hperm.mem_iff.1 hc) hi)

end Jschon
