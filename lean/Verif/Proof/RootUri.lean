import Verif.Proof.ConstructNamesAll

/-!
# The URI of a document
-/

namespace Jschon
open Spec

/-- What a keyword does to the URI of its schema. -/
theorem addKeyword_uri {E : CEnv} (hE : LibOk E.lib) {kvs : List (String × Value)} {s : Nat}
    {shape : KwShape} {key : String} {v : Value} {b : KwBuild} {w w' : World}
    {ms : List (String × Nat)} (ok : WOk w) (hs : w.isSchema s = true) (f : Filled kvs s w ms)
    (hb : Builds (w.cacheid s) key v b) (hid : shape.isId = true → UniqueUri w s)
    (h : addKeyword E s shape key v b w = some (w', .ok ())) :
    (shape.isId = false → w'.uri s = w.uri s) ∧
    (shape.isId = true → ∃ t r, v = .str t ∧ IdUri E.lib (w.baseUri s) t r ∧
      (w'.uri s = some r ∨ ∃ u, w.uri s = some u ∧ E.lib.same u r = true ∧ w'.uri s = some u)) := by
  have hlt := ok.dom s hs
  unfold addKeyword at h
  rcases M.bind_run h with ⟨w1, j, h1, h2⟩ | ⟨e, h1, h2⟩
  rotate_left
  · cases h2
  obtain ⟨ok1, g1, i1, c1⟩ := hb shape s w w1 _ ok hs rfl h1
  have hs1 : w1.isSchema s = true := by rw [g1.isSchema hlt]; exact hs
  have d1 : w1.heap.data s = .obj ms := (g1.ext.data hlt).trans f.data
  have fin : ∀ {w2 : World} {r' : Except Exc Unit}, w2.heap = w1.heap →
      M.change (fun w =>
        let w := w.setInfo s (fun i => { i with keywords := dset key { shape, json := j } i.keywords })
        match w.heap.data s with
        | .obj ms => { w with heap := w.heap.setData s (.obj (dset key j ms)) }
        | _ => w) w2 = some (w', r') → w'.uri s = w2.uri s := by
    intro w2 r' hh h
    obtain ⟨hw, -⟩ := M.change_run h
    have d2 : w2.heap.data s = .obj ms := by rw [hh, d1]
    simp only [World.setInfo, d2] at hw
    have hw : w' = w2.entered s key shape j ms := hw
    rw [hw]; exact entered_uri s
  rcases M.bind_run h2 with ⟨w2, x, h3, h4⟩ | ⟨e, h3, h4⟩
  rotate_left
  · cases h4
  constructor
  · intro hni
    obtain ⟨a, b⟩ := initKw_spec hE ok1 hs1 (fun h => by rw [hni] at h; cases h) h3
    rw [fin a.heap h4, (b hni).uri, g1.uri hlt]
  · intro hi
    have hbt : shape.boot = true := by cases shape <;> simp_all [KwShape.boot, KwShape.isId]
    have hu1 : UniqueUri w1 s := (SameUris.of_info (i1 hbt)).unique (hid hi)
    have hb1 : w1.baseUri s = w.baseUri s := base_le ok.ord fun y hy =>
      ⟨g1.uri (by omega), g1.ext.parent (by omega)⟩
    rcases initId_run hi h3 with ⟨-, _, h⟩ | ⟨t, u, rfl, -, rfl, hidu⟩
    · cases h
    · refine ⟨t, u, rfl, by rw [← hb1]; exact hidu, ?_⟩
      obtain ⟨a1, a2, a3, a4, a5, a6⟩ := putUri_spec (lib := E.lib) (u := u) ok1 hs1 hu1
      rw [fin a2 h4, ← g1.uri hlt]
      by_cases hch : ((w1.uri s).map (fun o => E.lib.same o u)).getD false = true
      · right
        cases ho : w1.uri s with
        | none => rw [ho] at hch; cases hch
        | some o =>
          rw [ho] at hch
          refine ⟨o, rfl, hch, ?_⟩
          unfold World.putUri
          rw [ho, if_pos hch]; exact ho
      · left
        rw [(putUri_change hch hs1 ok1).2.1, if_pos rfl]

theorem each_addClass_uri {E : CEnv} (hE : LibOk E.lib) {kvs : List (String × Value)}
    {builds : List (String × KwBuild)} {s : Nat} {cid : String} (hb : BuildsAll cid kvs builds) :
    ∀ {order : List KwCls} {w w' : World}
    {ms : List (String × Nat)}, WOk w → w.isSchema s = true → w.cacheid s = cid → Filled kvs s w ms →
    (∀ c ∈ order, c.shape.isId = false) → (∀ c ∈ order, c.key ∈ dkeys kvs) →
    M.each (addClass E s kvs builds) order w = some (w', .ok ()) → w'.uri s = w.uri s := by
  intro order
  induction order with
  | nil =>
    intro w w' ms ok hs hc f _ _ h
    obtain ⟨rfl, _⟩ := M.pure_run h
    rfl
  | cons c order ih =>
    intro w w' ms ok hs hc f hi hk h
    rcases M.bind_run (m := addClass E s kvs builds c) (f := fun _ => M.each (addClass E s kvs builds) order) h
      with ⟨w1, x, h1, h⟩ | ⟨e, h1, h2⟩
    rotate_left
    · cases h2
    unfold addClass at h1
    cases hd : dlookup c.key kvs with
    | none => exact absurd (hk c (by simp)) (dlookup_eq_none.1 hd)
    | some v =>
      obtain ⟨b, hb1, hb2⟩ := hb c.key v hd
      simp only [hd, hb1] at h1
      subst hc
      have hi' := hi c (by simp)
      obtain ⟨a1, -, ms', a3, a4, a5⟩ := addKeyword_spec hE ok hs f hd hb2
        (fun h => by rw [hi'] at h; cases h) h1
      have e := (addKeyword_uri hE ok hs f hb2 (fun h => by rw [hi'] at h; cases h) h1).1 hi'
      rw [← e]
      exact ih a1.ok (a1.node.isSchema.trans hs) a1.node.cacheid a3
        (fun c hc => hi c (by simp [hc])) (fun c hc => hk c (by simp [hc])) h

/-- The URI that a document gets, `u0` being the one that it is given or a new one. -/
def RootUri (lib : UriLib) (u0 : Uri) (kvs : List (String × Value)) (u : Option Uri) : Prop :=
  ("$id" ∉ dkeys kvs ∧ u = some u0) ∨ ∃ t r, dlookup "$id" kvs = some (.str t) ∧ IdUri lib (some u0.noFragment) t r ∧
    (u = some r ∨ (lib.same u0 r = true ∧ u = some u0))

theorem bootstrap_uri {E : CEnv} (hE : LibOk E.lib) {kvs : List (String × Value)}
    {builds : List (String × KwBuild)} {s : Nat} {cid : String} (hb : BuildsAll cid kvs builds) {w w' : World}
    {ms : List (String × Nat)} (ok : WOk w) (hs : w.isSchema s = true)
    (hc : w.cacheid s = cid) (f : Filled kvs s w ms) (hu : UniqueUri w s) {u0 : Uri} (h0 : w.uri s = some u0)
    (h : bootstrap E s kvs builds w = some (w', .ok ())) : RootUri E.lib u0 kvs (w'.uri s) := by
  unfold bootstrap at h
  rcases M.bind_run h with ⟨w1, x1, h1, h⟩ | ⟨e, h1, h2⟩
  rotate_left
  · cases h2
  obtain ⟨a1, a2, ms1, a3, -, -⟩ := bootOne_spec hE hb ok hs hc f (fun h => by cases h) h1
  have hu1 := (a2 rfl rfl).unique hu
  have hs1 : w1.isSchema s = true := a1.node.isSchema.trans hs
  have hc1 := a1.node.cacheid.trans hc
  rcases M.bind_run h with ⟨w2, x2, h2, h⟩ | ⟨e, h2, h3⟩
  rotate_left
  · cases h3
  obtain ⟨b1, b2, ms2, b3, -, -⟩ := bootOne_spec hE hb a1.ok hs1 hc1 a3 (fun h => by cases h) h2
  have hu2 := (b2 rfl rfl).unique hu1
  have hs2 : w2.isSchema s = true := b1.node.isSchema.trans hs1
  have hc2 := b1.node.cacheid.trans hc1
  have e2 : w2.uri s = some u0 := ((b2 rfl rfl).uri s).trans (((a2 rfl rfl).uri s).trans h0)
  have base2 : w2.baseUri s = some u0.noFragment := by
    unfold World.baseUri World.nearest
    unfold World.uri at e2
    rw [e2]; rfl
  split at h
  · rename_i hsome
    rcases M.bind_run h with ⟨w3, m, h3, h4⟩ | ⟨e, h3, h4⟩
    rotate_left
    · cases h4
    obtain ⟨rfl, -⟩ := getMeta_spec h3
    obtain ⟨v, hv⟩ := Option.isSome_iff_exists.1 hsome
    obtain ⟨b, hb1, hb2⟩ := hb "$id" v hv
    unfold bootOne at h4
    simp only [hv, hb1] at h4
    have hid : (if m.knownCore = true then KwShape.id else .idNext).isId = true := by split <;> rfl
    subst hc2
    obtain ⟨t, r, rfl, hr, ho⟩ := (addKeyword_uri hE b1.ok hs2 b3 hb2 (fun _ => hu2) h4).2 hid
    rw [base2] at hr
    refine .inr ⟨t, r, hv, hr, ?_⟩
    rcases ho with ho | ⟨u, h1, h2, h3⟩
    · exact .inl ho
    · rw [e2] at h1
      cases h1
      exact .inr ⟨h2, h3⟩
  · rename_i hnone
    obtain ⟨rfl, _⟩ := M.pure_run h
    refine .inl ⟨fun hm => hnone ?_, e2⟩
    obtain ⟨v, hv⟩ := mem_dkeys.1 hm
    exact dlookup_isSome.2 hm

theorem uris_eq {w w' : World} (hn : w'.heap.next = w.heap.next + 1)
    (h : ∀ x, x < w.heap.next → w'.uri x = w.uri x) (h' : w'.uri w.heap.next = none) : w'.uris = w.uris := by
  unfold World.uris
  rw [hn, List.range_succ, List.filterMap_append]
  have : List.filterMap w'.uri [w.heap.next] = [] := by simp [h']
  rw [this, List.append_nil]
  have go : ∀ l : List Nat, (∀ x ∈ l, x < w.heap.next) → l.filterMap w'.uri = l.filterMap w.uri := by
    intro l
    induction l with
    | nil => intro _; rfl
    | cons a l ih =>
      intro hl
      rw [List.filterMap_cons, List.filterMap_cons, h a (hl a (by simp)), ih fun x hx => hl x (by simp [hx])]
  exact go _ fun x hx => List.mem_range.1 hx

theorem newSchema_rootUri {E : CEnv} (hE : CEnvOk E) {kvs : List (String × Value)} (hwf : (Value.obj kvs).WF)
    {cid : String} {uri metaUri : Option Uri} {w w' : World} {s : Nat} (pre : SPre w cid uri none)
    (h : newSchema E cid uri metaUri none none (.obj kvs) w = some (w', .ok s)) :
    RootUri E.lib (uri.getD (E.lib.uuid w.uris)) kvs (w'.uri w.heap.next) := by
  have hn : (dkeys kvs).Nodup := by cases hwf with | obj h _ => exact h
  have hw : ∀ kv ∈ kvs, kv.2.WF := by cases hwf with | obj _ h => exact h
  have hb : BuildsAll cid kvs (kwBuilds E cid kvs) := by
    intro k v hkv
    refine ⟨kwBuild E cid k v, by rw [dlookup_kwBuilds, hkv]; rfl, ?_⟩
    exact (works hE v (hw _ (dlookup_mem hkv))).2 cid k
  obtain ⟨w1, h1⟩ := newSchemaNode_run (w := w) (cid := cid) (parent := none) (key := none)
    (uri := uri) (metaUri := metaUri)
  obtain ⟨-, a2, a3, a4, a5, a6, a7, a8, a9⟩ := newSchemaNode_spec pre.ok pre.old pre.near pre.uri h1
  have hinfo : ∀ x, w1.info x = if x = w.heap.next then some { cacheid := cid, uri, metaUri } else w.info x := by
    simp only [newSchemaNode, Option.some.injEq, Prod.mk.injEq, and_true] at h1
    intro x; rw [← h1]
  have hnext : w1.heap.next = w.heap.next + 1 := by
    simp only [newSchemaNode, Option.some.injEq, Prod.mk.injEq, and_true] at h1
    rw [← h1]; rfl
  simp only [newSchema, objSchema] at h
  rcases M.bind_run h with ⟨w2, s', h2, h3⟩ | ⟨e, h2, h3⟩
  rotate_left
  · cases h3
  rw [h1] at h2
  simp only [Option.some.injEq, Prod.mk.injEq, Except.ok.injEq] at h2
  obtain ⟨rfl, rfl⟩ := h2
  rcases M.bind_run h3 with ⟨w3, x, h4, h5⟩ | ⟨e, h4, h5⟩
  rotate_left
  · cases h5
  obtain ⟨rfl, -⟩ := M.pure_run h5
  clear h h3 h5
  have hcid : w1.cacheid w.heap.next = cid := by simp [World.cacheid, a7]
  have hs : w1.isSchema w.heap.next = true := by simp [World.isSchema, a7]
  have huri : w1.uri w.heap.next = uri := by simp [World.uri, a7]
  have hlt := a2.dom _ hs
  have hhas : w1.heap.has w.heap.next := (a2.ord.dom _).2 hlt
  unfold initObject at h4
  rcases M.bind_run h4 with ⟨w0, x0, h0, hA⟩ | ⟨e, h0, h5⟩
  rotate_left
  · cases h5
  obtain ⟨hw0, -⟩ := M.change_run h0
  generalize hss : w.heap.next = s at *
  have ok0 : WOk w0 := by
    rw [hw0]
    refine setData_ok a2 hlt (fun k c hc => by cases hc) (by simp [JData.kids]) (fun ms h => by cases h; simp [dkeys]) (fun i hi => ?_) (.inl ⟨hs, fun _ h => by cases h⟩)
    have := a2.kws s i hi
    rw [a8] at this
    exact this
  have hd0 : w0.heap.data s = .obj [] := by
    rw [hw0]; simp only [setData_data _ _ _ _ hhas, if_pos]
  have u0 : UniqueUri w0 s := (SameUris.of_info (by rw [hw0])).unique a9
  have hs0 : w0.isSchema s = true := by rw [hw0]; exact hs
  have hc0 : w0.cacheid s = cid := by rw [hw0]; exact hcid
  have hur0 : w0.uri s = uri := by rw [hw0]; exact huri
  have f0 : Filled kvs s w0 [] := ⟨hd0, fun k j hj => by cases hj⟩
  have hp0 : w0.heap.parent s = none := by rw [hw0]; exact (setData_parent ..).trans a5
  have han : ∀ {w1 : World} {r1 : Except Exc Unit}, nameAnonymous E s w0 = some (w1, r1) →
      Init s w0 w1 ∧ Filled kvs s w1 [] ∧ UniqueUri w1 s ∧ w1.uri s = some (uri.getD (E.lib.uuid w.uris)) := by
    intro w1' r1 h1
    replace h1 := M.read_bind h1
    rw [hp0, hur0] at h1
    cases uri with
    | some u =>
      obtain ⟨rfl, rfl⟩ := M.pure_run h1
      exact ⟨.refl ok0, f0, u0, hur0⟩
    | none =>
      replace h1 := M.read_bind h1
      obtain ⟨hw1, rfl⟩ := M.change_run h1
      have hul : w0.uris = w.uris := by
        refine uris_eq ?_ (fun x hx => ?_) ?_
        · rw [hw0]; exact hnext.trans (by rw [hss])
        · rw [hw0]
          show w1.uri x = _
          rw [World.uri, hinfo, if_neg (by omega)]; rfl
        · rw [hss]; exact hur0
      have hch : ¬ ((w0.uri s).map (fun o => E.lib.same o (E.lib.uuid w0.uris))).getD false = true := by rw [hur0]; simp
      obtain ⟨q0, q1, q2, q3, q4, q5⟩ := putUri_change hch hs0 ok0
      obtain ⟨b1, b2, b3, b4, b5, b6⟩ := putUri_spec (lib := E.lib) (u := E.lib.uuid w0.uris) ok0 hs0 u0
      have n1 : Init s w0 w1' := by rw [hw1]; exact ⟨b1, b3, b4⟩
      refine ⟨n1, f0.step ok0 n1 (by rw [hw1, b2]), ?_, ?_⟩
      · rw [hw1]; exact putUri_fresh hE.lib ok0 hs0 hur0
      · rw [hw1, q1, if_pos rfl, hul]; rfl
  rcases M.bind_run hA with ⟨w1', x1, h1', hB⟩ | ⟨e, h1', h5⟩
  rotate_left
  · cases h5
  obtain ⟨n1, f1, u1, hu1⟩ := han h1'
  have hs1 := n1.node.isSchema.trans hs0
  have hc1 := n1.node.cacheid.trans hc0
  rcases M.bind_run hB with ⟨w2, x2, h2, hC⟩ | ⟨e, h2, h5⟩
  rotate_left
  · cases h5
  obtain ⟨b1, ms2, f2, b3⟩ := bootstrap_spec hE.lib hb n1.ok hs1 hc1 f1 u1 h2
  have R := bootstrap_uri hE.lib hb n1.ok hs1 hc1 f1 u1 hu1 h2
  have hs2 : w2.isSchema s = true := b1.node.isSchema.trans hs1
  rcases M.bind_run hC with ⟨w3', cs, h3, hD⟩ | ⟨e, h3, h5⟩
  rotate_left
  · cases h5
  obtain ⟨rfl, hcs⟩ := kwClasses_spec hE h3
  obtain ⟨c1, c2, c3⟩ := hcs cs rfl
  cases ho : resolveDependencies KwCls.key KwCls.deps cs with
  | none => simp only [addClasses, ho] at hD; cases hD
  | some order =>
    simp only [addClasses, ho] at hD
    have hperm := (resolveDependencies_spec KwCls.key KwCls.deps cs order (c2.nodup hn) ho).1
    have hne : ∀ c ∈ order, c.key ≠ "$id" := by
      intro c hc hk
      have hc' := hperm.mem_iff.1 hc
      obtain ⟨e1, -⟩ := c1 c hc'
      rw [f2.keys b1.ok hs2, hk] at e1
      refine e1 (b3 rfl ?_)
      rw [← hk]
      exact c2.mem (List.mem_map_of_mem hc')
    rw [each_addClass_uri hE.lib hb b1.ok hs2 (b1.node.cacheid.trans hc1) f2
      (fun c hc => ?_) (fun c hc => c2.mem (List.mem_map_of_mem (hperm.mem_iff.1 hc))) hD]
    · exact R
    · cases hi : c.shape.isId with
      | false => rfl
      | true => exact absurd ((c1 c (hperm.mem_iff.1 hc)).2 hi) (hne c hc)

end Jschon
