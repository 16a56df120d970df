import Verif.Proof.ConstructNames

/-!
# Construction registers schemas with their URIs: whole schemas
-/

namespace Jschon
open Spec

variable {c0 : Caches}

/-- Every constructor keeps the URIs in order. -/
def NBuildsAll (lib : UriLib) (c0 : Caches) (n : Nat) (cid : String) (builds : List (String × KwBuild)) : Prop :=
  ∀ k b, dlookup k builds = some b → NBuilds lib c0 n cid b

theorem bootOne_names {E : CEnv} (hE : LibOk E.lib) {kvs : List (String × Value)}
    {builds : List (String × KwBuild)} {s n : Nat} {cid : String} (hb : BuildsAll cid kvs builds)
    (hn : NBuildsAll E.lib c0 n cid builds)
    {shape : KwShape} {key : String} {w w' : World} {r : Except Exc Unit}
    {ms : List (String × Nat)} (ok : WOk w) (hs : w.isSchema s = true) (hc : w.cacheid s = cid)
    (f : Filled kvs s w ms) (hns : n ≤ s) (N : NamesOk E.lib c0 n w) (hnew : key ∉ dkeys (w.keywords s))
    (hid : shape.isId = true → key = "$id" ∧ UniqueUri w s ∧ Unsettled w s)
    (hni : shape.isId = false → key ≠ "$id")
    (h : bootOne E s kvs builds key shape w = some (w', r)) :
    NamesOk E.lib c0 n w' ∧ (∀ k ∈ dkeys (w'.keywords s), k = key ∨ k ∈ dkeys (w.keywords s)) ∧
      (shape.boot = true → shape.isId = false → Unsettled w s → Unsettled w' s) := by
  unfold bootOne at h
  cases hk : dlookup key kvs with
  | none =>
    simp only [hk] at h
    obtain ⟨rfl, _⟩ := M.pure_run h
    exact ⟨N, fun k h => .inr h, fun _ _ U => U⟩
  | some v =>
    obtain ⟨b, hb1, hb2⟩ := hb key v hk
    simp only [hk, hb1] at h
    subst hc
    exact addKeyword_names hE ok hs f hb2 (hn key b hb1) hns N hnew hid hni h

theorem bootstrap_names {E : CEnv} (hE : LibOk E.lib) {kvs : List (String × Value)}
    {builds : List (String × KwBuild)} {s n : Nat} {cid : String} (hb : BuildsAll cid kvs builds)
    (hn : NBuildsAll E.lib c0 n cid builds) {w w' : World}
    {r : Except Exc Unit} {ms : List (String × Nat)} (ok : WOk w) (hs : w.isSchema s = true)
    (hc : w.cacheid s = cid) (f : Filled kvs s w ms) (hu : UniqueUri w s) (hns : n ≤ s) (N : NamesOk E.lib c0 n w)
    (hk : w.keywords s = []) (U : Unsettled w s)
    (h : bootstrap E s kvs builds w = some (w', r)) : NamesOk E.lib c0 n w' := by
  unfold bootstrap at h
  have hno : ∀ {k : String}, k ∉ dkeys (w.keywords s) := by rw [hk]; simp [dkeys]
  rcases M.bind_run h with ⟨w1, x1, h1, h⟩ | ⟨e, h1, rfl⟩
  rotate_left
  · exact (bootOne_names hE hb hn ok hs hc f hns N hno (fun h => by cases h) (fun _ => by decide) h1).1
  obtain ⟨a1, a2, ms1, a3, -, -⟩ := bootOne_spec hE hb ok hs hc f (fun h => by cases h) h1
  obtain ⟨N1, k1, U1⟩ := bootOne_names hE hb hn ok hs hc f hns N hno (fun h => by cases h) (fun _ => by decide) h1
  have U1 := U1 rfl rfl U
  have hu1 := (a2 rfl rfl).unique hu
  have hs1 : w1.isSchema s = true := a1.node.isSchema.trans hs
  have hc1 := a1.node.cacheid.trans hc
  have k1 : ∀ k ∈ dkeys (w1.keywords s), k = "$schema" := fun k h => (k1 k h).resolve_right hno
  rcases M.bind_run h with ⟨w2, x2, h2, h⟩ | ⟨e, h2, rfl⟩
  rotate_left
  · exact (bootOne_names hE hb hn a1.ok hs1 hc1 a3 hns N1 (fun h => absurd (k1 _ h) (by decide)) (fun h => by cases h) (fun _ => by decide) h2).1
  obtain ⟨b1, b2, ms2, b3, -, -⟩ := bootOne_spec hE hb a1.ok hs1 hc1 a3 (fun h => by cases h) h2
  obtain ⟨N2, k2, U2⟩ := bootOne_names hE hb hn a1.ok hs1 hc1 a3 hns N1 (fun h => absurd (k1 _ h) (by decide)) (fun h => by cases h) (fun _ => by decide) h2
  have U2 := U2 rfl rfl U1
  have hu2 := (b2 rfl rfl).unique hu1
  have hs2 : w2.isSchema s = true := b1.node.isSchema.trans hs1
  have k2 : "$id" ∉ dkeys (w2.keywords s) := by
    intro h
    rcases k2 _ h with h | h
    · exact absurd h (by decide)
    · exact absurd (k1 _ h) (by decide)
  split at h
  · rcases M.bind_run h with ⟨w3, m, h3, h4⟩ | ⟨e, h3, rfl⟩
    · obtain ⟨rfl, -⟩ := getMeta_spec h3
      refine (bootOne_names hE hb hn b1.ok hs2 (b1.node.cacheid.trans hc1) b3 hns N2 k2 (fun _ => ⟨rfl, hu2, U2⟩) (fun h => ?_) h4).1
      split at h <;> cases h
    · obtain ⟨rfl, -⟩ := getMeta_spec h3
      exact N2
  · obtain ⟨rfl, _⟩ := M.pure_run h
    exact N2

theorem each_addClass_names {E : CEnv} (hE : LibOk E.lib) {kvs : List (String × Value)}
    {builds : List (String × KwBuild)} {s n : Nat} {cid : String} (hb : BuildsAll cid kvs builds)
    (hn : NBuildsAll E.lib c0 n cid builds) (hns : n ≤ s) :
    ∀ {order : List KwCls} {w w' : World} {r : Except Exc Unit}
    {ms : List (String × Nat)}, WOk w → w.isSchema s = true → w.cacheid s = cid → Filled kvs s w ms →
    (∀ c ∈ order, c.shape.isId = false) → (∀ c ∈ order, c.key ∈ dkeys kvs) →
    (∀ c ∈ order, c.key ≠ "$id") → (order.map KwCls.key).Nodup → (∀ c ∈ order, c.key ∉ dkeys (w.keywords s)) →
    NamesOk E.lib c0 n w →
    M.each (addClass E s kvs builds) order w = some (w', r) → NamesOk E.lib c0 n w' := by
  intro order
  induction order with
  | nil =>
    intro w w' r ms ok hs hc f _ _ _ _ _ N h
    obtain ⟨rfl, _⟩ := M.pure_run h
    exact N
  | cons c order ih =>
    intro w w' r ms ok hs hc f hi hk hne hnd hnew N h
    have hone : ∀ {w1 : World} {r1 : Except Exc Unit}, addClass E s kvs builds c w = some (w1, r1) →
        (Init s w w1 ∧ ∃ ms', Filled kvs s w1 ms') ∧ NamesOk E.lib c0 n w1 ∧
        ∀ k ∈ dkeys (w1.keywords s), k = c.key ∨ k ∈ dkeys (w.keywords s) := by
      intro w1 r1 h1
      unfold addClass at h1
      cases hd : dlookup c.key kvs with
      | none => exact absurd (hk c (by simp)) (dlookup_eq_none.1 hd)
      | some v =>
        obtain ⟨b, hb1, hb2⟩ := hb c.key v hd
        simp only [hd, hb1] at h1
        subst hc
        have hi' := hi c (by simp)
        obtain ⟨a1, -, ms', a3, a4, a5⟩ := addKeyword_spec hE ok hs f hd hb2
          (fun h => by rw [hi'] at h; cases h) h1
        obtain ⟨b1, b2, -⟩ := addKeyword_names hE ok hs f hb2 (hn c.key b hb1) hns N (hnew c (by simp))
          (fun h => by rw [hi'] at h; cases h) (fun _ => hne c (by simp)) h1
        exact ⟨⟨a1, ms', a3⟩, b1, b2⟩
    rcases M.bind_run (m := addClass E s kvs builds c) (f := fun _ => M.each (addClass E s kvs builds) order) h
      with ⟨w1, x, h1, h⟩ | ⟨e, h1, rfl⟩
    · obtain ⟨⟨a1, ms1, a3⟩, N1, k1⟩ := hone h1
      rw [List.map_cons, List.nodup_cons] at hnd
      refine ih a1.ok (a1.node.isSchema.trans hs) (a1.node.cacheid.trans hc) a3
        (fun c hc => hi c (by simp [hc])) (fun c hc => hk c (by simp [hc])) (fun c hc => hne c (by simp [hc]))
        hnd.2 (fun c' hc' h' => ?_) N1 h
      rcases k1 _ h' with h' | h'
      · exact hnd.1 (h' ▸ List.mem_map_of_mem hc')
      · exact hnew c' (by simp [hc']) h'
    · exact (hone h1).2.1

theorem initObject_names {E : CEnv} (hE : CEnvOk E) (hU : ∀ l, (E.lib.uuid l).fragment = none) {kvs : List (String × Value)}
    {builds : List (String × KwBuild)} (hn : (dkeys kvs).Nodup) {s n : Nat} {cid : String} (hb : BuildsAll cid kvs builds)
    (hnb : NBuildsAll E.lib c0 n cid builds)
    {w w' : World} {r : Except Exc Unit} (ok : WOk w) (hs : w.isSchema s = true)
    (hc : w.cacheid s = cid) (hd : w.heap.data s = .null) (hu : UniqueUri w s)
    (hns : n ≤ s) (N : NamesOk E.lib c0 n w) (U : Unsettled w s) (hk : w.keywords s = [])
    (hnk : ∀ x, s ∉ (w.heap.data x).kids)
    (h : initObject E s kvs builds w = some (w', r)) : NamesOk E.lib c0 n w' := by
  have hlt := ok.dom s hs
  have hhas : w.heap.has s := (ok.ord.dom s).2 hlt
  unfold initObject at h
  rcases M.bind_run h with ⟨w0, x0, h0, hA⟩ | ⟨e, h0, rfl⟩
  rotate_left
  · simp only [setDataM, M.change, Option.some.injEq, Prod.mk.injEq, reduceCtorEq, and_false] at h0
  clear h
  obtain ⟨hw0, -⟩ := M.change_run h0
  have ok0 : WOk w0 := by
    rw [hw0]
    refine setData_ok ok hlt (fun k c hc => by cases hc) (by simp [JData.kids]) (fun ms h => by cases h; simp [dkeys]) (fun i hi => ?_) (.inl ⟨hs, fun _ h => by cases h⟩)
    have := ok.kws s i hi
    rw [hd] at this
    exact this
  have N0 : NamesOk E.lib c0 n w0 := by rw [hw0]; exact N.setData ok hhas hnk
  have sn0 : SameNames w w0 := by
    rw [hw0]
    refine .of rfl (fun x _ => setData_parent ..) fun x k o h => ?_
    simp only [setData_data _ _ _ _ hhas]
    rw [if_neg]
    rintro e
    exact hnk x (e ▸ ok.kwKid h)
  have U0 := U.same ok hs sn0
  have hd0 : w0.heap.data s = .obj [] := by
    rw [hw0]; simp only [setData_data _ _ _ _ hhas, if_pos]
  have u0 : UniqueUri w0 s := (SameUris.of_info (by rw [hw0])).unique hu
  have hs0 : w0.isSchema s = true := (sn0.isSchema s).trans hs
  have hc0 : w0.cacheid s = cid := (sn0.cacheid s).trans hc
  have hk0 : w0.keywords s = [] := by rw [hw0]; exact hk
  have f0 : Filled kvs s w0 [] := ⟨hd0, fun k j hj => by cases hj⟩
  have han : ∀ {w1 : World} {r1 : Except Exc Unit}, nameAnonymous E s w0 = some (w1, r1) →
      r1 = .ok () ∧ Init s w0 w1 ∧ Filled kvs s w1 [] ∧ UniqueUri w1 s ∧ NamesOk E.lib c0 n w1 ∧ Unsettled w1 s ∧
        w1.keywords s = [] := by
    intro w1 r1 h1
    replace h1 := M.read_bind h1
    split at h1
    · rename_i han
      simp only [Bool.and_eq_true, Option.isNone_iff_eq_none] at han
      replace h1 := M.read_bind h1
      obtain ⟨hw1, rfl⟩ := M.change_run h1
      generalize hu : E.lib.uuid w0.uris = u at *
      obtain ⟨a1, a2, a3, a4, a5, a6⟩ := putUri_spec (lib := E.lib) (u := u) ok0 hs0 u0
      have n1 : Init s w0 w1 := by rw [hw1]; exact ⟨a1, a3, a4⟩
      have hch : ¬ ((w0.uri s).map (fun o => E.lib.same o u)).getD false = true := by rw [han.2]; simp
      obtain ⟨q0, q1, q2, q3, q4, q5⟩ := putUri_change (u := u) hch hs0 ok0
      have says1 : ∀ x k sh t, Says w1 x k sh t ↔ Says w0 x k sh t := by
        intro x k sh t
        unfold Says
        rw [hw1, q3, q0]
      refine ⟨rfl, n1, f0.step ok0 n1 (by rw [hw1, a2]), ?_, ?_, ?_, ?_⟩
      · rw [hw1, ← hu]
        exact putUri_fresh hE.lib ok0 hs0 han.2
      · refine N0.putUri hE.lib ok0 hns hs0 u0 U0 hch (fun x => ?_) (fun x => ?_) (fun x => ?_) (fun x => ?_) ?_
          (fun x k sh t h _ => (says1 _ _ _ _).1 h) (fun x k sh t _ h => (says1 _ _ _ _).1 h)
          (fun x k sh t _ h => (says1 _ _ _ _).2 h) (fun x _ => by rw [hw1, q3]) (fun p hp => ?_)
        · rw [hw1, q0]
        · rw [hw1]
        · rw [hw1, q2]
        · rw [hw1, q4]
        · rw [hw1]
        · rw [han.1] at hp; cases hp
      · refine ⟨fun y hy => ?_, fun k sh t ha h => U0.bare k sh t ha ((says1 _ _ _ _).1 h), fun p hp => ?_, fun v hv => ?_⟩
        · rw [hw1, q4]; exact U0.newest y hy
        · rw [hw1, q0, han.1] at hp; cases hp
        · rw [hw1, q1, if_pos rfl] at hv
          cases hv
          rw [← hu]; exact hU _
      · rw [hw1, q3]; exact hk0
    · rename_i han
      obtain ⟨rfl, rfl⟩ := M.pure_run h1
      exact ⟨rfl, .refl ok0, f0, u0, N0, U0, hk0⟩
  rcases M.bind_run hA with ⟨w1, x1, h1, hB⟩ | ⟨e, h1, rfl⟩
  rotate_left
  · cases (han h1).1
  obtain ⟨-, n1, f1, u1, N1, U1, hk1⟩ := han h1
  have hs1 := n1.node.isSchema.trans hs0
  have hc1 := n1.node.cacheid.trans hc0
  rcases M.bind_run hB with ⟨w2, x2, h2, hC⟩ | ⟨e, h2, rfl⟩
  rotate_left
  · exact bootstrap_names hE.lib hb hnb n1.ok hs1 hc1 f1 u1 hns N1 hk1 U1 h2
  obtain ⟨b1, ms2, f2, b3⟩ := bootstrap_spec hE.lib hb n1.ok hs1 hc1 f1 u1 h2
  have N2 := bootstrap_names hE.lib hb hnb n1.ok hs1 hc1 f1 u1 hns N1 hk1 U1 h2
  have hs2 : w2.isSchema s = true := b1.node.isSchema.trans hs1
  rcases M.bind_run hC with ⟨w3, cs, h3, hD⟩ | ⟨e, h3, rfl⟩
  rotate_left
  · obtain ⟨rfl, -⟩ := kwClasses_spec hE h3
    exact N2
  obtain ⟨rfl, hcs⟩ := kwClasses_spec hE h3
  obtain ⟨c1, c2, c3⟩ := hcs cs rfl
  cases ho : resolveDependencies KwCls.key KwCls.deps cs with
  | none => simp only [addClasses, ho] at hD; cases hD
  | some order =>
    simp only [addClasses, ho] at hD
    have hperm := (resolveDependencies_spec KwCls.key KwCls.deps cs order (c2.nodup hn) ho).1
    have hne : ∀ c ∈ order, c.key ≠ "$id" := by
      intro c hc hk
      have hc' := hperm.mem_iff.1 hc
      obtain ⟨e1, -⟩ := c1 c hc'
      rw [f2.keys b1.ok hs2, hk] at e1
      refine e1 (b3 rfl ?_)
      rw [← hk]
      exact c2.mem (List.mem_map_of_mem hc')
    refine each_addClass_names hE.lib hb hnb hns b1.ok hs2 (b1.node.cacheid.trans hc1) f2
      (fun c hc => ?_) (fun c hc => c2.mem (List.mem_map_of_mem (hperm.mem_iff.1 hc))) hne
      ((hperm.map KwCls.key).nodup_iff.2 (c2.nodup hn)) (fun c hc => (c1 c (hperm.mem_iff.1 hc)).1) N2 hD
    cases hi : c.shape.isId with
    | false => rfl
    | true => exact absurd ((c1 c (hperm.mem_iff.1 hc)).2 hi) (hne c hc)

/-! ## Schemas -/

/-- What is asked of a URI that is given to a schema. -/
structure GivenUri (uri : Option Uri) (parent : Option Nat) : Prop where
  root : ∀ p, parent = some p → uri = none
  plain : ∀ u, uri = some u → u.fragment = none

theorem GivenUri.none (parent : Option Nat) : GivenUri none parent := ⟨fun _ _ => rfl, fun _ h => by cases h⟩

theorem newSchemaNode_names {lib : UriLib} {n : Nat} {w w1 : World} {cid : String} {parent : Option Nat} {key : Option String}
    {uri metaUri : Option Uri} (pre : SPre w cid uri parent) (hg : GivenUri uri parent) (hn : n ≤ w.heap.next)
    (N : NamesOk lib c0 n w)
    (h : newSchemaNode cid uri metaUri parent key w = some (w1, .ok w.heap.next)) :
    NamesOk lib c0 n w1 ∧ Unsettled w1 w.heap.next ∧ w1.keywords w.heap.next = [] ∧
      ∀ x, w.heap.next ∉ (w1.heap.data x).kids := by
  obtain ⟨-, a2, a3, a4, a5, a6, a7, a8, a9⟩ := newSchemaNode_spec pre.ok pre.old pre.near pre.uri h
  have ok := pre.ok
  simp only [newSchemaNode, Option.some.injEq, Prod.mk.injEq, and_true] at h
  generalize hs : w.heap.next = s at *
  have hinfo : ∀ x, w1.info x = if x = s then some { cacheid := cid, uri, metaUri } else w.info x := by
    intro x; rw [← h]
  have lt : ∀ {x}, w.isSchema x = true → x < s := fun h => hs ▸ ok.dom _ h
  have huri : ∀ x, w1.uri x = if x = s then uri else w.uri x := by
    intro x; simp only [World.uri, hinfo]; split <;> rfl
  have hcid : ∀ x, w1.cacheid x = if x = s then cid else w.cacheid x := by
    intro x; simp only [World.cacheid, hinfo]; split <;> rfl
  have hkw : ∀ x, w1.keywords x = if x = s then [] else w.keywords x := by
    intro x; simp only [World.keywords, hinfo]; split <;> rfl
  have hsch : ∀ x, w1.isSchema x = if x = s then true else w.isSchema x := by
    intro x; simp only [World.isSchema, hinfo]; split <;> rfl
  have hpar : ∀ {x}, x < s → w1.heap.parent x = w.heap.parent x := fun hx => a3.ext.parent (hs ▸ hx)
  have hbase : ∀ {x}, x < s → w1.baseUri x = w.baseUri x := fun {x} hx =>
    base_le ok.ord fun y hy => ⟨by rw [huri, if_neg (by omega)], hpar (by omega)⟩
  have hsays : ∀ {x k sh t}, Says w1 x k sh t ↔ Says w x k sh t := by
    intro x k sh t
    have hd : ∀ {k o}, (k, o) ∈ w.keywords x → w1.heap.data o.json = w.heap.data o.json := fun h =>
      a3.ext.data (ok.ord.kid _ _ (ok.kwKid h)).2.1
    constructor
    · rintro ⟨o, h1, h2, h3⟩
      rw [hkw] at h1
      split at h1
      · cases h1
      · exact ⟨o, h1, h2, (hd h1).symm.trans h3⟩
    · intro hsay
      have hx := lt hsay.isSchema
      obtain ⟨o, h1, h2, h3⟩ := hsay
      exact ⟨o, by rw [hkw, if_neg (by omega)]; exact h1, h2, (hd h1).trans h3⟩
  have hsn : w.isSchema s = false := by
    cases hb : w.isSchema s with
    | false => rfl
    | true => have := lt hb; omega
  have claims : ∀ {x v}, x ≠ s → (Claims lib w1 x v ↔ Claims lib w x v) := by
    intro x v hne
    constructor
    · intro c
      have hx := c.isSchema
      rw [hsch, if_neg hne] at hx
      cases c with
      | uri c => rw [huri, if_neg hne] at c; exact .uri c
      | anchor c1 c2 c3 => exact .anchor (hsays.1 c1) c2 ((hbase (lt hx)).symm.trans c3)
    · intro c
      have hx := c.isSchema
      cases c with
      | uri c => refine .uri ?_; rw [huri, if_neg hne]; exact c
      | anchor c1 c2 c3 => exact .anchor (hsays.2 c1) c2 ((hbase (lt hx)).trans c3)
  have hget : ∀ id v, cacheGet w1.caches id v = if id = cid ∧ some v = uri then some s else cacheGet w.caches id v := by
    intro id v
    rw [← h]
    cases uri with
    | none => simp
    | some u => simp only [cacheGet_add, Option.some.injEq]
  refine ⟨⟨fun cid' v x hv hx => ?_, fun x v hx c => ?_, fun x p hx h1 h2 h3 => ?_, fun x p sh t hx h1 h2 => ?_,
      fun cid' v x hv hx => ?_, fun cid' v x hf hv => ?_⟩, ⟨fun y hy => ?_, fun k sh t _ h => ?_, fun p hp => ?_, fun u hu => ?_⟩, ?_, ?_⟩
  · rw [hget] at hv
    split at hv
    · rename_i e
      cases hv
      exact ⟨by rw [hcid, if_pos rfl, e.1], .uri (by rw [huri, if_pos rfl, e.2])⟩
    · have hx' := lt (ok.cached _ _ _ hv)
      obtain ⟨h1, h2⟩ := N.claim cid' v x hv hx
      exact ⟨by rw [hcid, if_neg (by omega)]; exact h1, (claims (by omega)).2 h2⟩
  · rw [hget]
    split
    · exact ⟨s, by omega, rfl⟩
    · rename_i e
      by_cases hne : x = s
      · subst hne
        cases c with
        | uri c =>
          rw [huri, if_pos rfl] at c
          exact absurd ⟨by rw [hcid, if_pos rfl], c.symm⟩ e
        | anchor c1 =>
          have := (hsays.1 c1).isSchema
          rw [hsn] at this; cases this
      · rw [hcid, if_neg hne]
        exact N.cached x v hx ((claims hne).1 c)
  · by_cases hne : x = s
    · subst hne
      rw [huri, if_pos rfl]
      rw [a5] at h2
      exact hg.root p h2
    · rw [hsch, if_neg hne] at h1
      rw [hpar (lt h1)] at h2
      rw [hkw, if_neg hne] at h3
      rw [huri, if_neg hne]
      exact N.noId x p hx h1 h2 h3
  · have h2 := hsays.1 h2
    have hx' := lt h2.isSchema
    rw [hpar hx'] at h1
    have := ok.ord.par x p h1
    rw [huri, if_neg (by omega), hbase (by omega)]
    exact N.id x p sh t hx h1 h2
  · rw [hget] at hv
    split at hv
    · cases hv; omega
    · exact N.old cid' v x hv hx
  · rw [hget]
    split
    · exact ⟨s, rfl⟩
    · exact N.kept cid' v x hf hv
  · rw [hsch, if_neg (by omega)]
    cases hb : w.isSchema y with
    | false => rfl
    | true => have := lt hb; omega
  · have := (hsays.1 h).isSchema
    rw [hsn] at this; cases this
  · rw [a5] at hp
    rw [huri, if_pos rfl]
    exact hg.root p hp
  · rw [huri, if_pos rfl] at hu
    exact hg.plain u hu
  · rw [hkw, if_pos rfl]
  · rw [← hs]
    refine not_kid ok a2 a3 fun p hp => ?_
    rw [hs, a5] at hp
    exact pre.old p hp

theorem boolSchema_names {lib : UriLib} {n : Nat} {w w' : World} {cid : String} {parent : Option Nat} {key : Option String}
    {uri metaUri : Option Uri} {b : Bool} {r : Except Exc Nat} (pre : SPre w cid uri parent)
    (hg : GivenUri uri parent) (hn : n ≤ w.heap.next) (N : NamesOk lib c0 n w)
    (h : boolSchema cid uri metaUri parent key b w = some (w', r)) : NamesOk lib c0 n w' := by
  obtain ⟨w1, h1⟩ := newSchemaNode_run (w := w) (cid := cid) (parent := parent) (key := key)
    (uri := uri) (metaUri := metaUri)
  obtain ⟨-, a2, a3, a4, a5, a6, a7, a8, a9⟩ := newSchemaNode_spec pre.ok pre.old pre.near pre.uri h1
  obtain ⟨N1, -, -, hnk⟩ := newSchemaNode_names pre hg hn N h1
  unfold boolSchema at h
  simp only [bind, M.andThen, h1] at h
  simp only [setDataM, M.change, pure, M.ret, Option.some.injEq, Prod.mk.injEq] at h
  obtain ⟨hw, rfl⟩ := h
  rw [← hw]
  exact N1.setData a2 ((a2.ord.dom _).2 (by omega)) hnk

theorem objSchema_names {E : CEnv} (hE : CEnvOk E) (hU : ∀ l, (E.lib.uuid l).fragment = none) {kvs : List (String × Value)}
    {builds : List (String × KwBuild)} (hnd : (dkeys kvs).Nodup) {n : Nat} {cid : String} (hb : BuildsAll cid kvs builds)
    (hnb : NBuildsAll E.lib c0 n cid builds)
    {w w' : World} {parent : Option Nat} {key : Option String}
    {uri metaUri : Option Uri} {r : Except Exc Nat} (pre : SPre w cid uri parent)
    (hg : GivenUri uri parent) (hn : n ≤ w.heap.next) (N : NamesOk E.lib c0 n w)
    (h : objSchema E cid uri metaUri parent key kvs builds w = some (w', r)) : NamesOk E.lib c0 n w' := by
  obtain ⟨w1, h1⟩ := newSchemaNode_run (w := w) (cid := cid) (parent := parent) (key := key)
    (uri := uri) (metaUri := metaUri)
  obtain ⟨-, a2, a3, a4, a5, a6, a7, a8, a9⟩ := newSchemaNode_spec pre.ok pre.old pre.near pre.uri h1
  obtain ⟨N1, U1, hk, hnk⟩ := newSchemaNode_names pre hg hn N h1
  unfold objSchema at h
  have hcid : w1.cacheid w.heap.next = cid := by simp [World.cacheid, a7]
  have hs : w1.isSchema w.heap.next = true := by simp [World.isSchema, a7]
  rcases M.bind_run h with ⟨w2, s, h2, h3⟩ | ⟨e, h2, rfl⟩
  · rw [h1] at h2
    simp only [Option.some.injEq, Prod.mk.injEq, Except.ok.injEq] at h2
    obtain ⟨rfl, rfl⟩ := h2
    rcases M.bind_run h3 with ⟨w3, x, h4, h5⟩ | ⟨e, h4, rfl⟩
    · obtain ⟨rfl, rfl⟩ := M.pure_run h5
      exact initObject_names hE hU hnd hb hnb a2 hs hcid a8 a9 hn N1 U1 hk hnk h4
    · exact initObject_names hE hU hnd hb hnb a2 hs hcid a8 a9 hn N1 U1 hk hnk h4
  · rw [h1] at h2
    simp at h2

/-! ## Recursion -/

/-- The constructor of schemas keeps the URIs in order. -/
def NSchemaWorks (E : CEnv) (c0 : Caches) (n : Nat) (v : Value) : Prop :=
  ∀ (cid : String) (uri metaUri : Option Uri) (parent : Option Nat) (key : Option String) (w w' : World)
    (r : Except Exc Nat), SPre w cid uri parent → GivenUri uri parent → n ≤ w.heap.next → NamesOk E.lib c0 n w →
    newSchema E cid uri metaUri parent key v w = some (w', r) → NamesOk E.lib c0 n w'

theorem newItems_names {E : CEnv} {cid : String} {j g n : Nat} : ∀ {xs : List Value} (_ : ∀ x ∈ xs, SchemaWorks E x)
    (_ : ∀ x ∈ xs, NSchemaWorks E c0 n x)
    {i : Nat} {w w' : World} {r : Except Exc (List Nat)} (_ : WOk w) (_ : j < w.heap.next)
    (_ : w.isSchema j = false) (_ : w.heap.parent j = some g) (_ : w.isSchema g = true)
    (_ : w.cacheid g = cid) (_ : n ≤ w.heap.next) (_ : NamesOk E.lib c0 n w)
    (_ : newItems E cid j i xs w = some (w', r)), NamesOk E.lib c0 n w' := by
  intro xs
  induction xs with
  | nil =>
    intro _ _ i w w' r ok hj hns hp hg hc hn N h
    simp only [newItems] at h
    obtain ⟨rfl, rfl⟩ := M.pure_run h
    exact N
  | cons x xs ih =>
    intro hx hx' i w w' r ok hj hns hp hg hc hn N h
    simp only [newItems] at h
    have hgl := ok.dom g hg
    have pre : SPre w cid none (some j) := SPre.child ok hj hns hp hg hc
    rcases M.bind_run h with ⟨w1, c, h1, h2⟩ | ⟨e, h1, rfl⟩
    · have s1 := hx x (by simp) _ _ _ _ _ _ _ _ pre h1
      have N1 := hx' x (by simp) _ _ _ _ _ _ _ _ pre (.none _) hn N h1
      have hj1 : j < w1.heap.next := Nat.lt_of_lt_of_le hj s1.grow.le
      have hp1 : w1.heap.parent j = some g := by rw [s1.grow.ext.parent hj]; exact hp
      have hg1 : w1.isSchema g = true := by rw [s1.grow.isSchema hgl]; exact hg
      have hns1 : w1.isSchema j = false := by rw [s1.grow.isSchema hj]; exact hns
      have hc1 : w1.cacheid g = cid := by rw [s1.grow.cacheid hgl]; exact hc
      have hn1 := Nat.le_trans hn s1.grow.le
      rcases M.bind_run h2 with ⟨w2, cs, h3, h4⟩ | ⟨e, h3, rfl⟩
      · obtain ⟨rfl, rfl⟩ := M.pure_run h4
        exact ih (fun y hy => hx y (by simp [hy])) (fun y hy => hx' y (by simp [hy])) s1.ok hj1 hns1 hp1 hg1 hc1 hn1 N1 h3
      · exact ih (fun y hy => hx y (by simp [hy])) (fun y hy => hx' y (by simp [hy])) s1.ok hj1 hns1 hp1 hg1 hc1 hn1 N1 h3
    · exact hx' x (by simp) _ _ _ _ _ _ _ _ pre (.none _) hn N h1

theorem newMembers_names {E : CEnv} {cid : String} {j g n : Nat} : ∀ {kvs : List (String × Value)}
    (_ : ∀ kv ∈ kvs, SchemaWorks E kv.2) (_ : ∀ kv ∈ kvs, NSchemaWorks E c0 n kv.2)
    {w w' : World} {r : Except Exc (List (String × Nat))} (_ : WOk w) (_ : j < w.heap.next)
    (_ : w.isSchema j = false) (_ : w.heap.parent j = some g) (_ : w.isSchema g = true)
    (_ : w.cacheid g = cid) (_ : n ≤ w.heap.next) (_ : NamesOk E.lib c0 n w)
    (_ : newMembers E cid j kvs w = some (w', r)), NamesOk E.lib c0 n w' := by
  intro kvs
  induction kvs with
  | nil =>
    intro _ _ w w' r ok hj hns hp hg hc hn N h
    simp only [newMembers] at h
    obtain ⟨rfl, rfl⟩ := M.pure_run h
    exact N
  | cons kv kvs ih =>
    obtain ⟨k, x⟩ := kv
    intro hx hx' w w' r ok hj hns hp hg hc hn N h
    simp only [newMembers] at h
    have hgl := ok.dom g hg
    have pre : SPre w cid none (some j) := SPre.child ok hj hns hp hg hc
    rcases M.bind_run h with ⟨w1, c, h1, h2⟩ | ⟨e, h1, rfl⟩
    · have s1 := hx (k, x) (by simp) _ _ _ _ _ _ _ _ pre h1
      have N1 := hx' (k, x) (by simp) _ _ _ _ _ _ _ _ pre (.none _) hn N h1
      have hj1 : j < w1.heap.next := Nat.lt_of_lt_of_le hj s1.grow.le
      have hp1 : w1.heap.parent j = some g := by rw [s1.grow.ext.parent hj]; exact hp
      have hg1 : w1.isSchema g = true := by rw [s1.grow.isSchema hgl]; exact hg
      have hns1 : w1.isSchema j = false := by rw [s1.grow.isSchema hj]; exact hns
      have hc1 : w1.cacheid g = cid := by rw [s1.grow.cacheid hgl]; exact hc
      have hn1 := Nat.le_trans hn s1.grow.le
      rcases M.bind_run h2 with ⟨w2, cs, h3, h4⟩ | ⟨e, h3, rfl⟩
      · obtain ⟨rfl, rfl⟩ := M.pure_run h4
        exact ih (fun y hy => hx y (by simp [hy])) (fun y hy => hx' y (by simp [hy])) s1.ok hj1 hns1 hp1 hg1 hc1 hn1 N1 h3
      · exact ih (fun y hy => hx y (by simp [hy])) (fun y hy => hx' y (by simp [hy])) s1.ok hj1 hns1 hp1 hg1 hc1 hn1 N1 h3
    · exact hx' (k, x) (by simp) _ _ _ _ _ _ _ _ pre (.none _) hn N h1

/-- A container of schemas. -/
theorem container_names {α : Type} {lib : UriLib} {n : Nat} {w w' : World} {s : Nat} {k : String} {r : Except Exc Nat}
    {items : Nat → M α} {data : α → JData} (ok : WOk w) (hs : w.isSchema s = true) (N : NamesOk lib c0 n w)
    (hi : ∀ {w1 w2 : World} {r2}, WOk w1 → w.heap.next < w1.heap.next → w1.isSchema w.heap.next = false →
      w1.heap.parent w.heap.next = some s → w1.isSchema s = true → w1.cacheid s = w.cacheid s →
      NamesOk lib c0 n w1 → items w.heap.next w1 = some (w2, r2) → WOk w2 ∧ Grow w1 w2 ∧ NamesOk lib c0 n w2)
    (h : (do
      let j ← newJsonNode (some s) (some k)
      let cs ← items j
      setDataM j (data cs)
      pure j : M Nat) w = some (w', r)) : NamesOk lib c0 n w' := by
  have hsl := ok.dom s hs
  obtain ⟨w1, h1⟩ := newJsonNode_run (w := w) (parent := some s) (key := some k)
  obtain ⟨-, a2, a3, a4, a5, a6, a7, a8, a9⟩ := newJsonNode_spec ok (fun p h => by cases h; exact hsl) h1
  have hs1 : w1.isSchema s = true := by rw [a3.isSchema hsl]; exact hs
  have hc1 : w1.cacheid s = w.cacheid s := a3.cacheid hsl
  have hns1 : w1.isSchema w.heap.next = false := by
    simp only [World.isSchema, a7]
    cases hb : (w.info w.heap.next).isSome with
    | false => rfl
    | true => have := ok.dom _ hb; omega
  have hc : w1.caches = w.caches := by
    simp only [newJsonNode, Option.some.injEq, Prod.mk.injEq, and_true] at h1
    rw [← h1]
  have N1 := N.grow ok a3 a7 hc
  rcases M.bind_run h with ⟨w1', j, h1', h2⟩ | ⟨e, h1', rfl⟩
  rotate_left
  · rw [h1] at h1'; simp at h1'
  rw [h1] at h1'
  simp only [Option.some.injEq, Prod.mk.injEq, Except.ok.injEq] at h1'
  obtain ⟨rfl, rfl⟩ := h1'
  have hj1 : w.heap.next < w1.heap.next := by omega
  rcases M.bind_run h2 with ⟨w2, cs, h3, h4⟩ | ⟨e, h3, rfl⟩
  rotate_left
  · exact (hi a2 hj1 hns1 a5 hs1 hc1 N1 h3).2.2
  obtain ⟨b1, b2, b3⟩ := hi a2 hj1 hns1 a5 hs1 hc1 N1 h3
  simp only [bind, M.andThen, setDataM, M.change, pure, M.ret, Option.some.injEq, Prod.mk.injEq] at h4
  obtain ⟨rfl, rfl⟩ := h4
  refine b3.setData b1 ((b1.ord.dom _).2 (by have := b2.le; omega)) ?_
  refine not_kid ok b1 ⟨Nat.le_trans a3.le b2.le, fun x hx _ => ?_, fun x hx _ => ?_⟩ fun p hp => ?_
  · rw [b2.node x (by omega) id, a3.node x hx id]
  · rw [b2.info x (by omega) id, a3.info x hx id]
  · rw [b2.ext.parent hj1, a5] at hp
    cases hp
    exact hsl

theorem newJsonM_names {lib : UriLib} {n : Nat} {w w' : World} {r : Except Exc Nat} {v : Value} {s : Nat} {k : String}
    (hv : v.WF) (ok : WOk w) (hs : w.isSchema s = true) (N : NamesOk lib c0 n w)
    (h : newJsonM v (some s) (some k) w = some (w', r)) : NamesOk lib c0 n w' := by
  obtain ⟨a1, a2, a3, -⟩ := newJsonM_spec hv ok (ok.dom s hs) h
  refine N.grow ok a2 a3 ?_
  simp only [newJsonM, Option.some.injEq, Prod.mk.injEq] at h
  rw [← h.1]

theorem raise_names {lib : UriLib} {α : Type} {n : Nat} {w w' : World} {r : Except Exc α} {e : Exc} (N : NamesOk lib c0 n w)
    (h : M.raise e w = some (w', r)) : NamesOk lib c0 n w' := by
  obtain ⟨rfl, rfl⟩ := M.raise_run h
  exact N

/-- The constructors keep the URIs in order. -/
theorem names {E : CEnv} (hE : CEnvOk E) (hU : ∀ l, (E.lib.uuid l).fragment = none) (n : Nat) (v : Value) : v.WF →
    NSchemaWorks E c0 n v ∧ ∀ (cid k : String), NBuilds E.lib c0 n cid (kwBuild E cid k v) := by
  have sub : ∀ {w : World} {s : Nat} {cid : String}, WOk w → w.isSchema s = true → w.cacheid s = cid →
      SPre w cid none (some s) :=
    fun ok hs hc => ⟨ok, fun p h => by cases h; exact ok.dom _ hs, fun p h => by cases h; exact .inl ⟨hs, hc⟩,
      fun u h => by cases h⟩
  have le : ∀ {w : World} {s : Nat}, WOk w → w.isSchema s = true → n ≤ s → n ≤ w.heap.next := by
    intro w s ok hs h
    have := ok.dom s hs
    omega
  have bad : ∀ {v : Value}, (∀ cid uri metaUri parent key, newSchema E cid uri metaUri parent key v =
      (do let _ ← newSchemaNode cid uri metaUri parent key; M.raise .typeError)) → NSchemaWorks E c0 n v := by
    intro v hv cid uri metaUri parent key w w' r pre hg hn N h
    rw [hv] at h
    obtain ⟨w1, h1⟩ := newSchemaNode_run (w := w) (cid := cid) (parent := parent) (key := key)
      (uri := uri) (metaUri := metaUri)
    have N1 := (newSchemaNode_names pre hg hn N h1).1
    simp only [bind, M.andThen, h1] at h
    obtain ⟨rfl, rfl⟩ := M.raise_run h
    exact N1
  induction v using Value.induct with
  | null =>
    intro hv
    refine ⟨bad fun _ _ _ _ _ => by simp only [newSchema], fun cid k shape s w w' r ok hs hc hns N h => ?_⟩
    cases shape <;> simp only [kwBuild] at h
    all_goals first
      | exact raise_names N h
      | exact newJsonM_names hv ok hs N h
  | bool b =>
    intro hv
    refine ⟨fun cid uri metaUri parent key w w' r pre hg hn N h => ?_, fun cid k shape s w w' r ok hs hc hns N h => ?_⟩
    · simp only [newSchema] at h
      exact boolSchema_names pre hg hn N h
    · cases shape <;> simp only [kwBuild] at h
      all_goals first
        | exact raise_names N h
        | exact newJsonM_names hv ok hs N h
        | exact boolSchema_names (sub ok hs hc) (.none _) (le ok hs hns) N h
  | num x =>
    intro hv
    refine ⟨bad fun _ _ _ _ _ => by simp only [newSchema], fun cid k shape s w w' r ok hs hc hns N h => ?_⟩
    cases shape <;> simp only [kwBuild] at h
    all_goals first
      | exact raise_names N h
      | exact newJsonM_names hv ok hs N h
  | str t =>
    intro hv
    refine ⟨bad fun _ _ _ _ _ => by simp only [newSchema], fun cid k shape s w w' r ok hs hc hns N h => ?_⟩
    cases shape <;> simp only [kwBuild] at h
    all_goals first
      | exact raise_names N h
      | exact newJsonM_names hv ok hs N h
  | arr xs ih =>
    intro hv
    have hxw : ∀ x ∈ xs, x.WF := by cases hv with | arr h => exact h
    have hx : ∀ x ∈ xs, NSchemaWorks E c0 n x := fun x hx => (ih x hx (hxw x hx)).1
    have hx' : ∀ x ∈ xs, SchemaWorks E x := fun x hx => (works hE x (hxw x hx)).1
    refine ⟨bad fun _ _ _ _ _ => by simp only [newSchema], fun cid k shape s w w' r ok hs hc hns N h => ?_⟩
    have hi : ∀ {w1 w2 : World} {r2}, WOk w1 → w.heap.next < w1.heap.next → w1.isSchema w.heap.next = false →
      w1.heap.parent w.heap.next = some s → w1.isSchema s = true → w1.cacheid s = w.cacheid s →
      NamesOk E.lib c0 n w1 → newItems E cid w.heap.next 0 xs w1 = some (w2, r2) → WOk w2 ∧ Grow w1 w2 ∧ NamesOk E.lib c0 n w2 := by
      intro w1 w2 r2 ok1 hj1 hns1 hp1 hs1 hc1 N1 h1
      obtain ⟨b1, b2, -⟩ := newItems_spec hx' ok1 hj1 hns1 hp1 hs1 (hc1.trans hc) h1
      exact ⟨b1, b2, newItems_names hx' hx ok1 hj1 hns1 hp1 hs1 (hc1.trans hc) (le ok1 hs1 hns) N1 h1⟩
    cases shape <;> simp only [kwBuild] at h
    all_goals first
      | exact raise_names N h
      | exact newJsonM_names hv ok hs N h
      | exact container_names (items := fun j => newItems E cid j 0 xs) (data := .arr) ok hs N hi h
  | obj kvs ih =>
    intro hv
    have hn : (dkeys kvs).Nodup := by cases hv with | obj h _ => exact h
    have hw : ∀ kv ∈ kvs, kv.2.WF := by cases hv with | obj _ h => exact h
    have hx : ∀ kv ∈ kvs, NSchemaWorks E c0 n kv.2 := fun kv hkv => (ih kv hkv (hw kv hkv)).1
    have hx' : ∀ kv ∈ kvs, SchemaWorks E kv.2 := fun kv hkv => (works hE kv.2 (hw kv hkv)).1
    have hb : ∀ cid, BuildsAll cid kvs (kwBuilds E cid kvs) := by
      intro cid k v hkv
      refine ⟨kwBuild E cid k v, by rw [dlookup_kwBuilds, hkv]; rfl, ?_⟩
      exact (works hE v (hw _ (dlookup_mem hkv))).2 cid k
    have hnb : ∀ cid, NBuildsAll E.lib c0 n cid (kwBuilds E cid kvs) := by
      intro cid k b hkb
      rw [dlookup_kwBuilds] at hkb
      obtain ⟨v, hkv, rfl⟩ := Option.map_eq_some_iff.1 hkb
      exact (ih (k, v) (dlookup_mem hkv) (hw _ (dlookup_mem hkv))).2 cid k
    refine ⟨fun cid uri metaUri parent key w w' r pre hg hle N h => ?_, fun cid k shape s w w' r ok hs hc hns N h => ?_⟩
    · simp only [newSchema] at h
      exact objSchema_names hE hU hn (hb cid) (hnb cid) pre hg hle N h
    · have hi : ∀ {w1 w2 : World} {r2}, WOk w1 → w.heap.next < w1.heap.next → w1.isSchema w.heap.next = false →
        w1.heap.parent w.heap.next = some s → w1.isSchema s = true → w1.cacheid s = w.cacheid s →
        NamesOk E.lib c0 n w1 → newMembers E cid w.heap.next kvs w1 = some (w2, r2) → WOk w2 ∧ Grow w1 w2 ∧ NamesOk E.lib c0 n w2 := by
        intro w1 w2 r2 ok1 hj1 hns1 hp1 hs1 hc1 N1 h1
        obtain ⟨b1, b2, -⟩ := newMembers_spec hx' ok1 hj1 hns1 hp1 hs1 (hc1.trans hc) h1
        exact ⟨b1, b2, newMembers_names hx' hx ok1 hj1 hns1 hp1 hs1 (hc1.trans hc) (le ok1 hs1 hns) N1 h1⟩
      cases shape <;> simp only [kwBuild] at h
      all_goals first
        | exact raise_names N h
        | exact newJsonM_names hv ok hs N h
        | exact objSchema_names hE hU hn (hb cid) (hnb cid) (sub ok hs hc) (.none _) (le ok hs hns) N h
        | exact container_names (items := fun j => newMembers E cid j kvs) (data := .obj) ok hs N hi h

end Jschon
