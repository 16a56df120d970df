import Verif.Proof.ConstructTotal

/-!
# What a constructor makes hangs together

Every instance that a successful constructor makes is the one it returns, or is in a container that it
made.
-/

namespace Jschon
open Spec

/-- Every instance from `a` on is one of `L`, or is in a container from `a` on. -/
def Hangs (a : Nat) (L : List Nat) (h : JHeap) : Prop :=
  ∀ x, a ≤ x → x < h.next → x ∈ L ∨ ∃ p, a ≤ p ∧ p < h.next ∧ x ∈ (h.data p).kids

theorem Hangs.nil (h : JHeap) : Hangs h.next [] h := fun x h1 h2 => by omega

/-- What is made afterwards. -/
theorem Hangs.join {a : Nat} {L L' : List Nat} {h h' : JHeap} (H : Hangs a L h) (H' : Hangs h.next L' h')
    (ha : a ≤ h.next) (hle : h.next ≤ h'.next) (hd : ∀ p, a ≤ p → p < h.next → h'.data p = h.data p) :
    Hangs a (L ++ L') h' := by
  intro x h1 h2
  by_cases hx : x < h.next
  · rcases H x h1 hx with h3 | ⟨p, h3, h4, h5⟩
    · exact .inl (List.mem_append_left _ h3)
    · exact .inr ⟨p, h3, by omega, by rw [hd p h3 h4]; exact h5⟩
  · rcases H' x (by omega) h2 with h3 | ⟨p, h3, h4, h5⟩
    · exact .inl (List.mem_append_right _ h3)
    · exact .inr ⟨p, by omega, h4, h5⟩

/-- A container takes what was made for it. -/
theorem Hangs.close {c : Nat} {L : List Nat} {h h' : JHeap} (H : Hangs (c + 1) L h) (hn : h'.next = h.next)
    (hd : ∀ p, c < p → h'.data p = h.data p) (hc : (h'.data c).kids = L) : Hangs c [c] h' := by
  intro x h1 h2
  by_cases hx : x = c
  · exact .inl (by simp [hx])
  · right
    rcases H x (by omega) (by omega) with h3 | ⟨p, h3, h4, h5⟩
    · exact ⟨c, Nat.le_refl _, by omega, by rw [hc]; exact h3⟩
    · exact ⟨p, by omega, by omega, by rw [hd p (by omega)]; exact h5⟩

/-! ## JSON -/

theorem ext_has {h h' : JHeap} (e : Ext h h') {x : Nat} (hx : x < h.next) (hh : h.has x) : h'.has x := by
  simpa [JHeap.has, e.old x hx] using hh

mutual
theorem buildData_hangs : (v : Value) → ∀ (h : JHeap) (r : Ref),
    Hangs h.next (buildData h r v).2.kids (buildData h r v).1
  | .null, h, _ => by simp only [buildData]; exact .nil h
  | .bool _, h, _ => by simp only [buildData]; exact .nil h
  | .num _, h, _ => by simp only [buildData]; exact .nil h
  | .str _, h, _ => by simp only [buildData]; exact .nil h
  | .arr xs, h, r => by simp only [buildData]; exact buildItems_hangs xs h r 0
  | .obj kvs, h, r => by simp only [buildData]; exact buildMembers_hangs kvs h r
theorem buildItems_hangs : (xs : List Value) → ∀ (h : JHeap) (r : Ref) (i : Nat),
    Hangs h.next (buildItems h r i xs).2 (buildItems h r i xs).1
  | [], h, _, _ => by simp only [buildItems]; exact .nil h
  | x :: xs, h, r, i => by
    simp only [buildItems]
    generalize hn : ({ data := .null, parent := some r, key := some (natStr i) } : JNode) = nd
    have e1 := buildData_ext x (h.push nd) h.next
    have hp : (h.push nd).next = h.next + 1 := rfl
    have hle := e1.le
    have hhas : (buildData (h.push nd) h.next x).1.has h.next :=
      ext_has e1 (by omega) (by simp [JHeap.has, JHeap.push])
    have one : Hangs h.next [h.next] ((buildData (h.push nd) h.next x).1.setData h.next
        (buildData (h.push nd) h.next x).2) := by
      refine (buildData_hangs x (h.push nd) h.next).close rfl (fun p hp => ?_) ?_
      · rw [setData_data _ _ _ _ hhas, if_neg (by omega)]
      · rw [setData_data _ _ _ _ hhas, if_pos rfl]
    have e2 := buildItems_ext xs ((buildData (h.push nd) h.next x).1.setData h.next
        (buildData (h.push nd) h.next x).2) r (i + 1)
    have hs : ((buildData (h.push nd) h.next x).1.setData h.next (buildData (h.push nd) h.next x).2).next =
      (buildData (h.push nd) h.next x).1.next := rfl
    exact one.join (buildItems_hangs xs _ r (i + 1)) (by omega) e2.le fun p _ hp => e2.data hp
theorem buildMembers_hangs : (kvs : List (String × Value)) → ∀ (h : JHeap) (r : Ref),
    Hangs h.next ((buildMembers h r kvs).2.map Prod.snd) (buildMembers h r kvs).1
  | [], h, _ => by simp only [buildMembers]; exact .nil h
  | (k, x) :: xs, h, r => by
    simp only [buildMembers]
    generalize hn : ({ data := .null, parent := some r, key := some k } : JNode) = nd
    have e1 := buildData_ext x (h.push nd) h.next
    have hp : (h.push nd).next = h.next + 1 := rfl
    have hle := e1.le
    have hhas : (buildData (h.push nd) h.next x).1.has h.next :=
      ext_has e1 (by omega) (by simp [JHeap.has, JHeap.push])
    have one : Hangs h.next [h.next] ((buildData (h.push nd) h.next x).1.setData h.next
        (buildData (h.push nd) h.next x).2) := by
      refine (buildData_hangs x (h.push nd) h.next).close rfl (fun p hp => ?_) ?_
      · rw [setData_data _ _ _ _ hhas, if_neg (by omega)]
      · rw [setData_data _ _ _ _ hhas, if_pos rfl]
    have e2 := buildMembers_ext xs ((buildData (h.push nd) h.next x).1.setData h.next
        (buildData (h.push nd) h.next x).2) r
    have hs : ((buildData (h.push nd) h.next x).1.setData h.next (buildData (h.push nd) h.next x).2).next =
      (buildData (h.push nd) h.next x).1.next := rfl
    exact one.join (buildMembers_hangs xs _ r) (by omega) e2.le fun p _ hp => e2.data hp
end

theorem newJson_hangs (h : JHeap) (v : Value) (p : Option Ref) (k : Option String) :
    Hangs h.next [(newJson h v p k).2] (newJson h v p k).1 := by
  unfold newJson
  generalize hn : ({ data := .null, parent := p, key := k } : JNode) = nd
  have e1 := buildData_ext v (h.push nd) h.next
  have hp : (h.push nd).next = h.next + 1 := rfl
  have hhas : (buildData (h.push nd) h.next v).1.has h.next :=
    ext_has e1 (by omega) (by simp [JHeap.has, JHeap.push])
  refine (buildData_hangs v (h.push nd) h.next).close rfl (fun p hp => ?_) ?_
  · rw [setData_data _ _ _ _ hhas, if_neg (by omega)]
  · rw [setData_data _ _ _ _ hhas, if_pos rfl]

theorem newJsonM_hangs {w w' : World} {v : Value} {p : Option Nat} {k : Option String} {j : Nat}
    (h : newJsonM v p k w = some (w', .ok j)) : Hangs w.heap.next [j] w'.heap := by
  simp only [newJsonM, Option.some.injEq, Prod.mk.injEq, Except.ok.injEq] at h
  obtain ⟨rfl, rfl⟩ := h
  exact newJson_hangs _ _ _ _

/-! ## Keywords -/

/-- The constructor makes nothing that does not hang on its result. -/
def KBuilds (cid : String) (b : KwBuild) : Prop :=
  ∀ shape s w w' j, WOk w → w.isSchema s = true → w.cacheid s = cid → b shape s w = some (w', .ok j) →
    Hangs w.heap.next [j] w'.heap

/-- All constructors are like that. -/
def KBuildsAll (cid : String) (builds : List (String × KwBuild)) : Prop :=
  ∀ k b, dlookup k builds = some b → KBuilds cid b

/-- What has been made since schema `s` hangs on its members. -/
def Held (s : Nat) (w : World) : Prop := Hangs (s + 1) (w.heap.data s).kids w.heap

theorem addKeyword_hangs {E : CEnv} (hE : LibOk E.lib) {kvs : List (String × Value)} {s : Nat}
    {shape : KwShape} {key : String} {v : Value} {b : KwBuild} {w w' : World}
    {ms : List (String × Nat)} (ok : WOk w) (hs : w.isSchema s = true) (f : Filled kvs s w ms)
    (hb : Builds (w.cacheid s) key v b) (hkb : KBuilds (w.cacheid s) b)
    (hu : shape.isId = true → UniqueUri w s) (H : Held s w) (hnew : key ∉ dkeys ms)
    (h : addKeyword E s shape key v b w = some (w', .ok ())) :
    Held s w' ∧ ∃ j, w'.heap.data s = .obj (dset key j ms) := by
  have hlt := ok.dom s hs
  unfold addKeyword at h
  rcases M.bind_run h with ⟨w1, j, h1, h2⟩ | ⟨e, h1, h⟩
  rotate_left
  · cases h
  obtain ⟨ok1, g1, i1, c1⟩ := hb shape s w w1 _ ok hs rfl h1
  have H1 := hkb shape s w w1 j ok hs rfl h1
  obtain ⟨j1, j2, -⟩ := c1 j rfl
  have hs1 : w1.isSchema s = true := by rw [g1.isSchema hlt]; exact hs
  have d1 : w1.heap.data s = w.heap.data s := g1.ext.data hlt
  have hu1 : shape.isId = true → UniqueUri w1 s := fun hi =>
    (SameUris.of_info (i1 (by cases shape <;> simp_all [KwShape.boot, KwShape.isId]))).unique (hu hi)
  rcases M.bind_run h2 with ⟨w2, x, h3, h4⟩ | ⟨e, h3, h⟩
  rotate_left
  · cases h
  obtain ⟨n2, u2⟩ := initKw_spec hE ok1 hs1 hu1 h3
  obtain ⟨hw, -⟩ := M.change_run h4
  have d2 : w2.heap.data s = .obj ms := by rw [n2.heap, d1, f.data]
  simp only [World.setInfo, d2] at hw
  have hs2 : w2.isSchema s = true := by rw [n2.node.isSchema]; exact hs1
  have hhas : w2.heap.has s := (n2.ok.ord.dom s).2 (n2.ok.dom s hs2)
  have hheap : w'.heap = w2.heap.setData s (.obj (dset key j ms)) := by rw [hw]
  have d3 : w'.heap.data s = .obj (dset key j ms) := by
    rw [hheap, setData_data _ _ _ _ hhas, if_pos rfl]
  refine ⟨?_, j, d3⟩
  have H2 : Hangs (s + 1) (ms.map Prod.snd ++ [j]) w1.heap := by
    refine Hangs.join (h := w.heap) ?_ H1 (by omega) g1.le fun p _ hp => g1.ext.data hp
    have := H
    unfold Held at this
    rw [f.data] at this
    exact this
  rw [← n2.heap] at H2
  unfold Held
  rw [d3, dset_of_not_mem hnew]
  intro x h5 h6
  rw [hheap] at h6
  rcases H2 x h5 h6 with h7 | ⟨p, h7, h8, h9⟩
  · exact .inl (by simpa [JData.kids] using h7)
  · refine .inr ⟨p, h7, by rw [hheap]; exact h8, ?_⟩
    rw [hheap, setData_data _ _ _ _ hhas, if_neg (by omega)]
    exact h9

theorem bootOne_hangs {E : CEnv} (hE : LibOk E.lib) {kvs : List (String × Value)}
    {builds : List (String × KwBuild)} {s : Nat} {cid : String} (hb : BuildsAll cid kvs builds)
    (hk : KBuildsAll cid builds) {shape : KwShape} {key : String} {w w' : World}
    {ms : List (String × Nat)} (ok : WOk w) (hs : w.isSchema s = true) (hc : w.cacheid s = cid)
    (f : Filled kvs s w ms) (hu : shape.isId = true → UniqueUri w s) (H : Held s w) (hnew : key ∉ dkeys ms)
    (h : bootOne E s kvs builds key shape w = some (w', .ok ())) :
    Held s w' ∧ ∃ ms', w'.heap.data s = .obj ms' ∧ ∀ k ∈ dkeys ms', k = key ∨ k ∈ dkeys ms := by
  unfold bootOne at h
  cases hl : dlookup key kvs with
  | none =>
    simp only [hl] at h
    obtain ⟨rfl, _⟩ := M.pure_run h
    exact ⟨H, ms, f.data, fun k h => .inr h⟩
  | some v =>
    obtain ⟨b, hb1, hb2⟩ := hb key v hl
    simp only [hl, hb1] at h
    subst hc
    obtain ⟨a1, j, a2⟩ := addKeyword_hangs hE ok hs f hb2 (hk key b hb1) hu H hnew h
    exact ⟨a1, _, a2, fun k h => mem_dkeys_dset.1 h⟩

theorem bootstrap_hangs {E : CEnv} (hE : LibOk E.lib) {kvs : List (String × Value)}
    {builds : List (String × KwBuild)} {s : Nat} {cid : String} (hb : BuildsAll cid kvs builds)
    (hk : KBuildsAll cid builds) {w w' : World} (ok : WOk w) (hs : w.isSchema s = true)
    (hc : w.cacheid s = cid) (f : Filled kvs s w []) (hu : UniqueUri w s) (H : Held s w)
    (h : bootstrap E s kvs builds w = some (w', .ok ())) : Held s w' := by
  unfold bootstrap at h
  rcases M.bind_run h with ⟨w1, x1, h1, h⟩ | ⟨e, h1, h⟩
  rotate_left
  · cases h
  obtain ⟨a1, a2, ms1, a3, -, -⟩ := bootOne_spec hE hb ok hs hc f (fun h => by cases h) h1
  obtain ⟨H1, ms1', d1, k1⟩ := bootOne_hangs hE hb hk ok hs hc f (fun h => by cases h) H (by simp [dkeys]) h1
  rw [a3.data] at d1
  cases d1
  have hu1 := (a2 rfl rfl).unique hu
  have hs1 : w1.isSchema s = true := a1.node.isSchema.trans hs
  have hc1 := a1.node.cacheid.trans hc
  have k1 : ∀ k ∈ dkeys ms1, k = "$schema" := fun k h => (k1 k h).resolve_right (by simp [dkeys])
  rcases M.bind_run h with ⟨w2, x2, h2, h⟩ | ⟨e, h2, h⟩
  rotate_left
  · cases h
  obtain ⟨b1, b2, ms2, b3, -, -⟩ := bootOne_spec hE hb a1.ok hs1 hc1 a3 (fun h => by cases h) h2
  obtain ⟨H2, ms2', d2, k2⟩ := bootOne_hangs hE hb hk a1.ok hs1 hc1 a3 (fun h => by cases h) H1
    (fun h => absurd (k1 _ h) (by decide)) h2
  rw [b3.data] at d2
  cases d2
  have hu2 := (b2 rfl rfl).unique hu1
  have hs2 : w2.isSchema s = true := b1.node.isSchema.trans hs1
  have k2 : "$id" ∉ dkeys ms2 := by
    intro h
    rcases k2 _ h with h | h
    · exact absurd h (by decide)
    · exact absurd (k1 _ h) (by decide)
  split at h
  · rcases M.bind_run h with ⟨w3, m, h3, h4⟩ | ⟨e, h3, h⟩
    · obtain ⟨rfl, -⟩ := getMeta_spec h3
      exact (bootOne_hangs hE hb hk b1.ok hs2 (b1.node.cacheid.trans hc1) b3 (fun _ => hu2) H2 k2 h4).1
    · cases h
  · obtain ⟨rfl, _⟩ := M.pure_run h
    exact H2

theorem each_addClass_hangs {E : CEnv} (hE : LibOk E.lib) {kvs : List (String × Value)}
    {builds : List (String × KwBuild)} {s : Nat} {cid : String} (hb : BuildsAll cid kvs builds)
    (hkb : KBuildsAll cid builds) :
    ∀ {order : List KwCls} {w w' : World} {ms : List (String × Nat)}, WOk w → w.isSchema s = true →
    w.cacheid s = cid → Filled kvs s w ms →
    (∀ c ∈ order, c.shape.isId = false) → (∀ c ∈ order, c.key ∈ dkeys kvs) →
    (order.map KwCls.key).Nodup → (∀ c ∈ order, c.key ∉ dkeys ms) → Held s w →
    M.each (addClass E s kvs builds) order w = some (w', .ok ()) → Held s w' := by
  intro order
  induction order with
  | nil =>
    intro w w' ms ok hs hc f _ _ _ _ H h
    obtain ⟨rfl, _⟩ := M.pure_run h
    exact H
  | cons c order ih =>
    intro w w' ms ok hs hc f hi hk hnd hnew H h
    rcases M.bind_run (m := addClass E s kvs builds c) (f := fun _ => M.each (addClass E s kvs builds) order) h
      with ⟨w1, x, h1, h⟩ | ⟨e, h1, h⟩
    rotate_left
    · cases h
    unfold addClass at h1
    cases hd : dlookup c.key kvs with
    | none => exact absurd (hk c (by simp)) (dlookup_eq_none.1 hd)
    | some v =>
      obtain ⟨b, hb1, hb2⟩ := hb c.key v hd
      simp only [hd, hb1] at h1
      subst hc
      have hi' := hi c (by simp)
      obtain ⟨a1, -, ms', a3, -, -⟩ := addKeyword_spec hE ok hs f hd hb2
        (fun h => by rw [hi'] at h; cases h) h1
      obtain ⟨H1, j, d1⟩ := addKeyword_hangs hE ok hs f hb2 (hkb c.key b hb1)
        (fun h => by rw [hi'] at h; cases h) H (hnew c (by simp)) h1
      rw [a3.data] at d1
      cases d1
      rw [List.map_cons, List.nodup_cons] at hnd
      refine ih a1.ok (a1.node.isSchema.trans hs) a1.node.cacheid a3
        (fun c hc => hi c (by simp [hc])) (fun c hc => hk c (by simp [hc]))
        hnd.2 (fun c' hc' h' => ?_) H1 h
      rcases mem_dkeys_dset.1 h' with h' | h'
      · exact hnd.1 (h' ▸ List.mem_map_of_mem hc')
      · exact hnew c' (by simp [hc']) h'

theorem initObject_hangs {E : CEnv} (hE : CEnvOk E) {kvs : List (String × Value)}
    {builds : List (String × KwBuild)} (hn : (dkeys kvs).Nodup) {s : Nat} {cid : String} (hb : BuildsAll cid kvs builds)
    (hkb : KBuildsAll cid builds) {w w' : World} (ok : WOk w) (hs : w.isSchema s = true)
    (hc : w.cacheid s = cid) (hd : w.heap.data s = .null) (hu : UniqueUri w s) (hnext : w.heap.next = s + 1)
    (h : initObject E s kvs builds w = some (w', .ok ())) : Held s w' := by
  have hlt := ok.dom s hs
  have hhas : w.heap.has s := (ok.ord.dom s).2 hlt
  unfold initObject at h
  rcases M.bind_run h with ⟨w0, x0, h0, hA⟩ | ⟨e, h0, h⟩
  rotate_left
  · cases h
  clear h
  obtain ⟨hw0, -⟩ := M.change_run h0
  have ok0 : WOk w0 := by
    rw [hw0]
    refine setData_ok ok hlt (fun k c hc => by cases hc) (by simp [JData.kids]) (fun ms h => by cases h; simp [dkeys]) (fun i hi => ?_) (.inl ⟨hs, fun _ h => by cases h⟩)
    have := ok.kws s i hi
    rw [hd] at this
    exact this
  have hd0 : w0.heap.data s = .obj [] := by
    rw [hw0]; simp only [setData_data _ _ _ _ hhas, if_pos]
  have u0 : UniqueUri w0 s := (SameUris.of_info (by rw [hw0])).unique hu
  have hs0 : w0.isSchema s = true := by rw [hw0]; exact hs
  have hc0 : w0.cacheid s = cid := by rw [hw0]; exact hc
  have hn0 : w0.heap.next = s + 1 := by rw [hw0]; exact hnext
  have f0 : Filled kvs s w0 [] := ⟨hd0, fun k j hj => by cases hj⟩
  have H0 : Held s w0 := by intro x h1 h2; omega
  have han : ∀ {w1 : World} {r1 : Except Exc Unit}, nameAnonymous E s w0 = some (w1, r1) →
      Init s w0 w1 ∧ Filled kvs s w1 [] ∧ UniqueUri w1 s ∧ Held s w1 := by
    intro w1 r1 h1
    replace h1 := M.read_bind h1
    split at h1
    · rename_i han
      simp only [Bool.and_eq_true, Option.isNone_iff_eq_none] at han
      replace h1 := M.read_bind h1
      obtain ⟨hw1, rfl⟩ := M.change_run h1
      generalize hu : E.lib.uuid w0.uris = u at *
      obtain ⟨a1, a2, a3, a4, a5, a6⟩ := putUri_spec (lib := E.lib) (u := u) ok0 hs0 u0
      have n1 : Init s w0 w1 := by rw [hw1]; exact ⟨a1, a3, a4⟩
      have hh : w1.heap = w0.heap := by rw [hw1, a2]
      refine ⟨n1, f0.step ok0 n1 (by rw [hh]), ?_, ?_⟩
      · rw [hw1, ← hu]
        exact putUri_fresh hE.lib ok0 hs0 han.2
      · unfold Held; rw [hh]; exact H0
    · obtain ⟨rfl, rfl⟩ := M.pure_run h1
      exact ⟨.refl ok0, f0, u0, H0⟩
  rcases M.bind_run hA with ⟨w1, x1, h1, hB⟩ | ⟨e, h1, h⟩
  rotate_left
  · cases h
  obtain ⟨n1, f1, u1, H1⟩ := han h1
  have hs1 := n1.node.isSchema.trans hs0
  have hc1 := n1.node.cacheid.trans hc0
  rcases M.bind_run hB with ⟨w2, x2, h2, hC⟩ | ⟨e, h2, h⟩
  rotate_left
  · cases h
  obtain ⟨b1, ms2, f2, b3⟩ := bootstrap_spec hE.lib hb n1.ok hs1 hc1 f1 u1 h2
  have H2 := bootstrap_hangs hE.lib hb hkb n1.ok hs1 hc1 f1 u1 H1 h2
  have hs2 : w2.isSchema s = true := b1.node.isSchema.trans hs1
  rcases M.bind_run hC with ⟨w3, cs, h3, hD⟩ | ⟨e, h3, h⟩
  rotate_left
  · cases h
  obtain ⟨rfl, hcs⟩ := kwClasses_spec hE h3
  obtain ⟨c1, c2, c3⟩ := hcs cs rfl
  cases ho : resolveDependencies KwCls.key KwCls.deps cs with
  | none => simp only [addClasses, ho] at hD; cases hD
  | some order =>
    simp only [addClasses, ho] at hD
    have hperm := (resolveDependencies_spec KwCls.key KwCls.deps cs order (c2.nodup hn) ho).1
    have hnew : ∀ c ∈ order, c.key ∉ dkeys ms2 := by
      intro c hc
      rw [← f2.keys b1.ok hs2]
      exact (c1 c (hperm.mem_iff.1 hc)).1
    refine each_addClass_hangs hE.lib hb hkb b1.ok hs2 (b1.node.cacheid.trans hc1) f2
      (fun c hc => ?_) (fun c hc => c2.mem (List.mem_map_of_mem (hperm.mem_iff.1 hc)))
      ((hperm.map KwCls.key).nodup_iff.2 (c2.nodup hn)) hnew H2 hD
    cases hi : c.shape.isId with
    | false => rfl
    | true =>
      have hk := (c1 c (hperm.mem_iff.1 hc)).2 hi
      refine absurd (b3 rfl ?_) (hk ▸ hnew c hc)
      rw [← hk]
      exact c2.mem (List.mem_map_of_mem (hperm.mem_iff.1 hc))

/-! ## Schemas -/

theorem objSchema_hangs {E : CEnv} (hE : CEnvOk E) {kvs : List (String × Value)}
    {builds : List (String × KwBuild)} (hnd : (dkeys kvs).Nodup) {cid : String} (hb : BuildsAll cid kvs builds)
    (hkb : KBuildsAll cid builds) {w w' : World} {parent : Option Nat} {key : Option String}
    {uri metaUri : Option Uri} {j : Nat} (pre : SPre w cid uri parent)
    (h : objSchema E cid uri metaUri parent key kvs builds w = some (w', .ok j)) :
    Hangs w.heap.next [j] w'.heap := by
  obtain ⟨w1, h1⟩ := newSchemaNode_run (w := w) (cid := cid) (parent := parent) (key := key)
    (uri := uri) (metaUri := metaUri)
  obtain ⟨-, a2, a3, a4, a5, a6, a7, a8, a9⟩ := newSchemaNode_spec pre.ok pre.old pre.near pre.uri h1
  unfold objSchema at h
  have hcid : w1.cacheid w.heap.next = cid := by simp [World.cacheid, a7]
  have hs : w1.isSchema w.heap.next = true := by simp [World.isSchema, a7]
  rcases M.bind_run h with ⟨w2, s, h2, h3⟩ | ⟨e, h2, h⟩
  rotate_left
  · cases h
  rw [h1] at h2
  simp only [Option.some.injEq, Prod.mk.injEq, Except.ok.injEq] at h2
  obtain ⟨rfl, rfl⟩ := h2
  rcases M.bind_run h3 with ⟨w3, x, h4, h5⟩ | ⟨e, h4, h⟩
  rotate_left
  · cases h
  obtain ⟨rfl, hj⟩ := M.pure_run h5
  cases hj
  exact (initObject_hangs hE hnd hb hkb a2 hs hcid a8 a9 a4 h4).close rfl (fun _ _ => rfl) rfl

theorem boolSchema_hangs {w w' : World} {cid : String} {parent : Option Nat} {key : Option String}
    {uri metaUri : Option Uri} {b : Bool} {j : Nat}
    (h : boolSchema cid uri metaUri parent key b w = some (w', .ok j)) : Hangs w.heap.next [j] w'.heap := by
  unfold boolSchema at h
  obtain ⟨w1, h1⟩ := newSchemaNode_run (w := w) (cid := cid) (parent := parent) (key := key)
    (uri := uri) (metaUri := metaUri)
  have hn : w1.heap.next = w.heap.next + 1 := by
    simp only [newSchemaNode, Option.some.injEq, Prod.mk.injEq, and_true] at h1
    rw [← h1]; rfl
  simp only [bind, M.andThen, h1] at h
  simp only [setDataM, M.change, pure, M.ret, Option.some.injEq, Prod.mk.injEq, Except.ok.injEq] at h
  obtain ⟨rfl, rfl⟩ := h
  intro x h2 h3
  have h3' : x < w1.heap.next := h3
  exact .inl (by simp; omega)

/-- The constructor of schemas makes nothing that does not hang on its result. -/
def KSchemaWorks (E : CEnv) (v : Value) : Prop :=
  ∀ (cid : String) (uri metaUri : Option Uri) (parent : Option Nat) (key : Option String) (w w' : World)
    (j : Nat), SPre w cid uri parent →
    newSchema E cid uri metaUri parent key v w = some (w', .ok j) → Hangs w.heap.next [j] w'.heap

theorem newItems_hangs {E : CEnv} {cid : String} {j g : Nat} : ∀ {xs : List Value} (_ : ∀ x ∈ xs, SchemaWorks E x)
    (_ : ∀ x ∈ xs, KSchemaWorks E x)
    {i : Nat} {w w' : World} {cs : List Nat} (_ : WOk w) (_ : j < w.heap.next)
    (_ : w.isSchema j = false) (_ : w.heap.parent j = some g) (_ : w.isSchema g = true)
    (_ : w.cacheid g = cid) (_ : newItems E cid j i xs w = some (w', .ok cs)), Hangs w.heap.next cs w'.heap := by
  intro xs
  induction xs with
  | nil =>
    intro _ _ i w w' cs ok hj hns hp hg hc h
    simp only [newItems] at h
    obtain ⟨rfl, h⟩ := M.pure_run h
    cases h
    exact .nil _
  | cons x xs ih =>
    intro hx hx' i w w' cs ok hj hns hp hg hc h
    simp only [newItems] at h
    have hgl := ok.dom g hg
    have pre : SPre w cid none (some j) := SPre.child ok hj hns hp hg hc
    rcases M.bind_run h with ⟨w1, c, h1, h2⟩ | ⟨e, h1, h⟩
    rotate_left
    · cases h
    have s1 := hx x (by simp) _ _ _ _ _ _ _ _ pre h1
    have H1 := hx' x (by simp) _ _ _ _ _ _ _ _ pre h1
    have hj1 : j < w1.heap.next := Nat.lt_of_lt_of_le hj s1.grow.le
    have hp1 : w1.heap.parent j = some g := by rw [s1.grow.ext.parent hj]; exact hp
    have hg1 : w1.isSchema g = true := by rw [s1.grow.isSchema hgl]; exact hg
    have hns1 : w1.isSchema j = false := by rw [s1.grow.isSchema hj]; exact hns
    have hc1 : w1.cacheid g = cid := by rw [s1.grow.cacheid hgl]; exact hc
    rcases M.bind_run h2 with ⟨w2, cs', h3, h4⟩ | ⟨e, h3, h⟩
    rotate_left
    · cases h
    obtain ⟨rfl, h4⟩ := M.pure_run h4
    cases h4
    obtain ⟨-, g2, -⟩ := newItems_spec (fun y hy => hx y (by simp [hy])) s1.ok hj1 hns1 hp1 hg1 hc1 h3
    have H2 := ih (fun y hy => hx y (by simp [hy])) (fun y hy => hx' y (by simp [hy])) s1.ok hj1 hns1 hp1 hg1 hc1 h3
    exact H1.join H2 s1.grow.le g2.le fun p _ hp => g2.ext.data hp

theorem newMembers_hangs {E : CEnv} {cid : String} {j g : Nat} : ∀ {kvs : List (String × Value)}
    (_ : ∀ kv ∈ kvs, SchemaWorks E kv.2) (_ : ∀ kv ∈ kvs, KSchemaWorks E kv.2)
    {w w' : World} {ms : List (String × Nat)} (_ : WOk w) (_ : j < w.heap.next)
    (_ : w.isSchema j = false) (_ : w.heap.parent j = some g) (_ : w.isSchema g = true)
    (_ : w.cacheid g = cid) (_ : newMembers E cid j kvs w = some (w', .ok ms)),
    Hangs w.heap.next (ms.map Prod.snd) w'.heap := by
  intro kvs
  induction kvs with
  | nil =>
    intro _ _ w w' cs ok hj hns hp hg hc h
    simp only [newMembers] at h
    obtain ⟨rfl, h⟩ := M.pure_run h
    cases h
    exact .nil _
  | cons kv kvs ih =>
    obtain ⟨k, x⟩ := kv
    intro hx hx' w w' cs ok hj hns hp hg hc h
    simp only [newMembers] at h
    have hgl := ok.dom g hg
    have pre : SPre w cid none (some j) := SPre.child ok hj hns hp hg hc
    rcases M.bind_run h with ⟨w1, c, h1, h2⟩ | ⟨e, h1, h⟩
    rotate_left
    · cases h
    have s1 := hx (k, x) (by simp) _ _ _ _ _ _ _ _ pre h1
    have H1 := hx' (k, x) (by simp) _ _ _ _ _ _ _ _ pre h1
    have hj1 : j < w1.heap.next := Nat.lt_of_lt_of_le hj s1.grow.le
    have hp1 : w1.heap.parent j = some g := by rw [s1.grow.ext.parent hj]; exact hp
    have hg1 : w1.isSchema g = true := by rw [s1.grow.isSchema hgl]; exact hg
    have hns1 : w1.isSchema j = false := by rw [s1.grow.isSchema hj]; exact hns
    have hc1 : w1.cacheid g = cid := by rw [s1.grow.cacheid hgl]; exact hc
    rcases M.bind_run h2 with ⟨w2, cs', h3, h4⟩ | ⟨e, h3, h⟩
    rotate_left
    · cases h
    obtain ⟨rfl, h4⟩ := M.pure_run h4
    cases h4
    obtain ⟨-, g2, -⟩ := newMembers_spec (fun y hy => hx y (by simp [hy])) s1.ok hj1 hns1 hp1 hg1 hc1 h3
    have H2 := ih (fun y hy => hx y (by simp [hy])) (fun y hy => hx' y (by simp [hy])) s1.ok hj1 hns1 hp1 hg1 hc1 h3
    exact H1.join H2 s1.grow.le g2.le fun p _ hp => g2.ext.data hp

/-- A container of schemas. -/
theorem container_hangs {α : Type} {w w' : World} {s : Nat} {k : String} {r : Nat}
    {items : Nat → M α} {data : α → JData} (ok : WOk w) (hs : w.isSchema s = true)
    (hi : ∀ {w1 w2 : World} {cs}, WOk w1 → w.heap.next < w1.heap.next → w1.isSchema w.heap.next = false →
      w1.heap.parent w.heap.next = some s → w1.isSchema s = true → w1.cacheid s = w.cacheid s →
      items w.heap.next w1 = some (w2, .ok cs) → WOk w2 ∧ Grow w1 w2 ∧ Hangs w1.heap.next (data cs).kids w2.heap)
    (h : (do
      let j ← newJsonNode (some s) (some k)
      let cs ← items j
      setDataM j (data cs)
      pure j : M Nat) w = some (w', .ok r)) : Hangs w.heap.next [r] w'.heap := by
  have hsl := ok.dom s hs
  obtain ⟨w1, h1⟩ := newJsonNode_run (w := w) (parent := some s) (key := some k)
  obtain ⟨-, a2, a3, a4, a5, a6, a7, a8, a9⟩ := newJsonNode_spec ok (fun p h => by cases h; exact hsl) h1
  have hs1 : w1.isSchema s = true := by rw [a3.isSchema hsl]; exact hs
  have hc1 : w1.cacheid s = w.cacheid s := a3.cacheid hsl
  have hns1 : w1.isSchema w.heap.next = false := by
    simp only [World.isSchema, a7]
    cases hb : (w.info w.heap.next).isSome with
    | false => rfl
    | true => have := ok.dom _ hb; omega
  rcases M.bind_run h with ⟨w1', j, h1', h2⟩ | ⟨e, h1', h⟩
  rotate_left
  · cases h
  rw [h1] at h1'
  simp only [Option.some.injEq, Prod.mk.injEq, Except.ok.injEq] at h1'
  obtain ⟨rfl, rfl⟩ := h1'
  have hj1 : w.heap.next < w1.heap.next := by omega
  rcases M.bind_run h2 with ⟨w2, cs, h3, h4⟩ | ⟨e, h3, h⟩
  rotate_left
  · cases h
  obtain ⟨b1, b2, b3⟩ := hi a2 hj1 hns1 a5 hs1 hc1 h3
  simp only [bind, M.andThen, setDataM, M.change, pure, M.ret, Option.some.injEq, Prod.mk.injEq, Except.ok.injEq] at h4
  obtain ⟨rfl, rfl⟩ := h4
  have hhas : w2.heap.has w.heap.next := (b1.ord.dom _).2 (by have := b2.le; omega)
  rw [a4] at b3
  refine b3.close rfl (fun p hp => ?_) ?_
  · simp only [setData_data _ _ _ _ hhas]
    rw [if_neg (by omega)]
  · simp only [setData_data _ _ _ _ hhas, if_pos]

/-- The constructors make nothing that does not hang on their results. -/
theorem hangs {E : CEnv} (hE : CEnvOk E) (v : Value) : v.WF →
    KSchemaWorks E v ∧ ∀ (cid k : String), KBuilds cid (kwBuild E cid k v) := by
  have sub : ∀ {w : World} {s : Nat} {cid : String}, WOk w → w.isSchema s = true → w.cacheid s = cid →
      SPre w cid none (some s) :=
    fun ok hs hc => ⟨ok, fun p h => by cases h; exact ok.dom _ hs, fun p h => by cases h; exact .inl ⟨hs, hc⟩,
      fun u h => by cases h⟩
  have bad : ∀ {v : Value}, (∀ cid uri metaUri parent key, newSchema E cid uri metaUri parent key v =
      (do let _ ← newSchemaNode cid uri metaUri parent key; M.raise .typeError)) → KSchemaWorks E v := by
    intro v hv cid uri metaUri parent key w w' r pre h
    rw [hv] at h
    obtain ⟨w1, h1⟩ := newSchemaNode_run (w := w) (cid := cid) (parent := parent) (key := key)
      (uri := uri) (metaUri := metaUri)
    simp only [bind, M.andThen, h1] at h
    obtain ⟨-, h⟩ := M.raise_run h
    cases h
  have raised : ∀ {w w' : World} {e : Exc} {j : Nat}, M.raise e w = some (w', .ok j) → Hangs w.heap.next [j] w'.heap := by
    intro w w' e j h
    obtain ⟨-, h⟩ := M.raise_run h
    cases h
  induction v using Value.induct with
  | null =>
    intro hv
    refine ⟨bad fun _ _ _ _ _ => by simp only [newSchema], fun cid k shape s w w' r ok hs hc h => ?_⟩
    cases shape <;> simp only [kwBuild] at h
    all_goals first
      | exact raised h
      | exact newJsonM_hangs h
  | bool b =>
    intro hv
    refine ⟨fun cid uri metaUri parent key w w' r pre h => ?_, fun cid k shape s w w' r ok hs hc h => ?_⟩
    · simp only [newSchema] at h
      exact boolSchema_hangs h
    · cases shape <;> simp only [kwBuild] at h
      all_goals first
        | exact raised h
        | exact newJsonM_hangs h
        | exact boolSchema_hangs h
  | num x =>
    intro hv
    refine ⟨bad fun _ _ _ _ _ => by simp only [newSchema], fun cid k shape s w w' r ok hs hc h => ?_⟩
    cases shape <;> simp only [kwBuild] at h
    all_goals first
      | exact raised h
      | exact newJsonM_hangs h
  | str t =>
    intro hv
    refine ⟨bad fun _ _ _ _ _ => by simp only [newSchema], fun cid k shape s w w' r ok hs hc h => ?_⟩
    cases shape <;> simp only [kwBuild] at h
    all_goals first
      | exact raised h
      | exact newJsonM_hangs h
  | arr xs ih =>
    intro hv
    have hxw : ∀ x ∈ xs, x.WF := by cases hv with | arr h => exact h
    have hx : ∀ x ∈ xs, KSchemaWorks E x := fun x hx => (ih x hx (hxw x hx)).1
    have hx' : ∀ x ∈ xs, SchemaWorks E x := fun x hx => (works hE x (hxw x hx)).1
    refine ⟨bad fun _ _ _ _ _ => by simp only [newSchema], fun cid k shape s w w' r ok hs hc h => ?_⟩
    have hi : ∀ {w1 w2 : World} {cs}, WOk w1 → w.heap.next < w1.heap.next → w1.isSchema w.heap.next = false →
      w1.heap.parent w.heap.next = some s → w1.isSchema s = true → w1.cacheid s = w.cacheid s →
      newItems E cid w.heap.next 0 xs w1 = some (w2, .ok cs) →
      WOk w2 ∧ Grow w1 w2 ∧ Hangs w1.heap.next (JData.arr cs).kids w2.heap := by
      intro w1 w2 r2 ok1 hj1 hns1 hp1 hs1 hc1 h1
      obtain ⟨b1, b2, -⟩ := newItems_spec hx' ok1 hj1 hns1 hp1 hs1 (hc1.trans hc) h1
      exact ⟨b1, b2, newItems_hangs hx' hx ok1 hj1 hns1 hp1 hs1 (hc1.trans hc) h1⟩
    cases shape <;> simp only [kwBuild] at h
    all_goals first
      | exact raised h
      | exact newJsonM_hangs h
      | exact container_hangs (items := fun j => newItems E cid j 0 xs) (data := .arr) ok hs hi h
  | obj kvs ih =>
    intro hv
    have hn : (dkeys kvs).Nodup := by cases hv with | obj h _ => exact h
    have hw : ∀ kv ∈ kvs, kv.2.WF := by cases hv with | obj _ h => exact h
    have hx : ∀ kv ∈ kvs, KSchemaWorks E kv.2 := fun kv hkv => (ih kv hkv (hw kv hkv)).1
    have hx' : ∀ kv ∈ kvs, SchemaWorks E kv.2 := fun kv hkv => (works hE kv.2 (hw kv hkv)).1
    have hb : ∀ cid, BuildsAll cid kvs (kwBuilds E cid kvs) := by
      intro cid k v hkv
      refine ⟨kwBuild E cid k v, by rw [dlookup_kwBuilds, hkv]; rfl, ?_⟩
      exact (works hE v (hw _ (dlookup_mem hkv))).2 cid k
    have hnb : ∀ cid, KBuildsAll cid (kwBuilds E cid kvs) := by
      intro cid k b hkb
      rw [dlookup_kwBuilds] at hkb
      obtain ⟨v, hkv, rfl⟩ := Option.map_eq_some_iff.1 hkb
      exact (ih (k, v) (dlookup_mem hkv) (hw _ (dlookup_mem hkv))).2 cid k
    refine ⟨fun cid uri metaUri parent key w w' r pre h => ?_, fun cid k shape s w w' r ok hs hc h => ?_⟩
    · simp only [newSchema] at h
      exact objSchema_hangs hE hn (hb cid) (hnb cid) pre h
    · have hi : ∀ {w1 w2 : World} {ms}, WOk w1 → w.heap.next < w1.heap.next → w1.isSchema w.heap.next = false →
        w1.heap.parent w.heap.next = some s → w1.isSchema s = true → w1.cacheid s = w.cacheid s →
        newMembers E cid w.heap.next kvs w1 = some (w2, .ok ms) →
        WOk w2 ∧ Grow w1 w2 ∧ Hangs w1.heap.next (JData.obj ms).kids w2.heap := by
        intro w1 w2 r2 ok1 hj1 hns1 hp1 hs1 hc1 h1
        obtain ⟨b1, b2, -⟩ := newMembers_spec hx' ok1 hj1 hns1 hp1 hs1 (hc1.trans hc) h1
        exact ⟨b1, b2, newMembers_hangs hx' hx ok1 hj1 hns1 hp1 hs1 (hc1.trans hc) h1⟩
      cases shape <;> simp only [kwBuild] at h
      all_goals first
        | exact raised h
        | exact newJsonM_hangs h
        | exact objSchema_hangs hE hn (hb cid) (hnb cid) (sub ok hs hc) h
        | exact container_hangs (items := fun j => newMembers E cid j kvs) (data := .obj) ok hs hi h

end Jschon
