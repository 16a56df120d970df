import Verif.Proof.ConstructKw

/-!
# What `JSONSchema.__init__` does, before references are resolved
-/

namespace Jschon
open Spec

theorem mem_uris {w : World} (ok : WOk w) {q : Nat} {u : Uri} (h : w.uri q = some u) : u ∈ w.uris := by
  have hq : q < w.heap.next := by
    refine ok.dom q ?_
    simp only [World.uri] at h
    simp only [World.isSchema]
    cases hi : w.info q with
    | none => simp [hi] at h
    | some i => rfl
  exact List.mem_filterMap.2 ⟨q, List.mem_range.2 hq, h⟩

theorem putUri_none {lib : UriLib} {w : World} {s : Nat} {u : Uri}
    (hs : w.isSchema s = true) (hn : w.uri s = none) : (w.putUri lib s u).uri s = some u := by
  simp only [World.putUri, hn, Option.map_none, Option.getD_none, Bool.false_eq_true, if_false]
  refine (setInfo_uri w s (fun i => { i with uri := some u }) s).trans ?_
  obtain ⟨i, hi⟩ := Option.isSome_iff_exists.1 hs
  simp [hi]

theorem putUri_fresh {lib : UriLib} (hlib : LibOk lib) {w : World} {s : Nat} (ok : WOk w)
    (hs : w.isSchema s = true) (hn : w.uri s = none) :
    UniqueUri (w.putUri lib s (lib.uuid w.uris)) s := by
  intro q u hq h1 _ h2 _
  have he : ∀ x, (w.putUri lib s (lib.uuid w.uris)).uri x =
      if x = s then some (lib.uuid w.uris) else w.uri x := by
    intro x
    simp only [World.putUri, hn, Option.map_none, Option.getD_none, Bool.false_eq_true, if_false]
    refine (setInfo_uri w s (fun i => { i with uri := some (lib.uuid w.uris) }) x).trans ?_
    split
    · rename_i hx; subst hx
      obtain ⟨i, hi⟩ := Option.isSome_iff_exists.1 hs
      simp [hi]
    · rfl
  rw [he, if_pos rfl] at h1
  rw [he, if_neg hq] at h2
  cases h1
  exact hlib.uuid _ (mem_uris ok h2)

theorem dkeys_kwMembers (kws : List (String × KwObj)) : dkeys (kwMembers kws) = dkeys kws := by
  simp [dkeys, kwMembers, List.map_map, Function.comp_def]

theorem Filled.keys {kvs : List (String × Value)} {s : Nat} {w : World} {ms : List (String × Nat)}
    (f : Filled kvs s w ms) (ok : WOk w) (hs : w.isSchema s = true) :
    dkeys (w.keywords s) = dkeys ms := by
  obtain ⟨i, hi⟩ := Option.isSome_iff_exists.1 hs
  have := ok.kws s i hi
  rw [f.data] at this
  rw [← show kwMembers i.keywords = ms from this, dkeys_kwMembers]
  simp [World.keywords, hi]

theorem initObject_spec {E : CEnv} (hE : CEnvOk E) {kvs : List (String × Value)}
    {builds : List (String × KwBuild)} (hn : (dkeys kvs).Nodup) {s : Nat} {cid : String} (hb : BuildsAll cid kvs builds)
    {w w' : World} {r : Except Exc Unit} (ok : WOk w) (hs : w.isSchema s = true)
    (hc : w.cacheid s = cid) (hd : w.heap.data s = .null) (hu : UniqueUri w s)
    (h : initObject E s kvs builds w = some (w', r)) :
    Init s w w' ∧ (r = .ok () → Rearranged (val w'.heap s) (.obj kvs)) ∧
      (w.heap.parent s = none → (w'.uri s).isSome = true) := by
  have hlt := ok.dom s hs
  have hhas : w.heap.has s := (ok.ord.dom s).2 hlt
  unfold initObject at h
  rcases M.bind_run h with ⟨w0, x0, h0, hA⟩ | ⟨e, h0, rfl⟩
  rotate_left
  · simp only [setDataM, M.change, Option.some.injEq, Prod.mk.injEq, reduceCtorEq, and_false] at h0
  clear h
  obtain ⟨hw0, -⟩ := M.change_run h0
  have ok0 : WOk w0 := by
    rw [hw0]
    refine setData_ok ok hlt (fun k c hc => by cases hc) (by simp [JData.kids]) (fun ms h => by cases h; simp [dkeys]) (fun i hi => ?_) (.inl ⟨hs, fun _ h => by cases h⟩)
    have := ok.kws s i hi
    rw [hd] at this
    exact this
  have n0 : Init s w w0 := by
    refine ⟨ok0, ⟨by rw [hw0]; exact Nat.le_refl _, fun x _ hx => ?_, fun x _ _ => by rw [hw0]⟩, ?_⟩
    · rw [hw0]; simp only [JHeap.setData, JHeap.alter]; rw [if_neg hx]
    · exact ⟨by rw [hw0]; exact setData_parent .., by rw [hw0]; exact setData_key .., by rw [hw0]; rfl, by rw [hw0]; rfl, fun h => by rw [hw0]; exact h⟩
  have hd0 : w0.heap.data s = .obj [] := by
    rw [hw0]; simp only [setData_data _ _ _ _ hhas, if_pos]
  have u0 : UniqueUri w0 s := (SameUris.of_info (by rw [hw0])).unique hu
  have hs0 : w0.isSchema s = true := n0.node.isSchema.trans hs
  have f0 : Filled kvs s w0 [] := ⟨hd0, fun k j hj => by cases hj⟩
  have han : ∀ {w1 : World} {r1 : Except Exc Unit}, nameAnonymous E s w0 = some (w1, r1) →
      r1 = .ok () ∧ Init s w w1 ∧ w1.isSchema s = true ∧ Filled kvs s w1 [] ∧ UniqueUri w1 s ∧
      (w.heap.parent s = none → (w1.uri s).isSome = true) := by
    intro w1 r1 h1
    replace h1 := M.read_bind h1
    split at h1
    · rename_i han
      simp only [Bool.and_eq_true, Option.isNone_iff_eq_none] at han
      replace h1 := M.read_bind h1
      obtain ⟨hw1, rfl⟩ := M.change_run h1
      obtain ⟨a1, a2, a3, a4, a5, a6⟩ := putUri_spec (lib := E.lib) (u := E.lib.uuid w0.uris) ok0 hs0 u0
      have n1 : Init s w0 w1 := by rw [hw1]; exact ⟨a1, a3, a4⟩
      refine ⟨rfl, n0.trans n1, n1.node.isSchema.trans hs0, f0.step ok0 n1 (by rw [hw1, a2]), ?_, fun _ => ?_⟩
      · rw [hw1]
        exact putUri_fresh hE.lib ok0 hs0 han.2
      · rw [hw1, putUri_none hs0 han.2]; rfl
    · rename_i han
      obtain ⟨rfl, rfl⟩ := M.pure_run h1
      refine ⟨rfl, n0, hs0, f0, u0, fun hp => ?_⟩
      rw [← n0.node.parent] at hp
      simp only [hp, Option.isNone_none, Bool.true_and, Bool.not_eq_true, Option.isNone_eq_false_iff] at han
      exact han
  rcases M.bind_run hA with ⟨w1, x1, h1, hB⟩ | ⟨e, h1, rfl⟩
  rotate_left
  · cases (han h1).1
  obtain ⟨-, n1, hs1, f1, u1, v1⟩ := han h1
  rcases M.bind_run hB with ⟨w2, x2, h2, hC⟩ | ⟨e, h2, rfl⟩
  rotate_left
  · obtain ⟨b1, -⟩ := bootstrap_spec hE.lib hb n1.ok hs1 (n1.node.cacheid.trans hc) f1 u1 h2
    exact ⟨n1.trans b1, (fun h => by cases h), fun hp => b1.node.uri (v1 hp)⟩
  obtain ⟨b1, ms2, f2, b3⟩ := bootstrap_spec hE.lib hb n1.ok hs1 (n1.node.cacheid.trans hc) f1 u1 h2
  have hs2 : w2.isSchema s = true := b1.node.isSchema.trans hs1
  rcases M.bind_run hC with ⟨w3, cs, h3, hD⟩ | ⟨e, h3, rfl⟩
  rotate_left
  · obtain ⟨rfl, -⟩ := kwClasses_spec hE h3
    exact ⟨n1.trans b1, (fun h => by cases h), fun hp => b1.node.uri (v1 hp)⟩
  obtain ⟨rfl, hcs⟩ := kwClasses_spec hE h3
  obtain ⟨c1, c2, c3⟩ := hcs cs rfl
  rw [f2.keys b1.ok hs2] at c3
  cases ho : resolveDependencies KwCls.key KwCls.deps cs with
  | none => simp only [addClasses, ho] at hD; cases hD
  | some order =>
    simp only [addClasses, ho] at hD
    have hperm := (resolveDependencies_spec KwCls.key KwCls.deps cs order (c2.nodup hn) ho).1
    obtain ⟨d1, ms3, f3, d4, d5⟩ := each_addClass_spec hE.lib hb b1.ok hs2 (b1.node.cacheid.trans (n1.node.cacheid.trans hc)) f2
      (fun c hc => by
        have hc' := hperm.mem_iff.1 hc
        cases hi : c.shape.isId with
        | false => rfl
        | true =>
          exfalso
          obtain ⟨e1, e2⟩ := c1 c hc'
          have hk := e2 hi
          rw [f2.keys b1.ok hs2, hk] at e1
          refine e1 (b3 rfl ?_)
          rw [← hk]
          exact c2.mem (List.mem_map_of_mem hc'))
      (fun c hc => c2.mem (List.mem_map_of_mem (hperm.mem_iff.1 hc))) hD
    refine ⟨n1.trans (b1.trans d1), fun hr => ?_, fun hp => (b1.trans d1).node.uri (v1 hp)⟩
    rw [val_eq d1.ok.ord, f3.data]
    have hmk : (ms3.map (fun m => (m.1, val w'.heap m.2))).map Prod.fst = dkeys ms3 := by
      simp [dkeys, List.map_map, Function.comp_def]
    have hnd3 := d1.ok.keys.nodup s ms3 f3.data
    refine .obj ?_ ?_
    · show ((ms3.map (fun m => (m.1, val w'.heap m.2))).map Prod.fst).Perm (dkeys kvs)
      rw [hmk, List.perm_ext_iff_of_nodup hnd3 hn]
      intro k
      constructor
      · intro hk
        obtain ⟨⟨k', j⟩, hj, rfl⟩ := List.mem_map.1 hk
        obtain ⟨v, hv, -⟩ := f3.copy k' j hj
        exact List.mem_map.2 ⟨_, dlookup_mem hv, rfl⟩
      · intro hk
        rcases c3 k hk with hk | hk
        · exact d4 k hk
        · obtain ⟨c, hc, rfl⟩ := List.mem_map.1 hk
          exact d5 hr c (hperm.mem_iff.2 hc)
    · intro k v v' hv hv'
      have := dlookup_mem hv
      obtain ⟨⟨k', j⟩, hj, he⟩ := List.mem_map.1 this
      cases he
      obtain ⟨v2, hv2, hre⟩ := f3.copy _ j hj
      rw [hv'] at hv2
      cases hv2
      exact hre

/-! ## Schemas -/

/-- What the constructor of a schema from `v` may rely on. -/
structure SPre (w : World) (cid : String) (uri : Option Uri) (parent : Option Nat) : Prop where
  ok : WOk w
  old : ∀ p, parent = some p → p < w.heap.next
  near : ∀ p, parent = some p → Near w cid p
  uri : ∀ u, uri = some u → u.fragment = none → ∀ q, w.uri q = some u → w.cacheid q ≠ cid

/-- What the constructor of a schema from `v` does. -/
structure SPost (w w' : World) (cid : String) (parent : Option Nat) (key : Option String) (v : Value)
    (r : Except Exc Nat) : Prop where
  ok : WOk w'
  grow : Grow w w'
  lt : w.heap.next < w'.heap.next
  isSchema : w'.isSchema w.heap.next = true
  parent : w'.heap.parent w.heap.next = parent
  key : w'.heap.key w.heap.next = key
  cacheid : w'.cacheid w.heap.next = cid
  ret : ∀ j, r = .ok j → j = w.heap.next ∧ Rearranged (val w'.heap j) v
  named : w'.heap.parent w.heap.next = none → ∀ kvs, v = .obj kvs → (w'.uri w.heap.next).isSome = true

theorem schema_after {w w1 w' : World} {cid : String} {parent : Option Nat} {key : Option String}
    {uri metaUri : Option Uri} {r : Except Exc Nat} {v : Value}
    (h : newSchemaNode cid uri metaUri parent key w = some (w1, .ok w.heap.next))
    (pre : SPre w cid uri parent) (i : Init w.heap.next w1 w')
    (hr : ∀ j, r = .ok j → j = w.heap.next ∧ Rearranged (val w'.heap j) v)
    (hu : parent = none → ∀ kvs, v = .obj kvs → (w'.uri w.heap.next).isSome = true) :
    SPost w w' cid parent key v r := by
  obtain ⟨-, a2, a3, a4, a5, a6, a7, a8, a9⟩ := newSchemaNode_spec pre.ok pre.old pre.near pre.uri h
  refine ⟨i.ok, ⟨Nat.le_trans a3.le i.keep.le, fun x hx _ => ?_, fun x hx _ => ?_⟩, ?_, ?_, ?_, ?_, ?_, hr, fun hp => hu (by rw [← hp, i.node.parent, a5])⟩
  · rw [i.keep.node x (by omega) (by omega), a3.node x hx id]
  · rw [i.keep.info x (by omega) (by omega), a3.info x hx id]
  · have := i.keep.le; omega
  · rw [i.node.isSchema]; simp [World.isSchema, a7]
  · rw [i.node.parent, a5]
  · rw [i.node.key, a6]
  · rw [i.node.cacheid]; simp [World.cacheid, a7]

theorem newSchemaNode_run {w : World} {cid : String} {parent : Option Nat} {key : Option String}
    {uri metaUri : Option Uri} :
    ∃ w1, newSchemaNode cid uri metaUri parent key w = some (w1, .ok w.heap.next) := ⟨_, rfl⟩

theorem boolSchema_spec {w w' : World} {cid : String} {parent : Option Nat} {key : Option String}
    {uri metaUri : Option Uri} {b : Bool} {r : Except Exc Nat} (pre : SPre w cid uri parent)
    (h : boolSchema cid uri metaUri parent key b w = some (w', r)) :
    SPost w w' cid parent key (.bool b) r := by
  obtain ⟨w1, h1⟩ := newSchemaNode_run (w := w) (cid := cid) (parent := parent) (key := key)
    (uri := uri) (metaUri := metaUri)
  obtain ⟨-, a2, a3, a4, a5, a6, a7, a8, a9⟩ := newSchemaNode_spec pre.ok pre.old pre.near pre.uri h1
  unfold boolSchema at h
  simp only [bind, M.andThen, h1] at h
  simp only [setDataM, M.change, pure, M.ret, Option.some.injEq, Prod.mk.injEq] at h
  obtain ⟨hw, rfl⟩ := h
  have hs : w1.isSchema w.heap.next = true := by simp [World.isSchema, a7]
  have hlt : w.heap.next < w1.heap.next := by omega
  have hhas : w1.heap.has w.heap.next := (a2.ord.dom _).2 hlt
  have ok' : WOk w' := by
    rw [← hw]
    refine setData_ok a2 hlt (fun k c hc => by cases hc) (by simp [JData.kids]) (fun ms h => by cases h) (fun i hi => ?_) (.inl ⟨hs, fun _ h => by cases h⟩)
    have := a2.kws _ i hi
    rw [a8] at this
    exact this
  have hd : w'.heap.data w.heap.next = .bool b := by
    rw [← hw]; simp only [setData_data _ _ _ _ hhas, if_pos]
  refine schema_after h1 pre ⟨ok', ⟨by rw [← hw]; exact Nat.le_refl _, fun x _ hx => ?_, fun x _ _ => by rw [← hw]⟩, ?_⟩ ?_ ?_
  · rw [← hw]; simp only [JHeap.setData, JHeap.alter]; rw [if_neg hx]
  · exact ⟨by rw [← hw]; exact setData_parent .., by rw [← hw]; exact setData_key .., by rw [← hw]; rfl, by rw [← hw]; rfl, fun h => by rw [← hw]; exact h⟩
  · intro j hj
    cases hj
    refine ⟨rfl, ?_⟩
    rw [val_eq ok'.ord, hd]
    exact .bool
  · intro _ kvs h; cases h

theorem objSchema_spec {E : CEnv} (hE : CEnvOk E) {kvs : List (String × Value)}
    {builds : List (String × KwBuild)} (hn : (dkeys kvs).Nodup) {cid : String} (hb : BuildsAll cid kvs builds)
    {w w' : World} {parent : Option Nat} {key : Option String}
    {uri metaUri : Option Uri} {r : Except Exc Nat} (pre : SPre w cid uri parent)
    (h : objSchema E cid uri metaUri parent key kvs builds w = some (w', r)) :
    SPost w w' cid parent key (.obj kvs) r := by
  obtain ⟨w1, h1⟩ := newSchemaNode_run (w := w) (cid := cid) (parent := parent) (key := key)
    (uri := uri) (metaUri := metaUri)
  obtain ⟨-, a2, a3, a4, a5, a6, a7, a8, a9⟩ := newSchemaNode_spec pre.ok pre.old pre.near pre.uri h1
  unfold objSchema at h
  have hcid : w1.cacheid w.heap.next = cid := by simp [World.cacheid, a7]
  have hs : w1.isSchema w.heap.next = true := by simp [World.isSchema, a7]
  rcases M.bind_run h with ⟨w2, s, h2, h3⟩ | ⟨e, h2, rfl⟩
  · rw [h1] at h2
    simp only [Option.some.injEq, Prod.mk.injEq, Except.ok.injEq] at h2
    obtain ⟨rfl, rfl⟩ := h2
    rcases M.bind_run h3 with ⟨w3, x, h4, h5⟩ | ⟨e, h4, rfl⟩
    · obtain ⟨b1, b2, b3⟩ := initObject_spec hE hn hb a2 hs hcid a8 a9 h4
      obtain ⟨rfl, rfl⟩ := M.pure_run h5
      refine schema_after h1 pre b1 ?_ (fun hp _ _ => b3 (a5.trans hp))
      intro j hj
      cases hj
      exact ⟨rfl, b2 rfl⟩
    · obtain ⟨b1, b2, b3⟩ := initObject_spec hE hn hb a2 hs hcid a8 a9 h4
      exact schema_after h1 pre b1 (fun j hj => by cases hj) (fun hp _ _ => b3 (a5.trans hp))
  · rw [h1] at h2
    simp at h2

/-! ## Recursion -/

/-- The constructor of schemas works on `v`. -/
def SchemaWorks (E : CEnv) (v : Value) : Prop :=
  ∀ (cid : String) (uri metaUri : Option Uri) (parent : Option Nat) (key : Option String) (w w' : World)
    (r : Except Exc Nat), SPre w cid uri parent →
    newSchema E cid uri metaUri parent key v w = some (w', r) → SPost w w' cid parent key v r

theorem SPre.child {w : World} {j g : Nat} {cid : String} (ok : WOk w) (hj : j < w.heap.next)
    (hns : w.isSchema j = false) (hp : w.heap.parent j = some g) (hg : w.isSchema g = true)
    (hc : w.cacheid g = cid) : SPre w cid none (some j) :=
  ⟨ok, fun p h => by cases h; exact hj, fun p h => by cases h; exact .inr ⟨hns, g, hp, hg, hc⟩,
    fun u h => by cases h⟩

/-- What the constructors of the items and members of a keyword's value do. -/
structure KidsPost (w w' : World) (j : Nat) (cs : List Nat) : Prop where
  new : ∀ c ∈ cs, w.heap.next ≤ c ∧ c < w'.heap.next ∧ w'.heap.parent c = some j ∧ w'.isSchema c = true
  nodup : cs.Nodup

theorem newItems_spec {E : CEnv} {cid : String} {j g : Nat} : ∀ {xs : List Value} (_ : ∀ x ∈ xs, SchemaWorks E x)
    {i : Nat} {w w' : World} {r : Except Exc (List Nat)} (_ : WOk w) (_ : j < w.heap.next)
    (_ : w.isSchema j = false) (_ : w.heap.parent j = some g) (_ : w.isSchema g = true)
    (_ : w.cacheid g = cid)
    (_ : newItems E cid j i xs w = some (w', r)),
    WOk w' ∧ Grow w w' ∧ ∀ cs, r = .ok cs → KidsPost w w' j cs ∧ cs.length = xs.length ∧
      ∀ (n : Nat) c, cs[n]? = some c → w'.heap.key c = some (natStr (i + n)) ∧
        ∀ x, xs[n]? = some x → Rearranged (val w'.heap c) x := by
  intro xs
  induction xs with
  | nil =>
    intro _ i w w' r ok hj hns hp hg hc h
    simp only [newItems] at h
    obtain ⟨rfl, rfl⟩ := M.pure_run h
    refine ⟨ok, .refl _ _, fun cs hcs => ?_⟩
    cases hcs
    exact ⟨⟨(fun c hc => nomatch hc), List.nodup_nil⟩, rfl, fun n c hc => by simp at hc⟩
  | cons x xs ih =>
    intro hx i w w' r ok hj hns hp hg hc h
    simp only [newItems] at h
    have hgl := ok.dom g hg
    have pre : SPre w cid none (some j) := SPre.child ok hj hns hp hg hc
    rcases M.bind_run h with ⟨w1, c, h1, h2⟩ | ⟨e, h1, rfl⟩
    · have s1 := hx x (by simp) _ _ _ _ _ _ _ _ pre h1
      obtain ⟨rfl, hre⟩ := s1.ret c rfl
      have hj1 : j < w1.heap.next := Nat.lt_of_lt_of_le hj s1.grow.le
      have hp1 : w1.heap.parent j = some g := by rw [s1.grow.ext.parent hj]; exact hp
      have hg1 : w1.isSchema g = true := by rw [s1.grow.isSchema hgl]; exact hg
      have hns1 : w1.isSchema j = false := by rw [s1.grow.isSchema hj]; exact hns
      have hc1 : w1.cacheid g = cid := by rw [s1.grow.cacheid hgl]; exact hc
      rcases M.bind_run h2 with ⟨w2, cs, h3, h4⟩ | ⟨e, h3, rfl⟩
      · obtain ⟨b1, b2, b3⟩ := ih (fun y hy => hx y (by simp [hy])) s1.ok hj1 hns1 hp1 hg1 hc1 h3
        obtain ⟨k1, k2, k3⟩ := b3 cs rfl
        obtain ⟨rfl, rfl⟩ := M.pure_run h4
        refine ⟨b1, s1.grow.trans b2, fun cs' hcs => ?_⟩
        cases hcs
        have hlt := s1.lt
        refine ⟨⟨?_, ?_⟩, by simp [k2], ?_⟩
        · intro c hc
          rcases List.mem_cons.1 hc with rfl | hc
          · exact ⟨Nat.le_refl _, Nat.lt_of_lt_of_le hlt b2.le, by rw [b2.ext.parent hlt]; exact s1.parent, by rw [b2.isSchema hlt]; exact s1.isSchema⟩
          · obtain ⟨m1, m2⟩ := k1.new c hc
            exact ⟨by omega, m2⟩
        · refine List.nodup_cons.2 ⟨fun hc => ?_, k1.nodup⟩
          have := (k1.new _ hc).1
          omega
        · intro n c hc
          cases n with
          | zero =>
            simp only [List.getElem?_cons_zero, Option.some.injEq] at hc
            subst hc
            refine ⟨by rw [b2.ext.key hlt]; exact s1.key, fun y hy => ?_⟩
            simp only [List.getElem?_cons_zero, Option.some.injEq] at hy
            subst hy
            rw [b2.ext.val s1.ok.ord b1.ord hlt]
            exact hre
          | succ n =>
            simp only [List.getElem?_cons_succ] at hc
            obtain ⟨m1, m2⟩ := k3 n c hc
            refine ⟨by rw [m1]; congr 2; omega, fun y hy => ?_⟩
            simp only [List.getElem?_cons_succ] at hy
            exact m2 y hy
      · obtain ⟨b1, b2, _⟩ := ih (fun y hy => hx y (by simp [hy])) s1.ok hj1 hns1 hp1 hg1 hc1 h3
        exact ⟨b1, s1.grow.trans b2, fun cs h => by cases h⟩
    · have s1 := hx x (by simp) _ _ _ _ _ _ _ _ pre h1
      exact ⟨s1.ok, s1.grow, fun cs h => by cases h⟩

theorem newMembers_spec {E : CEnv} {cid : String} {j g : Nat} : ∀ {kvs : List (String × Value)}
    (_ : ∀ kv ∈ kvs, SchemaWorks E kv.2)
    {w w' : World} {r : Except Exc (List (String × Nat))} (_ : WOk w) (_ : j < w.heap.next)
    (_ : w.isSchema j = false) (_ : w.heap.parent j = some g) (_ : w.isSchema g = true)
    (_ : w.cacheid g = cid)
    (_ : newMembers E cid j kvs w = some (w', r)),
    WOk w' ∧ Grow w w' ∧ ∀ ms, r = .ok ms → KidsPost w w' j (ms.map Prod.snd) ∧ dkeys ms = dkeys kvs ∧
      (∀ k c, (k, c) ∈ ms → w'.heap.key c = some k ∧ ∃ v, (k, v) ∈ kvs ∧ Rearranged (val w'.heap c) v) := by
  intro kvs
  induction kvs with
  | nil =>
    intro _ w w' r ok hj hns hp hg hc h
    simp only [newMembers] at h
    obtain ⟨rfl, rfl⟩ := M.pure_run h
    refine ⟨ok, .refl _ _, fun cs hcs => ?_⟩
    cases hcs
    exact ⟨⟨(fun c hc => nomatch hc), List.nodup_nil⟩, rfl, fun k c hc => by cases hc⟩
  | cons kv kvs ih =>
    obtain ⟨k, x⟩ := kv
    intro hx w w' r ok hj hns hp hg hc h
    simp only [newMembers] at h
    have hgl := ok.dom g hg
    have pre : SPre w cid none (some j) := SPre.child ok hj hns hp hg hc
    rcases M.bind_run h with ⟨w1, c, h1, h2⟩ | ⟨e, h1, rfl⟩
    · have s1 := hx (k, x) (by simp) _ _ _ _ _ _ _ _ pre h1
      obtain ⟨rfl, hre⟩ := s1.ret c rfl
      have hj1 : j < w1.heap.next := Nat.lt_of_lt_of_le hj s1.grow.le
      have hp1 : w1.heap.parent j = some g := by rw [s1.grow.ext.parent hj]; exact hp
      have hg1 : w1.isSchema g = true := by rw [s1.grow.isSchema hgl]; exact hg
      have hns1 : w1.isSchema j = false := by rw [s1.grow.isSchema hj]; exact hns
      have hc1 : w1.cacheid g = cid := by rw [s1.grow.cacheid hgl]; exact hc
      rcases M.bind_run h2 with ⟨w2, cs, h3, h4⟩ | ⟨e, h3, rfl⟩
      · obtain ⟨b1, b2, b3⟩ := ih (fun y hy => hx y (by simp [hy])) s1.ok hj1 hns1 hp1 hg1 hc1 h3
        obtain ⟨k1, k2, k3⟩ := b3 cs rfl
        obtain ⟨rfl, rfl⟩ := M.pure_run h4
        refine ⟨b1, s1.grow.trans b2, fun cs' hcs => ?_⟩
        cases hcs
        have hlt := s1.lt
        refine ⟨⟨?_, ?_⟩, by simp only [dkeys, List.map_cons] at k2 ⊢; rw [k2], ?_⟩
        · intro c hc
          rw [List.map_cons] at hc
          rcases List.mem_cons.1 hc with rfl | hc
          · exact ⟨Nat.le_refl _, Nat.lt_of_lt_of_le hlt b2.le, by rw [b2.ext.parent hlt]; exact s1.parent, by rw [b2.isSchema hlt]; exact s1.isSchema⟩
          · obtain ⟨m1, m2⟩ := k1.new c hc
            exact ⟨by omega, m2⟩
        · rw [List.map_cons]
          refine List.nodup_cons.2 ⟨fun hc => ?_, k1.nodup⟩
          have := (k1.new _ hc).1
          simp only at this
          omega
        · intro k' c hc
          rcases List.mem_cons.1 hc with hc | hc
          · cases hc
            refine ⟨by rw [b2.ext.key hlt]; exact s1.key, x, by simp, ?_⟩
            rw [b2.ext.val s1.ok.ord b1.ord hlt]
            exact hre
          · obtain ⟨m1, v, m2, m3⟩ := k3 k' c hc
            exact ⟨m1, v, by simp [m2], m3⟩
      · obtain ⟨b1, b2, _⟩ := ih (fun y hy => hx y (by simp [hy])) s1.ok hj1 hns1 hp1 hg1 hc1 h3
        exact ⟨b1, s1.grow.trans b2, fun cs h => by cases h⟩
    · have s1 := hx (k, x) (by simp) _ _ _ _ _ _ _ _ pre h1
      exact ⟨s1.ok, s1.grow, fun cs h => by cases h⟩

theorem SPost.builds {w w' : World} {cid : String} {s : Nat} {k : String} {v : Value}
    {r : Except Exc Nat} (p : SPost w w' cid (some s) (some k) v r) :
    ∀ j, r = .ok j → w.heap.next ≤ j ∧ j < w'.heap.next ∧ w'.heap.parent j = some s ∧
      w'.heap.key j = some k ∧ Rearranged (val w'.heap j) v ∧ w'.isSchema j = true := by
  intro j hj
  obtain ⟨rfl, h⟩ := p.ret j hj
  exact ⟨Nat.le_refl _, p.lt, p.parent, p.key, h, p.isSchema⟩

theorem newJsonM_spec {w w' : World} {r : Except Exc Nat} {v : Value} {s : Nat} {k : String}
    (hv : v.WF) (ok : WOk w) (hs : s < w.heap.next)
    (h : newJsonM v (some s) (some k) w = some (w', r)) :
    WOk w' ∧ Grow w w' ∧ w'.info = w.info ∧ ∀ j, r = .ok j → w.heap.next ≤ j ∧ j < w'.heap.next ∧
      w'.heap.parent j = some s ∧ w'.heap.key j = some k ∧ val w'.heap j = v ∧ NoSchema w' j := by
  obtain ⟨a1, a2, a3, a4, a5, a6, a7, a8⟩ := newJson_spec ok.ord v hv (some s) (some k)
    (fun p h => by cases h; exact hs)
  simp only [newJsonM, Option.some.injEq, Prod.mk.injEq] at h
  obtain ⟨hw, rfl⟩ := h
  have hheap : w'.heap = (newJson w.heap v (some s) (some k)).1 := by rw [← hw]
  have hinfo : w'.info = w.info := by rw [← hw]
  have hsch : w'.isSchema = w.isSchema := by funext x; simp [World.isSchema, hinfo]
  have huri : w'.uri = w.uri := by funext x; simp [World.uri, hinfo]
  have hcid : w'.cacheid = w.cacheid := by funext x; simp [World.cacheid, hinfo]
  have hc : w'.caches = w.caches := by rw [← hw]
  rw [← hheap] at a2 a3 a4 a5 a6 a7 a8
  have hinlt : ∀ s i, w.info s = some i → s < w.heap.next := fun s i hi => ok.dom s (by simp [World.isSchema, hi])
  refine ⟨?_, ⟨a2.le, fun x hx _ => a2.old x hx, fun x _ _ => by rw [hinfo]⟩, hinfo, ?_⟩
  · constructor
    · exact a3
    · refine ⟨fun x k c hc => ?_, fun x ms hm => ?_⟩
      · by_cases hx : x < w.heap.next
        · have hc' : Child w.heap x k c := by simpa [Child, a2.data hx] using hc
          rw [a2.key (ok.ord.kid x c (childD_kid hc')).2.1]
          exact ok.keys.key x k c hc'
        · exact a4.key x (by omega) k c hc
      · by_cases hx : x < w.heap.next
        · rw [a2.data hx] at hm; exact ok.keys.nodup x ms hm
        · exact a4.nodup x (by omega) ms hm
    · intro t ht
      rw [hsch] at ht
      exact Nat.lt_of_lt_of_le (ok.dom t ht) a2.le
    · intro t i hi
      rw [hinfo] at hi
      rw [a2.data (hinlt t i hi)]
      exact ok.kws t i hi
    · rw [hc]; exact ok.caches
    · rw [hc, hsch]; exact ok.cached
    · rw [hc, huri, hcid]; exact ok.uris
    · intro t p ht hp
      rw [hsch] at ht
      have := ok.dom t ht
      rw [a2.parent this] at hp
      have := ok.ord.par t p hp
      rw [hcid]
      exact (ok.near t p ht hp).mono ok.ord (by omega) (fun x _ => by rw [hsch]) (fun x _ => by rw [hcid])
        (fun x hx => a2.parent hx)
    · refine ok.shapes_old (steady_kids ok.ord (fun _ _ => by rw [hsch]) (fun x p hx _ => ?_))
        fun s i' hi => .inr ⟨i', by rw [← hinfo]; exact hi, rfl⟩
      exact a2.data (ok.ord.kid _ _ hx).2.1
    · intro t cs ht
      rw [hsch] at ht
      rw [a2.data (ok.dom t ht)]
      exact ok.whole t cs ht
  · intro j hj
    cases hj
    refine ⟨Nat.le_refl _, a5, a6, a7, a8, fun x hx => ?_⟩
    have hge := desc_le a3 hx
    have hge' : w.heap.next ≤ x := hge
    rw [hsch]
    cases hb : w.isSchema x with
    | false => rfl
    | true => have := ok.dom x hb; omega

theorem rearranged_refl (v : Value) : Rearranged v v := by
  induction v using Value.induct with
  | null => exact .null
  | bool b => exact .bool
  | num n => exact .num
  | str t => exact .str
  | arr xs ih =>
    refine .arr rfl fun i x y hx hy => ?_
    rw [hx] at hy; cases hy
    exact ih x (List.mem_of_getElem? hx)
  | obj kvs ih =>
    refine .obj (List.Perm.refl _) fun k v w hv hw => ?_
    rw [hv] at hw; cases hw
    exact ih _ (dlookup_mem hv)

/-- The constructor of plain JSON, as that of a keyword. -/
theorem plain_spec {w w' : World} {r : Except Exc Nat} {v : Value} {s : Nat} {k : String}
    {shape : KwShape} (hv : v.WF) (ok : WOk w) (hs : w.isSchema s = true)
    (hk : ∀ w j, NoSchema w j → val w.heap j = v → Ord w.heap → KwOk w shape j)
    (h : newJsonM v (some s) (some k) w = some (w', r)) :
    WOk w' ∧ Grow w w' ∧ (shape.boot = true → w'.info = w.info) ∧
    ∀ j, r = .ok j → w.heap.next ≤ j ∧ j < w'.heap.next ∧ w'.heap.parent j = some s ∧
      w'.heap.key j = some k ∧ Rearranged (val w'.heap j) v ∧ KwOk w' shape j := by
  obtain ⟨a1, a2, a3, a4⟩ := newJsonM_spec hv ok (ok.dom s hs) h
  refine ⟨a1, a2, fun _ => a3, fun j hj => ?_⟩
  obtain ⟨b1, b2, b3, b4, b5, b6⟩ := a4 j hj
  exact ⟨b1, b2, b3, b4, by rw [b5]; exact rearranged_refl v, hk w' j b6 b5 a1.ord⟩

theorem raise_spec {w w' : World} {r : Except Exc Nat} {v : Value} {s : Nat} {k : String}
    {shape : KwShape} {e : Exc} (ok : WOk w) (h : M.raise e w = some (w', r)) :
    WOk w' ∧ Grow w w' ∧ (shape.boot = true → w'.info = w.info) ∧
    ∀ j, r = .ok j → w.heap.next ≤ j ∧ j < w'.heap.next ∧ w'.heap.parent j = some s ∧
      w'.heap.key j = some k ∧ Rearranged (val w'.heap j) v ∧ KwOk w' shape j := by
  obtain ⟨rfl, rfl⟩ := M.raise_run h
  exact ⟨ok, .refl _ _, fun _ => rfl, fun j h => by cases h⟩

theorem SPost.kw {w w' : World} {cid : String} {s : Nat} {k : String} {v : Value}
    {shape : KwShape} {r : Except Exc Nat} (p : SPost w w' cid (some s) (some k) v r)
    (hsh : shape = .subschema ∨ shape = .subschemaOrArray) :
    WOk w' ∧ Grow w w' ∧ (shape.boot = true → w'.info = w.info) ∧
    ∀ j, r = .ok j → w.heap.next ≤ j ∧ j < w'.heap.next ∧ w'.heap.parent j = some s ∧
      w'.heap.key j = some k ∧ Rearranged (val w'.heap j) v ∧ KwOk w' shape j := by
  refine ⟨p.ok, p.grow, (fun h => by rcases hsh with rfl | rfl <;> cases h), fun j hj => ?_⟩
  obtain ⟨b1, b2, b3, b4, b5, b6⟩ := p.builds j hj
  refine ⟨b1, b2, b3, b4, b5, ?_⟩
  rcases hsh with rfl | rfl
  · exact b6
  · exact .inl b6

theorem noSchema_of_str {w : World} {j : Nat} {t : String} (ho : Ord w.heap)
    (h : val w.heap j = .str t) : w.heap.data j = .str t := by
  rw [val_eq ho] at h
  cases hd : w.heap.data j <;> rw [hd] at h <;> simp_all [dataVal]

/-- A container of schemas is completed. -/
theorem container_spec {w w1 w2 : World} {s : Nat} {k : String} {d : JData} {shape : KwShape} {v : Value}
    (ok : WOk w) (hs : w.isSchema s = true)
    (h1 : newJsonNode (some s) (some k) w = some (w1, .ok w.heap.next))
    (ok2 : WOk w2) (g2 : Grow w1 w2) (hk : KidsPost w1 w2 w.heap.next d.kids)
    (hkey : ∀ k c, ChildD d k c → w2.heap.key c = some k)
    (hkeys : ∀ ms, d = .obj ms → (dkeys ms).Nodup)
    (hv : ∀ f : Nat → Value, (∀ c ∈ d.kids, f c = val w2.heap c) → Rearranged (dataVal f d) v)
    (hsh : ∀ w', w'.isSchema w.heap.next = false → w'.heap.data w.heap.next = d →
      (∀ c ∈ d.kids, w'.isSchema c = true) → KwOk w' shape w.heap.next)
    (hb : shape.boot = false) :
    WOk { w2 with heap := w2.heap.setData w.heap.next d } ∧
    Grow w { w2 with heap := w2.heap.setData w.heap.next d } ∧
    (shape.boot = true → w2.info = w.info) ∧
    w.heap.next < w2.heap.next ∧
    (w2.heap.setData w.heap.next d).parent w.heap.next = some s ∧
    (w2.heap.setData w.heap.next d).key w.heap.next = some k ∧
    Rearranged (val (w2.heap.setData w.heap.next d) w.heap.next) v ∧
    KwOk { w2 with heap := w2.heap.setData w.heap.next d } shape w.heap.next := by
  have hsl := ok.dom s hs
  obtain ⟨-, a2, a3, a4, a5, a6, a7, a8, a9⟩ := newJsonNode_spec ok (fun p h => by cases h; exact hsl) h1
  have hlt1 : w.heap.next < w1.heap.next := by omega
  have hlt2 : w.heap.next < w2.heap.next := Nat.lt_of_lt_of_le hlt1 g2.le
  have hp2 : w2.heap.parent w.heap.next = some s := by rw [g2.ext.parent hlt1, a5]
  have hk2 : w2.heap.key w.heap.next = some k := by rw [g2.ext.key hlt1, a6]
  have hns : w2.isSchema w.heap.next = false := by
    rw [g2.isSchema hlt1]
    simp only [World.isSchema, a7]
    cases hb : (w.info w.heap.next).isSome with
    | false => rfl
    | true => have := ok.dom _ hb; omega
  have hhas : w2.heap.has w.heap.next := (ok2.ord.dom _).2 hlt2
  have hd := fun x => setData_data w2.heap w.heap.next x d hhas
  have ok3 : WOk { w2 with heap := w2.heap.setData w.heap.next d } := by
    refine setData_ok ok2 hlt2 (fun k' c hc => ?_) hk.nodup hkeys (fun i hi => ?_) (.inr ⟨hns, fun p hp => ?_⟩)
    · obtain ⟨b1, b2, b3, b4⟩ := hk.new c (childD_kid hc)
      exact ⟨by omega, b2, b3, hkey k' c hc⟩
    · simp [World.isSchema, hi] at hns
    · have b1 := (ok2.ord.kid p _ hp).2.2
      rw [hp2] at b1
      cases b1
      rw [g2.ext.data (by omega), a3.ext.data hsl] at hp
      have := (ok.ord.kid _ _ hp).2.1
      omega
  refine ⟨ok3, ⟨?_, fun x hx _ => ?_, fun x hx _ => ?_⟩, fun h => ?_, hlt2, ?_, ?_, ?_, ?_⟩
  · exact Nat.le_of_lt hlt2
  · have : (w2.heap.setData w.heap.next d).node x = w2.heap.node x := by
      simp only [JHeap.setData, JHeap.alter]; rw [if_neg (by omega)]
    show (w2.heap.setData w.heap.next d).node x = _
    rw [this, g2.node x (by omega) id, a3.node x hx id]
  · show w2.info x = _
    rw [g2.info x (by omega) id, a3.info x hx id]
  · rw [hb] at h; cases h
  · rw [setData_parent]; exact hp2
  · rw [setData_key]; exact hk2
  · rw [val_eq ok3.ord, hd, if_pos rfl]
    refine hv _ fun c hc => ?_
    refine val_setData ok2.ord ok3.ord (m := w.heap.next) (fun x hx => by rw [hd, if_neg hx]) ?_
    intro hde
    have := desc_le ok2.ord hde
    have := (hk.new c hc).1
    omega
  · refine hsh _ hns ?_ fun c hc => (hk.new c hc).2.2.2
    simp only [hd, if_pos]

theorem newJsonNode_run {w : World} {parent : Option Nat} {key : Option String} :
    ∃ w1, newJsonNode parent key w = some (w1, .ok w.heap.next) := ⟨_, rfl⟩

/-- What the constructor of a keyword's value does. -/
def KwPost (w w' : World) (shape : KwShape) (s : Nat) (k : String) (v : Value) (r : Except Exc Nat) : Prop :=
  WOk w' ∧ Grow w w' ∧ (shape.boot = true → w'.info = w.info) ∧
    ∀ j, r = .ok j → w.heap.next ≤ j ∧ j < w'.heap.next ∧ w'.heap.parent j = some s ∧
      w'.heap.key j = some k ∧ Rearranged (val w'.heap j) v ∧ KwOk w' shape j

theorem arrContainer_spec {E : CEnv} {cid : String} {xs : List Value} (hx : ∀ x ∈ xs, SchemaWorks E x)
    {w w' : World} {s : Nat} {k : String} {shape : KwShape} {r : Except Exc Nat} (ok : WOk w)
    (hs : w.isSchema s = true) (hc : w.cacheid s = cid) (hsh : shape = .arrayOfSubschemas ∨ shape = .subschemaOrArray)
    (h : (do
      let j ← newJsonNode (some s) (some k)
      let cs ← newItems E cid j 0 xs
      setDataM j (.arr cs)
      pure j : M Nat) w = some (w', r)) : KwPost w w' shape s k (.arr xs) r := by
  have hsl := ok.dom s hs
  have hb : shape.boot = false := by rcases hsh with rfl | rfl <;> rfl
  obtain ⟨w1, h1⟩ := newJsonNode_run (w := w) (parent := some s) (key := some k)
  obtain ⟨-, a2, a3, a4, a5, a6, a7, a8, a9⟩ := newJsonNode_spec ok (fun p h => by cases h; exact hsl) h1
  have hs1 : w1.isSchema s = true := by rw [a3.isSchema hsl]; exact hs
  have hc1 : w1.cacheid s = cid := by rw [a3.cacheid hsl]; exact hc
  have hns1 : w1.isSchema w.heap.next = false := by
    simp only [World.isSchema, a7]
    cases hb : (w.info w.heap.next).isSome with
    | false => rfl
    | true => have := ok.dom _ hb; omega
  rcases M.bind_run h with ⟨w1', j, h1', h2⟩ | ⟨e, h1', rfl⟩
  rotate_left
  · rw [h1] at h1'; simp at h1'
  rw [h1] at h1'
  simp only [Option.some.injEq, Prod.mk.injEq, Except.ok.injEq] at h1'
  obtain ⟨rfl, rfl⟩ := h1'
  have hj1 : w.heap.next < w1.heap.next := by omega
  rcases M.bind_run h2 with ⟨w2, cs, h3, h4⟩ | ⟨e, h3, rfl⟩
  rotate_left
  · obtain ⟨b1, b2, -⟩ := newItems_spec hx a2 hj1 hns1 a5 hs1 hc1 h3
    exact ⟨b1, a3.trans b2, (fun h => by rw [hb] at h; cases h), fun j h => by cases h⟩
  obtain ⟨b1, b2, b3⟩ := newItems_spec hx a2 hj1 hns1 a5 hs1 hc1 h3
  obtain ⟨k1, k2, k3⟩ := b3 cs rfl
  simp only [bind, M.andThen, setDataM, M.change, pure, M.ret, Option.some.injEq, Prod.mk.injEq] at h4
  obtain ⟨rfl, rfl⟩ := h4
  obtain ⟨c1, c2, c3, c4, c5, c6, c7, c8⟩ := container_spec (v := .arr xs) (d := .arr cs) (shape := shape)
    ok hs h1 b1 b2 k1
    (fun k c hc => by
      obtain ⟨i, rfl, hc⟩ := hc
      have := (k3 i c hc).1
      rwa [Nat.zero_add] at this)
    (fun ms h => by cases h)
    (fun f hf => by
      refine .arr (by simp [k2]) fun i x y hx' hy => ?_
      simp only [List.getElem?_map, Option.map_eq_some_iff] at hx'
      obtain ⟨c, hc, rfl⟩ := hx'
      rw [hf c (List.mem_of_getElem? hc)]
      exact (k3 i c hc).2 y hy)
    (fun w' e1 e2 e3 => by
      rcases hsh with rfl | rfl
      · exact .inl ⟨e1, cs, e2, e3⟩
      · exact .inr (.inl ⟨e1, cs, e2, e3⟩))
    hb
  refine ⟨c1, c2, c3, fun j hj => ?_⟩
  cases hj
  exact ⟨Nat.le_refl _, c4, c5, c6, c7, c8⟩

theorem objContainer_spec {E : CEnv} {cid : String} {kvs : List (String × Value)}
    (hn : (dkeys kvs).Nodup) (hx : ∀ kv ∈ kvs, SchemaWorks E kv.2)
    {w w' : World} {s : Nat} {k : String} {r : Except Exc Nat} (ok : WOk w)
    (hs : w.isSchema s = true) (hc : w.cacheid s = cid)
    (h : (do
      let j ← newJsonNode (some s) (some k)
      let ms ← newMembers E cid j kvs
      setDataM j (.obj ms)
      pure j : M Nat) w = some (w', r)) : KwPost w w' .objectOfSubschemas s k (.obj kvs) r := by
  have hsl := ok.dom s hs
  obtain ⟨w1, h1⟩ := newJsonNode_run (w := w) (parent := some s) (key := some k)
  obtain ⟨-, a2, a3, a4, a5, a6, a7, a8, a9⟩ := newJsonNode_spec ok (fun p h => by cases h; exact hsl) h1
  have hs1 : w1.isSchema s = true := by rw [a3.isSchema hsl]; exact hs
  have hc1 : w1.cacheid s = cid := by rw [a3.cacheid hsl]; exact hc
  have hns1 : w1.isSchema w.heap.next = false := by
    simp only [World.isSchema, a7]
    cases hb : (w.info w.heap.next).isSome with
    | false => rfl
    | true => have := ok.dom _ hb; omega
  rcases M.bind_run h with ⟨w1', j, h1', h2⟩ | ⟨e, h1', rfl⟩
  rotate_left
  · rw [h1] at h1'; simp at h1'
  rw [h1] at h1'
  simp only [Option.some.injEq, Prod.mk.injEq, Except.ok.injEq] at h1'
  obtain ⟨rfl, rfl⟩ := h1'
  have hj1 : w.heap.next < w1.heap.next := by omega
  rcases M.bind_run h2 with ⟨w2, ms, h3, h4⟩ | ⟨e, h3, rfl⟩
  rotate_left
  · obtain ⟨b1, b2, -⟩ := newMembers_spec hx a2 hj1 hns1 a5 hs1 hc1 h3
    exact ⟨b1, a3.trans b2, (fun h => by cases h), fun j h => by cases h⟩
  obtain ⟨b1, b2, b3⟩ := newMembers_spec hx a2 hj1 hns1 a5 hs1 hc1 h3
  obtain ⟨k1, k2, k3⟩ := b3 ms rfl
  simp only [bind, M.andThen, setDataM, M.change, pure, M.ret, Option.some.injEq, Prod.mk.injEq] at h4
  obtain ⟨rfl, rfl⟩ := h4
  obtain ⟨c1, c2, c3, c4, c5, c6, c7, c8⟩ := container_spec (v := .obj kvs) (d := .obj ms)
    (shape := .objectOfSubschemas) ok hs h1 b1 b2 k1
    (fun k c hc => (k3 k c hc).1)
    (fun ms' h => by cases h; rw [k2]; exact hn)
    (fun f hf => by
      have hmk : (ms.map (fun m => (m.1, f m.2))).map Prod.fst = dkeys kvs := by
        rw [← k2]; simp [dkeys, List.map_map, Function.comp_def]
      refine .obj (by rw [show dkeys _ = _ from hmk]) fun k v v' hv hv' => ?_
      obtain ⟨⟨k', c⟩, hc, he⟩ := List.mem_map.1 (dlookup_mem hv)
      cases he
      obtain ⟨-, v2, e1, e2⟩ := k3 _ c hc
      rw [dlookup_of_mem hn e1] at hv'
      cases hv'
      show Rearranged (f c) _
      rw [hf c (List.mem_map_of_mem (f := Prod.snd) hc)]
      exact e2)
    (fun w' e1 e2 e3 => ⟨e1, ms, e2, fun kc hkc => e3 _ (List.mem_map_of_mem hkc)⟩)
    rfl
  refine ⟨c1, c2, c3, fun j hj => ?_⟩
  cases hj
  exact ⟨Nat.le_refl _, c4, c5, c6, c7, c8⟩

theorem dlookup_kwBuilds {E : CEnv} {cid k : String} (kvs : List (String × Value)) :
    dlookup k (kwBuilds E cid kvs) = (dlookup k kvs).map (kwBuild E cid k) := by
  induction kvs with
  | nil => simp [kwBuilds, dlookup]
  | cons kv r ih =>
    obtain ⟨k', v⟩ := kv
    simp only [kwBuilds, dlookup]
    split
    · rename_i h; subst h; rfl
    · exact ih

/-- The constructors work on every value. -/
theorem works {E : CEnv} (hE : CEnvOk E) (v : Value) : v.WF →
    SchemaWorks E v ∧ ∀ (cid k : String), Builds cid k v (kwBuild E cid k v) := by
  have sub : ∀ {w : World} {s : Nat} {cid : String}, WOk w → w.isSchema s = true → w.cacheid s = cid →
      SPre w cid none (some s) :=
    fun ok hs hc => ⟨ok, fun p h => by cases h; exact ok.dom _ hs, fun p h => by cases h; exact .inl ⟨hs, hc⟩,
      fun u h => by cases h⟩
  have bad : ∀ {v : Value}, (∀ kvs, v ≠ .obj kvs) → (∀ cid uri metaUri parent key, newSchema E cid uri metaUri parent key v =
      (do let _ ← newSchemaNode cid uri metaUri parent key; M.raise .typeError)) → SchemaWorks E v := by
    intro v hno hv cid uri metaUri parent key w w' r pre h
    rw [hv] at h
    obtain ⟨w1, h1⟩ := newSchemaNode_run (w := w) (cid := cid) (parent := parent) (key := key)
      (uri := uri) (metaUri := metaUri)
    obtain ⟨-, a2, -⟩ := newSchemaNode_spec pre.ok pre.old pre.near pre.uri h1
    simp only [bind, M.andThen, h1] at h
    obtain ⟨rfl, rfl⟩ := M.raise_run h
    exact schema_after h1 pre (.refl a2) (fun j h => by cases h) (fun _ kvs h => absurd h (hno kvs))
  induction v using Value.induct with
  | null =>
    intro hv
    refine ⟨bad (fun _ h => by cases h) fun _ _ _ _ _ => by simp only [newSchema], fun cid k shape s w w' r ok hs hc h => ?_⟩
    cases shape <;> simp only [kwBuild] at h
    all_goals first
      | exact raise_spec ok h
      | exact plain_spec hv ok hs (fun _ _ h _ _ => h) h
  | bool b =>
    intro hv
    refine ⟨fun cid uri metaUri parent key w w' r pre h => ?_, fun cid k shape s w w' r ok hs hc h => ?_⟩
    · simp only [newSchema] at h
      exact boolSchema_spec pre h
    · cases shape <;> simp only [kwBuild] at h
      all_goals first
        | exact raise_spec ok h
        | exact plain_spec hv ok hs (fun _ _ h _ _ => h) h
        | exact (boolSchema_spec (sub ok hs hc) h).kw (.inl rfl)
        | exact (boolSchema_spec (sub ok hs hc) h).kw (.inr rfl)
  | num n =>
    intro hv
    refine ⟨bad (fun _ h => by cases h) fun _ _ _ _ _ => by simp only [newSchema], fun cid k shape s w w' r ok hs hc h => ?_⟩
    cases shape <;> simp only [kwBuild] at h
    all_goals first
      | exact raise_spec ok h
      | exact plain_spec hv ok hs (fun _ _ h _ _ => h) h
  | str t =>
    intro hv
    refine ⟨bad (fun _ h => by cases h) fun _ _ _ _ _ => by simp only [newSchema], fun cid k shape s w w' r ok hs hc h => ?_⟩
    cases shape <;> simp only [kwBuild] at h
    all_goals first
      | exact raise_spec ok h
      | exact plain_spec hv ok hs (fun _ _ h _ _ => h) h
      | exact plain_spec hv ok hs (fun _ _ h h1 h2 => .inr ⟨h, t, noSchema_of_str h2 h1⟩) h
      | exact plain_spec hv ok hs (fun _ _ h h1 h2 => .inr (.inr ⟨h, t, noSchema_of_str h2 h1⟩)) h
  | arr xs ih =>
    intro hv
    have hx : ∀ x ∈ xs, SchemaWorks E x := fun x hx => (ih x hx (by cases hv with | arr h => exact h x hx)).1
    refine ⟨bad (fun _ h => by cases h) fun _ _ _ _ _ => by simp only [newSchema], fun cid k shape s w w' r ok hs hc h => ?_⟩
    cases shape <;> simp only [kwBuild] at h
    all_goals first
      | exact raise_spec ok h
      | exact plain_spec hv ok hs (fun _ _ h _ _ => h) h
      | exact arrContainer_spec hx ok hs hc (.inl rfl) h
      | exact arrContainer_spec hx ok hs hc (.inr rfl) h
  | obj kvs ih =>
    intro hv
    have hn : (dkeys kvs).Nodup := by cases hv with | obj h _ => exact h
    have hw : ∀ kv ∈ kvs, kv.2.WF := by cases hv with | obj _ h => exact h
    have hx : ∀ kv ∈ kvs, SchemaWorks E kv.2 := fun kv hkv => (ih kv hkv (hw kv hkv)).1
    have hb : ∀ cid, BuildsAll cid kvs (kwBuilds E cid kvs) := by
      intro cid k v hkv
      refine ⟨kwBuild E cid k v, by rw [dlookup_kwBuilds, hkv]; rfl, ?_⟩
      exact (ih (k, v) (dlookup_mem hkv) (hw _ (dlookup_mem hkv))).2 cid k
    refine ⟨fun cid uri metaUri parent key w w' r pre h => ?_, fun cid k shape s w w' r ok hs hc h => ?_⟩
    · simp only [newSchema] at h
      exact objSchema_spec hE hn (hb cid) pre h
    · cases shape <;> simp only [kwBuild] at h
      all_goals first
        | exact raise_spec ok h
        | exact plain_spec hv ok hs (fun _ _ h _ _ => h) h
        | exact (objSchema_spec hE hn (hb cid) (sub ok hs hc) h).kw (.inl rfl)
        | exact (objSchema_spec hE hn (hb cid) (sub ok hs hc) h).kw (.inr rfl)
        | exact objContainer_spec hn hx ok hs hc h

end Jschon
