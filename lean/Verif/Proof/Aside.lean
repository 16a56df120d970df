import Verif.Proof.Unresolved
import Verif.Proof.ConstructTotal
import Verif.Proof.ResolveFrame
import Verif.Proof.DocLater
import Verif.Proof.SchemaEdit

/-!
# Construction in other caches

What is constructed or loaded with one cache identifier leaves the caches with other identifiers as they are.
-/

namespace Jschon
open Spec

/-- The cache with the identifier `id` is `c`, and the schemas of `P` have other caches. -/
structure Aside (id : String) (c : Uri → Option Nat) (P : Nat → Prop) (w : World) : Prop where
  caches : CachesOk w.caches
  get : ∀ u, cacheGet w.caches id u = c u
  mine : ∀ x, P x → x < w.heap.next ∧ w.cacheid x ≠ id

section
variable {id : String} {c : Uri → Option Nat} {P : Nat → Prop}

theorem Aside.same {w w' : World} (h : Aside id c P w) (hc : w'.caches = w.caches) (hn : w.heap.next ≤ w'.heap.next)
    (hi : ∀ x, P x → w'.cacheid x = w.cacheid x) : Aside id c P w' where
  caches := hc ▸ h.caches
  get u := by rw [hc]; exact h.get u
  mine x hx := ⟨Nat.lt_of_lt_of_le (h.mine x hx).1 hn, by rw [hi x hx]; exact (h.mine x hx).2⟩

theorem setInfo_aside {w : World} {s : Nat} {f : SInfo → SInfo} (hf : ∀ i, (f i).cacheid = i.cacheid) (x : Nat) :
    (w.setInfo s f).cacheid x = w.cacheid x := by
  simp only [World.cacheid, World.setInfo]
  split
  · cases w.info x <;> simp [hf]
  · rfl

theorem Aside.setInfo {w : World} (h : Aside id c P w) {s : Nat} {f : SInfo → SInfo}
    (hf : ∀ i, (f i).cacheid = i.cacheid) : Aside id c P (w.setInfo s f) :=
  h.same rfl (Nat.le_refl _) fun x _ => setInfo_aside hf x

theorem Aside.putUri {w : World} (h : Aside id c P w) {lib : UriLib} {s : Nat} {u : Uri} (hs : P s) :
    Aside id c P (w.putUri lib s u) := by
  unfold World.putUri
  split
  · exact h
  · have hne := (h.mine s hs).2
    refine ⟨CachesOk.step (delOld_ok h.caches _ _) (.add (w.cacheid s) u s), fun v => ?_, fun x hx => ?_⟩
    · show cacheGet (addSchema (delOld w.caches (w.cacheid s) (w.uri s)) (w.cacheid s) u s) id v = c v
      rw [cacheGet_add, if_neg (fun h => hne h.1.symm), cacheGet_delOld h.caches, if_neg (fun h => hne h.1.symm)]
      exact h.get v
    · refine ⟨(h.mine x hx).1, ?_⟩
      show (w.setInfo s (fun i => { i with uri := some u })).cacheid x ≠ id
      rw [setInfo_aside (f := fun i => { i with uri := some u }) (fun _ => rfl)]
      exact (h.mine x hx).2

open M.Keeps

abbrev AsK (id : String) (c : Uri → Option Nat) (P : Nat → Prop) {α : Type} (m : M α) : Prop :=
  M.Keeps (Aside id c P) (fun _ => True) m

/-- A new schema with another cache may be added to `P`. -/
theorem newSchemaNode_as {cid : String} (hid : cid ≠ id) {uri mu : Option Uri} {par : Option Nat} {key : Option String}
    {w w' : World} {r : Except Exc Nat} (h : Aside id c P w) (e : newSchemaNode cid uri mu par key w = some (w', r)) :
    r = .ok w.heap.next ∧ Aside id c (fun x => P x ∨ x = w.heap.next) w' := by
  cases e
  refine ⟨rfl, ?_, fun u => ?_, fun x hx => ?_⟩
  · cases uri with
    | none => exact h.caches
    | some u => exact CachesOk.step h.caches (.add cid u w.heap.next)
  · cases uri with
    | none => exact h.get u
    | some v =>
      show cacheGet (addSchema w.caches cid v w.heap.next) id u = c u
      rw [cacheGet_add, if_neg (fun h => hid h.1.symm)]
      exact h.get u
  · have hlt : x ≤ w.heap.next := hx.elim (fun hx => Nat.le_of_lt (h.mine x hx).1) (fun e => Nat.le_of_eq e)
    refine ⟨Nat.lt_succ_of_le hlt, ?_⟩
    simp only [World.cacheid]
    by_cases hxn : x = w.heap.next
    · rw [if_pos hxn]; exact hid
    · rw [if_neg hxn]
      exact (h.mine x (hx.resolve_right hxn)).2

theorem Aside.less {P' : Nat → Prop} {w : World} (h : Aside id c P w) (hp : ∀ x, P' x → P x) : Aside id c P' w :=
  ⟨h.caches, h.get, fun x hx => h.mine x (hp x hx)⟩

theorem newJsonNode_as {par : Option Nat} {key : Option String} : AsK id c P (newJsonNode par key) := by
  intro w w' r hI e
  cases e
  exact ⟨hI.same rfl (Nat.le_succ _) fun _ _ => rfl, fun _ _ => trivial⟩

theorem newJsonM_as {v : Value} {par : Option Nat} {key : Option String} : AsK id c P (newJsonM v par key) := by
  intro w w' r hI e
  cases e
  exact ⟨hI.same rfl (newJson_ext _ _ _ _).1 fun _ _ => rfl, fun _ _ => trivial⟩

theorem setDataM_as {s : Nat} {d : JData} : AsK id c P (setDataM s d) :=
  change (fun _ h => h.same rfl (Nat.le_refl _) fun _ _ => rfl) trivial

theorem setUri_as {lib : UriLib} {s : Nat} {u : Uri} (hs : P s) : AsK id c P (setUri lib s u) :=
  change (fun _ h => h.putUri hs) trivial

theorem readA {α : Type} {f : World → α} : AsK id c P (M.read f) := read fun _ _ => trivial

theorem resolveUri_as {E : CEnv} {s : Nat} {u : Uri} {a : Bool} : AsK id c P (resolveUri E s u a) := by
  unfold resolveUri
  split
  · exact ret trivial
  · refine bind readA fun x _ => ?_
    cases x with
    | none => exact raise
    | some b =>
      simp only []
      split
      · exact raise
      · exact ret trivial

theorem addAnchor_as {E : CEnv} {s : Nat} {t : String} (hs : P s) : AsK id c P (addAnchor E s t) := by
  unfold addAnchor
  refine bind readA fun x _ => ?_
  cases x with
  | none => exact raise
  | some b =>
    refine change (fun w h => ⟨CachesOk.step h.caches (.add (w.cacheid s) _ s), fun u => ?_, h.mine⟩) trivial
    show cacheGet (addSchema w.caches (w.cacheid s) _ s) id u = c u
    rw [cacheGet_add, if_neg (fun e => (h.mine s hs).2 e.1.symm)]
    exact h.get u

theorem initKw_as {E : CEnv} {s : Nat} {shape : KwShape} {v : Value} (hs : P s) : AsK id c P (initKw E s shape v) := by
  have hid : ∀ {a : Bool} {u : Uri}, AsK id c P (resolveUri E s u a >>= fun r => setUri E.lib s r) :=
    bind resolveUri_as fun _ _ => setUri_as hs
  cases shape <;> cases v <;> simp only [initKw] <;> first
    | exact ret trivial
    | exact unmodelled
    | exact raise
    | exact addAnchor_as hs
    | (split <;> first | exact raise | exact ret trivial | exact hid |
        exact change (fun _ h => h.setInfo fun _ => rfl) trivial)

theorem addKeyword_as {E : CEnv} {s : Nat} {shape : KwShape} {key : String} {v : Value} {build : KwBuild} (hs : P s)
    (hb : ∀ sh t, AsK id c P (build sh t)) : AsK id c P (addKeyword E s shape key v build) := by
  unfold addKeyword
  refine bind (hb _ _) fun j _ => bind (initKw_as hs) fun _ _ => change (fun w h => ?_) trivial
  have h1 : Aside id c P (w.setInfo s (fun i => { i with keywords := dset key { shape, json := j } i.keywords })) :=
    h.setInfo fun _ => rfl
  simp only []
  split
  · exact h1.same rfl (Nat.le_refl _) fun _ _ => rfl
  · exact h1

theorem bootOne_as {E : CEnv} {s : Nat} {kvs : List (String × Value)} {builds : List (String × KwBuild)}
    {key : String} {shape : KwShape} (hs : P s) (hb : ∀ p ∈ builds, ∀ sh t, AsK id c P (p.2 sh t)) :
    AsK id c P (bootOne E s kvs builds key shape) := by
  unfold bootOne
  split
  · rename_i h
    exact addKeyword_as hs (hb _ (dlookup_mem h))
  · exact ret trivial

variable {E : CEnv}

theorem getMeta_as {s : Nat} :
    AsK id c P (getMeta E s) := by
  unfold getMeta
  refine bind readA fun x _ => ?_
  cases x with
  | none => exact raise
  | some u => exact ofExcept fun _ _ => trivial

theorem bootstrap_as {s : Nat} {kvs : List (String × Value)} {builds : List (String × KwBuild)} (hs : P s)
    (hb : ∀ p ∈ builds, ∀ sh t, AsK id c P (p.2 sh t)) : AsK id c P (bootstrap E s kvs builds) := by
  unfold bootstrap
  refine bind (bootOne_as hs hb) fun _ _ => bind (bootOne_as hs hb) fun _ _ => ?_
  split
  · exact bind getMeta_as fun m _ => bootOne_as hs hb
  · exact ret trivial

theorem kwClasses_as {s : Nat} : ∀ {ks : List String},
    AsK id c P (kwClasses E s ks)
  | [] => ret trivial
  | k :: ks => by
    unfold kwClasses
    refine bind readA fun b _ => ?_
    split
    · exact kwClasses_as
    · exact bind getMeta_as fun m _ => bind (ofExcept fun _ _ => trivial) fun c _ =>
        bind (kwClasses_as (ks := ks)) fun cs _ => ret trivial

theorem addClasses_as {s : Nat} {kvs : List (String × Value)} {builds : List (String × KwBuild)} {classes : List KwCls} (hs : P s)
    (hb : ∀ p ∈ builds, ∀ sh t, AsK id c P (p.2 sh t)) :
    AsK id c P (addClasses E s kvs builds classes) := by
  unfold addClasses
  split
  · exact unmodelled
  · rename_i order ho
    refine each fun c h => ?_
    unfold addClass
    split
    · rename_i h
      exact addKeyword_as hs (hb _ (dlookup_mem h))
    · exact raise

theorem initObject_as {s : Nat} {kvs : List (String × Value)} {builds : List (String × KwBuild)} (hs : P s)
    (hb : ∀ p ∈ builds, ∀ sh t, AsK id c P (p.2 sh t)) : AsK id c P (initObject E s kvs builds) := by
  unfold initObject nameAnonymous
  refine bind setDataM_as fun _ _ => bind (Q := fun _ => True) ?_ fun _ _ => bind (bootstrap_as hs hb) fun _ _ =>
    bind kwClasses_as fun cs _ => addClasses_as hs hb
  refine bind readA fun b _ => ?_
  split
  · exact bind readA fun _ _ => setUri_as hs
  · exact ret trivial

/-- What follows the creation of a node for a schema. -/
theorem after_as {α : Type} {cid : String} (hid : cid ≠ id) {uri mu : Option Uri} {par : Option Nat} {key : Option String}
    {f : Nat → M α} (hf : ∀ s, AsK id c (fun x => P x ∨ x = s) (f s)) :
    AsK id c P (newSchemaNode cid uri mu par key >>= f) := by
  intro w w' r h e
  simp only [Bind.bind, M.andThen] at e
  cases hm : newSchemaNode cid uri mu par key w with
  | none => rw [hm] at e; cases e
  | some p =>
    obtain ⟨w1, r1⟩ := p
    rw [hm] at e
    obtain ⟨rfl, h1⟩ := newSchemaNode_as hid h hm
    exact ⟨((hf _) _ _ _ h1 e).1.less fun x hx => .inl hx, fun _ _ => trivial⟩

theorem boolSchema_as {cid : String} (hid : cid ≠ id) {uri mu : Option Uri} {par : Option Nat} {key : Option String}
    {b : Bool} : AsK id c P (boolSchema cid uri mu par key b) :=
  after_as hid fun _ => bind setDataM_as fun _ _ => ret trivial

theorem objSchema_as {cid : String} (hid : cid ≠ id) {uri mu : Option Uri} {par : Option Nat} {key : Option String}
    {kvs : List (String × Value)} {builds : List (String × KwBuild)}
    (hb : ∀ P, ∀ p ∈ builds, ∀ sh t, AsK id c P (p.2 sh t)) : AsK id c P (objSchema E cid uri mu par key kvs builds) :=
  after_as hid fun _ => bind (initObject_as (.inr rfl) (hb _)) fun _ _ => ret trivial

mutual
theorem newSchema_as (cid : String) (hid : cid ≠ id) (P : Nat → Prop) (uri mu : Option Uri) (par : Option Nat) (key : Option String) :
    ∀ v, AsK id c P (newSchema E cid uri mu par key v)
  | .bool b => by unfold newSchema; exact boolSchema_as hid
  | .obj kvs => by unfold newSchema; exact objSchema_as hid fun P => kwBuilds_as cid hid P kvs
  | .null | .num _ | .str _ | .arr _ => by
    unfold newSchema; exact after_as hid fun _ => raise
theorem kwBuilds_as (cid : String) (hid : cid ≠ id) (P : Nat → Prop) : ∀ (kvs : List (String × Value)), ∀ p ∈ kwBuilds E cid kvs, ∀ sh t, AsK id c P (p.2 sh t)
  | [], _, h => by unfold kwBuilds at h; cases h
  | (k, v) :: r, p, h => by
    unfold kwBuilds at h
    rcases List.mem_cons.1 h with rfl | h
    · exact kwBuild_as cid hid P k v
    · exact kwBuilds_as cid hid P r p h
theorem kwBuild_as (cid : String) (hid : cid ≠ id) (P : Nat → Prop) (k : String) : ∀ v sh t, AsK id c P (kwBuild E cid k v sh t)
  | .bool b, sh, t => by
    unfold kwBuild
    split <;> first | exact boolSchema_as hid | exact raise | exact newJsonM_as
  | .obj kvs, sh, t => by
    unfold kwBuild
    split
    · exact objSchema_as hid fun P => kwBuilds_as cid hid P kvs
    · exact objSchema_as hid fun P => kwBuilds_as cid hid P kvs
    · exact raise
    · exact bind newJsonNode_as fun j _ => bind (newMembers_as cid hid P j kvs) fun _ _ => bind setDataM_as fun _ _ =>
        ret trivial
    · exact newJsonM_as
  | .arr xs, sh, t => by
    unfold kwBuild
    split
    · exact bind newJsonNode_as fun j _ => bind (newItems_as cid hid P j 0 xs) fun _ _ => bind setDataM_as fun _ _ =>
        ret trivial
    · exact bind newJsonNode_as fun j _ => bind (newItems_as cid hid P j 0 xs) fun _ _ => bind setDataM_as fun _ _ =>
        ret trivial
    · exact raise
    · exact raise
    · exact newJsonM_as
  | .str s, sh, t => by
    unfold kwBuild
    split <;> first | exact raise | exact newJsonM_as
  | .null, sh, t | .num _, sh, t => by
    unfold kwBuild
    split <;> first | exact raise | exact newJsonM_as
theorem newItems_as (cid : String) (hid : cid ≠ id) (P : Nat → Prop) (j i : Nat) : ∀ vs, AsK id c P (newItems E cid j i vs)
  | [] => by unfold newItems; exact ret trivial
  | v :: vs => by
    unfold newItems
    exact bind (newSchema_as cid hid P none none (some j) (some (natStr i)) v) fun _ _ => bind (newItems_as cid hid P j (i + 1) vs) fun _ _ => ret trivial
theorem newMembers_as (cid : String) (hid : cid ≠ id) (P : Nat → Prop) (j : Nat) : ∀ kvs, AsK id c P (newMembers E cid j kvs)
  | [] => by unfold newMembers; exact ret trivial
  | (k, v) :: r => by
    unfold newMembers
    exact bind (newSchema_as cid hid P none none (some j) (some k) v) fun _ _ => bind (newMembers_as cid hid P j r) fun _ _ => ret trivial
end

end

/-! ## The resolution of references -/

/-- Nothing of the cache is changed. -/
def CacheKept (id : String) (w w' : World) : Prop := ∀ u, cacheGet w'.caches id u = cacheGet w.caches id u

theorem CacheKept.refl (id : String) (w : World) : CacheKept id w w := fun _ => rfl

theorem CacheKept.trans {id : String} {w w' w'' : World} (h : CacheKept id w w') (h' : CacheKept id w' w'') : CacheKept id w w'' :=
  fun u => (h' u).trans (h u)

/-- The resolution of the references of a schema changes nothing of caches that are not its own. -/
def ResolveCached (id : String) (resolve : Nat → M Unit) : Prop :=
  ∀ s w w' r, WOk w → w.isSchema s = true → w.cacheid s ≠ id → resolve s w = some (w', r) → CacheKept id w w'

/-- The construction of a document changes nothing of other caches. -/
def NewDocCached (id : String) (newDoc : NewDoc) : Prop :=
  ∀ cid uri metaUri doc w w' r, cid ≠ id → doc.WF → SPre w cid uri none →
    newDoc cid uri metaUri doc w = some (w', r) → CacheKept id w w'

section
variable {id : String} {E : CEnv} (hE : CEnvOk E)
include hE

theorem getSchemaWith_others {newDoc : NewDoc} (hN : NewDocCached id newDoc) {u : Uri}
    {metaUri : Option Uri} {cid : String} (hid : cid ≠ id) {w w' : World} {r : Except Exc Nat} (ok : WOk w)
    (h : getSchemaWith E newDoc u metaUri cid w = some (w', r)) : CacheKept id w w' := by
  unfold getSchemaWith at h
  replace h := M.read_bind h
  cases hc : cacheGet w.caches cid u with
  | some s =>
    rw [hc] at h
    obtain ⟨rfl, rfl⟩ := M.pure_run h
    exact .refl _ _
  | none =>
    rw [hc] at h
    replace h := M.read_bind h
    cases hb : baseCached w cid u with
    | some s =>
      rw [hb] at h
      obtain ⟨rfl, h2⟩ := getSchemaEnd_spec h
      exact .refl _ _
    | none =>
      rw [hb] at h
      have hn : cacheGet w.caches cid u.noFragment = none := by
        unfold baseCached at hb
        split at hb
        · exact hb
        · rename_i hf
          have : u.noFragment = u := by
            cases u with
            | mk b f => simp at hf; subst hf; rfl
          rw [this, hc]
      have pre : SPre w cid (some u.noFragment) none := by
        refine ⟨ok, (fun p h => by cases h), (fun p h => by cases h), fun u' hu' hf q hq hcq => ?_⟩
        cases hu'
        obtain ⟨t, _, h2, _⟩ := ok.uris q _ hq hf
        rw [hcq, hn] at h2
        cases h2
      simp only [loadSchema] at h
      rcases M.bind_run h with ⟨w1, doc, h1, h2⟩ | ⟨e, h1, rfl⟩
      · obtain ⟨rfl, hl⟩ := M.ofExcept_run h1
        rcases M.bind_run h2 with ⟨w2, s, h3, h4⟩ | ⟨e, h3, rfl⟩
        · have a2 := hN _ _ _ _ _ _ _ hid (hE.docs _ _ hl.symm) pre h3
          replace h4 := M.read_bind h4
          cases hc2 : cacheGet w2.caches cid u with
          | some t =>
            rw [hc2] at h4
            obtain ⟨rfl, rfl⟩ := M.pure_run h4
            exact a2
          | none =>
            rw [hc2] at h4
            obtain ⟨rfl, h5⟩ := getSchemaEnd_spec h4
            exact a2
        · exact hN _ _ _ _ _ _ _ hid (hE.docs _ _ hl.symm) pre h3
      · obtain ⟨rfl, _⟩ := M.ofExcept_run h1
        exact .refl _ _

theorem resolveKw_others {newDoc : NewDoc} (hN : NewDocCached id newDoc) {s : Nat}
    {key : String} {kw : KwObj} {w w' : World} {r : Except Exc Unit} (ok : WOk w)
    (hid : w.cacheid s ≠ id) (h : resolveKw E newDoc s key kw w = some (w', r)) : CacheKept id w w' := by
  unfold resolveKw at h
  replace h := M.read_bind h
  replace h := M.read_bind h
  rcases M.bind_run h with ⟨w1, u, h1, h2⟩ | ⟨e, h1, rfl⟩
  rotate_left
  · obtain rfl := refUri_world h1
    exact .refl _ _
  obtain rfl := refUri_world h1
  rcases M.bind_run h2 with ⟨w2, t, h3, h4⟩ | ⟨e, h3, rfl⟩
  rotate_left
  · exact getSchemaWith_others hE hN hid ok h3
  have a := getSchemaWith_others hE hN hid ok h3
  rcases M.bind_run h4 with ⟨w3, d, h5, h6⟩ | ⟨e, h5, rfl⟩
  rotate_left
  · obtain rfl := refDynamic_world h5
    exact a
  obtain rfl := refDynamic_world h5
  refine a.trans ?_
  unfold setRef at h6
  obtain ⟨rfl, rfl⟩ := M.change_run h6
  exact fun _ => rfl

omit hE in
theorem resolveItem_others {resolve : Nat → M Unit} (hB : ResolveCached id resolve)
    {c : Nat} {w w' : World} {r : Except Exc Unit} (ok : WOk w) (hc : w.isSchema c = true → w.cacheid c ≠ id)
    (h : resolveItem resolve c w = some (w', r)) : CacheKept id w w' := by
  unfold resolveItem at h
  replace h := M.read_bind h
  split at h
  · rename_i hs
    exact hB _ _ _ _ ok hs (hc hs) h
  · obtain ⟨rfl, _⟩ := M.pure_run h
    exact .refl _ _

theorem resolveOne_others {newDoc : NewDoc} (hN : NewDocCached id newDoc)
    {resolve : Nat → M Unit} (hR : ResolveOk resolve) (hB : ResolveCached id resolve) {s : Nat}
    {kv : String × KwObj} {w w' : World} {r : Except Exc Unit} (ok : WOk w) (hs : w.isSchema s = true)
    (hid : w.cacheid s ≠ id) (hj : w.heap.parent kv.2.json = some s)
    (h : resolveOne E newDoc resolve s kv w = some (w', r)) : CacheKept id w w' := by
  unfold resolveOne at h
  split at h
  · exact resolveKw_others hE hN ok hid h
  · replace h := M.read_bind h
    split at h
    · rename_i hsj
      refine hB _ _ _ _ ok hsj ?_ h
      rcases ok.near _ _ hsj hj with ⟨-, e⟩ | ⟨e, -⟩
      · rw [← e]; exact hid
      · rw [hs] at e; cases e
    · rename_i hsj
      replace h := M.read_bind h
      have hkid : ∀ c ∈ (w.heap.data kv.2.json).kids, c < w.heap.next ∧ (w.isSchema c = true → w.cacheid c ≠ id) :=
        fun c hc => by
          obtain ⟨-, h2, h3⟩ := ok.ord.kid _ _ hc
          refine ⟨h2, fun hsc => ?_⟩
          rcases ok.near _ _ hsc h3 with ⟨e, -⟩ | ⟨-, g, hg, -, e⟩
          · exact absurd e hsj
          · rw [hj] at hg; cases hg; rw [← e]; exact hid
      generalize (w.heap.data kv.2.json).kids = l at h hkid
      clear hs hsj hid hj
      induction l generalizing w with
      | nil =>
        obtain ⟨rfl, _⟩ := M.pure_run (a := ()) h
        exact .refl _ _
      | cons a as ih =>
        rcases M.bind_run (m := resolveItem resolve a) (f := fun _ => M.each (resolveItem resolve) as) h with
          ⟨w2, x, h1, h2⟩ | ⟨e, h1, rfl⟩
        · obtain ⟨a1, a2, -⟩ := resolveItem_spec hR ok (hkid a (by simp)).1 h1
          refine (resolveItem_others hB ok (hkid a (by simp)).2 h1).trans (ih a1 h2 fun c hc => ?_)
          obtain ⟨k1, k2⟩ := hkid c (by simp [hc])
          refine ⟨Nat.lt_of_lt_of_le k1 a2.le, ?_⟩
          rw [a2.isSchema k1, a2.cacheid k1]
          exact k2
        · exact resolveItem_others hB ok (hkid a (by simp)).2 h1

theorem newDocWith_others {resolve : Nat → M Unit}
    (hB : ResolveCached id resolve) : NewDocCached id (newDocWith E resolve) := by
  intro cid uri metaUri doc w w' r hid hd pre h
  unfold newDocWith at h
  have key : ∀ w1 r1, newSchema E cid uri metaUri none none doc w = some (w1, r1) → CacheKept id w w1 := fun w1 r1 h1 =>
    (newSchema_as (c := cacheGet w.caches id) cid hid (fun _ => False) uri metaUri none none doc w w1 r1
      ⟨pre.ok.caches, fun _ => rfl, fun _ h => h.elim⟩ h1).1.get
  rcases M.bind_run h with ⟨w1, s, h1, h2⟩ | ⟨e, h1, rfl⟩
  rotate_left
  · exact key _ _ h1
  have p := (works hE doc hd).1 _ _ _ _ _ _ _ _ pre h1
  obtain ⟨rfl, -⟩ := p.ret s rfl
  have hc : w1.cacheid w.heap.next ≠ id := by rw [p.cacheid]; exact hid
  rcases M.bind_run h2 with ⟨w2, x, h3, h4⟩ | ⟨e, h3, rfl⟩
  · obtain ⟨rfl, rfl⟩ := M.pure_run h4
    exact (key _ _ h1).trans (hB _ _ _ _ p.ok p.isSchema hc h3)
  · exact (key _ _ h1).trans (hB _ _ _ _ p.ok p.isSchema hc h3)

theorem resolveReferences_others : ∀ n, ResolveCached id (resolveReferences E n) := by
  intro n
  induction n with
  | zero => intro s w w' r _ _ _ h; cases h
  | succ n ih =>
    intro s w w' r ok hs hid h
    simp only [resolveReferences] at h
    replace h := M.read_bind h
    have hR := resolveReferences_ok hE n
    have hN := newDocWith_ok hE hR
    have hNB := newDocWith_others hE ih
    obtain ⟨i, hi⟩ := Option.isSome_iff_exists.1 hs
    have hkw : w.keywords s = i.keywords := by simp [World.keywords, hi]
    have hjl : ∀ kv ∈ w.keywords s, w.heap.parent kv.2.json = some s ∧ kv.2.json < w.heap.next ∧
        KwOk w kv.2.shape kv.2.json := by
      intro kv hkv
      rw [hkw] at hkv
      have := ok.ord.kid _ _ (ok.kid hi hkv)
      exact ⟨this.2.2, this.2.1, (ok.shapes s i kv hi hkv).1⟩
    generalize w.keywords s = l at h hjl
    clear hi hkw i
    revert w
    induction l with
    | nil =>
      intro w _ _ _ h _
      obtain ⟨rfl, _⟩ := M.pure_run (a := ()) h
      exact .refl _ _
    | cons a as iha =>
      intro w ok hs hid h hjl
      obtain ⟨p1, p2, p3⟩ := hjl a (by simp)
      rcases M.bind_run (m := resolveOne E _ _ s a) (f := fun _ => M.each _ as) h with
        ⟨w2, x, h1, h2⟩ | ⟨e, h1, rfl⟩
      · obtain ⟨a1, a2, -⟩ := resolveOne_spec hE hN hR ok hs p2 p3 h1
        refine (resolveOne_others hE hNB hR ih ok hs hid p1 h1).trans
          (iha w2 a1 ((a2.isSchema (ok.dom _ hs)).trans hs) (by rw [a2.cacheid (ok.dom _ hs)]; exact hid) h2
            fun kv hkv => ?_)
        obtain ⟨q1, q2, q3⟩ := hjl kv (by simp [hkv])
        refine ⟨?_, Nat.lt_of_lt_of_le q2 a2.le, q3.mono (P := (· < w.heap.next))
          (steady_old ok.ord (fun x hx => a2.isSchema hx) (fun x hx _ => a2.ext.data hx)) q2⟩
        simp only [JHeap.parent, a2.node _ q2]
        exact q1
      · exact resolveOne_others hE hNB hR ih ok hs hid p1 h1

/-- The construction of a document changes nothing of other caches. -/
theorem newDocument_others (n : Nat) : NewDocCached id (newDocument E n) :=
  newDocWith_others hE (resolveReferences_others hE n)

/-- Getting a schema changes nothing of other caches. -/
theorem getSchema_others {n : Nat} {u : Uri} {metaUri : Option Uri}
    {cid : String} (hid : cid ≠ id) {w w' : World} {r : Except Exc Nat} (ok : WOk w)
    (h : getSchema E n u metaUri cid w = some (w', r)) : CacheKept id w w' :=
  getSchemaWith_others hE (newDocument_others hE n) hid ok h

end

end Jschon
