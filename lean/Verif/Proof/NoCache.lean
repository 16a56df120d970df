import Verif.Proof.Kinds
import Verif.Proof.JsonBuild

/-!
# Construction caches no value and no path
-/

namespace Jschon
open Spec

/-- No value and no path is cached. -/
def Cold (h : JHeap) : Prop := ∀ x, h.valC x = none ∧ h.pathC x = none

/-- No value and no path is cached. -/
def NoCache (w : World) : Prop := Cold w.heap

theorem Cold.push {h : JHeap} (c : Cold h) {d : JData} {p : Option Ref} {k : Option String} :
    Cold (h.push { data := d, parent := p, key := k }) := by
  intro x
  rw [push_valC, push_pathC]
  split
  · exact ⟨rfl, rfl⟩
  · exact c x

theorem Cold.setData {h : JHeap} (c : Cold h) {r : Ref} {d : JData} : Cold (h.setData r d) := by
  intro x
  rw [setData_valC, setData_pathC]
  exact c x

mutual
theorem buildData_cold : (v : Value) → ∀ (h : JHeap) (r : Ref), Cold h → Cold (buildData h r v).1
  | .null, h, _, c => by simp only [buildData]; exact c
  | .bool _, h, _, c => by simp only [buildData]; exact c
  | .num _, h, _, c => by simp only [buildData]; exact c
  | .str _, h, _, c => by simp only [buildData]; exact c
  | .arr xs, h, r, c => by simp only [buildData]; exact buildItems_cold xs h r 0 c
  | .obj kvs, h, r, c => by simp only [buildData]; exact buildMembers_cold kvs h r c
theorem buildItems_cold : (xs : List Value) → ∀ (h : JHeap) (r : Ref) (i : Nat), Cold h →
    Cold (buildItems h r i xs).1
  | [], h, _, _, c => by simp only [buildItems]; exact c
  | x :: xs, h, r, i, c => by
    simp only [buildItems]
    exact buildItems_cold xs _ _ _ (buildData_cold x _ _ c.push).setData
theorem buildMembers_cold : (kvs : List (String × Value)) → ∀ (h : JHeap) (r : Ref), Cold h →
    Cold (buildMembers h r kvs).1
  | [], h, _, c => by simp only [buildMembers]; exact c
  | (k, v) :: kvs, h, r, c => by
    simp only [buildMembers]
    exact buildMembers_cold kvs _ _ (buildData_cold v _ _ c.push).setData
end

theorem newJson_cold {h : JHeap} (c : Cold h) (v : Value) (p : Option Ref) (k : Option String) :
    Cold (newJson h v p k).1 := (buildData_cold v _ _ c.push).setData

theorem Cold.inv {h : JHeap} (c : Cold h) (ho : Ord h) (hk : Keys h) : JInv h where
  ord := ho
  keys := hk
  val r v hv := by rw [(c r).1] at hv; cases hv
  path a ks r p _ _ hp := by rw [(c r).2] at hp; cases hp

section
open M.Keeps

abbrev NcK {α : Type} (m : M α) : Prop := M.Keeps NoCache (fun _ => True) m

theorem newSchemaNode_nc {cid : String} {uri mu : Option Uri} {par : Option Nat} {key : Option String} :
    NcK (newSchemaNode cid uri mu par key) := by
  intro w w' r hI e
  cases e
  exact ⟨Cold.push hI, fun _ _ => trivial⟩

theorem newJsonNode_nc {par : Option Nat} {key : Option String} : NcK (newJsonNode par key) := by
  intro w w' r hI e
  cases e
  exact ⟨Cold.push hI, fun _ _ => trivial⟩

theorem newJsonM_nc {v : Value} {par : Option Nat} {key : Option String} : NcK (newJsonM v par key) := by
  intro w w' r hI e
  cases e
  exact ⟨newJson_cold hI _ _ _, fun _ _ => trivial⟩

theorem setDataM_nc {s : Nat} {d : JData} : NcK (setDataM s d) :=
  change (fun _ h => Cold.setData h) trivial

theorem setUri_nc {lib : UriLib} {s : Nat} {u : Uri} : NcK (setUri lib s u) :=
  change (fun w h => by unfold World.putUri; split <;> exact h) trivial

theorem readN {α : Type} {f : World → α} : NcK (M.read f) := read fun _ _ => trivial

theorem resolveUri_nc {E : CEnv} {s : Nat} {u : Uri} {a : Bool} : NcK (resolveUri E s u a) := by
  unfold resolveUri
  split
  · exact ret trivial
  · refine bind readN fun x _ => ?_
    cases x with
    | none => exact raise
    | some b =>
      simp only []
      split
      · exact raise
      · exact ret trivial

theorem addAnchor_nc {E : CEnv} {s : Nat} {t : String} : NcK (addAnchor E s t) := by
  unfold addAnchor
  refine bind readN fun x _ => ?_
  cases x with
  | none => exact raise
  | some b => exact change (fun _ h => h) trivial

theorem initKw_nc {E : CEnv} {s : Nat} {shape : KwShape} {v : Value} : NcK (initKw E s shape v) := by
  have hid : ∀ {a : Bool} {u : Uri}, NcK (resolveUri E s u a >>= fun r => setUri E.lib s r) :=
    bind resolveUri_nc fun _ _ => setUri_nc
  cases shape <;> cases v <;> simp only [initKw] <;> first
    | exact ret trivial
    | exact unmodelled
    | exact raise
    | exact addAnchor_nc
    | (split <;> first | exact raise | exact ret trivial | exact hid |
        exact change (fun _ h => h) trivial)

theorem addKeyword_nc {E : CEnv} {s : Nat} {shape : KwShape} {key : String} {v : Value} {build : KwBuild}
    (hb : ∀ sh t, NcK (build sh t)) : NcK (addKeyword E s shape key v build) := by
  unfold addKeyword
  refine bind (hb _ _) fun j _ => bind initKw_nc fun _ _ => change (fun w h => ?_) trivial
  simp only []
  split
  · exact Cold.setData h
  · exact h

theorem bootOne_nc {E : CEnv} {s : Nat} {kvs : List (String × Value)} {builds : List (String × KwBuild)}
    {key : String} {shape : KwShape} (hb : ∀ p ∈ builds, ∀ sh t, NcK (p.2 sh t)) :
    NcK (bootOne E s kvs builds key shape) := by
  unfold bootOne
  split
  · rename_i h
    exact addKeyword_nc (hb _ (dlookup_mem h))
  · exact ret trivial

variable {E : CEnv}

theorem getMeta_nc {s : Nat} : NcK (getMeta E s) := by
  unfold getMeta
  refine bind readN fun x _ => ?_
  cases x with
  | none => exact raise
  | some u => exact ofExcept fun m h => trivial

theorem bootstrap_nc {s : Nat} {kvs : List (String × Value)} {builds : List (String × KwBuild)}
    (hb : ∀ p ∈ builds, ∀ sh t, NcK (p.2 sh t)) : NcK (bootstrap E s kvs builds) := by
  unfold bootstrap
  refine bind (bootOne_nc hb) fun _ _ => bind (bootOne_nc hb) fun _ _ => ?_
  split
  · exact bind getMeta_nc fun m _ => bootOne_nc hb
  · exact ret trivial

theorem kwClasses_nc {s : Nat} : ∀ {ks : List String}, NcK (kwClasses E s ks)
  | [] => ret trivial
  | k :: ks => by
    unfold kwClasses
    refine bind readN fun b _ => ?_
    split
    · exact kwClasses_nc
    · exact bind getMeta_nc fun m hm => bind (ofExcept fun _ _ => trivial) fun c hc =>
        bind (kwClasses_nc (ks := ks)) fun cs hcs => ret trivial

theorem addClasses_nc {s : Nat} {kvs : List (String × Value)} {builds : List (String × KwBuild)} {classes : List KwCls}
    (hb : ∀ p ∈ builds, ∀ sh t, NcK (p.2 sh t)) : NcK (addClasses E s kvs builds classes) := by
  unfold addClasses
  split
  · exact unmodelled
  · refine each fun c h => ?_
    unfold addClass
    split
    · rename_i h
      exact addKeyword_nc (hb _ (dlookup_mem h))
    · exact raise

theorem initObject_nc {s : Nat} {kvs : List (String × Value)} {builds : List (String × KwBuild)}
    (hb : ∀ p ∈ builds, ∀ sh t, NcK (p.2 sh t)) : NcK (initObject E s kvs builds) := by
  unfold initObject nameAnonymous
  refine bind setDataM_nc fun _ _ => bind (Q := fun _ => True) ?_ fun _ _ => bind (bootstrap_nc hb) fun _ _ =>
    bind kwClasses_nc fun cs hcs => addClasses_nc hb
  refine bind readN fun b _ => ?_
  split
  · exact bind readN fun _ _ => setUri_nc
  · exact ret trivial

theorem boolSchema_nc {cid : String} {uri mu : Option Uri} {par : Option Nat} {key : Option String} {b : Bool} :
    NcK (boolSchema cid uri mu par key b) :=
  bind newSchemaNode_nc fun _ _ => bind setDataM_nc fun _ _ => ret trivial

theorem objSchema_nc {cid : String} {uri mu : Option Uri} {par : Option Nat} {key : Option String}
    {kvs : List (String × Value)} {builds : List (String × KwBuild)}
    (hb : ∀ p ∈ builds, ∀ sh t, NcK (p.2 sh t)) : NcK (objSchema E cid uri mu par key kvs builds) :=
  bind newSchemaNode_nc fun _ _ => bind (initObject_nc hb) fun _ _ => ret trivial

mutual
theorem newSchema_nc (cid : String) (uri mu : Option Uri) (par : Option Nat) (key : Option String) :
    ∀ v, NcK (newSchema E cid uri mu par key v)
  | .bool b => by unfold newSchema; exact boolSchema_nc
  | .obj kvs => by unfold newSchema; exact objSchema_nc (kwBuilds_nc cid kvs)
  | .null | .num _ | .str _ | .arr _ => by
    unfold newSchema; exact bind newSchemaNode_nc fun _ _ => raise
theorem kwBuilds_nc (cid : String) : ∀ (kvs : List (String × Value)), ∀ p ∈ kwBuilds E cid kvs, ∀ sh t, NcK (p.2 sh t)
  | [], _, h => by unfold kwBuilds at h; cases h
  | (k, v) :: r, p, h => by
    unfold kwBuilds at h
    rcases List.mem_cons.1 h with rfl | h
    · exact kwBuild_nc cid k v
    · exact kwBuilds_nc cid r p h
theorem kwBuild_nc (cid : String) (k : String) : ∀ v sh t, NcK (kwBuild E cid k v sh t)
  | .bool b, sh, t => by
    unfold kwBuild
    split <;> first | exact boolSchema_nc | exact raise | exact newJsonM_nc
  | .obj kvs, sh, t => by
    unfold kwBuild
    split
    · exact objSchema_nc (kwBuilds_nc cid kvs)
    · exact objSchema_nc (kwBuilds_nc cid kvs)
    · exact raise
    · exact bind newJsonNode_nc fun j _ => bind (newMembers_nc cid j kvs) fun _ _ => bind setDataM_nc fun _ _ =>
        ret trivial
    · exact newJsonM_nc
  | .arr xs, sh, t => by
    unfold kwBuild
    split
    · exact bind newJsonNode_nc fun j _ => bind (newItems_nc cid j 0 xs) fun _ _ => bind setDataM_nc fun _ _ =>
        ret trivial
    · exact bind newJsonNode_nc fun j _ => bind (newItems_nc cid j 0 xs) fun _ _ => bind setDataM_nc fun _ _ =>
        ret trivial
    · exact raise
    · exact raise
    · exact newJsonM_nc
  | .str s, sh, t => by
    unfold kwBuild
    split <;> first | exact raise | exact newJsonM_nc
  | .null, sh, t | .num _, sh, t => by
    unfold kwBuild
    split <;> first | exact raise | exact newJsonM_nc
theorem newItems_nc (cid : String) (j i : Nat) : ∀ vs, NcK (newItems E cid j i vs)
  | [] => by unfold newItems; exact ret trivial
  | v :: vs => by
    unfold newItems
    exact bind (newSchema_nc cid none none (some j) (some (natStr i)) v) fun _ _ => bind (newItems_nc cid j (i + 1) vs) fun _ _ => ret trivial
theorem newMembers_nc (cid : String) (j : Nat) : ∀ kvs, NcK (newMembers E cid j kvs)
  | [] => by unfold newMembers; exact ret trivial
  | (k, v) :: r => by
    unfold newMembers
    exact bind (newSchema_nc cid none none (some j) (some k) v) fun _ _ => bind (newMembers_nc cid j r) fun _ _ => ret trivial
end

theorem getSchemaEnd_nc {u : Uri} {s : Nat} : NcK (getSchemaEnd u s) := by
  unfold getSchemaEnd followFragment
  refine bind (Q := fun _ => True) ?_ fun t _ => bind readN fun b _ => ?_
  · split
    · exact ret trivial
    · split
      · exact ret trivial
      · refine bind readN fun x _ => ?_
        cases x with
        | ok t => exact ret trivial
        | error e => exact raise
  · split
    · exact ret trivial
    · exact raise

theorem getSchemaWith_nc {newDoc : NewDoc} (hn : ∀ cid uri mu doc, NcK (newDoc cid uri mu doc)) {u : Uri}
    {mu : Option Uri} {cid : String} : NcK (getSchemaWith E newDoc u mu cid) := by
  unfold getSchemaWith
  refine bind readN fun x _ => ?_
  cases x with
  | some s => exact ret trivial
  | none =>
    refine bind readN fun x _ => ?_
    cases x with
    | some s => exact getSchemaEnd_nc
    | none =>
      simp only [loadSchema]
      refine bind (ofExcept fun _ _ => trivial) fun _ _ => bind (hn _ _ _ _) fun s _ => bind readN fun x _ => ?_
      cases x with
      | some t => exact ret trivial
      | none => exact getSchemaEnd_nc

theorem resolveKw_nc {newDoc : NewDoc} (hn : ∀ cid uri mu doc, NcK (newDoc cid uri mu doc)) {s : Nat}
    {key : String} {kw : KwObj} : NcK (resolveKw E newDoc s key kw) := by
  unfold resolveKw
  refine bind readN fun _ _ => bind readN fun _ _ => bind (Q := fun _ => True) ?_ fun _ _ => bind (getSchemaWith_nc hn) fun t _ =>
    bind (Q := fun _ => True) ?_ fun d _ => ?_
  · unfold refUri
    split
    · refine bind readN fun x _ => ?_
      cases x with
      | none => exact raise
      | some b => exact ret trivial
    · refine bind readN fun x _ => ?_
      cases x with
      | str t => exact bind resolveUri_nc fun _ _ => ret trivial
      | _ => exact unmodelled
  · unfold refDynamic
    split
    · exact bind readN fun _ _ => ofExcept fun _ _ => trivial
    · exact ret trivial
  · exact change (fun w h => h) trivial

theorem resolveReferences_nc : ∀ n s, NcK (resolveReferences E n s)
  | 0, s => unmodelled
  | n + 1, s => by
    have ih := resolveReferences_nc n
    unfold resolveReferences
    refine bind readN fun kws _ => each fun kv _ => ?_
    unfold resolveOne
    split
    · refine resolveKw_nc fun cid uri mu doc => ?_
      exact bind (newSchema_nc cid uri mu none none doc) fun s _ => bind (ih s) fun _ _ => ret trivial
    · refine bind readN fun b _ => ?_
      split
      · exact ih _
      · refine bind readN fun l _ => each fun c _ => ?_
        refine bind readN fun b _ => ?_
        split
        · exact ih _
        · exact ret trivial

theorem newDocument_nc {n : Nat} {cid : String} {uri mu : Option Uri} {doc : Value} :
    NcK (newDocument E n cid uri mu doc) :=
  bind (newSchema_nc cid uri mu none none doc) fun s _ => bind (resolveReferences_nc n s) fun _ _ => ret trivial

end

theorem Spec.CHistory.cold {w : World} (h : CHistory w) : NoCache w := by
  induction h with
  | start => intro x; exact ⟨rfl, rfl⟩
  | new _ _ _ _ h ih => exact (newDocument_nc _ _ _ ih h).1
  | get _ _ h ih => exact (getSchemaWith_nc (fun _ _ _ _ => newDocument_nc) _ _ _ ih h).1

end Jschon
