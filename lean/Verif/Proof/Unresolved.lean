import Verif.Proof.Kinds

/-!
# References that are not resolved

The construction of a schema, apart from `_resolve_references`, resolves no references.
-/

namespace Jschon
open Spec

/-- The references of the schemas from `b` on are not resolved. -/
def Unresolved (b : Nat) (w : World) : Prop :=
  ∀ s kv, b ≤ s → kv ∈ w.keywords s → kv.2.refschema = none

section
variable {R : Nat}

theorem Unresolved.same {w w' : World} (h : Unresolved R w) (e : ∀ s, w'.keywords s = w.keywords s) : Unresolved R w' :=
  fun s kv hs hk => h s kv hs (e s ▸ hk)

theorem Unresolved.setInfo {w : World} (h : Unresolved R w) {s : Nat} {f : SInfo → SInfo}
    (hf : ∀ i kv, (∀ kv ∈ i.keywords, kv.2.refschema = none) → kv ∈ (f i).keywords → kv.2.refschema = none) :
    Unresolved R (w.setInfo s f) := by
  intro x kv hx hk
  have h := fun kv => h x kv hx
  simp only [World.keywords, World.setInfo] at hk h
  split at hk
  · cases hi : w.info x with
    | none => simp [hi] at hk
    | some i =>
      simp only [hi, Option.map_some, Option.getD_some] at hk h
      exact hf i kv h hk
  · exact h kv hk

theorem Unresolved.putUri {w : World} (h : Unresolved R w) {lib : UriLib} {s : Nat} {u : Uri} :
    Unresolved R (w.putUri lib s u) := by
  unfold World.putUri
  split
  · exact h
  · exact (h.setInfo (s := s) (f := fun i => { i with uri := some u }) fun i kv h hk => h kv hk).same
      fun _ => rfl

open M.Keeps

abbrev UnK (R : Nat) {α : Type} (m : M α) : Prop := M.Keeps (Unresolved R) (fun _ => True) m

theorem newSchemaNode_un {cid : String} {uri mu : Option Uri} {par : Option Nat} {key : Option String} :
    UnK R (newSchemaNode cid uri mu par key) := by
  intro w w' r hI e
  cases e
  refine ⟨fun s kv hs hk => ?_, fun _ _ => trivial⟩
  have h := fun kv => hI s kv hs
  simp only [World.keywords] at hk h
  split at hk
  · simp at hk
  · exact h kv hk

theorem newJsonNode_un {par : Option Nat} {key : Option String} : UnK R (newJsonNode par key) := by
  intro w w' r hI e
  cases e
  exact ⟨hI.same fun _ => rfl, fun _ _ => trivial⟩

theorem newJsonM_un {v : Value} {par : Option Nat} {key : Option String} : UnK R (newJsonM v par key) := by
  intro w w' r hI e
  cases e
  exact ⟨hI.same fun _ => rfl, fun _ _ => trivial⟩

theorem setDataM_un {s : Nat} {d : JData} : UnK R (setDataM s d) :=
  change (fun _ h => h.same fun _ => rfl) trivial

theorem setUri_un {lib : UriLib} {s : Nat} {u : Uri} : UnK R (setUri lib s u) :=
  change (fun _ h => h.putUri) trivial

theorem readU {α : Type} {f : World → α} : UnK R (M.read f) := read fun _ _ => trivial

theorem resolveUri_un {E : CEnv} {s : Nat} {u : Uri} {a : Bool} : UnK R (resolveUri E s u a) := by
  unfold resolveUri
  split
  · exact ret trivial
  · refine bind readU fun x _ => ?_
    cases x with
    | none => exact raise
    | some b =>
      simp only []
      split
      · exact raise
      · exact ret trivial

theorem addAnchor_un {E : CEnv} {s : Nat} {t : String} : UnK R (addAnchor E s t) := by
  unfold addAnchor
  refine bind readU fun x _ => ?_
  cases x with
  | none => exact raise
  | some b => exact change (fun _ h => h.same fun _ => rfl) trivial

theorem initKw_un {E : CEnv} {s : Nat} {shape : KwShape} {v : Value} : UnK R (initKw E s shape v) := by
  have hid : ∀ {a : Bool} {u : Uri}, UnK R (resolveUri E s u a >>= fun r => setUri E.lib s r) :=
    bind resolveUri_un fun _ _ => setUri_un
  cases shape <;> cases v <;> simp only [initKw] <;> first
    | exact ret trivial
    | exact unmodelled
    | exact raise
    | exact addAnchor_un
    | (split <;> first | exact raise | exact ret trivial | exact hid |
        exact change (fun _ h => h.setInfo fun i kv h hk => h kv hk) trivial)

theorem addKeyword_un {E : CEnv} {s : Nat} {shape : KwShape} {key : String} {v : Value} {build : KwBuild}
    (hb : ∀ sh t, UnK R (build sh t)) : UnK R (addKeyword E s shape key v build) := by
  unfold addKeyword
  refine bind (hb _ _) fun j _ => bind initKw_un fun _ _ => change (fun w h => ?_) trivial
  have h1 : Unresolved R (w.setInfo s (fun i => { i with keywords := dset key { shape, json := j } i.keywords })) := by
    refine h.setInfo fun i kv h hk => ?_
    obtain ⟨k', o⟩ := kv
    rcases mem_dset hk with ⟨rfl, rfl⟩ | hk
    · rfl
    · exact h _ hk
  simp only []
  split
  · exact h1.same fun _ => rfl
  · exact h1

theorem bootOne_un {E : CEnv} {s : Nat} {kvs : List (String × Value)} {builds : List (String × KwBuild)}
    {key : String} {shape : KwShape} (hb : ∀ p ∈ builds, ∀ sh t, UnK R (p.2 sh t)) :
    UnK R (bootOne E s kvs builds key shape) := by
  unfold bootOne
  split
  · rename_i h
    exact addKeyword_un (hb _ (dlookup_mem h))
  · exact ret trivial

variable {E : CEnv}

theorem getMeta_un {s : Nat} :
    UnK R (getMeta E s) := by
  unfold getMeta
  refine bind readU fun x _ => ?_
  cases x with
  | none => exact raise
  | some u => exact ofExcept fun _ _ => trivial

theorem bootstrap_un {s : Nat} {kvs : List (String × Value)} {builds : List (String × KwBuild)}
    (hb : ∀ p ∈ builds, ∀ sh t, UnK R (p.2 sh t)) : UnK R (bootstrap E s kvs builds) := by
  unfold bootstrap
  refine bind (bootOne_un hb) fun _ _ => bind (bootOne_un hb) fun _ _ => ?_
  split
  · exact bind getMeta_un fun m _ => bootOne_un hb
  · exact ret trivial

theorem kwClasses_un {s : Nat} : ∀ {ks : List String},
    UnK R (kwClasses E s ks)
  | [] => ret trivial
  | k :: ks => by
    unfold kwClasses
    refine bind readU fun b _ => ?_
    split
    · exact kwClasses_un
    · exact bind getMeta_un fun m _ => bind (ofExcept fun _ _ => trivial) fun c _ =>
        bind (kwClasses_un (ks := ks)) fun cs _ => ret trivial

theorem addClasses_un {s : Nat} {kvs : List (String × Value)} {builds : List (String × KwBuild)} {classes : List KwCls}
    (hb : ∀ p ∈ builds, ∀ sh t, UnK R (p.2 sh t)) :
    UnK R (addClasses E s kvs builds classes) := by
  unfold addClasses
  split
  · exact unmodelled
  · rename_i order ho
    refine each fun c h => ?_
    unfold addClass
    split
    · rename_i h
      exact addKeyword_un (hb _ (dlookup_mem h))
    · exact raise

theorem initObject_un {s : Nat} {kvs : List (String × Value)} {builds : List (String × KwBuild)}
    (hb : ∀ p ∈ builds, ∀ sh t, UnK R (p.2 sh t)) : UnK R (initObject E s kvs builds) := by
  unfold initObject nameAnonymous
  refine bind setDataM_un fun _ _ => bind (Q := fun _ => True) ?_ fun _ _ => bind (bootstrap_un hb) fun _ _ =>
    bind kwClasses_un fun cs _ => addClasses_un hb
  refine bind readU fun b _ => ?_
  split
  · exact bind readU fun _ _ => setUri_un
  · exact ret trivial

theorem boolSchema_un {cid : String} {uri mu : Option Uri} {par : Option Nat} {key : Option String} {b : Bool} :
    UnK R (boolSchema cid uri mu par key b) :=
  bind newSchemaNode_un fun _ _ => bind setDataM_un fun _ _ => ret trivial

theorem objSchema_un {cid : String} {uri mu : Option Uri} {par : Option Nat} {key : Option String}
    {kvs : List (String × Value)} {builds : List (String × KwBuild)}
    (hb : ∀ p ∈ builds, ∀ sh t, UnK R (p.2 sh t)) : UnK R (objSchema E cid uri mu par key kvs builds) :=
  bind newSchemaNode_un fun _ _ => bind (initObject_un hb) fun _ _ => ret trivial

mutual
theorem newSchema_un (cid : String) (uri mu : Option Uri) (par : Option Nat) (key : Option String) :
    ∀ v, UnK R (newSchema E cid uri mu par key v)
  | .bool b => by unfold newSchema; exact boolSchema_un
  | .obj kvs => by unfold newSchema; exact objSchema_un (kwBuilds_un cid kvs)
  | .null | .num _ | .str _ | .arr _ => by
    unfold newSchema; exact bind newSchemaNode_un fun _ _ => raise
theorem kwBuilds_un (cid : String) : ∀ (kvs : List (String × Value)), ∀ p ∈ kwBuilds E cid kvs, ∀ sh t, UnK R (p.2 sh t)
  | [], _, h => by unfold kwBuilds at h; cases h
  | (k, v) :: r, p, h => by
    unfold kwBuilds at h
    rcases List.mem_cons.1 h with rfl | h
    · exact kwBuild_un cid k v
    · exact kwBuilds_un cid r p h
theorem kwBuild_un (cid : String) (k : String) : ∀ v sh t, UnK R (kwBuild E cid k v sh t)
  | .bool b, sh, t => by
    unfold kwBuild
    split <;> first | exact boolSchema_un | exact raise | exact newJsonM_un
  | .obj kvs, sh, t => by
    unfold kwBuild
    split
    · exact objSchema_un (kwBuilds_un cid kvs)
    · exact objSchema_un (kwBuilds_un cid kvs)
    · exact raise
    · exact bind newJsonNode_un fun j _ => bind (newMembers_un cid j kvs) fun _ _ => bind setDataM_un fun _ _ =>
        ret trivial
    · exact newJsonM_un
  | .arr xs, sh, t => by
    unfold kwBuild
    split
    · exact bind newJsonNode_un fun j _ => bind (newItems_un cid j 0 xs) fun _ _ => bind setDataM_un fun _ _ =>
        ret trivial
    · exact bind newJsonNode_un fun j _ => bind (newItems_un cid j 0 xs) fun _ _ => bind setDataM_un fun _ _ =>
        ret trivial
    · exact raise
    · exact raise
    · exact newJsonM_un
  | .str s, sh, t => by
    unfold kwBuild
    split <;> first | exact raise | exact newJsonM_un
  | .null, sh, t | .num _, sh, t => by
    unfold kwBuild
    split <;> first | exact raise | exact newJsonM_un
theorem newItems_un (cid : String) (j i : Nat) : ∀ vs, UnK R (newItems E cid j i vs)
  | [] => by unfold newItems; exact ret trivial
  | v :: vs => by
    unfold newItems
    exact bind (newSchema_un cid none none (some j) (some (natStr i)) v) fun _ _ => bind (newItems_un cid j (i + 1) vs) fun _ _ => ret trivial
theorem newMembers_un (cid : String) (j : Nat) : ∀ kvs, UnK R (newMembers E cid j kvs)
  | [] => by unfold newMembers; exact ret trivial
  | (k, v) :: r => by
    unfold newMembers
    exact bind (newSchema_un cid none none (some j) (some k) v) fun _ _ => bind (newMembers_un cid j r) fun _ _ => ret trivial
end

end

end Jschon
