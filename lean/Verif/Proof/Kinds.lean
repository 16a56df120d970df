import Verif.Spec.SchemaEdit
import Verif.Proof.KwOrder
import Verif.Proof.Construct
import Verif.Proof.JsonOps

/-!
# The classes of the keywords of a world
-/

namespace Jschon
open Spec

/-- The computation keeps the invariant, and what it returns satisfies `Q`. -/
def M.Keeps {α : Type} (I : World → Prop) (Q : α → Prop) (m : M α) : Prop :=
  ∀ w w' r, I w → m w = some (w', r) → I w' ∧ ∀ a, r = .ok a → Q a

namespace M.Keeps
variable {α β : Type} {I : World → Prop} {Q : α → Prop} {P : β → Prop}

theorem ret {a : α} (h : Q a) : Keeps I Q (pure a : M α) := by
  intro w w' r hI e
  cases e
  exact ⟨hI, fun b e => by cases e; exact h⟩

theorem raise {e : Exc} : Keeps I Q (M.raise e : M α) := by
  intro w w' r hI e
  cases e
  exact ⟨hI, fun b e => by cases e⟩

theorem unmodelled : Keeps I Q (M.unmodelled : M α) := by
  intro w w' r hI e
  cases e

theorem bind {m : M α} {f : α → M β} (h : Keeps I Q m) (h' : ∀ a, Q a → Keeps I P (f a)) :
    Keeps I P (m >>= f) := by
  intro w w' r hI e
  simp only [Bind.bind, M.andThen] at e
  cases hm : m w with
  | none => rw [hm] at e; cases e
  | some p =>
    obtain ⟨w1, r1⟩ := p
    rw [hm] at e
    have h1 := h _ _ _ hI hm
    cases r1 with
    | ok a => exact h' a (h1.2 a rfl) _ _ _ h1.1 e
    | error x => cases e; exact ⟨h1.1, fun b e => by cases e⟩

theorem read {f : World → α} (h : ∀ w, I w → Q (f w)) : Keeps I Q (M.read f) := by
  intro w w' r hI e
  cases e
  exact ⟨hI, fun b e => by cases e; exact h w hI⟩

theorem ofExcept {x : Except Exc α} (h : ∀ a, x = .ok a → Q a) : Keeps I Q (M.ofExcept x) := by
  intro w w' r hI e
  cases e
  exact ⟨hI, h⟩

theorem change {f : World → World} {Q : Unit → Prop} (h : ∀ w, I w → I (f w)) (hQ : Q ()) :
    Keeps I Q (M.change f) := by
  intro w w' r hI e
  cases e
  exact ⟨h w hI, fun _ _ => hQ⟩

theorem weaken {m : M α} {Q' : α → Prop} (h : Keeps I Q m) (hQ : ∀ a, Q a → Q' a) : Keeps I Q' m :=
  fun w w' r hI e => ⟨(h w w' r hI e).1, fun a he => hQ a ((h w w' r hI e).2 a he)⟩

theorem each {f : α → M Unit} : ∀ {as : List α}, (∀ a ∈ as, Keeps I (fun _ => True) (f a)) →
    Keeps I (fun _ => True) (M.each f as)
  | [], _ => ret trivial
  | a :: as, h => bind (h a (by simp)) fun _ _ => each fun b hb => h b (by simp [hb])

end M.Keeps

/-- The keywords of the schemas satisfy `R`. -/
def KwsOf (R : String → KwShape → Prop) (w : World) : Prop :=
  ∀ s kv, kv ∈ w.keywords s → R kv.1 kv.2.shape

section
variable {R : String → KwShape → Prop}

theorem KwsOf.same {w w' : World} (h : KwsOf R w) (e : ∀ s, w'.keywords s = w.keywords s) : KwsOf R w' :=
  fun s kv hk => h s kv (e s ▸ hk)

theorem KwsOf.setInfo {w : World} (h : KwsOf R w) {s : Nat} {f : SInfo → SInfo}
    (hf : ∀ i kv, (∀ kv ∈ i.keywords, R kv.1 kv.2.shape) → kv ∈ (f i).keywords → R kv.1 kv.2.shape) :
    KwsOf R (w.setInfo s f) := by
  intro x kv hk
  have h := h x
  simp only [World.keywords, World.setInfo] at hk h
  split at hk
  · cases hi : w.info x with
    | none => simp [hi] at hk
    | some i =>
      simp only [hi, Option.map_some, Option.getD_some] at hk h
      exact hf i kv h hk
  · exact h kv hk

theorem KwsOf.putUri {w : World} (h : KwsOf R w) {lib : UriLib} {s : Nat} {u : Uri} :
    KwsOf R (w.putUri lib s u) := by
  unfold World.putUri
  split
  · exact h
  · exact (h.setInfo (s := s) (f := fun i => { i with uri := some u }) fun i kv h hk => h kv hk).same
      fun _ => rfl

open M.Keeps

abbrev KwK (R : String → KwShape → Prop) {α : Type} (m : M α) : Prop := M.Keeps (KwsOf R) (fun _ => True) m

theorem newSchemaNode_kw {cid : String} {uri mu : Option Uri} {par : Option Nat} {key : Option String} :
    KwK R (newSchemaNode cid uri mu par key) := by
  intro w w' r hI e
  cases e
  refine ⟨fun s kv hk => ?_, fun _ _ => trivial⟩
  have h := hI s
  simp only [World.keywords] at hk h
  split at hk
  · simp at hk
  · exact h kv hk

theorem newJsonNode_kw {par : Option Nat} {key : Option String} : KwK R (newJsonNode par key) := by
  intro w w' r hI e
  cases e
  exact ⟨hI.same fun _ => rfl, fun _ _ => trivial⟩

theorem newJsonM_kw {v : Value} {par : Option Nat} {key : Option String} : KwK R (newJsonM v par key) := by
  intro w w' r hI e
  cases e
  exact ⟨hI.same fun _ => rfl, fun _ _ => trivial⟩

theorem setDataM_kw {s : Nat} {d : JData} : KwK R (setDataM s d) :=
  change (fun _ h => h.same fun _ => rfl) trivial

theorem setUri_kw {lib : UriLib} {s : Nat} {u : Uri} : KwK R (setUri lib s u) :=
  change (fun _ h => h.putUri) trivial

theorem readK {α : Type} {f : World → α} : KwK R (M.read f) := read fun _ _ => trivial

theorem resolveUri_kw {E : CEnv} {s : Nat} {u : Uri} {a : Bool} : KwK R (resolveUri E s u a) := by
  unfold resolveUri
  split
  · exact ret trivial
  · refine bind readK fun x _ => ?_
    cases x with
    | none => exact raise
    | some b =>
      simp only []
      split
      · exact raise
      · exact ret trivial

theorem addAnchor_kw {E : CEnv} {s : Nat} {t : String} : KwK R (addAnchor E s t) := by
  unfold addAnchor
  refine bind readK fun x _ => ?_
  cases x with
  | none => exact raise
  | some b => exact change (fun _ h => h.same fun _ => rfl) trivial

theorem initKw_kw {E : CEnv} {s : Nat} {shape : KwShape} {v : Value} : KwK R (initKw E s shape v) := by
  have hid : ∀ {a : Bool} {u : Uri}, KwK R (resolveUri E s u a >>= fun r => setUri E.lib s r) :=
    bind resolveUri_kw fun _ _ => setUri_kw
  cases shape <;> cases v <;> simp only [initKw] <;> first
    | exact ret trivial
    | exact unmodelled
    | exact raise
    | exact addAnchor_kw
    | (split <;> first | exact raise | exact ret trivial | exact hid |
        exact change (fun _ h => h.setInfo fun i kv h hk => h kv hk) trivial)

theorem addKeyword_kw {E : CEnv} {s : Nat} {shape : KwShape} {key : String} {v : Value} {build : KwBuild}
    (hR : R key shape) (hb : ∀ sh t, KwK R (build sh t)) : KwK R (addKeyword E s shape key v build) := by
  unfold addKeyword
  refine bind (hb _ _) fun j _ => bind initKw_kw fun _ _ => change (fun w h => ?_) trivial
  have h1 : KwsOf R (w.setInfo s (fun i => { i with keywords := dset key { shape, json := j } i.keywords })) := by
    refine h.setInfo fun i kv h hk => ?_
    obtain ⟨k', o⟩ := kv
    rcases mem_dset hk with ⟨rfl, rfl⟩ | hk
    · exact hR
    · exact h _ hk
  simp only []
  split
  · exact h1.same fun _ => rfl
  · exact h1

theorem bootOne_kw {E : CEnv} {s : Nat} {kvs : List (String × Value)} {builds : List (String × KwBuild)}
    {key : String} {shape : KwShape} (hR : R key shape) (hb : ∀ p ∈ builds, ∀ sh t, KwK R (p.2 sh t)) :
    KwK R (bootOne E s kvs builds key shape) := by
  unfold bootOne
  split
  · rename_i h
    exact addKeyword_kw hR (hb _ (dlookup_mem h))
  · exact ret trivial

/-- `R` holds of the classes that a schema may have. -/
structure ClassesR (R : String → KwShape → Prop) (E : CEnv) : Prop where
  schema : R "$schema" .schema
  vocabulary : R "$vocabulary" .vocabulary
  id : R "$id" .id
  idNext : R "$id" .idNext
  cls : ∀ u m, E.metaschema u = .ok m → ∀ key c, getKwclass m key = .ok c → R c.key c.shape

variable {E : CEnv} (hE : ClassesR R E)
include hE

theorem getMeta_kw {s : Nat} :
    M.Keeps (KwsOf R) (fun m => ∀ key c, getKwclass m key = .ok c → R c.key c.shape) (getMeta E s) := by
  unfold getMeta
  refine bind readK fun x _ => ?_
  cases x with
  | none => exact raise
  | some u => exact ofExcept fun m h => hE.cls u m h

theorem bootstrap_kw {s : Nat} {kvs : List (String × Value)} {builds : List (String × KwBuild)}
    (hb : ∀ p ∈ builds, ∀ sh t, KwK R (p.2 sh t)) : KwK R (bootstrap E s kvs builds) := by
  unfold bootstrap
  refine bind (bootOne_kw hE.schema hb) fun _ _ => bind (bootOne_kw hE.vocabulary hb) fun _ _ => ?_
  split
  · refine bind (getMeta_kw hE) fun m _ => bootOne_kw ?_ hb
    split
    · exact hE.id
    · exact hE.idNext
  · exact ret trivial

theorem kwClasses_kw {s : Nat} : ∀ {ks : List String},
    M.Keeps (KwsOf R) (fun cs => ∀ c ∈ cs, R c.key c.shape) (kwClasses E s ks)
  | [] => ret fun _ h => by cases h
  | k :: ks => by
    unfold kwClasses
    refine bind readK fun b _ => ?_
    split
    · exact kwClasses_kw
    · refine bind (getMeta_kw hE) fun m hm => bind (ofExcept (hm k)) fun c hc =>
        bind (kwClasses_kw (ks := ks)) fun cs hcs => ret fun x hx => ?_
      rcases List.mem_cons.1 hx with rfl | hx
      · exact hc
      · exact hcs x hx

omit hE in
theorem resolveDependencies_mem {classes order : List KwCls}
    (h : resolveDependencies KwCls.key KwCls.deps classes = some order) {c : KwCls} (hc : c ∈ order) : c ∈ classes := by
  unfold resolveDependencies at h
  have hp := (resolveLoop_perm _ _ _ _ h).mem_iff.1 hc
  simpa [List.map_map, Function.comp_def] using hp

omit hE in
theorem addClasses_kw {s : Nat} {kvs : List (String × Value)} {builds : List (String × KwBuild)} {classes : List KwCls}
    (hc : ∀ c ∈ classes, R c.key c.shape) (hb : ∀ p ∈ builds, ∀ sh t, KwK R (p.2 sh t)) :
    KwK R (addClasses E s kvs builds classes) := by
  unfold addClasses
  split
  · exact unmodelled
  · rename_i order ho
    refine each fun c h => ?_
    have hmem : c ∈ classes := resolveDependencies_mem ho h
    unfold addClass
    split
    · rename_i h
      exact addKeyword_kw (hc c hmem) (hb _ (dlookup_mem h))
    · exact raise

theorem initObject_kw {s : Nat} {kvs : List (String × Value)} {builds : List (String × KwBuild)}
    (hb : ∀ p ∈ builds, ∀ sh t, KwK R (p.2 sh t)) : KwK R (initObject E s kvs builds) := by
  unfold initObject nameAnonymous
  refine bind setDataM_kw fun _ _ => bind (Q := fun _ => True) ?_ fun _ _ => bind (bootstrap_kw hE hb) fun _ _ =>
    bind (kwClasses_kw hE) fun cs hcs => addClasses_kw hcs hb
  refine bind readK fun b _ => ?_
  split
  · exact bind readK fun _ _ => setUri_kw
  · exact ret trivial

omit hE in
theorem boolSchema_kw {cid : String} {uri mu : Option Uri} {par : Option Nat} {key : Option String} {b : Bool} :
    KwK R (boolSchema cid uri mu par key b) :=
  bind newSchemaNode_kw fun _ _ => bind setDataM_kw fun _ _ => ret trivial

theorem objSchema_kw {cid : String} {uri mu : Option Uri} {par : Option Nat} {key : Option String}
    {kvs : List (String × Value)} {builds : List (String × KwBuild)}
    (hb : ∀ p ∈ builds, ∀ sh t, KwK R (p.2 sh t)) : KwK R (objSchema E cid uri mu par key kvs builds) :=
  bind newSchemaNode_kw fun _ _ => bind (initObject_kw hE hb) fun _ _ => ret trivial

mutual
theorem newSchema_kw (cid : String) (uri mu : Option Uri) (par : Option Nat) (key : Option String) :
    ∀ v, KwK R (newSchema E cid uri mu par key v)
  | .bool b => by unfold newSchema; exact boolSchema_kw
  | .obj kvs => by unfold newSchema; exact objSchema_kw hE (kwBuilds_kw cid kvs)
  | .null | .num _ | .str _ | .arr _ => by
    unfold newSchema; exact bind newSchemaNode_kw fun _ _ => raise
theorem kwBuilds_kw (cid : String) : ∀ (kvs : List (String × Value)), ∀ p ∈ kwBuilds E cid kvs, ∀ sh t, KwK R (p.2 sh t)
  | [], _, h => by unfold kwBuilds at h; cases h
  | (k, v) :: r, p, h => by
    unfold kwBuilds at h
    rcases List.mem_cons.1 h with rfl | h
    · exact kwBuild_kw cid k v
    · exact kwBuilds_kw cid r p h
theorem kwBuild_kw (cid : String) (k : String) : ∀ v sh t, KwK R (kwBuild E cid k v sh t)
  | .bool b, sh, t => by
    unfold kwBuild
    split <;> first | exact boolSchema_kw | exact raise | exact newJsonM_kw
  | .obj kvs, sh, t => by
    unfold kwBuild
    split
    · exact objSchema_kw hE (kwBuilds_kw cid kvs)
    · exact objSchema_kw hE (kwBuilds_kw cid kvs)
    · exact raise
    · exact bind newJsonNode_kw fun j _ => bind (newMembers_kw cid j kvs) fun _ _ => bind setDataM_kw fun _ _ =>
        ret trivial
    · exact newJsonM_kw
  | .arr xs, sh, t => by
    unfold kwBuild
    split
    · exact bind newJsonNode_kw fun j _ => bind (newItems_kw cid j 0 xs) fun _ _ => bind setDataM_kw fun _ _ =>
        ret trivial
    · exact bind newJsonNode_kw fun j _ => bind (newItems_kw cid j 0 xs) fun _ _ => bind setDataM_kw fun _ _ =>
        ret trivial
    · exact raise
    · exact raise
    · exact newJsonM_kw
  | .str s, sh, t => by
    unfold kwBuild
    split <;> first | exact raise | exact newJsonM_kw
  | .null, sh, t | .num _, sh, t => by
    unfold kwBuild
    split <;> first | exact raise | exact newJsonM_kw
theorem newItems_kw (cid : String) (j i : Nat) : ∀ vs, KwK R (newItems E cid j i vs)
  | [] => by unfold newItems; exact ret trivial
  | v :: vs => by
    unfold newItems
    exact bind (newSchema_kw cid none none (some j) (some (natStr i)) v) fun _ _ => bind (newItems_kw cid j (i + 1) vs) fun _ _ => ret trivial
theorem newMembers_kw (cid : String) (j : Nat) : ∀ kvs, KwK R (newMembers E cid j kvs)
  | [] => by unfold newMembers; exact ret trivial
  | (k, v) :: r => by
    unfold newMembers
    exact bind (newSchema_kw cid none none (some j) (some k) v) fun _ _ => bind (newMembers_kw cid j r) fun _ _ => ret trivial
end

omit hE in
theorem getSchemaEnd_kw {u : Uri} {s : Nat} : KwK R (getSchemaEnd u s) := by
  unfold getSchemaEnd followFragment
  refine bind (Q := fun _ => True) ?_ fun t _ => bind readK fun b _ => ?_
  · split
    · exact ret trivial
    · split
      · exact ret trivial
      · refine bind readK fun x _ => ?_
        cases x with
        | ok t => exact ret trivial
        | error e => exact raise
  · split
    · exact ret trivial
    · exact raise

omit hE in
theorem getSchemaWith_kw {newDoc : NewDoc} (hn : ∀ cid uri mu doc, KwK R (newDoc cid uri mu doc)) {u : Uri}
    {mu : Option Uri} {cid : String} : KwK R (getSchemaWith E newDoc u mu cid) := by
  unfold getSchemaWith
  refine bind readK fun x _ => ?_
  cases x with
  | some s => exact ret trivial
  | none =>
    refine bind readK fun x _ => ?_
    cases x with
    | some s => exact getSchemaEnd_kw
    | none =>
      simp only [loadSchema]
      refine bind (ofExcept fun _ _ => trivial) fun _ _ => bind (hn _ _ _ _) fun s _ => bind readK fun x _ => ?_
      cases x with
      | some t => exact ret trivial
      | none => exact getSchemaEnd_kw

omit hE in
theorem resolveKw_kw {newDoc : NewDoc} (hn : ∀ cid uri mu doc, KwK R (newDoc cid uri mu doc)) {s : Nat}
    {key : String} {kw : KwObj} : KwK R (resolveKw E newDoc s key kw) := by
  unfold resolveKw
  refine bind readK fun _ _ => bind readK fun _ _ => bind (Q := fun _ => True) ?_ fun _ _ => bind (getSchemaWith_kw hn) fun t _ =>
    bind (Q := fun _ => True) ?_ fun d _ => ?_
  · unfold refUri
    split
    · refine bind readK fun x _ => ?_
      cases x with
      | none => exact raise
      | some b => exact ret trivial
    · refine bind readK fun x _ => ?_
      cases x with
      | str t => exact bind resolveUri_kw fun _ _ => ret trivial
      | _ => exact unmodelled
  · unfold refDynamic
    split
    · exact bind readK fun _ _ => ofExcept fun _ _ => trivial
    · exact ret trivial
  · refine change (fun w h => h.setInfo fun i kv h hk => ?_) trivial
    obtain ⟨p, hp, rfl⟩ := List.mem_map.1 hk
    split
    · exact h p hp
    · exact h p hp

theorem resolveReferences_kw : ∀ n s, KwK R (resolveReferences E n s)
  | 0, s => unmodelled
  | n + 1, s => by
    have ih := resolveReferences_kw n
    unfold resolveReferences
    refine bind readK fun kws _ => each fun kv _ => ?_
    unfold resolveOne
    split
    · refine resolveKw_kw fun cid uri mu doc => ?_
      exact bind (newSchema_kw hE cid uri mu none none doc) fun s _ => bind (ih s) fun _ _ => ret trivial
    · refine bind readK fun b _ => ?_
      split
      · exact ih _
      · refine bind readK fun l _ => each fun c _ => ?_
        refine bind readK fun b _ => ?_
        split
        · exact ih _
        · exact ret trivial

theorem newDocument_kw {n : Nat} {cid : String} {uri mu : Option Uri} {doc : Value} :
    KwK R (newDocument E n cid uri mu doc) :=
  bind (newSchema_kw hE cid uri mu none none doc) fun s _ => bind (resolveReferences_kw hE n s) fun _ _ => ret trivial

end

theorem Spec.KindedEnv.classes [dia : Dialect] {E : CEnv} (h : KindedEnv E) : ClassesR Kinded E where
  schema := by cases dia <;> exact .inr (by decide)
  vocabulary := by cases dia <;> exact .inr (by decide)
  id := by cases dia <;> exact .inr (by decide)
  idNext := by cases dia <;> exact .inr (by decide)
  cls := h

theorem Spec.KHistory.chistory [Dialect] {w : World} (h : KHistory w) : CHistory w := by
  induction h with
  | start => exact .start
  | new _ h1 _ h2 h3 h4 ih => exact .new ih h1 h2 h3 h4
  | get _ h1 _ h2 ih => exact .get ih h1 h2

theorem Spec.KHistory.kinds [Dialect] {w : World} (h : KHistory w) : KwsOf Kinded w := by
  induction h with
  | start => intro s kv hk; cases hk
  | new _ _ hk _ _ h ih => exact (newDocument_kw hk.classes _ _ _ ih h).1
  | get _ _ hk h ih => exact (getSchemaWith_kw (fun _ _ _ _ => newDocument_kw hk.classes) _ _ _ ih h).1

end Jschon
