import Verif.Proof.Kinds
import Verif.Proof.Later

/-!
# Worlds after edits of schemas
-/

namespace Jschon
open Spec

/-- The members that are left. -/
def JData.trim (gone : List (Nat × String)) (x : Nat) : JData → JData
  | .obj ms => .obj (ms.filter fun m => decide ((x, m.1) ∉ gone))
  | d => d

/-- The second world is the first one without those members of schemas. -/
structure Trimmed (gone : List (Nat × String)) (w w' : World) : Prop where
  info : w'.info = w.info
  caches : w'.caches = w.caches
  next : w'.heap.next = w.heap.next
  parent : ∀ x, w'.heap.parent x = w.heap.parent x
  data : ∀ x, w'.heap.data x = if w.isSchema x then (w.heap.data x).trim gone x else w.heap.data x
  ord : Ord w'.heap
  keys : ∀ r ms, w'.heap.data r = .obj ms → (dkeys ms).Nodup
  okey : ∀ r ms, w'.heap.data r = .obj ms → ∀ k c, (k, c) ∈ ms → w'.heap.key c = some k

theorem JData.trim_nil (d : JData) (x : Nat) : d.trim [] x = d := by
  cases d <;> simp [JData.trim]

theorem JData.trim_same {d : JData} {gone : List (Nat × String)} {x s : Nat} {k : String} (h : x ≠ s) :
    d.trim ((s, k) :: gone) x = d.trim gone x := by
  cases d <;> simp [JData.trim, h]

theorem derase_filter {β : Type} (k : String) : ∀ {ms : List (String × β)}, (dkeys ms).Nodup →
    derase k ms = ms.filter fun m => decide (m.1 ≠ k)
  | [], _ => rfl
  | (k', v) :: r, h => by
    simp only [dkeys, List.map_cons, List.nodup_cons] at h
    simp only [derase]
    by_cases hk : k = k'
    · subst hk
      simp only [if_true, List.filter_cons, ne_eq, not_true_eq_false, decide_false, Bool.false_eq_true, if_false]
      refine (List.filter_eq_self.2 fun m hm => ?_).symm
      simp only [ne_eq, decide_not, Bool.not_eq_eq_eq_not, Bool.not_true, decide_eq_false_iff_not]
      rintro rfl
      exact h.1 (List.mem_map_of_mem hm)
    · rw [if_neg hk, List.filter_cons, if_pos (by simp [Ne.symm hk]), derase_filter k h.2]

theorem JData.trim_cons {ms : List (String × Nat)} {gone : List (Nat × String)} {s : Nat} {k : String} :
    (JData.obj ms).trim ((s, k) :: gone) s =
      .obj ((ms.filter fun m => decide ((s, m.1) ∉ gone)).filter fun m => decide (m.1 ≠ k)) := by
  simp only [JData.trim, List.filter_filter, JData.obj.injEq]
  refine List.filter_congr fun m _ => ?_
  simp [not_or]

theorem Trimmed.delete {gone : List (Nat × String)} {w w' : World} (t : Trimmed gone w w')
    (hdom : ∀ s, w.isSchema s = true → s < w.heap.next) {s : Nat}
    (hs : w'.isSchema s = true) {k : String} : Trimmed ((s, k) :: gone) w (SOp.step w' s (.delItem k)).1 := by
  have hs' : w.isSchema s = true := by simpa only [World.isSchema, t.info] using hs
  have hlt : s < w'.heap.next := t.next ▸ hdom s hs'
  have hds := t.data s
  rw [hs', if_pos rfl] at hds
  have hother : ∀ x, x ≠ s → w'.heap.data x =
      if w.isSchema x then (w.heap.data x).trim ((s, k) :: gone) x else w.heap.data x := fun x hx => by
    rw [t.data x, JData.trim_same hx]
  -- a deletion that changes nothing
  have same : (∀ ms, w'.heap.data s = .obj ms → k ∉ dkeys ms) →
      w'.heap.data s = (w.heap.data s).trim ((s, k) :: gone) s := fun hn => by
    cases hd : w.heap.data s with
    | obj ms =>
      rw [JData.trim_cons]
      have e : w'.heap.data s = .obj (ms.filter fun m => decide ((s, m.1) ∉ gone)) := by rw [hds, hd]; rfl
      rw [e]
      refine congrArg JData.obj (List.filter_eq_self.2 fun m hm => ?_).symm
      simp only [ne_eq, decide_not, Bool.not_eq_eq_eq_not, Bool.not_true, decide_eq_false_iff_not]
      rintro rfl
      exact hn _ e (List.mem_map_of_mem hm)
    | _ => rw [hds, hd]; rfl
  show Trimmed _ w { w' with heap := (delKey w'.heap s k).1 }
  by_cases hn : ∀ ms, w'.heap.data s = .obj ms → k ∉ dkeys ms
  · rw [(delKey_err hn).2]
    refine ⟨t.info, t.caches, t.next, t.parent, fun x => ?_, t.ord, t.keys, t.okey⟩
    by_cases hx : x = s
    · subst hx; rw [hs', if_pos rfl]; exact same hn
    · exact hother x hx
  · simp only [Classical.not_forall, not_imp, Classical.not_not] at hn
    obtain ⟨ms', hd', hk⟩ := hn
    obtain ⟨c, hc⟩ := Option.isSome_iff_exists.1 (dlookup_isSome.2 hk)
    simp only [delKey, hd', hc]
    have hsub : (derase k ms').Sublist ms' := derase_sublist
    have hkids : ∀ c ∈ (JData.obj (derase k ms')).kids, s < c ∧ c < w'.heap.next ∧ w'.heap.parent c = some s :=
      fun c hc => t.ord.kid s c (by rw [hd']; exact (hsub.map Prod.snd).subset hc)
    have hnd : (JData.obj (derase k ms')).kids.Nodup := by
      have := t.ord.nodup s
      rw [hd'] at this
      exact this.sublist (hsub.map Prod.snd)
    have hkn : (dkeys (derase k ms')).Nodup := (t.keys s ms' hd').sublist (hsub.map Prod.fst)
    obtain ⟨e1, e2, -⟩ := assign_spec t.ord hlt hkids hnd (fun ms e => by cases e; exact hkn) (fun cs e => by cases e)
      (fun ms e k c h => by cases e; exact t.okey s ms' hd' k c (hsub.subset h))
    have hdata : ∀ x, (invalValue (w'.heap.setData s (.obj (derase k ms'))) s).data x =
        if w.isSchema x then (w.heap.data x).trim ((s, k) :: gone) x else w.heap.data x := fun x => by
      rw [e1.data x]
      by_cases hx : x = s
      · subst hx
        rw [if_pos rfl, hs', if_pos rfl]
        cases hd : w.heap.data x with
        | obj ms =>
          have e : (ms.filter fun m => decide ((x, m.1) ∉ gone)) = ms' := by
            rw [hd', hd] at hds
            simpa only [JData.trim, JData.obj.injEq] using hds.symm
          rw [JData.trim_cons, e, derase_filter k (t.keys x ms' hd')]
        | _ => rw [hd', hd] at hds; cases hds
      · rw [if_neg hx]; exact hother x hx
    refine ⟨t.info, t.caches, e1.next.trans t.next, fun x => (e1.parent x).trans (t.parent x), hdata, ?_, ?_, ?_⟩
    · refine ⟨fun r => (e1.has r).trans ((t.ord.dom r).trans (by rw [e1.next])), fun r c hc => ?_, fun r => ?_,
        fun r p hp => t.ord.par r p (by rw [← e1.parent]; exact hp)⟩
      · rw [e1.data] at hc
        rw [e1.next, e1.parent]
        split at hc
        · rename_i h; subst h; exact hkids c hc
        · exact t.ord.kid r c hc
      · rw [e1.data]
        split
        · exact hnd
        · exact t.ord.nodup r
    · intro r ms h
      rw [e1.data] at h
      split at h
      · cases h; exact hkn
      · exact t.keys r ms h
    · intro r ms h k c hc
      rw [e1.data] at h
      rw [e2]
      split at h
      · cases h; exact t.okey s ms' hd' k c (hsub.subset hc)
      · exact t.okey r ms h k c hc

theorem Spec.Edited.trimmed {w w' : World} (ok : WOk w) {gone : List (Nat × String)} (h : Edited w w' gone) :
    Trimmed gone w w' := by
  induction h with
  | refl =>
    refine ⟨rfl, rfl, rfl, fun _ => rfl, fun x => ?_, ok.ord, ok.keys.nodup, fun r ms h k c hc => ?_⟩
    rotate_left
    · exact ok.keys.key r k c (by simp only [Child, h]; exact hc)
    rw [JData.trim_nil]; split <;> rfl
  | @other w' gone s op _ hs hop ih =>
    cases op with
    | delItem k => exact absurd rfl (hop k)
    | _ => exact ih
  | delete _ hs ih => exact ih.delete ok.dom hs

section
variable {gone : List (Nat × String)} {w w' : World} (t : Trimmed gone w w')
include t

theorem Trimmed.keywords (x : Nat) : w'.keywords x = w.keywords x := by simp only [World.keywords, t.info]

theorem Trimmed.isSchema (x : Nat) : w'.isSchema x = w.isSchema x := by simp only [World.isSchema, t.info]

theorem Trimmed.plainData {x : Nat} (h : w.isSchema x = false) : w'.heap.data x = w.heap.data x := by
  rw [t.data, h]; rfl

theorem Trimmed.val (ok : WOk w) {j : Nat} (h : NoSchema w j) : val w'.heap j = val w.heap j :=
  val_congr ok.ord t.ord (fun x => Desc w.heap j x) (fun x hx => t.plainData (h x hx))
    (fun _ hx c hc => desc_trans hx (.step hc .refl)) j .refl

theorem Trimmed.nearest {attr : SInfo → Option Uri} : ∀ n s, w'.nearest attr n s = w.nearest attr n s
  | 0, _ => rfl
  | n + 1, s => by simp only [World.nearest, t.info, t.parent, Trimmed.nearest n]

/-- What is evaluated of a keyword is what it was. -/
theorem Trimmed.kwOf [dia : Dialect] {E : CEnv} (ok : WOk w) {x : Nat} {kv : String × KwObj}
    (hm : kv ∈ w.keywords x) (hkind : Kinded kv.1 kv.2.shape) : w'.kwOf E kv = w.kwOf E kv := by
  have hobj : KwObjOk w kv.2 := by
    simp only [World.keywords] at hm
    cases hi : w.info x with
    | none => rw [hi] at hm; cases hm
    | some i =>
      rw [hi] at hm
      exact ok.shapes x i kv hi hm
  have hok := hobj.1
  obtain ⟨k, o⟩ := kv
  simp only [World.kwOf, Kinded] at hkind hok ⊢
  -- plain JSON
  have plain : ∀ f, o.shape ∉ ([.subschema, .arrayOfSubschemas, .objectOfSubschemas, .subschemaOrArray] : List KwShape) →
      w'.kwOfForm E k o f = w.kwOfForm E k o f := fun f hs => by
    have hno : NoSchema w o.json := by
      simp only [List.mem_cons, List.not_mem_nil, or_false, not_or] at hs
      unfold KwOk at hok
      split at hok <;> first | exact hok | (rename_i h; simp [h] at hs)
    exact kwOfForm_congr (t.plainData (hno _ .refl)) (t.val ok hno) f
  -- `$defs`
  have defs : ∀ f, dlookup k kwForms = some f → k = "$defs" → w'.kwOfForm E k o (some f) = w.kwOfForm E k o (some f) := by
    rintro f hf rfl
    have : dlookup "$defs" (kwForms (dia := dia)) = some defsForm := by cases dia <;> rfl
    rw [this] at hf
    cases hf
    rfl
  cases hf : dlookup k kwForms with
  | none =>
    rw [hf] at hkind
    rcases hkind with rfl | h
    · have : dlookup "$defs" (kwForms (dia := dia)) = some defsForm := by cases dia <;> rfl
      rw [this] at hf
      cases hf
    · exact plain _ h
  | some f =>
    rw [hf] at hkind
    cases f with
    | one f => rfl
    | many f =>
      simp only [] at hkind
      simp only [hkind, KwOk] at hok
      have : w.isSchema o.json = false := hok.elim (·.1) fun h => h.1 _ .refl
      simp only [World.kwOfForm, t.plainData this]
    | named f =>
      simp only [] at hkind
      simp only [hkind, KwOk] at hok
      simp only [World.kwOfForm, t.plainData hok.1]
    | either f g =>
      simp only [] at hkind
      simp only [hkind, KwOk] at hok
      by_cases hs : w.isSchema o.json = true
      · have h1 : ∀ cs, w.heap.data o.json ≠ .arr cs := fun cs => ok.whole _ _ hs
        have e := t.data o.json
        rw [hs, if_pos rfl] at e
        simp only [World.kwOfForm, e]
        cases hd : w.heap.data o.json with
        | arr cs => exact absurd hd (h1 cs)
        | _ => rfl
      · simp only [World.kwOfForm, t.plainData (Bool.eq_false_iff.2 hs)]
    | _ => exact hkind.elim (defs _ hf) (plain _)

theorem Trimmed.schemaObj [dia : Dialect] {E : CEnv} (ok : WOk w) {x : Nat}
    (hk : ∀ kv ∈ w.keywords x, Kinded kv.1 kv.2.shape) : w'.schemaObj E x = w.schemaObj E x := by
  have hl : (w.keywords x).filterMap (w'.kwOf E) = (w.keywords x).filterMap (w.kwOf E) := by
    have : ∀ kv ∈ w.keywords x, w'.kwOf E kv = w.kwOf E kv := fun kv h => t.kwOf ok h (hk kv h)
    generalize w.keywords x = l at this
    induction l with
    | nil => rfl
    | cons a l ih =>
      simp only [List.filterMap_cons, this a (by simp), ih fun kv h => this kv (by simp [h])]
  simp only [World.schemaObj, t.keywords, hl, t.data x]
  by_cases hs : w.isSchema x = true
  · rw [if_pos hs]
    cases w.heap.data x <;> rfl
  · rw [if_neg hs]

end

/-- In a world that is not edited, the anchors are in `data`. -/
theorem seen_all [dia : Dialect] {E : CEnv} {w : World} (ok : WOk w) {x : Nat} {kws : List Kw}
    (ho : w.schemaObj E x = .obj kws) {k : String} {v : Value} (h : Kw.static k v ∈ kws) :
    ∃ ms c, w.heap.data x = .obj ms ∧ (k, c) ∈ ms := by
  have hmem : ∃ kv ∈ w.keywords x, w.kwOf E kv = some (.static k v) := by
    unfold World.schemaObj at ho
    split at ho
    · cases ho
    · cases ho; exact List.mem_filterMap.1 h
  obtain ⟨kv, hm, e⟩ := hmem
  have hkey : k = kv.1 := (kwOf_fits ok.ord ok.keys e).1
  rw [hkey]
  cases hi : w.info x with
  | none => simp [World.keywords, hi] at hm
  | some i =>
    simp only [World.keywords, hi, Option.map_some, Option.getD_some] at hm
    have hmm : (kv.1, kv.2.json) ∈ (w.heap.data x).members := by
      rw [← ok.kws x i hi]; exact List.mem_map_of_mem hm
    cases hd : w.heap.data x with
    | obj ms => rw [hd] at hmm; exact ⟨ms, _, rfl, hmm⟩
    | arr cs => exact absurd hd (ok.whole x cs (by simp [World.isSchema, hi]))
    | _ => rw [hd] at hmm; cases hmm

theorem Trimmed.liveObj [dia : Dialect] {E : CEnv} {gone : List (Nat × String)} {w w' : World} (t : Trimmed gone w w')
    (ok : WOk w) {x : Nat} (hk : ∀ kv ∈ w.keywords x, Kinded kv.1 kv.2.shape) :
    w'.liveObj E x = Spec.withoutAnchors gone x (w.schemaObj E x) := by
  simp only [World.liveObj, t.schemaObj ok hk]
  cases ho : w.schemaObj E x with
  | bool b => rfl
  | obj kws =>
    simp only [Spec.withoutAnchors, SchemaObj.obj.injEq]
    refine List.filter_congr fun kw hkw => ?_
    cases kw with
    | static k v =>
      obtain ⟨ms, c, hd, hc⟩ := seen_all ok ho hkw
      have hs : w.isSchema x = true := by
        by_cases hs : w.isSchema x = true
        · exact hs
        · exfalso
          have : w.keywords x = [] := by
            simp only [World.isSchema, Bool.not_eq_true, Option.isSome_eq_false_iff, Option.isNone_iff_eq_none] at hs
            simp [World.keywords, hs]
          unfold World.schemaObj at ho
          rw [hd, this] at ho
          cases ho
          cases hkw
      have e := t.data x
      rw [hs, if_pos rfl, hd] at e
      simp only [Kw.seen, e, JData.trim, anchorKeys, List.mem_cons, List.not_mem_nil, or_false]
      have hl : (dlookup k (ms.filter fun m => decide ((x, m.1) ∉ gone))).isSome = !decide ((x, k) ∈ gone) := by
        rw [Bool.eq_iff_iff, dlookup_isSome]
        simp only [dkeys, List.mem_map, List.mem_filter, Bool.not_eq_eq_eq_not, Bool.not_true, decide_eq_false_iff_not,
          decide_eq_true_eq]
        constructor
        · rintro ⟨m, ⟨-, h⟩, rfl⟩; exact h
        · exact fun h => ⟨(k, c), ⟨hc, h⟩, rfl⟩
      rw [hl]
      by_cases h1 : k = "$dynamicAnchor" <;> by_cases h2 : k = "$recursiveAnchor" <;> simp [h1, h2]
    | _ => rfl

theorem getSchemaWith_split (E : CEnv) (newDoc : NewDoc) (u : Uri) (mu : Option Uri) (cid : String) (w : World) :
    getSchemaWith E newDoc u mu cid w =
      match cacheGet w.caches cid u with
      | some s => some (w, .ok s)
      | none =>
        match baseCached w cid u with
        | some s => getSchemaEnd u s w
        | none => loadSchema E newDoc u mu cid w := by
  show (match cacheGet w.caches cid u with
    | some s => (pure s : M Nat)
    | none => (M.read fun w => baseCached w cid u) >>= fun o =>
        match o with
        | some s => getSchemaEnd u s
        | none => loadSchema E newDoc u mu cid) w = _
  cases cacheGet w.caches cid u with
  | some s => rfl
  | none =>
    show (match baseCached w cid u with
      | some s => getSchemaEnd u s
      | none => loadSchema E newDoc u mu cid) w = _
    cases baseCached w cid u <;> rfl

theorem getSchemaEnd_split (u : Uri) (s : Nat) (w : World) (h : ∀ g, u.fragment = some g → g ≠ "" →
    ∃ e, Ptr.parseUriFragment g = .error e) :
    resultOf (getSchemaEnd u s w) =
      if (u.fragment.getD "") = "" ∧ w.isSchema s = true then some s else none := by
  have fin : resultOf (((M.read fun w => w.isSchema s) >>= fun b =>
      if b = true then (pure s : M Nat) else M.raise .catalogError) w) =
        if w.isSchema s = true then some s else none := by
    show resultOf ((if w.isSchema s = true then (pure s : M Nat) else M.raise .catalogError) w) = _
    split <;> rfl
  cases hg : u.fragment with
  | none =>
    have : getSchemaEnd u s w = ((M.read fun w => w.isSchema s) >>= fun b =>
      if b = true then (pure s : M Nat) else M.raise .catalogError) w := by
      simp only [getSchemaEnd, followFragment, hg]; rfl
    rw [this, fin]; simp
  | some g =>
    by_cases h0 : g = ""
    · have : getSchemaEnd u s w = ((M.read fun w => w.isSchema s) >>= fun b =>
        if b = true then (pure s : M Nat) else M.raise .catalogError) w := by
        simp only [getSchemaEnd, followFragment, hg, h0, if_true]; rfl
      rw [this, fin]; simp [h0]
    · obtain ⟨e, he⟩ := h g hg h0
      have : getSchemaEnd u s w = (((M.read fun w => w.evalFragment g s) >>= fun x =>
        match x with
        | .ok t => (pure t : M Nat)
        | .error e => M.raise (if isPtrErr e then .catalogError else e)) >>= fun t =>
          (M.read fun w => w.isSchema t) >>= fun b =>
          if b = true then (pure t : M Nat) else M.raise .catalogError) w := by
        simp only [getSchemaEnd, followFragment, hg, if_neg h0]; rfl
      rw [this]
      have e1 : w.evalFragment g s = .error e := by simp only [World.evalFragment, he]
      have : (((M.read fun w => w.evalFragment g s) >>= fun x =>
        match x with
        | .ok t => (pure t : M Nat)
        | .error e => M.raise (if isPtrErr e then .catalogError else e)) w) =
          some (w, .error (if isPtrErr e then .catalogError else e)) := by
        show (match w.evalFragment g s with
          | .ok t => (pure t : M Nat)
          | .error e => M.raise (if isPtrErr e then .catalogError else e)) w = _
        rw [e1]; rfl
      simp only [Bind.bind, M.andThen] at this ⊢
      rw [this]
      simp [h0, resultOf]

theorem Trimmed.lookup [dia : Dialect] {E : CEnv} {cid : String} {gone : List (Nat × String)} {w w' : World}
    (t : Trimmed gone w w') {b f : String} (hf : NoPointer E f) :
    (w'.store E cid).lookup b f = (w.store E cid).lookup b f := by
  simp only [World.store]
  cases hu : E.lib.resolve (E.lib.ofText ("#" ++ f)) (E.lib.ofText b) with
  | none => rfl
  | some u =>
    simp only [getSchemaWith_split]
    have e1 : cacheGet w'.caches cid u = cacheGet w.caches cid u := by rw [t.caches]
    have e2 : baseCached w' cid u = baseCached w cid u := by simp only [baseCached, t.caches]
    rw [e1, e2]
    cases cacheGet w.caches cid u with
    | some s => rfl
    | none =>
      cases baseCached w cid u with
      | none =>
        simp only [loadSchema, Bind.bind, M.andThen, M.ofExcept, M.raise]
        cases loadJson E.lib E.sources u.noFragment <;> rfl
      | some s => simp only [getSchemaEnd_split u s _ (fun g => hf b u g hu), t.isSchema]

/-- Evaluation after edits is as before, but for the anchors. -/
theorem Trimmed.evaluate [dia : Dialect] {E : CEnv} {cid : String} {gone : List (Nat × String)} {w w' : World}
    (t : Trimmed gone w w') (ok : WOk w) {P : SRef → Prop} (hI : Island P (w.store E cid))
    (hk : ∀ x, P x → ∀ kv ∈ w.keywords x, Kinded kv.1 kv.2.shape)
    (hdyn : ∀ x kws u f, P x → (w.store E cid).obj x = .obj kws → .dynamicRef u f true ∈ kws → NoPointer E f)
    {env : Env} {n : Nat} {s : SRef} (hs : P s) {i : Inst} :
    Jschon.evaluate (w'.liveStore E cid) env n s i =
      Jschon.evaluate (Spec.Store.withoutAnchors gone (w.store E cid)) env n s i := by
  have hkws : ∀ {x kws}, (Spec.Store.withoutAnchors gone (w.store E cid)).obj x = .obj kws →
      ∃ kws', (w.store E cid).obj x = .obj kws' ∧ ∀ kw ∈ kws, kw ∈ kws' := fun {x kws} ho => by
    simp only [Spec.Store.withoutAnchors, Spec.withoutAnchors] at ho
    cases hx : (w.store E cid).obj x with
    | bool b => rw [hx] at ho; cases ho
    | obj kws' =>
      rw [hx] at ho
      cases ho
      exact ⟨kws', rfl, fun kw h => (List.mem_filter.1 h).1⟩
  refine evaluate_island (P := P) ⟨fun x kws kw u hx ho hm hu => ?_, fun x kws u f hx ho hm y b v hy hb hv => ?_⟩
    ⟨fun x hx => t.liveObj ok (hk x hx), fun x kws u f hx ho hm y _ => ⟨?_, fun b _ => ?_⟩⟩ hs
  · obtain ⟨kws', h1, h2⟩ := hkws ho
    exact hI.closed x kws' kw u hx h1 (h2 _ hm) hu
  · obtain ⟨kws', h1, h2⟩ := hkws ho
    exact hI.dyn x kws' u f hx h1 (h2 _ hm) y b v hy hb hv
  · simp only [World.liveStore, World.store, Spec.Store.withoutAnchors, World.baseUri, t.nearest]
  · obtain ⟨kws', h1, h2⟩ := hkws ho
    exact t.lookup (hdyn x kws' u f hx h1 (h2 _ hm))

/-- Without anchors that are gone, all anchors are there. -/
theorem withoutAnchors_none {gone : List (Nat × String)} (h : ∀ p ∈ gone, p.2 ∉ anchorKeys) (st : Store) :
    Spec.Store.withoutAnchors gone st = st := by
  unfold Spec.Store.withoutAnchors
  have : (fun x => Spec.withoutAnchors gone x (st.obj x)) = st.obj := by
    funext x
    cases hx : st.obj x with
    | bool b => rfl
    | obj kws =>
      simp only [Spec.withoutAnchors, SchemaObj.obj.injEq]
      refine List.filter_eq_self.2 fun kw _ => ?_
      cases kw with
      | static k v =>
        by_cases hk : k ∈ anchorKeys
        · have : (x, k) ∉ gone := fun hg => h _ hg hk
          simp [this]
        · simp [hk]
      | _ => rfl
  rw [this]

/-- The classes of the dialect are of the right kinds. -/
theorem dialect_kinded [dia : Dialect] {key : String} {c : KwCls} (h : getKwclass dialectMeta key = .ok c) :
    Kinded c.key c.shape := by
  have hall : ∀ c ∈ dialectMeta.classes, Kinded c.key c.shape := by
    have : ∀ c ∈ dialectMeta.classes, (match dlookup c.key kwForms with
        | some (.one _) => decide (c.shape = .subschema)
        | some (.many _) => decide (c.shape = .arrayOfSubschemas)
        | some (.named _) => decide (c.shape = .objectOfSubschemas)
        | some (.either _ _) => decide (c.shape = .subschemaOrArray)
        | _ => decide (c.key = "$defs" ∨
            c.shape ∉ ([.subschema, .arrayOfSubschemas, .objectOfSubschemas, .subschemaOrArray] : List KwShape))) = true := by
      cases dia <;> decide +kernel
    intro c hc
    have := this c hc
    unfold Kinded
    split at this <;> simp_all
  unfold getKwclass at h
  split at h
  · cases h
    exact hall _ (List.mem_of_find?_eq_some ‹_›)
  · rename_i hf
    split at h
    · cases h
    · split at h
      · cases h
      · cases h
        have hn : dlookup key kwForms = none := by
          cases hl : dlookup key kwForms with
          | none => rfl
          | some f =>
            exfalso
            have : ∀ p ∈ kwForms, ∃ c ∈ dialectMeta.classes, c.key = p.1 := by cases dia <;> decide +kernel
            obtain ⟨c, hc, he⟩ := this _ (dlookup_mem hl)
            have := List.find?_eq_none.1 hf c hc
            simp [he] at this
        simp only [Kinded, hn]
        exact .inr (by decide)

theorem Spec.OfDialect.kinded [dia : Dialect] {m : Meta} (h : OfDialect m) {key : String} {c : KwCls}
    (hc : getKwclass m key = .ok c) : Kinded c.key c.shape := by
  by_cases hk : key = "$id"
  · subst hk
    obtain ⟨sh, h1, h2⟩ := h.id
    rw [h1] at hc
    cases hc
    have : dlookup "$id" (kwForms (dia := dia)) = some (staticForm "$id") := by cases dia <;> rfl
    simp only [Kinded, this, staticForm]
    rcases h2 with rfl | rfl <;> exact .inr (by decide)
  · exact dialect_kinded (h.same key hk ▸ hc)

end Jschon
