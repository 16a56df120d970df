import Verif.Proof.SchemaEdit
import Verif.Props.Document

/-!
# C92: a schema that is edited

A schema is a `JSON` instance.  What is assigned to it is refused; what is deleted from it is gone from its
value, but evaluation goes on as before, unless an anchor was deleted.
-/

namespace Jschon
open Spec

/-- C92: whatever would put something into a schema, or in its place, raises AttributeError and changes
nothing. -/
theorem C92_refused (w : World) (s : Nat) {op : SOp} (h : ∀ k, op ≠ .delItem k) :
    op.step w s = (w, .error .attributeError) := by
  cases op with
  | delItem k => exact absurd rfl (h k)
  | _ => rfl

section
variable {w w' : World} (hw : CHistory w) {gone : List (Nat × String)} (he : Edited w w' gone)
include hw he

/-- C92: the members that are left are those that were not deleted; what is not a schema, and a schema from
which nothing was deleted, is unchanged. -/
theorem C92_members (s : Nat) :
    (w.isSchema s = true → ∀ ms, w.heap.data s = .obj ms →
      val w'.heap s = .obj ((ms.filter fun m => decide ((s, m.1) ∉ gone)).map fun m => (m.1, val w'.heap m.2))) ∧
    ((w.isSchema s = false ∨ ∀ k, (s, k) ∉ gone) → w'.heap.data s = w.heap.data s) := by
  have t := he.trimmed hw.ok
  refine ⟨fun hs ms hd => ?_, fun h => ?_⟩
  · rw [val_eq t.ord, t.data s, hs, if_pos rfl, hd]
    rfl
  · rw [t.data s]
    rcases h with h | h
    · rw [h]; rfl
    · split
      · cases hd : w.heap.data s with
        | obj ms =>
          simp only [JData.trim, JData.obj.injEq]
          exact List.filter_eq_self.2 fun m _ => by simp [h m.1]
        | _ => rfl
      · rfl

/-- C92: a deletion is refused if there is no such member any more. -/
theorem C92_missing {s : Nat} {k : String} (hk : (s, k) ∈ gone) (hs : w.isSchema s = true) :
    ∃ e, SOp.step w' s (.delItem k) = (w', .error e) ∧ (e = .keyError ∨ e = .typeError) := by
  have t := he.trimmed hw.ok
  have hd := t.data s
  rw [hs, if_pos rfl] at hd
  have key : ∀ ms, w'.heap.data s = .obj ms → dlookup k ms = none := fun ms h => by
    rw [h] at hd
    cases hw : w.heap.data s with
    | obj ms' =>
      rw [hw] at hd
      simp only [JData.trim, JData.obj.injEq] at hd
      subst hd
      refine dlookup_eq_none.2 fun hm => ?_
      obtain ⟨m, hm', rfl⟩ := List.mem_map.1 hm
      have := (List.mem_filter.1 hm').2
      simp [hk] at this
    | _ => rw [hw] at hd; cases hd
  have : ∃ e, delKey w'.heap s k = (w'.heap, .error e) ∧ (e = .keyError ∨ e = .typeError) := by
    unfold delKey
    cases h : w'.heap.data s with
    | obj ms => simp only [key ms h]; exact ⟨_, rfl, .inl rfl⟩
    | _ => exact ⟨_, rfl, .inr rfl⟩
  obtain ⟨e, h1, h2⟩ := this
  exact ⟨e, by simp only [SOp.step, h1], h2⟩

/-- C92: the keywords, the URIs and the caches are as they were. -/
theorem C92_keywords (s : Nat) : w'.keywords s = w.keywords s ∧ w'.uri s = w.uri s ∧ w'.baseUri s = w.baseUri s ∧
    w'.metaUri s = w.metaUri s ∧ w'.caches = w.caches := by
  have t := he.trimmed hw.ok
  exact ⟨t.keywords s, by simp only [World.uri, t.info], by simp only [World.baseUri, t.nearest],
    by simp only [World.metaUri, t.nearest], t.caches⟩

/-- C92: evaluation does not notice deletions, except of anchors.  `P` are the schemas that are involved;
the names of their dynamic anchors are no JSON pointers. -/
theorem C92_evaluate [Dialect] {E : CEnv} {cid : String} {P : SRef → Prop} (hI : Island P (w.store E cid))
    (hk : ∀ x, P x → ∀ kv ∈ w.keywords x, Kinded kv.1 kv.2.shape)
    (hdyn : ∀ x kws t f, P x → (w.store E cid).obj x = .obj kws → .dynamicRef t f true ∈ kws → NoPointer E f)
    {s : SRef} (hs : P s) (env : Env) (n : Nat) (i : Inst) :
    evaluate (w'.liveStore E cid) env n s i =
      evaluate (Spec.Store.withoutAnchors gone (w.store E cid)) env n s i :=
  (he.trimmed hw.ok).evaluate hw.ok hI hk hdyn hs

/-- C92: if no anchor was deleted, evaluation gives what it gave. -/
theorem C92_ignored [Dialect] {E : CEnv} {cid : String} {P : SRef → Prop} (hI : Island P (w.store E cid))
    (hk : ∀ x, P x → ∀ kv ∈ w.keywords x, Kinded kv.1 kv.2.shape)
    (hdyn : ∀ x kws t f, P x → (w.store E cid).obj x = .obj kws → .dynamicRef t f true ∈ kws → NoPointer E f)
    (ha : ∀ p ∈ gone, p.2 ∉ anchorKeys) {s : SRef} (hs : P s) (env : Env) (n : Nat) (i : Inst) :
    evaluate (w'.liveStore E cid) env n s i = evaluate (w.store E cid) env n s i := by
  rw [C92_evaluate hw he hI hk hdyn hs, withoutAnchors_none ha]

omit hw in
/-- C92: so it is for all schemas, if the metaschemas of the catalog have the keywords of one dialect. -/
theorem C92_all [Dialect] {E : CEnv} {cid : String} (hw : KHistory w)
    (hdyn : ∀ x kws t f, (w.store E cid).obj x = .obj kws → .dynamicRef t f true ∈ kws → NoPointer E f)
    (ha : ∀ p ∈ gone, p.2 ∉ anchorKeys) (s : SRef) (env : Env) (n : Nat) (i : Inst) :
    evaluate (w'.liveStore E cid) env n s i = evaluate (w.store E cid) env n s i :=
  C92_ignored hw.chistory he (P := fun _ => True)
    ⟨fun _ _ _ _ _ _ _ _ => trivial, fun _ _ _ _ _ _ _ _ _ _ _ _ _ => trivial⟩
    (fun x _ kv h => hw.kinds x kv h) (fun x kws t f _ => hdyn x kws t f) ha trivial env n i

end

/-- Evaluation sees all keywords, if `data` and `keywords` have the same keys. -/
theorem WOk.live [Dialect] {E : CEnv} {cid : String} {w : World} (ok : WOk w) :
    w.liveStore E cid = w.store E cid := by
  have : w.liveObj E = w.schemaObj E := by
    funext x
    unfold World.liveObj
    cases ho : w.schemaObj E x with
    | bool b => rfl
    | obj kws =>
      simp only [SchemaObj.obj.injEq]
      refine List.filter_eq_self.2 fun kw hkw => ?_
      cases kw with
      | static k v =>
        obtain ⟨ms, c, hd, hc⟩ := seen_all ok ho hkw
        have : (dlookup k ms).isSome = true := dlookup_isSome.2 (List.mem_map.2 ⟨_, hc, rfl⟩)
        simp [Kw.seen, hd, this]
      | _ => rfl
  unfold World.liveStore
  rw [this]
  rfl

/-- C92: without edits, what evaluation sees are the schemas that were constructed. -/
theorem C92_unedited [Dialect] {E : CEnv} {cid : String} {w : World} (hw : CHistory w) :
    w.liveStore E cid = w.store E cid := hw.ok.live

/-! ## Concrete cases -/

section
attribute [local instance] Toy.in2020

namespace Toy

/-- A catalog with the metaschema of 2020-12 only. -/
def env20 : CEnv :=
  { Toy.env with metaschema := fun u => if u.base = "m20" then .ok meta2020 else .error .catalogError }

theorem env20_ok : CEnvOk env20 where
  lib := Toy.env_ok.lib
  ids u m h := by
    simp only [env20] at h
    split at h
    · cases h; exact Toy.ids2020
    · cases h
  docs := Toy.env_ok.docs

theorem env20_kinded : KindedEnv env20 := by
  intro u m h key c hc
  simp only [env20] at h
  split at h
  · cases h
    exact dialect_kinded hc
  · cases h

def build20 (doc : Value) : Option (World × Except Exc Nat) :=
  newDocument env20 9 "" none (some ⟨"m20", none⟩) doc .empty

theorem build20_history {doc : Value} (hd : doc.WF) {w : World} {r : Except Exc Nat} (h : build20 doc = some (w, r)) :
    KHistory w :=
  .new .start env20_ok env20_kinded hd (fun u hu => by cases hu) h

/-- Objects whose members are strings, and which have a member `a`. -/
def stringsDoc : Value := .obj [("type", .str "object"), ("required", .arr [.str "a"]),
  ("additionalProperties", .obj [("type", .str "string")])]

/-- A reference to a schema with a dynamic reference, which leads to the first anchor `n`. -/
def anchorsDoc : Value := .obj [("$id", .str "h/a"), ("$ref", .str "h/b"),
  ("$defs", .obj [("x", .obj [("$dynamicAnchor", .str "n"), ("type", .str "string")]),
    ("b", .obj [("$id", .str "h/b"), ("$dynamicRef", .str "#n"),
      ("$defs", .obj [("y", .obj [("$dynamicAnchor", .str "n")])])])])]

def names (w : World) (s : Nat) : List String :=
  match val w.heap s with
  | .obj ms => ms.map Prod.fst
  | _ => []

def verdict20 (w : World) (v : Value) : Option Bool :=
  (evaluate (w.liveStore env20 "") Toy.anyEnv 20 0 ⟨[], v⟩).map RNode.valid

end Toy

/-- `del schema["required"]` succeeds and leaves no such member, but an object without `a` is still found
invalid. -/
example : ∃ w w' gone, KHistory w ∧ Edited w w' gone ∧ gone = [(0, "required")] ∧
    Toy.names w' 0 = ["type", "additionalProperties"] ∧
    Toy.verdict20 w (.obj []) = some false ∧ Toy.verdict20 w' (.obj []) = some false := by
  have h : (Toy.build20 Toy.stringsDoc).map (fun p =>
      p.1.isSchema 0 && decide (Toy.names (SOp.step p.1 0 (.delItem "required")).1 0 =
        ["type", "additionalProperties"]) &&
      decide (Toy.verdict20 p.1 (.obj []) = some false ∧
        Toy.verdict20 (SOp.step p.1 0 (.delItem "required")).1 (.obj []) = some false)) = some true := by
    decide +kernel
  obtain ⟨⟨w, r⟩, hb, h⟩ := Option.map_eq_some_iff.1 h
  simp only [Bool.and_eq_true, decide_eq_true_eq] at h
  exact ⟨w, _, _, Toy.build20_history (Toy.wf_spec _ (by decide +kernel)) hb, .delete .refl h.1.1, rfl, h.1.2, h.2⟩

/-- The hypotheses of `C92_all` can hold, and `Edited` allows for several edits. -/
example : ∃ w w' gone, KHistory w ∧ Edited w w' gone ∧ gone.length = 2 ∧
    (∀ x kws t f, (w.store Toy.env20 "").obj x = .obj kws → .dynamicRef t f true ∈ kws → NoPointer Toy.env20 f) ∧
    (∀ p ∈ gone, p.2 ∉ anchorKeys) := by
  have h : (Toy.build20 Toy.stringsDoc).map (fun p => p.1.isSchema 0 &&
      (List.range p.1.heap.next).all fun x => (p.1.keywords x).all fun kv => kv.1 ≠ "$dynamicRef") = some true := by
    decide +kernel
  obtain ⟨⟨w, r⟩, hb, h⟩ := Option.map_eq_some_iff.1 h
  simp only [Bool.and_eq_true, List.all_eq_true, List.mem_range, decide_eq_true_eq] at h
  have hw := Toy.build20_history (Toy.wf_spec _ (by decide +kernel)) hb
  have h1 : Edited w (SOp.step w 0 (.delItem "required")).1 [(0, "required")] := .delete .refl h.1
  refine ⟨w, _, _, hw, .delete (s := 0) (k := "type") h1 h.1, rfl, fun x kws t f ho hm => ?_, by decide⟩
  exfalso
  have hmem : ∃ kv ∈ w.keywords x, w.kwOf Toy.env20 kv = some (.dynamicRef t f true) := by
    simp only [World.store, World.schemaObj] at ho
    split at ho
    · cases ho
    · cases ho; exact List.mem_filterMap.1 hm
  obtain ⟨kv, hkv, e⟩ := hmem
  have hx : x < w.heap.next := by
    refine hw.chistory.ok.dom x ?_
    cases hi : w.info x with
    | none => simp [World.keywords, hi] at hkv
    | some i => simp [World.isSchema, hi]
  have hne := h.2 x hx kv hkv
  have hkey := (kwOf_fits hw.chistory.ok.ord hw.chistory.ok.keys (k := kv.1) (o := kv.2) e).1
  exact hne hkey.symm

/-- C92: the deletion of an anchor does change what is valid. -/
theorem C92_anchor_noticed : ∃ w w' s, KHistory w ∧ Edited w w' [(s, "$dynamicAnchor")] ∧
    Toy.verdict20 w .null = some false ∧ Toy.verdict20 w' .null = some true := by
  have h : (Toy.build20 Toy.anchorsDoc).map (fun p => p.1.isSchema 4 &&
      decide (Toy.verdict20 p.1 .null = some false ∧
        Toy.verdict20 (SOp.step p.1 4 (.delItem "$dynamicAnchor")).1 .null = some true)) = some true := by
    decide +kernel
  obtain ⟨⟨w, r⟩, hb, h⟩ := Option.map_eq_some_iff.1 h
  simp only [Bool.and_eq_true, decide_eq_true_eq] at h
  exact ⟨w, _, 4, Toy.build20_history (Toy.wf_spec _ (by decide +kernel)) hb, .delete .refl h.1, h.2⟩

end

end Jschon
