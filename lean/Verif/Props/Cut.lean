import Verif.Proof.Put
import Verif.Props.SchemaEdit

/-!
# C97: a subschema that is deleted

`del schema['properties']['a']` and `del schema['allOf'][0]` delete a subschema of a keyword.  Unlike `del
schema['properties']`, such an edit is noticed: evaluation goes on as if the keyword did not have that subschema.
Additions (C98) and deletions may have come before (`PutHistory`).
-/

namespace Jschon
open Spec

section
variable [dia : Dialect] {E : CEnv} {cid : String} {w w' : World} (hw : PutHistory w)
  {cuts : List (Nat × String × Cut)} (hp : Pruned w w' cuts)
include hw hp

/-- C97: a schema is evaluated as if its keywords, and those of the schemas that it leads to, did not have the
subschemas that were deleted.  This is said of references that are not looked up by a JSON pointer, when
evaluated. -/
theorem C97_evaluate
    (hdyn : ∀ x kws u f, (w.store E cid).obj x = .obj kws → .dynamicRef u f true ∈ kws → NoPointer E f)
    (env : Env) (n : Nat) (s : SRef) (i : Inst) :
    evaluate (w'.liveStore E cid) env n s i = evaluate (Store.cuts (w.store E cid) cuts) env n s i :=
  (hp.ok hw.orderly).evaluate hw.orderly hdyn

/-- C97: the schemas remain, also the ones that were deleted, with their keywords and URIs; and so do the caches,
by which those are still found. -/
theorem C97_schemas : w'.info = w.info ∧ w'.caches = w.caches ∧
    (∀ s, w.isSchema s = true → w'.heap.data s = w.heap.data s) := by
  have t := hp.ok (E := Toy.env20) (cid := "") hw.orderly
  exact ⟨t.info, t.caches, t.sdata⟩

/-- C97: what a deletion leaves of the array or object, and that it changes nothing else. -/
theorem C97_value {s : Nat} {key : String} {o : KwObj} (hm : (key, o) ∈ w'.keywords s) (c : Cut) :
    (∀ cs, w'.heap.data o.json = .arr cs →
      val (w'.editJson (c.op o.json)).heap o.json = .arr ((c.items cs).map (val w'.heap))) ∧
    (∀ ms, w'.heap.data o.json = .obj ms →
      val (w'.editJson (c.op o.json)).heap o.json = .obj ((c.members ms).map fun m => (m.1, val w'.heap m.2))) ∧
    (∀ x, x ≠ o.json → (w'.editJson (c.op o.json)).heap.data x = w'.heap.data x) := by
  have t := hp.ok (E := Toy.env20) (cid := "") hw.orderly
  rw [t.keywords] at hm
  obtain ⟨hs, ms, hd, hc⟩ := keywords_member hw.orderly.ok hm
  have hr : o.json < w'.heap.next := by
    rw [t.next]
    exact (hw.orderly.ok.ord.kid s o.json (by rw [hd]; exact List.mem_map_of_mem (f := Prod.snd) hc)).2.1
  obtain ⟨h1, -, -, h4⟩ := cut_step t.inv hr c
  have hv : ∀ x ∈ (c.data (w'.heap.data o.json)).kids,
      val ((c.op o.json).step w'.heap) x = val w'.heap x := fun x hx => by
    refine val_setData t.inv.ord h1.ord (m := o.json) (fun y hy => by rw [h4, if_neg hy]) fun hd => ?_
    have := desc_le t.inv.ord hd
    have := (t.inv.ord.kid _ _ (c.data_kids _ x hx)).1
    omega
  have hval : val ((c.op o.json).step w'.heap) o.json = dataVal (val w'.heap) (c.data (w'.heap.data o.json)) := by
    rw [val_eq h1.ord, h4, if_pos rfl]
    exact dataVal_congr hv
  refine ⟨fun cs hcs => ?_, fun ms hms => ?_, fun x hx => ?_⟩
  · show val ((c.op o.json).step w'.heap) o.json = _
    rw [hval, hcs]; rfl
  · show val ((c.op o.json).step w'.heap) o.json = _
    rw [hval, hms]; rfl
  · show ((c.op o.json).step w'.heap).data x = _
    rw [h4, if_neg hx]

end

section
attribute [local instance] Toy.in2020

namespace Toy

/-- The members `a` and `b` are forbidden, and `c` is required. -/
def cutDoc : Value := .obj [("properties", .obj [("a", .bool false), ("b", .bool false)]),
  ("allOf", .arr [.obj [("required", .arr [.str "c"])], .bool true])]

instance : DecidablePred Holds := fun s => by unfold Holds; infer_instance

/-- The keyword of the root, if it has an array or object of subschemas. -/
def held (w : World) (key : String) : Option KwObj :=
  ((w.keywords 0).find? fun kv => kv.1 = key && decide (Holds kv.2.shape) && !w.isSchema kv.2.json).map Prod.snd

theorem held_spec {w : World} {key : String} {o : KwObj} (h : held w key = some o) :
    (key, o) ∈ w.keywords 0 ∧ Holds o.shape ∧ w.isSchema o.json = false := by
  obtain ⟨⟨k, o'⟩, h1, rfl⟩ := Option.map_eq_some_iff.1 h
  have h2 := List.find?_some h1
  simp only [Bool.and_eq_true, decide_eq_true_eq, Bool.not_eq_true'] at h2
  obtain ⟨⟨rfl, h3⟩, h4⟩ := h2
  exact ⟨List.mem_of_find?_eq_some h1, h3, h4⟩

/-- `del schema['properties']['a']`, then `del schema['allOf'][-2]` -/
def cutTwice (w : World) : Option (World × World) :=
  match held w "properties", held w "allOf" with
  | some o, some o' =>
    let w1 := w.editJson (Cut.op o.json (.name "a"))
    some (w1, w1.editJson (Cut.op o'.json (.index (-2))))
  | _, _ => none

theorem cutTwice_spec {w w1 w2 : World} (h : cutTwice w = some (w1, w2)) :
    Pruned w w1 [(0, "properties", .name "a")] ∧
    Pruned w w2 [(0, "allOf", .index (-2)), (0, "properties", .name "a")] := by
  unfold cutTwice at h
  split at h
  · rename_i o o' h1 h2
    cases h
    obtain ⟨a1, a2, a3⟩ := held_spec h1
    obtain ⟨b1, b2, b3⟩ := held_spec h2
    have hp : Pruned w (w.editJson (Cut.op o.json (.name "a"))) _ := Pruned.cut (.name "a") .refl a1 a2 a3
    exact ⟨hp, hp.cut (o := o') (.index (-2)) b1 b2 b3⟩
  · cases h

theorem no_dynamic {w : World} (hw : KHistory w)
    (h : ∀ x < w.heap.next, ∀ kv ∈ w.keywords x, kv.1 ≠ "$dynamicRef") :
    ∀ x kws t f, (w.store env20 "").obj x = .obj kws → .dynamicRef t f true ∈ kws → NoPointer env20 f := by
  intro x kws t f ho hm
  exfalso
  have hmem : ∃ kv ∈ w.keywords x, w.kwOf env20 kv = some (.dynamicRef t f true) := by
    simp only [World.store, World.schemaObj] at ho
    split at ho
    · cases ho
    · cases ho; exact List.mem_filterMap.1 hm
  obtain ⟨kv, hkv, e⟩ := hmem
  have hx : x < w.heap.next := by
    refine hw.chistory.ok.dom x ?_
    cases hi : w.info x with
    | none => simp [World.keywords, hi] at hkv
    | some i => simp [World.isSchema, hi]
  have hkey := (kwOf_fits hw.chistory.ok.ord hw.chistory.ok.keys (k := kv.1) (o := kv.2) e).1
  exact h x hx kv hkv hkey.symm

end Toy

/-- C97: deletions are noticed.  After `del schema['properties']['a']` the member `a` is allowed, and after `del
schema['allOf'][-2]` the member `c` is not required any more, while `b` is still forbidden.  The hypotheses of
`C97_evaluate` hold. -/
theorem C97_noticed : ∃ w w1 w2, KHistory w ∧ Pruned w w1 [(0, "properties", .name "a")] ∧
    Pruned w w2 [(0, "allOf", .index (-2)), (0, "properties", .name "a")] ∧
    (∀ x kws u f, (w.store Toy.env20 "").obj x = .obj kws → .dynamicRef u f true ∈ kws → NoPointer Toy.env20 f) ∧
    (Toy.verdict20 w (.obj [("a", .null), ("c", .null)]) = some false ∧
      Toy.verdict20 w1 (.obj [("a", .null), ("c", .null)]) = some true) ∧
    (Toy.verdict20 w1 (.obj [("a", .null)]) = some false ∧ Toy.verdict20 w2 (.obj [("a", .null)]) = some true) ∧
    Toy.verdict20 w2 (.obj [("b", .null)]) = some false := by
  have h : (Toy.build20 Toy.cutDoc).map (fun p =>
      ((Toy.cutTwice p.1).map fun ws => decide (
        (Toy.verdict20 p.1 (.obj [("a", .null), ("c", .null)]) = some false ∧
          Toy.verdict20 ws.1 (.obj [("a", .null), ("c", .null)]) = some true) ∧
        (Toy.verdict20 ws.1 (.obj [("a", .null)]) = some false ∧
          Toy.verdict20 ws.2 (.obj [("a", .null)]) = some true) ∧
        Toy.verdict20 ws.2 (.obj [("b", .null)]) = some false)) = some true &&
      (List.range p.1.heap.next).all fun x => (p.1.keywords x).all fun kv => kv.1 ≠ "$dynamicRef") = some true := by
    decide +kernel
  obtain ⟨⟨w, r⟩, hb, h⟩ := Option.map_eq_some_iff.1 h
  simp only [Bool.and_eq_true, List.all_eq_true, List.mem_range, decide_eq_true_eq] at h
  obtain ⟨⟨w1, w2⟩, hc, h1⟩ := Option.map_eq_some_iff.1 h.1
  have hw := Toy.build20_history (Toy.wf_spec _ (by decide +kernel)) hb
  obtain ⟨p1, p2⟩ := Toy.cutTwice_spec hc
  exact ⟨w, w1, w2, hw, p1, p2, Toy.no_dynamic hw h.2, of_decide_eq_true h1⟩

/-- The hypotheses of `C97_value` and `C97_schemas` can hold for an array and for an object. -/
example : ∃ w w' key o cs, KHistory w ∧ Pruned w w' [(0, "properties", .name "a")] ∧ (key, o) ∈ w'.keywords 0 ∧
    w'.heap.data o.json = .arr cs ∧ ((Cut.index (-2)).items cs).length = 1 ∧ cs.length = 2 := by
  have h : (Toy.build20 Toy.cutDoc).map (fun p => (Toy.cutTwice p.1).map fun ws =>
      (Toy.held ws.1 "allOf").map fun o => match ws.1.heap.data o.json with
        | .arr cs => ((Cut.index (-2)).items cs).length == 1 && cs.length == 2
        | _ => false) = some (some (some true)) := by
    decide +kernel
  obtain ⟨⟨w, r⟩, hb, h⟩ := Option.map_eq_some_iff.1 h
  obtain ⟨⟨w1, w2⟩, hc, h⟩ := Option.map_eq_some_iff.1 h
  obtain ⟨o, ho, h⟩ := Option.map_eq_some_iff.1 h
  have hw := Toy.build20_history (Toy.wf_spec _ (by decide +kernel)) hb
  simp only at h
  split at h
  · rename_i cs hd
    simp only [Bool.and_eq_true, beq_iff_eq] at h
    exact ⟨w, w1, "allOf", o, cs, hw, (Toy.cutTwice_spec hc).1, (Toy.held_spec ho).1, hd, h⟩
  · cases h

end

end Jschon
