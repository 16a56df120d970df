import Verif.Proof.Undo
import Verif.Props.Put

/-!
# C101: a subschema that is added and deleted again

After an addition (C98) and the deletion of what was added (C97) all is as before, but for the schemas that were
constructed, which no other schema leads to, and their names.
-/

namespace Jschon
open Spec

section
variable [dia : Dialect] {E : CEnv} {w w2 : World} (hw : PutHistory w) (hE : CEnvOk E) (hk : KindedEnv E)
  {v : Value} (hv : v.WF) {s : Nat} {key : String} {o : KwObj} (hm : (key, o) ∈ w.keywords s)
  (hh : Holds o.shape) (hs : w.isSchema o.json = false) {a : SubPut} {c : Nat}
  (h : putSubschema E o.json a v w = some (w2, .ok c)) {d : Cut} (hd : Undoes (w.heap.data o.json) a d)
include hw hE hk hv hm hh hs h hd

/-- C101: all that was there is as it was before the addition: data, schemas and what is where. -/
theorem C101_restored :
    (∀ x, x < w.heap.next → (w2.editJson (d.op o.json)).heap.data x = w.heap.data x ∧
      (w2.editJson (d.op o.json)).heap.parent x = w.heap.parent x ∧
      (w2.editJson (d.op o.json)).info x = w.info x) ∧
    (∀ p k x, Child w.heap p k x → (w2.editJson (d.op o.json)).heap.key x = some k) ∧
    ∀ x, x < w.heap.next → val (w2.editJson (d.op o.json)).heap x = val w.heap x := by
  obtain ⟨w1, p, -, -, h3, hi, hc, hdata, hpar, hn⟩ := undo_spec hw hE hk hv hm hh hs h hd
  have hold : ∀ x, x < w.heap.next → (w2.editJson (d.op o.json)).heap.data x = w.heap.data x := fun x hx =>
    (hdata x).trans (p.grow.ext.data hx)
  refine ⟨fun x hx => ⟨hold x hx, (hpar x).trans (p.grow.ext.parent hx), ?_⟩, fun q k x hx => ?_, fun x hx => ?_⟩
  · rw [hi]; exact p.grow.info x hx id
  · have hq : q < w.heap.next := by
      have h1 := hw.spec.1.ord.kid q x (childD_kid hx)
      omega
    refine h3.spec.1.keys.key q k x ?_
    unfold Child at hx ⊢
    rw [hold q hq]; exact hx
  · have : val (w2.editJson (d.op o.json)).heap x = val w1.heap x := by
      unfold val
      rw [hn]
      exact content_data hdata _ x
    rw [this]
    exact p.grow.grown.val hw.spec.1 p.ok hx

/-- C101: a schema is evaluated as if the new one had only been constructed. -/
theorem C101_constructed : ∃ w1,
    newSchema E (w.cacheid s) none none (some o.json) (some (a.key w o.json)) v w = some (w1, .ok c) ∧
    ∀ cid, (∀ x kws u f, (w1.store E cid).obj x = .obj kws → .dynamicRef u f true ∈ kws → NoPointer E f) →
      ∀ env n x i, evaluate ((w2.editJson (d.op o.json)).liveStore E cid) env n x i =
        evaluate (w1.store E cid) env n x i := by
  obtain ⟨w1, p, h1, -, h3, hi, hc, hdata, hpar, hn⟩ := undo_spec hw hE hk hv hm hh hs h hd
  refine ⟨w1, h1, fun cid hdyn env n x i => ?_⟩
  rw [(PrunedOk.start h3.orderly).live h3.orderly]
  refine evaluate_island (P := fun _ => True) ⟨fun _ _ _ _ _ _ _ _ => trivial, fun _ _ _ _ _ _ _ _ _ _ _ _ _ => trivial⟩
    ⟨fun x _ => schemaObj_data hi hdata hn x, fun x kws u f _ ho hmem y _ => ⟨?_, fun b _ => ?_⟩⟩ trivial
  · show ((w2.editJson (d.op o.json)).baseUri y).map Uri.str = (w1.baseUri y).map Uri.str
    simp only [World.baseUri]
    rw [nearest_parent hi hpar]
  · exact lookup_same hi hc (hdyn x kws u f ho hmem)

/-- C101: a schema that leads to no dynamic reference is evaluated as before the addition. -/
theorem C101_evaluate {x : Nat} (hx : w.isSchema x = true) {cid : String} (hst : Static (w.store E cid) x)
    (cid' : String) (env : Env) (n : Nat) (i : Inst) :
    evaluate ((w2.editJson (d.op o.json)).liveStore E cid') env n x i = evaluate (w.liveStore E cid) env n x i := by
  obtain ⟨w1, p, h1, -, h3, hi, hc, hdata, hpar, hn⟩ := undo_spec hw hE hk hv hm hh hs h hd
  have ok := hw.spec.1
  have hlt := ok.dom x hx
  rw [(PrunedOk.start h3.orderly).live h3.orderly, (PrunedOk.start hw.orderly).live hw.orderly]
  refine evaluate_island (P := Uses (w.store E cid) x) ⟨fun x kws kw t hx ho hk ht => .step hx ho hk ht, ?_⟩
    ⟨fun x hx => ?_, ?_⟩ .refl
  · exact fun x kws t f hx ho hk => absurd hk (hst x kws t f hx ho)
  · exact (schemaObj_data hi hdata hn x).trans
      (schemaObj_later ok p.ok p.grow.grown (fun x hx => p.grow.info x hx id) (uses_old ok hlt hx))
  · exact fun x kws t f hx ho hk => absurd hk (hst x kws t f hx ho)

end

section
attribute [local instance] Toy.in2020

namespace Toy

theorem static_of {w : World} (hw : KHistory w)
    (h : ∀ x < w.heap.next, ∀ kv ∈ w.keywords x, kv.1 ≠ "$dynamicRef") (s : Nat) : Static (w.store env20 "") s := by
  intro x kws t f _ ho hm
  have hmem : ∃ kv ∈ w.keywords x, w.kwOf env20 kv = some (.dynamicRef t f true) := by
    simp only [World.store, World.schemaObj] at ho
    split at ho
    · cases ho
    · cases ho; exact List.mem_filterMap.1 hm
  obtain ⟨kv, h1, h2⟩ := hmem
  have hk := (kwOf_fits hw.chistory.ok.ord hw.chistory.ok.keys h2).1
  obtain ⟨hs, -⟩ := keywords_member hw.chistory.ok h1
  exact h x (hw.chistory.ok.dom x hs) kv h1 hk.symm

end Toy

/-- C101: a concrete case.  After `schema['allOf'].append({'required': ['d']})` the member `d` is required, and after
`del schema['allOf'][2]` it is not; the hypotheses of the theorems above hold. -/
theorem C101_noticed : ∃ w w2 o c, KHistory w ∧
    (("allOf", o) ∈ w.keywords 0 ∧ Holds o.shape ∧ w.isSchema o.json = false) ∧
    putSubschema Toy.env20 o.json .item (.obj [("required", .arr [.str "d"])]) w = some (w2, .ok c) ∧
    Undoes (w.heap.data o.json) .item (.index 2) ∧ w.isSchema 0 = true ∧ Static (w.store Toy.env20 "") 0 ∧
    Toy.verdict20 w (.obj [("c", .null)]) = some true ∧ Toy.verdict20 w2 (.obj [("c", .null)]) = some false ∧
    Toy.verdict20 (w2.editJson ((Cut.index 2).op o.json)) (.obj [("c", .null)]) = some true := by
  have h : (Toy.build20 Toy.cutDoc).bind (fun p =>
      (Toy.putAllOf .item (.obj [("required", .arr [.str "d"])]) p.1).bind fun w2 => (Toy.held p.1 "allOf").map fun o =>
        ((match p.1.heap.data o.json with | .arr cs => cs.length == 2 | _ => false) && p.1.isSchema 0 &&
          (List.range p.1.heap.next).all fun x => (p.1.keywords x).all fun kv => kv.1 ≠ "$dynamicRef") &&
        decide (Toy.verdict20 p.1 (.obj [("c", .null)]) = some true ∧
          Toy.verdict20 w2 (.obj [("c", .null)]) = some false ∧
          Toy.verdict20 (w2.editJson ((Cut.index 2).op o.json)) (.obj [("c", .null)]) = some true)) = some true := by
    decide +kernel
  obtain ⟨⟨w, r⟩, hb, h⟩ := Option.bind_eq_some_iff.1 h
  obtain ⟨w2, h1, h⟩ := Option.bind_eq_some_iff.1 h
  obtain ⟨o', h2, h⟩ := Option.map_eq_some_iff.1 h
  simp only [Bool.and_eq_true, List.all_eq_true, List.mem_range, decide_eq_true_eq] at h
  obtain ⟨⟨⟨h3, h4⟩, h5⟩, h6⟩ := h
  have hw := Toy.build20_history (Toy.wf_spec _ (by decide +kernel)) hb
  obtain ⟨o, c, a, b⟩ := Toy.putAllOf_spec h1
  cases keywords_unique hw.chistory.ok a.1 (Toy.held_spec h2).1 (.inl rfl)
  refine ⟨w, w2, _, c, hw, a, b, ?_, h4, Toy.static_of hw h5 0, h6⟩
  split at h3
  · rename_i cs hcs
    exact ⟨cs, hcs, by rw [beq_iff_eq.1 h3]; rfl⟩
  · cases h3

end

end Jschon
