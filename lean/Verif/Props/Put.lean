import Verif.Proof.Put
import Verif.Props.Cut

/-!
# C98: a subschema that is added

`schema['allOf'].append(v)`, `schema['allOf'][i] = v`, `schema['allOf'].insert(i, v)` and
`schema['properties'][k] = v` add a subschema to a keyword, or replace one.  It is constructed, and evaluation goes on as if the keyword had had it; but its references are never resolved.  In the
model a keyword whose reference is not resolved has no effect, whereas the code raises `AttributeError`, so that
`C98_evaluate` says nothing about evaluations of the code that meet one.
-/

namespace Jschon
open Spec

section
variable [dia : Dialect] {E : CEnv} {w w2 : World} (hw : PutHistory w) (hE : CEnvOk E) (hk : KindedEnv E)
  {v : Value} (hv : v.WF) {s : Nat} {key : String} {o : KwObj} (hm : (key, o) ∈ w.keywords s)
  (hs : w.isSchema o.json = false) {a : SubPut}
include hw hE hk hv hm hs

/-- C98: the new subschema is constructed as a child of the array or object.  With it, a schema is evaluated as if
the keyword had it too, and otherwise as before the addition.  This is said of references that are not looked up by
a JSON pointer, when evaluated. -/
theorem C98_evaluate (hh : Holds o.shape) {c : Nat} (h : putSubschema E o.json a v w = some (w2, .ok c)) :
    ∃ w1, newSchema E (w.cacheid s) none none (some o.json) (some (a.key w o.json)) v w = some (w1, .ok c) ∧
      c = w.heap.next ∧
      (∀ cid x, x < w.heap.next → (w1.store E cid).obj x = (w.store E cid).obj x) ∧
      ∀ cid, (∀ x kws u f, (w1.store E cid).obj x = .obj kws → .dynamicRef u f true ∈ kws → NoPointer E f) →
        ∀ env n x i, evaluate (w2.liveStore E cid) env n x i =
          evaluate (Store.plus (w1.store E cid) s key a c) env n x i := by
  obtain ⟨w1, h1, p, k1, -, hc⟩ := put_spec hw.spec.1 hw.spec.2 hE hk hv hm hs h
  obtain ⟨⟨h2, rfl⟩, e, -⟩ := hc c rfl
  obtain ⟨hm1, hs1⟩ := put_keyword hw.spec.1 hm hs p
  refine ⟨w1, h1, (p.ret c rfl).1, fun cid x hx => ?_, fun cid hdyn env n x i => ?_⟩
  · exact schemaObj_later hw.spec.1 p.ok p.grow.grown (fun x hx => p.grow.info x hx id) hx
  · exact put_evaluate p.ok k1 hm1 hh hs1 e hdyn

/-- C98: the value of the array or object gets the new one, up to the order of members in objects, at the end of the
array, in the place of that item, before it or as the member of that name; all other nodes and the schemas that were there are as before. -/
theorem C98_value (hh : Holds o.shape) {c : Nat} (h : putSubschema E o.json a v w = some (w2, .ok c)) :
    (∀ cs, w.heap.data o.json = .arr cs → ∃ u, Rearranged u v ∧
      ((a = .item ∧ val w2.heap o.json = .arr (cs.map (val w.heap) ++ [u])) ∨
        (∃ i, a = .index i ∧ i < cs.length ∧ val w2.heap o.json =
          .arr ((cs.take i).map (val w.heap) ++ u :: (cs.drop (i + 1)).map (val w.heap))) ∨
        ∃ i, a = .insert i ∧ i ≤ cs.length ∧ val w2.heap o.json =
          .arr ((cs.take i).map (val w.heap) ++ u :: (cs.drop i).map (val w.heap)))) ∧
    (∀ ms, w.heap.data o.json = .obj ms → ∃ k u, a = .member k ∧ Rearranged u v ∧
      val w2.heap o.json = .obj (if k ∈ ms.map Prod.fst
        then ms.map fun m => if m.1 = k then (k, u) else (m.1, val w.heap m.2)
        else ms.map (fun m => (m.1, val w.heap m.2)) ++ [(k, u)])) ∧
    (∀ x, x < w.heap.next → x ≠ o.json → w2.heap.data x = w.heap.data x) ∧
    (∀ x, x < w.heap.next → w2.info x = w.info x) := by
  have ok := hw.spec.1
  obtain ⟨w1, h1, p, k1, -, hc⟩ := put_spec ok hw.spec.2 hE hk hv hm hs h
  obtain ⟨⟨h2, rfl⟩, e, hck⟩ := hc c rfl
  obtain ⟨rfl, hr⟩ := p.ret c rfl
  obtain ⟨hm1, hs1⟩ := put_keyword ok hm hs p
  have hj := (keywords_kid ok hm).2
  have hd1 : w1.heap.data o.json = w.heap.data o.json := p.grow.ext.data hj
  have ok2 := put_ok p.ok hm1 hh hs1 p.isSchema e hck
  have hv1 : ∀ x, o.json < x → x < w1.heap.next → val h2 x = val w1.heap x := fun x hx _ =>
    val_setData p.ok.ord ok2.ord (m := o.json) (fun y hy => by rw [e.data, if_neg hy]) fun hd => by
      have := desc_le p.ok.ord hd
      omega
  have hold : ∀ x ∈ (w.heap.data o.json).kids, val h2 x = val w.heap x := fun x hx => by
    have h3 := ok.ord.kid _ _ hx
    rw [hv1 x h3.1 (Nat.lt_trans h3.2.1 p.lt)]
    exact p.grow.grown.val ok p.ok h3.2.1
  have hnew : val h2 w.heap.next = val w1.heap w.heap.next := hv1 _ hj p.lt
  have hval : val h2 o.json = dataVal (val h2) (plusData a w.heap.next (w.heap.data o.json)) := by
    rw [val_eq ok2.ord, e.data, if_pos rfl, hd1]
  refine ⟨fun cs hcs => ?_, fun ms hms => ?_, fun x hx hne => ?_, fun x hx => p.grow.info x hx id⟩
  · refine ⟨_, hr, ?_⟩
    rw [hcs] at hold
    have hold : ∀ l : List Nat, (∀ x ∈ l, x ∈ cs) → l.map (val h2) = l.map (val w.heap) := fun l hl =>
      List.map_congr_left fun x hx => hold x (hl x hx)
    cases a with
    | item =>
      refine .inl ⟨rfl, ?_⟩
      show val h2 o.json = _
      rw [hval, hcs]
      simp only [plusData, plusItem, dataVal, List.map_append, List.map_cons, List.map_nil, hnew]
      rw [hold cs fun x hx => hx]
    | index i =>
      have hi : i < cs.length := by
        simp only [putSubschema, hcs] at h
        split at h
        · assumption
        · cases h
      refine .inr (.inl ⟨i, rfl, hi, ?_⟩)
      show val h2 o.json = _
      rw [hval, hcs]
      simp only [plusData, plusItem, dataVal, List.map_append, List.map_cons, hnew]
      rw [hold _ fun x hx => List.mem_of_mem_take hx, hold _ fun x hx => List.mem_of_mem_drop hx]
    | insert i =>
      have hi : i ≤ cs.length := by
        simp only [putSubschema, hcs] at h
        split at h
        · assumption
        · cases h
      refine .inr (.inr ⟨i, rfl, hi, ?_⟩)
      show val h2 o.json = _
      rw [hval, hcs]
      simp only [plusData, plusItem, dataVal, List.map_append, List.map_cons, hnew]
      rw [hold _ fun x hx => List.mem_of_mem_take hx, hold _ fun x hx => List.mem_of_mem_drop hx]
    | member k => simp [putSubschema, hcs] at h
  · cases a with
    | item => simp [putSubschema, hms] at h
    | index i => simp [putSubschema, hms] at h
    | insert i => simp [putSubschema, hms] at h
    | member k =>
      refine ⟨k, _, rfl, hr, ?_⟩
      show val h2 o.json = _
      rw [hval, hms]
      rw [hms] at hold
      have hold : ∀ m ∈ ms, val h2 m.2 = val w.heap m.2 := fun m hm =>
        hold m.2 (List.mem_map_of_mem (f := Prod.snd) hm)
      simp only [plusData, plusMember, dataVal, Value.obj.injEq]
      split
      · rw [List.map_map]
        refine List.map_congr_left fun m hm => ?_
        simp only [Function.comp]
        split
        · rw [hnew]
        · rw [hold m hm]
      · rw [List.map_append, List.map_cons, List.map_nil, hnew]
        exact congrArg (· ++ _) (List.map_congr_left fun m hm => by rw [hold m hm])
  · rw [e.data, if_neg hne]
    exact p.grow.ext.data hx

/-- C98: afterwards every node has the key, or the index, that it has in its parent: those after one that is inserted
get theirs anew. -/
theorem C98_keys (hh : Holds o.shape) {r : Except Exc Nat} (h : putSubschema E o.json a v w = some (w2, r)) :
    ∀ p k x, Child w2.heap p k x → w2.heap.key x = some k ∧ w2.heap.parent x = some p := by
  have ok := (PutHistory.put hw hE hk hv hm hh hs h).spec.1
  exact fun p k x hx => ⟨ok.keys.key p k x hx, (ok.ord.kid p x (childD_kid hx)).2.2⟩

/-- C98: when the construction raises, the array or object is not changed, and neither are the others that were
there. -/
theorem C98_refused {x : Exc} (h : putSubschema E o.json a v w = some (w2, .error x)) :
    newSchema E (w.cacheid s) none none (some o.json) (some (a.key w o.json)) v w = some (w2, .error x) ∧
    ∀ y, y < w.heap.next → w2.heap.node y = w.heap.node y ∧ w2.info y = w.info y := by
  obtain ⟨w1, h1, p, -, he, -⟩ := put_spec hw.spec.1 hw.spec.2 hE hk hv hm hs h
  obtain rfl := he x rfl
  exact ⟨h1, fun y hy => ⟨p.grow.node y hy id, p.grow.info y hy id⟩⟩

/-- C98: the references in the new subschema are not resolved; an evaluation that meets one raises
`AttributeError`. -/
theorem C98_unresolved {r : Except Exc Nat} (h : putSubschema E o.json a v w = some (w2, r)) (x : Nat)
    (hx : w.heap.next ≤ x) : ∀ kv ∈ w2.keywords x, kv.2.refschema = none := by
  obtain ⟨w1, h1, p, -, he, hc⟩ := put_spec hw.spec.1 hw.spec.2 hE hk hv hm hs h
  have h0 : Unresolved w.heap.next w := fun y kv hy hkv => by
    exfalso
    have := hw.spec.1.dom y (keywords_member hw.spec.1 hkv).1
    omega
  have hu := (newSchema_un _ _ _ _ _ v _ _ _ h0 h1).1
  cases r with
  | error e => rw [he e rfl]; exact fun kv => hu x kv hx
  | ok c =>
    obtain ⟨⟨h2, rfl⟩, -⟩ := hc c rfl
    exact fun kv => hu x kv hx

end

section
attribute [local instance] Toy.in2020

namespace Toy

/-- `schema['allOf'].append({'required': ['d']})`, then `schema['properties']['a'] = True` -/
def putTwice (w : World) : Option (World × World) :=
  match held w "allOf" with
  | some o =>
    match putSubschema env20 o.json .item (.obj [("required", .arr [.str "d"])]) w with
    | some (w1, .ok _) =>
      match held w1 "properties" with
      | some o' =>
        match putSubschema env20 o'.json (.member "a") (.bool true) w1 with
        | some (w2, .ok _) => some (w1, w2)
        | _ => none
      | none => none
    | _ => none
  | none => none

theorem putTwice_spec {w w1 w2 : World} (h : putTwice w = some (w1, w2)) :
    (∃ o c, (("allOf", o) ∈ w.keywords 0 ∧ Holds o.shape ∧ w.isSchema o.json = false) ∧
      putSubschema env20 o.json .item (.obj [("required", .arr [.str "d"])]) w = some (w1, .ok c)) ∧
    ∃ o c, (("properties", o) ∈ w1.keywords 0 ∧ Holds o.shape ∧ w1.isSchema o.json = false) ∧
      putSubschema env20 o.json (.member "a") (.bool true) w1 = some (w2, .ok c) := by
  unfold putTwice at h
  split at h
  · rename_i o ho
    split at h
    · rename_i w1' c hc
      split at h
      · rename_i o' ho'
        split at h
        · rename_i c' hc'
          cases h
          exact ⟨⟨o, c, held_spec ho, hc⟩, o', c', held_spec ho', hc'⟩
        · cases h
      · cases h
    · cases h
  · cases h

end Toy

/-- C98: additions are noticed.  After `schema['allOf'].append({'required': ['d']})` the member `d` is required, and
after `schema['properties']['a'] = True` the member `a` is allowed, which was not. -/
theorem C98_noticed : ∃ w w1 w2 o c o' c', KHistory w ∧ PutHistory w1 ∧ PutHistory w2 ∧
    (("allOf", o) ∈ w.keywords 0 ∧ Holds o.shape ∧ w.isSchema o.json = false) ∧
    putSubschema Toy.env20 o.json .item (.obj [("required", .arr [.str "d"])]) w = some (w1, .ok c) ∧
    (("properties", o') ∈ w1.keywords 0 ∧ Holds o'.shape ∧ w1.isSchema o'.json = false) ∧
    putSubschema Toy.env20 o'.json (.member "a") (.bool true) w1 = some (w2, .ok c') ∧
    (Toy.verdict20 w (.obj [("c", .null)]) = some true ∧ Toy.verdict20 w1 (.obj [("c", .null)]) = some false) ∧
    (Toy.verdict20 w1 (.obj [("a", .null), ("c", .null), ("d", .null)]) = some false ∧
      Toy.verdict20 w2 (.obj [("a", .null), ("c", .null), ("d", .null)]) = some true) := by
  have h : (Toy.build20 Toy.cutDoc).map (fun p =>
      (Toy.putTwice p.1).map fun ws => decide (
        (Toy.verdict20 p.1 (.obj [("c", .null)]) = some true ∧
          Toy.verdict20 ws.1 (.obj [("c", .null)]) = some false) ∧
        (Toy.verdict20 ws.1 (.obj [("a", .null), ("c", .null), ("d", .null)]) = some false ∧
          Toy.verdict20 ws.2 (.obj [("a", .null), ("c", .null), ("d", .null)]) = some true))) =
      some (some true) := by
    decide +kernel
  obtain ⟨⟨w, r⟩, hb, h⟩ := Option.map_eq_some_iff.1 h
  obtain ⟨⟨w1, w2⟩, hc, h1⟩ := Option.map_eq_some_iff.1 h
  have hw := Toy.build20_history (Toy.wf_spec _ (by decide +kernel)) hb
  obtain ⟨⟨o, c, a1, a2⟩, o', c', b1, b2⟩ := Toy.putTwice_spec hc
  have p1 : PutHistory w1 := .put hw.put Toy.env20_ok Toy.env20_kinded (Toy.wf_spec _ (by decide +kernel))
    a1.1 a1.2.1 a1.2.2 a2
  have p2 : PutHistory w2 := .put p1 Toy.env20_ok Toy.env20_kinded (Toy.wf_spec _ (by decide +kernel))
    b1.1 b1.2.1 b1.2.2 b2
  exact ⟨w, w1, w2, o, c, o', c', hw, p1, p2, a1, a2, b1, b2, of_decide_eq_true h1⟩

/-- `schema['allOf'][0] = v`, or the other forms of the operation on that array -/
def Toy.putAllOf (a : SubPut) (v : Value) (w : World) : Option World :=
  match Toy.held w "allOf" with
  | some o =>
    match putSubschema Toy.env20 o.json a v w with
    | some (w1, .ok _) => some w1
    | _ => none
  | none => none

theorem Toy.putAllOf_spec {a : SubPut} {v : Value} {w w1 : World} (h : Toy.putAllOf a v w = some w1) : ∃ o c,
    (("allOf", o) ∈ w.keywords 0 ∧ Holds o.shape ∧ w.isSchema o.json = false) ∧
    putSubschema Toy.env20 o.json a v w = some (w1, .ok c) := by
  unfold Toy.putAllOf at h
  split at h
  · rename_i o ho
    split at h
    · rename_i w1' c hp
      cases h
      exact ⟨o, c, Toy.held_spec ho, hp⟩
    · cases h
  · cases h

/-- C98: an item that is replaced, and one that is inserted, are noticed.  After `schema['allOf'][0] = True` the
member `c` is no longer required; after `schema['allOf'].insert(0, {'required': ['d']})` the member `d` is too. -/
theorem C98_noticed_at : ∃ w w1 w2 o c c', KHistory w ∧ PutHistory w1 ∧ PutHistory w2 ∧
    (("allOf", o) ∈ w.keywords 0 ∧ Holds o.shape ∧ w.isSchema o.json = false) ∧
    putSubschema Toy.env20 o.json (.index 0) (.bool true) w = some (w1, .ok c) ∧
    putSubschema Toy.env20 o.json (.insert 0) (.obj [("required", .arr [.str "d"])]) w = some (w2, .ok c') ∧
    (Toy.verdict20 w (.obj []) = some false ∧ Toy.verdict20 w1 (.obj []) = some true) ∧
    (Toy.verdict20 w (.obj [("c", .null)]) = some true ∧ Toy.verdict20 w2 (.obj [("c", .null)]) = some false ∧
      Toy.verdict20 w2 (.obj [("d", .null)]) = some false ∧
      Toy.verdict20 w2 (.obj [("c", .null), ("d", .null)]) = some true) := by
  have h : (Toy.build20 Toy.cutDoc).bind (fun p => (Toy.putAllOf (.index 0) (.bool true) p.1).bind fun w1 =>
      (Toy.putAllOf (.insert 0) (.obj [("required", .arr [.str "d"])]) p.1).map fun w2 => decide (
        (Toy.verdict20 p.1 (.obj []) = some false ∧ Toy.verdict20 w1 (.obj []) = some true) ∧
        (Toy.verdict20 p.1 (.obj [("c", .null)]) = some true ∧ Toy.verdict20 w2 (.obj [("c", .null)]) = some false ∧
          Toy.verdict20 w2 (.obj [("d", .null)]) = some false ∧
          Toy.verdict20 w2 (.obj [("c", .null), ("d", .null)]) = some true))) = some true := by
    decide +kernel
  obtain ⟨⟨w, r⟩, hb, h⟩ := Option.bind_eq_some_iff.1 h
  obtain ⟨w1, h1, h⟩ := Option.bind_eq_some_iff.1 h
  obtain ⟨w2, h2, h⟩ := Option.map_eq_some_iff.1 h
  have hw := Toy.build20_history (Toy.wf_spec _ (by decide +kernel)) hb
  obtain ⟨o, c, a, b⟩ := Toy.putAllOf_spec h1
  obtain ⟨o', c', a', b'⟩ := Toy.putAllOf_spec h2
  cases keywords_unique hw.put.spec.1 a.1 a'.1 (.inl rfl)
  have put : ∀ {a v w'} {c : Nat}, v.WF → putSubschema Toy.env20 o.json a v w = some (w', .ok c) → PutHistory w' :=
    fun hv hp => .put hw.put Toy.env20_ok Toy.env20_kinded hv a.1 a.2.1 a.2.2 hp
  exact ⟨w, w1, w2, o, c, c', hw, put (Toy.wf_spec _ (by decide +kernel)) b,
    put (Toy.wf_spec _ (by decide +kernel)) b', a, b, b', of_decide_eq_true h⟩

/-- C98: additions and deletions in turn.  After `schema['allOf'].append({'required': ['d']})` and
`del schema['allOf'][0]` the member `d` is required and `c` is not. -/
theorem C98_in_turn : ∃ w w1 w2, KHistory w ∧ PutHistory w1 ∧ PutHistory w2 ∧
    (∃ o c, ("allOf", o) ∈ w.keywords 0 ∧
      putSubschema Toy.env20 o.json .item (.obj [("required", .arr [.str "d"])]) w = some (w1, .ok c)) ∧
    Pruned w1 w2 [(0, "allOf", .index 0)] ∧
    (Toy.verdict20 w1 (.obj [("d", .null)]) = some false ∧ Toy.verdict20 w2 (.obj [("d", .null)]) = some true) ∧
    Toy.verdict20 w2 (.obj [("c", .null)]) = some false := by
  have h : (Toy.build20 Toy.cutDoc).bind (fun p =>
      (Toy.putAllOf .item (.obj [("required", .arr [.str "d"])]) p.1).bind fun w1 => (Toy.held w1 "allOf").map fun o =>
        decide ((Toy.verdict20 w1 (.obj [("d", .null)]) = some false ∧
          Toy.verdict20 (w1.editJson ((Cut.index 0).op o.json)) (.obj [("d", .null)]) = some true) ∧
          Toy.verdict20 (w1.editJson ((Cut.index 0).op o.json)) (.obj [("c", .null)]) = some false)) = some true := by
    decide +kernel
  obtain ⟨⟨w, r⟩, hb, h⟩ := Option.bind_eq_some_iff.1 h
  obtain ⟨w1, h1, h⟩ := Option.bind_eq_some_iff.1 h
  obtain ⟨o', h2, h⟩ := Option.map_eq_some_iff.1 h
  have hw := Toy.build20_history (Toy.wf_spec _ (by decide +kernel)) hb
  obtain ⟨o, c, a, b⟩ := Toy.putAllOf_spec h1
  obtain ⟨a1, a2, a3⟩ := Toy.held_spec h2
  have p1 : PutHistory w1 := .put hw.put Toy.env20_ok Toy.env20_kinded (Toy.wf_spec _ (by decide +kernel)) a.1 a.2.1 a.2.2 b
  exact ⟨w, w1, _, hw, p1, .cut (.index 0) p1 a1 a2 a3 (by show (0 : Int) ≤ 0; omega), ⟨o, c, a.1, b⟩,
    .cut (.index 0) .refl a1 a2 a3, of_decide_eq_true h⟩

end

end Jschon
