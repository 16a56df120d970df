import Verif.Proof.PatchTree

/-!
# JSON Patch and mutable Python objects: C23, C24 (repeatability), C25
-/

namespace Jschon
open Spec

/-! ## C23 -/

/-- C23: evaluating a patch, whether it succeeds or raises, changes no list or dict that existed
before: neither those of the document, nor those held by the patch, nor any other, however they are
shared. -/
theorem C23_inputs_unchanged (h : PHeap) (ops : List POp) (doc : PV) (hc : Closed h)
    (hd : PV.Below h.next doc) (hv : ∀ o ∈ ops, PV.Below h.next o.value) (a : Nat) (ha : a < h.next) :
    (evaluatePV ops h doc).1.cell a = h.cell a := (stays_evaluate ops hc hd hv).old a ha

/-- C23: every list and dict in the result is new, so that the result shares none with the document,
with the patch, or with any other object. -/
theorem C23_result_fresh (h : PHeap) (ops : List POp) (doc : PV) (hc : Closed h)
    (hd : PV.Below h.next doc) (hv : ∀ o ∈ ops, PV.Below h.next o.value) (d : PV)
    (hr : (evaluatePV ops h doc).2 = .ok d) (a : Nat)
    (ha : Reaches (evaluatePV ops h doc).1 d a) : h.next ≤ a :=
  let s := stays_evaluate ops hc hd hv
  (reaches_in s.region (s.res d hr) ha).1

/-- C23: nor does any existing object reach a list or dict of the result. -/
theorem C23_result_unreachable (h : PHeap) (ops : List POp) (doc p : PV) (hc : Closed h)
    (hd : PV.Below h.next doc) (hv : ∀ o ∈ ops, PV.Below h.next o.value) (hp : PV.Below h.next p)
    (a : Nat) (ha : Reaches (evaluatePV ops h doc).1 p a) : a < h.next := by
  have s := stays_evaluate ops hc hd hv
  induction ha with
  | here => exact hp
  | @step b q c hq _ ih =>
    rw [s.old b hp] at hq
    exact ih (hc b hp q hq)

/-- The heap with `x = []; doc = [x]; v = [x]`: `x` at 0, `doc` at 1, `v` at 2. -/
def heapAlias : PHeap :=
  ⟨3, fun a => if a = 0 then .list [] else .list [.ref 0]⟩

/-- `[{"op": "add", "path": "/0/0", "value": v}, {"op": "add", "path": "/0/0/1", "value": None}]`. -/
def opsAlias : List POp :=
  [⟨.add, ⟨["0", "0"]⟩, .ref 2, none⟩, ⟨.add, ⟨["0", "0", "1"]⟩, .sc .null, none⟩]

example : Closed heapAlias ∧ PV.Below heapAlias.next (.ref 1) ∧
    (∀ o ∈ opsAlias, PV.Below heapAlias.next o.value) ∧
    (∃ d, (evaluatePV opsAlias heapAlias (.ref 1)).2 = .ok d ∧
      readPV (evaluatePV opsAlias heapAlias (.ref 1)).1 4 d = .arr [.arr [.arr [.arr [], .null]]]) := by
  refine ⟨?_, show 1 < 3 by decide, ?_, ⟨_, rfl, rfl⟩⟩
  · intro a ha q hq
    simp only [heapAlias] at hq
    split at hq
    · cases hq
    · simp [Cell.kids] at hq; subst hq; exact (show 0 < 3 by decide)
  · intro o ho
    simp [opsAlias] at ho
    rcases ho with rfl | rfl
    · exact (show 2 < 3 by decide)
    · trivial

/-! ## The two models of JSON Patch agree -/

theorem denotesAll_of {h : PHeap} {os : List POp} {vos : List PatchOp} (hd : PatchDenotes h os vos) :
    DenotesAll h h.next os vos := by
  induction hd with
  | nil => exact .nil
  | cons a b c d _ ih => exact .cons a b c d ih

/-- The functions on values of `Verif/Model/Patch.lean`, about which C20-C22 and C24-C28 speak,
describe the mutating code, for documents in which no list or dict occurs twice: same outcome, same
exception, and a result with the same value, again without such an occurrence. -/
theorem C24_values_describe_objects (h : PHeap) (os : List POp) (vos : List PatchOp) (doc : PV)
    (v : Value) (hd : PatchDenotes h os vos) (ht : Tree h doc v) :
    match patchEvaluate vos v with
    | .ok v' => ∃ d, (evaluatePV os h doc).2 = .ok d ∧ Tree (evaluatePV os h doc).1 d v'
    | .error e => (evaluatePV os h doc).2 = .error e := (refines_evaluate (denotesAll_of hd) ht).2

/-- The same for a single operation applied in place. -/
theorem C24_operation_describes_objects (h : PHeap) (o : POp) (vo : PatchOp) (doc : PV) (v : Value)
    (h1 : o.op = vo.op) (h2 : o.path = vo.path) (h3 : o.from_ = vo.from_)
    (h4 : Tree h o.value vo.value) (ht : Tree h doc v) :
    match vo.apply v with
    | .ok v' => ∃ d, (o.apply h doc).2 = .ok d ∧ Tree (o.apply h doc).1 d v'
    | .error e => (o.apply h doc).2 = .error e := by
  obtain ⟨fp, t1, t2, t3⟩ := ht
  have hr := refines_apply (o := o) (vo := vo) ⟨h1, h2, h3, h4⟩ t1 t2 t3
  obtain ⟨_, _, r3⟩ := hr
  cases hva : vo.apply v with
  | error e => rw [hva] at r3; exact r3
  | ok v' =>
    rw [hva] at r3
    obtain ⟨d, fd, e1, e2, e3, e4⟩ := r3
    exact ⟨d, e1, fd, e2, e3, fun x hx => (e4 x hx).1⟩

/-- The restriction is needed: with `x = []; doc = [x, x]`, adding at `/0/0` shows at `/1` too, since
`deepcopy` keeps the sharing. -/
theorem C24_shared_objects :
    readPV (evaluatePV [⟨.add, ⟨["0", "0"]⟩, .sc .null, none⟩]
      ⟨2, fun a => if a = 0 then .list [] else .list [.ref 0, .ref 0]⟩ (.ref 1)).1 3 (.ref 3) =
      .arr [.arr [.null], .arr [.null]] ∧
    (evaluatePV [⟨.add, ⟨["0", "0"]⟩, .sc .null, none⟩]
      ⟨2, fun a => if a = 0 then .list [] else .list [.ref 0, .ref 0]⟩ (.ref 1)).2 = .ok (.ref 3) :=
  ⟨rfl, rfl⟩

theorem Spec.PatchDenotes.frame {h h' : PHeap} {os : List POp} {vos : List PatchOp}
    (hd : PatchDenotes h os vos) (hn : h.next ≤ h'.next)
    (hf : ∀ b, b < h.next → h'.cell b = h.cell b) : PatchDenotes h' os vos := by
  induction hd with
  | nil => exact .nil
  | cons a b c d _ ih =>
    obtain ⟨fv, e1, e2, e3⟩ := d
    exact .cons a b c ⟨fv, owns_frame e1 (fun x hx => hf x (e3 x hx)), e2,
      fun x hx => Nat.lt_of_lt_of_le (e3 x hx) hn⟩ ih

/-- C24: evaluation is repeatable: a second evaluation of the same patch objects on the same document
object, in the heap that the first one left, has the same outcome. -/
theorem C24_repeatable (h : PHeap) (os : List POp) (vos : List PatchOp) (doc : PV) (v : Value)
    (hc : Closed h) (hb : PV.Below h.next doc) (hv : ∀ o ∈ os, PV.Below h.next o.value)
    (hd : PatchDenotes h os vos) (ht : Tree h doc v) :
    let h1 := (evaluatePV os h doc).1
    (∀ e, (evaluatePV os h doc).2 = .error e → (evaluatePV os h1 doc).2 = .error e) ∧
    (∀ d, (evaluatePV os h doc).2 = .ok d → ∃ w d', Tree h1 d w ∧
      (evaluatePV os h1 doc).2 = .ok d' ∧ Tree (evaluatePV os h1 doc).1 d' w) := by
  intro h1
  have s := stays_evaluate os hc hb hv
  have r1 := C24_values_describe_objects h os vos doc v hd ht
  have hd1 : PatchDenotes h1 os vos := hd.frame s.next s.old
  have ht1 : Tree h1 doc v := by
    obtain ⟨fp, t1, t2, t3⟩ := ht
    exact ⟨fp, owns_frame t1 (fun x hx => s.old x (t3 x hx)), t2,
      fun x hx => Nat.lt_of_lt_of_le (t3 x hx) s.next⟩
  have r2 := C24_values_describe_objects h1 os vos doc v hd1 ht1
  cases hp : patchEvaluate vos v with
  | error e =>
    rw [hp] at r1 r2
    simp only at r1 r2
    exact ⟨fun e' he => by rw [r1] at he; cases he; exact r2, fun d he => by rw [r1] at he; cases he⟩
  | ok w =>
    rw [hp] at r1 r2
    obtain ⟨d, e1, e2⟩ := r1
    obtain ⟨d', e3, e4⟩ := r2
    exact ⟨fun e' he => by { rw [e1] at he; cases he }, fun d0 he => by
      rw [e1] at he; cases he; exact ⟨w, d', e2, e3, e4⟩⟩

example : PatchDenotes heapAlias opsAlias
      [⟨.add, ⟨["0", "0"]⟩, .arr [.arr []], none⟩, ⟨.add, ⟨["0", "0", "1"]⟩, .null, none⟩] ∧
    Tree heapAlias (.ref 1) (.arr [.arr []]) := by
  have h0 : Owns heapAlias (.ref 0) (.arr []) [0] := .list rfl .nil
  have h1 : ∀ a, a ≠ 0 → Owns heapAlias (.ref a) (.arr [.arr []]) [a, 0] := fun a ha =>
    .list (ps := [.ref 0]) (by simp [heapAlias, ha]) (.cons h0 .nil)
  have h2 : ∀ a, a ≠ 0 → a < 3 → Tree heapAlias (.ref a) (.arr [.arr []]) := fun a ha hl =>
    ⟨_, h1 a ha, by simp [ha], by simp [heapAlias]; exact hl⟩
  exact ⟨.cons rfl rfl rfl (h2 2 (by decide) (by decide)) (.cons rfl rfl rfl
    ⟨[], .sc (s := .null), .nil, by simp⟩ .nil), h2 1 (by decide) (by decide)⟩

/-! ## C25 -/

theorem thenDoc_error {doc : PV} {x : PHeap × Except Exc Unit} {e : Exc}
    (h : (thenDoc doc x).2 = .error e) : ∃ e', x.2 = .error e' := by
  unfold thenDoc at h
  split at h
  · cases h
  · rename_i e' he; exact ⟨e', he⟩

theorem thenDoc_heap {doc : PV} {x : PHeap × Except Exc Unit} : (thenDoc doc x).1 = x.1 := by
  unfold thenDoc
  split <;> rfl

/-- A mutation of one object that raises has no effect. -/
theorem local_error {h : PHeap} {parent v : PV} {i : Nat} {k : String} {e : Exc} :
    ((insertPV h parent i v).2 = .error e → (insertPV h parent i v).1 = h) ∧
    ((setItemPV h parent i v).2 = .error e → (setItemPV h parent i v).1 = h) ∧
    ((delItemPV h parent i).2 = .error e → (delItemPV h parent i).1 = h) ∧
    ((setKeyPV h parent k v).2 = .error e → (setKeyPV h parent k v).1 = h) ∧
    ((delKeyPV h parent k).2 = .error e → (delKeyPV h parent k).1 = h) := by
  cases parent with
  | sc s => exact ⟨fun _ => rfl, fun _ => rfl, fun _ => rfl, fun _ => rfl, fun _ => rfl⟩
  | ref a =>
    simp only [insertPV, setItemPV, delItemPV, setKeyPV, delKeyPV]
    cases h.cell a <;> simp

/-- C25: when `add` raises, no existing list or dict is changed. -/
theorem C25_add (h : PHeap) (doc value : PV) (path : Ptr) (e : Exc)
    (he : (addPV h doc path value).2 = .error e) (a : Nat) (ha : a < h.next) :
    (addPV h doc path value).1.cell a = h.cell a := by
  unfold addPV at he ⊢
  cases hn : nodePV h doc path with
  | error e' => rfl
  | ok tp =>
    obtain ⟨t, parent⟩ := tp
    simp only [hn] at he ⊢
    cases t with
    | root => cases he
    | item i =>
      obtain ⟨e', h1⟩ := thenDoc_error he
      simp only [thenDoc_heap, (local_error (k := "")).1 h1]; exact deepcopy_cell ha
    | itemNew i =>
      obtain ⟨e', h1⟩ := thenDoc_error he
      simp only [thenDoc_heap, (local_error (k := "")).1 h1]; exact deepcopy_cell ha
    | prop k =>
      obtain ⟨e', h1⟩ := thenDoc_error he
      simp only [thenDoc_heap, (local_error (i := 0)).2.2.2.1 h1]; exact deepcopy_cell ha
    | propNew k =>
      obtain ⟨e', h1⟩ := thenDoc_error he
      simp only [thenDoc_heap, (local_error (i := 0)).2.2.2.1 h1]; exact deepcopy_cell ha

/-- C25: when `replace` raises, no existing list or dict is changed. -/
theorem C25_replace (h : PHeap) (doc value : PV) (path : Ptr) (e : Exc)
    (he : (replacePV h doc path value).2 = .error e) (a : Nat) (ha : a < h.next) :
    (replacePV h doc path value).1.cell a = h.cell a := by
  unfold replacePV at he ⊢
  cases hn : nodePV h doc path with
  | error e' => rfl
  | ok tp =>
    obtain ⟨t, parent⟩ := tp
    simp only [hn] at he ⊢
    cases t with
    | root => cases he
    | item i =>
      obtain ⟨e', h1⟩ := thenDoc_error he
      simp only [thenDoc_heap, (local_error (k := "")).2.1 h1]; exact deepcopy_cell ha
    | prop k =>
      obtain ⟨e', h1⟩ := thenDoc_error he
      simp only [thenDoc_heap, (local_error (i := 0)).2.2.2.1 h1]; exact deepcopy_cell ha
    | itemNew i => exact deepcopy_cell (p := value) ha
    | propNew k => exact deepcopy_cell (p := value) ha

/-- C25: when `remove` raises, nothing is changed. -/
theorem C25_remove (h : PHeap) (doc : PV) (path : Ptr) (e : Exc)
    (he : (removePV h doc path).2 = .error e) : (removePV h doc path).1 = h := by
  unfold removePV at he ⊢
  cases hn : nodePV h doc path with
  | error e' => rfl
  | ok tp =>
    obtain ⟨t, parent⟩ := tp
    simp only [hn] at he ⊢
    cases t with
    | root => cases he
    | item i =>
      obtain ⟨e', h1⟩ := thenDoc_error he
      simp only [thenDoc_heap, (local_error (k := "") (v := .ref 0)).2.2.1 h1]
    | prop k =>
      obtain ⟨e', h1⟩ := thenDoc_error he
      simp only [thenDoc_heap, (local_error (i := 0) (v := .ref 0)).2.2.2.2 h1]
    | itemNew i => rfl
    | propNew k => rfl

/-- C25: when `copy` raises, no existing list or dict is changed. -/
theorem C25_copy (h : PHeap) (doc : PV) (path from_ : Ptr) (e : Exc)
    (he : (copyPV h doc path from_).2 = .error e) (a : Nat) (ha : a < h.next) :
    (copyPV h doc path from_).1.cell a = h.cell a := by
  unfold copyPV at he ⊢
  cases hq : resolvePV h from_.keys doc with
  | error e' => rfl
  | ok q => simp only [hq] at he ⊢; exact C25_add h doc q path e he a ha

/-- C25: `test` never changes anything. -/
theorem C25_test (h : PHeap) (doc value : PV) (path : Ptr) : (testPV h doc path value).1 = h :=
  (testPV_heap h doc path value).1

/-- C25 for `move`, when it raises before the addition. Missing: a failing addition, where the code
deviates (`C25_move_loses_value`). -/
theorem C25_move_partial (h : PHeap) (doc : PV) (path from_ : Ptr) (e : Exc)
    (he : (movePV h doc path from_).2 = .error e)
    (hf : (∃ e', resolvePV h from_.keys doc = .error e') ∨ ∃ e', (removePV h doc from_).2 = .error e') :
    (movePV h doc path from_).1 = h := by
  unfold movePV at he ⊢
  cases hq : resolvePV h from_.keys doc with
  | error e' => rfl
  | ok q =>
    simp only [hq] at he ⊢
    rcases hf with ⟨e', h1⟩ | ⟨e', h1⟩
    · rw [hq] at h1; cases h1
    · have := C25_remove h doc from_ e' h1
      rcases hr : removePV h doc from_ with ⟨h1', r⟩
      rw [hr] at h1 this
      simp only at h1 this
      subst h1 this
      rfl

/-- C25 fails for `move`: `doc = {"a": None}; move(doc, "/b/c", "/a")` raises JSONPatchError, and `doc`
is then `{}`. -/
theorem C25_move_loses_value :
    (movePV ⟨1, fun _ => .dict [("a", .sc .null)]⟩ (.ref 0) ⟨["b", "c"]⟩ ⟨["a"]⟩).2 = .error .patchError ∧
    (movePV ⟨1, fun _ => .dict [("a", .sc .null)]⟩ (.ref 0) ⟨["b", "c"]⟩ ⟨["a"]⟩).1.cell 0 = .dict [] :=
  ⟨rfl, rfl⟩

example : (addPV heapAlias (.ref 1) ⟨["0", "3"]⟩ (.ref 2)).2 = .error .patchError := rfl

example : (removePV heapAlias (.ref 1) ⟨["0", "0"]⟩).2 = .error .patchError := rfl

end Jschon
