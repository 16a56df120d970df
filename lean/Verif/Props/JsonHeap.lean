import Verif.Props.JsonEval

/-!
# JSON instances as mutable documents: C12, C13, C14, C15, C16, C17
-/

namespace Jschon
open Spec

/-! ## C12: construction -/

/-- C12: `JSON(v).value` is `v`, with the same types and the same member order, whatever instances
exist already. -/
theorem C12_value (h : JHeap) (hh : History h) (v : Value) (hv : v.WF) :
    (readValue (newJson h v none none).1 (newJson h v none none).2).2 = v := by
  obtain ⟨b0, b1, b2, b3, b4, b5, b6, b7⟩ := newJson_spec hh.winv.ord v hv none none (by simp)
  have hn := noop_new hh.winv hv none none (by simp)
  rw [b0, (readValue_spec hn.winv.ord hn.winv.val _).2, b7]

/-- C12: a new instance is the root of a document of its own: existing instances keep their content,
and nothing is shared with them. -/
theorem C12_new (h : JHeap) (hh : History h) (v : Value) (hv : v.WF) :
    (newJson h v none none).1.parent (newJson h v none none).2 = none ∧
    (∀ x, x < h.next → val (newJson h v none none).1 x = val h x ∧
      Apart (newJson h v none none).1 x (newJson h v none none).2) := by
  obtain ⟨b0, b1, b2, b3, b4, b5, b6, b7⟩ := newJson_spec hh.winv.ord v hv none none (by simp)
  rw [b0]
  refine ⟨b5, fun x hx => ⟨b1.val hh.winv.ord b2 hx, (apart_iff b2).2 ⟨fun hd => ?_, fun hd => ?_⟩⟩⟩
  · have := desc_has hh.winv.ord ((desc_ext b1 hh.winv.ord hx).1 hd) hx
    omega
  · have := desc_le b2 hd
    omega

/-- C12: the type of every instance is that of its content, at all times. -/
theorem C12_type (h : JHeap) (hh : History h) (r : Ref) : HasType (val h r) (typeJson h r) := by
  rw [val_eq hh.winv.ord, typeJson]
  cases h.data r <;> constructor

/-- C12: `len` of every instance is that of its content, at all times, and `TypeError` if it has
none. -/
theorem C12_len (h : JHeap) (hh : History h) (r : Ref) :
    (∀ n, lenJson h r = .ok n ↔ HasLen (val h r) n) ∧
    ((¬ ∃ n, HasLen (val h r) n) → lenJson h r = .error .typeError) := by
  rw [val_eq hh.winv.ord, lenJson]
  refine ⟨fun n => ?_, ?_⟩
  · cases h.data r with
    | str s =>
      simp only [dataVal, Except.ok.injEq]
      exact ⟨fun e => e ▸ String.length_toList ▸ .str, fun e => by cases e; exact String.length_toList.symm⟩
    | arr cs =>
      simp only [dataVal, Except.ok.injEq]
      refine ⟨fun e => e ▸ ?_, fun e => by cases e; simp⟩
      have := HasLen.arr (xs := cs.map (val h))
      rwa [List.length_map] at this
    | obj ms =>
      simp only [dataVal, Except.ok.injEq]
      refine ⟨fun e => e ▸ ?_, fun e => by cases e; simp⟩
      have := HasLen.obj (kvs := ms.map (fun m => (m.1, val h m.2)))
      rwa [List.length_map] at this
    | _ => simp only [dataVal, reduceCtorEq, false_iff]; intro e; cases e
  · cases h.data r with
    | str s => intro hn; exact absurd ⟨_, .str⟩ hn
    | arr s => intro hn; exact absurd ⟨_, .arr⟩ hn
    | obj s => intro hn; exact absurd ⟨_, .obj⟩ hn
    | _ => intro _; rfl

/-- C12: `bool` of every instance is that of its content, at all times. -/
theorem C12_bool (h : JHeap) (hh : History h) (r : Ref) : boolJson h r = false ↔ Falsy (val h r) := by
  rw [val_eq hh.winv.ord, boolJson]
  cases h.data r with
  | null => exact ⟨fun _ => .null, fun _ => rfl⟩
  | bool b =>
    simp only [dataVal]
    exact ⟨fun e => e ▸ .bool, fun e => by cases e; rfl⟩
  | num n =>
    simp only [dataVal, bne_eq_false_iff_eq]
    cases n with
    | int z =>
      simp only [Num.val]
      constructor
      · intro e
        have : z = 0 := by exact_mod_cast e
        exact this ▸ .int
      · intro e; cases e; rfl
    | flt q =>
      simp only [Num.val]
      exact ⟨fun e => e ▸ .flt, fun e => by cases e; rfl⟩
  | str s =>
    simp only [dataVal, bne_eq_false_iff_eq]
    constructor
    · intro e
      have : s = "" := by
        rw [← String.toList_inj]
        exact List.length_eq_zero_iff.1 (by rw [String.length_toList]; exact e)
      exact this ▸ .str
    · intro e; cases e; rfl
  | arr cs =>
    cases cs with
    | nil => exact ⟨fun _ => .arr, fun _ => rfl⟩
    | cons c cs => simp only [dataVal, List.map_cons]; exact ⟨fun e => by simp at e, fun e => by cases e⟩
  | obj ms =>
    cases ms with
    | nil => exact ⟨fun _ => .obj, fun _ => rfl⟩
    | cons c cs => simp only [dataVal, List.map_cons]; exact ⟨fun e => by simp at e, fun e => by cases e⟩

/-- C12: the keys of every instance are those of its content, in order, at all times. -/
theorem C12_keys (h : JHeap) (hh : History h) (r : Ref) (kvs : List (String × Value))
    (hv : val h r = .obj kvs) : keysJson h r = .ok (kvs.map Prod.fst) := by
  obtain ⟨ms, hm⟩ := val_obj_inv hh.winv.ord hv
  rw [val_obj hh.winv.ord hm] at hv
  cases hv
  simp only [keysJson, hm, dkeys, List.map_map]
  rfl

/-- C12: the children are those of the content, and each has the corresponding content, at all
times. -/
theorem C12_children (h : JHeap) (hh : History h) (r : Ref) (k : String) :
    (∀ c, Child h r k c → Designates (val h r) [k] (val h c)) ∧
    (∀ w, Designates (val h r) [k] w → ∃ c, Child h r k c ∧ val h c = w) := by
  refine ⟨fun c hc => reach_desig hh.winv (reach_one.2 hc), fun w hw => ?_⟩
  obtain ⟨c, hc, hv⟩ := desig_reach hh.winv.ord hw
  exact ⟨c, reach_one.1 hc, hv⟩

example : (Value.obj [("b", .arr [.null]), ("a", .bool true)]).WF ∧ History JHeap.empty :=
  ⟨.obj (by decide) (by
    intro x hx; simp at hx; rcases hx with rfl | rfl
    · exact .arr (by simp; exact .null)
    · exact .bool), .start⟩

/-! ## C13: positions -/

/-- C13, the part about parents, for any indices: a child knows its parent. -/
theorem C13_parent (h : JHeap) (hh : History h) (n c : Ref) (k : String) (hc : Child h n k c) :
    h.parent c = some n := (hh.winv.ord.kid n c (childD_kid hc)).2.2

/-- C13 for histories whose indices are not negative and whose insertions are not beyond the end.
Missing: the other indices, for which the code deviates (`C13_pop_breaks_key` and the theorems after
it). -/
theorem C13_positions_partial (h : JHeap) (hh : InRangeHistory h) :
    (∀ n c k, Child h n k c → h.parent c = some n ∧ h.key c = some k) ∧
    (∀ root n ks, root < h.next → h.parent root = none → Reach h root ks n →
      (readPath h n).2 = ⟨ks⟩) :=
  ⟨fun n c k hc => ⟨C13_parent h hh.history n c k hc, hh.inv.keys.key n k c hc⟩,
   fun _ _ _ hr hp hn => readPath_spec hh.inv hr hp hn⟩

/-- A heap with `JSON([10, 20, 30])` as instance 0. -/
def heapThree : JHeap :=
  (newJson .empty (.arr [.num (.int 10), .num (.int 20), .num (.int 30)]) none none).1

theorem heapThree_history : InRangeHistory heapThree :=
  .call (.new (.arr [.num (.int 10), .num (.int 20), .num (.int 30)])) .start
    (.arr (by intro x hx; simp at hx; rcases hx with rfl | rfl | rfl <;> exact .num)) trivial

/-- C13 fails: after `a = JSON([10, 20, 30]); a.pop()`, the item at index 1 has key `"0"`. -/
theorem C13_pop_breaks_key :
    (popIdx heapThree 0 (-1)).2 = .ok 3 ∧ Child (popIdx heapThree 0 (-1)).1 0 "1" 2 ∧
    (popIdx heapThree 0 (-1)).1.key 2 = some "0" :=
  ⟨rfl, ⟨1, rfl, rfl⟩, rfl⟩

/-- C13 fails: after `a = JSON([10, 20, 30]); a[-1] = None`, the item at index 2 has key `"-1"`. -/
theorem C13_set_negative : Child (setIdx heapThree 0 (-1) (.plain .null)).1 0 "2" 4 ∧
    (setIdx heapThree 0 (-1) (.plain .null)).1.key 4 = some "-1" := ⟨⟨2, rfl, rfl⟩, rfl⟩

/-- C13 fails: after `a = JSON([10, 20, 30]); a.insert(7, None)`, the item at index 3 has key `"7"`. -/
theorem C13_insert_beyond : Child (insertIdx heapThree 0 7 (.plain .null)).1 0 "3" 4 ∧
    (insertIdx heapThree 0 7 (.plain .null)).1.key 4 = some "7" := ⟨⟨3, rfl, rfl⟩, rfl⟩

/-- C13 fails: after `a.pop()`, the path of an item leads to another item. -/
theorem C13_pop_breaks_path : (readPath (popIdx heapThree 0 (-1)).1 2).2 = ⟨["0"]⟩ ∧
    resolveJson (popIdx heapThree 0 (-1)).1 ["0"] 0 = .ok 1 := ⟨rfl, rfl⟩

/-- An in-range history with an insertion, a deletion and cached paths. -/
def heapMoved : JHeap :=
  (JOp.delIdx 0 1).step ((JOp.path 3).step ((JOp.insert 0 0 (.plain .null)).step
    ((JOp.path 3).step heapThree)))

example : InRangeHistory heapMoved ∧ Child heapMoved 0 "2" 3 ∧ (readPath heapMoved 3).2 = ⟨["2"]⟩ :=
  ⟨.call (.delIdx 0 1) (.call (.path 3) (.call (.insert 0 0 (.plain .null)) (.call (.path 3) heapThree_history
    (show 3 < 4 by decide) trivial) ⟨show 0 < 4 by decide, .null⟩
    (fun cs _ => ⟨by decide, by omega⟩)) (show 3 < 5 by decide) trivial)
    (show 0 < 5 by decide) (show (0 : Int) ≤ 1 by decide),
   ⟨2, rfl, rfl⟩, rfl⟩

/-! ## C14: values -/

/-- C14: after any history of edits and reads, with any indices, `n.value` is the current content of
`n`. -/
theorem C14_value_current (h : JHeap) (hh : History h) (n : Ref) :
    (readValue h n).2 = val h n := (readValue_spec hh.winv.ord hh.winv.val n).2

/-- C14: reading a value or a path changes no content. -/
theorem C14_reads_are_silent (h : JHeap) (hh : History h) (n x : Ref) (hn : n < h.next)
    (hx : x < h.next) :
    val (readValue h n).1 x = val h x ∧ val (readPath h n).1 x = val h x :=
  ⟨(noop_readValue hh.winv n).val hh.winv.ord hx, (noop_readPath hh.winv hn).val hh.winv.ord hx⟩

example : History heapMoved ∧ (readValue heapMoved 0).2 =
    .arr [.null, .num (.int 20), .num (.int 30)] :=
  ⟨.call (.delIdx 0 1) (.call (.path 3) (.call (.insert 0 0 (.plain .null)) (.call (.path 3)
    heapThree_history.history (show 3 < 4 by decide)) ⟨show 0 < 4 by decide, .null⟩)
    (show 3 < 5 by decide)) (show 0 < 5 by decide), rfl⟩

/-! ## C15: edits act like list and dict edits -/

theorem pyPos_split {α : Type} {xs : List α} {i : Int} {j : Nat} (h : pyPos xs.length i = some j) :
    ∃ l x r, xs = l ++ x :: r ∧ l.length = j ∧ IndexAt i l.length r.length := by
  have hlt := pyPos_lt h
  refine ⟨xs.take j, xs[j], xs.drop (j + 1), ?_, by simp; omega, ?_⟩
  · rw [List.getElem_cons_drop, List.take_append_drop]
  · unfold pyPos at h
    simp only [IndexAt, List.length_take, List.length_drop]
    split at h
    · split at h <;> simp only [Option.some.injEq, reduceCtorEq] at h
      left; omega
    · split at h <;> simp only [Option.some.injEq, reduceCtorEq] at h
      right; omega

theorem pyPos_of_split {l r : Nat} {i : Int} (h : IndexAt i l r) : pyPos (l + (r + 1)) i = some l := by
  unfold pyPos
  rcases h with h | h
  · rw [if_pos (by omega), if_pos (by omega)]; congr 1; omega
  · rw [if_neg (by omega), if_pos (by omega)]; congr 1; omega

theorem no_set {h : JHeap} (hi : WInv h) {r : Ref} {i : Int} {w v' : Value}
    (hd : ∀ cs, h.data r = .arr cs → pyPos cs.length i = none) (hs : PySet i w (val h r) v') : False := by
  generalize hv : val h r = v at hs
  cases hs with
  | @mk l x rr hidx =>
    obtain ⟨cs, h1, h2⟩ := val_arr_inv hi.ord hv
    have := hd cs h1
    have hlen : cs.length = l.length + (rr.length + 1) := by
      have := congrArg List.length h2; simpa using this.symm
    rw [hlen, pyPos_of_split hidx] at this
    cases this

theorem no_del {h : JHeap} (hi : WInv h) {r : Ref} {i : Int} {v' : Value}
    (hd : ∀ cs, h.data r = .arr cs → pyPos cs.length i = none) (hs : PyDel i (val h r) v') : False := by
  generalize hv : val h r = v at hs
  cases hs with
  | @mk l x rr hidx =>
    refine no_set (w := .null) (v' := .arr (l ++ .null :: rr)) hi hd ?_
    rw [hv]; exact .mk hidx

theorem arr_cases {h : JHeap} (r : Ref) (i : Int) :
    (∃ cs n, h.data r = .arr cs ∧ pyPos cs.length i = some n) ∨
    ∀ cs, h.data r = .arr cs → pyPos cs.length i = none := by
  cases hd : h.data r with
  | arr cs =>
    cases hp : pyPos cs.length i with
    | none => exact .inr fun cs' h' => by cases h'; exact hp
    | some n => exact .inl ⟨cs, n, rfl, hp⟩
  | _ => exact .inr fun cs' h' => by cases h'

/-- C15: `n[i] = v`, for any index, does to the document what it does to the nested list, and raises
without effect where the list would raise. -/
theorem C15_setitem_array (h : JHeap) (hh : History h) (root n : Ref) (ks : List String)
    (hr : root < h.next) (hn : Reach h root ks n) (i : Int) (o : JArg) (ho : o.Ok h) :
    ((setIdx h n i o).2 = .ok () ∧
      At (PySet i (o.val h)) (val h root) ks (val (setIdx h n i o).1 root)) ∨
    ((∃ e, (setIdx h n i o).2 = .error e) ∧ (¬ ∃ v', PySet i (o.val h) (val h n) v') ∧
      ∀ x, x < h.next → val (setIdx h n i o).1 x = val h x) := by
  have hi := hh.winv
  have hlt := desc_has hi.ord (reach_desc hn) hr
  rcases arr_cases (h := h) n i with ⟨cs, j, hd, hp⟩ | hno
  · obtain ⟨h1, h2, _⟩ := setIdx_spec hi hlt ho hd hp
    refine .inl ⟨h1, h2.at hi hr hn ?_⟩
    rw [val_arr hi.ord hd]
    have hp' : pyPos (cs.map (val h)).length i = some j := by rw [List.length_map]; exact hp
    obtain ⟨l, x, r, hs, hl, hix⟩ := pyPos_split hp'
    rw [hs, ← hl, set_split]
    exact .mk hix
  · obtain ⟨h1, h2⟩ := setIdx_err hi hlt ho hno
    exact .inr ⟨h1, fun ⟨v', hs⟩ => no_set hi hno hs, fun x hx => h2.val hi.ord hx⟩

/-- C15: `del n[i]`, for any index. -/
theorem C15_delitem_array (h : JHeap) (hh : History h) (root n : Ref) (ks : List String)
    (hr : root < h.next) (hn : Reach h root ks n) (i : Int) :
    ((delIdx h n i).2 = .ok () ∧ At (PyDel i) (val h root) ks (val (delIdx h n i).1 root)) ∨
    ((∃ e, (delIdx h n i).2 = .error e) ∧ (¬ ∃ v', PyDel i (val h n) v') ∧
      ∀ x, x < h.next → val (delIdx h n i).1 x = val h x) := by
  have hi := hh.winv
  have hlt := desc_has hi.ord (reach_desc hn) hr
  rcases arr_cases (h := h) n i with ⟨cs, j, hd, hp⟩ | hno
  · obtain ⟨h1, h2⟩ := delIdx_spec hi hlt hd hp
    refine .inl ⟨h1, h2.at hi hr hn ?_⟩
    rw [val_arr hi.ord hd]
    have hp' : pyPos (cs.map (val h)).length i = some j := by rw [List.length_map]; exact hp
    obtain ⟨l, x, r, hs, hl, hix⟩ := pyPos_split hp'
    rw [hs, ← hl, eraseIdx_append]
    exact .mk hix
  · obtain ⟨h1, h2⟩ := delIdx_err (i := i) hno
    exact .inr ⟨h1, fun ⟨v', hs⟩ => no_del hi hno hs, fun x hx => by rw [h2]⟩

theorem sliceBound_split {α : Type} (xs : List α) (i : Int) :
    ∃ l r, xs = l ++ r ∧ l.length = sliceBound xs.length i ∧
      (i = l.length ∨ (i < 0 ∧ i = -(r.length : Int)) ∨ (r = [] ∧ i > l.length) ∨
        (l = [] ∧ i < -(r.length : Int))) := by
  have hle : sliceBound xs.length i ≤ xs.length := by unfold sliceBound; split <;> omega
  refine ⟨xs.take (sliceBound xs.length i), xs.drop (sliceBound xs.length i),
    (List.take_append_drop _ _).symm, by simp; omega, ?_⟩
  simp only [List.length_take, List.length_drop, List.drop_eq_nil_iff, List.take_eq_nil_iff,
    Nat.min_eq_left hle]
  unfold sliceBound
  split <;> omega

/-- C15: `n.insert(i, v)`, for any index. -/
theorem C15_insert (h : JHeap) (hh : History h) (root n : Ref) (ks : List String)
    (hr : root < h.next) (hn : Reach h root ks n) (i : Int) (o : JArg) (ho : o.Ok h) :
    ((insertIdx h n i o).2 = .ok () ∧
      At (PyInsert i (o.val h)) (val h root) ks (val (insertIdx h n i o).1 root)) ∨
    ((∃ e, (insertIdx h n i o).2 = .error e) ∧ (¬ ∃ v', PyInsert i (o.val h) (val h n) v') ∧
      ∀ x, x < h.next → val (insertIdx h n i o).1 x = val h x) := by
  have hi := hh.winv
  have hlt := desc_has hi.ord (reach_desc hn) hr
  by_cases hd : ∃ cs, h.data n = .arr cs
  · obtain ⟨cs, hd⟩ := hd
    obtain ⟨h1, h2, _⟩ := insertIdx_spec hi hlt ho (i := i) hd
    refine .inl ⟨h1, h2.at hi hr hn ?_⟩
    rw [val_arr hi.ord hd]
    obtain ⟨l, r, hs, hl, hix⟩ := sliceBound_split (cs.map (val h)) i
    rw [List.length_map] at hl
    rw [← hl, hs, insertIdx_append]
    exact .mk hix
  · have hd' : ∀ cs, h.data n ≠ .arr cs := fun cs hc => hd ⟨cs, hc⟩
    obtain ⟨h1, h2⟩ := insertIdx_err (i := i) (o := o) hd'
    refine .inr ⟨h1, ?_, fun x hx => by rw [h2]⟩
    rintro ⟨v', hs⟩
    generalize hv : val h n = v at hs
    cases hs with
    | mk _ =>
      obtain ⟨cs, hc, _⟩ := val_arr_inv hi.ord hv
      exact hd' cs hc

theorem dset_pySet {k : String} {w : Value} {kvs : List (String × Value)} :
    PySetKey k w (.obj kvs) (.obj (dset k w kvs)) := by
  rcases dset_cases (k := k) (v := w) (d := kvs) with ⟨h1, h2⟩ | ⟨l, x, r, h1, h2, h3⟩
  · rw [h2]; exact .new h1
  · rw [h3, h2]; exact .old h1

theorem derase_pyDel {k : String} {kvs : List (String × Value)} (hk : k ∈ dkeys kvs) :
    PyDelKey k (.obj kvs) (.obj (derase k kvs)) := by
  have : ∃ l x r, k ∉ dkeys l ∧ kvs = l ++ (k, x) :: r ∧ derase k kvs = l ++ r := by
    induction kvs with
    | nil => simp [dkeys] at hk
    | cons m kvs ih =>
      obtain ⟨k', v⟩ := m
      by_cases he : k = k'
      · subst he
        exact ⟨[], v, kvs, by simp [dkeys], rfl, by simp [derase]⟩
      · simp only [dkeys, List.map_cons, List.mem_cons, he, false_or] at hk
        obtain ⟨l, x, r, h1, h2, h3⟩ := ih hk
        exact ⟨(k', v) :: l, x, r, by simp only [dkeys, List.map_cons, List.mem_cons, he, false_or]; exact h1,
          by rw [h2]; rfl, by simp [derase, he, h3]⟩
  obtain ⟨l, x, r, h1, h2, h3⟩ := this
  rw [h3, h2]
  exact .mk h1

/-- C15: `n[k] = v` on an object; an instance that is not an object raises without effect. -/
theorem C15_setitem_object (h : JHeap) (hh : History h) (root n : Ref) (ks : List String)
    (hr : root < h.next) (hn : Reach h root ks n) (k : String) (o : JArg) (ho : o.Ok h) :
    ((setKey h n k o).2 = .ok () ∧
      At (PySetKey k (o.val h)) (val h root) ks (val (setKey h n k o).1 root)) ∨
    ((∃ e, (setKey h n k o).2 = .error e) ∧ (¬ ∃ v', PySetKey k (o.val h) (val h n) v') ∧
      ∀ x, x < h.next → val (setKey h n k o).1 x = val h x) := by
  have hi := hh.winv
  have hlt := desc_has hi.ord (reach_desc hn) hr
  by_cases hd : ∃ ms, h.data n = .obj ms
  · obtain ⟨ms, hd⟩ := hd
    obtain ⟨h1, h2, _⟩ := setKey_spec hi hlt ho (k := k) hd
    refine .inl ⟨h1, h2.at hi hr hn ?_⟩
    rw [val_obj hi.ord hd]
    exact dset_pySet
  · have hd' : ∀ ms, h.data n ≠ .obj ms := fun cs hc => hd ⟨cs, hc⟩
    obtain ⟨h1, h2⟩ := setKey_err hi hlt ho (k := k) hd'
    refine .inr ⟨h1, ?_, fun x hx => h2.val hi.ord hx⟩
    rintro ⟨v', hs⟩
    generalize hv : val h n = v at hs
    cases hs with
    | old _ | new _ =>
      obtain ⟨ms, hc⟩ := val_obj_inv hi.ord hv
      exact hd' ms hc

/-- C15: `del n[k]` on an object; a missing key, or an instance that is not an object, raises without
effect. -/
theorem C15_delitem_object (h : JHeap) (hh : History h) (root n : Ref) (ks : List String)
    (hr : root < h.next) (hn : Reach h root ks n) (k : String) :
    ((delKey h n k).2 = .ok () ∧ At (PyDelKey k) (val h root) ks (val (delKey h n k).1 root)) ∨
    ((∃ e, (delKey h n k).2 = .error e) ∧ (¬ ∃ v', PyDelKey k (val h n) v') ∧
      ∀ x, x < h.next → val (delKey h n k).1 x = val h x) := by
  have hi := hh.winv
  have hlt := desc_has hi.ord (reach_desc hn) hr
  by_cases hd : ∃ ms, h.data n = .obj ms ∧ k ∈ dkeys ms
  · obtain ⟨ms, hd, hk⟩ := hd
    obtain ⟨h1, h2⟩ := delKey_spec hi hlt hd hk
    refine .inl ⟨h1, h2.at hi hr hn ?_⟩
    rw [val_obj hi.ord hd]
    refine derase_pyDel ?_
    simpa [dkeys] using hk
  · have hd' : ∀ ms, h.data n = .obj ms → k ∉ dkeys ms := fun ms hc hk => hd ⟨ms, hc, hk⟩
    obtain ⟨h1, h2⟩ := delKey_err (k := k) hd'
    refine .inr ⟨h1, ?_, fun x hx => by rw [h2]⟩
    rintro ⟨v', hs⟩
    generalize hv : val h n = v at hs
    cases hs with
    | @mk l x r hl =>
      obtain ⟨ms, hc⟩ := val_obj_inv hi.ord hv
      rw [val_obj hi.ord hc] at hv
      simp only [Value.obj.injEq] at hv
      refine hd' ms hc ?_
      have : k ∈ dkeys (ms.map (fun m => (m.1, val h m.2))) := by rw [hv]; simp [dkeys]
      simpa [dkeys] using this

/-- C15: an edit of `n` changes no document that `n` is not in. -/
theorem C15_elsewhere (h : JHeap) (hh : History h) (op : JOp) (ha : op.ArgsOk h) (r x : Ref)
    (hr : op.receiver = some r) (hx : x < h.next) (hA : Apart h r x) :
    val (op.step h) x = val h x := step_val_apart hh.winv op ha hx hA hr ⟨_, .here⟩

example : Reach heapThree 0 [] 0 ∧ PyDel (-1) (val heapThree 0) (.arr [.num (.int 10), .num (.int 20)]) :=
  ⟨.here, .mk (l := [.num (.int 10), .num (.int 20)]) (x := .num (.int 30)) (r := []) (.inr rfl)⟩

/-! ## C16: assignment copies -/

/-- What holds of an instance `c` stored as a copy of `s`: it has the content of `s`, it is new, and
unless it was stored inside `s` itself the two documents have nothing in common. -/
def CopyOf (h h' : JHeap) (r s c : Ref) : Prop :=
  val h' c = val h s ∧ h.next ≤ c ∧ c < h'.next ∧ (¬ Within h s r → Apart h' s c)

theorem copyOf {h h' : JHeap} {m s c : Ref} {g : Prop} {v : Value} (hs : s < h.next)
    (hm : m < h.next) (hd : Did h h' m g v) (hc : h.next ≤ c) (hk : c ∈ (h'.data m).kids)
    (hv : val h' c = val h s) : CopyOf h h' m s c := by
  have ho := hd.winv.ord
  have hmc := ho.kid m c hk
  refine ⟨hv, hc, hmc.2.1, fun hw => ?_⟩
  rw [apart_iff ho]
  refine ⟨fun hdesc => ?_, fun hdesc => ?_⟩
  · have key : ∀ {a b : Ref}, Desc h' a b → b < h.next → Desc h a b := by
      intro a b hab hb
      induction hab with
      | refl => exact .refl
      | @step r c x hrc hcx ih =>
        have h1 := desc_le ho hcx
        have h2 := (ho.kid r c hrc).1
        refine .step ?_ (ih hb)
        by_cases hrm : r = m
        · subst hrm; exact hd.kids c hrc (by omega)
        · rw [hd.data_other (by omega) hrm] at hrc; exact hrc
    rcases desc_tail hdesc with rfl | ⟨p, h1, h2⟩
    · omega
    · have := (ho.kid p c h2).2.2
      rw [hmc.2.2] at this
      cases this
      exact hw (desc_reach (key h1 hm))
  · have := desc_le ho hdesc
    omega

/-- C16: `n[k] = s` on an object stores a copy of `s` under `k`. -/
theorem C16_setitem_object (h : JHeap) (hh : History h) (n s : Ref) (hn : n < h.next) (hs : s < h.next)
    (k : String) (hok : (setKey h n k (.json s)).2 = .ok ()) :
    ∃ c, Child (setKey h n k (.json s)).1 n k c ∧ CopyOf h (setKey h n k (.json s)).1 n s c := by
  have hi := hh.winv
  by_cases hd : ∃ ms, h.data n = .obj ms
  · obtain ⟨ms, hd⟩ := hd
    obtain ⟨h1, h2, c, h3, h4, h5⟩ := setKey_spec hi hn (o := .json s) hs (k := k) hd
    have hc : Child (setKey h n k (.json s)).1 n k c := by
      rw [Child, h4]
      rcases dset_cases (k := k) (v := c) (d := ms) with ⟨_, e⟩ | ⟨l, x, r, _, _, e⟩
      · rw [e]; simp [ChildD]
      · rw [e]; simp [ChildD]
    exact ⟨c, hc, copyOf hs hn h2 h3 (childD_kid hc) h5⟩
  · obtain ⟨⟨e, h1⟩, _⟩ := setKey_err hi hn (o := .json s) hs (k := k) (fun ms hc => hd ⟨ms, hc⟩)
    rw [h1] at hok; cases hok

/-- C16: `n[i] = s` on an array stores a copy of `s`, as the new item. -/
theorem C16_setitem_array (h : JHeap) (hh : History h) (n s : Ref) (hn : n < h.next) (hs : s < h.next)
    (i : Int) (hok : (setIdx h n i (.json s)).2 = .ok ()) :
    ∃ k c, Child (setIdx h n i (.json s)).1 n k c ∧ CopyOf h (setIdx h n i (.json s)).1 n s c := by
  have hi := hh.winv
  rcases arr_cases (h := h) n i with ⟨cs, j, hd, hp⟩ | hno
  · obtain ⟨h1, h2, c, h3, h4, h5⟩ := setIdx_spec hi hn (o := .json s) hs hd hp
    have hc : Child (setIdx h n i (.json s)).1 n (natStr j) c := by
      rw [Child, h4]
      exact ⟨j, rfl, by simp [pyPos_lt hp]⟩
    exact ⟨_, c, hc, copyOf hs hn h2 h3 (childD_kid hc) h5⟩
  · obtain ⟨⟨e, h1⟩, _⟩ := setIdx_err hi hn (o := .json s) hs hno
    rw [h1] at hok; cases hok

/-- C16: `n.insert(i, s)` stores a copy of `s`, as the new item. -/
theorem C16_insert (h : JHeap) (hh : History h) (n s : Ref) (hn : n < h.next) (hs : s < h.next)
    (i : Int) (hok : (insertIdx h n i (.json s)).2 = .ok ()) :
    ∃ k c, Child (insertIdx h n i (.json s)).1 n k c ∧
      CopyOf h (insertIdx h n i (.json s)).1 n s c := by
  have hi := hh.winv
  by_cases hd : ∃ cs, h.data n = .arr cs
  · obtain ⟨cs, hd⟩ := hd
    obtain ⟨h1, h2, c, h3, h4, h5⟩ := insertIdx_spec hi hn (o := .json s) hs (i := i) hd
    have hle : sliceBound cs.length i ≤ cs.length := by unfold sliceBound; split <;> omega
    have hc : Child (insertIdx h n i (.json s)).1 n (natStr (sliceBound cs.length i)) c := by
      rw [Child, h4]
      exact ⟨_, rfl, by rw [List.getElem?_insertIdx_self, if_pos hle]⟩
    exact ⟨_, c, hc, copyOf hs hn h2 h3 (childD_kid hc) h5⟩
  · obtain ⟨⟨e, h1⟩, _⟩ := insertIdx_err (h := h) (r := n) (i := i) (o := .json s) (fun cs hc => hd ⟨cs, hc⟩)
    rw [h1] at hok; cases hok

/-- C16: two documents with nothing in common stay so through any history of calls on any
instances. -/
theorem C16_stay_apart (h h' : JHeap) (hh : History h) (s c : Ref) (hs : s < h.next) (hc : c < h.next)
    (hA : Apart h s c) (hl : Later h h') : Apart h' s c := (hl.spec hh.winv).2.2 s c hs hc hA

/-- C16: then, after any history, no call on an instance of the one is visible in the other. -/
theorem C16_independent (h h' : JHeap) (hh : History h) (s c : Ref) (hs : s < h.next) (hc : c < h.next)
    (hA : Apart h s c) (hl : Later h h') (op : JOp) (ha : op.ArgsOk h') (r : Ref)
    (hr : op.receiver = some r) :
    (Within h' s r → val (op.step h') c = val h' c) ∧
    (Within h' c r → val (op.step h') s = val h' s) := by
  obtain ⟨h1, h2, h3⟩ := hl.spec hh.winv
  have hA' := h3 s c hs hc hA
  exact ⟨fun hw => step_val_apart h1 op ha (by omega) hA' hr hw,
    fun hw => step_val_apart h1 op ha (by omega) (fun x hx hy => hA' x hy hx) hr hw⟩

/-- A heap with `JSON({"a": null})` as instance 0 and `JSON([null])` as instance 2. -/
def heapPair : JHeap :=
  (newJson (newJson .empty (.obj [("a", .null)]) none none).1 (.arr [.null]) none none).1

theorem heapPair_history : History heapPair :=
  .call (.new (.arr [.null])) (.call (.new (.obj [("a", .null)])) .start
    (.obj (by decide) (by simp; exact .null))) (.arr (by simp; exact .null))

example : History heapPair ∧ (setKey heapPair 0 "a" (.json 2)).2 = .ok () ∧ ¬ Within heapPair 2 0 := by
  refine ⟨heapPair_history, rfl, ?_⟩
  rintro ⟨ks, hr⟩
  have := desc_le heapPair_history.winv.ord (reach_desc hr)
  omega

/-! ## C17: in-place add, remove, replace -/

theorem opAt_unique {f : String → Value → Except Exc Value} {doc a b : Value} {ks : List String}
    {k : String} (h1 : opAt f doc ks k = .ok a)
    (h2 : At (fun v v' => f k v = .ok v') doc ks b) : b = a := by
  have := (opAt_ok_iff f doc b ks k).2 h2
  rw [h1] at this
  cases this; rfl

/-- C17: where `jsonpatch.add` succeeds, `doc.add` succeeds with the same result. -/
theorem C17_add (h : JHeap) (hh : History h) (r : Ref) (hr : r < h.next) (p : Ptr) (o : JArg)
    (ho : o.Ok h) (doc' : Value) (hp : patchAdd (val h r) p (o.val h) = .ok doc') :
    (jsonAdd h r p o).2 = .ok () ∧ val (jsonAdd h r p o).1 r = doc' := by
  have hi := hh.winv
  rcases ptr_cases p with rfl | ⟨ks, k, rfl⟩
  · simp only [patchAdd, patchNode_root, Except.ok.injEq] at hp
    subst hp
    simp only [jsonAdd, Ptr.len, List.length_nil, if_true]
    exact ⟨trivial, (reinit_arg_spec hi hr ho).val⟩
  · rw [patchAdd_snoc] at hp
    obtain ⟨v, v', h1, h2, h3⟩ := (at_iff ..).1 ((opAt_ok_iff ..).1 hp)
    obtain ⟨c, hc, rfl⟩ := plain_reach hi.ord h1
    have hlt := desc_has hi.ord (reach_desc hc) hr
    have hlen : ¬ (Ptr.mk (ks ++ [k])).len = 0 := by simp [Ptr.len]
    unfold jsonAdd
    simp only [hlen, if_false, parent_slice, reach_resolve hi.nodup hc, item_last]
    have fin : ∀ {h' : JHeap} {g : Prop}, Did h h' c g v' → val h' r = doc' :=
      fun hd => opAt_unique hp (hd.at hi hr hc h2)
    cases hd : h.data c with
    | arr cs =>
      rw [val_arr hi.ord hd] at h2
      simp only [addLocal, nodeKind, List.length_map] at h2
      cases hns : nodeSeq cs.length k with
      | error e => simp [hns] at h2
      | ok t =>
        have hbound : ∀ i : Nat, i ≤ cs.length → sliceBound cs.length (i : Int) = i := by
          intro i hi'; unfold sliceBound; rw [if_neg (by omega)]; omega
        rcases nodeSeq_ok_cases hns with ⟨i, rfl⟩ | rfl
        · have hil := (nodeSeq_item.1 hns).2
          simp only [hns, seqInsert, Except.ok.injEq] at h2 ⊢
          obtain ⟨g1, g2, _⟩ := insertIdx_spec hi hlt ho (i := (i : Int)) hd
          rw [hbound i (by omega), h2] at g2
          exact ⟨g1, fin g2⟩
        · simp only [hns, seqInsert, Except.ok.injEq] at h2 ⊢
          obtain ⟨g1, g2, _⟩ := insertIdx_spec hi hlt ho (i := (cs.length : Int)) hd
          rw [hbound _ (Nat.le_refl _), h2] at g2
          exact ⟨g1, fin g2⟩
    | obj ms =>
      rw [val_obj hi.ord hd] at h2
      obtain ⟨g1, g2, _⟩ := setKey_spec hi hlt ho (k := k) hd
      have hv' : v' = .obj (dset k (o.val h) (ms.map (fun m => (m.1, val h m.2)))) := by
        simp only [addLocal, nodeKind] at h2
        cases hk : dlookup k (ms.map (fun m => (m.1, val h m.2))) <;>
          simp [hk, mapSet] at h2 <;> exact h2.symm
      rw [← hv'] at g2
      exact ⟨g1, fin g2⟩
    | str s =>
      rw [val_eq hi.ord, hd] at h2
      simp only [dataVal, addLocal, nodeKind] at h2
      cases hns : nodeSeq s.length k with
      | error e => simp [hns] at h2
      | ok t => rcases nodeSeq_ok_cases hns with ⟨i, rfl⟩ | rfl <;> simp [hns, seqInsert] at h2
    | _ =>
      rw [val_eq hi.ord, hd] at h2
      simp [dataVal, addLocal, nodeKind] at h2

/-- The target of a JSON Patch operation on an array or object, as an instance. -/
theorem target_item {h : JHeap} (hi : JInv h) {r c : Ref} {ks : List String} {k : String}
    {cs : List Ref} (hc : Reach h r ks c) (hd : h.data c = .arr cs) {i : Nat}
    (hns : nodeSeq cs.length k = .ok (.item i)) :
    ∃ t, resolveJson h (ks ++ [k]) r = .ok t ∧ h.parent t = some c ∧ intKey h t = .ok (i : Int) := by
  obtain ⟨hk, hil⟩ := nodeSeq_item.1 hns
  have ht : cs[i]? = some cs[i] := List.getElem?_eq_getElem hil
  refine ⟨cs[i], ?_, ?_, ?_⟩
  · rw [resolveJson_append, reach_resolve hi.weak.nodup hc]
    have : pyInt k = some (i : Int) := pyIndexSpelling_iff.1 hk
    simp only [resolveJson, hd, this, pyIndex_natCast, ht]
  · exact (hi.ord.kid c _ (by rw [hd]; exact List.getElem_mem hil)).2.2
  · have := hi.keys.key c (natStr i) cs[i] (by rw [Child, hd]; exact ⟨i, rfl, ht⟩)
    simp [intKey, this, pyInt_natStr]

theorem target_member {h : JHeap} (hi : JInv h) {r c : Ref} {ks : List String} {k : String}
    {ms : List (String × Ref)} (hc : Reach h r ks c) (hd : h.data c = .obj ms) (hk : k ∈ dkeys ms) :
    ∃ t, resolveJson h (ks ++ [k]) r = .ok t ∧ h.parent t = some c ∧ h.key t = some k := by
  cases hl : dlookup k ms with
  | none => exact absurd hk (dlookup_eq_none.1 hl)
  | some t =>
    have hch : Child h c k t := by rw [Child, hd]; exact dlookup_mem hl
    exact ⟨t, reach_resolve hi.weak.nodup (reach_append hc (reach_one.2 hch)),
      (hi.ord.kid c t (childD_kid hch)).2.2, hi.keys.key c k t hch⟩

/-- C17: where `jsonpatch.remove` succeeds, `doc.remove` succeeds with the same result, for a document
edited only through indices in range. Missing: other histories, where it fails
(`C17_remove_after_pop`). -/
theorem C17_remove_partial (h : JHeap) (hh : InRangeHistory h) (r : Ref) (hr : r < h.next) (p : Ptr)
    (doc' : Value) (hp : patchRemove (val h r) p = .ok doc') :
    (jsonRemove h r p).2 = .ok () ∧ val (jsonRemove h r p).1 r = doc' := by
  have hj := hh.inv
  have hi := hj.weak
  rcases ptr_cases p with rfl | ⟨ks, k, rfl⟩
  · simp only [patchRemove, patchNode_root, Except.ok.injEq] at hp
    subst hp
    simp only [jsonRemove, Ptr.len, List.length_nil, if_true]
    exact ⟨trivial, (reinit_spec hi hr .null).val⟩
  · rw [patchRemove_snoc] at hp
    obtain ⟨v, v', h1, h2, h3⟩ := (at_iff ..).1 ((opAt_ok_iff ..).1 hp)
    obtain ⟨c, hc, rfl⟩ := plain_reach hi.ord h1
    have hlt := desc_has hi.ord (reach_desc hc) hr
    have hlen : ¬ (Ptr.mk (ks ++ [k])).len = 0 := by simp [Ptr.len]
    unfold jsonRemove
    simp only [hlen, if_false]
    have fin : ∀ {h' : JHeap} {g : Prop}, Did h h' c g v' → val h' r = doc' :=
      fun hd => opAt_unique hp (hd.at hi hr hc h2)
    cases hd : h.data c with
    | arr cs =>
      rw [val_arr hi.ord hd] at h2
      simp only [removeLocal, nodeKind, List.length_map] at h2
      cases hns : nodeSeq cs.length k with
      | error e => simp [hns] at h2
      | ok t =>
        rcases nodeSeq_ok_cases hns with ⟨i, rfl⟩ | rfl
        · have hil := (nodeSeq_item.1 hns).2
          obtain ⟨t, t1, t2, t3⟩ := target_item hj hc hd hns
          simp only [hns, seqDel, Except.ok.injEq] at h2
          simp only [t1, t2, hd, t3]
          have hpos : pyPos cs.length (i : Int) = some i := by
            unfold pyPos; rw [if_pos (by omega), if_pos (by omega)]; rfl
          obtain ⟨g1, g2⟩ := delIdx_spec hi hlt hd hpos
          rw [h2] at g2
          exact ⟨g1, fin g2⟩
        · simp [hns] at h2
    | obj ms =>
      rw [val_obj hi.ord hd] at h2
      simp only [removeLocal, nodeKind] at h2
      cases hk : dlookup k (ms.map (fun m => (m.1, val h m.2))) with
      | none => simp [hk] at h2
      | some w =>
        simp [hk, mapDel] at h2
        have hkm : k ∈ dkeys ms := by
          cases hl : dlookup k ms with
          | none => rw [dlookup_map, hl] at hk; cases hk
          | some t => exact List.mem_map_of_mem (f := Prod.fst) (dlookup_mem hl)
        obtain ⟨t, t1, t2, t3⟩ := target_member hj hc hd hkm
        simp only [t1, t2, hd, t3, Option.getD_some]
        obtain ⟨g1, g2⟩ := delKey_spec hi hlt hd hkm
        rw [h2] at g2
        exact ⟨g1, fin g2⟩
    | str s =>
      rw [val_eq hi.ord, hd] at h2
      simp only [dataVal, removeLocal, nodeKind] at h2
      cases hns : nodeSeq s.length k with
      | error e => simp [hns] at h2
      | ok t => rcases nodeSeq_ok_cases hns with ⟨i, rfl⟩ | rfl <;> simp [hns, seqDel] at h2
    | _ =>
      rw [val_eq hi.ord, hd] at h2
      simp [dataVal, removeLocal, nodeKind] at h2

/-- C17: where `jsonpatch.replace` succeeds, `doc.replace` succeeds with the same result, for a
document edited only through indices in range. Missing: other histories, where it fails in the same
way as `remove`. -/
theorem C17_replace_partial (h : JHeap) (hh : InRangeHistory h) (r : Ref) (hr : r < h.next) (p : Ptr)
    (o : JArg) (ho : o.Ok h) (doc' : Value) (hp : patchReplace (val h r) p (o.val h) = .ok doc') :
    (jsonReplace h r p o).2 = .ok () ∧ val (jsonReplace h r p o).1 r = doc' := by
  have hj := hh.inv
  have hi := hj.weak
  rcases ptr_cases p with rfl | ⟨ks, k, rfl⟩
  · simp only [patchReplace, patchNode_root, Except.ok.injEq] at hp
    subst hp
    simp only [jsonReplace, Ptr.len, List.length_nil, if_true]
    exact ⟨trivial, (reinit_arg_spec hi hr ho).val⟩
  · rw [patchReplace_snoc] at hp
    obtain ⟨v, v', h1, h2, h3⟩ := (at_iff ..).1 ((opAt_ok_iff ..).1 hp)
    obtain ⟨c, hc, rfl⟩ := plain_reach hi.ord h1
    have hlt := desc_has hi.ord (reach_desc hc) hr
    have hlen : ¬ (Ptr.mk (ks ++ [k])).len = 0 := by simp [Ptr.len]
    unfold jsonReplace
    simp only [hlen, if_false]
    have fin : ∀ {h' : JHeap} {g : Prop}, Did h h' c g v' → val h' r = doc' :=
      fun hd => opAt_unique hp (hd.at hi hr hc h2)
    cases hd : h.data c with
    | arr cs =>
      rw [val_arr hi.ord hd] at h2
      simp only [replaceLocal, nodeKind, List.length_map] at h2
      cases hns : nodeSeq cs.length k with
      | error e => simp [hns] at h2
      | ok t =>
        rcases nodeSeq_ok_cases hns with ⟨i, rfl⟩ | rfl
        · have hil := (nodeSeq_item.1 hns).2
          obtain ⟨t, t1, t2, t3⟩ := target_item hj hc hd hns
          simp only [hns, seqSet, Except.ok.injEq] at h2
          simp only [t1, t2, hd, t3]
          have hpos : pyPos cs.length (i : Int) = some i := by
            unfold pyPos; rw [if_pos (by omega), if_pos (by omega)]; rfl
          obtain ⟨g1, g2, _⟩ := setIdx_spec hi hlt ho hd hpos
          rw [h2] at g2
          exact ⟨g1, fin g2⟩
        · simp [hns] at h2
    | obj ms =>
      rw [val_obj hi.ord hd] at h2
      simp only [replaceLocal, nodeKind] at h2
      cases hk : dlookup k (ms.map (fun m => (m.1, val h m.2))) with
      | none => simp [hk] at h2
      | some w =>
        simp [hk, mapSet] at h2
        have hkm : k ∈ dkeys ms := by
          cases hl : dlookup k ms with
          | none => rw [dlookup_map, hl] at hk; cases hk
          | some t => exact List.mem_map_of_mem (f := Prod.fst) (dlookup_mem hl)
        obtain ⟨t, t1, t2, t3⟩ := target_member hj hc hd hkm
        simp only [t1, t2, hd, t3, Option.getD_some]
        obtain ⟨g1, g2, _⟩ := setKey_spec hi hlt ho (k := k) hd
        rw [h2] at g2
        exact ⟨g1, fin g2⟩
    | str s =>
      rw [val_eq hi.ord, hd] at h2
      simp only [dataVal, replaceLocal, nodeKind] at h2
      cases hns : nodeSeq s.length k with
      | error e => simp [hns] at h2
      | ok t => rcases nodeSeq_ok_cases hns with ⟨i, rfl⟩ | rfl <;> simp [hns, seqSet] at h2
    | _ =>
      rw [val_eq hi.ord, hd] at h2
      simp [dataVal, replaceLocal, nodeKind] at h2

/-- C17 fails after `a = JSON([10, 20, 30]); a.pop()`: the positions are then wrong (C13), and
`a.remove("/1")` removes the item at index 0. -/
theorem C17_remove_after_pop :
    patchRemove (val (popIdx heapThree 0 (-1)).1 0) ⟨["1"]⟩ = .ok (.arr [.num (.int 10)]) ∧
    (jsonRemove (popIdx heapThree 0 (-1)).1 0 ⟨["1"]⟩).2 = .ok () ∧
    val (jsonRemove (popIdx heapThree 0 (-1)).1 0 ⟨["1"]⟩).1 0 = .arr [.num (.int 20)] :=
  ⟨rfl, rfl, rfl⟩

/-- C17: when `add` raises, no instance has changed. -/
theorem C17_add_fails (h : JHeap) (hh : History h) (r : Ref) (hr : r < h.next) (p : Ptr) (o : JArg)
    (ho : o.Ok h) (e : Exc) (he : (jsonAdd h r p o).2 = .error e) (x : Ref) (hx : x < h.next) :
    val (jsonAdd h r p o).1 x = val h x := by
  have hi := hh.winv
  unfold jsonAdd at he ⊢
  split at he
  · cases he
  · rename_i hlen
    simp only [hlen, if_false]
    cases hres : resolveJson h (p.slice none (some (-1))).keys r with
    | error e' => rfl
    | ok c =>
      obtain ⟨ks, _, hc⟩ := resolve_reach hres
      have hlt := desc_has hi.ord (reach_desc hc) hr
      simp only [hres] at he ⊢
      cases hit : p.item (-1) with
      | none => rfl
      | some k =>
        simp only [hit] at he ⊢
        cases hd : h.data c with
        | arr cs =>
          simp only [hd] at he ⊢
          cases hns : nodeSeq cs.length k with
          | error e' => rfl
          | ok t =>
            rcases nodeSeq_ok_cases hns with ⟨i, rfl⟩ | rfl
            · simp only [hns, (insertIdx_spec hi hlt ho (i := (i : Int)) hd).1] at he
              cases he
            · simp only [hns, (insertIdx_spec hi hlt ho (i := (cs.length : Int)) hd).1] at he
              cases he
        | obj ms => simp only [hd, (setKey_spec hi hlt ho (k := k) hd).1] at he; cases he
        | _ => exact (noop_readPath hi hlt).val hi.ord hx

/-- C17: when `remove` raises, no instance has changed. -/
theorem C17_remove_fails (h : JHeap) (hh : History h) (r : Ref) (hr : r < h.next) (p : Ptr)
    (e : Exc) (he : (jsonRemove h r p).2 = .error e) (x : Ref) :
    val (jsonRemove h r p).1 x = val h x := by
  have hi := hh.winv
  unfold jsonRemove at he ⊢
  split at he
  · cases he
  · rename_i hlen
    simp only [hlen, if_false]
    cases hres : resolveJson h p.keys r with
    | error e' => rfl
    | ok t =>
      obtain ⟨q, h1, h2, h3⟩ := target_parent hi.ord (ptr_len_ne hlen) hres
      have hq := desc_has hi.ord h1 hr
      simp only [hres, h2] at he ⊢
      cases hd : h.data q with
      | arr cs =>
        simp only [hd] at he ⊢
        cases hk : intKey h t with
        | error e' => rfl
        | ok z =>
          simp only [hk] at he ⊢
          rcases arr_cases (h := h) q z with ⟨cs', j, hd', hp⟩ | hno
          · rw [(delIdx_spec hi hq hd' hp).1] at he; cases he
          · rw [(delIdx_err hno).2]
      | obj ms =>
        simp only [hd] at he ⊢
        by_cases hk : (h.key t).getD "" ∈ dkeys ms
        · rw [(delKey_spec hi hq hd hk).1] at he; cases he
        · rw [(delKey_err (fun ms' hm => by rw [hd] at hm; cases hm; exact hk)).2]
      | _ => rfl

/-- C17: when `replace` raises, no instance has changed. -/
theorem C17_replace_fails (h : JHeap) (hh : History h) (r : Ref) (hr : r < h.next) (p : Ptr) (o : JArg)
    (ho : o.Ok h) (e : Exc) (he : (jsonReplace h r p o).2 = .error e) (x : Ref) (hx : x < h.next) :
    val (jsonReplace h r p o).1 x = val h x := by
  have hi := hh.winv
  unfold jsonReplace at he ⊢
  split at he
  · cases he
  · rename_i hlen
    simp only [hlen, if_false]
    cases hres : resolveJson h p.keys r with
    | error e' => rfl
    | ok t =>
      obtain ⟨q, h1, h2, h3⟩ := target_parent hi.ord (ptr_len_ne hlen) hres
      have hq := desc_has hi.ord h1 hr
      simp only [hres, h2] at he ⊢
      cases hd : h.data q with
      | arr cs =>
        simp only [hd] at he ⊢
        cases hk : intKey h t with
        | error e' => rfl
        | ok z =>
          simp only [hk] at he ⊢
          rcases arr_cases (h := h) q z with ⟨cs', j, hd', hp⟩ | hno
          · rw [(setIdx_spec hi hq ho hd' hp).1] at he; cases he
          · exact (setIdx_err hi hq ho hno).2.val hi.ord hx
      | obj ms =>
        simp only [hd, (setKey_spec hi hq ho (k := (h.key t).getD "") hd).1] at he
        cases he
      | _ => rfl

example : InRangeHistory heapThree ∧
    patchRemove (val heapThree 0) ⟨["1"]⟩ = .ok (.arr [.num (.int 10), .num (.int 30)]) :=
  ⟨heapThree_history, rfl⟩

end Jschon
