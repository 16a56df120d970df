import Verif.Spec.JsonMixins
import Verif.Proof.JsonMixins
import Verif.Props.JsonEval
import Verif.Props.JsonHeap

/-!
# The container methods that JSON instances inherit: C65, C66
-/

namespace Jschon
open Spec

/-! ## C65: arrays -/

theorem not_within {h : JHeap} {x r : Ref} (hw : ¬ Within h x r) : ¬ Desc h x r :=
  fun hd => hw (desc_reach hd)

theorem val_cases_arr {h : JHeap} (hi : WInv h) {r : Ref} {xs : List Value} (hv : val h r = .arr xs) :
    ∃ cs, h.data r = .arr cs ∧ cs.map (val h) = xs := by
  obtain ⟨cs, h1, h2⟩ := val_arr_inv hi.ord hv
  exact ⟨cs, h1, h2.symm⟩

theorem val_cases_obj {h : JHeap} (hi : WInv h) {r : Ref} {kvs : List (String × Value)}
    (hv : val h r = .obj kvs) : ∃ ms, h.data r = .obj ms ∧ ms.map (fun m => (m.1, val h m.2)) = kvs := by
  obtain ⟨ms, h1⟩ := val_obj_inv hi.ord hv
  rw [val_obj hi.ord h1] at hv
  exact ⟨ms, h1, by injection hv⟩

theorem JIter.Yields.args {h : JHeap} (hi : WInv h) {r : Ref} {values : JIter} {ws : List Value}
    (hy : values.Yields h r ws) :
    ∃ os, values.args h = .ok os ∧ (∀ o ∈ os, o.Ok h ∧ o.Apart h r) ∧ os.map (·.val h) = ws := by
  cases values with
  | list os =>
    obtain ⟨h1, h2, h3⟩ := hy
    refine ⟨os, rfl, fun o ho => ⟨h1 o ho, ?_⟩, h3.symm⟩
    rintro x rfl
    exact not_within (h2 x ho)
  | json s =>
    obtain ⟨h1, h2, h3⟩ := hy
    have kids : ∀ c ∈ (h.data s).kids, (JArg.json c).Ok h ∧ (JArg.json c).Apart h r := by
      intro c hc
      refine ⟨(hi.ord.kid s c hc).2.1, ?_⟩
      rintro x ⟨⟩
      rcases h2 with rfl | h2
      · exact kid_not_above hi hc
      · exact fun hd => h2 (desc_reach (.step hc hd))
    generalize hv : val h s = v at h3
    cases h3 with
    | @arr xs =>
      obtain ⟨cs, a1, a2⟩ := val_cases_arr hi hv
      refine ⟨cs.map .json, by simp [JIter.args, a1], ?_, ?_⟩
      · intro o ho
        obtain ⟨c, hc, rfl⟩ := List.mem_map.1 ho
        exact kids c (by rw [a1]; exact hc)
      · rw [List.map_map]; exact a2
    | @obj kvs =>
      obtain ⟨ms, a1, a2⟩ := val_cases_obj hi hv
      refine ⟨(dkeys ms).map (fun k => .plain (.str k)), by simp [JIter.args, a1], ?_, ?_⟩
      · intro o ho
        obtain ⟨k, hk, rfl⟩ := List.mem_map.1 ho
        exact ⟨Value.WF.str, fun x hx => by cases hx⟩
      · rw [← a2]
        simp [dkeys, JArg.val, Function.comp_def]
    | @str t =>
      have hd : h.data s = .str t := by
        rw [val_eq hi.ord] at hv
        cases hd : h.data s <;> rw [hd] at hv <;> cases hv
        rfl
      refine ⟨t.toList.map (fun c => .plain (.str (String.singleton c))), by simp [JIter.args, hd], ?_, ?_⟩
      · intro o ho
        obtain ⟨k, hk, rfl⟩ := List.mem_map.1 ho
        exact ⟨Value.WF.str, fun x hx => by cases hx⟩
      · simp [JArg.val, Function.comp_def]

/-- C65: `n.extend(values)` on an array does to the document what it does to the nested list, for a
list of values and instances, and for an instance; `n.extend(n)` doubles the array. -/
theorem C65_extend (h : JHeap) (hh : History h) (root n : Ref) (ks : List String) (hr : root < h.next)
    (hn : Jschon.Reach h root ks n) (xs : List Value) (hx : val h n = .arr xs) (values : JIter)
    (ws : List Value) (hy : values.Yields h n ws) :
    (extendJson h n values).2 = .ok () ∧
    At (PyExtend ws) (val h root) ks (val (extendJson h n values).1 root) ∧
    History (extendJson h n values).1 ∧ (InRangeHistory h → InRangeHistory (extendJson h n values).1) := by
  have hi := hh.winv
  have hlt := desc_has hi.ord (reach_desc hn) hr
  obtain ⟨cs, hd, hcs⟩ := val_cases_arr hi hx
  obtain ⟨os, a1, a2, a3⟩ := hy.args hi
  obtain ⟨b1, b2, b3⟩ := appendAll_spec n os hi hlt a2 hd
  simp only [extendJson, a1]
  refine ⟨b1, b2.at hi hr hn ?_, closed_history.appendAll n os hh hlt fun o ho => (a2 o ho).1,
    fun hh' => closed_inRange.appendAll n os hh' hlt fun o ho => (a2 o ho).1⟩
  rw [b3, hx, hcs, a3]
  exact .mk

/-- C65: `n += n` and `n.extend(n)` double the array. -/
theorem C65_extend_self (h : JHeap) (hh : History h) (n : Ref) (hn : n < h.next) (xs : List Value)
    (hx : val h n = .arr xs) : val (extendJson h n (.json n)).1 n = .arr (xs ++ xs) := by
  have := (C65_extend h hh n n [] hn .here xs hx (.json n) xs ⟨hn, .inl rfl, by rw [hx]; exact .arr⟩).2.1
  rw [hx] at this
  generalize hv : val (extendJson h n (.json n)).1 n = v at this
  cases this with
  | here h1 => cases h1; rfl

/-- C65: what is not an array cannot be extended: nothing is changed. -/
theorem C65_extend_other (h : JHeap) (hh : History h) (n : Ref) (hx : ¬ ∃ xs, val h n = .arr xs)
    (values : JIter) : (extendJson h n values).1 = h ∧
    (values.args h ≠ .ok [] → ∃ e, (extendJson h n values).2 = .error e) := by
  have hd : ∀ cs, h.data n ≠ .arr cs := fun cs hc => hx ⟨_, val_arr hh.winv.ord hc⟩
  unfold extendJson
  cases ha : values.args h with
  | error e => exact ⟨rfl, fun _ => ⟨e, rfl⟩⟩
  | ok os =>
    obtain ⟨h1, h2⟩ := appendAll_noop n os hd
    exact ⟨h1, fun hne => h2 (by rintro rfl; exact hne rfl)⟩

/-- C65: `n.reverse()` on an array. -/
theorem C65_reverse (h : JHeap) (hh : History h) (root n : Ref) (ks : List String) (hr : root < h.next)
    (hn : Jschon.Reach h root ks n) (xs : List Value) (hx : val h n = .arr xs) :
    (reverseJson h n).2 = .ok () ∧
    At PyReverse (val h root) ks (val (reverseJson h n).1 root) ∧
    History (reverseJson h n).1 ∧ (InRangeHistory h → InRangeHistory (reverseJson h n).1) := by
  have hi := hh.winv
  have hlt := desc_has hi.ord (reach_desc hn) hr
  obtain ⟨cs, hd, hcs⟩ := val_cases_arr hi hx
  have hlen : xs.length = cs.length := by rw [← hcs]; simp
  obtain ⟨b1, b2, b3⟩ := reverseLoop_spec n cs.length xs hlen (cs.length / 2) 0 (by omega) hi hlt hd rfl (by
    intro j hj
    rw [if_neg (by omega), hcs])
  simp only [reverseJson, lenJson, hd]
  refine ⟨b1, b2.at hi hr hn ?_, closed_history.reverseLoop n _ _ 0 (by omega) hh hlt,
    fun hh' => closed_inRange.reverseLoop n _ _ 0 (by omega) hh' hlt⟩
  rw [b3, hx]
  exact .mk

/-- C65: `n.clear()` on an array. -/
theorem C65_clear (h : JHeap) (hh : History h) (root n : Ref) (ks : List String) (hr : root < h.next)
    (hn : Jschon.Reach h root ks n) (xs : List Value) (hx : val h n = .arr xs) :
    (clearJson h n).2 = .ok () ∧
    At PyClear (val h root) ks (val (clearJson h n).1 root) ∧ History (clearJson h n).1 := by
  have hi := hh.winv
  have hlt := desc_has hi.ord (reach_desc hn) hr
  obtain ⟨cs, hd, hcs⟩ := val_cases_arr hi hx
  obtain ⟨b1, b2, b3⟩ := clearLoop_spec n (cs.length + 1) hi hlt hd (by omega)
  have b4 := clearLoop_history n (cs.length + 1) hh hlt
  simp only [clearJson, hd, JData.kids]
  generalize clearLoop n (cs.length + 1) h = q at b1 b2 b3 b4
  obtain ⟨q1, q2⟩ := q
  cases b1
  refine ⟨rfl, b2.at hi hr hn ?_, b4⟩
  rw [b3, hx]
  exact .mk

theorem sameItem_iff {h : JHeap} (hi : WInv h) {o : JArg} (ho : o.Ok h) {c : Ref} (hc : c < h.next) :
    sameItem h o c = true ↔ Same (val h c) (o.val h) := by
  unfold sameItem
  rw [Bool.or_eq_true, jsonEq_iff_same _ _ (val_wf hi c) (argVal_wf hi ho)]
  refine ⟨fun h1 => ?_, .inr⟩
  rcases h1 with h1 | h1
  · cases o with
    | plain v => cases h1
    | json x =>
      have : x = c := by simpa using h1
      subst this
      exact same_refl _
  · exact h1

/-- C65: `value in n` on an array: some item is equal to it. -/
theorem C65_contains (h : JHeap) (hh : History h) (n : Ref) (xs : List Value) (hx : val h n = .arr xs)
    (o : JArg) (ho : o.Ok h) : ∃ b, containsJson h n o = .ok b ∧ (b = true ↔ ∃ x ∈ xs, Same x (o.val h)) := by
  have hi := hh.winv
  obtain ⟨cs, hd, hcs⟩ := val_cases_arr hi hx
  have hlt : ∀ c ∈ cs, c < h.next := fun c hc => (hi.ord.kid n c (by rw [hd]; exact hc)).2.1
  refine ⟨cs.any (sameItem h o), by simp only [containsJson, hd], ?_⟩
  subst hcs
  simp only [List.any_eq_true]
  refine ⟨fun ⟨c, h1, h2⟩ => ⟨_, List.mem_map_of_mem h1, (sameItem_iff hi ho (hlt c h1)).1 h2⟩, ?_⟩
  rintro ⟨x, h1, h2⟩
  obtain ⟨c, h3, rfl⟩ := List.mem_map.1 h1
  exact ⟨c, h3, (sameItem_iff hi ho (hlt c h3)).2 h2⟩

theorem indexFrom_spec {h : JHeap} (hi : WInv h) {o : JArg} (ho : o.Ok h) (i : Nat) (cs : List Ref)
    (hlt : ∀ c ∈ cs, c < h.next) :
    (∃ j : Nat, indexFrom h o i cs = .ok (i + j) ∧ (∃ x, (cs.map (val h))[j]? = some x ∧ Same x (o.val h)) ∧
      ∀ k < j, ∀ x, (cs.map (val h))[k]? = some x → ¬ Same x (o.val h)) ∨
    (indexFrom h o i cs = .error .valueError ∧ ∀ x ∈ cs.map (val h), ¬ Same x (o.val h)) := by
  induction cs generalizing i with
  | nil => exact .inr ⟨rfl, by simp⟩
  | cons c cs ih =>
    have hc := sameItem_iff hi ho (hlt c (by simp))
    unfold indexFrom
    by_cases hs : sameItem h o c = true
    · left
      refine ⟨0, by simp [hs], ⟨_, rfl, hc.1 hs⟩, by omega⟩
    · simp only [hs, Bool.false_eq_true, if_false]
      rcases ih (i + 1) (fun c' hc' => hlt c' (by simp [hc'])) with ⟨j, h1, h2, h3⟩ | ⟨h1, h2⟩
      · left
        refine ⟨j + 1, by rw [h1]; congr 1; omega, by simpa using h2, fun k hk x hx => ?_⟩
        cases k with
        | zero => simp only [List.map_cons, List.getElem?_cons_zero, Option.some.injEq] at hx
                  subst hx; exact fun h4 => hs (hc.2 h4)
        | succ k => exact h3 k (by omega) x (by simpa using hx)
      · right
        refine ⟨h1, fun x hx => ?_⟩
        simp only [List.map_cons, List.mem_cons] at hx
        rcases hx with rfl | hx
        · exact fun h4 => hs (hc.2 h4)
        · exact h2 x hx

/-- C65: `n.index(value)` on an array: the first position of an equal item, ValueError if there is
none. -/
theorem C65_index (h : JHeap) (hh : History h) (n : Ref) (xs : List Value) (hx : val h n = .arr xs)
    (o : JArg) (ho : o.Ok h) :
    (∃ j : Nat, indexJson h n o = .ok j ∧ (∃ x, xs[j]? = some x ∧ Same x (o.val h)) ∧
      ∀ k < j, ∀ x, xs[k]? = some x → ¬ Same x (o.val h)) ∨
    (indexJson h n o = .error .valueError ∧ ∀ x ∈ xs, ¬ Same x (o.val h)) := by
  have hi := hh.winv
  obtain ⟨cs, hd, hcs⟩ := val_cases_arr hi hx
  subst hcs
  have := indexFrom_spec hi ho 0 cs fun c hc => (hi.ord.kid n c (by rw [hd]; exact hc)).2.1
  simpa only [indexJson, hd, Nat.zero_add] using this

/-- C65: `n.count(value)` on an array: the items equal to it are as many as that. -/
theorem C65_count (h : JHeap) (hh : History h) (n : Ref) (xs : List Value) (hx : val h n = .arr xs)
    (o : JArg) (ho : o.Ok h) :
    ∃ ys : List Value, countJson h n o = .ok ys.length ∧ ys.Sublist xs ∧ (∀ x ∈ ys, Same x (o.val h)) ∧
      ∀ zs : List Value, zs.Sublist xs → (∀ x ∈ zs, Same x (o.val h)) → zs.length ≤ ys.length := by
  have hi := hh.winv
  obtain ⟨cs, hd, hcs⟩ := val_cases_arr hi hx
  subst hcs
  have hlt : ∀ c ∈ cs, c < h.next := fun c hc => (hi.ord.kid n c (by rw [hd]; exact hc)).2.1
  have heq : cs.countP (sameItem h o) = (cs.map (val h)).countP (fun v => jsonEq v (o.val h)) := by
    rw [List.countP_map]
    refine List.countP_congr fun c hc => ?_
    rw [sameItem_iff hi ho (hlt c hc), Function.comp, jsonEq_iff_same _ _ (val_wf hi c) (argVal_wf hi ho)]
  have hs : ∀ x ∈ cs.map (val h), jsonEq x (o.val h) = true ↔ Same x (o.val h) := by
    intro x hx
    obtain ⟨c, hc, rfl⟩ := List.mem_map.1 hx
    exact jsonEq_iff_same _ _ (val_wf hi c) (argVal_wf hi ho)
  refine ⟨(cs.map (val h)).filter (fun v => jsonEq v (o.val h)), ?_, List.filter_sublist, ?_, ?_⟩
  · simp only [countJson, hd, heq, List.countP_eq_length_filter]
  · intro x hx
    obtain ⟨h1, h2⟩ := List.mem_filter.1 hx
    exact (hs x h1).1 h2
  · intro zs h1 h2
    rw [← List.countP_eq_length_filter]
    have h3 : zs.countP (fun v => jsonEq v (o.val h)) = zs.length := by
      rw [List.countP_eq_length]
      exact fun x hx => (hs x (h1.mem hx)).2 (h2 x hx)
    rw [← h3]
    exact h1.countP_le

/-- `[1, [2]]` reversed in place, doubled, and cleared. -/
def heapNest : JHeap :=
  (newJson .empty (.obj [("a", .arr [.num (.int 1), .arr [.num (.int 2)]])]) none none).1

theorem heapNest_history : InRangeHistory heapNest :=
  .call (.new (.obj [("a", .arr [.num (.int 1), .arr [.num (.int 2)]])])) .start
    (.obj (by decide) (by
      intro kv hkv
      simp only [List.mem_singleton] at hkv
      subst hkv
      refine .arr ?_
      intro x hx
      simp only [List.mem_cons, List.not_mem_nil, or_false] at hx
      rcases hx with rfl | rfl
      · exact .num
      · refine .arr ?_
        intro x hx
        simp only [List.mem_singleton] at hx
        subst hx
        exact .num)) trivial

example : History heapNest ∧ Jschon.Reach heapNest 0 ["a"] 1 ∧
    val heapNest 1 = .arr [.num (.int 1), .arr [.num (.int 2)]] ∧
    (JIter.json 1).Yields heapNest 1 [.num (.int 1), .arr [.num (.int 2)]] ∧
    val (reverseJson heapNest 1).1 0 = .obj [("a", .arr [.arr [.num (.int 2)], .num (.int 1)])] ∧
    val (extendJson heapNest 1 (.list [.plain .null, .json 3])).1 0 =
      .obj [("a", .arr [.num (.int 1), .arr [.num (.int 2)], .null, .arr [.num (.int 2)]])] ∧
    val (clearJson heapNest 1).1 0 = .obj [("a", .arr [])] ∧
    indexJson heapNest 1 (.plain (.arr [.num (.flt 2)])) = .ok 1 ∧
    countJson heapNest 1 (.plain .null) = .ok 0 :=
  ⟨heapNest_history.history, .step (show ("a", 1) ∈ [("a", 1)] by simp) .here, rfl,
   ⟨by decide, .inl rfl, .arr⟩, rfl, rfl, rfl, rfl, rfl⟩

/-! ## C66: objects

What is missing of the property is `clear`: `C66_clear_raises`. -/

theorem JPairs.Yields.args {h : JHeap} (hi : WInv h) {r : Ref} {other : JPairs} {kws : List (String × Value)}
    (hy : other.Yields h r kws) (hr : r < h.next) {ms : List (String × Ref)} (hd : h.data r = .obj ms) :
    ∃ kos, updateJson h r other = setAll r kos h ∧ (∀ ko ∈ kos, ko.2.Ok h ∧ ko.2.Apart h r) ∧
      kos.map (fun ko => (ko.1, ko.2.val h)) = kws := by
  cases other with
  | pairs kos =>
    obtain ⟨h1, h2, h3⟩ := hy
    refine ⟨kos, rfl, fun ko hko => ⟨h1 ko hko, ?_⟩, h3.symm⟩
    obtain ⟨k, o⟩ := ko
    rintro x rfl
    exact not_within (h2 k x hko)
  | json s =>
    obtain ⟨h1, h2, h3⟩ := hy
    obtain ⟨ms', a1, a2⟩ := val_cases_obj hi h3
    have hnd := hi.nodup s ms' a1
    refine ⟨ms'.map (fun m => (m.1, .json m.2)), ?_, ?_, ?_⟩
    · simp only [updateJson, a1]
      exact setFrom_eq r s ms' hnd hi hr h1 hd fun m hm =>
        getKey_ok.2 ⟨ms', a1, dlookup_of_mem hnd hm⟩
    · intro ko hko
      obtain ⟨m, hm, rfl⟩ := List.mem_map.1 hko
      have hc : m.2 ∈ (h.data s).kids := by rw [a1]; exact List.mem_map_of_mem (f := Prod.snd) hm
      refine ⟨(hi.ord.kid s _ hc).2.1, ?_⟩
      rintro x ⟨⟩
      rcases h2 with rfl | h2
      · exact kid_not_above hi hc
      · exact fun hd => h2 (desc_reach (.step hc hd))
    · rw [← a2, List.map_map]; rfl

theorem foldl_update (kws : List (String × Value)) (d : List (String × Value)) :
    PyUpdate kws (.obj d) (.obj (kws.foldl (fun d kw => dset kw.1 kw.2 d) d)) := by
  induction kws generalizing d with
  | nil => exact .nil
  | cons kw kws ih => exact .cons dset_pySet (ih _)

/-- C66: `n.update(other)` on an object: the members of `other` are assigned in order, for a dict, a list
of pairs, and an instance, also `n` itself. -/
theorem C66_update_partial (h : JHeap) (hh : History h) (root n : Ref) (ks : List String) (hr : root < h.next)
    (hn : Jschon.Reach h root ks n) (kvs : List (String × Value)) (hx : val h n = .obj kvs) (other : JPairs)
    (kws : List (String × Value)) (hy : other.Yields h n kws) :
    (updateJson h n other).2 = .ok () ∧
    At (PyUpdate kws) (val h root) ks (val (updateJson h n other).1 root) ∧
    History (updateJson h n other).1 ∧ (InRangeHistory h → InRangeHistory (updateJson h n other).1) := by
  have hi := hh.winv
  have hlt := desc_has hi.ord (reach_desc hn) hr
  obtain ⟨ms, hd, hms⟩ := val_cases_obj hi hx
  obtain ⟨kos, a1, a2, a3⟩ := hy.args hi hlt hd
  obtain ⟨b1, b2, b3⟩ := setAll_spec n kos hi hlt a2 hd
  rw [a1]
  refine ⟨b1, b2.at hi hr hn ?_, closed_history.setAll n kos hh hlt fun ko hko => (a2 ko hko).1,
    fun hh' => closed_inRange.setAll n kos hh' hlt fun ko hko => (a2 ko hko).1⟩
  rw [b3, hx, hms, ← a3]
  have := foldl_update (kos.map (fun ko => (ko.1, ko.2.val h))) kvs
  rwa [List.foldl_map] at this

/-- C66: `n.pop(k)` on an object removes the member and returns its instance, which keeps its content;
a missing name raises KeyError without effect. -/
theorem C66_pop_partial (h : JHeap) (hh : History h) (root n : Ref) (ks : List String) (hr : root < h.next)
    (hn : Jschon.Reach h root ks n) (kvs : List (String × Value)) (hx : val h n = .obj kvs) (k : String) :
    (∃ c, (popKey h n k).2 = .ok c ∧ Child h n k c ∧ val (popKey h n k).1 c = val h c ∧
      At (PyDelKey k) (val h root) ks (val (popKey h n k).1 root) ∧ History (popKey h n k).1 ∧
      (InRangeHistory h → InRangeHistory (popKey h n k).1)) ∨
    (popKey h n k = (h, .error .keyError) ∧ k ∉ dkeys kvs) := by
  have hi := hh.winv
  have hlt := desc_has hi.ord (reach_desc hn) hr
  obtain ⟨ms, hd, hms⟩ := val_cases_obj hi hx
  have hkeys : dkeys kvs = dkeys ms := by rw [← hms]; simp [dkeys, Function.comp_def]
  cases hl : dlookup k ms with
  | none =>
    right
    refine ⟨by simp [popKey, getKey, hd, hl], ?_⟩
    rw [hkeys]; exact dlookup_eq_none.1 hl
  | some c =>
    left
    have hk : k ∈ dkeys ms := mem_dkeys.2 ⟨c, dlookup_mem hl⟩
    obtain ⟨a1, a2⟩ := delKey_spec hi hlt hd hk
    have hp : popKey h n k = ((delKey h n k).1, .ok c) := by
      simp only [popKey, getKey, hd, hl]
      rw [thenJ_ok a1]
    rw [hp]
    have hkid : c ∈ (h.data n).kids := by
      rw [hd]; exact List.mem_map_of_mem (f := Prod.snd) (dlookup_mem hl)
    refine ⟨c, rfl, by rw [Child, hd]; exact dlookup_mem hl,
      a2.val_other hi.ord (hi.ord.kid n c hkid).2.1 (kid_not_above hi hkid), a2.at hi hr hn ?_,
      .call (.delKey n k) hh hlt, fun hh' => .call (.delKey n k) hh' hlt trivial⟩
    rw [val_obj hi.ord hd]
    exact derase_pyDel (by simpa [dkeys] using hk)

/-- C66: `n.popitem()` on an object removes the first member and returns its name and instance; an
empty object raises KeyError. -/
theorem C66_popitem_partial (h : JHeap) (hh : History h) (root n : Ref) (ks : List String) (hr : root < h.next)
    (hn : Jschon.Reach h root ks n) (kvs : List (String × Value)) (hx : val h n = .obj kvs) :
    (∃ k v kvs' c, kvs = (k, v) :: kvs' ∧ (popItem h n).2 = .ok (k, c) ∧ Child h n k c ∧
      val (popItem h n).1 c = v ∧ At (PyDelKey k) (val h root) ks (val (popItem h n).1 root) ∧
      History (popItem h n).1) ∨
    (kvs = [] ∧ popItem h n = (h, .error .keyError)) := by
  have hi := hh.winv
  have hlt := desc_has hi.ord (reach_desc hn) hr
  obtain ⟨ms, hd, hms⟩ := val_cases_obj hi hx
  cases ms with
  | nil => exact .inr ⟨hms.symm, by simp [popItem, hd]⟩
  | cons m ms =>
    obtain ⟨k, c⟩ := m
    left
    have hl : dlookup k ((k, c) :: ms) = some c := by simp [dlookup]
    have hp : popItem h n = ((popKey h n k).1, (popKey h n k).2.map (fun c => (k, c))) := by
      simp only [popItem, popKey, hd, getKey, hl]
      generalize delKey h n k = q
      obtain ⟨q1, q2 | q2⟩ := q <;> rfl
    rcases C66_pop_partial h hh root n ks hr hn kvs hx k with ⟨c', h1, h2, h3, h4, h5, _⟩ | ⟨h1, h2⟩
    · have hcc : c' = c := by
        have : popKey h n k = ((delKey h n k).1, .ok c) := by
          obtain ⟨a1, a2⟩ := delKey_spec hi hlt hd (k := k) (by simp [dkeys])
          simp only [popKey, getKey, hd, hl]
          rw [thenJ_ok a1]
        rw [this] at h1
        injection h1 with h1
        exact h1.symm
      subst hcc
      refine ⟨k, val h c', ms.map (fun m => (m.1, val h m.2)), c', by rw [← hms]; rfl, ?_, h2, ?_, ?_, ?_⟩
      · rw [hp, h1]; rfl
      · rw [hp]; exact h3
      · rw [hp]; exact h4
      · rw [hp]; exact h5
    · exfalso
      rw [← hms] at h2
      exact h2 (by simp [dkeys])

/-- C66: `n.setdefault(k, default)`: a present member is returned and nothing changes; otherwise the
default is assigned, and is returned as it was given. -/
theorem C66_setdefault_partial (h : JHeap) (hh : History h) (root n : Ref) (ks : List String) (hr : root < h.next)
    (hn : Jschon.Reach h root ks n) (kvs : List (String × Value)) (hx : val h n = .obj kvs) (k : String)
    (o : JArg) (ho : o.Ok h) :
    (∃ c, Child h n k c ∧ setDefault h n k o = (h, .ok (.json c))) ∨
    (k ∉ dkeys kvs ∧ (setDefault h n k o).2 = .ok o ∧
      At (PySetKey k (o.val h)) (val h root) ks (val (setDefault h n k o).1 root) ∧
      History (setDefault h n k o).1 ∧ (InRangeHistory h → InRangeHistory (setDefault h n k o).1)) := by
  have hi := hh.winv
  have hlt := desc_has hi.ord (reach_desc hn) hr
  obtain ⟨ms, hd, hms⟩ := val_cases_obj hi hx
  have hkeys : dkeys kvs = dkeys ms := by rw [← hms]; simp [dkeys, Function.comp_def]
  cases hl : dlookup k ms with
  | some c =>
    left
    exact ⟨c, by rw [Child, hd]; exact dlookup_mem hl, by simp [setDefault, getKey, hd, hl]⟩
  | none =>
    right
    obtain ⟨a1, a2, _⟩ := setKey_spec hi hlt ho (k := k) hd
    have hp : setDefault h n k o = ((setKey h n k o).1, .ok o) := by
      simp only [setDefault, getKey, hd, hl]
      rw [thenJ_ok a1]
    rw [hp]
    refine ⟨by rw [hkeys]; exact dlookup_eq_none.1 hl, rfl, a2.at hi hr hn ?_,
      .call (.setKey n k o) hh ⟨hlt, ho⟩, fun hh' => .call (.setKey n k o) hh' ⟨hlt, ho⟩ trivial⟩
    rw [val_obj hi.ord hd]
    exact dset_pySet

/-- C66: `n.get(k, default)`. -/
theorem C66_get_partial (h : JHeap) (hh : History h) (n : Ref) (kvs : List (String × Value))
    (hx : val h n = .obj kvs) (k : String) (o : JArg) :
    (∃ c, Child h n k c ∧ getDefault h n k o = .ok (.json c)) ∨
    (k ∉ dkeys kvs ∧ getDefault h n k o = .ok o) := by
  obtain ⟨ms, hd, hms⟩ := val_cases_obj hh.winv hx
  have hkeys : dkeys kvs = dkeys ms := by rw [← hms]; simp [dkeys, Function.comp_def]
  cases hl : dlookup k ms with
  | some c => exact .inl ⟨c, by rw [Child, hd]; exact dlookup_mem hl, by simp [getDefault, getKey, hd, hl]⟩
  | none => exact .inr ⟨by rw [hkeys]; exact dlookup_eq_none.1 hl, by simp [getDefault, getKey, hd, hl]⟩

/-- C66: `k in n` on an object: there is a member with that name. -/
theorem C66_contains_partial (h : JHeap) (hh : History h) (n : Ref) (kvs : List (String × Value))
    (hx : val h n = .obj kvs) (k : String) :
    ∃ b, containsJson h n (.plain (.str k)) = .ok b ∧ (b = true ↔ k ∈ dkeys kvs) := by
  obtain ⟨ms, hd, hms⟩ := val_cases_obj hh.winv hx
  have hkeys : dkeys kvs = dkeys ms := by rw [← hms]; simp [dkeys, Function.comp_def]
  refine ⟨(dkeys ms).any (fun k' => jsonEq (.str k') (.str k)), by simp [containsJson, hd, JArg.val], ?_⟩
  rw [hkeys]
  simp [jsonEq]

theorem mapM_getKey {h : JHeap} {n : Ref} (l : List (String × Ref))
    (hl : ∀ m ∈ l, getKey h n m.1 = .ok m.2) :
    (dkeys l).mapM (fun k => (getKey h n k).map (fun c => (k, c))) = .ok l := by
  induction l with
  | nil => rfl
  | cons m l ih =>
    simp only [dkeys_cons, List.mapM_cons, hl m (by simp), ih fun m' hm' => hl m' (by simp [hm'])]
    rfl

/-- C66: `list(n.items())` is the members in order, each with the instance that holds its value. -/
theorem C66_items_partial (h : JHeap) (hh : History h) (n : Ref) (kvs : List (String × Value))
    (hx : val h n = .obj kvs) :
    ∃ ms, itemsJson h n = .ok ms ∧ (∀ m ∈ ms, Child h n m.1 m.2) ∧ ms.map (fun m => (m.1, val h m.2)) = kvs := by
  have hi := hh.winv
  obtain ⟨ms, hd, hms⟩ := val_cases_obj hi hx
  refine ⟨ms, ?_, fun m hm => by rw [Child, hd]; exact hm, hms⟩
  simp only [itemsJson, hd]
  exact mapM_getKey ms fun m hm => getKey_ok.2 ⟨ms, hd, dlookup_of_mem (hi.nodup n ms hd) hm⟩

/-- C66 fails for `clear`: on an object it always raises KeyError, since the `clear` of
`MutableSequence` comes first and calls `pop(-1)`; nothing is changed. -/
theorem C66_clear_raises (h : JHeap) (hh : History h) (n : Ref) (kvs : List (String × Value))
    (hx : val h n = .obj kvs) : clearJson h n = (h, .error .keyError) := by
  obtain ⟨ms, hd, hms⟩ := val_cases_obj hh.winv hx
  simp [clearJson, hd, clearLoop, popIdx, getIdx, thenJ]

example : val heapNest 0 = .obj [("a", .arr [.num (.int 1), .arr [.num (.int 2)]])] := rfl

/-- C66: `reverse`, which a dict does not have, changes nothing on an object. -/
theorem C66_reverse_raises (h : JHeap) (hh : History h) (n : Ref) (kvs : List (String × Value))
    (hx : val h n = .obj kvs) : (reverseJson h n).1 = h := by
  obtain ⟨ms, hd, hms⟩ := val_cases_obj hh.winv hx
  simp only [reverseJson, lenJson, hd]
  cases ms.length / 2 with
  | zero => rfl
  | succ k => simp [reverseLoop, swapJson, getIdx, hd, thenJ]

example : History heapNest ∧ Jschon.Reach heapNest 0 [] 0 ∧
    (JPairs.pairs [("b", .json 3), ("a", .plain .null)]).Yields heapNest 0
      [("b", .arr [.num (.int 2)]), ("a", .null)] ∧
    val (updateJson heapNest 0 (.pairs [("b", .json 3), ("a", .plain .null)])).1 0 =
      .obj [("a", .null), ("b", .arr [.num (.int 2)])] ∧
    (JPairs.json 0).Yields heapNest 0 [("a", .arr [.num (.int 1), .arr [.num (.int 2)]])] ∧
    (popItem heapNest 0).2 = .ok ("a", 1) ∧ val (popItem heapNest 0).1 0 = .obj [] ∧
    (setDefault heapNest 0 "b" (.plain .null)).2 = .ok (.plain .null) ∧
    val (setDefault heapNest 0 "b" (.plain .null)).1 0 =
      .obj [("a", .arr [.num (.int 1), .arr [.num (.int 2)]]), ("b", .null)] := by
  refine ⟨heapNest_history.history, .here, ⟨?_, ?_, rfl⟩, rfl, ⟨by decide, .inl rfl, rfl⟩, rfl, rfl, rfl, rfl⟩
  · intro ko hko
    simp only [List.mem_cons, List.not_mem_nil, or_false] at hko
    rcases hko with rfl | rfl
    · exact (show 3 < 5 by decide)
    · exact Value.WF.null
  · intro k x hx hw
    simp only [List.mem_cons, Prod.mk.injEq, reduceCtorEq, and_false, List.not_mem_nil, or_false,
      JArg.json.injEq] at hx
    obtain ⟨_, rfl⟩ := hx
    obtain ⟨ks, hr⟩ := hw
    have := desc_le heapNest_history.inv.ord (reach_desc hr)
    omega

end Jschon
