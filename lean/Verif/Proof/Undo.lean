import Verif.Spec.Undo
import Verif.Proof.Put

/-!
# What is left of an addition that is undone
-/

namespace Jschon
open Spec

theorem content_data {h h' : JHeap} (hd : ∀ x, h'.data x = h.data x) : ∀ n x, content n h' x = content n h x
  | 0, _ => rfl
  | n + 1, x => by
    have ih : content n h' = content n h := funext (content_data hd n)
    simp only [content, hd, ih]

theorem schemaObj_data [Dialect] {E : CEnv} {w w' : World} (hi : w'.info = w.info)
    (hd : ∀ x, w'.heap.data x = w.heap.data x) (hn : w'.heap.next = w.heap.next) (x : Nat) :
    w'.schemaObj E x = w.schemaObj E x := by
  have hk : w'.keywords x = w.keywords x := by simp only [World.keywords, hi]
  have hf : w'.kwOf E = w.kwOf E := funext fun kv =>
    kwOfForm_congr (hd _) (by unfold val; rw [hn]; exact content_data hd _ _) _
  simp only [World.schemaObj, hd, hk, hf]

theorem Spec.Undoes.forward {d : JData} {a : SubPut} {c : Cut} (h : Undoes d a c) : c.Forward := by
  cases a <;> cases c <;> simp only [Undoes] at h
  · obtain ⟨cs, -, rfl⟩ := h; exact Int.natCast_nonneg _
  · subst h; exact Int.natCast_nonneg _
  · trivial

section
variable [dia : Dialect] {E : CEnv} {w w2 : World} (hw : PutHistory w) (hE : CEnvOk E) (hk : KindedEnv E)
  {v : Value} (hv : v.WF) {s : Nat} {key : String} {o : KwObj} (hm : (key, o) ∈ w.keywords s)
  (hh : Holds o.shape) (hs : w.isSchema o.json = false) {a : SubPut} {c : Nat}
  (h : putSubschema E o.json a v w = some (w2, .ok c)) {d : Cut} (hd : Undoes (w.heap.data o.json) a d)
include hw hE hk hv hm hh hs h hd

theorem undo_spec : ∃ w1, SPost w w1 (w.cacheid s) (some o.json) (some (a.key w o.json)) v (.ok c) ∧
    newSchema E (w.cacheid s) none none (some o.json) (some (a.key w o.json)) v w = some (w1, .ok c) ∧
    KwsOf Kinded w1 ∧ PutHistory (w2.editJson (d.op o.json)) ∧
    (w2.editJson (d.op o.json)).info = w1.info ∧ (w2.editJson (d.op o.json)).caches = w1.caches ∧
    (∀ x, (w2.editJson (d.op o.json)).heap.data x = w1.heap.data x) ∧
    (∀ x, (w2.editJson (d.op o.json)).heap.parent x = w1.heap.parent x) ∧
    (w2.editJson (d.op o.json)).heap.next = w1.heap.next := by
  have ok := hw.spec.1
  have hw2 := PutHistory.put hw hE hk hv hm hh hs h
  obtain ⟨w1, h1, p, k1, -, hc⟩ := put_spec ok hw.spec.2 hE hk hv hm hs h
  obtain ⟨⟨h2, rfl⟩, e, -⟩ := hc c rfl
  obtain ⟨hm1, hs1⟩ := put_keyword ok hm hs p
  have hj := (keywords_kid ok hm).2
  have hd1 : w1.heap.data o.json = w.heap.data o.json := p.grow.ext.data hj
  have hr := (keywords_kid hw2.spec.1 (kv := (key, o)) (x := s) hm1).2
  obtain ⟨-, a2, a3, a4⟩ := cut_step (hw2.orderly.cold.inv hw2.spec.1.ord hw2.spec.1.keys).weak hr d
  refine ⟨w1, p, h1, k1, .cut d hw2 hm1 hh hs1 hd.forward, rfl, rfl, fun x => ?_, fun x => (a3 x).trans (e.parent x),
    a2.trans e.next⟩
  refine (a4 x).trans ?_
  simp only [e.data, if_true]
  split
  · rename_i hx
    subst hx
    have hsome : putSubschema E o.json a v w ≠ none := by rw [h]; exact fun h => by cases h
    rw [hd1]
    cases a with
    | item =>
      cases d with
      | name k => exact hd.elim
      | index n =>
        obtain ⟨cs, hcs, rfl⟩ := hd
        rw [hcs]
        simp only [plusData, plusItem, Cut.data, Cut.items, JData.arr.injEq]
        rw [if_pos (Int.natCast_nonneg _), Int.toNat_natCast, List.eraseIdx_append_of_length_le (Nat.le_refl _)]
        simp
    | index i => cases d <;> exact hd.elim
    | insert i =>
      cases d with
      | name k => exact hd.elim
      | index n =>
        cases (show n = i from hd)
        unfold putSubschema at hsome
        cases hcs : w.heap.data o.json <;> simp only [hcs, ne_eq, not_true_eq_false] at hsome
        rename_i cs
        have hi : i ≤ cs.length := by
          by_cases hi : i ≤ cs.length
          · exact hi
          · simp [hi] at hsome
        simp only [plusData, plusItem, Cut.data, Cut.items, JData.arr.injEq]
        rw [if_pos (Int.natCast_nonneg _), Int.toNat_natCast,
          List.eraseIdx_append_of_length_le (by rw [List.length_take]; omega), List.length_take,
          show i - min i cs.length = 0 by omega]
        simp
    | member k =>
      cases d with
      | index n => exact hd.elim
      | name k' =>
        obtain ⟨rfl, hno⟩ := hd
        cases hms : w.heap.data o.json <;> try rfl
        rename_i ms
        have hno := hno ms hms
        simp only [plusData, plusMember, Cut.data, Cut.members, JData.obj.injEq]
        rw [if_neg hno, List.filter_append]
        have : ms.filter (fun m => decide (m.1 ≠ k')) = ms := List.filter_eq_self.2 fun m hm =>
          decide_eq_true fun e => hno (e ▸ List.mem_map_of_mem hm)
        rw [this]
        simp
  · rfl

end

end Jschon
