import Verif.Spec.PatchInPlace
import Verif.Props.JsonHeap
import Verif.Props.PointerExact

/-!
# C17: exactly what `remove` and `replace` do in place

`C17_remove_partial` and `C17_replace_partial` speak of instances that were never edited through a negative
index.  After such an edit the `key` attribute of an item may differ from its place, and these two methods go by
the attribute.
-/

namespace Jschon
open Spec

theorem walks_found_snoc {v : Value} {ks loc : List String} {w : Value} (h : Walks v ks (.found loc w))
    (hne : ks ≠ []) : ∃ l k, loc = l ++ [k] := by
  cases loc with
  | nil =>
    exfalso
    generalize ho : WalkEnd.found [] w = o at h
    cases h with
    | here => exact hne rfl
    | @member _ _ _ _ o _ _ => cases o <;> cases ho
    | @item _ _ _ _ _ _ o _ _ _ => cases o <;> cases ho
    | _ => cases ho
  | cons a l =>
    exact ⟨(a :: l).dropLast, (a :: l).getLast (by simp), (List.dropLast_concat_getLast (by simp)).symm⟩

/-- A child names its parent; and an object knows its members by their keys. -/
theorem child_links {h : JHeap} (hi : WInv h) {n c : Ref} {k : String} (hc : Child h n k c) :
    h.parent c = some n ∧
    ((∃ ms, h.data n = .obj ms ∧ (k, c) ∈ ms ∧ h.key c = some k) ∨
     ∃ cs key z, h.data n = .arr cs ∧ h.key c = some key ∧ pyInt key = some z ∧ PyIntText key z) := by
  refine ⟨(hi.ord.kid n c (childD_kid hc)).2.2, ?_⟩
  unfold Child ChildD at hc
  cases hd : h.data n with
  | obj ms =>
    rw [hd] at hc
    exact .inl ⟨ms, rfl, hc, hi.okey n ms hd k c hc⟩
  | arr cs =>
    rw [hd] at hc
    obtain ⟨i, -, hc⟩ := hc
    obtain ⟨key, z, h1, h2⟩ := hi.kint n cs hd c (List.mem_of_getElem? hc)
    exact .inr ⟨cs, key, z, rfl, h1, h2, pyInt_iff.1 h2⟩
  | _ => rw [hd] at hc; exact hc.elim

/-- C17: after any edits, `r.remove(p)` with tokens in `p` raises `JSONError` if a member or an item that `p`
asks for does not exist, `ValueError` if a token that is not an integer meets an array, and otherwise acts on the
parent of the instance found: it deletes the member by its name; or it deletes the item at the integer that the
instance's `key` spells, and raises `IndexError`, changing nothing, if there is no such item. -/
theorem C17_remove_exact (h : JHeap) (hh : History h) (r : Ref) (hr : r < h.next) (p : Ptr) (hne : p.keys ≠ []) :
    (Walks (val h r) p.keys .missing → jsonRemove h r p = (h, .error .jsonError)) ∧
    (Walks (val h r) p.keys .noInt → jsonRemove h r p = (h, .error .valueError)) ∧
    (∀ loc w, Walks (val h r) p.keys (.found loc w) → ∃ l k n c R, loc = l ++ [k] ∧ Reach h r l n ∧
      Child h n k c ∧ val h c = w ∧ EditBy h n k c PyDelKey PyDel R ∧
      (((jsonRemove h r p).2 = .ok () ∧ At R (val h r) l (val (jsonRemove h r p).1 r)) ∨
       (jsonRemove h r p = (h, .error .indexError) ∧ ∃ xs, val h n = .arr xs ∧ ¬ ∃ v', R (.arr xs) v'))) := by
  have hi := hh.winv
  obtain ⟨h1, -, h3, h4, -⟩ := C08_exact h hh r p
  have hlen : ¬ p.len = 0 := fun h0 => hne (List.length_eq_zero_iff.1 h0)
  refine ⟨fun hw => ?_, fun hw => ?_, fun loc w hw => ?_⟩
  · simp only [jsonRemove, hlen, if_false, h3.2 hw, isPtrErr, if_true]
  · simp only [jsonRemove, hlen, if_false, h4.2 hw, isPtrErr, Bool.false_eq_true]
  · obtain ⟨l, k, rfl⟩ := walks_found_snoc hw hne
    obtain ⟨c, hres, hc, hv⟩ := h1 _ w hw
    obtain ⟨n, hn, hk⟩ := reach_last hc
    obtain ⟨hpar, ⟨ms, hd, hmem, hkey⟩ | ⟨cs, key, z, hd, hkey, hz, hz'⟩⟩ := child_links hi hk
    · refine ⟨l, k, n, c, _, rfl, hn, hk, hv, .member (val_obj hi.ord hd), .inl ?_⟩
      have hE : jsonRemove h r p = delKey h n k := by
        simp only [jsonRemove, hlen, if_false, hres, hpar, hd, hkey, Option.getD]
      rw [hE]
      rcases C15_delitem_object h hh r n l hr hn k with h5 | ⟨⟨e, h5⟩, h6, -⟩
      · exact h5
      · exfalso
        have hin : k ∈ dkeys ms := List.mem_map_of_mem (f := Prod.fst) hmem
        have hlt := desc_has hi.ord (reach_desc hn) hr
        rw [(delKey_spec hi hlt hd hin).1] at h5
        cases h5
    · refine ⟨l, k, n, c, _, rfl, hn, hk, hv, .item (val_arr hi.ord hd) hkey hz', ?_⟩
      have hE : jsonRemove h r p = delIdx h n z := by
        simp only [jsonRemove, hlen, if_false, hres, hpar, hd, intKey, hkey, hz]
      rw [hE]
      rcases C15_delitem_array h hh r n l hr hn z with h5 | ⟨⟨e, h5⟩, h6, -⟩
      · exact .inl h5
      · rw [val_arr hi.ord hd] at h6
        refine .inr ⟨?_, _, val_arr hi.ord hd, h6⟩
        cases hp : pyPos cs.length z with
        | none => simp only [delIdx, hd, hp]
        | some j =>
          have hlt := desc_has hi.ord (reach_desc hn) hr
          rw [(delIdx_spec hi hlt hd hp).1] at h5
          cases h5

/-- C17: after any edits, `r.replace(p, obj)` with tokens in `p` fails to find, and finds, what `remove` does; then
it sets the member of the parent to `obj`; or the item at the integer that the `key` of the instance found spells,
raising `IndexError` if there is no such item. -/
theorem C17_replace_exact (h : JHeap) (hh : History h) (r : Ref) (hr : r < h.next) (p : Ptr) (hne : p.keys ≠ [])
    (o : JArg) (ho : o.Ok h) :
    (Walks (val h r) p.keys .missing → jsonReplace h r p o = (h, .error .jsonError)) ∧
    (Walks (val h r) p.keys .noInt → jsonReplace h r p o = (h, .error .valueError)) ∧
    (∀ loc w, Walks (val h r) p.keys (.found loc w) → ∃ l k n c R, loc = l ++ [k] ∧ Reach h r l n ∧
      Child h n k c ∧ val h c = w ∧
      EditBy h n k c (fun k => PySetKey k (o.val h)) (fun z => PySet z (o.val h)) R ∧
      (((jsonReplace h r p o).2 = .ok () ∧ At R (val h r) l (val (jsonReplace h r p o).1 r)) ∨
       ((jsonReplace h r p o).2 = .error .indexError ∧ (∀ x, x < h.next → val (jsonReplace h r p o).1 x = val h x) ∧
        ∃ xs, val h n = .arr xs ∧ ¬ ∃ v', R (.arr xs) v'))) := by
  have hi := hh.winv
  obtain ⟨h1, -, h3, h4, -⟩ := C08_exact h hh r p
  have hlen : ¬ p.len = 0 := fun h0 => hne (List.length_eq_zero_iff.1 h0)
  refine ⟨fun hw => ?_, fun hw => ?_, fun loc w hw => ?_⟩
  · simp only [jsonReplace, hlen, if_false, h3.2 hw, isPtrErr, if_true]
  · simp only [jsonReplace, hlen, if_false, h4.2 hw, isPtrErr, Bool.false_eq_true]
  · obtain ⟨l, k, rfl⟩ := walks_found_snoc hw hne
    obtain ⟨c, hres, hc, hv⟩ := h1 _ w hw
    obtain ⟨n, hn, hk⟩ := reach_last hc
    have hlt := desc_has hi.ord (reach_desc hn) hr
    obtain ⟨hpar, ⟨ms, hd, hmem, hkey⟩ | ⟨cs, key, z, hd, hkey, hz, hz'⟩⟩ := child_links hi hk
    · refine ⟨l, k, n, c, _, rfl, hn, hk, hv, .member (val_obj hi.ord hd), .inl ?_⟩
      have hE : jsonReplace h r p o = setKey h n k o := by
        simp only [jsonReplace, hlen, if_false, hres, hpar, hd, hkey, Option.getD]
      rw [hE]
      rcases C15_setitem_object h hh r n l hr hn k o ho with h5 | ⟨⟨e, h5⟩, h6, -⟩
      · exact h5
      · exfalso
        rw [(setKey_spec hi hlt ho (k := k) hd).1] at h5
        cases h5
    · refine ⟨l, k, n, c, _, rfl, hn, hk, hv, .item (val_arr hi.ord hd) hkey hz', ?_⟩
      have hE : jsonReplace h r p o = setIdx h n z o := by
        simp only [jsonReplace, hlen, if_false, hres, hpar, hd, intKey, hkey, hz]
      rw [hE]
      rcases C15_setitem_array h hh r n l hr hn z o ho with h5 | ⟨⟨e, h5⟩, h6, h7⟩
      · exact .inl h5
      · rw [val_arr hi.ord hd] at h6
        refine .inr ⟨?_, h7, _, val_arr hi.ord hd, h6⟩
        cases hp : pyPos cs.length z with
        | none =>
          rcases hnew : newJson (argValue h o).1 (argValue h o).2 (some n) (some (intStr z)) with ⟨g, y⟩
          obtain ⟨a1, -⟩ := child_spec hi hlt ho (intStr z) hnew
          have hd1 : g.data n = .arr cs := by rw [a1.quiet.data n hlt]; exact hd
          simp only [setIdx, hnew, hd1, hp]
        | some j =>
          rw [(setIdx_spec hi hlt ho hd hp).1] at h5
          cases h5

/-- C17: every pointer falls under one of the three cases. -/
theorem C17_exact_total (h : JHeap) (hh : History h) (r : Ref) (p : Ptr) : ∃ o, Walks (val h r) p.keys o :=
  walks_total hh.winv p.keys r

/-- `d = JSON([10, 20, 30]); d[-3] = 40; del d[1]`: the keys of the items are now `-3` and `1`. -/
def heapLoose : JHeap := ((JOp.delIdx 0 1).step ((JOp.setIdx 0 (-3) (.plain (.num (.int 40)))).step heapThree))

theorem heapLoose_history : History heapLoose :=
  .call (.delIdx 0 1) (.call (.setIdx 0 (-3) (.plain (.num (.int 40)))) heapThree_history.history
    ⟨by decide, .num⟩) (by show (0 : Nat) < _; decide)

/-- C17: there is an item at `/0`, whose key is now `-3`, and `remove` raises `IndexError`. -/
theorem C17_remove_loose : val heapLoose 0 = .arr [.num (.int 40), .num (.int 30)] ∧
    Walks (val heapLoose 0) ["0"] (.found ["0"] (.num (.int 40))) ∧
    jsonRemove heapLoose 0 ⟨["0"]⟩ = (heapLoose, .error .indexError) := by
  have hv : val heapLoose 0 = .arr [.num (.int 40), .num (.int 30)] := rfl
  refine ⟨hv, ?_, rfl⟩
  rw [hv]
  exact Walks.item (l := []) (r := [.num (.int 30)]) (k := "0") (i := 0) (pyInt_iff.1 (by decide +kernel)) (.inl rfl) .here

/-- C17: a document with keys out of step, and a pointer that finds an item. -/
example : History heapLoose ∧ (0 : Nat) < heapLoose.next ∧ (Ptr.mk ["0"]).keys ≠ [] ∧
    Walks (val heapLoose 0) ["0"] (.found ["0"] (.num (.int 40))) :=
  ⟨heapLoose_history, by decide, by decide, C17_remove_loose.2.1⟩

end Jschon
