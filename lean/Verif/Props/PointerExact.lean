import Verif.Spec.PointerExact
import Verif.Proof.IntText
import Verif.Props.JsonEval

/-!
# C08 and C11: exactly what pointers find in a JSON instance

`C08_agree_partial` and `C11_impossible_partial` leave out tokens that are not decimal numerals where they meet
an array, for which the code deviates from RFC 6901.  Here is what it does with them.
-/

namespace Jschon
open Spec

/-- The outcome of `resolveJson`, in terms of instances. -/
def Gives (h : JHeap) (r : Ref) (ks : List String) : WalkEnd → Prop
  | .found loc w => ∃ c, resolveJson h ks r = .ok c ∧ Reach h r loc c ∧ val h c = w
  | .missing => resolveJson h ks r = .error .ptrReference
  | .noInt => resolveJson h ks r = .error .valueError

theorem Gives.under {h : JHeap} {r c : Ref} {k loc : String} {ks : List String} {o : WalkEnd}
    (hc : Child h r loc c) (he : resolveJson h (k :: ks) r = resolveJson h ks c) (hg : Gives h c ks o) :
    Gives h r (k :: ks) (o.under loc) := by
  cases o with
  | found l w =>
    obtain ⟨d, h1, h2, h3⟩ := hg
    exact ⟨d, he.trans h1, .step hc h2, h3⟩
  | missing => exact he.trans hg
  | noInt => exact he.trans hg

theorem pyIndex_at {α : Type} {l r : List α} {x : α} {i : Int} (hi : IndexAt i l.length r.length) :
    pyIndex (l ++ x :: r) i = some x := by
  unfold pyIndex
  rcases hi with rfl | rfl
  · simp
  · rw [if_neg (by omega), if_pos (by simp; omega)]
    have : ((l ++ x :: r).length + (-(r.length : Int) - 1)).toNat = l.length := by simp; omega
    rw [this]; simp

theorem pyIndex_out {α : Type} {xs : List α} {i : Int} (hi : xs.length ≤ i ∨ i < -(xs.length : Int)) :
    pyIndex xs i = none := by
  unfold pyIndex
  rcases hi with h | h
  · rw [if_pos (by omega)]; simp; omega
  · rw [if_neg (by omega), if_neg (by omega)]

theorem pyIndex_in {α : Type} {xs : List α} {i : Int} {x : α} (h : pyIndex xs i = some x) :
    ∃ l r, xs = l ++ x :: r ∧ IndexAt i l.length r.length := by
  unfold pyIndex at h
  have split : ∀ n : Nat, xs[n]? = some x → ∃ l r, xs = l ++ x :: r ∧ l.length = n := by
    intro n hn
    obtain ⟨hl, rfl⟩ := List.getElem?_eq_some_iff.1 hn
    exact ⟨xs.take n, xs.drop (n + 1), by simp, by simp; omega⟩
  split at h
  · next h0 =>
    obtain ⟨l, r, rfl, hl⟩ := split _ h
    exact ⟨l, r, rfl, .inl (by omega)⟩
  · split at h
    · next h0 h1 =>
      obtain ⟨l, r, rfl, hl⟩ := split _ h
      refine ⟨l, r, rfl, .inr ?_⟩
      simp at hl h1
      omega
    · cases h

theorem pyIndex_none' {α : Type} {xs : List α} {i : Int} (h : pyIndex xs i = none) :
    xs.length ≤ i ∨ i < -(xs.length : Int) := by
  unfold pyIndex at h
  split at h
  · simp at h; omega
  · split at h
    · simp at h; omega
    · omega

theorem walks_gives {h : JHeap} (hi : WInv h) {v : Value} {ks : List String} {o : WalkEnd}
    (hw : Walks v ks o) : ∀ r, val h r = v → Gives h r ks o := by
  induction hw with
  | here => intro r hv; exact ⟨r, rfl, .here, hv⟩
  | @member kvs k w ks o hm _ ih =>
    intro r hv
    obtain ⟨ms, hd⟩ := val_obj_inv hi.ord hv
    rw [val_obj hi.ord hd] at hv
    cases hv
    obtain ⟨⟨k', c⟩, hm', he⟩ := List.mem_map.1 hm
    cases he
    exact (ih c rfl).under (by rw [Child, hd]; exact hm')
      (by simp only [resolveJson, hd, dlookup_of_mem (hi.nodup r ms hd) hm'])
  | @noMember kvs k ks hn =>
    intro r hv
    obtain ⟨ms, hd⟩ := val_obj_inv hi.ord hv
    rw [val_obj hi.ord hd] at hv
    cases hv
    have : dlookup k ms = none := by
      cases hl : dlookup k ms with
      | none => rfl
      | some c => exact absurd (List.mem_map.2 ⟨(k, c), dlookup_mem hl, rfl⟩) (hn (val h c))
    simp only [Gives, resolveJson, hd, this]
  | @item l x r' k i ks o hk ha _ ih =>
    intro r hv
    obtain ⟨cs, hd, hx⟩ := val_arr_inv hi.ord hv
    obtain ⟨l2, r2, rfl, h1, h2⟩ := List.map_eq_append_iff.1 hx.symm
    obtain ⟨c, r3, rfl, h3, h4⟩ := List.map_eq_cons_iff.1 h2
    subst h1 h4
    simp only [List.length_map] at ha ⊢
    refine (ih c h3).under (by rw [Child, hd]; exact ⟨l2.length, rfl, by simp⟩) ?_
    simp only [resolveJson, hd, pyInt_iff.2 hk, pyIndex_at ha]
  | @noItem xs k i ks hk ha =>
    intro r hv
    obtain ⟨cs, hd, rfl⟩ := val_arr_inv hi.ord hv
    simp only [List.length_map] at ha
    simp only [Gives, resolveJson, hd, pyInt_iff.2 hk, pyIndex_out ha]
  | @noInt xs k ks hk =>
    intro r hv
    obtain ⟨cs, hd, rfl⟩ := val_arr_inv hi.ord hv
    simp only [Gives, resolveJson, hd, pyInt_none.2 hk]
  | @scalar v k ks hs =>
    intro r hv
    rw [val_eq hi.ord] at hv
    simp only [Gives, resolveJson]
    cases hd : h.data r <;> simp only [hd, dataVal] at hv <;> subst hv <;> first | rfl | cases hs

theorem walks_total {h : JHeap} (hi : WInv h) (ks : List String) (r : Ref) :
    ∃ o, Walks (val h r) ks o := by
  induction ks generalizing r with
  | nil => exact ⟨_, .here⟩
  | cons k ks ih =>
    cases hd : h.data r with
    | arr cs =>
      rw [val_arr hi.ord hd]
      cases hk : pyInt k with
      | none => exact ⟨_, .noInt (pyInt_none.1 hk)⟩
      | some i =>
        cases hc : pyIndex cs i with
        | none => exact ⟨_, .noItem (pyInt_iff.1 hk) (by simpa using pyIndex_none' hc)⟩
        | some c =>
          obtain ⟨l, r', rfl, ha⟩ := pyIndex_in hc
          obtain ⟨o, ho⟩ := ih c
          rw [List.map_append, List.map_cons]
          exact ⟨_, .item (pyInt_iff.1 hk) (by simpa using ha) ho⟩
    | obj ms =>
      rw [val_obj hi.ord hd]
      cases hc : dlookup k ms with
      | none =>
        refine ⟨_, .noMember fun w hw => ?_⟩
        obtain ⟨⟨k', c⟩, hm, he⟩ := List.mem_map.1 hw
        cases he
        exact dlookup_eq_none.1 hc (List.mem_map.2 ⟨_, hm, rfl⟩)
      | some c =>
        obtain ⟨o, ho⟩ := ih c
        exact ⟨_, .member (List.mem_map.2 ⟨(k, c), dlookup_mem hc, rfl⟩) ho⟩
    | _ => rw [val_eq hi.ord, hd]; exact ⟨_, .scalar (by constructor)⟩

/-- C08: exactly what evaluation on an instance does, whatever the tokens.  It finds the instance that the
tokens lead to, with a token that meets an array read by `int()` and used as a Python index; it raises
`JSONPointerReferenceError` if there is no such member or item; and it raises `ValueError` if a token that is not
an integer meets an array.  It does nothing else. -/
theorem C08_exact (h : JHeap) (hh : History h) (r : Ref) (p : Ptr) :
    (∀ loc w, Walks (val h r) p.keys (.found loc w) →
      ∃ c, resolveJson h p.keys r = .ok c ∧ Reach h r loc c ∧ val h c = w) ∧
    (∀ c, resolveJson h p.keys r = .ok c →
      ∃ loc, Reach h r loc c ∧ Walks (val h r) p.keys (.found loc (val h c))) ∧
    (resolveJson h p.keys r = .error .ptrReference ↔ Walks (val h r) p.keys .missing) ∧
    (resolveJson h p.keys r = .error .valueError ↔ Walks (val h r) p.keys .noInt) ∧
    (∀ e, resolveJson h p.keys r = .error e → e = .ptrReference ∨ e = .valueError) := by
  have hi := hh.winv
  obtain ⟨o, ho⟩ := walks_total hi p.keys r
  have hg := walks_gives hi ho r rfl
  refine ⟨fun loc w hw => walks_gives hi hw r rfl, fun c hc => ?_, ⟨fun he => ?_, fun hw => walks_gives hi hw r rfl⟩,
    ⟨fun he => ?_, fun hw => walks_gives hi hw r rfl⟩, fun e he => ?_⟩ <;> cases o <;> simp only [Gives] at hg
  · obtain ⟨c', h1, h2, rfl⟩ := hg
    rw [h1] at hc
    cases hc
    exact ⟨_, h2, ho⟩
  · rw [hg] at hc; cases hc
  · rw [hg] at hc; cases hc
  · obtain ⟨c', h1, _⟩ := hg
    rw [h1] at he; cases he
  · exact ho
  · rw [hg] at he; cases he
  · obtain ⟨c', h1, _⟩ := hg
    rw [h1] at he; cases he
  · rw [hg] at he; cases he
  · exact ho
  · obtain ⟨c', h1, _⟩ := hg
    rw [h1] at he; cases he
  · rw [hg] at he; cases he; exact .inl rfl
  · rw [hg] at he; cases he; exact .inr rfl

example : Walks (.arr [.num (.int 10), .num (.int 20)]) ["-1"] (.found ["1"] (.num (.int 20))) :=
  .item (l := [.num (.int 10)]) (r := []) (o := .found [] _) (i := -1) (pyInt_iff.1 (by decide +kernel))
    (.inr rfl) .here

/-! ## C11 -/

/-- C11: a relative pointer that goes up beyond the root, or that moves to an item that does not exist, raises
`RelativeJSONPointerReferenceError`, whatever follows. -/
theorem C11_no_start (h : JHeap) (hh : InRangeHistory h) (root n : Ref) (loc : List String)
    (hp : h.parent root = none) (hn : Reach h root loc n) (u : Nat) (o : Int) (ref : RelRef)
    (hres : ¬ ∃ base d base', loc = base ++ d ∧ d.length = u ∧ OverBy (val h root) base o base') :
    relEvaluate h (.make u o ref) n = .error .relReference := by
  have hi := hh.inv
  rw [relEvaluate_make]
  by_cases hu : u ≤ loc.length
  · obtain ⟨base, d, x, rfl, rfl, hx, hrx⟩ := (relUp_spec hi hp u hn).1 hu
    have hov : ¬ ∃ base', OverBy (val h root) base o base' := fun ⟨b, hb⟩ => hres ⟨base, d, b, rfl, rfl, hb⟩
    simp only [hx, (relOver_spec hi hp o hrx).2 hov]
  · simp only [(relUp_spec hi hp u hn).2 (by omega)]

/-- C11: exactly what a relative pointer with a pointer part does, whatever the tokens, once the integers lead to
the value `v` at `base'`: it yields the node that the tokens lead to from there, as in `C08_exact`; it raises
`RelativeJSONPointerReferenceError` if there is no such member or item; and it raises `ValueError` if a token
that is not an integer meets an array. -/
theorem C11_exact (h : JHeap) (hh : InRangeHistory h) (root n : Ref) (base d base' : List String) (v : Value)
    (hp : h.parent root = none) (hn : Reach h root (base ++ d) n) (o : Int) (p : Ptr)
    (hov : OverBy (val h root) base o base') (hv : Designates (val h root) base' v) :
    (∀ loc w, Walks v p.keys (.found loc w) → ∃ c, relEvaluate h (.make d.length o (.ptr p)) n = .ok (.node c) ∧
      Reach h root (base' ++ loc) c ∧ val h c = w) ∧
    (∀ out, relEvaluate h (.make d.length o (.ptr p)) n = .ok out → ∃ loc c, out = .node c ∧
      Reach h root (base' ++ loc) c ∧ Walks v p.keys (.found loc (val h c))) ∧
    (relEvaluate h (.make d.length o (.ptr p)) n = .error .relReference ↔ Walks v p.keys .missing) ∧
    (relEvaluate h (.make d.length o (.ptr p)) n = .error .valueError ↔ Walks v p.keys .noInt) ∧
    (∀ e, relEvaluate h (.make d.length o (.ptr p)) n = .error e → e = .relReference ∨ e = .valueError) := by
  have hi := hh.inv
  obtain ⟨base2, d2, x, hbd, hd2, hx, hrx⟩ := (relUp_spec hi hp d.length hn).1 (by simp)
  obtain ⟨rfl, rfl⟩ := List.append_inj' hbd hd2.symm
  obtain ⟨y, hy, hry⟩ := (relOver_spec hi hp o hrx).1 _ hov
  have hvy : v = val h y := designates_fun hv (reach_desig hi.weak hry)
  subst hvy
  have hE : relEvaluate h (.make d.length o (.ptr p)) n = relLast h (.ptr p) y := by
    rw [relEvaluate_make]
    simp only [hx, hy]
  rw [hE]
  obtain ⟨h1, h2, h3, h4, h5⟩ := C08_exact h hh.history y p
  simp only [relLast]
  cases hr : resolveJson h p.keys y with
  | ok t =>
    rw [hr] at h1 h2 h3 h4
    refine ⟨fun loc w hw => ?_, fun out ho => ?_, by simpa using h3, by simpa using h4, by simp⟩
    · obtain ⟨c, e, hc, hw'⟩ := h1 loc w hw
      cases e
      exact ⟨t, rfl, reach_append hry hc, hw'⟩
    · cases ho
      obtain ⟨loc, hl, hw⟩ := h2 t rfl
      exact ⟨loc, t, rfl, reach_append hry hl, hw⟩
  | error e =>
    rw [hr] at h1 h2 h3 h4
    refine ⟨fun loc w hw => ?_, by simp, ?_⟩
    · obtain ⟨c, e', _⟩ := h1 loc w hw
      cases e'
    · rcases h5 e hr with rfl | rfl
      · refine ⟨by simpa using h3, by simpa using h4, fun e he => ?_⟩
        simp at he
        exact .inl he.symm
      · refine ⟨by simpa using h3, by simpa using h4, fun e he => ?_⟩
        simp at he
        exact .inr he.symm

/-- From the first item of `JSON([10, 20])`, one level up and with the token `-1`: the last item. -/
example : relEvaluate heapTwo (.make 1 0 (.ptr ⟨["-1"]⟩)) 1 = .ok (.node 2) ∧
    Reach heapTwo 0 ([] ++ ["0"]) 1 ∧ OverBy (val heapTwo 0) [] 0 [] ∧ Designates (val heapTwo 0) [] (val heapTwo 0) :=
  ⟨rfl, .step ⟨0, rfl, rfl⟩ .here, .inl ⟨rfl, rfl⟩, designates_iff.2 rfl⟩

end Jschon
