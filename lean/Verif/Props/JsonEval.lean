import Verif.Proof.JsonDoc
import Verif.Props.Pointer

/-!
# Pointers on JSON instances: C08, C09, C11
-/

namespace Jschon
open Spec

/-! ## C08: evaluation on an instance and on its value -/

/-- C08: whatever plain evaluation finds, evaluation on the instance finds: an instance with the same
value. -/
theorem C08_plain_success (h : JHeap) (hh : History h) (r : Ref) (p : Ptr) (v : Value)
    (hp : p.evaluate (val h r) = .ok v) : ∃ c, resolveJson h p.keys r = .ok c ∧ val h c = v := by
  obtain ⟨c, hc, hv⟩ := plain_reach hh.winv.ord hp
  exact ⟨c, reach_resolve hh.winv.nodup hc, hv⟩

/-- If no token but a decimal numeral meets an array, a failure on the instance is
`JSONPointerReferenceError`, and a success is one of plain evaluation. -/
theorem indexSafe_agree {h : JHeap} (hi : WInv h) (ks : List String) (r : Ref)
    (hs : IndexSafe (val h r) ks) :
    (∀ e, resolveJson h ks r = .error e → e = .ptrReference) ∧
    (∀ c, resolveJson h ks r = .ok c → Reach h r ks c) := by
  induction ks generalizing r with
  | nil => simp only [resolveJson]; exact ⟨by simp, fun c hc => by cases hc; exact .here⟩
  | cons k ks ih =>
    cases hd : h.data r with
    | arr cs =>
      rw [val_arr hi.ord hd, IndexSafe] at hs
      obtain ⟨n, rfl, hw⟩ := hs
      have hk : toString n = natStr n := rfl
      simp only [resolveJson, hd, hk, pyInt_natStr, pyIndex_natCast]
      cases hc : cs[n]? with
      | none => simp
      | some c =>
        have := hw (val h c) (by simp [hc])
        refine ⟨(ih c this).1, fun d h1 => .step ?_ ((ih c this).2 d h1)⟩
        rw [Child, hd]
        exact ⟨n, rfl, hc⟩
    | obj ms =>
      rw [val_obj hi.ord hd, IndexSafe] at hs
      simp only [resolveJson, hd]
      cases hc : dlookup k ms with
      | none => simp
      | some c =>
        have := hs (val h c) (by rw [dlookup_map, hc]; rfl)
        refine ⟨(ih c this).1, fun d h1 => .step ?_ ((ih c this).2 d h1)⟩
        rw [Child, hd]
        exact dlookup_mem hc
    | _ => simp only [resolveJson, hd]; simp

/-- C08, where no token but a decimal numeral meets an array: success with the same value, and
`JSONPointerReferenceError` exactly when plain evaluation raises it.  Missing: the other tokens, for
which the code deviates (`C08_negative_index` and the theorems after it). -/
theorem C08_agree_partial (h : JHeap) (hh : History h) (r : Ref) (p : Ptr)
    (hs : IndexSafe (val h r) p.keys) :
    (∀ c, resolveJson h p.keys r = .ok c → p.evaluate (val h r) = .ok (val h c)) ∧
    (∀ v, p.evaluate (val h r) = .ok v → ∃ c, resolveJson h p.keys r = .ok c ∧ val h c = v) ∧
    (resolveJson h p.keys r = .error .ptrReference ↔ p.evaluate (val h r) = .error .ptrReference) := by
  obtain ⟨he, hc⟩ := indexSafe_agree hh.winv p.keys r hs
  refine ⟨fun c h1 => reach_plain hh.winv.ord hh.winv.nodup (hc c h1), C08_plain_success h hh r p, ?_⟩
  constructor
  · intro h1
    cases h2 : p.evaluate (val h r) with
    | error e => rw [C07_only_reference_error p _ e h2]
    | ok v =>
      obtain ⟨c, h3, _⟩ := C08_plain_success h hh r p v h2
      rw [h1] at h3; cases h3
  · intro h1
    cases h2 : resolveJson h p.keys r with
    | error e => rw [he e h2]
    | ok c =>
      have h3 : p.evaluate (val h r) = .ok (val h c) := reach_plain hh.winv.ord hh.winv.nodup (hc c h2)
      rw [h1] at h3; cases h3

/-- C08: whatever the tokens, an instance is never found outside the document, and what is found is
as deep as the pointer is long. -/
theorem C08_below (h : JHeap) (r c : Ref) (p : Ptr) (hr : resolveJson h p.keys r = .ok c) :
    ∃ ks, ks.length = p.len ∧ Reach h r ks c := resolve_reach hr

/-- A heap with `JSON([10, 20])` as instance 0. -/
def heapTwo : JHeap := (newJson .empty (.arr [.num (.int 10), .num (.int 20)]) none none).1

theorem heapTwo_history : InRangeHistory heapTwo :=
  .call (.new (.arr [.num (.int 10), .num (.int 20)])) .start
    (.arr (by intro x hx; simp at hx; rcases hx with rfl | rfl <;> exact .num)) trivial

/-- C08 fails: the token `-1` designates nothing in `[10, 20]` but finds the last item of `JSON([10, 20])`. -/
theorem C08_negative_index : resolveJson heapTwo ["-1"] 0 = .ok 2 ∧
    (Ptr.mk ["-1"]).evaluate (val heapTwo 0) = .error .ptrReference := ⟨rfl, rfl⟩

/-- C08 fails: `/01`, `/+1` and `/ 1` designate nothing in `[10, 20]` but find the second item of
`JSON([10, 20])`. -/
theorem C08_spelled_index :
    (resolveJson heapTwo ["01"] 0 = .ok 2 ∧ resolveJson heapTwo ["+1"] 0 = .ok 2 ∧
      resolveJson heapTwo [" 1"] 0 = .ok 2) ∧
    (Ptr.mk ["01"]).evaluate (val heapTwo 0) = .error .ptrReference ∧
    (Ptr.mk ["+1"]).evaluate (val heapTwo 0) = .error .ptrReference ∧
    (Ptr.mk [" 1"]).evaluate (val heapTwo 0) = .error .ptrReference :=
  ⟨⟨rfl, rfl, rfl⟩, rfl, rfl, rfl⟩

/-- C08 fails: `/a` raises `ValueError`, not `JSONPointerReferenceError`, on `JSON([10, 20])`. -/
theorem C08_leaks_value_error : resolveJson heapTwo ["a"] 0 = .error .valueError ∧
    (Ptr.mk ["a"]).evaluate (val heapTwo 0) = .error .ptrReference := ⟨rfl, rfl⟩

theorem InRangeHistory.history {h : JHeap} (hh : InRangeHistory h) : History h := by
  induction hh with
  | start => exact .start
  | call op _ ha _ ih => exact .call op ih ha

example : IndexSafe (val heapTwo 0) ["1"] ∧ resolveJson heapTwo ["1"] 0 = .ok 2 :=
  ⟨⟨1, rfl, fun _ _ => trivial⟩, rfl⟩

/-! ## C09: a node is found at its own path -/

/-- C09: after any history with in-range indices, `n.path.evaluate(root)` is `n`. -/
theorem C09_path_finds_node (h : JHeap) (hh : InRangeHistory h) (root n : Ref) (hr : root < h.next)
    (hp : h.parent root = none) (hn : Within h root n) :
    resolveJson (readPath h n).1 (readPath h n).2.keys root = .ok n := by
  obtain ⟨ks, hks⟩ := hn
  have hnn : n < h.next := desc_has hh.inv.ord (reach_desc hks) hr
  rw [readPath_spec hh.inv hr hp hks]
  have hno := noop_readPath hh.inv.weak hnn
  exact reach_resolve hno.winv.nodup ((hno.quiet.reach hh.inv.ord hr).2 hks)

/-- C09: plain evaluation of the path on the value of the root yields the value of `n`. -/
theorem C09_path_finds_value (h : JHeap) (hh : InRangeHistory h) (root n : Ref) (hr : root < h.next)
    (hp : h.parent root = none) (hn : Within h root n) :
    Designates (val h root) (readPath h n).2.keys (val h n) := by
  obtain ⟨ks, hks⟩ := hn
  rw [readPath_spec hh.inv hr hp hks]
  exact resolvePlain_sound (reach_plain hh.inv.ord hh.inv.weak.nodup hks)

/-- After `JSON([10, 20])`, a read of a path, and `del root[0]`. -/
def heapDel : JHeap := (JOp.delIdx 0 0).step ((JOp.path 2).step heapTwo)

theorem heapDel_history : InRangeHistory heapDel :=
  .call (.delIdx 0 0) (.call (.path 2) heapTwo_history (show 2 < 3 by decide) trivial)
    (show 0 < 3 by decide) (show (0 : Int) ≤ 0 by decide)

example : InRangeHistory heapDel ∧ 0 < heapDel.next ∧ heapDel.parent 0 = none ∧
    Within heapDel 0 2 ∧ (readPath heapDel 2).2 = ⟨["0"]⟩ :=
  ⟨heapDel_history, by decide +kernel, rfl, ⟨["0"], .step ⟨0, rfl, rfl⟩ .here⟩, rfl⟩

/-! ## C11: relative pointers -/

theorem designates_iff {v w : Value} {ks : List String} :
    Designates v ks w ↔ resolvePlain ks v = .ok w := ⟨resolvePlain_complete, resolvePlain_sound⟩

theorem desig_reach {h : JHeap} (ho : Ord h) {a : Ref} {ks : List String} {w : Value}
    (hd : Designates (val h a) ks w) : ∃ c, Reach h a ks c ∧ val h c = w :=
  plain_reach ho (designates_iff.1 hd)

theorem reach_desig {h : JHeap} (hi : WInv h) {a c : Ref} {ks : List String} (hr : Reach h a ks c) :
    Designates (val h a) ks (val h c) := designates_iff.2 (reach_plain hi.ord hi.nodup hr)

theorem reach_last {h : JHeap} {a c : Ref} {ks : List String} {k : String}
    (hr : Reach h a (ks ++ [k]) c) : ∃ q, Reach h a ks q ∧ Child h q k c := by
  obtain ⟨q, h1, h2⟩ := reach_split hr
  exact ⟨q, h1, reach_one.1 h2⟩

/-- The parent link and the location agree. -/
theorem parent_reach {h : JHeap} (hi : JInv h) {a c : Ref} {ks : List String}
    (hp : h.parent a = none) (hr : Reach h a ks c) :
    (ks = [] ∧ c = a ∧ h.parent c = none) ∨
    ∃ b k q, ks = b ++ [k] ∧ Reach h a b q ∧ Child h q k c ∧ h.parent c = some q ∧
      h.key c = some k := by
  rcases List.eq_nil_or_concat ks with rfl | ⟨b, k, rfl⟩
  · cases hr
    exact .inl ⟨rfl, rfl, hp⟩
  · rw [List.concat_eq_append] at hr
    obtain ⟨q, h1, h2⟩ := reach_last hr
    exact .inr ⟨b, k, q, by simp, h1, h2, (hi.ord.kid q c (childD_kid h2)).2.2, hi.keys.key q k c h2⟩

theorem relUp_spec {h : JHeap} (hi : JInv h) {a : Ref} (hp : h.parent a = none) (u : Nat) {c : Ref}
    {ks : List String} (hr : Reach h a ks c) :
    (u ≤ ks.length → ∃ base d x, ks = base ++ d ∧ d.length = u ∧ relUp h u c = .ok x ∧
      Reach h a base x) ∧
    (ks.length < u → relUp h u c = .error .relReference) := by
  induction u generalizing c ks with
  | zero => exact ⟨fun _ => ⟨ks, [], c, by simp, rfl, rfl, hr⟩, by omega⟩
  | succ u ih =>
    simp only [relUp]
    rcases parent_reach hi hp hr with ⟨rfl, rfl, hpc⟩ | ⟨b, k, q, rfl, hq, hck, hpc, hkc⟩
    · simp [hpc]
    · simp only [hpc, List.length_append, List.length_singleton]
      obtain ⟨h1, h2⟩ := ih hq
      refine ⟨fun hu => ?_, fun hu => h2 (by omega)⟩
      obtain ⟨base, d, x, rfl, hd, hx, hrx⟩ := h1 (by omega)
      exact ⟨base, d ++ [k], x, by simp, by simp [hd], hx, hrx⟩

theorem designates_fun {v w w' : Value} {ks : List String} (h1 : Designates v ks w)
    (h2 : Designates v ks w') : w = w' := by
  have := (designates_iff.1 h1).symm.trans (designates_iff.1 h2)
  injection this

theorem val_arr_inv {h : JHeap} (ho : Ord h) {r : Ref} {xs : List Value} (hv : val h r = .arr xs) :
    ∃ cs, h.data r = .arr cs ∧ xs = cs.map (val h) := by
  rw [val_eq ho] at hv
  cases hd : h.data r <;> simp only [hd, dataVal, Value.arr.injEq] at hv <;> try cases hv
  exact ⟨_, rfl, rfl⟩

theorem val_obj_inv {h : JHeap} (ho : Ord h) {r : Ref} {kvs : List (String × Value)}
    (hv : val h r = .obj kvs) : ∃ ms, h.data r = .obj ms := by
  rw [val_eq ho] at hv
  cases hd : h.data r <;> simp only [hd, dataVal] at hv <;> try cases hv
  exact ⟨_, rfl⟩

theorem natStr_inj' {m n : Nat} (h : toString m = (toString n : String)) : m = n := by
  have h1 := pyInt_natStr m
  have h2 : natStr m = natStr n := h
  rw [h2, pyInt_natStr] at h1
  exact (Int.ofNat.inj (Option.some.inj h1)).symm

theorem relOver_spec {h : JHeap} (hi : JInv h) {a : Ref} (hp : h.parent a = none) (o : Int) {c : Ref}
    {ks : List String} (hr : Reach h a ks c) :
    (∀ ks', OverBy (val h a) ks o ks' → ∃ x, relOver h o c = .ok x ∧ Reach h a ks' x) ∧
    ((¬ ∃ ks', OverBy (val h a) ks o ks') → relOver h o c = .error .relReference) := by
  unfold relOver
  by_cases ho : o = 0
  · simp only [ho, if_true]
    refine ⟨fun ks' hk => ?_, fun hn => absurd ⟨ks, .inl ⟨rfl, rfl⟩⟩ hn⟩
    rcases hk with ⟨_, rfl⟩ | ⟨hne, _⟩
    · exact ⟨c, rfl, hr⟩
    · exact absurd rfl hne
  · simp only [ho, if_false]
    rcases parent_reach hi hp hr with ⟨rfl, rfl, hpc⟩ | ⟨b, k, q, rfl, hq, hck, hpc, hkc⟩
    · simp only [hpc]
      refine ⟨fun ks' hk => ?_, by simp⟩
      rcases hk with ⟨h0, _⟩ | ⟨_, b, n, n', xs, hb, _⟩
      · exact absurd h0 ho
      · simp at hb
    · simp only [hpc]
      have hdq := reach_desig hi.weak hq
      cases hd : h.data q with
      | arr cs =>
        rw [Child, hd] at hck
        obtain ⟨i, rfl, hci⟩ := hck
        rw [val_arr hi.ord hd] at hdq
        simp only [intKey, hkc, pyInt_natStr]
        refine ⟨fun ks' hk => ?_, fun hn => ?_⟩
        · rcases hk with ⟨h0, _⟩ | ⟨_, b', n, n', xs, hb, hxs, he, hl, rfl⟩
          · exact absurd h0 ho
          · obtain ⟨rfl, hkk⟩ := List.append_inj' hb rfl
            have hin : i = n := natStr_inj' (List.cons.inj hkk).1
            subst hin
            have := designates_fun hxs hdq
            cases this
            simp only [List.length_map] at hl
            rw [if_neg (by omega), ← he, pyIndex_natCast, List.getElem?_eq_getElem hl]
            refine ⟨_, rfl, reach_append hq (reach_one.2 ?_)⟩
            rw [Child, hd]
            exact ⟨n', rfl, List.getElem?_eq_getElem hl⟩
        · rw [if_pos]
          by_cases hlt : (i : Int) + o < 0
          · exact .inl hlt
          · by_cases hge : (i : Int) + o ≥ cs.length
            · exact .inr hge
            · exact absurd ⟨_, .inr ⟨ho, b, i, ((i : Int) + o).toNat, cs.map (val h), rfl, hdq,
                by omega, by simp; omega, rfl⟩⟩ hn
      | _ =>
        simp only
        refine ⟨fun ks' hk => ?_, by simp⟩
        rcases hk with ⟨h0, _⟩ | ⟨_, b', n, n', xs, hb, hxs, _⟩
        · exact absurd h0 ho
        · obtain ⟨rfl, _⟩ := List.append_inj' hb rfl
          obtain ⟨cs, h1, _⟩ := val_arr_inv hi.ord (designates_fun hdq hxs)
          rw [hd] at h1; cases h1

/-- The last part of the evaluation: the index or key, or the pointer. -/
def RelLast (doc : Value) (base' : List String) (ref : RelRef) (res : RelResult) : Prop :=
  match ref with
  | .hash => ∃ b k, base' = b ++ [k] ∧
      ((∃ xs n, Designates doc b (.arr xs) ∧ k = toString n ∧ res = .idx n) ∨
       (∃ kvs, Designates doc b (.obj kvs) ∧ res = .key k))
  | .ptr p => ∃ v, Designates doc (base' ++ p.keys) v ∧ res = .loc (base' ++ p.keys)

/-- The last part of the model of `evaluate`. -/
def relLast (h : JHeap) (ref : RelRef) (r2 : Ref) : Except Exc RelOut :=
  match ref with
  | .hash =>
    match h.parent r2 with
    | none => .error .relReference
    | some q =>
      match h.data q with
      | .arr _ => match intKey h r2 with | .error e => .error e | .ok z => .ok (.idx z)
      | _ => .ok (.key (h.key r2))
  | .ptr path =>
    match resolveJson h path.keys r2 with
    | .ok t => .ok (.node t)
    | .error e => .error (if e = .ptrReference then .relReference else e)

theorem relEvaluate_make (h : JHeap) (u : Nat) (o : Int) (ref : RelRef) (c : Ref) :
    relEvaluate h (.make u o ref) c =
      match relUp h u c with
      | .error e => .error e
      | .ok r1 =>
        match relOver h o r1 with
        | .error e => .error e
        | .ok r2 => relLast h ref r2 := by
  unfold relEvaluate relLast
  cases ref <;> simp only [RelPtr.make, Int.toNat_natCast, if_true] <;> rfl

theorem relLast_spec {h : JHeap} (hi : JInv h) {a : Ref} (hp : h.parent a = none) (ref : RelRef)
    {c : Ref} {ks : List String} (hr : Reach h a ks c) :
    (∀ res, RelLast (val h a) ks ref res → ∃ out, relLast h ref c = .ok out ∧
      RelMatches h a out res) ∧
    ((∀ p, ref = .ptr p → IndexSafe (val h c) p.keys) →
      (¬ ∃ res, RelLast (val h a) ks ref res) → relLast h ref c = .error .relReference) := by
  cases ref with
  | hash =>
    simp only [relLast, RelLast]
    rcases parent_reach hi hp hr with ⟨rfl, rfl, hpc⟩ | ⟨b, k, q, rfl, hq, hck, hpc, hkc⟩
    · simp only [hpc]
      exact ⟨fun res ⟨b, k, h1, _⟩ => by simp at h1, by simp⟩
    · simp only [hpc]
      have hdq := reach_desig hi.weak hq
      cases hd : h.data q with
      | arr cs =>
        rw [Child, hd] at hck
        obtain ⟨i, rfl, hci⟩ := hck
        rw [val_arr hi.ord hd] at hdq
        simp only [intKey, hkc, pyInt_natStr]
        refine ⟨fun res ⟨b', k', hb, hc⟩ => ⟨_, rfl, ?_⟩, fun _ hn => ?_⟩
        · obtain ⟨rfl, hkk⟩ := List.append_inj' hb rfl
          rcases hc with ⟨xs, n, _, rfl, rfl⟩ | ⟨kvs, hk, _⟩
          · have : i = n := natStr_inj' (List.cons.inj hkk).1
            simp [RelMatches, this]
          · cases designates_fun hk hdq
        · exact absurd ⟨.idx i, b, natStr i, rfl, .inl ⟨_, i, hdq, rfl, rfl⟩⟩ hn
      | obj ms =>
        rw [val_obj hi.ord hd] at hdq
        simp only [hkc]
        refine ⟨fun res ⟨b', k', hb, hc⟩ => ⟨_, rfl, ?_⟩, fun _ hn => ?_⟩
        · obtain ⟨rfl, hkk⟩ := List.append_inj' hb rfl
          rcases hc with ⟨xs, n, hk, _⟩ | ⟨kvs, hk, rfl⟩
          · cases designates_fun hk hdq
          · simpa [RelMatches] using hkk
        · exact absurd ⟨.key k, b, k, rfl, .inr ⟨_, hdq, rfl⟩⟩ hn
      | _ => rw [Child, hd] at hck; exact hck.elim
  | ptr p =>
    simp only [relLast, RelLast]
    refine ⟨fun res ⟨v, hv, he⟩ => ?_, fun hs hn => ?_⟩
    · subst he
      obtain ⟨t, ht, _⟩ := desig_reach hi.ord hv
      obtain ⟨c', h1, h2⟩ := reach_split ht
      rw [reach_unique hi.weak.nodup h1 hr] at h2
      rw [reach_resolve hi.weak.nodup h2]
      exact ⟨_, rfl, ht⟩
    · obtain ⟨he, hc⟩ := indexSafe_agree hi.weak p.keys c (hs p rfl)
      cases hres : resolveJson h p.keys c with
      | error e => simp [he e hres]
      | ok t =>
        exact absurd ⟨_, _, reach_desig hi.weak (reach_append hr (hc t hres)), rfl⟩ hn

/-- C11: if the relative pointer has a result at the location, evaluation yields it. -/
theorem C11_evaluates (h : JHeap) (hh : InRangeHistory h) (root n : Ref) (loc : List String)
    (hp : h.parent root = none) (hn : Reach h root loc n) (u : Nat) (o : Int) (ref : RelRef)
    (res : RelResult) (hres : RelEval (val h root) loc u o ref res) :
    ∃ out, relEvaluate h (.make u o ref) n = .ok out ∧ RelMatches h root out res := by
  have hi := hh.inv
  obtain ⟨base, d, base', rfl, rfl, hov, hl⟩ := hres
  rw [relEvaluate_make]
  obtain ⟨base2, d2, x, hbd, hd2, hx, hrx⟩ := (relUp_spec hi hp d.length hn).1 (by simp)
  obtain ⟨rfl, rfl⟩ := List.append_inj' hbd hd2.symm
  obtain ⟨y, hy, hry⟩ := (relOver_spec hi hp o hrx).1 _ hov
  obtain ⟨out, h1, h2⟩ := (relLast_spec hi hp ref hry).1 res hl
  simp only [hx, hy]
  exact ⟨out, h1, h2⟩

/-- C11: if it has none, evaluation raises `RelativeJSONPointerReferenceError`.  Missing: a pointer
part whose tokens are not decimal numerals where they meet an array (see `C11_leaks_value_error`). -/
theorem C11_impossible_partial (h : JHeap) (hh : InRangeHistory h) (root n : Ref) (loc : List String)
    (hp : h.parent root = none) (hn : Reach h root loc n) (u : Nat) (o : Int) (ref : RelRef)
    (hs : ∀ p, ref = .ptr p → ∀ ks w, Designates (val h root) ks w → IndexSafe w p.keys)
    (hres : ¬ ∃ res, RelEval (val h root) loc u o ref res) :
    relEvaluate h (.make u o ref) n = .error .relReference := by
  have hi := hh.inv
  rw [relEvaluate_make]
  by_cases hu : u ≤ loc.length
  · obtain ⟨base, d, x, rfl, rfl, hx, hrx⟩ := (relUp_spec hi hp u hn).1 hu
    simp only [hx]
    by_cases hov : ∃ base', OverBy (val h root) base o base'
    · obtain ⟨base', hov⟩ := hov
      obtain ⟨y, hy, hry⟩ := (relOver_spec hi hp o hrx).1 _ hov
      simp only [hy]
      refine (relLast_spec hi hp ref hry).2 (fun p hr => hs p hr _ _ (reach_desig hi.weak hry)) ?_
      rintro ⟨res, hl⟩
      exact hres ⟨res, base, d, base', rfl, rfl, hov, hl⟩
    · simp only [(relOver_spec hi hp o hrx).2 hov]
  · simp only [(relUp_spec hi hp u hn).2 (by omega)]

/-- C11: the `#` form never raises anything but `RelativeJSONPointerReferenceError`. -/
theorem C11_hash (h : JHeap) (hh : InRangeHistory h) (root n : Ref) (loc : List String)
    (hp : h.parent root = none) (hn : Reach h root loc n) (u : Nat) (o : Int) :
    (∃ out res, relEvaluate h (.make u o .hash) n = .ok out ∧ RelMatches h root out res ∧
      RelEval (val h root) loc u o .hash res) ∨
    (relEvaluate h (.make u o .hash) n = .error .relReference ∧
      ¬ ∃ res, RelEval (val h root) loc u o .hash res) := by
  by_cases hres : ∃ res, RelEval (val h root) loc u o .hash res
  · obtain ⟨res, hres⟩ := hres
    obtain ⟨out, h1, h2⟩ := C11_evaluates h hh root n loc hp hn u o .hash res hres
    exact .inl ⟨out, res, h1, h2, hres⟩
  · exact .inr ⟨C11_impossible_partial h hh root n loc hp hn u o .hash (by simp) hres, hres⟩

/-- C11 fails: from the first item of `JSON([10, 20])`, `1/x` raises `ValueError`. -/
theorem C11_leaks_value_error :
    relEvaluate heapTwo (.make 1 0 (.ptr ⟨["x"]⟩)) 1 = .error .valueError ∧
    ¬ ∃ res, RelEval (val heapTwo 0) ["0"] 1 0 (.ptr ⟨["x"]⟩) res := by
  refine ⟨rfl, ?_⟩
  rintro ⟨res, base, d, base', he, hd, hov, v, hv, _⟩
  have hb : base = [] := by
    have := congrArg List.length he
    simp [hd] at this
    exact this
  subst hb
  rcases hov with ⟨_, rfl⟩ | ⟨h0, _⟩
  · have := designates_iff.1 hv
    change Except.error _ = _ at this
    cases this
  · exact h0 rfl

example : RelEval (val heapTwo 0) ["0"] 0 1 .hash (.idx 1) ∧
    relEvaluate heapTwo (.make 0 1 .hash) 1 = .ok (.idx 1) :=
  ⟨⟨["0"], [], ["1"], rfl, rfl, .inr ⟨by decide, [], 0, 1, [.num (.int 10), .num (.int 20)], rfl, .here,
    rfl, by decide, rfl⟩, [], "1", rfl, .inl ⟨_, 1, .here, rfl, rfl⟩⟩, rfl⟩

example : relEvaluate heapTwo (.make 0 2 .hash) 1 = .error .relReference := rfl

end Jschon
