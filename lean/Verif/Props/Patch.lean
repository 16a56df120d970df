import Verif.Proof.Patch

/-!
# Properties of JSON Patch, on values (C20, C21, C22, C24, C26, C27, C28)

`Spec.Add idx`, `Spec.Remove idx` and `Spec.Replace idx` are the operations of RFC 6902 for a given
notion `idx` of array index spelling.  With `RfcIndex` they are the operations of the RFC.  With
`PyIndexSpelling` the last token of the path may be anything that `int()` accepts, which is what
`jschon/jsonpatch.py:210-215` does: it is the only difference.
-/

namespace Jschon
open Spec

/-- An array index at the end of the path, if there is one, is spelled as RFC 6901 requires. -/
def CanonicalLast (doc : Value) (p : Ptr) : Prop :=
  ∀ ks k xs (n : Nat), p.keys = ks ++ [k] → Designates doc ks (.arr xs) → PyIntText k n →
    k = toString n

theorem rfcIndex_py {k : String} {n : Nat} (h : RfcIndex k n) : PyIndexSpelling k n := by
  unfold RfcIndex at h
  rw [h, ← natStr_eq_toString]
  exact pyIndexSpelling_iff.2 (pyInt_natStr n)

theorem op_mono {root : Value → Prop} {H H' : String → Value → Value → Prop} {doc doc' : Value}
    {p : Ptr} (h : ∀ ks k v v', p.keys = ks ++ [k] → Designates doc ks v → H k v v' → H' k v v') :
    Op root H doc p.keys doc' → Op root H' doc p.keys doc' := by
  rcases ptr_cases p with rfl | ⟨ks, k, rfl⟩
  · simp only [op_nil]; exact id
  · simp only [op_snoc, at_iff]
    rintro ⟨v, v', h1, h2, h3⟩
    exact ⟨v, v', h1, h ks k v v' rfl (resolvePlain_sound h1) h2, h3⟩

/-! ## C20: add -/

/-- C20: the exact behaviour of `add`: section 4.1 of the RFC, with the index spellings of `int()`. -/
theorem C20_add_exact (doc value doc' : Value) (p : Ptr) :
    patchAdd doc p value = .ok doc' ↔ Spec.Add PyIndexSpelling value doc p.keys doc' :=
  patchAdd_iff doc value doc' p

/-- C20: whatever the RFC prescribes, `add` does. -/
theorem C20_add_complete (doc value doc' : Value) (p : Ptr)
    (h : Spec.Add RfcIndex value doc p.keys doc') : patchAdd doc p value = .ok doc' := by
  rw [C20_add_exact]
  refine op_mono ?_ h
  intro ks k v v' _ _ ha
  cases ha with
  | newMember h => exact .newMember h
  | oldMember h => exact .oldMember h
  | insert h => exact .insert (rfcIndex_py h)
  | append h => exact .append h

/-- C20 (partial): whatever `add` does, the RFC prescribes, provided an array index at the end of
the path is spelled canonically.  Missing: the code also accepts other spellings, see
`C20_nonRfc_index_accepted`. -/
theorem C20_add_sound_partial (doc value doc' : Value) (p : Ptr) (hc : CanonicalLast doc p)
    (h : patchAdd doc p value = .ok doc') : Spec.Add RfcIndex value doc p.keys doc' := by
  rw [C20_add_exact] at h
  refine op_mono ?_ h
  intro ks k v v' hk hd ha
  cases ha with
  | newMember h => exact .newMember h
  | oldMember h => exact .oldMember h
  | insert h => exact .insert (hc ks k _ _ hk hd h)
  | append h => exact .append h

/-- C20: `add` on an object, spelled out: the member is set, whatever the key. -/
theorem C20_add_object (kvs : List (String × Value)) (k : String) (value : Value) :
    patchAdd (.obj kvs) ⟨[k]⟩ value = .ok (.obj (dset k value kvs)) := by
  rw [show (Ptr.mk [k]) = ⟨[] ++ [k]⟩ from rfl, patchAdd_snoc]
  simp only [opAt, resolvePlain, addLocal, nodeKind]
  cases (dlookup k kvs).isSome <;> rfl

/-- C20: the added value is found at the path (unless the path ends with `-` in an array). -/
theorem C20_add_then_evaluate (doc value doc' : Value) (p : Ptr)
    (h : Spec.Add RfcIndex value doc p.keys doc') (hd : p.keys.getLast? ≠ some "-") :
    Designates doc' p.keys value := by
  rcases ptr_cases p with rfl | ⟨ks, k, rfl⟩
  · simp only [Spec.Add, op_nil] at h
    subst h; exact .here
  · simp only [Spec.Add, op_snoc] at h
    simp only [List.getLast?_append, List.getLast?_singleton, Option.some_or, ne_eq,
      Option.some.injEq] at hd
    simp only
    induction h with
    | here ha =>
      cases ha with
      | newMember hn =>
        exact .member (by rw [dlookup_append_of_not_mem hn]; simp [dlookup]) .here
      | oldMember hl => exact .member (dlookup_split.2 ⟨_, _, rfl, hl⟩) .here
      | @insert l r hi =>
        unfold RfcIndex at hi
        rw [List.nil_append, hi]
        exact .item (w := value) (by simp) .here
      | append hk => exact absurd hk hd
    | member hl _ ih => exact .member (dlookup_split.2 ⟨_, _, rfl, hl⟩) ih
    | item _ ih => exact .item (by simp) ih

/-- C20 is false as stated: `add` with the path `/01` on `[0]` succeeds, while the RFC has no result
for it (an index has no leading zeros). -/
theorem C20_nonRfc_index_accepted :
    ∃ doc p value doc', patchAdd doc p value = .ok doc' ∧
      ¬ ∃ doc'', Spec.Add RfcIndex value doc p.keys doc'' := by
  refine ⟨.arr [.num (.int 0)], ⟨["01"]⟩, .null, .arr [.num (.int 0), .null], rfl, ?_⟩
  rintro ⟨doc'', h⟩
  have h1 := (op_snoc (ks := [])).1 h
  rw [at_iff] at h1
  obtain ⟨v, v', h2, h3, _⟩ := h1
  simp only [resolvePlain, Except.ok.injEq] at h2
  subst h2
  generalize hd : Value.arr [.num (.int 0)] = d at h3
  cases h3 with
  | newMember => cases hd
  | oldMember => cases hd
  | @insert l r hi =>
    injection hd with hd
    have hl : l.length ≤ 1 := by
      have := congrArg List.length hd
      simp at this; omega
    have : l.length = 0 ∨ l.length = 1 := by omega
    unfold RfcIndex at hi
    rcases this with h | h <;> rw [h] at hi <;> exact absurd hi (by decide)
  | append hk => exact absurd hk (by decide)

example : Spec.Add RfcIndex (.str "x") (.obj [("a", .arr [.null, .null])]) ["a", "1"]
    (.obj [("a", .arr [.null, .str "x", .null])]) := by
  refine .target (ks := ["a"]) (k := "1") (.member (l := []) (by simp [dkeys]) (.here ?_))
  exact .insert (l := [.null]) (r := [.null]) (by simp [RfcIndex]; rfl)
example : patchAdd (.obj [("a", .arr [.null])]) ⟨["a", "-"]⟩ (.bool true) =
    .ok (.obj [("a", .arr [.null, .bool true])]) := rfl
example : CanonicalLast (.arr [.null]) ⟨["0"]⟩ := by
  intro ks k xs n hk _ hp
  have : ks = [] ∧ k = "0" := by
    have := List.append_inj' (s₁ := []) (t₁ := ["0"]) hk rfl
    simp at this; exact ⟨this.1, this.2.symm⟩
  obtain ⟨rfl, rfl⟩ := this
  rw [← pyInt_iff, show pyInt "0" = some 0 by rfl] at hp
  simp at hp
  have : n = 0 := by omega
  subst this; rfl

/-! ## C21: remove and replace -/

/-- C21: the exact behaviour of `remove`. -/
theorem C21_remove_exact (doc doc' : Value) (p : Ptr) :
    patchRemove doc p = .ok doc' ↔ Spec.Remove PyIndexSpelling doc p.keys doc' :=
  patchRemove_iff doc doc' p

/-- C21: the exact behaviour of `replace`. -/
theorem C21_replace_exact (doc value doc' : Value) (p : Ptr) :
    patchReplace doc p value = .ok doc' ↔ Spec.Replace PyIndexSpelling value doc p.keys doc' :=
  patchReplace_iff doc value doc' p

/-- C21: whatever the RFC prescribes, `remove` does. -/
theorem C21_remove_complete (doc doc' : Value) (p : Ptr)
    (h : Spec.Remove RfcIndex doc p.keys doc') : patchRemove doc p = .ok doc' := by
  rw [C21_remove_exact]
  refine op_mono ?_ h
  intro ks k v v' _ _ ha
  cases ha with
  | member h => exact .member h
  | item h => exact .item (rfcIndex_py h)

/-- C21: whatever the RFC prescribes, `replace` does. -/
theorem C21_replace_complete (doc value doc' : Value) (p : Ptr)
    (h : Spec.Replace RfcIndex value doc p.keys doc') : patchReplace doc p value = .ok doc' := by
  rw [C21_replace_exact]
  refine op_mono ?_ h
  intro ks k v v' _ _ ha
  cases ha with
  | member h => exact .member h
  | item h => exact .item (rfcIndex_py h)

/-- C21 (partial): whatever `remove` does, the RFC prescribes, for canonical indices.  Missing: see
`C21_nonRfc_index_accepted`. -/
theorem C21_remove_sound_partial (doc doc' : Value) (p : Ptr) (hc : CanonicalLast doc p)
    (h : patchRemove doc p = .ok doc') : Spec.Remove RfcIndex doc p.keys doc' := by
  rw [C21_remove_exact] at h
  refine op_mono ?_ h
  intro ks k v v' hk hd ha
  cases ha with
  | member h => exact .member h
  | item h => exact .item (hc ks k _ _ hk hd h)

/-- C21 (partial): whatever `replace` does, the RFC prescribes, for canonical indices. -/
theorem C21_replace_sound_partial (doc value doc' : Value) (p : Ptr) (hc : CanonicalLast doc p)
    (h : patchReplace doc p value = .ok doc') : Spec.Replace RfcIndex value doc p.keys doc' := by
  rw [C21_replace_exact] at h
  refine op_mono ?_ h
  intro ks k v v' hk hd ha
  cases ha with
  | member h => exact .member h
  | item h => exact .item (hc ks k _ _ hk hd h)

theorem designates_iff (doc v : Value) (ks : List String) :
    Designates doc ks v ↔ resolvePlain ks doc = .ok v :=
  ⟨resolvePlain_complete, resolvePlain_sound⟩

theorem local_missing {v : Value} {k : String} (hv : (∃ kvs, v = .obj kvs) ∨ ∃ xs, v = .arr xs)
    (hn : ∀ v', ¬ RemoveHere PyIndexSpelling k v v') :
    removeLocal k v = .error .patchError ∧ ∀ w, replaceLocal w k v = .error .patchError := by
  rcases hv with ⟨kvs, rfl⟩ | ⟨xs, rfl⟩
  · have hk : dlookup k kvs = none := by
      cases hk : dlookup k kvs with
      | none => rfl
      | some w =>
        obtain ⟨l, r, rfl, hl⟩ := dlookup_split.1 hk
        exact absurd (.member hl) (hn _)
    simp [removeLocal, replaceLocal, nodeKind, hk]
  · simp only [removeLocal, replaceLocal, nodeKind]
    cases hs : nodeSeq xs.length k with
    | error e => rw [nodeSeq_err hs]; exact ⟨rfl, fun _ => rfl⟩
    | ok t =>
      rcases nodeSeq_ok_cases hs with ⟨i, rfl⟩ | rfl
      · obtain ⟨hp, hi⟩ := nodeSeq_item.1 hs
        obtain ⟨e, hl⟩ := getElem?_split (List.getElem?_eq_getElem hi)
        generalize xs[i] = w at e
        generalize xs.take i = l at e hl
        generalize xs.drop (i + 1) = r at e
        subst e hl
        exact absurd (.item hp) (hn (.arr (l ++ r)))
      · exact ⟨rfl, fun _ => rfl⟩

/-- C21: `remove` raises JSONPatchError when the target does not exist: when no location is
designated by the parent, or the parent is an object or array without such a member or item. -/
theorem C21_remove_missing (doc : Value) (ks : List String) (k : String)
    (h : ∀ v, Designates doc ks v →
      ((∃ kvs, v = .obj kvs) ∨ ∃ xs, v = .arr xs) ∧ ∀ v', ¬ RemoveHere PyIndexSpelling k v v') :
    patchRemove doc ⟨ks ++ [k]⟩ = .error .patchError := by
  rw [patchRemove_snoc, opAt]
  cases hr : resolvePlain ks doc with
  | error e => rfl
  | ok v =>
    obtain ⟨h1, h2⟩ := h v ((designates_iff ..).2 hr)
    simp only [(local_missing h1 h2).1]

/-- C21: `replace` raises JSONPatchError in the same cases. -/
theorem C21_replace_missing (doc value : Value) (ks : List String) (k : String)
    (h : ∀ v, Designates doc ks v →
      ((∃ kvs, v = .obj kvs) ∨ ∃ xs, v = .arr xs) ∧ ∀ v', ¬ RemoveHere PyIndexSpelling k v v') :
    patchReplace doc ⟨ks ++ [k]⟩ value = .error .patchError := by
  rw [patchReplace_snoc, opAt]
  cases hr : resolvePlain ks doc with
  | error e => rfl
  | ok v =>
    obtain ⟨h1, h2⟩ := h v ((designates_iff ..).2 hr)
    simp only [(local_missing h1 h2).2]

theorem removeHere_arr_length {idx : String → Nat → Prop} {k : String} {xs : List Value} {v' : Value}
    (h : RemoveHere idx k (.arr xs) v') : ∃ n, n < xs.length ∧ idx k n := by
  generalize hd : Value.arr xs = d at h
  cases h with
  | member => cases hd
  | @item l w r hi =>
    injection hd with hd
    subst hd
    exact ⟨_, by simp, hi⟩

/-- C21 is false as stated: `remove` and `replace` accept the path `/00` on `[null]`. -/
theorem C21_nonRfc_index_accepted :
    ∃ doc p, (∃ doc', patchRemove doc p = .ok doc') ∧
      (∀ value, ∃ doc', patchReplace doc p value = .ok doc') ∧
      ¬ ∃ doc'', Spec.Remove RfcIndex doc p.keys doc'' := by
  refine ⟨.arr [.null], ⟨["00"]⟩, ⟨.arr [], rfl⟩, fun v => ⟨.arr [v], rfl⟩, ?_⟩
  rintro ⟨doc'', h⟩
  have h1 := (op_snoc (ks := [])).1 h
  rw [at_iff] at h1
  obtain ⟨v, v', h2, h3, _⟩ := h1
  simp only [resolvePlain, Except.ok.injEq] at h2
  subst h2
  obtain ⟨n, hn, hi⟩ := removeHere_arr_length h3
  have : n = 0 := by simpa using hn
  subst this
  unfold RfcIndex at hi
  exact absurd hi (by decide)

example : Spec.Remove RfcIndex (.obj [("a", .arr [.null, .bool true])]) ["a", "0"]
    (.obj [("a", .arr [.bool true])]) := by
  refine .target (ks := ["a"]) (k := "0") (.member (l := []) (by simp [dkeys]) (.here ?_))
  exact .item (l := []) (r := [.bool true]) (by simp [RfcIndex]; rfl)
example : patchReplace (.obj [("a", .null), ("b", .null)]) ⟨["a"]⟩ (.bool true) =
    .ok (.obj [("a", .bool true), ("b", .null)]) := rfl
example : patchRemove (.obj [("a", .null)]) ⟨["b"]⟩ = .error .patchError := rfl

/-! ## C22: move, copy and test -/

/-- C22: `copy` is `add` of the value at `from`. -/
theorem C22_copy_exact (doc doc' : Value) (path from_ : Ptr) :
    patchCopy doc path from_ = .ok doc' ↔
      Spec.Copy PyIndexSpelling doc path.keys from_.keys doc' := by
  simp only [patchCopy, Spec.Copy, Ptr.evaluate, designates_iff]
  cases h : resolvePlain from_.keys doc with
  | error e => simp
  | ok v => simp [patchAdd_iff]

/-- C22: whatever the RFC prescribes, `copy` does. -/
theorem C22_copy_complete (doc doc' : Value) (path from_ : Ptr)
    (h : Spec.Copy RfcIndex doc path.keys from_.keys doc') :
    patchCopy doc path from_ = .ok doc' := by
  rw [C22_copy_exact]
  obtain ⟨v, h1, h2⟩ := h
  exact ⟨v, h1, (C20_add_exact ..).1 (C20_add_complete _ _ _ _ h2)⟩

/-- C22: `move` is `remove` at `from`, then `add` at `path` of the removed value. -/
theorem C22_move_exact (doc doc' : Value) (path from_ : Ptr) :
    patchMove doc path from_ = .ok doc' ↔
      ∃ v mid, Designates doc from_.keys v ∧ Spec.Remove PyIndexSpelling doc from_.keys mid ∧
        Spec.Add PyIndexSpelling v mid path.keys doc' := by
  simp only [patchMove, Ptr.evaluate, designates_iff, ← patchRemove_iff, ← patchAdd_iff]
  cases h : resolvePlain from_.keys doc with
  | error e => simp
  | ok v =>
    simp only [Except.ok.injEq]
    cases h2 : patchRemove doc from_ with
    | error e => simp
    | ok mid => simp

/-- C22: whatever the RFC prescribes, `move` does. -/
theorem C22_move_complete (doc doc' : Value) (path from_ : Ptr)
    (h : Spec.Move RfcIndex doc path.keys from_.keys doc') :
    patchMove doc path from_ = .ok doc' := by
  rw [C22_move_exact]
  obtain ⟨_, v, mid, h1, h2, h3⟩ := h
  exact ⟨v, mid, h1, (C21_remove_exact ..).1 (C21_remove_complete _ _ _ h2),
    (C20_add_exact ..).1 (C20_add_complete _ _ _ _ h3)⟩

/-- C22 (partial): what `move` does is what the RFC prescribes, if `from` is not a proper prefix of
`path` (and up to the spelling of indices).  Missing: see `C22_move_into_itself_accepted`. -/
theorem C22_move_sound_partial (doc doc' : Value) (path from_ : Ptr)
    (hp : ¬ ∃ r, r ≠ [] ∧ path.keys = from_.keys ++ r)
    (h : patchMove doc path from_ = .ok doc') :
    Spec.Move PyIndexSpelling doc path.keys from_.keys doc' :=
  ⟨hp, (C22_move_exact ..).1 h⟩

/-- C22: within objects a move into itself is rejected, since the `from` location is gone: there is
no such result if no array is on the way. -/
theorem C22_move_into_itself_object (kvs : List (String × Value)) (k : String) (r : List String)
    (hr : r ≠ []) (hn : (dkeys kvs).Nodup) :
    ∃ e, patchMove (.obj kvs) ⟨k :: r⟩ ⟨[k]⟩ = .error e := by
  cases h : patchMove (.obj kvs) ⟨k :: r⟩ ⟨[k]⟩ with
  | error e => exact ⟨e, rfl⟩
  | ok d =>
    exfalso
    obtain ⟨v, mid, h1, h2, h3⟩ := (C22_move_exact ..).1 h
    have h2 := (op_snoc (ks := [])).1 h2
    rw [at_iff] at h2
    obtain ⟨p, p', e1, e2, e3⟩ := h2
    simp only [resolvePlain, Except.ok.injEq] at e1
    subst e1
    simp only [putAt, updateAt, Except.ok.injEq] at e3
    subst e3
    generalize hd : Value.obj kvs = d at e2
    cases e2 with
    | item => cases hd
    | @member l w rr hl =>
      injection hd with hd
      subst hd
      have hk : dlookup k (l ++ rr) = none := by
        rw [dlookup_eq_none]
        simp only [dkeys_append, dkeys_cons, List.nodup_append, List.nodup_cons] at hn
        simp only [dkeys_append, List.mem_append, not_or]
        exact ⟨hl, hn.2.1.1⟩
      obtain ⟨ks, k', rfl⟩ : ∃ ks k', r = ks ++ [k'] := by
        rcases List.eq_nil_or_concat r with rfl | ⟨ks, k', rfl⟩
        · exact absurd rfl hr
        · exact ⟨ks, k', by simp⟩
      have h4 := (op_snoc (ks := k :: ks)).1 h3
      rw [at_iff] at h4
      obtain ⟨u, _, e4, _⟩ := h4
      simp [resolvePlain, hk] at e4

/-- C22 is false as stated: moving `/0` to `/0/x` in an array of two objects succeeds, since the
removal shifts the second object to position 0; the RFC forbids it. -/
theorem C22_move_into_itself_accepted :
    ∃ (doc : Value) (path from_ : Ptr) (doc' : Value),
      (∃ r, r ≠ [] ∧ path.keys = from_.keys ++ r) ∧ patchMove doc path from_ = .ok doc' ∧
      ¬ Spec.Move RfcIndex doc path.keys from_.keys doc' := by
  refine ⟨.arr [.obj [], .obj [("b", .null)]], ⟨["0", "x"]⟩, ⟨["0"]⟩,
    .arr [.obj [("b", .null), ("x", .obj [])]], ⟨["x"], by simp, rfl⟩, rfl, ?_⟩
  rintro ⟨h, _⟩
  exact h ⟨["x"], by simp, rfl⟩

/-- C22: `test` succeeds iff the value at the path equals the given value in the JSON data model, and
then returns the document unchanged. -/
theorem C22_test_exact (doc value doc' : Value) (p : Ptr) (hd : doc.WF) (hv : value.WF) :
    patchTest doc p value = .ok doc' ↔ doc' = doc ∧ Spec.Test doc p.keys value := by
  simp only [patchTest, Spec.Test, designates_iff]
  have key : ∀ v, resolvePlain p.keys doc = .ok v → ((if jsonNe v value then .error .patchError
      else .ok doc) = Except.ok (ε := Exc) doc' ↔ doc' = doc ∧ Same v value) := by
    intro v h
    have hw : v.WF := wf_resolve hd h
    rw [jsonNe, ← jsonEq_iff_same _ _ hw hv]
    cases jsonEq v value <;> simp [eq_comm]
  have hex : ∀ v, resolvePlain p.keys doc = .ok v →
      patchNode doc p = .ok .root ∨ (∃ i, patchNode doc p = .ok (.item i)) ∨
        ∃ k, patchNode doc p = .ok (.prop k) := by
    intro v h
    rcases ptr_cases p with rfl | ⟨ks, k, rfl⟩
    · exact .inl rfl
    · rw [patchNode_snoc]
      simp only [resolvePlain_append] at h
      cases hr : resolvePlain ks doc with
      | error e => simp [hr] at h
      | ok parent =>
        simp only [hr] at h ⊢
        cases parent with
        | obj kvs =>
          simp only [resolvePlain] at h
          cases hk : dlookup k kvs with
          | none => simp [hk] at h
          | some w => exact .inr (.inr ⟨k, by simp [nodeKind, hk]⟩)
        | arr xs =>
          simp only [resolvePlain] at h
          by_cases hi : jsonIndexRe.fullmatch k.toList = true
          · simp only [hi, if_true] at h
            obtain ⟨n, rfl⟩ := (isIndex_iff k).1 hi
            simp only [pyInt_natStr, pyIndex_natCast] at h
            cases hx : xs[n]? with
            | none => simp [hx] at h
            | some w =>
              refine .inr (.inl ⟨n, nodeSeq_item.2 ⟨pyIndexSpelling_iff.2 (pyInt_natStr n), ?_⟩⟩)
              exact (List.getElem?_eq_some_iff.1 hx).1
          · simp [hi] at h
        | _ => simp [resolvePlain] at h
  cases hr : resolvePlain p.keys doc with
  | error e =>
    simp only [Ptr.evaluate, hr]
    cases patchNode doc p with
    | error e => simp
    | ok t => cases t <;> simp
  | ok v =>
    have h1 := key v hr
    simp only [Ptr.evaluate, hr, Except.ok.injEq, exists_eq_left']
    rcases hex v hr with h | ⟨i, h⟩ | ⟨k, h⟩ <;> rw [h] <;> exact h1

example : Spec.Move RfcIndex (.obj [("a", .null)]) ["b"] ["a"] (.obj [("b", .null)]) := by
  refine ⟨by rintro ⟨r, _, h⟩; simp at h, .null, .obj [], .member rfl .here, ?_, ?_⟩
  · exact .target (ks := []) (.here (.member (l := []) (by simp [dkeys])))
  · exact .target (ks := []) (.here (.newMember (by simp [dkeys])))
example : Spec.Test (.obj [("a", .num (.int 1))]) ["a"] (.num (.flt 1)) :=
  ⟨.num (.int 1), .member rfl .here, .num (by decide +kernel)⟩

/-! ## C24: a patch is the sequence of its operations -/

/-- C24: evaluating `ops1 + ops2` is evaluating `ops2` on the result of `ops1`. -/
theorem C24_append (a b : List PatchOp) (doc : Value) :
    patchEvaluate (a ++ b) doc =
      match patchEvaluate a doc with
      | .ok mid => patchEvaluate b mid
      | .error e => .error e := by
  unfold patchEvaluate
  induction a generalizing doc with
  | nil => rfl
  | cons o os ih =>
    simp only [List.cons_append, patchApplyAll]
    cases o.apply doc with
    | error e => rfl
    | ok d => exact ih d

/-- C24: evaluation fails iff some operation fails on the result of the operations before it, and
then with the exception of the first such operation. -/
theorem C24_first_failure (ops : List PatchOp) (doc : Value) (e : Exc) :
    patchEvaluate ops doc = .error e ↔
      ∃ a o b mid, ops = a ++ o :: b ∧ patchEvaluate a doc = .ok mid ∧ o.apply mid = .error e := by
  constructor
  · intro h
    unfold patchEvaluate at h ⊢
    induction ops generalizing doc with
    | nil => simp [patchApplyAll] at h
    | cons o os ih =>
      simp only [patchApplyAll] at h
      cases ho : o.apply doc with
      | error e' =>
        simp only [ho] at h
        cases h
        exact ⟨[], o, os, doc, rfl, rfl, ho⟩
      | ok d =>
        simp only [ho] at h
        obtain ⟨a, o', b, mid, rfl, h2, h3⟩ := ih d h
        exact ⟨o :: a, o', b, mid, rfl, by simp [patchApplyAll, ho, h2], h3⟩
  · rintro ⟨a, o, b, mid, rfl, h2, h3⟩
    rw [C24_append, h2]
    simp [patchEvaluate, patchApplyAll, h3]

example : patchEvaluate [⟨.add, ⟨["a"]⟩, .null, none⟩, ⟨.remove, ⟨["b"]⟩, .null, none⟩] (.obj []) =
    .error .patchError := rfl

/-! ## C26: exceptions -/

/-- The parent of the target, if it exists, is an object or an array. -/
def ParentOk (doc : Value) (p : Ptr) : Prop :=
  ∀ ks k v, p.keys = ks ++ [k] → Designates doc ks v → (∃ kvs, v = .obj kvs) ∨ ∃ xs, v = .arr xs

theorem opAt_err {f : String → Value → Except Exc Value} {doc : Value} {ks : List String}
    {k : String} {e : Exc}
    (hf : ∀ v, (∃ kvs, v = .obj kvs) ∨ (∃ xs, v = .arr xs) → ∀ e, f k v = .error e → e = .patchError)
    (hp : ParentOk doc ⟨ks ++ [k]⟩) (h : opAt f doc ks k = .error e) : e = .patchError := by
  unfold opAt at h
  cases hr : resolvePlain ks doc with
  | error e' => simp [hr] at h; exact h.symm
  | ok v =>
    simp only [hr] at h
    cases hv : f k v with
    | error e' =>
      simp only [hv] at h
      cases h
      exact hf v (hp ks k v rfl ((designates_iff ..).2 hr)) _ hv
    | ok v' =>
      simp only [hv] at h
      obtain ⟨d, hd⟩ := putAt_ok hr v'
      rw [hd] at h; cases h

/-- C26 (partial): `add` raises nothing but JSONPatchError when the parent of the target is not a
scalar.  Missing: see `C26_scalar_parent`. -/
theorem C26_add_partial (doc value : Value) (p : Ptr) (e : Exc) (hp : ParentOk doc p)
    (h : patchAdd doc p value = .error e) : e = .patchError := by
  rcases ptr_cases p with rfl | ⟨ks, k, rfl⟩
  · simp [patchAdd, patchNode_root] at h
  · rw [patchAdd_snoc] at h
    refine opAt_err ?_ hp h
    rintro v (⟨kvs, rfl⟩ | ⟨xs, rfl⟩) e he
    · simp only [addLocal, nodeKind] at he
      cases hk : (dlookup k kvs).isSome <;> simp [hk, mapSet] at he
    · simp only [addLocal, nodeKind] at he
      cases hs : nodeSeq xs.length k with
      | error e' => rw [hs] at he; cases he; exact nodeSeq_err hs
      | ok t =>
        rw [hs] at he
        rcases nodeSeq_ok_cases hs with ⟨i, rfl⟩ | rfl <;> simp [seqInsert] at he

/-- C26 (partial): likewise `remove`. -/
theorem C26_remove_partial (doc : Value) (p : Ptr) (e : Exc) (hp : ParentOk doc p)
    (h : patchRemove doc p = .error e) : e = .patchError := by
  rcases ptr_cases p with rfl | ⟨ks, k, rfl⟩
  · simp [patchRemove, patchNode_root] at h
  · rw [patchRemove_snoc] at h
    refine opAt_err ?_ hp h
    rintro v (⟨kvs, rfl⟩ | ⟨xs, rfl⟩) e he
    · simp only [removeLocal, nodeKind] at he
      cases hk : (dlookup k kvs).isSome <;> simp [hk, mapDel] at he
      exact he.symm
    · simp only [removeLocal, nodeKind] at he
      cases hs : nodeSeq xs.length k with
      | error e' => rw [hs] at he; cases he; exact nodeSeq_err hs
      | ok t =>
        rw [hs] at he
        rcases nodeSeq_ok_cases hs with ⟨i, rfl⟩ | rfl <;> simp [seqDel] at he
        exact he.symm

/-- C26 (partial): likewise `replace`. -/
theorem C26_replace_partial (doc value : Value) (p : Ptr) (e : Exc) (hp : ParentOk doc p)
    (h : patchReplace doc p value = .error e) : e = .patchError := by
  rcases ptr_cases p with rfl | ⟨ks, k, rfl⟩
  · simp [patchReplace, patchNode_root] at h
  · rw [patchReplace_snoc] at h
    refine opAt_err ?_ hp h
    rintro v (⟨kvs, rfl⟩ | ⟨xs, rfl⟩) e he
    · simp only [replaceLocal, nodeKind] at he
      cases hk : (dlookup k kvs).isSome <;> simp [hk, mapSet] at he
      exact he.symm
    · simp only [replaceLocal, nodeKind] at he
      cases hs : nodeSeq xs.length k with
      | error e' => rw [hs] at he; cases he; exact nodeSeq_err hs
      | ok t =>
        rw [hs] at he
        rcases nodeSeq_ok_cases hs with ⟨i, rfl⟩ | rfl <;> simp [seqSet] at he
        exact he.symm

/-- C26 (partial): likewise `copy`; a missing `from` location is also a JSONPatchError. -/
theorem C26_copy_partial (doc : Value) (p f : Ptr) (e : Exc) (hp : ParentOk doc p)
    (h : patchCopy doc p f = .error e) : e = .patchError := by
  simp only [patchCopy, Ptr.evaluate] at h
  cases hr : resolvePlain f.keys doc with
  | error e' =>
    simp only [hr] at h
    rw [resolvePlain_error hr] at h
    cases h; rfl
  | ok v =>
    simp only [hr] at h
    exact C26_add_partial _ _ _ _ hp h

/-- C26 (partial): likewise `move`, the target being looked up after the removal. -/
theorem C26_move_partial (doc : Value) (p f : Ptr) (e : Exc)
    (hp : ∀ mid, patchRemove doc f = .ok mid → ParentOk mid p)
    (h : patchMove doc p f = .error e) : e = .patchError := by
  simp only [patchMove, Ptr.evaluate] at h
  cases hr : resolvePlain f.keys doc with
  | error e' =>
    simp only [hr] at h
    rw [resolvePlain_error hr] at h
    cases h; rfl
  | ok v =>
    simp only [hr] at h
    cases hm : patchRemove doc f with
    | ok mid =>
      simp only [hm] at h
      exact C26_add_partial _ _ _ _ (hp mid hm) h
    | error e' =>
      simp only [hm] at h
      cases h
      refine C26_remove_partial _ _ _ ?_ hm
      intro ks k u hk hu
      rw [hk, resolvePlain_append] at hr
      rw [designates_iff] at hu
      simp only [hu] at hr
      cases u with
      | obj kvs => exact .inl ⟨_, rfl⟩
      | arr xs => exact .inr ⟨_, rfl⟩
      | _ => simp [resolvePlain] at hr

/-- C26 (partial): likewise `test`, for canonical indices. -/
theorem C26_test_partial (doc value : Value) (p : Ptr) (e : Exc) (hp : ParentOk doc p)
    (hc : CanonicalLast doc p) (h : patchTest doc p value = .error e) : e = .patchError := by
  rcases ptr_cases p with rfl | ⟨ks, k, rfl⟩
  · simp only [patchTest, patchNode_root, Ptr.evaluate, resolvePlain] at h
    split at h
    · cases h; rfl
    · cases h
  · simp only [patchTest, patchNode_snoc, Ptr.evaluate, resolvePlain_append] at h
    cases hr : resolvePlain ks doc with
    | error e' => simp [hr] at h; exact h.symm
    | ok v =>
      simp only [hr] at h
      have hd := (designates_iff ..).2 hr
      rcases hp ks k v rfl hd with ⟨kvs, rfl⟩ | ⟨xs, rfl⟩
      · simp only [nodeKind, resolvePlain] at h
        cases hk : dlookup k kvs with
        | none => simp [hk] at h; exact h.symm
        | some w =>
          simp only [hk, Option.isSome_some, if_true] at h
          split at h
          · cases h; rfl
          · cases h
      · simp only [nodeKind] at h
        cases hs : nodeSeq xs.length k with
        | error e' => rw [hs] at h; cases h; exact nodeSeq_err hs
        | ok t =>
          rw [hs] at h
          rcases nodeSeq_ok_cases hs with ⟨i, rfl⟩ | rfl
          · obtain ⟨hpi, hi⟩ := nodeSeq_item.1 hs
            have hk := hc ks k xs i rfl hd hpi
            rw [← natStr_eq_toString] at hk
            subst hk
            simp only [resolvePlain, (isIndex_iff _).2 ⟨i, rfl⟩, if_true, pyInt_natStr,
              pyIndex_natCast, List.getElem?_eq_getElem hi] at h
            split at h
            · cases h; rfl
            · cases h
          · simp at h; exact h.symm

/-- C26 is false as stated: with a scalar parent the operations raise AttributeError, TypeError or
AssertionError, and `test` with a non-canonical index raises JSONPointerReferenceError. -/
theorem C26_other_exceptions :
    patchAdd (.str "x") ⟨["0"]⟩ .null = .error .attributeError ∧
    patchRemove (.str "x") ⟨["0"]⟩ = .error .typeError ∧
    patchReplace (.str "x") ⟨["0"]⟩ .null = .error .typeError ∧
    patchAdd (.num (.int 1)) ⟨["a"]⟩ .null = .error .assertionError ∧
    patchTest (.arr [.null]) ⟨["00"]⟩ .null = .error .ptrReference ∧
    (PatchOp.mk .move ⟨["a"]⟩ .null none).apply (.obj []) = .error .attributeError :=
  ⟨rfl, rfl, rfl, rfl, rfl, rfl⟩

example : ParentOk (.obj [("a", .arr [])]) ⟨["a", "5"]⟩ ∧
    patchAdd (.obj [("a", .arr [])]) ⟨["a", "5"]⟩ .null = .error .patchError := by
  refine ⟨?_, rfl⟩
  intro ks k v hk hd
  have := List.append_inj' (s₁ := ["a"]) (t₁ := ["5"]) hk rfl
  simp at this
  obtain ⟨rfl, rfl⟩ := this
  have := (designates_iff ..).1 hd
  simp [resolvePlain, dlookup] at this
  exact .inr ⟨_, this.symm⟩

/-! ## C27: inverse operations -/

theorem at_back {R S : Value → Value → Prop} {doc doc' : Value} {ks : List String}
    (h : At R doc ks doc') (hs : ∀ v v', Designates doc ks v → R v v' → S v' v) :
    At S doc' ks doc := by
  induction h with
  | here hr => exact .here (hs _ _ .here hr)
  | member hk _ ih =>
    refine .member hk (ih fun v v' hd hr => hs v v' (.member ?_ hd) hr)
    exact dlookup_split.2 ⟨_, _, rfl, hk⟩
  | item _ ih => exact .item (ih fun v v' hd hr => hs v v' (.item (by simp) hd) hr)

/-- C27: after `add` of a new member, or of an array item at an index, `remove` of the same path
gives back the document. -/
theorem C27_add_remove (doc value doc' : Value) (ks : List String) (k : String)
    (h : patchAdd doc ⟨ks ++ [k]⟩ value = .ok doc')
    (hnew : ∀ v, Designates doc ks v → (∃ kvs, v = .obj kvs ∧ k ∉ dkeys kvs) ∨
      (∃ xs, v = .arr xs ∧ k ≠ "-")) :
    patchRemove doc' ⟨ks ++ [k]⟩ = .ok doc := by
  rw [C21_remove_exact, Spec.Remove, op_snoc]
  rw [C20_add_exact, Spec.Add, op_snoc] at h
  refine at_back h fun v v' hd hr => ?_
  cases hr with
  | @newMember kvs hn =>
    have := RemoveHere.member (idx := PyIndexSpelling) (k := k) (l := kvs) (w := value) (r := []) hn
    rwa [List.append_nil] at this
  | @oldMember l w r hl =>
    rcases hnew _ hd with ⟨kvs, hk, hn⟩ | ⟨xs, hk, _⟩
    · cases hk; exact absurd (by simp [dkeys]) hn
    · cases hk
  | insert hi => exact .item hi
  | append hk =>
    rcases hnew _ hd with ⟨kvs, hk, hn⟩ | ⟨xs, _, hn⟩
    · cases hk
    · exact absurd hk hn

theorem at_self {doc v : Value} {ks : List String} (h : Designates doc ks v) :
    At (fun a b => a = v ∧ b = v) doc ks doc := by
  induction h with
  | here => exact .here ⟨rfl, rfl⟩
  | member hk _ ih =>
    obtain ⟨l, r, rfl, hl⟩ := dlookup_split.1 hk
    exact .member hl ih
  | @item xs i ks w v hx _ ih =>
    obtain ⟨e, hn⟩ := getElem?_split hx
    generalize xs.take i = l at e hn
    generalize xs.drop (i + 1) = r at e
    subst e hn
    exact .item ih

/-- C27: `replace` with the value that is already there gives back the document. -/
theorem C27_replace_same (doc v : Value) (p : Ptr) (h : p.evaluate doc = .ok v) :
    patchReplace doc p v = .ok doc := by
  rw [C21_replace_exact, Spec.Replace]
  rcases ptr_cases p with rfl | ⟨ks, k, rfl⟩
  · rw [op_nil]
    simp only [Ptr.evaluate, resolvePlain] at h
    cases h; rfl
  · rw [op_snoc]
    simp only [Ptr.evaluate, resolvePlain_append] at h
    cases hr : resolvePlain ks doc with
    | error e => simp [hr] at h
    | ok u =>
      simp only [hr] at h
      refine at_back (at_self ((designates_iff ..).2 hr)) ?_
      rintro a b - ⟨rfl, rfl⟩
      have hd := (designates_iff ..).2 h
      generalize hk : [k] = kk at hd
      cases hd with
      | here => cases hk
      | member hl hd' =>
        injection hk with e1 e2
        subst e1 e2
        cases hd'
        obtain ⟨l, r, rfl, hl'⟩ := dlookup_split.1 hl
        exact .member hl'
      | @item xs i _ w _ hx hd' =>
        injection hk with e1 e2
        subst e1 e2
        cases hd'
        obtain ⟨e, hn⟩ := getElem?_split hx
        generalize xs.take i = l at e hn
        generalize xs.drop (i + 1) = r at e
        subst e hn
        exact .item (rfcIndex_py rfl)

/-- C27: `replace` undoes `replace`: putting back the old value gives back the document. -/
theorem C27_replace_undo (doc v w doc' : Value) (p : Ptr) (h : p.evaluate doc = .ok v)
    (hr : patchReplace doc p w = .ok doc') : patchReplace doc' p v = .ok doc := by
  rcases ptr_cases p with rfl | ⟨ks, k, rfl⟩
  · simp only [Ptr.evaluate, resolvePlain] at h
    cases h; rfl
  · have h2 := C27_replace_same _ _ _ h
    rw [C21_replace_exact, Spec.Replace, op_snoc] at hr h2 ⊢
    refine at_back hr fun a b hd hab => ?_
    rw [at_iff] at h2
    obtain ⟨a', b', h3, h4, h5⟩ := h2
    rw [designates_iff, h3] at hd
    -- the value put back restores the parent
    have hget : resolvePlain ks doc = .ok b' := resolve_putAt h5
    rw [h3] at hget
    injection hd with hd
    injection hget with hget
    subst hd hget
    exact replaceHere_swap hab h4

example : patchAdd (.arr [.null]) ⟨["1"]⟩ (.bool true) = .ok (.arr [.null, .bool true]) ∧
    patchRemove (.arr [.null, .bool true]) ⟨["1"]⟩ = .ok (.arr [.null]) := ⟨rfl, rfl⟩

/-! ## C28: dict round-trip -/

/-- The operation carries only the members that RFC 6902 defines for it. -/
def PatchOp.Rfc (o : PatchOp) : Prop :=
  match o.op with
  | .add | .replace | .test => o.from_ = none
  | .remove => o.value = .null ∧ o.from_ = none
  | .move | .copy => o.value = .null ∧ o.from_ ≠ none

theorem ptrParse_str (p : Ptr) : Ptr.parse p.str = .ok p := (ptrParse_iff _ _).2 (ptrStr_toList p)

/-- C28: `JSONPatchOperation(**op.asdict())` is `op`. -/
theorem C28_op_roundtrip (o : PatchOp) (h : o.Rfc) : PatchOp.ofDict o.asdict = .ok o := by
  obtain ⟨op, path, value, from_⟩ := o
  cases op <;> simp only [PatchOp.Rfc] at h
  case add | replace | test =>
    subst h
    simp [PatchOp.ofDict, PatchOp.asdict, dlookup, OpName.str, OpName.ofStr, ptrParse_str]
  case remove =>
    obtain ⟨rfl, rfl⟩ := h
    simp [PatchOp.ofDict, PatchOp.asdict, dlookup, OpName.str, OpName.ofStr, ptrParse_str]
  case move | copy =>
    obtain ⟨rfl, h⟩ := h
    cases from_ with
    | none => exact absurd rfl h
    | some f =>
      simp [PatchOp.ofDict, PatchOp.asdict, dlookup, OpName.str, OpName.ofStr, ptrParse_str]

/-- Operation equality is reflexive. -/
theorem patchOp_eq_refl (o : PatchOp) (h : o.value.WF) : o.eq o = true := by
  have h1 : jsonEq o.value o.value = true := (jsonEq_iff_same _ _ h h).2 (same_refl o.value)
  simp only [PatchOp.eq, Ptr.eq, h1, Bool.and_true]
  cases o.from_ <;> simp

/-- C28: `JSONPatchOperation(**op.asdict()) == op`. -/
theorem C28_op_roundtrip_eq (o : PatchOp) (h : o.Rfc) (hw : o.value.WF) :
    ∃ o', PatchOp.ofDict o.asdict = .ok o' ∧ o'.eq o = true :=
  ⟨o, C28_op_roundtrip o h, patchOp_eq_refl o hw⟩

/-- C28: two operations are equal exactly when they have the same name, path and `from`, and the same
JSON value. -/
theorem C28_op_eq_iff (a b : PatchOp) (ha : a.value.WF) (hb : b.value.WF) :
    a.eq b = true ↔ a.op = b.op ∧ a.path = b.path ∧ a.from_ = b.from_ ∧ Spec.Same a.value b.value := by
  simp only [PatchOp.eq, Bool.and_eq_true, beq_iff_eq, and_assoc, jsonEq_iff_same _ _ ha hb, Ptr.eq]
  have key : ∀ p q : Ptr, p.keys = q.keys ↔ p = q := fun p q => by cases p; cases q; simp
  cases a.from_ <;> cases b.from_ <;> simp [key]

/-- C28: `JSONPatch(*patch.aslist()) == patch`. -/
theorem C28_patch_roundtrip (ops : List PatchOp) (h : ∀ o ∈ ops, o.Rfc ∧ o.value.WF) :
    ∃ ops', patchOfDicts (patchAslist ops) = .ok ops' ∧ patchEq ops' ops = true := by
  induction ops with
  | nil => exact ⟨[], rfl, rfl⟩
  | cons o os ih =>
    obtain ⟨os', h1, h2⟩ := ih fun o ho => h o (by simp [ho])
    obtain ⟨h3, h4⟩ := h o (by simp)
    refine ⟨o :: os', ?_, ?_⟩
    · simp only [patchAslist, List.map_cons, patchOfDicts, C28_op_roundtrip o h3]
      simp only [patchAslist] at h1
      rw [h1]
    · simp [patchEq, patchOp_eq_refl o h4, h2]

/-- C28: the restriction to the members of the RFC is needed: a `remove` given a value loses it. -/
theorem C28_extra_value_lost :
    ∃ o o' : PatchOp, PatchOp.ofDict o.asdict = .ok o' ∧ o'.eq o = false :=
  ⟨⟨.remove, ⟨["a"]⟩, .bool true, none⟩, ⟨.remove, ⟨["a"]⟩, .null, none⟩,
    C28_op_roundtrip ⟨.remove, ⟨["a"]⟩, .null, none⟩ ⟨rfl, rfl⟩, rfl⟩

example : (PatchOp.mk .move ⟨["a/b"]⟩ .null (some ⟨["~"]⟩)).Rfc := ⟨rfl, by simp⟩

end Jschon
