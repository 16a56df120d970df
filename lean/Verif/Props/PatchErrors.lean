import Verif.Spec.PatchErrors
import Verif.Props.Patch

/-!
# C26: exactly which exceptions the patch operations raise
-/

namespace Jschon
open Spec

theorem raises_snoc {H : String → Value → Exc → Prop} {doc : Value} {ks : List String} {k : String} {e : Exc} :
    Raises H doc (ks ++ [k]) e ↔
      ((¬ ∃ v, Designates doc ks v) ∧ e = .patchError) ∨ ∃ v, Designates doc ks v ∧ H k v e := by
  constructor
  · intro h
    generalize hl : ks ++ [k] = l at h
    cases h with
    | noParent hn =>
      obtain ⟨rfl, hk⟩ := List.append_inj' hl rfl
      exact .inl ⟨hn, rfl⟩
    | here hd hh =>
      obtain ⟨rfl, hk⟩ := List.append_inj' hl rfl
      cases hk
      exact .inr ⟨_, hd, hh⟩
  · rintro (⟨h, rfl⟩ | ⟨v, hd, hh⟩)
    · exact .noParent h
    · exact .here hd hh

theorem raises_nil {H : String → Value → Exc → Prop} {doc : Value} {e : Exc} : ¬ Raises H doc [] e := by
  intro h
  generalize hl : ([] : List String) = l at h
  cases h <;> simp at hl

theorem opAt_error_iff {f : String → Value → Except Exc Value} {H : String → Value → Exc → Prop}
    (hf : ∀ k v e, f k v = .error e ↔ H k v e) (doc : Value) (ks : List String) (k : String) (e : Exc) :
    opAt f doc ks k = .error e ↔ Raises H doc (ks ++ [k]) e := by
  rw [raises_snoc]
  simp only [designates_iff, ← hf]
  unfold opAt
  cases hr : resolvePlain ks doc with
  | error e' => simp [eq_comm]
  | ok v =>
    cases hv : f k v with
    | error e' => simp [hv]
    | ok v' =>
      obtain ⟨d, hd⟩ := putAt_ok hr v'
      simp [hv, hd]

theorem nodeSeq_hasItem {n i : Nat} {k : String} (h : nodeSeq n k = .ok (.item i)) : HasItem k n :=
  ⟨i, nodeSeq_item.1 h⟩

theorem nodeSeq_noItem {n : Nat} {k : String} (h : ∀ i, nodeSeq n k ≠ .ok (.item i)) : ¬ HasItem k n :=
  fun ⟨i, hi⟩ => h i (nodeSeq_item.2 hi)

theorem nodeSeq_place {n : Nat} {k : String} {t : NodeT} (h : nodeSeq n k = .ok t) : HasPlace k n := by
  rcases nodeSeq_ok_cases h with ⟨i, rfl⟩ | rfl
  · obtain ⟨h1, h2⟩ := nodeSeq_item.1 h
    exact .inr ⟨i, h1, by omega⟩
  · rcases (nodeSeq_new.1 h).1 with h1 | h1
    · exact .inl h1
    · exact .inr ⟨n, h1, by omega⟩

theorem nodeSeq_noPlace {n : Nat} {k : String} {e : Exc} (h : nodeSeq n k = .error e) : ¬ HasPlace k n := by
  rintro (h1 | ⟨i, h1, h2⟩)
  · rw [nodeSeq_new.2 ⟨.inl h1, rfl⟩] at h; cases h
  · by_cases hi : i = n
    · subst hi; rw [nodeSeq_new.2 ⟨.inr h1, rfl⟩] at h; cases h
    · rw [nodeSeq_item.2 ⟨h1, by omega⟩] at h; cases h

/-- What the key is to a sequence: an item, a place after the last item, or nothing. -/
theorem nodeSeq_cases (n : Nat) (k : String) :
    (∃ i, nodeSeq n k = .ok (.item i) ∧ HasItem k n ∧ HasPlace k n) ∨
    (nodeSeq n k = .ok (.itemNew n) ∧ ¬ HasItem k n ∧ HasPlace k n) ∨
    (nodeSeq n k = .error .patchError ∧ ¬ HasItem k n ∧ ¬ HasPlace k n) := by
  cases h : nodeSeq n k with
  | error e =>
    rw [← nodeSeq_err h]
    exact .inr (.inr ⟨rfl, nodeSeq_noItem (by simp [h]), nodeSeq_noPlace h⟩)
  | ok t =>
    rcases nodeSeq_ok_cases h with ⟨i, rfl⟩ | rfl
    · exact .inl ⟨i, rfl, nodeSeq_hasItem h, nodeSeq_place h⟩
    · exact .inr (.inl ⟨rfl, nodeSeq_noItem (by simp [h]), nodeSeq_place h⟩)

theorem addFails_iff {k : String} {v : Value} {e : Exc} : AddFails k v e ↔
    (∃ xs, v = .arr xs ∧ ¬ HasPlace k xs.length ∧ e = .patchError) ∨
    (∃ s, v = .str s ∧ ((¬ HasPlace k s.length ∧ e = .patchError) ∨ (HasPlace k s.length ∧ e = .attributeError))) ∨
    (NoContainer v ∧ e = .assertionError) := by
  constructor
  · rintro (h | h | h | h)
    · exact .inl ⟨_, rfl, ‹_›, rfl⟩
    · exact .inr (.inl ⟨_, rfl, .inl ⟨‹_›, rfl⟩⟩)
    · exact .inr (.inl ⟨_, rfl, .inr ⟨‹_›, rfl⟩⟩)
    · exact .inr (.inr ⟨‹_›, rfl⟩)
  · rintro (⟨xs, rfl, h, rfl⟩ | ⟨s, rfl, ⟨h, rfl⟩ | ⟨h, rfl⟩⟩ | ⟨h, rfl⟩)
    · exact .arr h
    · exact .strOut h
    · exact .strIn h
    · exact .other h

theorem changeFails_iff {k : String} {v : Value} {e : Exc} : ChangeFails k v e ↔
    (∃ kvs, v = .obj kvs ∧ (∀ w, (k, w) ∉ kvs) ∧ e = .patchError) ∨
    (∃ xs, v = .arr xs ∧ ¬ HasItem k xs.length ∧ e = .patchError) ∨
    (∃ s, v = .str s ∧ ((¬ HasItem k s.length ∧ e = .patchError) ∨ (HasItem k s.length ∧ e = .typeError))) ∨
    (NoContainer v ∧ e = .assertionError) := by
  constructor
  · rintro (h | h | h | h | h)
    · exact .inl ⟨_, rfl, ‹_›, rfl⟩
    · exact .inr (.inl ⟨_, rfl, ‹_›, rfl⟩)
    · exact .inr (.inr (.inl ⟨_, rfl, .inl ⟨‹_›, rfl⟩⟩))
    · exact .inr (.inr (.inl ⟨_, rfl, .inr ⟨‹_›, rfl⟩⟩))
    · exact .inr (.inr (.inr ⟨‹_›, rfl⟩))
  · rintro (⟨kvs, rfl, h, rfl⟩ | ⟨xs, rfl, h, rfl⟩ | ⟨s, rfl, ⟨h, rfl⟩ | ⟨h, rfl⟩⟩ | ⟨h, rfl⟩)
    · exact .obj h
    · exact .arr h
    · exact .strOut h
    · exact .strIn h
    · exact .other h

theorem noMember_iff {k : String} {kvs : List (String × Value)} :
    (∀ w, (k, w) ∉ kvs) ↔ dlookup k kvs = none := by
  constructor
  · intro h
    cases hl : dlookup k kvs with
    | none => rfl
    | some w => exact absurd (dlookup_mem hl) (h w)
  · intro h w hw
    exact dlookup_eq_none.1 h (List.mem_map.2 ⟨_, hw, rfl⟩)

theorem addLocal_error (value : Value) (k : String) (v : Value) (e : Exc) :
    addLocal value k v = .error e ↔ AddFails k v e := by
  rw [addFails_iff]
  unfold addLocal
  cases v with
  | arr xs =>
    simp only [nodeKind]
    rcases nodeSeq_cases xs.length k with ⟨i, h, h1, h2⟩ | ⟨h, h1, h2⟩ | ⟨h, h1, h2⟩ <;>
      simp [h, seqInsert, h2, eq_comm] <;> rintro ⟨⟩
  | str s =>
    simp only [nodeKind]
    rcases nodeSeq_cases s.length k with ⟨i, h, h1, h2⟩ | ⟨h, h1, h2⟩ | ⟨h, h1, h2⟩ <;>
      simp [h, seqInsert, h2, eq_comm] <;> rintro ⟨⟩
  | obj kvs =>
    simp only [nodeKind]
    cases h : (dlookup k kvs).isSome <;> simp [mapSet] <;> rintro ⟨⟩
  | _ =>
    simp only [nodeKind]
    simp only [reduceCtorEq, false_and, exists_false, false_or, Except.error.injEq]
    exact ⟨fun h => ⟨by constructor, h.symm⟩, fun h => h.2.symm⟩

theorem removeLocal_error (k : String) (v : Value) (e : Exc) :
    removeLocal k v = .error e ↔ ChangeFails k v e := by
  rw [changeFails_iff]
  unfold removeLocal
  cases v with
  | arr xs =>
    simp only [nodeKind]
    rcases nodeSeq_cases xs.length k with ⟨i, h, h1, h2⟩ | ⟨h, h1, h2⟩ | ⟨h, h1, h2⟩ <;>
      simp [h, seqDel, h1, eq_comm] <;> rintro ⟨⟩
  | str s =>
    simp only [nodeKind]
    rcases nodeSeq_cases s.length k with ⟨i, h, h1, h2⟩ | ⟨h, h1, h2⟩ | ⟨h, h1, h2⟩ <;>
      simp [h, seqDel, h1, eq_comm] <;> rintro ⟨⟩
  | obj kvs =>
    simp only [nodeKind, noMember_iff]
    cases h : dlookup k kvs <;> simp [h, mapDel, eq_comm] <;> rintro ⟨⟩
  | _ =>
    simp only [nodeKind]
    simp only [reduceCtorEq, false_and, exists_false, false_or, Except.error.injEq]
    exact ⟨fun h => ⟨by constructor, h.symm⟩, fun h => h.2.symm⟩

theorem replaceLocal_error (value : Value) (k : String) (v : Value) (e : Exc) :
    replaceLocal value k v = .error e ↔ ChangeFails k v e := by
  rw [changeFails_iff]
  unfold replaceLocal
  cases v with
  | arr xs =>
    simp only [nodeKind]
    rcases nodeSeq_cases xs.length k with ⟨i, h, h1, h2⟩ | ⟨h, h1, h2⟩ | ⟨h, h1, h2⟩ <;>
      simp [h, seqSet, h1, eq_comm] <;> rintro ⟨⟩
  | str s =>
    simp only [nodeKind]
    rcases nodeSeq_cases s.length k with ⟨i, h, h1, h2⟩ | ⟨h, h1, h2⟩ | ⟨h, h1, h2⟩ <;>
      simp [h, seqSet, h1, eq_comm] <;> rintro ⟨⟩
  | obj kvs =>
    simp only [nodeKind, noMember_iff]
    cases h : dlookup k kvs <;> simp [h, mapSet, eq_comm] <;> rintro ⟨⟩
  | _ =>
    simp only [nodeKind]
    simp only [reduceCtorEq, false_and, exists_false, false_or, Except.error.injEq]
    exact ⟨fun h => ⟨by constructor, h.symm⟩, fun h => h.2.symm⟩

/-- C26: exactly when `add` raises, and what. -/
theorem C26_add_exact (doc value : Value) (p : Ptr) (e : Exc) :
    patchAdd doc p value = .error e ↔ Raises AddFails doc p.keys e := by
  rcases ptr_cases p with rfl | ⟨ks, k, rfl⟩
  · simp [patchAdd, patchNode_root, raises_nil]
  · rw [patchAdd_snoc, opAt_error_iff (addLocal_error value)]

/-- C26: exactly when `remove` raises, and what. -/
theorem C26_remove_exact (doc : Value) (p : Ptr) (e : Exc) :
    patchRemove doc p = .error e ↔ Raises ChangeFails doc p.keys e := by
  rcases ptr_cases p with rfl | ⟨ks, k, rfl⟩
  · simp [patchRemove, patchNode_root, raises_nil]
  · rw [patchRemove_snoc, opAt_error_iff removeLocal_error]

/-- C26: exactly when `replace` raises, and what. -/
theorem C26_replace_exact (doc value : Value) (p : Ptr) (e : Exc) :
    patchReplace doc p value = .error e ↔ Raises ChangeFails doc p.keys e := by
  rcases ptr_cases p with rfl | ⟨ks, k, rfl⟩
  · simp [patchReplace, patchNode_root, raises_nil]
  · rw [patchReplace_snoc, opAt_error_iff (replaceLocal_error value)]

/-- C26: exactly when `copy` raises, and what: there is nothing at `from`, or `add` raises. -/
theorem C26_copy_exact (doc : Value) (p f : Ptr) (e : Exc) :
    patchCopy doc p f = .error e ↔
      ((¬ ∃ v, Designates doc f.keys v) ∧ e = .patchError) ∨
      ((∃ v, Designates doc f.keys v) ∧ Raises AddFails doc p.keys e) := by
  simp only [patchCopy, Ptr.evaluate, designates_iff]
  cases hr : resolvePlain f.keys doc with
  | error e' =>
    rw [resolvePlain_error hr]
    simp [isPtrErr, eq_comm]
  | ok v => simp [C26_add_exact]

/-- C26: exactly when `move` raises, and what: there is nothing at `from`, or `add` raises once what is at `from`
is removed. -/
theorem C26_move_exact (doc : Value) (p f : Ptr) (e : Exc) :
    patchMove doc p f = .error e ↔
      ((¬ ∃ v, Designates doc f.keys v) ∧ e = .patchError) ∨
      ((∃ v, Designates doc f.keys v) ∧ ∃ mid, Spec.Remove PyIndexSpelling doc f.keys mid ∧
        Raises AddFails mid p.keys e) := by
  simp only [patchMove, Ptr.evaluate, ← C21_remove_exact]
  cases hr : resolvePlain f.keys doc with
  | error e' =>
    simp only [designates_iff]
    have := resolvePlain_error hr
    subst this
    simp [hr, isPtrErr, eq_comm]
  | ok v =>
    have hv : ∃ v, Designates doc f.keys v := ⟨v, resolvePlain_sound hr⟩
    simp only [hv, not_true_eq_false, false_and, true_and, false_or]
    cases hm : patchRemove doc f with
    | ok mid => simp [C26_add_exact]
    | error e' =>
      exfalso
      rw [C26_remove_exact] at hm
      rcases ptr_cases f with rfl | ⟨ks, k, rfl⟩
      · exact raises_nil hm
      · simp only [resolvePlain_append] at hr
        rw [raises_snoc] at hm
        simp only [designates_iff] at hm
        cases hp : resolvePlain ks doc with
        | error e2 => simp [hp] at hr
        | ok u =>
          simp only [hp] at hr hm
          rcases hm with ⟨h1, _⟩ | ⟨u', h1, h2⟩
          · exact h1 ⟨_, rfl⟩
          · cases h1
            cases h2 with
            | obj hn => simp [resolvePlain, noMember_iff.1 hn] at hr
            | @arr xs hn =>
              simp only [resolvePlain] at hr
              split at hr
              · next hi =>
                obtain ⟨n, rfl⟩ := (isIndex_iff k).1 hi
                simp only [pyInt_natStr, pyIndex_natCast] at hr
                cases hx : xs[n]? with
                | none => simp [hx] at hr
                | some w =>
                  exact hn ⟨n, pyIndexSpelling_iff.2 (pyInt_natStr n), (List.getElem?_eq_some_iff.1 hx).1⟩
              · cases hr
            | strOut => simp [resolvePlain] at hr
            | strIn => simp [resolvePlain] at hr
            | other hc => cases hc <;> simp [resolvePlain] at hr

/-- `test` below the root, once the parent is known. -/
def testLocal (value : Value) (k : String) (parent : Value) : Except Exc Unit :=
  match nodeKind parent k with
  | .error e => .error e
  | .ok .root | .ok (.item _) | .ok (.prop _) =>
    match resolvePlain [k] parent with
    | .error e => .error e
    | .ok v => if jsonNe v value then .error .patchError else .ok ()
  | .ok _ => .error .patchError

theorem same_of_ne {v w : Value} (hv : v.WF) (hw : w.WF) : jsonNe v w = true ↔ ¬ Same v w := by
  rw [jsonNe, ← jsonEq_iff_same _ _ hv hw]
  cases jsonEq v w <;> simp

theorem testLocal_error {value : Value} (hw : value.WF) {v : Value} (hv : v.WF) (k : String) (e : Exc) :
    testLocal value k v = .error e ↔ TestFails value k v e := by
  unfold testLocal
  cases v with
  | obj kvs =>
    simp only [nodeKind, resolvePlain]
    cases h : dlookup k kvs with
    | none =>
      simp only [Option.isSome_none, Bool.false_eq_true, if_false]
      constructor
      · intro he; cases he; exact .obj (noMember_iff.2 h)
      · intro he
        cases he with
        | obj => rfl
        | member => rfl
        | other hc => cases hc
    | some w =>
      have hww : w.WF := wf_resolve (ks := [k]) hv (by simp [resolvePlain, h])
      simp only [Option.isSome_some, if_true]
      constructor
      · intro he
        split at he
        · next hne => cases he; exact .member (dlookup_mem h) ((same_of_ne hww hw).1 hne)
        · cases he
      · intro he
        cases he with
        | obj hn => exact absurd (dlookup_mem h) (hn w)
        | @member _ w' hm hs =>
          have : dlookup k kvs = some w' := dlookup_of_mem (by cases hv; assumption) hm
          rw [h] at this
          cases this
          simp [(same_of_ne hww hw).2 hs]
        | other hc => cases hc
  | arr xs =>
    simp only [nodeKind]
    rcases nodeSeq_cases xs.length k with ⟨i, h, h1, h2⟩ | ⟨h, h1, h2⟩ | ⟨h, h1, h2⟩
    · simp only [h]
      obtain ⟨hpi, hlt⟩ := nodeSeq_item.1 h
      by_cases hi : jsonIndexRe.fullmatch k.toList = true
      · obtain ⟨n, rfl⟩ := (isIndex_iff k).1 hi
        have hin : i = n := by
          have := pyIndexSpelling_iff.1 hpi
          rw [pyInt_natStr] at this
          exact (Int.ofNat.inj (Option.some.inj this)).symm
        subst hin
        simp only [resolvePlain, hi, if_true, pyInt_natStr, pyIndex_natCast, List.getElem?_eq_getElem hlt]
        have hww : (xs[i]).WF := by cases hv with | arr hx => exact hx _ (List.getElem_mem hlt)
        constructor
        · intro he
          split at he
          · next hne =>
            cases he
            have hs := (same_of_ne hww hw).1 hne
            obtain ⟨e, hl⟩ := getElem?_split (List.getElem?_eq_getElem hlt)
            generalize xs[i] = w at e hs
            generalize xs.take i = l at e hl
            generalize xs.drop (i + 1) = r at e
            subst e hl
            exact .item rfl hs
          · cases he
        · intro he
          generalize hxs : Value.arr xs = a at he
          cases he with
          | obj => cases hxs
          | member => cases hxs
          | arr hn => cases hxs; exact absurd h1 hn
          | @item l w r hk hs =>
            cases hxs
            have hil : i = l.length := by
              have h3 : natStr i = natStr l.length := hk
              have h4 := pyInt_natStr i
              rw [h3, pyInt_natStr] at h4
              exact (Int.ofNat.inj (Option.some.inj h4)).symm
            subst hil
            have : (l ++ w :: r)[l.length] = w := by simp
            rw [this] at hww ⊢
            simp [(same_of_ne hww hw).2 hs]
          | spelled _ hn => exact absurd rfl (hn i)
          | strOut => cases hxs
          | strIn => cases hxs
          | other hc => subst hxs; cases hc
      · have hno : ∀ n, ¬ RfcIndex k n := fun n hn => hi ((isIndex_iff k).2 ⟨n, hn⟩)
        have hr : resolvePlain [k] (.arr xs) = .error .ptrReference := by simp [resolvePlain, hi]
        simp only [hr]
        constructor
        · intro he; cases he; exact .spelled h1 hno
        · intro he
          generalize hxs : Value.arr xs = a at he
          cases he with
          | obj => cases hxs
          | member => cases hxs
          | arr hn => cases hxs; exact absurd h1 hn
          | item hk => exact absurd hk (hno _)
          | spelled => rfl
          | strOut => cases hxs
          | strIn => cases hxs
          | other hc => subst hxs; cases hc
    all_goals
      simp only [h]
      constructor
      · intro he; cases he; exact .arr h1
      · intro he
        generalize hxs : Value.arr xs = a at he
        cases he with
        | obj => cases hxs
        | member => cases hxs
        | arr hn => rfl
        | item hk => rfl
        | spelled hn => cases hxs; exact absurd hn h1
        | strOut => cases hxs
        | strIn => cases hxs
        | other hc => subst hxs; cases hc
  | str s =>
    simp only [nodeKind, resolvePlain]
    rcases nodeSeq_cases s.length k with ⟨i, h, h1, h2⟩ | ⟨h, h1, h2⟩ | ⟨h, h1, h2⟩
    · simp only [h]
      constructor
      · intro he; cases he; exact .strIn h1
      · intro he
        cases he with
        | strOut hn => exact absurd h1 hn
        | strIn => rfl
        | other hc => cases hc
    all_goals
      simp only [h]
      constructor
      · intro he; cases he; exact .strOut h1
      · intro he
        cases he with
        | strOut => rfl
        | strIn hn => exact absurd hn h1
        | other hc => cases hc
  | _ =>
    simp only [nodeKind]
    constructor
    · intro he; cases he; exact .other (by constructor)
    · intro he; cases he; rfl

/-- C26: exactly when `test` raises, and what. -/
theorem C26_test_exact (doc value : Value) (p : Ptr) (e : Exc) (hd : doc.WF) (hv : value.WF) :
    patchTest doc p value = .error e ↔
      (p.keys = [] ∧ ¬ Same doc value ∧ e = .patchError) ∨ Raises (TestFails value) doc p.keys e := by
  rcases ptr_cases p with rfl | ⟨ks, k, rfl⟩
  · simp only [patchTest, patchNode_root, Ptr.evaluate, resolvePlain, raises_nil, or_false, true_and]
    rw [← same_of_ne hd hv]
    cases jsonNe doc value <;> simp [eq_comm]
  · simp only [List.append_eq_nil_iff, List.cons_ne_nil, and_false, false_and, false_or]
    rw [raises_snoc]
    simp only [designates_iff, patchTest, patchNode_snoc, Ptr.evaluate, resolvePlain_append]
    cases hr : resolvePlain ks doc with
    | error e' => simp [eq_comm]
    | ok v =>
      simp only [Except.ok.injEq, exists_eq', not_true_eq_false, false_and, false_or, exists_eq_left']
      rw [← testLocal_error hv (wf_resolve hd hr)]
      unfold testLocal
      cases nodeKind v k with
      | error e' => simp
      | ok t =>
        cases t <;> simp only <;> try simp
        all_goals
          cases resolvePlain [k] v with
          | error e' => simp
          | ok w =>
            simp only
            by_cases hj : jsonNe w value = true
            · simp [hj]
            · simp [hj]

/-- A `move` or a `copy` without `from` raises `AttributeError`; an operation otherwise raises what the function
for it does. -/
theorem C26_apply_exact (o : PatchOp) (doc : Value) (e : Exc) (hd : doc.WF) (hv : o.value.WF) :
    o.apply doc = .error e ↔ match o.op, o.from_ with
      | .add, _ => Raises AddFails doc o.path.keys e
      | .remove, _ => Raises ChangeFails doc o.path.keys e
      | .replace, _ => Raises ChangeFails doc o.path.keys e
      | .move, some f => ((¬ ∃ v, Designates doc f.keys v) ∧ e = .patchError) ∨
          ((∃ v, Designates doc f.keys v) ∧ ∃ mid, Spec.Remove PyIndexSpelling doc f.keys mid ∧
            Raises AddFails mid o.path.keys e)
      | .copy, some f => ((¬ ∃ v, Designates doc f.keys v) ∧ e = .patchError) ∨
          ((∃ v, Designates doc f.keys v) ∧ Raises AddFails doc o.path.keys e)
      | .move, none => e = .attributeError
      | .copy, none => e = .attributeError
      | .test, _ => (o.path.keys = [] ∧ ¬ Same doc o.value ∧ e = .patchError) ∨
          Raises (TestFails o.value) doc o.path.keys e := by
  obtain ⟨op, path, value, from_⟩ := o
  cases op <;> cases from_ <;> simp only [PatchOp.apply] <;>
    first
      | exact C26_add_exact ..
      | exact C26_remove_exact ..
      | exact C26_replace_exact ..
      | exact C26_move_exact ..
      | exact C26_copy_exact ..
      | exact C26_test_exact _ _ _ _ hd hv
      | simp [eq_comm]

/-- On `["x"]`: `/0/0` is a place in a string, `/5` and `/a` are no places. -/
example : Raises AddFails (.arr [.str "x"]) ["0", "0"] .attributeError ∧
    Raises AddFails (.arr [.str "x"]) ["5"] .patchError ∧
    Raises ChangeFails (.arr [.str "x"]) ["0", "0"] .typeError ∧
    Raises (TestFails .null) (.arr [.str "x"]) ["00"] .ptrReference := by
  refine ⟨(C26_add_exact _ .null ⟨["0", "0"]⟩ _).1 rfl, (C26_add_exact _ .null ⟨["5"]⟩ _).1 rfl,
    (C26_remove_exact _ ⟨["0", "0"]⟩ _).1 rfl, ?_⟩
  have := (C26_test_exact (.arr [.str "x"]) .null ⟨["00"]⟩ .ptrReference
    (.arr (by intro x hx; simp at hx; subst hx; exact .str)) .null).1 rfl
  simpa using this

end Jschon
