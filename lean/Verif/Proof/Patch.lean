import Verif.Model.Patch
import Verif.Spec.Patch
import Verif.Proof.Pointer
import Verif.Proof.Equality
import Verif.Proof.IntText

namespace Jschon
open Spec

/-! ## Functional update at a location -/

/-- Put `w` at location `ks`. -/
def putAt (ks : List String) (w : Value) (doc : Value) : Except Exc Value :=
  updateAt (fun _ => .ok w) ks doc

theorem updateAt_eq (f : Value → Except Exc Value) (ks : List String) (doc : Value) :
    updateAt f ks doc =
      match resolvePlain ks doc with
      | .error e => .error e
      | .ok v =>
        match f v with
        | .error e => .error e
        | .ok v' => putAt ks v' doc := by
  induction ks generalizing doc with
  | nil =>
    cases doc <;> simp only [updateAt, resolvePlain, putAt] <;> split <;> rename_i h <;> rw [h]
  | cons k ks ih =>
    cases doc with
    | obj kvs =>
      simp only [updateAt, resolvePlain, putAt]
      cases hk : dlookup k kvs with
      | none => rfl
      | some w =>
        simp only [ih w]
        cases resolvePlain ks w with
        | error e => rfl
        | ok v =>
          simp only
          cases f v with
          | error e => rfl
          | ok v' => rfl
    | arr xs =>
      simp only [updateAt, resolvePlain, putAt]
      by_cases hi : jsonIndexRe.fullmatch k.toList = true
      · simp only [hi, if_true]
        cases pyInt k with
        | none => rfl
        | some i =>
          simp only
          cases hx : pyIndex xs i with
          | none => rfl
          | some w =>
            simp only [ih w]
            cases resolvePlain ks w with
            | error e => rfl
            | ok v =>
              simp only
              cases f v with
              | error e => rfl
              | ok v' => rfl
      · simp [hi]
    | _ => simp [updateAt, resolvePlain]

theorem putAt_ok {ks : List String} {doc v : Value} (h : resolvePlain ks doc = .ok v) (w : Value) :
    ∃ doc', putAt ks w doc = .ok doc' := by
  induction ks generalizing doc with
  | nil => exact ⟨w, by cases doc <;> rfl⟩
  | cons k ks ih =>
    cases doc with
    | obj kvs =>
      simp only [resolvePlain] at h
      simp only [putAt, updateAt]
      cases hk : dlookup k kvs with
      | none => simp [hk] at h
      | some u =>
        simp only [hk] at h ⊢
        obtain ⟨d, hd⟩ := ih h
        simp only [putAt] at hd
        exact ⟨_, by rw [hd]⟩
    | arr xs =>
      simp only [resolvePlain] at h
      simp only [putAt, updateAt]
      by_cases hi : jsonIndexRe.fullmatch k.toList = true
      · simp only [hi, if_true] at h ⊢
        cases hp : pyInt k with
        | none => simp [hp] at h
        | some i =>
          simp only [hp] at h ⊢
          cases hx : pyIndex xs i with
          | none => simp [hx] at h
          | some u =>
            simp only [hx] at h ⊢
            obtain ⟨d, hd⟩ := ih h
            simp only [putAt] at hd
            exact ⟨_, by rw [hd]⟩
      · simp [hi] at h
    | _ => simp [resolvePlain] at h

theorem getElem?_split {α : Type} {xs : List α} {n : Nat} {x : α} (h : xs[n]? = some x) :
    xs = xs.take n ++ x :: xs.drop (n + 1) ∧ (xs.take n).length = n := by
  obtain ⟨hn, hx⟩ := List.getElem?_eq_some_iff.1 h
  refine ⟨?_, by simp; omega⟩
  rw [← hx, List.getElem_cons_drop, List.take_append_drop]

theorem set_split {α : Type} (l : List α) (x y : α) (r : List α) :
    (l ++ x :: r).set l.length y = l ++ y :: r := by
  induction l with
  | nil => rfl
  | cons a l ih => simp

/-- `At` is: resolve, relate, put. -/
theorem at_iff (R : Value → Value → Prop) (doc doc' : Value) (ks : List String) :
    At R doc ks doc' ↔
      ∃ v v', resolvePlain ks doc = .ok v ∧ R v v' ∧ putAt ks v' doc = .ok doc' := by
  constructor
  · intro h
    induction h with
    | @here v v' hr =>
      exact ⟨v, v', by cases v <;> rfl, hr, by cases v <;> rfl⟩
    | @member l r k w ks w' hk _ ih =>
      obtain ⟨v, v', h1, h2, h3⟩ := ih
      have hl : dlookup k (l ++ (k, w) :: r) = some w := dlookup_split.2 ⟨l, r, rfl, hk⟩
      refine ⟨v, v', by simp [resolvePlain, hl, h1], h2, ?_⟩
      simp only [putAt] at h3
      simp [putAt, updateAt, hl, h3, dset_of_mem hk]
    | @item l r w ks w' _ ih =>
      obtain ⟨v, v', h1, h2, h3⟩ := ih
      rw [← natStr_eq_toString]
      have hi : jsonIndexRe.fullmatch (natStr l.length).toList = true := (isIndex_iff _).2 ⟨_, rfl⟩
      refine ⟨v, v', ?_, h2, ?_⟩
      · simp [resolvePlain, hi, pyInt_natStr, pyIndex_natCast, h1]
      · simp only [putAt] at h3
        simp only [putAt, updateAt, hi, if_true, pyInt_natStr, pyIndex_natCast]
        simp [h3]
  · rintro ⟨v, v', h1, h2, h3⟩
    induction ks generalizing doc doc' with
    | nil =>
      have e1 : doc = v := by cases doc <;> simp [resolvePlain] at h1 <;> exact h1
      have e2 : v' = doc' := by cases doc <;> simp [putAt, updateAt] at h3 <;> exact h3
      subst e1 e2
      exact .here h2
    | cons k ks ih =>
      cases doc with
      | obj kvs =>
        simp only [resolvePlain] at h1
        simp only [putAt, updateAt] at h3
        cases hk : dlookup k kvs with
        | none => simp [hk] at h1
        | some u =>
          simp only [hk] at h1 h3
          cases hu : updateAt (fun _ => .ok v') ks u with
          | error e => simp [hu] at h3
          | ok u' =>
            simp only [hu] at h3
            cases h3
            have := ih u u' h1 hu
            obtain ⟨l, r, rfl, hl⟩ := dlookup_split.1 hk
            rw [dset_of_mem hl]
            exact .member hl this
      | arr xs =>
        simp only [resolvePlain] at h1
        simp only [putAt, updateAt] at h3
        by_cases hi : jsonIndexRe.fullmatch k.toList = true
        · simp only [hi, if_true] at h1 h3
          obtain ⟨n, rfl⟩ := (isIndex_iff k).1 hi
          simp only [pyInt_natStr, pyIndex_natCast] at h1 h3
          cases hx : xs[n]? with
          | none => simp [hx] at h1
          | some u =>
            simp only [hx] at h1 h3
            cases hu : updateAt (fun _ => .ok v') ks u with
            | error e => simp [hu] at h3
            | ok u' =>
              simp only [hu] at h3
              cases h3
              have := ih u u' h1 hu
              obtain ⟨hs, hn⟩ := getElem?_split hx
              generalize xs.take n = l at hs hn
              generalize xs.drop (n + 1) = r at hs
              subst hs
              rw [natStr_eq_toString, ← hn]
              simp only [Int.toNat_natCast]
              rw [set_split]
              exact .item this
        · simp [hi] at h1
      | _ => simp [resolvePlain] at h1

/-! ## Operations, given by what they do at the parent -/

/-- The operation `f k parent` applied at the parent location of a non-empty pointer. -/
def opAt (f : String → Value → Except Exc Value) (doc : Value) (ks : List String) (k : String) :
    Except Exc Value :=
  match resolvePlain ks doc with
  | .error _ => .error .patchError
  | .ok parent =>
    match f k parent with
    | .error e => .error e
    | .ok v' => putAt ks v' doc

/-- The local effect of `add` at the parent. -/
def addLocal (value : Value) (k : String) (parent : Value) : Except Exc Value :=
  match nodeKind parent k with
  | .error e => .error e
  | .ok .root => .ok value
  | .ok (.item i) => seqInsert i value parent
  | .ok (.itemNew i) => seqInsert i value parent
  | .ok (.prop k) => mapSet k value parent
  | .ok (.propNew k) => mapSet k value parent

def removeLocal (k : String) (parent : Value) : Except Exc Value :=
  match nodeKind parent k with
  | .error e => .error e
  | .ok (.item i) => seqDel i parent
  | .ok (.prop k) => mapDel k parent
  | .ok _ => .error .patchError

def replaceLocal (value : Value) (k : String) (parent : Value) : Except Exc Value :=
  match nodeKind parent k with
  | .error e => .error e
  | .ok (.item i) => seqSet i value parent
  | .ok (.prop k) => mapSet k value parent
  | .ok _ => .error .patchError

theorem parent_slice (ks : List String) (k : String) :
    (Ptr.mk (ks ++ [k])).slice none (some (-1)) = ⟨ks⟩ := by
  have h : sliceBound (ks ++ [k]).length (-1) = ks.length := by
    simp only [sliceBound, List.length_append, List.length_singleton]
    rw [if_pos (by omega)]
    omega
  simp only [Ptr.slice, Option.map_some, Option.getD_some, Option.map_none, Option.getD_none, h]
  simp

theorem parentKeys_snoc (ks : List String) (k : String) : parentKeys ⟨ks ++ [k]⟩ = ks := by
  rw [parentKeys, parent_slice]

theorem item_last (ks : List String) (k : String) : (Ptr.mk (ks ++ [k])).item (-1) = some k := by
  unfold Ptr.item pyIndex
  have h1 : ¬ ((0 : Int) ≤ -1) := by omega
  have h2 : (0 : Int) ≤ ((ks ++ [k]).length : Int) + -1 := by simp; omega
  have h3 : (((ks ++ [k]).length : Int) + -1).toNat = ks.length := by simp; omega
  simp only [h1, if_false, h2, if_true, h3]
  simp

theorem patchNode_root (doc : Value) : patchNode doc ⟨[]⟩ = .ok .root := rfl

theorem patchNode_snoc (doc : Value) (ks : List String) (k : String) :
    patchNode doc ⟨ks ++ [k]⟩ =
      match resolvePlain ks doc with
      | .error _ => .error .patchError
      | .ok parent => nodeKind parent k := by
  unfold patchNode
  have : ¬ ((Ptr.mk (ks ++ [k])).len = 0) := by simp [Ptr.len]
  rw [if_neg this, parent_slice, item_last]
  unfold Ptr.evaluate
  cases h : resolvePlain ks doc with
  | ok v => rfl
  | error e => rw [resolvePlain_error h]; rfl

theorem nodeKind_not_root {parent : Value} {k : String} : nodeKind parent k ≠ .ok .root := by
  have hs : ∀ n, nodeSeq n k ≠ .ok .root := by
    intro n
    unfold nodeSeq
    split
    · simp
    · split
      · simp
      · split
        · simp
        · split <;> simp
  cases parent <;> simp only [nodeKind] <;> try exact hs _
  all_goals first | (split <;> simp) | simp

theorem patchAdd_snoc (doc value : Value) (ks : List String) (k : String) :
    patchAdd doc ⟨ks ++ [k]⟩ value = opAt (addLocal value) doc ks k := by
  unfold patchAdd opAt addLocal
  rw [patchNode_snoc]
  cases h : resolvePlain ks doc with
  | error e => rfl
  | ok parent =>
    simp only
    cases hk : nodeKind parent k with
    | error e => rfl
    | ok t =>
      cases t with
      | root => exact absurd hk nodeKind_not_root
      | item i => simp only [parentKeys_snoc, updateAt_eq, h]
      | itemNew i => simp only [parentKeys_snoc, updateAt_eq, h]
      | prop k => simp only [parentKeys_snoc, updateAt_eq, h]
      | propNew k => simp only [parentKeys_snoc, updateAt_eq, h]

theorem patchRemove_snoc (doc : Value) (ks : List String) (k : String) :
    patchRemove doc ⟨ks ++ [k]⟩ = opAt removeLocal doc ks k := by
  unfold patchRemove opAt removeLocal
  rw [patchNode_snoc]
  cases h : resolvePlain ks doc with
  | error e => rfl
  | ok parent =>
    simp only
    cases hk : nodeKind parent k with
    | error e => rfl
    | ok t =>
      cases t with
      | root => exact absurd hk nodeKind_not_root
      | item i => simp only [parentKeys_snoc, updateAt_eq, h]
      | prop k => simp only [parentKeys_snoc, updateAt_eq, h]
      | _ => rfl

theorem patchReplace_snoc (doc value : Value) (ks : List String) (k : String) :
    patchReplace doc ⟨ks ++ [k]⟩ value = opAt (replaceLocal value) doc ks k := by
  unfold patchReplace opAt replaceLocal
  rw [patchNode_snoc]
  cases h : resolvePlain ks doc with
  | error e => rfl
  | ok parent =>
    simp only
    cases hk : nodeKind parent k with
    | error e => rfl
    | ok t =>
      cases t with
      | root => exact absurd hk nodeKind_not_root
      | item i => simp only [parentKeys_snoc, updateAt_eq, h]
      | prop k => simp only [parentKeys_snoc, updateAt_eq, h]
      | _ => rfl

theorem opAt_ok_iff (f : String → Value → Except Exc Value) (doc doc' : Value) (ks : List String)
    (k : String) : opAt f doc ks k = .ok doc' ↔ At (fun v v' => f k v = .ok v') doc ks doc' := by
  rw [at_iff]
  unfold opAt
  cases h : resolvePlain ks doc with
  | error e => simp
  | ok parent =>
    simp only [Except.ok.injEq]
    cases hf : f k parent with
    | error e =>
      simp only [reduceCtorEq, false_iff, not_exists, not_and]
      rintro v v' rfl h2
      rw [hf] at h2; cases h2
    | ok v' =>
      simp only
      constructor
      · intro hp; exact ⟨parent, v', rfl, hf, hp⟩
      · rintro ⟨v, w, rfl, h2, h3⟩
        rw [hf] at h2; cases h2
        exact h3

theorem at_congr {R S : Value → Value → Prop} (h : ∀ v v', R v v' ↔ S v v') {doc doc' : Value}
    {ks : List String} : At R doc ks doc' ↔ At S doc ks doc' := by
  simp only [at_iff, h]

/-! ## The local effects are those of the RFC, up to the spelling of indices -/

theorem pyIndexSpelling_iff {k : String} {n : Nat} : PyIndexSpelling k n ↔ pyInt k = some (n : Int) :=
  pyInt_iff.symm

theorem insertIdx_split {α : Type} (xs : List α) (i : Nat) (h : i ≤ xs.length) (v : α) :
    xs.insertIdx i v = xs.take i ++ v :: xs.drop i := by
  induction xs generalizing i with
  | nil => simp at h; subst h; simp
  | cons x xs ih =>
    cases i with
    | zero => simp
    | succ i => simp [ih i (by simpa using h)]

theorem insertIdx_append {α : Type} (l r : List α) (v : α) :
    (l ++ r).insertIdx l.length v = l ++ v :: r := by
  rw [insertIdx_split _ _ (by simp)]
  simp

theorem eraseIdx_append {α : Type} (l r : List α) (w : α) :
    (l ++ w :: r).eraseIdx l.length = l ++ r := by
  rw [List.eraseIdx_append_of_length_le (by omega)]
  simp

theorem nodeSeq_item {n : Nat} {k : String} {i : Nat} :
    nodeSeq n k = .ok (.item i) ↔ PyIndexSpelling k i ∧ i < n := by
  rw [pyIndexSpelling_iff]
  unfold nodeSeq
  by_cases hd : k = "-"
  · subst hd
    simp [pyInt_dash]
  · simp only [hd, if_false]
    cases hp : pyInt k with
    | none => simp
    | some j =>
      simp only [Option.some.injEq]
      by_cases h1 : j = (n : Int)
      · simp only [h1, if_true, Except.ok.injEq, reduceCtorEq, false_iff, not_and]
        intro h; omega
      · simp only [h1, if_false]
        by_cases h2 : 0 ≤ j ∧ j < (n : Int)
        · simp only [h2, and_self, if_true, Except.ok.injEq, NodeT.item.injEq]
          omega
        · simp only [h2, if_false, reduceCtorEq, false_iff, not_and]
          omega

theorem nodeSeq_new {n : Nat} {k : String} {i : Nat} :
    nodeSeq n k = .ok (.itemNew i) ↔ (k = "-" ∨ PyIndexSpelling k n) ∧ i = n := by
  rw [pyIndexSpelling_iff]
  unfold nodeSeq
  by_cases hd : k = "-"
  · subst hd
    simp [eq_comm]
  · simp only [hd, if_false, false_or]
    cases hp : pyInt k with
    | none => simp
    | some j =>
      simp only [Option.some.injEq]
      by_cases h1 : j = (n : Int)
      · simp [h1, eq_comm]
      · simp only [h1, if_false]
        by_cases h2 : 0 ≤ j ∧ j < (n : Int)
        · simp [h2]
        · simp [h2]

theorem nodeSeq_ok_cases {n : Nat} {k : String} {t : NodeT} (h : nodeSeq n k = .ok t) :
    (∃ i, t = .item i) ∨ t = .itemNew n := by
  unfold nodeSeq at h
  split at h
  · cases h; exact .inr rfl
  · split at h
    · cases h
    · split at h
      · cases h; exact .inr rfl
      · split at h
        · cases h; exact .inl ⟨_, rfl⟩
        · cases h

theorem nodeSeq_err {n : Nat} {k : String} {e : Exc} (h : nodeSeq n k = .error e) :
    e = .patchError := by
  unfold nodeSeq at h
  split at h
  · cases h
  · split at h
    · cases h; rfl
    · split at h
      · cases h
      · split at h
        · cases h
        · cases h; rfl

theorem addLocal_iff (value : Value) (k : String) (v v' : Value) :
    addLocal value k v = .ok v' ↔ AddHere PyIndexSpelling value k v v' := by
  cases v with
  | obj kvs =>
    simp only [addLocal, nodeKind]
    cases hk : dlookup k kvs with
    | none =>
      have hn := dlookup_eq_none.1 hk
      simp only [Option.isSome_none, Bool.false_eq_true, if_false, mapSet, Except.ok.injEq]
      rw [dset_of_not_mem hn]
      constructor
      · rintro rfl; exact .newMember hn
      · intro h
        cases h with
        | newMember _ => rfl
        | oldMember hl => exact absurd (by simp [dkeys]) hn
    | some w =>
      simp only [Option.isSome_some, if_true, mapSet, Except.ok.injEq]
      obtain ⟨l, r, rfl, hl⟩ := dlookup_split.1 hk
      rw [dset_of_mem hl]
      constructor
      · rintro rfl; exact .oldMember hl
      · intro h
        generalize hd : Value.obj (l ++ (k, w) :: r) = d at h
        cases h with
        | newMember hn => cases hd; exact absurd (by simp [dkeys]) hn
        | @oldMember l' w' r' hl' =>
          injection hd with hd
          rw [← dset_of_mem (v := value) (w := w) (r := r) hl, hd, dset_of_mem hl']
        | insert _ => cases hd
        | append _ => cases hd
  | arr xs =>
    simp only [addLocal, nodeKind]
    constructor
    · intro h
      cases hs : nodeSeq xs.length k with
      | error e => rw [hs] at h; cases h
      | ok t =>
        rw [hs] at h
        rcases nodeSeq_ok_cases hs with ⟨i, rfl⟩ | rfl
        · obtain ⟨hp, hi⟩ := nodeSeq_item.1 hs
          simp only [seqInsert, Except.ok.injEq] at h
          subst h
          rw [insertIdx_split _ _ (by omega)]
          have := AddHere.insert (idx := PyIndexSpelling) (v := value) (k := k)
            (l := xs.take i) (r := xs.drop i) (by simpa [Nat.min_eq_left (Nat.le_of_lt hi)] using hp)
          rwa [List.take_append_drop] at this
        · obtain ⟨hp, _⟩ := nodeSeq_new.1 hs
          simp only [seqInsert, Except.ok.injEq] at h
          subst h
          rw [insertIdx_split _ _ (by omega)]
          simp only [List.take_length, List.drop_length]
          rcases hp with hp | hp
          · exact .append hp
          · have := AddHere.insert (idx := PyIndexSpelling) (v := value) (k := k)
              (l := xs) (r := []) hp
            rwa [List.append_nil] at this
    · intro h
      generalize hd : Value.arr xs = d at h
      cases h with
      | newMember _ => cases hd
      | oldMember _ => cases hd
      | @insert l r hp =>
        injection hd with hd
        subst hd
        by_cases hr : r = []
        · subst hr
          simp only [List.append_nil]
          rw [nodeSeq_new.2 ⟨.inr hp, rfl⟩]
          simp only [seqInsert]
          rw [insertIdx_split _ _ (by omega)]
          simp
        · have : 0 < r.length := List.length_pos_iff.2 hr
          rw [nodeSeq_item.2 ⟨hp, by simp; omega⟩]
          simp only [seqInsert, insertIdx_append]
      | append hk =>
        injection hd with hd
        subst hd
        rw [nodeSeq_new.2 ⟨.inl hk, rfl⟩]
        simp only [seqInsert]
        rw [insertIdx_split _ _ (by omega)]
        simp
  | str s =>
    simp only [addLocal, nodeKind]
    constructor
    · intro h
      cases hs : nodeSeq s.length k with
      | error e => rw [hs] at h; cases h
      | ok t =>
        rw [hs] at h
        rcases nodeSeq_ok_cases hs with ⟨i, rfl⟩ | rfl <;> simp [seqInsert] at h
    · intro h; cases h
  | _ => simp only [addLocal, nodeKind]; constructor <;> intro h <;> cases h

theorem removeLocal_iff (k : String) (v v' : Value) :
    removeLocal k v = .ok v' ↔ RemoveHere PyIndexSpelling k v v' := by
  cases v with
  | obj kvs =>
    simp only [removeLocal, nodeKind]
    cases hk : dlookup k kvs with
    | none =>
      have hn := dlookup_eq_none.1 hk
      simp only [Option.isSome_none, Bool.false_eq_true, if_false]
      constructor
      · intro h; cases h
      · intro h
        generalize hd : Value.obj kvs = d at h
        cases h with
        | member hl => cases hd; exact absurd (by simp [dkeys]) hn
        | item _ => cases hd
    | some w =>
      simp only [Option.isSome_some, if_true, mapDel, Except.ok.injEq]
      obtain ⟨l, r, rfl, hl⟩ := dlookup_split.1 hk
      rw [derase_of_mem hl]
      constructor
      · rintro rfl; exact .member hl
      · intro h
        generalize hd : Value.obj (l ++ (k, w) :: r) = d at h
        cases h with
        | member hl' =>
          injection hd with hd
          rw [← derase_of_mem (w := w) (r := r) hl, hd, derase_of_mem hl']
        | item _ => cases hd
  | arr xs =>
    simp only [removeLocal, nodeKind]
    constructor
    · intro h
      cases hs : nodeSeq xs.length k with
      | error e => rw [hs] at h; cases h
      | ok t =>
        rw [hs] at h
        rcases nodeSeq_ok_cases hs with ⟨i, rfl⟩ | rfl
        · obtain ⟨hp, hi⟩ := nodeSeq_item.1 hs
          simp only [seqDel, Except.ok.injEq] at h
          subst h
          obtain ⟨e, hn⟩ := getElem?_split (List.getElem?_eq_getElem hi)
          generalize xs[i] = w at e
          generalize xs.take i = l at e hn
          generalize xs.drop (i + 1) = r at e
          subst e
          subst hn
          rw [eraseIdx_append]
          exact .item hp
        · simp at h
    · intro h
      generalize hd : Value.arr xs = d at h
      cases h with
      | member _ => cases hd
      | item hp =>
        injection hd with hd
        subst hd
        rw [nodeSeq_item.2 ⟨hp, by simp⟩]
        simp only [seqDel, eraseIdx_append]
  | str s =>
    simp only [removeLocal, nodeKind]
    constructor
    · intro h
      cases hs : nodeSeq s.length k with
      | error e => rw [hs] at h; cases h
      | ok t =>
        rw [hs] at h
        rcases nodeSeq_ok_cases hs with ⟨i, rfl⟩ | rfl <;> simp [seqDel] at h
    · intro h; cases h
  | _ => simp only [removeLocal, nodeKind]; constructor <;> intro h <;> cases h

theorem replaceLocal_iff (value : Value) (k : String) (v v' : Value) :
    replaceLocal value k v = .ok v' ↔ ReplaceHere PyIndexSpelling value k v v' := by
  cases v with
  | obj kvs =>
    simp only [replaceLocal, nodeKind]
    cases hk : dlookup k kvs with
    | none =>
      have hn := dlookup_eq_none.1 hk
      simp only [Option.isSome_none, Bool.false_eq_true, if_false]
      constructor
      · intro h; cases h
      · intro h
        generalize hd : Value.obj kvs = d at h
        cases h with
        | member hl => cases hd; exact absurd (by simp [dkeys]) hn
        | item _ => cases hd
    | some w =>
      simp only [Option.isSome_some, if_true, mapSet, Except.ok.injEq]
      obtain ⟨l, r, rfl, hl⟩ := dlookup_split.1 hk
      rw [dset_of_mem hl]
      constructor
      · rintro rfl; exact .member hl
      · intro h
        generalize hd : Value.obj (l ++ (k, w) :: r) = d at h
        cases h with
        | member hl' =>
          injection hd with hd
          rw [← dset_of_mem (v := value) (w := w) (r := r) hl, hd, dset_of_mem hl']
        | item _ => cases hd
  | arr xs =>
    simp only [replaceLocal, nodeKind]
    constructor
    · intro h
      cases hs : nodeSeq xs.length k with
      | error e => rw [hs] at h; cases h
      | ok t =>
        rw [hs] at h
        rcases nodeSeq_ok_cases hs with ⟨i, rfl⟩ | rfl
        · obtain ⟨hp, hi⟩ := nodeSeq_item.1 hs
          simp only [seqSet, Except.ok.injEq] at h
          subst h
          obtain ⟨e, hn⟩ := getElem?_split (List.getElem?_eq_getElem hi)
          generalize xs[i] = w at e
          generalize xs.take i = l at e hn
          generalize xs.drop (i + 1) = r at e
          subst e
          subst hn
          rw [set_split]
          exact .item hp
        · simp at h
    · intro h
      generalize hd : Value.arr xs = d at h
      cases h with
      | member _ => cases hd
      | item hp =>
        injection hd with hd
        subst hd
        rw [nodeSeq_item.2 ⟨hp, by simp⟩]
        simp only [seqSet, set_split]
  | str s =>
    simp only [replaceLocal, nodeKind]
    constructor
    · intro h
      cases hs : nodeSeq s.length k with
      | error e => rw [hs] at h; cases h
      | ok t =>
        rw [hs] at h
        rcases nodeSeq_ok_cases hs with ⟨i, rfl⟩ | rfl <;> simp [seqSet] at h
    · intro h; cases h
  | _ => simp only [replaceLocal, nodeKind]; constructor <;> intro h <;> cases h

/-- Every pointer is the root or a parent with a last key. -/
theorem ptr_cases (p : Ptr) : p = ⟨[]⟩ ∨ ∃ ks k, p = ⟨ks ++ [k]⟩ := by
  obtain ⟨keys⟩ := p
  rcases List.eq_nil_or_concat keys with rfl | ⟨ks, k, rfl⟩
  · exact .inl rfl
  · exact .inr ⟨ks, k, by simp⟩

theorem op_snoc {root : Value → Prop} {here : String → Value → Value → Prop} {doc doc' : Value}
    {ks : List String} {k : String} :
    Op root here doc (ks ++ [k]) doc' ↔ At (here k) doc ks doc' := by
  constructor
  · intro h
    generalize hk : ks ++ [k] = keys at h
    cases h with
    | root _ => simp at hk
    | target h =>
      have := List.append_inj' hk (by simp)
      simp at this
      obtain ⟨rfl, rfl⟩ := this
      exact h
  · exact .target

theorem op_nil {root : Value → Prop} {here : String → Value → Value → Prop} {doc doc' : Value} :
    Op root here doc [] doc' ↔ root doc' := by
  constructor
  · intro h
    generalize hk : ([] : List String) = keys at h
    cases h with
    | root h => exact h
    | target h => simp at hk
  · exact .root

theorem patchAdd_iff (doc value doc' : Value) (p : Ptr) :
    patchAdd doc p value = .ok doc' ↔ Spec.Add PyIndexSpelling value doc p.keys doc' := by
  unfold Spec.Add
  rcases ptr_cases p with rfl | ⟨ks, k, rfl⟩
  · simp only [op_nil, patchAdd, patchNode_root, Except.ok.injEq]
    exact eq_comm
  · rw [op_snoc, patchAdd_snoc, opAt_ok_iff]
    exact at_congr (fun v v' => addLocal_iff value k v v')

theorem patchRemove_iff (doc doc' : Value) (p : Ptr) :
    patchRemove doc p = .ok doc' ↔ Remove PyIndexSpelling doc p.keys doc' := by
  unfold Remove
  rcases ptr_cases p with rfl | ⟨ks, k, rfl⟩
  · simp only [op_nil, patchRemove, patchNode_root, Except.ok.injEq]
    exact eq_comm
  · rw [op_snoc, patchRemove_snoc, opAt_ok_iff]
    exact at_congr (fun v v' => removeLocal_iff k v v')

theorem patchReplace_iff (doc value doc' : Value) (p : Ptr) :
    patchReplace doc p value = .ok doc' ↔ Replace PyIndexSpelling value doc p.keys doc' := by
  unfold Replace
  rcases ptr_cases p with rfl | ⟨ks, k, rfl⟩
  · simp only [op_nil, patchReplace, patchNode_root, Except.ok.injEq]
    exact eq_comm
  · rw [op_snoc, patchReplace_snoc, opAt_ok_iff]
    exact at_congr (fun v v' => replaceLocal_iff value k v v')

/-! ## Further facts about locations -/

theorem wf_dlookup {kvs : List (String × Value)} {k : String} {v : Value} (h : (Value.obj kvs).WF)
    (hk : dlookup k kvs = some v) : v.WF := by
  cases h with
  | obj _ hv => exact hv (k, v) (dlookup_mem hk)

theorem wf_resolve {doc v : Value} {ks : List String} (h : doc.WF)
    (hr : resolvePlain ks doc = .ok v) : v.WF := by
  have hd := resolvePlain_sound hr
  clear hr
  induction hd with
  | here => exact h
  | member hk _ ih => exact ih (wf_dlookup h hk)
  | item hx _ ih =>
    cases h with
    | arr ha => exact ih (ha _ (List.mem_of_getElem? hx))

theorem resolve_putAt {doc doc' w : Value} {ks : List String} (h : putAt ks w doc = .ok doc') :
    resolvePlain ks doc' = .ok w := by
  have hr : ∃ v, resolvePlain ks doc = .ok v := by
    unfold putAt at h
    rw [updateAt_eq] at h
    cases hr : resolvePlain ks doc with
    | error e => simp [hr] at h
    | ok v => exact ⟨v, rfl⟩
  obtain ⟨v, hr⟩ := hr
  have ha : At (fun a b => a = v ∧ b = w) doc ks doc' := (at_iff ..).2 ⟨v, w, hr, ⟨rfl, rfl⟩, h⟩
  clear h hr
  induction ha with
  | here hab => obtain ⟨_, rfl⟩ := hab; simp [resolvePlain]
  | member hk _ ih =>
    simp only [resolvePlain, dlookup_split.2 ⟨_, _, rfl, hk⟩, ih]
  | item _ ih =>
    rw [← natStr_eq_toString]
    simp [resolvePlain, (isIndex_iff _).2 ⟨_, rfl⟩, pyInt_natStr, pyIndex_natCast, ih]

/-- Replacing a member or item by the value it had undoes any other replacement of it. -/
theorem replaceHere_swap {v w : Value} {k : String} {a b : Value}
    (h1 : ReplaceHere PyIndexSpelling w k a b) (h2 : ReplaceHere PyIndexSpelling v k a a) :
    ReplaceHere PyIndexSpelling v k b a := by
  have e2 := (replaceLocal_iff ..).2 h2
  rw [← replaceLocal_iff]
  cases h1 with
  | @member l u r hl =>
    have hd : ∀ u, dlookup k (l ++ (k, u) :: r) = some u :=
      fun u => dlookup_split.2 ⟨l, r, rfl, hl⟩
    simp only [replaceLocal, nodeKind, hd, Option.isSome_some, if_true, mapSet,
      dset_of_mem hl] at e2 ⊢
    exact e2
  | @item l u r hi =>
    have hd : ∀ u : Value, nodeSeq (l ++ u :: r).length k = .ok (.item l.length) :=
      fun u => nodeSeq_item.2 ⟨hi, by simp⟩
    simp only [replaceLocal, nodeKind, hd, seqSet, set_split] at e2 ⊢
    exact e2

end Jschon
