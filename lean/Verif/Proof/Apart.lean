import Verif.Spec.Apart
import Verif.Props.Patch

/-!
# Lemmas on edits at places that part
-/

namespace Jschon
open Spec

/-! ## Edits at a location, step by step -/

theorem at_nil {R : Value → Value → Prop} {d d' : Value} : At R d [] d' ↔ R d d' :=
  ⟨fun h => by cases h; assumption, .here⟩

theorem at_member {R : Value → Value → Prop} {kvs : List (String × Value)} {k : String} {ks : List String} {d' : Value} :
    At R (.obj kvs) (k :: ks) d' ↔
      ∃ w w', dlookup k kvs = some w ∧ At R w ks w' ∧ d' = .obj (dset k w' kvs) := by
  constructor
  · intro h
    cases h with
    | @member l r _ w _ w' hk h => exact ⟨w, w', dlookup_split.2 ⟨l, r, rfl, hk⟩, h, by rw [dset_of_mem hk]⟩
  · rintro ⟨w, w', hl, h, rfl⟩
    obtain ⟨l, r, rfl, hk⟩ := dlookup_split.1 hl
    rw [dset_of_mem hk]
    exact .member hk h

theorem at_item {R : Value → Value → Prop} {xs : List Value} {k : String} {ks : List String} {d' : Value} :
    At R (.arr xs) (k :: ks) d' ↔
      ∃ (i : Nat) (w w' : Value), k = toString i ∧ xs[i]? = some w ∧ At R w ks w' ∧ d' = .arr (xs.set i w') := by
  constructor
  · intro h
    cases h with
    | @item l r w _ w' h => exact ⟨l.length, w, w', rfl, by simp, h, by simp⟩
  · rintro ⟨i, w, w', rfl, hx, h, rfl⟩
    obtain ⟨e, hn⟩ := getElem?_split hx
    generalize xs.take i = l at e hn
    generalize xs.drop (i + 1) = r at e
    subst e hn
    simpa using At.item (l := l) (r := r) h

theorem at_leaf {R : Value → Value → Prop} {d d' : Value} {k : String} {ks : List String} (h : At R d (k :: ks) d') :
    (∃ kvs, d = .obj kvs) ∨ ∃ xs, d = .arr xs := by
  cases h with
  | member => exact .inl ⟨_, rfl⟩
  | item => exact .inr ⟨_, rfl⟩

theorem desig_nil {d w : Value} : Designates d [] w ↔ w = d :=
  ⟨fun h => by cases h; rfl, fun h => h ▸ .here⟩

theorem desig_member {kvs : List (String × Value)} {k : String} {ks : List String} {w : Value} :
    Designates (.obj kvs) (k :: ks) w ↔ ∃ x, dlookup k kvs = some x ∧ Designates x ks w :=
  ⟨fun h => by cases h with | member a b => exact ⟨_, a, b⟩, fun ⟨_, a, b⟩ => .member a b⟩

theorem desig_item {xs : List Value} {k : String} {ks : List String} {w : Value} :
    Designates (.arr xs) (k :: ks) w ↔ ∃ (i : Nat) (x : Value), k = toString i ∧ xs[i]? = some x ∧ Designates x ks w :=
  ⟨fun h => by cases h with | item a b => exact ⟨_, _, rfl, a, b⟩, fun ⟨_, _, e, a, b⟩ => e ▸ .item a b⟩

theorem desig_append {ks r : List String} {d w : Value} :
    Designates d (ks ++ r) w ↔ ∃ v, Designates d ks v ∧ Designates v r w := by
  rw [designates_iff, resolvePlain_append]
  simp only [designates_iff]
  cases resolvePlain ks d <;> simp

theorem desig_unique (doc v w : Value) (ks : List String) (h1 : Designates doc ks v) (h2 : Designates doc ks w) : v = w := by
  have h1 := resolvePlain_complete h1
  rw [resolvePlain_complete h2] at h1
  cases h1; rfl

theorem apart_nil {q : List String} : ¬ Apart [] q := by
  rintro ⟨c, a, b, r, s, h, -⟩
  simp at h

theorem apart_cons {a : String} {p q : List String} :
    Apart (a :: p) q ↔ ∃ b s, q = b :: s ∧ (a ≠ b ∨ a = b ∧ Apart p s) := by
  constructor
  · rintro ⟨c, x, y, r, s, h1, rfl, hn⟩
    cases c with
    | nil => cases h1; exact ⟨y, s, rfl, .inl hn⟩
    | cons z c =>
      simp only [List.cons_append, List.cons.injEq] at h1
      obtain ⟨rfl, rfl⟩ := h1
      exact ⟨a, _, rfl, .inr ⟨rfl, c, x, y, r, s, rfl, rfl, hn⟩⟩
  · rintro ⟨b, s, rfl, hn | ⟨rfl, c, x, y, r, s, rfl, rfl, hn⟩⟩
    · exact ⟨[], a, b, p, s, rfl, rfl, hn⟩
    · exact ⟨a :: c, x, y, r, s, rfl, rfl, hn⟩

theorem Spec.Apart.symm {p q : List String} : Apart p q → Apart q p := fun ⟨c, a, b, r, s, h1, h2, h⟩ =>
  ⟨c, b, a, s, r, h2, h1, Ne.symm h⟩

theorem toStr_inj {m n : Nat} (h : (toString m : String) = toString n) : m = n := by
  rw [← natStr_eq_toString, ← natStr_eq_toString] at h
  exact natStr_inj.1 h

/-- Elsewhere nothing changes. -/
theorem at_apart {R : Value → Value → Prop} {p : List String} : ∀ {d d' : Value} {q : List String}, At R d p d' →
    Apart p q → ∀ w, Designates d' q w ↔ Designates d q w := by
  induction p with
  | nil => intro d d' q _ h; exact absurd h apart_nil
  | cons k ks ih =>
    intro d d' q h hq w
    obtain ⟨b, s, rfl, hb⟩ := apart_cons.1 hq
    rcases at_leaf h with ⟨kvs, rfl⟩ | ⟨xs, rfl⟩
    · obtain ⟨u, u', hl, hu, rfl⟩ := at_member.1 h
      simp only [desig_member, dlookup_dset]
      rcases hb with hb | ⟨rfl, hb⟩
      · rw [if_neg (Ne.symm hb)]
      · rw [if_pos rfl, hl]
        simpa using ih hu hb w
    · obtain ⟨i, u, u', rfl, hl, hu, rfl⟩ := at_item.1 h
      have hi := (List.getElem?_eq_some_iff.1 hl).1
      simp only [desig_item]
      refine exists_congr fun j => ?_
      rcases hb with hb | ⟨rfl, hb⟩
      · refine exists_congr fun x => and_congr_right fun e => ?_
        rw [List.getElem?_set_ne (by rintro rfl; exact hb e.symm)]
      · by_cases e : i = j
        · subst e
          rw [List.getElem?_set_self hi, hl]
          simpa using ih hu hb w
        · have : toString i ≠ (toString j : String) := fun h => e (toStr_inj h)
          exact exists_congr fun x => and_congr_right fun h => absurd h this

theorem at_through {R : Value → Value → Prop} {d d' : Value} {ks : List String} (h : At R d ks d') :
    ∃ v v', Designates d ks v ∧ R v v' ∧ Designates d' ks v' := by
  induction h with
  | here h => exact ⟨_, _, .here, h, .here⟩
  | member hk _ ih =>
    obtain ⟨v, v', a, b, c⟩ := ih
    exact ⟨v, v', .member (dlookup_split.2 ⟨_, _, rfl, hk⟩) a, b, .member (dlookup_split.2 ⟨_, _, rfl, hk⟩) c⟩
  | item _ ih =>
    obtain ⟨v, v', a, b, c⟩ := ih
    exact ⟨v, v', .item (by simp) a, b, .item (by simp) c⟩

theorem at_imp {R S : Value → Value → Prop} {d d' : Value} {ks : List String} (h : At R d ks d')
    (hs : ∀ v v', Designates d ks v → Designates d' ks v' → R v v' → S v v') : At S d ks d' := by
  induction h with
  | here hr => exact .here (hs _ _ .here .here hr)
  | member hk _ ih =>
    exact .member hk (ih fun v v' a b hr => hs v v' (.member (dlookup_split.2 ⟨_, _, rfl, hk⟩) a)
      (.member (dlookup_split.2 ⟨_, _, rfl, hk⟩) b) hr)
  | item _ ih => exact .item (ih fun v v' a b hr => hs v v' (.item (by simp) a) (.item (by simp) b) hr)

theorem at_total {R : Value → Value → Prop} {d v v' : Value} {ks : List String} (h : Designates d ks v)
    (hr : R v v') : ∃ d', At R d ks d' := by
  induction h with
  | here => exact ⟨_, .here hr⟩
  | member hk _ ih => obtain ⟨d', h⟩ := ih hr; exact ⟨_, at_member.2 ⟨_, _, hk, h, rfl⟩⟩
  | item hx _ ih => obtain ⟨d', h⟩ := ih hr; exact ⟨_, at_item.2 ⟨_, _, _, rfl, hx, h, rfl⟩⟩

theorem at_append {R : Value → Value → Prop} {r : List String} : ∀ {ks : List String} {d d' : Value},
    At R d (ks ++ r) d' ↔ At (fun v v' => At R v r v') d ks d'
  | [], d, d' => by rw [at_nil]; rfl
  | k :: ks, d, d' => by
    rw [List.cons_append]
    constructor
    · intro h
      rcases at_leaf h with ⟨kvs, rfl⟩ | ⟨xs, rfl⟩
      · obtain ⟨w, w', a, b, c⟩ := at_member.1 h
        exact at_member.2 ⟨w, w', a, at_append.1 b, c⟩
      · obtain ⟨i, w, w', e, a, b, c⟩ := at_item.1 h
        exact at_item.2 ⟨i, w, w', e, a, at_append.1 b, c⟩
    · intro h
      rcases at_leaf h with ⟨kvs, rfl⟩ | ⟨xs, rfl⟩
      · obtain ⟨w, w', a, b, c⟩ := at_member.1 h
        exact at_member.2 ⟨w, w', a, at_append.2 b, c⟩
      · obtain ⟨i, w, w', e, a, b, c⟩ := at_item.1 h
        exact at_item.2 ⟨i, w, w', e, a, at_append.2 b, c⟩

theorem dset_dset {k : String} {v w : Value} : ∀ {kvs : List (String × Value)}, dset k v (dset k w kvs) = dset k v kvs
  | [] => by simp [dset]
  | (k', x) :: r => by
    simp only [dset]
    by_cases h : k = k'
    · simp [h, dset]
    · simp only [h, if_false, dset, dset_dset]

theorem at_comp {R S : Value → Value → Prop} : ∀ {ks : List String} {d d' : Value},
    (∃ mid, At R d ks mid ∧ At S mid ks d') ↔ At (fun v v' => ∃ m, R v m ∧ S m v') d ks d'
  | [], d, d' => by simp only [at_nil]
  | k :: ks, d, d' => by
    constructor
    · rintro ⟨mid, h, h'⟩
      rcases at_leaf h with ⟨kvs, rfl⟩ | ⟨xs, rfl⟩
      · obtain ⟨w, w', a, b, rfl⟩ := at_member.1 h
        obtain ⟨x, x', a', b', rfl⟩ := at_member.1 h'
        rw [dlookup_dset, if_pos rfl] at a'
        cases a'
        exact at_member.2 ⟨w, x', a, at_comp.1 ⟨w', b, b'⟩, by rw [dset_dset]⟩
      · obtain ⟨i, w, w', rfl, a, b, rfl⟩ := at_item.1 h
        obtain ⟨j, x, x', e, a', b', rfl⟩ := at_item.1 h'
        cases toStr_inj e
        rw [List.getElem?_set_self (List.getElem?_eq_some_iff.1 a).1] at a'
        cases a'
        exact at_item.2 ⟨i, w, x', rfl, a, at_comp.1 ⟨w', b, b'⟩, by rw [List.set_set]⟩
    · intro h
      rcases at_leaf h with ⟨kvs, rfl⟩ | ⟨xs, rfl⟩
      · obtain ⟨w, w', a, b, rfl⟩ := at_member.1 h
        obtain ⟨m, b, c⟩ := at_comp.2 b
        exact ⟨.obj (dset k m kvs), at_member.2 ⟨w, m, a, b, rfl⟩,
          at_member.2 ⟨m, w', by rw [dlookup_dset, if_pos rfl], c, by rw [dset_dset]⟩⟩
      · obtain ⟨i, w, w', rfl, a, b, rfl⟩ := at_item.1 h
        obtain ⟨m, b, c⟩ := at_comp.2 b
        exact ⟨.arr (xs.set i m), at_item.2 ⟨i, w, m, rfl, a, b, rfl⟩, at_item.2 ⟨i, m, w', rfl,
          List.getElem?_set_self (List.getElem?_eq_some_iff.1 a).1, c, by rw [List.set_set]⟩⟩

theorem dset_swap {a b : String} {v w : Value} (hn : a ≠ b) : ∀ {kvs : List (String × Value)} {x y : Value},
    dlookup a kvs = some x → dlookup b kvs = some y → dset a v (dset b w kvs) = dset b w (dset a v kvs)
  | [], _, _, h, _ => by cases h
  | (k, z) :: r, x, y, h, h' => by
    simp only [dlookup] at h h'
    simp only [dset]
    by_cases ha : a = k
    · subst ha
      simp [Ne.symm hn, dset]
    · by_cases hb : b = k
      · subst hb
        simp [hn, dset]
      · simp only [ha, hb, if_false] at h h' ⊢
        simp only [dset, ha, hb, if_false, dset_swap hn h h']

/-- Edits at places that part can be done in either order. -/
theorem at_swap {R S : Value → Value → Prop} : ∀ {p q : List String} {d mid d' : Value}, Apart p q → At R d p mid →
    At S mid q d' → ∃ mid', At S d q mid' ∧ At R mid' p d'
  | [], _, _, _, _, h, _, _ => absurd h apart_nil
  | k :: p, q, d, mid, d', hpq, h, h' => by
    obtain ⟨b, q, rfl, hb⟩ := apart_cons.1 hpq
    rcases at_leaf h with ⟨kvs, rfl⟩ | ⟨xs, rfl⟩
    · obtain ⟨w, w', hl, hw, rfl⟩ := at_member.1 h
      obtain ⟨x, x', hl', hx, rfl⟩ := at_member.1 h'
      rw [dlookup_dset] at hl'
      rcases hb with hb | ⟨rfl, hb⟩
      · rw [if_neg (Ne.symm hb)] at hl'
        exact ⟨.obj (dset b x' kvs), at_member.2 ⟨x, x', hl', hx, rfl⟩, at_member.2 ⟨w, w',
          by rw [dlookup_dset, if_neg hb, hl], hw, by rw [dset_swap hb hl hl']⟩⟩
      · rw [if_pos rfl] at hl'
        cases hl'
        obtain ⟨m, h1, h2⟩ := at_swap hb hw hx
        exact ⟨.obj (dset k m kvs), at_member.2 ⟨w, m, hl, h1, rfl⟩, at_member.2 ⟨m, x',
          by rw [dlookup_dset, if_pos rfl], h2, by rw [dset_dset, dset_dset]⟩⟩
    · obtain ⟨i, w, w', rfl, hl, hw, rfl⟩ := at_item.1 h
      obtain ⟨j, x, x', rfl, hl', hx, rfl⟩ := at_item.1 h'
      have hi := (List.getElem?_eq_some_iff.1 hl).1
      rcases hb with hb | ⟨e, hb⟩
      · have hij : i ≠ j := by rintro rfl; exact hb rfl
        rw [List.getElem?_set_ne hij] at hl'
        exact ⟨.arr (xs.set j x'), at_item.2 ⟨j, x, x', rfl, hl', hx, rfl⟩, at_item.2 ⟨i, w, w', rfl,
          by rw [List.getElem?_set_ne (Ne.symm hij), hl], hw, by rw [List.set_comm _ _ hij]⟩⟩
      · cases toStr_inj e
        rw [List.getElem?_set_self hi] at hl'
        cases hl'
        obtain ⟨m, h1, h2⟩ := at_swap hb hw hx
        exact ⟨.arr (xs.set i m), at_item.2 ⟨i, w, m, rfl, hl, h1, rfl⟩, at_item.2 ⟨i, m, x', rfl,
          List.getElem?_set_self hi, h2, by rw [List.set_set, List.set_set]⟩⟩

theorem at_same {R : Value → Value → Prop} {d d' : Value} {ks : List String} (h : At R d ks d')
    (hr : ∀ v v', R v v' → v' = v) : d' = d := by
  induction h with
  | here h => exact hr _ _ h
  | member _ _ ih => rw [ih]
  | item _ ih => rw [ih]

/-! ## Operations -/

theorem split_last {r : List String} (hr : r ≠ []) : ∃ t k, r = t ++ [k] :=
  ⟨_, _, (List.dropLast_concat_getLast hr).symm⟩

theorem op_inside {root : Value → Prop} {here : String → Value → Value → Prop} {d d' : Value} {ks r : List String}
    (hr : r ≠ []) : Op root here d (ks ++ r) d' ↔ At (fun v v' => Op root here v r v') d ks d' := by
  obtain ⟨t, k, rfl⟩ := split_last hr
  rw [← List.append_assoc, op_snoc, at_append]
  exact ⟨fun h => at_imp h fun _ _ _ _ h => op_snoc.2 h, fun h => at_imp h fun _ _ _ _ h => op_snoc.1 h⟩

theorem add_inside {d d' v : Value} {ks r : List String} (hr : r ≠ []) :
    patchAdd d ⟨ks ++ r⟩ v = .ok d' ↔ At (fun x x' => patchAdd x ⟨r⟩ v = .ok x') d ks d' := by
  rw [patchAdd_iff, Spec.Add, op_inside hr]
  exact ⟨fun h => at_imp h fun _ _ _ _ h => (patchAdd_iff ..).2 h, fun h => at_imp h fun _ _ _ _ h => (patchAdd_iff ..).1 h⟩

theorem remove_inside {d d' : Value} {ks r : List String} (hr : r ≠ []) :
    patchRemove d ⟨ks ++ r⟩ = .ok d' ↔ At (fun x x' => patchRemove x ⟨r⟩ = .ok x') d ks d' := by
  rw [patchRemove_iff, Spec.Remove, op_inside hr]
  exact ⟨fun h => at_imp h fun _ _ _ _ h => (patchRemove_iff ..).2 h,
    fun h => at_imp h fun _ _ _ _ h => (patchRemove_iff ..).1 h⟩

theorem replace_inside {d d' v : Value} {ks r : List String} (hr : r ≠ []) :
    patchReplace d ⟨ks ++ r⟩ v = .ok d' ↔ At (fun x x' => patchReplace x ⟨r⟩ v = .ok x') d ks d' := by
  rw [patchReplace_iff, Spec.Replace, op_inside hr]
  exact ⟨fun h => at_imp h fun _ _ _ _ h => (patchReplace_iff ..).2 h,
    fun h => at_imp h fun _ _ _ _ h => (patchReplace_iff ..).1 h⟩

theorem test_same {d d' v : Value} {p : Ptr} (h : patchTest d p v = .ok d') : d' = d := by
  unfold patchTest at h
  split at h
  · cases h
  all_goals
    first
      | (split at h
         · cases h
         · split at h
           · cases h
           · cases h; rfl)
      | cases h

theorem test_inside {d d' v : Value} {ks r : List String} (hr : r ≠ []) :
    patchTest d ⟨ks ++ r⟩ v = .ok d' ↔ At (fun x x' => patchTest x ⟨r⟩ v = .ok x') d ks d' := by
  obtain ⟨t, k, rfl⟩ := split_last hr
  have key : ∀ x, Designates d ks x → (patchTest d ⟨ks ++ (t ++ [k])⟩ v = .ok d ↔ patchTest x ⟨t ++ [k]⟩ v = .ok x) := by
    intro x hx
    have e := (designates_iff ..).1 hx
    have e1 : ∀ r, resolvePlain (ks ++ r) d = resolvePlain r x := fun r => by rw [resolvePlain_append, e]
    have e2 : patchNode d ⟨ks ++ (t ++ [k])⟩ = patchNode x ⟨t ++ [k]⟩ := by
      rw [← List.append_assoc, patchNode_snoc, patchNode_snoc, e1]
    unfold patchTest
    rw [e2]
    simp only [Ptr.evaluate, e1]
    cases patchNode x ⟨t ++ [k]⟩ with
    | error => simp
    | ok n =>
      cases n <;> simp only [reduceCtorEq] <;> cases resolvePlain (t ++ [k]) x <;> simp only [reduceCtorEq] <;> split <;> simp
  constructor
  · intro h
    cases test_same h
    have : ∃ x, Designates d ks x := by
      cases hr : resolvePlain ks d with
      | ok x => exact ⟨x, (designates_iff ..).2 hr⟩
      | error e =>
        simp only [patchTest, ← List.append_assoc, patchNode_snoc, resolvePlain_append, hr] at h
        cases h
    obtain ⟨x, hx⟩ := this
    refine at_imp (at_self hx) ?_
    rintro _ _ - - ⟨rfl, rfl⟩
    exact (key _ hx).1 h
  · intro h
    cases at_same h fun _ _ h => test_same h
    obtain ⟨x, x', hx, h', -⟩ := at_through h
    have := test_same h'
    subst this
    exact (key _ hx).2 h'

theorem copy_inside {d d' : Value} {ks r f : List String} (hr : r ≠ []) :
    patchCopy d ⟨ks ++ r⟩ ⟨ks ++ f⟩ = .ok d' ↔ At (fun x x' => patchCopy x ⟨r⟩ ⟨f⟩ = .ok x') d ks d' := by
  have key : ∀ x, Designates d ks x → resolvePlain (ks ++ f) d = resolvePlain f x := fun x hx => by
    rw [resolvePlain_append, (designates_iff ..).1 hx]
  have ok : ∀ (x x' : Value) (r f : List String), patchCopy x ⟨r⟩ ⟨f⟩ = .ok x' ↔
      ∃ v, resolvePlain f x = .ok v ∧ patchAdd x ⟨r⟩ v = .ok x' := fun x x' r f => by
    unfold patchCopy
    cases h : resolvePlain f x <;> simp [Ptr.evaluate, h]
  rw [ok]
  constructor
  · rintro ⟨v, h1, h2⟩
    exact at_imp (add_inside hr |>.1 h2) fun x x' hx _ h => (ok ..).2 ⟨v, (key x hx).symm.trans h1, h⟩
  · intro h
    obtain ⟨x, x', hx, h', hx'⟩ := at_through h
    obtain ⟨v, h1, -⟩ := (ok ..).1 h'
    refine ⟨v, (key x hx).trans h1, (add_inside hr).2 (at_imp h fun y y' hy _ h => ?_)⟩
    obtain ⟨v', h1', h2'⟩ := (ok ..).1 h
    cases desig_unique _ _ _ _ hx hy
    rw [h1] at h1'
    cases h1'
    exact h2'

theorem move_inside {d d' : Value} {ks r f : List String} (hr : r ≠ []) (hf : f ≠ []) :
    patchMove d ⟨ks ++ r⟩ ⟨ks ++ f⟩ = .ok d' ↔ At (fun x x' => patchMove x ⟨r⟩ ⟨f⟩ = .ok x') d ks d' := by
  have key : ∀ x, Designates d ks x → resolvePlain (ks ++ f) d = resolvePlain f x := fun x hx => by
    rw [resolvePlain_append, (designates_iff ..).1 hx]
  have ok : ∀ (x x' : Value) (r f : List String), patchMove x ⟨r⟩ ⟨f⟩ = .ok x' ↔
      ∃ v, resolvePlain f x = .ok v ∧ ∃ m, patchRemove x ⟨f⟩ = .ok m ∧ patchAdd m ⟨r⟩ v = .ok x' := fun x x' r f => by
    unfold patchMove
    cases h : resolvePlain f x with
    | error e => simp [Ptr.evaluate, h]
    | ok v => cases h' : patchRemove x ⟨f⟩ <;> simp [Ptr.evaluate, h]
  rw [ok]
  constructor
  · rintro ⟨v, h1, m, h2, h3⟩
    refine at_imp (at_comp.1 ⟨m, (remove_inside hf).1 h2, (add_inside hr).1 h3⟩) fun x x' hx _ h => ?_
    exact (ok ..).2 ⟨v, (key x hx).symm.trans h1, h⟩
  · intro h
    obtain ⟨x, x', hx, h', hx'⟩ := at_through h
    obtain ⟨v, h1, -⟩ := (ok ..).1 h'
    have : At (fun y y' => ∃ m, patchRemove y ⟨f⟩ = .ok m ∧ patchAdd m ⟨r⟩ v = .ok y') d ks d' :=
      at_imp h fun y y' hy _ h => by
        obtain ⟨v', h1', h2'⟩ := (ok ..).1 h
        cases desig_unique _ _ _ _ hx hy
        rw [h1] at h1'
        cases h1'
        exact h2'
    obtain ⟨m, h2, h3⟩ := at_comp.2 this
    exact ⟨v, (key x hx).trans h1, m, (remove_inside hf).2 h2, (add_inside hr).2 h3⟩

theorem apply_inside {o : PatchOp} {ks : List String} (ho : Inside ks o) {d d' : Value} :
    o.apply d = .ok d' ↔ At (fun v v' => (seenFrom ks o).apply v = .ok v') d ks d' := by
  obtain ⟨op, ⟨path⟩, value, from_⟩ := o
  obtain ⟨⟨r, hr, hp⟩, hf⟩ := ho
  simp only at hp
  subst hp
  have nope : ∀ e : Exc, (.error e : Except Exc Value) = .ok d' ↔ At (fun _ v' => (.error e : Except Exc Value) = .ok v') d ks d' :=
    fun e => ⟨fun h => (by cases h), fun h => by obtain ⟨_, _, _, h, _⟩ := at_through h; cases h⟩
  cases op with
  | add => simpa [PatchOp.apply, seenFrom] using add_inside hr
  | remove => simpa [PatchOp.apply, seenFrom] using remove_inside hr
  | replace => simpa [PatchOp.apply, seenFrom] using replace_inside hr
  | test => simpa [PatchOp.apply, seenFrom] using test_inside hr
  | move =>
    cases from_ with
    | none => simpa [PatchOp.apply, seenFrom] using nope .attributeError
    | some f =>
      obtain ⟨f⟩ := f
      obtain ⟨s, hs, e⟩ := hf _ rfl
      simp only at e
      subst e
      simpa [PatchOp.apply, seenFrom] using move_inside hr hs
  | copy =>
    cases from_ with
    | none => simpa [PatchOp.apply, seenFrom] using nope .attributeError
    | some f =>
      obtain ⟨f⟩ := f
      obtain ⟨s, hs, e⟩ := hf _ rfl
      simp only at e
      subst e
      simpa [PatchOp.apply, seenFrom] using copy_inside hr

theorem applyAll_cons {o : PatchOp} {os : List PatchOp} {d d' : Value} :
    patchApplyAll (o :: os) d = .ok d' ↔ ∃ m, o.apply d = .ok m ∧ patchApplyAll os m = .ok d' := by
  simp only [patchApplyAll]
  cases o.apply d <;> simp

theorem patch_inside {ks : List String} : ∀ {ops : List PatchOp} {d d' : Value}, (∀ o ∈ ops, Inside ks o) → ops ≠ [] →
    (patchEvaluate ops d = .ok d' ↔ At (fun v v' => patchEvaluate (ops.map (seenFrom ks)) v = .ok v') d ks d')
  | [], _, _, _, h => absurd rfl h
  | [o], d, d', ho, _ => by
    have : ∀ (o : PatchOp) (d d' : Value), patchEvaluate [o] d = .ok d' ↔ o.apply d = .ok d' := fun o d d' => by
      unfold patchEvaluate
      rw [applyAll_cons]
      exact ⟨fun ⟨m, h, e⟩ => by cases e; exact h, fun h => ⟨_, h, rfl⟩⟩
    rw [this, apply_inside (ho o (by simp))]
    exact ⟨fun h => at_imp h fun _ _ _ _ h => (this ..).2 h, fun h => at_imp h fun _ _ _ _ h => (this ..).1 h⟩
  | o :: o' :: os, d, d', ho, _ => by
    have ih := fun m => patch_inside (ops := o' :: os) (d := m) (d' := d') (fun x hx => ho x (List.mem_cons_of_mem _ hx))
      (by simp)
    unfold patchEvaluate at ih ⊢
    simp only [List.map_cons]
    simp only [applyAll_cons (o := o), applyAll_cons (o := seenFrom ks o)]
    simp only [ih, apply_inside (ho o (by simp))]
    exact at_comp

theorem evaluate_congr {d d' : Value} {p q : Ptr} (h : ∀ w, Designates d p.keys w ↔ Designates d' q.keys w) :
    p.evaluate d = q.evaluate d' := by
  simp only [designates_iff] at h
  unfold Ptr.evaluate
  cases hp : resolvePlain p.keys d with
  | ok w => exact ((h w).1 hp).symm
  | error e =>
    cases hq : resolvePlain q.keys d' with
    | ok w => rw [(h w).2 hq] at hp; cases hp
    | error e' => rw [resolvePlain_error hp, resolvePlain_error hq]

/-! ## Failures -/

theorem opAt_fails {f : String → Value → Except Exc Value} {d v : Value} {ks t : List String} {k : String} {e : Exc}
    (hv : resolvePlain ks d = .ok v) : opAt f d (ks ++ t) k = .error e ↔ opAt f v t k = .error e := by
  unfold opAt
  have hr := resolvePlain_append ks t d
  rw [hv] at hr
  simp only at hr
  rw [hr]
  cases ht : resolvePlain t v with
  | error => rfl
  | ok p =>
    dsimp only
    cases f k p with
    | error => rfl
    | ok w =>
      obtain ⟨_, h1⟩ := putAt_ok (hr.trans ht) w
      obtain ⟨_, h2⟩ := putAt_ok ht w
      simp [h1, h2]

theorem opAt_nowhere {f : String → Value → Except Exc Value} {d : Value} {ks t : List String} {k : String} {e : Exc}
    (hv : resolvePlain ks d = .error e) : opAt f d (ks ++ t) k = .error .patchError := by
  unfold opAt
  rw [resolvePlain_append, hv]

theorem add_fails {d v w : Value} {ks r : List String} {e : Exc} (hr : r ≠ []) (hv : resolvePlain ks d = .ok v) :
    patchAdd d ⟨ks ++ r⟩ w = .error e ↔ patchAdd v ⟨r⟩ w = .error e := by
  obtain ⟨t, k, rfl⟩ := split_last hr
  rw [← List.append_assoc, patchAdd_snoc, patchAdd_snoc, opAt_fails hv]

theorem remove_fails {d v : Value} {ks r : List String} {e : Exc} (hr : r ≠ []) (hv : resolvePlain ks d = .ok v) :
    patchRemove d ⟨ks ++ r⟩ = .error e ↔ patchRemove v ⟨r⟩ = .error e := by
  obtain ⟨t, k, rfl⟩ := split_last hr
  rw [← List.append_assoc, patchRemove_snoc, patchRemove_snoc, opAt_fails hv]

theorem replace_fails {d v w : Value} {ks r : List String} {e : Exc} (hr : r ≠ []) (hv : resolvePlain ks d = .ok v) :
    patchReplace d ⟨ks ++ r⟩ w = .error e ↔ patchReplace v ⟨r⟩ w = .error e := by
  obtain ⟨t, k, rfl⟩ := split_last hr
  rw [← List.append_assoc, patchReplace_snoc, patchReplace_snoc, opAt_fails hv]

theorem test_fails {d v w : Value} {ks r : List String} {e : Exc} (hr : r ≠ []) (hv : resolvePlain ks d = .ok v) :
    patchTest d ⟨ks ++ r⟩ w = .error e ↔ patchTest v ⟨r⟩ w = .error e := by
  obtain ⟨t, k, rfl⟩ := split_last hr
  have e1 : ∀ r, resolvePlain (ks ++ r) d = resolvePlain r v := fun r => by rw [resolvePlain_append, hv]
  have e2 : patchNode d ⟨ks ++ (t ++ [k])⟩ = patchNode v ⟨t ++ [k]⟩ := by
    rw [← List.append_assoc, patchNode_snoc, patchNode_snoc, e1]
  unfold patchTest
  rw [e2]
  simp only [Ptr.evaluate, e1]
  cases patchNode v ⟨t ++ [k]⟩ with
  | error => rfl
  | ok n => cases n <;> simp only <;> cases resolvePlain (t ++ [k]) v <;> simp only <;> split <;> simp

theorem copy_fails {d v : Value} {ks r f : List String} {e : Exc} (hr : r ≠ []) (hv : resolvePlain ks d = .ok v) :
    patchCopy d ⟨ks ++ r⟩ ⟨ks ++ f⟩ = .error e ↔ patchCopy v ⟨r⟩ ⟨f⟩ = .error e := by
  have e1 : resolvePlain (ks ++ f) d = resolvePlain f v := by rw [resolvePlain_append, hv]
  unfold patchCopy
  simp only [Ptr.evaluate, e1]
  cases resolvePlain f v with
  | error => rfl
  | ok w => exact add_fails hr hv

theorem remove_gives {d v : Value} {ks r : List String} (hr : r ≠ []) (hv : resolvePlain ks d = .ok v) :
    (∃ e, patchRemove d ⟨ks ++ r⟩ = .error e ∧ patchRemove v ⟨r⟩ = .error e) ∨
      ∃ m m', patchRemove d ⟨ks ++ r⟩ = .ok m ∧ patchRemove v ⟨r⟩ = .ok m' ∧ resolvePlain ks m = .ok m' := by
  cases h : patchRemove d ⟨ks ++ r⟩ with
  | error e => exact .inl ⟨e, rfl, (remove_fails hr hv).1 h⟩
  | ok m =>
    obtain ⟨x, x', h1, h2, h3⟩ := at_through ((remove_inside hr).1 h)
    cases desig_unique _ _ _ _ h1 ((designates_iff ..).2 hv)
    exact .inr ⟨m, x', rfl, h2, (designates_iff ..).1 h3⟩

theorem move_fails {d v : Value} {ks r f : List String} {e : Exc} (hr : r ≠ []) (hf : f ≠ [])
    (hv : resolvePlain ks d = .ok v) :
    patchMove d ⟨ks ++ r⟩ ⟨ks ++ f⟩ = .error e ↔ patchMove v ⟨r⟩ ⟨f⟩ = .error e := by
  have e1 : resolvePlain (ks ++ f) d = resolvePlain f v := by rw [resolvePlain_append, hv]
  unfold patchMove
  simp only [Ptr.evaluate, e1]
  cases resolvePlain f v with
  | error => rfl
  | ok w =>
    rcases remove_gives hf hv with ⟨e', h1, h2⟩ | ⟨m, m', h1, h2, h3⟩
    · simp only [h1, h2]
    · simp only [h1, h2]
      exact add_fails hr h3

theorem apply_fails {o : PatchOp} {ks : List String} (ho : Inside ks o) {d v : Value} {e : Exc}
    (hv : resolvePlain ks d = .ok v) : o.apply d = .error e ↔ (seenFrom ks o).apply v = .error e := by
  obtain ⟨op, ⟨path⟩, value, from_⟩ := o
  obtain ⟨⟨r, hr, hp⟩, hf⟩ := ho
  simp only at hp
  subst hp
  cases op with
  | add => simpa [PatchOp.apply, seenFrom] using add_fails hr hv
  | remove => simpa [PatchOp.apply, seenFrom] using remove_fails hr hv
  | replace => simpa [PatchOp.apply, seenFrom] using replace_fails hr hv
  | test => simpa [PatchOp.apply, seenFrom] using test_fails hr hv
  | move =>
    cases from_ with
    | none => simp [PatchOp.apply, seenFrom]
    | some f =>
      obtain ⟨f⟩ := f
      obtain ⟨s, hs, e⟩ := hf _ rfl
      simp only at e
      subst e
      simpa [PatchOp.apply, seenFrom] using move_fails hr hs hv
  | copy =>
    cases from_ with
    | none => simp [PatchOp.apply, seenFrom]
    | some f =>
      obtain ⟨f⟩ := f
      obtain ⟨s, hs, e⟩ := hf _ rfl
      simp only at e
      subst e
      simpa [PatchOp.apply, seenFrom] using copy_fails hr hv

theorem apply_nowhere {o : PatchOp} {ks : List String} (ho : Inside ks o)
    (hfrom : (o.op = .move ∨ o.op = .copy) → o.from_.isSome) {d : Value} {e : Exc}
    (hv : resolvePlain ks d = .error e) : o.apply d = .error .patchError := by
  obtain ⟨op, ⟨path⟩, value, from_⟩ := o
  obtain ⟨⟨r, hr, hp⟩, hf⟩ := ho
  simp only at hp
  subst hp
  obtain ⟨t, k, rfl⟩ := split_last hr
  have h0 : isPtrErr e = true := by rw [resolvePlain_error hv]; rfl
  cases op with
  | add => simp only [PatchOp.apply, ← List.append_assoc, patchAdd_snoc]; exact opAt_nowhere hv
  | remove => simp only [PatchOp.apply, ← List.append_assoc, patchRemove_snoc]; exact opAt_nowhere hv
  | replace => simp only [PatchOp.apply, ← List.append_assoc, patchReplace_snoc]; exact opAt_nowhere hv
  | test =>
    simp only [PatchOp.apply, patchTest, ← List.append_assoc, patchNode_snoc, resolvePlain_append, hv]
  | move =>
    obtain ⟨⟨f⟩, h⟩ := Option.isSome_iff_exists.1 (hfrom (.inl rfl))
    simp only at h
    subst h
    obtain ⟨s, hs, e⟩ := hf _ rfl
    simp only at e
    subst e
    simp only [PatchOp.apply, patchMove, Ptr.evaluate, resolvePlain_append, hv, h0, if_true]
  | copy =>
    obtain ⟨⟨f⟩, h⟩ := Option.isSome_iff_exists.1 (hfrom (.inr rfl))
    simp only at h
    subst h
    obtain ⟨s, hs, e⟩ := hf _ rfl
    simp only at e
    subst e
    simp only [PatchOp.apply, patchCopy, Ptr.evaluate, resolvePlain_append, hv, h0, if_true]

end Jschon
