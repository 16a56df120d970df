import Verif.Props.PatchHeap
import Verif.Spec.PatchErrors
import Verif.Props.PatchErrors

/-!
# C25: what a failed move leaves
-/

namespace Jschon
open Spec

theorem nodeKindPV_not_root {h : PHeap} {parent : PV} {k : String} : nodeKindPV h parent k ≠ .ok .root := by
  have hs : ∀ n, nodeSeq n k ≠ .ok .root := by
    intro n hn
    rcases nodeSeq_ok_cases hn with ⟨i, h⟩ | h <;> cases h
  cases parent with
  | sc s => cases s <;> simp [nodeKindPV, hs]
  | ref a =>
    simp only [nodeKindPV]
    cases h.cell a with
    | list ps => exact hs _
    | dict ms =>
      simp only
      split <;> simp

theorem addPV_error_next {h : PHeap} {doc value : PV} {path : Ptr} {e : Exc}
    (he : (addPV h doc path value).2 = .error e) : h.next ≤ (addPV h doc path value).1.next := by
  have hnx : h.next ≤ (h.deepcopy value).1.next := by simp [PHeap.deepcopy]
  unfold addPV at he ⊢
  cases hn : nodePV h doc path with
  | error e' => exact Nat.le_refl _
  | ok tp =>
    obtain ⟨t, parent⟩ := tp
    simp only [hn] at he ⊢
    cases t with
    | root => cases he
    | item i =>
      obtain ⟨e', h1⟩ := thenDoc_error he
      simp only [thenDoc_heap, (local_error (k := "")).1 h1]; exact hnx
    | itemNew i =>
      obtain ⟨e', h1⟩ := thenDoc_error he
      simp only [thenDoc_heap, (local_error (k := "")).1 h1]; exact hnx
    | prop k =>
      obtain ⟨e', h1⟩ := thenDoc_error he
      simp only [thenDoc_heap, (local_error (i := 0)).2.2.2.1 h1]; exact hnx
    | propNew k =>
      obtain ⟨e', h1⟩ := thenDoc_error he
      simp only [thenDoc_heap, (local_error (i := 0)).2.2.2.1 h1]; exact hnx

theorem addPV_error_tree {h : PHeap} {doc value p : PV} {path : Ptr} {e : Exc} {v : Value}
    (he : (addPV h doc path value).2 = .error e) (ht : Tree h p v) : Tree (addPV h doc path value).1 p v := by
  obtain ⟨fp, h1, h2, h3⟩ := ht
  have := addPV_error_next he
  exact ⟨fp, owns_frame h1 (fun a ha => C25_add h doc value path e he a (h3 a ha)), h2,
    fun a ha => by have := h3 a ha; omega⟩

theorem dlookup_parts {k : String} {w : Value} : ∀ {kvs : List (String × Value)}, dlookup k kvs = some w →
    ∃ l r, kvs = l ++ (k, w) :: r ∧ k ∉ dkeys l := by
  intro kvs
  induction kvs with
  | nil => intro h; cases h
  | cons p kvs ih =>
    intro h
    obtain ⟨k', w'⟩ := p
    by_cases hk : k' = k
    · subst hk
      simp [dlookup] at h
      subst h
      exact ⟨[], kvs, rfl, by simp [dkeys]⟩
    · rw [dlookup, if_neg (fun e => hk e.symm)] at h
      obtain ⟨l, r, rfl, hl⟩ := ih h
      refine ⟨(k', w') :: l, r, rfl, ?_⟩
      simp only [dkeys, List.map_cons, List.mem_cons, not_or] at hl ⊢
      exact ⟨fun e => hk e.symm, hl⟩

theorem getElem?_parts {w : Value} {xs : List Value} {i : Nat} (h : xs[i]? = some w) :
    ∃ l r, xs = l ++ w :: r ∧ l.length = i := by
  obtain ⟨hi, h⟩ := List.getElem?_eq_some_iff.1 h
  refine ⟨xs.take i, xs.drop (i + 1), ?_, by simp; omega⟩
  rw [← h, List.getElem_cons_drop, List.take_append_drop]

/-- What is there can be removed. -/
theorem removable {ks : List String} {k : String} : ∀ {doc w : Value}, Designates doc (ks ++ [k]) w →
    ∃ doc', At (RemoveHere RfcIndex k) doc ks doc' := by
  induction ks with
  | nil =>
    intro doc w h
    cases h with
    | member h1 h2 =>
      obtain ⟨l, r, rfl, hl⟩ := dlookup_parts h1
      exact ⟨_, .here (.member hl)⟩
    | item h1 h2 =>
      obtain ⟨l, r, rfl, rfl⟩ := getElem?_parts h1
      exact ⟨_, .here (.item rfl)⟩
  | cons k' ks ih =>
    intro doc w h
    cases h with
    | member h1 h2 =>
      obtain ⟨doc', h3⟩ := ih h2
      obtain ⟨l, r, rfl, hl⟩ := dlookup_parts h1
      exact ⟨_, .member hl h3⟩
    | item h1 h2 =>
      obtain ⟨doc', h3⟩ := ih h2
      obtain ⟨l, r, rfl, rfl⟩ := getElem?_parts h1
      exact ⟨_, .item h3⟩

theorem removePV_doc {h h' : PHeap} {doc d : PV} {p : Ptr} (hp : p.keys ≠ [])
    (hr : removePV h doc p = (h', .ok d)) : d = doc := by
  rcases ptr_cases p with rfl | ⟨ks, k, rfl⟩
  · exact absurd rfl hp
  · have fin : ∀ x, thenDoc doc x = (h', .ok d) → d = doc := by
      intro x hx
      unfold thenDoc at hx
      split at hx <;> cases hx
      rfl
    unfold removePV at hr
    rw [nodePV_snoc] at hr
    split at hr
    · cases hr
    · rename_i t parent ht
      cases t with
      | root =>
        split at ht
        · cases ht
        · split at ht <;> cases ht
          rename_i h1
          exact absurd h1 nodeKindPV_not_root
      | item i => exact fin _ hr
      | prop k => exact fin _ hr
      | itemNew i => cases hr
      | propNew k => cases hr

/-- C25 for `move`: a failed `move` leaves a document that contains no list or dict twice as it was, if there
is nothing to be moved or the whole document is to be moved; otherwise it leaves the document without the
value that was to be moved. -/
theorem C25_move_exact (h : PHeap) (doc : PV) (v : Value) (path from_ : Ptr) (e : Exc) (ht : Tree h doc v)
    (he : (movePV h doc path from_).2 = .error e) :
    ((from_.keys = [] ∨ ¬ ∃ w, Designates v from_.keys w) ∧ Tree (movePV h doc path from_).1 doc v) ∨
    (from_.keys ≠ [] ∧ (∃ w, Designates v from_.keys w) ∧
      ∃ v', Spec.Remove RfcIndex v from_.keys v' ∧ Tree (movePV h doc path from_).1 doc v') := by
  obtain ⟨fp, ho, hn, hlt⟩ := ht
  have hrem := refines_remove from_ ho hn hlt
  simp only [designates_iff]
  cases hr : resolvePlain from_.keys v with
  | error e' =>
    refine .inl ⟨.inr (by simp), ?_⟩
    unfold movePV
    rw [resolve_err ho hr]
    exact ⟨fp, ho, hn, hlt⟩
  | ok w =>
    obtain ⟨q, fq, h1, -⟩ := focus ho hn hr
    unfold movePV at he ⊢
    simp only [h1] at he ⊢
    rcases hrm : removePV h doc from_ with ⟨h', r⟩
    rw [hrm] at hrem
    obtain ⟨r1, r2, r3⟩ := hrem
    rw [hrm] at he
    rcases ptr_cases from_ with rfl | ⟨ks, k, rfl⟩
    · simp only [removePV, nodePV, Ptr.len, List.length_nil, if_true, Prod.mk.injEq] at hrm
      obtain ⟨rfl, rfl⟩ := hrm
      exact .inl ⟨.inl rfl, addPV_error_tree he ⟨fp, ho, hn, hlt⟩⟩
    · obtain ⟨v', hv'⟩ := removable ((designates_iff _ _ _).2 hr)
      have hv' : Spec.Remove RfcIndex v (ks ++ [k]) v' := .target hv'
      have hpr := C21_remove_complete v v' ⟨ks ++ [k]⟩ hv'
      rw [hpr] at r3
      obtain ⟨d, fd, e1, e2, e3, e4⟩ := r3
      simp only at e1 e2 e4 r1
      subst e1
      simp only at he ⊢
      have hd := removePV_doc (by simp) hrm
      subst hd
      exact .inr ⟨by simp, ⟨w, rfl⟩, v', hv', addPV_error_tree he ⟨fd, e2, e3, fun x hx => (e4 x hx).1⟩⟩

/-- A dict with one member, to be moved into a member that is not there: the value is lost. -/
example : ∃ h : PHeap, Tree h (.ref 0) (.obj [("a", .null)]) ∧
    (movePV h (.ref 0) ⟨["b", "c"]⟩ ⟨["a"]⟩).2 = .error .patchError ∧
    Tree (movePV h (.ref 0) ⟨["b", "c"]⟩ ⟨["a"]⟩).1 (.ref 0) (.obj []) := by
  have ht : Tree ⟨1, fun _ => .dict [("a", .sc .null)]⟩ (.ref 0) (.obj [("a", .null)]) :=
    ⟨[0], .dict (ms := [("a", .sc .null)]) rfl rfl (.cons (.sc (s := .null)) .nil), by simp, by simp⟩
  refine ⟨_, ht, rfl, ?_⟩
  rcases C25_move_exact _ _ _ ⟨["b", "c"]⟩ ⟨["a"]⟩ .patchError ht rfl with ⟨h1 | h1, -⟩ | ⟨-, -, v', h1, h2⟩
  · cases h1
  · exact absurd ⟨_, .member rfl .here⟩ h1
  · have h3 := C21_remove_complete _ _ ⟨["a"]⟩ h1
    have h4 : patchRemove (.obj [("a", .null)]) ⟨["a"]⟩ = .ok (.obj []) := rfl
    rw [h4] at h3
    cases h3
    exact h2

end Jschon
