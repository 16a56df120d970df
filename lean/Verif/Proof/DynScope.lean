import Verif.Model.Eval
import Verif.Spec.Conditions

/-!
# Dynamic references
-/

namespace Jschon

open Spec

theorem getStatic_anchor {st : Store} {t : SRef} {frag : String} :
    (match (st.obj t).getStatic "$dynamicAnchor" with
      | some (.str a) => a ≠ "" ∧ a = frag
      | _ => False) ↔ frag ≠ "" ∧ (st.obj t).getStatic "$dynamicAnchor" = some (.str frag) := by
  split
  · rename_i a h
    rw [h]
    simp only [Option.some.injEq, Value.str.injEq]
    constructor
    · rintro ⟨h1, rfl⟩; exact ⟨h1, rfl⟩
    · rintro ⟨h1, rfl⟩; exact ⟨h1, rfl⟩
  · rename_i h
    simp only [false_iff, not_and]
    intro _ h'
    exact h frag h'

/-- One round of the loop. -/
theorem dynLoop_cons {st : Store} {frag : String} {s : SRef} {sc : List SRef} {checked : List String}
    {found : SRef} :
    (∀ b, st.base s = some b → b ∉ checked → ∀ t, DynAnchor st b frag t →
      dynLoop st frag (s :: sc) checked found = dynLoop st frag sc (b :: checked) t) ∧
    (∀ b, st.base s = some b → b ∉ checked → (∀ t, ¬ DynAnchor st b frag t) →
      dynLoop st frag (s :: sc) checked found = dynLoop st frag sc (b :: checked) found) ∧
    (∀ b, st.base s = some b → b ∈ checked →
      dynLoop st frag (s :: sc) checked found = dynLoop st frag sc checked found) ∧
    (st.base s = none → dynLoop st frag (s :: sc) checked found = dynLoop st frag sc checked found) := by
  refine ⟨?_, ?_, ?_, ?_⟩
  · rintro b hb hc t ⟨h1, h2, h3⟩
    simp [dynLoop, hb, hc, h1, h2, h3]
  · intro b hb hc hno
    simp only [dynLoop, hb]
    rw [if_neg (by simpa using hc)]
    split
    · rfl
    · rename_i t ht
      have := (not_congr (getStatic_anchor (st := st) (t := t) (frag := frag))).2
        (fun h => hno t ⟨ht, h.1, h.2⟩)
      split
      · rename_i a ha
        rw [ha] at this
        rw [if_neg this]
      · rfl
  · intro b hb hc
    simp [dynLoop, hb, hc]
  · intro hb
    simp [dynLoop, hb]

theorem DynAnchor.unique {st : Store} {b frag : String} {t u : SRef} (h : DynAnchor st b frag t)
    (h' : DynAnchor st b frag u) : t = u := Option.some.inj (h.1.symm.trans h'.1)

/-- The outcome of the loop. -/
def LoopOut (st : Store) (frag : String) (sc : List SRef) (found res : SRef) : Prop :=
  (∃ inner s outer b, sc = inner ++ s :: outer ∧ st.base s = some b ∧ DynAnchor st b frag res ∧
    ∀ s' ∈ outer, ∀ b', st.base s' = some b' → ∀ t', ¬ DynAnchor st b' frag t') ∨
  ((∀ s' ∈ sc, ∀ b', st.base s' = some b' → ∀ t', ¬ DynAnchor st b' frag t') ∧ res = found)

theorem dynLoop_out {st : Store} {frag : String} : ∀ (sc : List SRef) (checked : List String)
    (found : SRef) (cur : Option SRef),
    (∀ b ∈ checked, (∃ t, DynAnchor st b frag t) → (∃ s ∈ sc, st.base s = some b) →
      ∃ x, cur = some x ∧ st.base x = some b) →
    (∀ x b, cur = some x → st.base x = some b → DynAnchor st b frag found) →
    NoReentry st frag (cur.toList ++ sc) →
    LoopOut st frag sc found (dynLoop st frag sc checked found)
  | [], checked, found, cur, _, _, _ => .inr ⟨by simp, rfl⟩
  | s :: sc, checked, found, cur, h1, h2, h3 => by
    have hsub : NoReentry st frag (cur.toList ++ sc) := by
      intro x y z b c hs
      exact h3 x y z b c (hs.trans (List.Sublist.append_left (List.sublist_cons_self s sc) _))
    have hskip : ∀ ck, (∀ b ∈ ck, (∃ t, DynAnchor st b frag t) → b ∈ checked) →
        (∀ b, st.base s = some b → ∀ t, ¬ DynAnchor st b frag t) →
        LoopOut st frag (s :: sc) found (dynLoop st frag sc ck found) := by
      intro ck hck hno
      have ih := dynLoop_out sc ck found cur
        (fun b hb ht ⟨x, hx, hxb⟩ => h1 b (hck b hb ht) ht ⟨x, List.mem_cons_of_mem _ hx, hxb⟩) h2 hsub
      rcases ih with ⟨inner, s', outer, b, rfl, h⟩ | ⟨h, hr⟩
      · exact .inl ⟨s :: inner, s', outer, b, rfl, h⟩
      · refine .inr ⟨?_, hr⟩
        intro s' hs'
        rcases List.mem_cons.1 hs' with rfl | hs'
        · exact hno
        · exact h s' hs'
    cases hb : st.base s with
    | none =>
      rw [dynLoop_cons.2.2.2 hb]
      exact hskip checked (fun b hb _ => hb) (fun b h => by rw [hb] at h; cases h)
    | some b =>
      by_cases ha : ∃ t, DynAnchor st b frag t
      · obtain ⟨t, ht⟩ := ha
        by_cases hc : b ∈ checked
        · rw [dynLoop_cons.2.2.1 b hb hc]
          obtain ⟨x, hx, hxb⟩ := h1 b hc ⟨t, ht⟩ ⟨s, List.mem_cons_self, hb⟩
          have ih := dynLoop_out sc checked found cur
            (fun b hb ht ⟨x, hx, hxb⟩ => h1 b hb ht ⟨x, List.mem_cons_of_mem _ hx, hxb⟩) h2 hsub
          rcases ih with ⟨inner, s', outer, b, rfl, h⟩ | ⟨h, hr⟩
          · exact .inl ⟨s :: inner, s', outer, b, rfl, h⟩
          · exact .inl ⟨[], s, sc, b, rfl, hb, by rw [hr]; exact h2 x b hx hxb, h⟩
        · rw [dynLoop_cons.1 b hb hc t ht]
          have ih := dynLoop_out (st := st) (frag := frag) sc (b :: checked) t (some s) ?_ ?_ ?_
          · rcases ih with ⟨inner, s', outer, b, rfl, h⟩ | ⟨h, hr⟩
            · exact .inl ⟨s :: inner, s', outer, b, rfl, h⟩
            · exact .inl ⟨[], s, sc, b, rfl, hb, by rw [hr]; exact ht, h⟩
          · intro b' hb' ht' ⟨z, hz, hzb⟩
            rcases List.mem_cons.1 hb' with rfl | hb'
            · exact ⟨s, rfl, hb⟩
            · obtain ⟨x, rfl, hxb⟩ := h1 b' hb' ht' ⟨z, List.mem_cons_of_mem _ hz, hzb⟩
              have := h3 x s z b' b (by
                simp only [Option.toList_some, List.singleton_append]
                exact ((List.singleton_sublist.2 hz).cons_cons s).cons_cons x) hxb hb hzb ht' ⟨t, ht⟩
              rw [← this]
              exact ⟨s, rfl, hb⟩
          · intro x b' hx hxb
            cases hx
            rw [hb] at hxb; cases hxb
            exact ht
          · intro x y z b' c hs
            refine h3 x y z b' c (hs.trans ?_)
            simp only [Option.toList_some, List.singleton_append]
            exact List.sublist_append_right _ _
      · have hno : ∀ t, ¬ DynAnchor st b frag t := fun t h => ha ⟨t, h⟩
        have hno' : ∀ b', st.base s = some b' → ∀ t, ¬ DynAnchor st b' frag t := by
          intro b' hb'; rw [hb] at hb'; cases hb'; exact hno
        by_cases hc : b ∈ checked
        · rw [dynLoop_cons.2.2.1 b hb hc]
          exact hskip checked (fun b hb _ => hb) hno'
        · rw [dynLoop_cons.2.1 b hb hc hno]
          refine hskip (b :: checked) ?_ hno'
          intro b' hb' ht'
          rcases List.mem_cons.1 hb' with rfl | hb'
          · exact absurd ht' ha
          · exact hb'

/-- Without re-entry, the loop finds the outermost dynamic anchor. -/
theorem dynLoop_outermost {st : Store} {frag : String} {sc : List SRef} {dflt : SRef}
    (h : NoReentry st frag sc) : Outermost st frag sc dflt (dynLoop st frag sc [] dflt) := by
  rcases dynLoop_out sc [] dflt none (by intro b hb; cases hb) (by intro x b hx; cases hx) h with
    ⟨inner, s, outer, b, h1, h2, h3, h4⟩ | ⟨h1, h2⟩
  · exact .found h1 h2 h3 h4
  · rw [h2]; exact .none h1

/-- A list has only one last element with a property. -/
theorem last_unique {α : Type} {P : α → Prop} : ∀ {a : List α} {x : α} {b a' : List α} {x' : α} {b' : List α},
    a ++ x :: b = a' ++ x' :: b' → P x → P x' → (∀ y ∈ b, ¬ P y) → (∀ y ∈ b', ¬ P y) → x = x'
  | [], x, b, [], x', b', h, _, _, _, _ => by simp only [List.nil_append, List.cons.injEq] at h; exact h.1
  | [], x, b, y :: a', x', b', h, _, hx', hb, _ => by
    simp only [List.nil_append, List.cons_append, List.cons.injEq] at h
    exact absurd hx' (hb x' (by rw [h.2]; simp))
  | y :: a, x, b, [], x', b', h, hx, _, _, hb' => by
    simp only [List.nil_append, List.cons_append, List.cons.injEq] at h
    exact absurd hx (hb' x (by rw [← h.2]; simp))
  | y :: a, x, b, y' :: a', x', b', h, hx, hx', hb, hb' => by
    simp only [List.cons_append, List.cons.injEq] at h
    exact last_unique h.2 hx hx' hb hb'

/-- There is one outermost schema with the dynamic anchor. -/
theorem Outermost.unique {st : Store} {frag : String} {sc : List SRef} {dflt t u : SRef}
    (h : Outermost st frag sc dflt t) (h' : Outermost st frag sc dflt u) : t = u := by
  let P : SRef → Prop := fun s => ∃ b, st.base s = some b ∧ ∃ t, DynAnchor st b frag t
  have hP : ∀ {l : List SRef}, (∀ s' ∈ l, ∀ b', st.base s' = some b' → ∀ t', ¬ DynAnchor st b' frag t') →
      ∀ y ∈ l, ¬ P y := fun h y hy ⟨b, hb, t, ht⟩ => h y hy b hb t ht
  cases h with
  | @found inner outer s b _ h1 h2 h3 h4 =>
    cases h' with
    | @found inner' outer' s' b' _ h1' h2' h3' h4' =>
      have : s = s' := last_unique (P := P) (h1.symm.trans h1') ⟨b, h2, _, h3⟩ ⟨b', h2', _, h3'⟩
        (hP h4) (hP h4')
      subst this
      rw [h2] at h2'; cases h2'
      exact DynAnchor.unique h3 h3'
    | none hno => exact absurd h3 (hno s (by rw [h1]; simp) b h2 _)
  | none hno =>
    cases h' with
    | @found inner' outer' s' b' _ h1' h2' h3' h4' =>
      exact absurd h3' (hno s' (by rw [h1']; simp) b' h2' _)
    | none _ => rfl

theorem isRecursiveAnchor_iff {st : Store} {s : SRef} : isRecursiveAnchor st s = true ↔ RecAnchor st s := by
  unfold isRecursiveAnchor RecAnchor
  split
  · rename_i h; simp [h]
  · rename_i h
    simp only [Bool.false_eq_true, false_iff]
    exact h

theorem recLoop_out {st : Store} : ∀ (sc : List SRef) (found : SRef),
    (∃ inner s outer, sc = inner ++ s :: outer ∧ RecAnchor st s ∧ (∀ s' ∈ outer, ¬ RecAnchor st s') ∧
      recLoop st sc found = s) ∨
    ((∀ s' ∈ sc, ¬ RecAnchor st s') ∧ recLoop st sc found = found)
  | [], found => .inr ⟨by simp, rfl⟩
  | s :: sc, found => by
    simp only [recLoop]
    rcases recLoop_out sc (if isRecursiveAnchor st s then s else found) with
      ⟨inner, s', outer, rfl, h⟩ | ⟨h, hr⟩
    · exact .inl ⟨s :: inner, s', outer, rfl, h⟩
    · rw [hr]
      by_cases ha : isRecursiveAnchor st s = true
      · rw [if_pos ha]
        exact .inl ⟨[], s, sc, rfl, isRecursiveAnchor_iff.1 ha, h, rfl⟩
      · rw [if_neg ha]
        refine .inr ⟨?_, rfl⟩
        intro s' hs'
        rcases List.mem_cons.1 hs' with rfl | hs'
        · exact fun hr => ha (isRecursiveAnchor_iff.2 hr)
        · exact h s' hs'

/-- What `$recursiveRef` refers to. -/
theorem recr_outermost {st : Store} {sc : List SRef} {t : SRef} :
    OutermostRec st sc t (if isRecursiveAnchor st t then recLoop st sc t else t) := by
  by_cases ha : isRecursiveAnchor st t = true
  · rw [if_pos ha]
    rcases recLoop_out (st := st) sc t with ⟨inner, s, outer, h1, h2, h3, h4⟩ | ⟨h, hr⟩
    · rw [h4]; exact .found (isRecursiveAnchor_iff.1 ha) h1 h2 h3
    · rw [hr]; exact .none (isRecursiveAnchor_iff.1 ha) h
  · rw [if_neg ha]; exact .static (fun h => ha (isRecursiveAnchor_iff.2 h))

theorem OutermostRec.unique {st : Store} {sc : List SRef} {dflt t u : SRef}
    (h : OutermostRec st sc dflt t) (h' : OutermostRec st sc dflt u) : t = u := by
  cases h with
  | static hn =>
    cases h' with
    | static _ => rfl
    | found ha => exact absurd ha hn
    | none ha => exact absurd ha hn
  | found ha h1 h2 h3 =>
    cases h' with
    | static hn => exact absurd ha hn
    | found _ h1' h2' h3' => exact last_unique (h1.symm.trans h1') h2 h2' h3 h3'
    | none _ hno => exact absurd h2 (hno t (by rw [h1]; simp))
  | none ha hno =>
    cases h' with
    | static hn => rfl
    | found _ h1' h2' h3' => exact absurd h2' (hno u (by rw [h1']; simp))
    | none _ _ => rfl

end Jschon
