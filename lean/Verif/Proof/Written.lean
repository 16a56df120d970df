import Verif.Proof.Demo

/-!
# Verdicts of schemas as written
-/

namespace Jschon

open Spec

/-- `schema.evaluate(JSON(v)).valid` for a schema constructed from the store of schemas as written, if
`fuel` nested evaluations suffice. -/
def verdictOf (d : Dialect) (env : Env) (st : Store) (fuel : Nat) (s : SRef) (v : Value) : Option Bool :=
  verdict (st.ordered (decide (d = .d2019))) env fuel s v

theorem one_iff_countP {f : SRef → Bool} : ∀ {ss : List SRef},
    (∃ (j : Nat) (t : SRef), ss[j]? = some t ∧ f t = true ∧
      ∀ (k : Nat) (u : SRef), ss[k]? = some u → f u = true → k = j) ↔ ss.countP f = 1
  | [] => by simp
  | a :: ss => by
    rw [List.countP_cons]
    cases ha : f a with
    | true =>
      simp only [if_true, Nat.add_eq_right, List.countP_eq_zero]
      constructor
      · rintro ⟨j, t, ht, hft, hu⟩ x hx hfx
        obtain ⟨k, hk⟩ := List.getElem?_of_mem hx
        have h1 := hu 0 a rfl ha
        have h2 := hu (k + 1) x (by simpa using hk) hfx
        omega
      · intro h0
        refine ⟨0, a, rfl, ha, ?_⟩
        intro k u hk hu
        cases k with
        | zero => rfl
        | succ k => exact absurd hu (h0 u (List.mem_of_getElem? (by simpa using hk)))
    | false =>
      simp only [Bool.false_eq_true, if_false, Nat.add_zero]
      rw [← one_iff_countP]
      constructor
      · rintro ⟨j, t, ht, hft, hu⟩
        cases j with
        | zero => simp only [List.getElem?_cons_zero, Option.some.injEq] at ht; rw [← ht, ha] at hft; cases hft
        | succ j =>
          refine ⟨j, t, by simpa using ht, hft, fun k u hk hfu => ?_⟩
          have := hu (k + 1) u (by simpa using hk) hfu
          omega
      · rintro ⟨j, t, ht, hft, hu⟩
        refine ⟨j + 1, t, by simpa using ht, hft, fun k u hk hfu => ?_⟩
        cases k with
        | zero => simp only [List.getElem?_cons_zero, Option.some.injEq] at hk; rw [← hk, ha] at hfu; cases hfu
        | succ k => rw [hu k u (by simpa using hk) hfu]

section
variable {d : Dialect} {env : Env} {st : Store}

theorem verdict_le {n : Nat} {s : SRef} {v : Value} {b : Bool} (h : verdictOf d env st n s v = some b) :
    verdictOf d env st (n + 1) s v = some b := by
  obtain ⟨r, hr, hb⟩ := verdict_some h
  simp only [verdictOf, verdict, evaluate_mono (Nat.le_succ n) hr, Option.map_some, hb]

theorem sameStore_ordered (h : Written d st) : SameStore st (st.ordered (decide (d = .d2019))) := by
  refine ⟨rfl, rfl, fun s b => ordered_bool.symm, ?_⟩
  intro s kws out hk ho kw _
  obtain ⟨_, h1, h2, _⟩ := ordered_obj h hk
  rw [h1] at ho; cases ho
  exact h2.mem_iff.symm

theorem getStatic_ordered (h : Written d st) (s : SRef) (key : String) :
    ((st.ordered (decide (d = .d2019))).obj s).getStatic key = (st.obj s).getStatic key := by
  cases hk : st.obj s with
  | bool b => rw [ordered_bool.2 hk]
  | obj kws =>
    obtain ⟨out, h1, h2, _⟩ := ordered_obj h hk
    rw [h1]
    have hn := (h s kws hk).1
    have hn' : (out.map Kw.key).Nodup := (h2.map Kw.key).nodup_iff.2 hn
    apply Option.ext
    intro v
    rw [getStatic_mem hn', getStatic_mem hn, h2.mem_iff]

theorem static_ordered (h : Written d st) (hs : StaticStore st) :
    StaticStore (st.ordered (decide (d = .d2019))) := by
  intro s out ho kw hk
  have := ordered_kws h hs s out ho kw hk
  cases kw
  case recursiveRef t => simpa only [StaticKw, RecAnchor, getStatic_ordered h] using this
  all_goals exact this

/-- A verdict in terms of the verdicts of subschemas. -/
theorem written_step (hst : Written d st) (hstat : StaticStore st) {n : Nat} (m : Nat) {s : SRef} {v : Value}
    (hw : v.WF) {kws : List Kw} (hobj : st.obj s = .obj kws) {b : Bool}
    (h : verdictOf d env st n s v = some b) :
    ∃ M : Meaning, (∀ t x f, x.WF → verdictOf d env st m t x = some f → ∀ sc, (M.valid sc t x ↔ f = true)) ∧
      (b = true ↔ ∀ kw ∈ kws,
        ObsHolds (codeRules (st.ordered (decide (d = .d2019))) env d) env st M [s] kws v kw) := by
  obtain ⟨out, h1, h2, _⟩ := ordered_obj hst hobj
  obtain ⟨M, hM, hb⟩ := verdict_step (ordered_ok hst) (static_ordered hst hstat) (m := m) hw h1 h
  refine ⟨M, hM, hb.trans ?_⟩
  have hsame := sameStore_ordered hst
  refine forall_congr' fun kw => ?_
  rw [← obsHolds_same (st := st) hsame.bool ?_ (hsame.obj s kws out hobj h1), h2.mem_iff]
  intro t
  cases ho : st.obj t with
  | bool b => simp [ordered_bool.2 ho]
  | obj ks =>
    obtain ⟨_, h1, _⟩ := ordered_obj hst ho
    simp [h1]

end

theorem kwEv_same {R : Rules} {env : Env} {M : Meaning} {sc : List SRef} {v : Value} {kws kws' : List Kw}
    (h : SameKws kws kws') {kw : Kw} {pt : Pt} :
    KwEv R env M sc kws v kw pt = KwEv R env M sc kws' v kw pt := by
  cases kw
  case then_ t => simp only [KwEv, h (.if_ _) id]
  case else_ t => simp only [KwEv, h (.if_ _) id]
  case additionalProperties t => cases pt <;> simp only [KwEv, named_same h]
  case items t => cases pt <;> simp only [KwEv, BeyondPrefix, h (.prefixItems _) id]
  case additionalItems t => cases pt <;> simp only [KwEv, h (.items9Array _) id]
  all_goals cases pt <;> rfl

/-! ## Checks for concrete stores -/

/-- A check for `StaticKw`. -/
def Kw.staticB : Kw → Bool
  | .dynamicRef _ _ dynamic => !dynamic
  | .recursiveRef _ => false
  | _ => true

theorem static_of {l : List SchemaObj} (h : (allKws l).all Kw.staticB = true) : StaticStore (listStore l) := by
  refine listStore_kws (fun kws hk kw hkw => ?_)
  have := List.all_eq_true.1 h kw (List.mem_flatMap.2 ⟨_, hk, hkw⟩)
  cases kw
  case dynamicRef t f dyn => cases dyn <;> first | rfl | cases this
  case recursiveRef t => cases this
  all_goals exact trivial

end Jschon
