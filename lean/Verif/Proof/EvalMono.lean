import Verif.Model.Eval

/-!
# More fuel gives the same outcome
-/

namespace Jschon

/-- `rec'` gives every outcome that `rec` gives. -/
def RecLe (rec rec' : Rec) : Prop := ∀ sc s i r r', rec sc s i r = some r' → rec' sc s i r = some r'

section
variable {rec rec' : Rec} (hle : RecLe rec rec') {sc : List SRef}
include hle

theorem subLoop_mono : ∀ {jobs : List (String × SRef × Inst)} {c : RNode} {p},
    subLoop rec sc jobs c = some p → subLoop rec' sc jobs c = some p
  | [], c, p, h => h
  | (key, t, i) :: jobs, c, p, h => by
    simp only [subLoop] at h ⊢
    cases hr : rec (c.schema :: sc) t i (c.fresh i key c.schema) with
    | none => simp [hr] at h
    | some sub =>
      rw [hle _ _ _ _ _ hr]
      simp only [hr] at h ⊢
      split at h
      · contradiction
      · rename_i hs
        rw [subLoop_mono hs]
        exact h

theorem sharedLoop_mono {t : SRef} : ∀ {is : List Inst} {c : RNode} {p},
    sharedLoop rec sc t is c = some p → sharedLoop rec' sc t is c = some p
  | [], c, p, h => h
  | i :: is, c, p, h => by
    simp only [sharedLoop] at h ⊢
    cases hr : rec sc t i c with
    | none => simp [hr] at h
    | some c1 =>
      rw [hle _ _ _ _ _ hr]
      simp only [hr] at h ⊢
      split at h
      · contradiction
      · rename_i hs
        rw [sharedLoop_mono hs]
        exact h

theorem plainLoop_mono {t : SRef} : ∀ {is : List Inst} {c : RNode} {p},
    plainLoop rec sc t is c = some p → plainLoop rec' sc t is c = some p
  | [], c, p, h => h
  | i :: is, c, p, h => by
    simp only [plainLoop] at h ⊢
    cases hr : rec sc t i c with
    | none => simp [hr] at h
    | some c1 =>
      rw [hle _ _ _ _ _ hr]
      simp only [hr] at h ⊢
      exact plainLoop_mono h

theorem evalKw_mono {st : Store} {env : Env} {kw : Kw} {i : Inst} {parent c : RNode} {p}
    (h : evalKw st env rec sc kw i parent c = some p) : evalKw st env rec' sc kw i parent c = some p := by
  cases kw
  case unevaluatedItems t =>
    simp only [evalKw, Option.map_eq_some_iff] at h ⊢
    obtain ⟨a, h, rfl⟩ := h
    refine ⟨a, ?_, rfl⟩
    simp only [evalUnevaluatedItems] at h ⊢
    split at h
    · rw [if_pos (by assumption)]; exact h
    rw [if_neg (by assumption)]
    split at h
    · rw [if_pos (by assumption)]; exact h
    rw [if_neg (by assumption)]
    split at h
    · rw [if_pos (by assumption)]; exact h
    rw [if_neg (by assumption)]
    split at h
    · contradiction
    · rename_i hs; rw [sharedLoop_mono hle hs]; exact h
  case unevaluatedItems9 t =>
    simp only [evalKw, Option.map_eq_some_iff] at h ⊢
    obtain ⟨a, h, rfl⟩ := h
    refine ⟨a, ?_, rfl⟩
    simp only [evalUnevaluatedItems9] at h ⊢
    split at h
    · rw [if_pos (by assumption)]; exact h
    rw [if_neg (by assumption)]
    split at h
    · rw [if_pos (by assumption)]; exact h
    rw [if_neg (by assumption)]
    split at h
    · rw [if_pos (by assumption)]; exact h
    rw [if_neg (by assumption)]
    split at h
    · contradiction
    · rename_i hs; rw [sharedLoop_mono hle hs]; exact h
  case unevaluatedProperties t =>
    simp only [evalKw, Option.map_eq_some_iff] at h ⊢
    obtain ⟨a, h, rfl⟩ := h
    refine ⟨a, ?_, rfl⟩
    simp only [evalUnevaluatedProperties] at h ⊢
    split at h
    · contradiction
    · rename_i hs; rw [sharedLoop_mono hle hs]; exact h
  case additionalProperties t =>
    simp only [evalKw, Option.map_eq_some_iff] at h ⊢
    obtain ⟨a, h, rfl⟩ := h
    refine ⟨a, ?_, rfl⟩
    simp only [evalAdditionalProperties] at h ⊢
    split at h
    · contradiction
    · rename_i hs; rw [sharedLoop_mono hle hs]; exact h
  case then_ t =>
    simp only [evalKw] at h ⊢
    split at h
    · split at h
      · rename_i hv
        rw [if_pos hv]
        split at h
        · contradiction
        · rename_i hs; rw [hle _ _ _ _ _ hs]; exact h
      · rename_i hv
        rw [if_neg hv]; exact h
    · exact h
  case else_ t =>
    simp only [evalKw] at h ⊢
    split at h
    · split at h
      · rename_i hv
        rw [if_pos hv]
        split at h
        · contradiction
        · rename_i hs; rw [hle _ _ _ _ _ hs]; exact h
      · rename_i hv
        rw [if_neg hv]; exact h
    · exact h
  case items9 t =>
    simp only [evalKw] at h ⊢
    split at h
    · rw [if_pos (by assumption)]; exact h
    rw [if_neg (by assumption)]
    split at h
    · split at h
      · contradiction
      · rename_i hs; rw [hle _ _ _ _ _ hs]; exact h
    · split at h
      · contradiction
      · rename_i hs; rw [plainLoop_mono hle hs]; exact h
  case items9Array ss =>
    simp only [evalKw] at h ⊢
    split at h
    · rw [if_pos (by assumption)]; exact h
    rw [if_neg (by assumption)]
    split at h
    · contradiction
    · rename_i hs; rw [subLoop_mono hle hs]; exact h
  case additionalItems t =>
    simp only [evalKw] at h ⊢
    split at h
    · split at h
      · contradiction
      · rename_i hs; rw [sharedLoop_mono hle hs]; exact h
    · exact h
  all_goals
    simp only [evalKw] at h ⊢
    first
      | exact h
      | (split at h
         · contradiction
         · rename_i hs
           first
             | (rw [subLoop_mono hle hs]; exact h)
             | (rw [sharedLoop_mono hle hs]; exact h)
             | (rw [hle _ _ _ _ _ hs]; exact h))

theorem kwLoop_mono {st : Store} {env : Env} {s : SRef} {i : Inst} :
    ∀ {kws : List Kw} {r r' : RNode}, kwLoop st env rec sc s i kws r = some r' →
      kwLoop st env rec' sc s i kws r = some r'
  | [], _, _, h => h
  | kw :: kws, r, r', h => by
    simp only [kwLoop] at h ⊢
    split at h
    · rw [if_pos (by assumption)]
      simp only [withSub] at h ⊢
      cases he : evalKw st env rec (s :: sc) kw i
          (r.setChild (kw.key, i.path) (r.fresh i kw.key s)) (r.fresh i kw.key s) with
      | none => simp only [he] at h; contradiction
      | some p =>
        rw [evalKw_mono hle he]
        simp only [he] at h ⊢
        exact kwLoop_mono h
    · rw [if_neg (by assumption)]
      exact kwLoop_mono h

theorem evalBody_mono {st : Store} {env : Env} {s : SRef} {i : Inst} {r r' : RNode}
    (h : evalBody st env rec sc s i r = some r') : evalBody st env rec' sc s i r = some r' := by
  simp only [evalBody] at h ⊢
  split at h
  · exact h
  · exact h
  · split at h
    · contradiction
    · rename_i hk; rw [kwLoop_mono hle hk]; exact h

end

theorem evalSchema_succ (st : Store) (env : Env) : ∀ n,
    RecLe (evalSchema st env n) (evalSchema st env (n + 1))
  | 0 => fun _ _ _ _ _ h => by simp [evalSchema] at h
  | n + 1 => fun sc _ _ _ _ h => evalBody_mono (sc := sc) (evalSchema_succ st env n) h

theorem evalSchema_mono (st : Store) (env : Env) {m n : Nat} (h : m ≤ n) :
    RecLe (evalSchema st env m) (evalSchema st env n) := by
  induction h with
  | refl => exact fun _ _ _ _ _ h => h
  | step _ ih => exact fun _ _ _ _ _ h => evalSchema_succ st env _ _ _ _ _ _ (ih _ _ _ _ _ h)

theorem evaluate_mono {st : Store} {env : Env} {m n : Nat} (h : m ≤ n) {s : SRef} {i : Inst} {r : RNode}
    (hr : evaluate st env m s i = some r) : evaluate st env n s i = some r :=
  evalSchema_mono st env h _ _ _ _ _ hr

/-- Two terminating evaluations have the same outcome. -/
theorem evaluate_det {st : Store} {env : Env} {m n : Nat} {s : SRef} {i : Inst} {r r' : RNode}
    (h : evaluate st env m s i = some r) (h' : evaluate st env n s i = some r') : r = r' := by
  rcases Nat.le_total m n with hle | hle
  · exact Option.some.inj ((evaluate_mono hle h).symm.trans h')
  · exact Option.some.inj (h.symm.trans (evaluate_mono hle h'))

end Jschon
