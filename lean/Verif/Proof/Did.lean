import Verif.Proof.Errors

/-!
# What a keyword can do to its result

`KwDid` lists the steps by which keywords change their results, so that invariants need only be checked
for each kind of step.
-/

namespace Jschon

/-- `c'` is reached from `c` by keyword steps. -/
inductive KwDid (rec : Rec) : RNode → RNode → Prop
  | refl {c} : KwDid rec c c
  | annotate {c c'} (v) : KwDid rec c c' → KwDid rec c (c'.annotate v)
  | fail {c c'} (v) : KwDid rec c c' → KwDid rec c (c'.fail v)
  | pass_ {c c'} : KwDid rec c c' → KwDid rec c c'.pass_
  | noassert {c c'} : KwDid rec c c' → KwDid rec c c'.noassert
  | setDiscard {c c'} : KwDid rec c c' → KwDid rec c c'.setDiscard
  | setRef {c c'} (t) : KwDid rec c c' → KwDid rec c (c'.setRef t)
  | eval {c c1 c2} {sc t i} : KwDid rec c c1 → rec sc t i c1 = some c2 → KwDid rec c c2
  | sub {c c1 c2} {sc t i key} : KwDid rec c c1 →
      rec sc t i (c1.fresh i key c1.schema) = some c2 →
      KwDid rec c (if c2.info.discard then
          ((c1.setChild (key, i.path) (c1.fresh i key c1.schema)).setChild (key, i.path) c2).delChild
            (key, i.path)
        else (c1.setChild (key, i.path) (c1.fresh i key c1.schema)).setChild (key, i.path) c2)

theorem KwDid.ite {rec : Rec} {c a b : RNode} {p : Prop} [Decidable p] (ha : KwDid rec c a)
    (hb : KwDid rec c b) : KwDid rec c (if p then a else b) := by split <;> assumption

section
variable {rec : Rec} {st : Store} {env : Env} {sc : List SRef} {i : Inst}

theorem subLoop_did {c0 : RNode} : ∀ {jobs : List (String × SRef × Inst)} {c c' : RNode} {flags},
    KwDid rec c0 c → subLoop rec sc jobs c = some (c', flags) → KwDid rec c0 c'
  | [], c, c', flags, hc, h => by
    simp only [subLoop, Option.some.injEq, Prod.mk.injEq] at h
    rw [← h.1]; exact hc
  | (key, t, i) :: jobs, c, c', flags, hc, h => by
    simp only [subLoop] at h
    cases hr : rec (c.schema :: sc) t i (c.fresh i key c.schema) with
    | none => simp [hr] at h
    | some sub =>
      simp only [hr] at h
      have h1 := KwDid.sub hc hr
      split at h
      · contradiction
      · rename_i hs
        simp only [Option.some.injEq, Prod.mk.injEq] at h
        rw [← h.1]; exact subLoop_did h1 hs

theorem sharedLoop_did {c0 : RNode} {t : SRef} : ∀ {is : List Inst} {c c' : RNode} {flags},
    KwDid rec c0 c → sharedLoop rec sc t is c = some (c', flags) → KwDid rec c0 c'
  | [], c, c', flags, hc, h => by
    simp only [sharedLoop, Option.some.injEq, Prod.mk.injEq] at h
    rw [← h.1]; exact hc
  | i :: is, c, c', flags, hc, h => by
    simp only [sharedLoop] at h
    cases hr : rec sc t i c with
    | none => simp [hr] at h
    | some c1 =>
      simp only [hr] at h
      have h1 := KwDid.eval hc hr
      split at h
      · contradiction
      · rename_i hs
        simp only [Option.some.injEq, Prod.mk.injEq] at h
        rw [← h.1]; exact sharedLoop_did (KwDid.ite h1 (.pass_ h1)) hs

theorem plainLoop_did {c0 : RNode} {t : SRef} : ∀ {is : List Inst} {c c' : RNode},
    KwDid rec c0 c → plainLoop rec sc t is c = some c' → KwDid rec c0 c'
  | [], c, c', hc, h => by
    simp only [plainLoop, Option.some.injEq] at h
    rw [← h]; exact hc
  | i :: is, c, c', hc, h => by
    simp only [plainLoop] at h
    cases hr : rec sc t i c with
    | none => simp [hr] at h
    | some c1 =>
      simp only [hr] at h
      exact plainLoop_did (.eval hc hr) h

theorem did_finishItems {c0 c : RNode} (h : KwDid rec c0 c) (t f) : KwDid rec c0 (finishItems c t f) :=
  KwDid.ite (.annotate _ h) (.fail _ h)
theorem did_finishProps {c0 c : RNode} (h : KwDid rec c0 c) (t f) : KwDid rec c0 (finishProps c t f) :=
  KwDid.ite (.annotate _ h) (.fail _ h)

theorem evalKw_did {kw : Kw} {parent c parent' c' : RNode}
    (h : evalKw st env rec sc kw i parent c = some (parent', c')) : KwDid rec c c' := by
  have hdisc : some (parent, c.setDiscard) = some (parent', c') → KwDid rec c c' := by
    intro h
    simp only [Option.some.injEq, Prod.mk.injEq] at h
    rw [← h.2]; exact .setDiscard .refl
  cases kw
  case then_ t =>
    simp only [evalKw] at h
    split at h
    · split at h
      · split at h
        · contradiction
        · rename_i hs
          simp only [Option.some.injEq, Prod.mk.injEq] at h
          rw [← h.2]; exact .eval .refl hs
      · exact hdisc h
    · exact hdisc h
  case else_ t =>
    simp only [evalKw] at h
    split at h
    · split at h
      · split at h
        · contradiction
        · rename_i hs
          simp only [Option.some.injEq, Prod.mk.injEq] at h
          rw [← h.2]; exact .eval .refl hs
      · exact hdisc h
    · exact hdisc h
  all_goals
    simp only [evalKw, evalUnevaluatedItems, evalUnevaluatedItems9, evalUnevaluatedProperties,
      evalAdditionalProperties, evalMinContains, Option.map_eq_some_iff, Prod.mk.injEq,
      Option.some.injEq] at h
    repeat' (first
      | contradiction
      | (obtain ⟨_, h, _, rfl⟩ := h)
      | (obtain ⟨_, rfl⟩ := h)
      | split at h)
  all_goals (try (simp only [Option.some.injEq] at h; subst h))
  all_goals
    repeat' (first
      | exact .refl
      | exact subLoop_did .refl ‹_›
      | exact sharedLoop_did .refl ‹_›
      | exact plainLoop_did .refl ‹_›
      | exact .eval .refl ‹_›
      | apply did_finishItems
      | apply did_finishProps
      | apply KwDid.ite
      | apply KwDid.annotate
      | apply KwDid.fail
      | apply KwDid.pass_
      | apply KwDid.noassert
      | apply KwDid.setDiscard
      | apply KwDid.setRef
      | split)

end

end Jschon
