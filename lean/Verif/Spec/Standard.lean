import Verif.Spec.Conditions

/-!
# The rules of the specification
-/

namespace Jschon.Spec

/-- The rules as the specification has them. -/
structure Standard (R : Rules) (d : Dialect) (env : Env) (st : Store) : Prop where
  dialect : R.dialect = d
  mult : ∀ n m, R.mult n m ↔ IsMultiple env.dec n m
  dyn : ∀ sc t frag, Outermost st frag sc t (R.dyn sc t frag)
  recr : ∀ sc t, OutermostRec st sc t (R.recr sc t)

/-- The divisor is positive and the quotient has at most 28 digits before the point. -/
def SmallQuotient (dec : Rat → Rat) (n m : Num) : Prop :=
  0 < asWritten dec m ∧ asWritten dec n < 10 ^ 28 * asWritten dec m ∧
    -(10 ^ 28 * asWritten dec m) < asWritten dec n

/-- What jschon requires of a schema and a value in order to follow the specification. -/
structure Faithful (R : Rules) (env : Env) (st : Store) (root : SRef) (v : Value) : Prop where
  /-- Its notion of evaluated members and items makes no difference. -/
  regular : Regular R st root
  /-- `$dynamicRef` is applied only in scopes that do not return to a schema resource. -/
  dyn : ∀ s sc kws t f, Reach R st root (s :: sc) → st.obj s = .obj kws → .dynamicRef t f true ∈ kws →
    NoReentry st f (s :: sc)
  /-- The quotients of `multipleOf` are small enough. -/
  mult : ∀ s sc kws m n, Reach R st root (s :: sc) → st.obj s = .obj kws → .assert (.multipleOf m) ∈ kws →
    Within (.num n) v → SmallQuotient env.dec n m

end Jschon.Spec
