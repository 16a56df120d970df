/-!
# Dialects of JSON Schema
-/

namespace Jschon.Spec

/-- Dialects of JSON Schema: 2019-09 and 2020-12. -/
inductive Dialect where
  | d2019 | d2020
  deriving DecidableEq

/- The meaning of documents is given for one dialect at a time, which is an argument throughout. -/
attribute [class] Dialect

end Jschon.Spec
