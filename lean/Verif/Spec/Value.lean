import Verif.Model.Py

/-!
# The JSON data model
-/

namespace Jschon

/-- The dicts in a value have distinct keys, as Python dicts do. -/
inductive Value.WF : Value → Prop
  | null : WF .null
  | bool {b} : WF (.bool b)
  | num {n} : WF (.num n)
  | str {s} : WF (.str s)
  | arr {xs} : (∀ x ∈ xs, WF x) → WF (.arr xs)
  | obj {kvs : List (String × Value)} : (dkeys kvs).Nodup → (∀ kv ∈ kvs, WF kv.2) → WF (.obj kvs)

namespace Spec

/-- Equality in the JSON data model: same type, numbers by mathematical value, arrays item by item,
objects as unordered maps. -/
inductive Same : Value → Value → Prop
  | null : Same .null .null
  | bool {b} : Same (.bool b) (.bool b)
  | num {m n : Num} : m.val = n.val → Same (.num m) (.num n)
  | str {s} : Same (.str s) (.str s)
  | arr {xs ys : List Value} : xs.length = ys.length →
      (∀ (i : Nat) (x y : Value), xs[i]? = some x → ys[i]? = some y → Same x y) →
      Same (.arr xs) (.arr ys)
  | obj {as bs : List (String × Value)} :
      (∀ k, dlookup k as = none ↔ dlookup k bs = none) →
      (∀ k v w, dlookup k as = some v → dlookup k bs = some w → Same v w) →
      Same (.obj as) (.obj bs)

end Spec
end Jschon
