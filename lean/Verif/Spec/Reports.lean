import Verif.Spec.Observed

/-!
# What keywords report

The annotation and the error that the result of each keyword carries, in terms of the meaning of the
subschemas.  `null` stands for none.
-/

namespace Jschon.Spec

/-- An error message. -/
def IsText (e : Value) : Prop := ∃ m, e = .str m

/-- `a` lists the names of `order` with `P`, in that order. -/
def ListsNames (order : List String) (P : String → Prop) (a : Value) : Prop :=
  ∃ l : List String, a = .arr (l.map .str) ∧ l.Sublist order ∧ ∀ n, n ∈ l ↔ n ∈ order ∧ P n

/-- `a` lists the names with `P`, each once, in any order. -/
def ListsSet (P : String → Prop) (a : Value) : Prop :=
  ∃ l : List String, a = .arr (l.map .str) ∧ l.Nodup ∧ ∀ n, n ∈ l ↔ P n

/-- `a` lists the positions with `P`, in order. -/
def ListsItems (P : Nat → Prop) (a : Value) : Prop :=
  ∃ l : List Nat, a = .arr (l.map (fun (k : Nat) => .num (.int k))) ∧ l.Pairwise (· < ·) ∧
    ∀ k, k ∈ l ↔ P k

/-- Nothing if `P` holds, else a message; no annotation. -/
def Told (P : Prop) (a e : Value) : Prop := a = .null ∧ (P → e = .null) ∧ (¬ P → IsText e)

/-- If `P` holds, then the annotation is as `good` says and there is no error; else there is no annotation and
the error is as `bad` says. -/
def Either (P : Prop) (good bad : Value → Prop) (a e : Value) : Prop :=
  (P → good a ∧ e = .null) ∧ (¬ P → a = .null ∧ bad e)

section
variable (R : Rules) (env : Env) (st : Store) (M : Meaning) (sc : List SRef) (kws : List Kw) (v : Value)

/-- The item at position `k` is valid against `t`. -/
def ItemOk (t : SRef) (k : Nat) : Prop := ∃ x, (elems v)[k]? = some x ∧ M.valid sc t x

/-- The member `n` is valid against `t`. -/
def MemberOk (t : SRef) (n : String) : Prop := ∃ x, (n, x) ∈ members v ∧ M.valid sc t x

/-- The keyword applies `t` to the items with `C`: `true` if there are such items and they are valid; the
positions of the invalid ones otherwise. -/
def EachItem (C : Nat → Prop) (t : SRef) : Value → Value → Prop :=
  Either (∀ k, k < (elems v).length → C k → ItemOk M sc v t k)
    (fun a => ((∃ k, k < (elems v).length ∧ C k) → a = .bool true) ∧
      ((¬ ∃ k, k < (elems v).length ∧ C k) → a = .null))
    (ListsItems (fun k => k < (elems v).length ∧ C k ∧ ¬ ItemOk M sc v t k))

/-- The keyword applies `t` to the members with `C`: their names if they are valid; the names of the invalid
ones otherwise. -/
def EachMember (C : String → Prop) (t : SRef) : Value → Value → Prop :=
  Either (∀ n, HasMember v n → C n → MemberOk M sc v t n)
    (ListsNames ((members v).map Prod.fst) C)
    (ListsNames ((members v).map Prod.fst) (fun n => C n ∧ ¬ MemberOk M sc v t n))

/-- The keyword applies the schemas of the array `ss` to the items at the same positions; if all are valid then
it annotates with `good`, given the number of items dealt with. -/
def Positional (ss : List SRef) (good : Nat → Value) : Value → Value → Prop :=
  Either (∀ (k : Nat) t, k < (elems v).length → ss[k]? = some t → ItemOk M sc v t k)
    (fun a => a = good (min ss.length (elems v).length))
    (ListsItems (fun k => k < (elems v).length ∧ ∃ t, ss[k]? = some t ∧ ¬ ItemOk M sc v t k))

/-- The keyword applies `t` in place, on its own result: it has nothing to add, except that a boolean `false`
gives a message. -/
def OnOwn (t : SRef) : Value → Value → Prop := Told (st.obj t ≠ .bool false)

/-- `contains` has no complaint: some item is valid, or `minContains` is content with none. -/
def Contained (t : SRef) : Prop :=
  (∃ k, ItemOk M sc v t k) ∨ ∃ m, Kw.minContains m ∈ kws ∧ KwHolds R env M sc kws v (.minContains m) ∧
    ∀ mx, Kw.maxContains mx ∈ kws → KwHolds R env M sc kws v (.maxContains mx)

/-- There is a keyword `contentMediaType`, and it applies to the instance. -/
def Media : Prop := ∃ kw ∈ kws, kw.key = "contentMediaType" ∧ kw.types.contains v.type = true

/-- What the result of a keyword carries, if it has one. -/
def Reports : Kw → Value → Value → Prop
  | .properties ps => Either (KwHolds R env M sc kws v (.properties ps))
      (ListsNames ((members v).map Prod.fst) (fun n => ∃ t, (n, t) ∈ ps)) IsText
  | .patternProperties ps => Either (KwHolds R env M sc kws v (.patternProperties ps))
      (ListsSet (fun n => HasMember v n ∧ ∃ re t, (re, t) ∈ ps ∧ env.search re n = true)) IsText
  | .dependentSchemas ps => Either (KwHolds R env M sc kws v (.dependentSchemas ps))
      (ListsNames (ps.map Prod.fst) (HasMember v)) IsText
  | .additionalProperties t => EachMember M sc v (fun n => ¬ Named env kws n) t
  | .unevaluatedProperties t => EachMember M sc v
      (fun n => ¬ ∃ kw ∈ kws, ObsEv R env st M sc kws v kw (.name n)) t
  | .propertyNames t => Either (KwHolds R env M sc kws v (.propertyNames t)) (fun a => a = .null)
      (ListsNames ((members v).map Prod.fst) (fun n => ¬ M.valid sc t (.str n)))
  | .prefixItems ss => Positional M sc v ss (fun n => if n = 0 then .null
      else if n = (elems v).length then .bool true else .num (.int (n - 1)))
  | .items t => EachItem M sc v (BeyondPrefix kws) t
  | .contains t => fun a e => ListsItems (ItemOk M sc v t) a ∧
      (Contained R env M sc kws v t → e = .null) ∧ (¬ Contained R env M sc kws v t → IsText e)
  | .unevaluatedItems t | .unevaluatedItems9 t => EachItem M sc v
      (fun k => ¬ ∃ kw ∈ kws, ObsEv R env st M sc kws v kw (.item k)) t
  | .items9 t => match st.obj t with
      | .bool b => Told (elems v ≠ [] → b = true)
      | .obj _ => fun a e => e = .null ∧
          ((elems v ≠ [] ∧ KwHolds R env M sc kws v (.items9 t)) → a = .bool true) ∧
          (¬ (elems v ≠ [] ∧ KwHolds R env M sc kws v (.items9 t)) → a = .null)
  | .items9Array ss => Positional M sc v ss (fun n => if n = 0 then .null else .num (.int (n - 1)))
  | .additionalItems t => fun a e => ∃ ss, Kw.items9Array ss ∈ kws ∧ ss ≠ [] ∧ elems v ≠ [] ∧
      KwHolds R env M sc kws v (.items9Array ss) ∧ EachItem M sc v (fun k => ss.length ≤ k) t a e
  | .if_ t | .ref t => OnOwn st t
  | .then_ t => fun a e => (∃ c, Kw.if_ c ∈ kws ∧ M.valid sc c v) ∧ OnOwn st t a e
  | .else_ t => fun a e => (∃ c, Kw.if_ c ∈ kws ∧ ¬ M.valid sc c v) ∧ OnOwn st t a e
  | .dynamicRef t frag dynamic => OnOwn st (if dynamic then R.dyn sc t frag else t)
  | .recursiveRef t => OnOwn st (R.recr sc t)
  | .format attr enabled => fun a e => a = .str attr ∧
      (KwHolds R env M sc kws v (.format attr enabled) → e = .null) ∧
      (¬ KwHolds R env M sc kws v (.format attr enabled) → IsText e)
  | .static _ _ => fun a e => a = .null ∧ e = .null
  | .annot _ _ w | .unknown _ w => fun a e => a = w ∧ e = .null
  | .contentSchema w => fun a e => Media kws v ∧ a = w ∧ e = .null
  | kw => Told (KwHolds R env M sc kws v kw)

/-- When a keyword that applies to the instance leaves no result. -/
def Silent : Kw → Prop
  | .then_ _ => ¬ ∃ c, Kw.if_ c ∈ kws ∧ M.valid sc c v
  | .else_ _ => ¬ ∃ c, Kw.if_ c ∈ kws ∧ ¬ M.valid sc c v
  | .contentSchema _ => ¬ Media kws v
  | .additionalItems _ => ¬ ∃ ss, Kw.items9Array ss ∈ kws ∧ ss ≠ [] ∧ elems v ≠ [] ∧
      KwHolds R env M sc kws v (.items9Array ss)
  | .unevaluatedItems _ | .unevaluatedItems9 _ => ∀ k, k < (elems v).length →
      ∃ kw ∈ kws, ObsEv R env st M sc kws v kw (.item k)
  | _ => False

end

end Jschon.Spec
