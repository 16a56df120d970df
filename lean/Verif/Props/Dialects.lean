import Verif.Props.Keywords

/-!
# C52: dynamic references, and C53: array keywords of 2019-09
-/

namespace Jschon

open Spec

/-! ### C52 -/

section
variable {st : Store} {env : Env} {rec : Rec} {sc : List SRef}

/-- A dynamic `$dynamicRef` evaluates, on the same instance and result, the schema with the dynamic
anchor in the outermost schema resource of the dynamic scope that has one, provided that the scope
does not return to a schema resource (`Spec.NoReentry`).

Missing: scopes that do, for which the claim is false (`C52_reentry`). -/
theorem C52_dynamicRef_partial {frag : String} (hre : NoReentry st frag sc) (t : SRef) :
    ∃ u, Outermost st frag sc t u ∧ ∀ (env : Env) (rec : Rec) (i : Inst) (parent c : RNode),
      evalKw st env rec sc (.dynamicRef t frag true) i parent c =
        (rec sc u i c).map (fun c' => (parent, c'.setRef u)) := by
  refine ⟨_, dynLoop_outermost (dflt := t) hre, fun env rec i parent c => ?_⟩
  simp only [evalKw, if_true]
  cases rec sc (dynLoop st frag sc [] t) i c <;> rfl

/-- A `$dynamicRef` that is not dynamic behaves like `$ref`. -/
theorem C52_static {t : SRef} {frag : String} (i : Inst) (parent c : RNode) :
    evalKw st env rec sc (.dynamicRef t frag false) i parent c = evalKw st env rec sc (.ref t) i parent c := rfl

/-- A `$recursiveRef` evaluates the schema that the specification says, in every scope. -/
theorem C52_recursiveRef (t : SRef) :
    ∃ u, OutermostRec st sc t u ∧ ∀ (env : Env) (rec : Rec) (i : Inst) (parent c : RNode),
      evalKw st env rec sc (.recursiveRef t) i parent c =
        (rec sc u i c).map (fun c' => (parent, c'.setRef u)) := by
  refine ⟨_, recr_outermost, fun env rec i parent c => ?_⟩
  simp only [evalKw]
  cases rec sc (if isRecursiveAnchor st t then recLoop st sc t else t) i c <;> rfl

/-- There is only one schema that a dynamic reference can denote. -/
theorem C52_unique {frag : String} {t u u' : SRef} (h : Outermost st frag sc t u)
    (h' : Outermost st frag sc t u') : u = u' := Outermost.unique h h'

end

/-- A generic list in resource `b`, used by resource `a` with its own type of items.
`a`: `{"$ref": "b"}`, `b`: `{"items": {"$dynamicRef": "#n"}}`; `a#n` is a string and `b#n` is anything. -/
def dynStore : Store where
  obj s := match s with
    | 0 => .obj [.ref 1]
    | 1 => .obj [.items 2]
    | 2 => .obj [.dynamicRef 4 "n" true]
    | 3 => .obj [.static "$dynamicAnchor" (.str "n"), .assert (.type_ ["string"])]
    | 4 => .obj [.static "$dynamicAnchor" (.str "n")]
    | _ => .bool true
  base s := match s with | 0 | 3 => some "a" | 1 | 2 | 4 => some "b" | _ => none
  lookup b f := if f = "n" then (if b = "a" then some 3 else if b = "b" then some 4 else none) else none

/-- The scope in which the reference is evaluated meets the hypothesis. -/
example : NoReentry dynStore "n" [2, 1, 0] := by
  intro x y z b c hs hx hy hz _ _
  have : x = 2 ∧ y = 1 ∧ z = 0 := by
    have := hs.eq_of_length rfl
    simp only [List.cons.injEq, and_true] at this
    exact this
  obtain ⟨rfl, rfl, rfl⟩ := this
  simp [dynStore] at hx hz
  rw [← hx] at hz; simp at hz

example : (verdictOf .d2020 demoEnv dynStore 9 0 (.arr [.str "x"]),
    verdictOf .d2020 demoEnv dynStore 9 0 (.arr [.num (.int 1)]),
    verdictOf .d2020 demoEnv dynStore 9 1 (.arr [.num (.int 1)])) =
    (some true, some false, some true) := by decide +kernel

/-- Resource `a` refers to `b`, which refers to a part of `a` that has a `$dynamicRef`; `a#n` is a
string and `b#n` a number. -/
def reentryStore : Store where
  obj s := match s with
    | 0 => .obj [.ref 1]
    | 1 => .obj [.ref 2]
    | 2 => .obj [.dynamicRef 3 "n" true]
    | 3 => .obj [.static "$dynamicAnchor" (.str "n"), .assert (.type_ ["string"])]
    | 4 => .obj [.static "$dynamicAnchor" (.str "n"), .assert (.type_ ["number"])]
    | _ => .bool true
  base s := match s with | 0 | 2 | 3 => some "a" | 1 | 4 => some "b" | _ => none
  lookup b f := if f = "n" then (if b = "a" then some 3 else if b = "b" then some 4 else none) else none

/-- The outermost resource of the dynamic scope is `a`, so the reference is to a string, and the
number 5 should be rejected; jschon accepts it. -/
theorem C52_reentry :
    verdictOf .d2020 demoEnv reentryStore 9 0 (.num (.int 5)) = some true ∧
    ∀ R, Standard R .d2020 demoEnv (reentryStore.ordered false) →
      Rejects R demoEnv (reentryStore.ordered false) 0 (.num (.int 5)) := by
  refine ⟨by decide +kernel, fun R hR => ⟨4, fun m hm => ?_⟩⟩
  obtain ⟨k, rfl⟩ : ∃ k, m = k + 4 := ⟨m - 4, by omega⟩
  have h0 : (reentryStore.ordered false).obj 0 = .obj [.ref 1] := rfl
  have h1 : (reentryStore.ordered false).obj 1 = .obj [.ref 2] := rfl
  have h2 : (reentryStore.ordered false).obj 2 = .obj [.dynamicRef 3 "n" true] := rfl
  have h3 : (reentryStore.ordered false).obj 3 =
    .obj [.static "$dynamicAnchor" (.str "n"), .assert (.type_ ["string"])] := rfl
  have hd : R.dyn [2, 1, 0] 3 "n" = 3 := by
    refine Outermost.unique (hR.dyn [2, 1, 0] 3 "n") (.found (inner := [2, 1]) (s := 0) (outer := []) (b := "a") rfl rfl
      ⟨rfl, by decide, rfl⟩ ?_)
    intro s hs; cases hs
  rw [show k + 4 = (((k + 1) + 1) + 1) + 1 from rfl]
  intro hv
  rw [unroll, step] at hv; simp only [h0] at hv
  have hv := hv _ (List.mem_singleton.2 rfl)
  rw [KwHolds, unroll, step] at hv; simp only [h1] at hv
  have hv := hv _ (List.mem_singleton.2 rfl)
  rw [KwHolds, unroll, step] at hv; simp only [h2] at hv
  have hv := hv _ (List.mem_singleton.2 rfl)
  rw [KwHolds, if_pos rfl, hd, unroll, step] at hv; simp only [h3] at hv
  obtain ⟨t, ht, hty⟩ := hv (.assert (.type_ ["string"])) (by simp)
  rw [List.mem_singleton.1 ht] at hty
  obtain ⟨x, hx⟩ := hty
  cases hx

/-! ### C53 -/

section
variable {st : Store} {env : Env} (hst : Written .d2019 st) (hstat : StaticStore st)
  {n m : Nat} {s : SRef} {v : Value} (hw : v.WF) {b : Bool} (h : verdictOf .d2019 env st n s v = some b)
include hst hstat hw h

/-- `items` with one schema, which may be a boolean. -/
theorem C53_items {t : SRef} (hs : st.obj s = .obj [.items9 t]) {f : Value → Bool}
    (hf : ∀ x ∈ elems v, verdictOf .d2019 env st m t x = some (f x)) :
    b = true ↔ ∀ x ∈ elems v, f x = true := by
  obtain ⟨M, hM, hb⟩ := written_step hst hstat (m + 1) hw hs h
  rw [hb, List.forall_mem_singleton]
  have hM' : ∀ x ∈ elems v, (M.valid [s] t x ↔ f x = true) :=
    fun x hx => hM _ _ _ (elems_wf hw _ hx) (verdict_le (hf x hx)) _
  simp only [ObsHolds]
  cases ho : st.obj t with
  | obj ks =>
    simp only [KwHolds]
    exact forall_congr' fun x => forall_congr' fun hx => hM' x hx
  | bool c =>
    simp only
    have hbool : ∀ x, verdictOf .d2019 env st (m + 1) t x = some c := by
      intro x
      cases c
      · exact C39_false ho x m
      · exact C39_true ho x m
    have hv := hM _ _ _ hw (hbool v) [s]
    rw [hv]
    have hfx : ∀ x ∈ elems v, f x = c := by
      intro x hx
      have := (verdict_le (hf x hx)).symm.trans (hbool x)
      exact Option.some.inj this
    constructor
    · intro h1 x hx
      rw [hfx x hx]; exact h1 (List.ne_nil_of_mem hx)
    · intro h1 hne
      obtain ⟨x, hx⟩ := List.exists_mem_of_ne_nil _ hne
      rw [← hfx x hx]; exact h1 x hx

/-- The array form of `items` and `additionalItems` divide the array.

Missing: an empty array form, which the 2019-09 metaschema forbids, for which it is false
(`C53_empty_items`). -/
theorem C53_additionalItems_partial {kws : List Kw} {ss : List SRef} {t : SRef} (hs : st.obj s = .obj kws)
    (hk : kws.Perm [.items9Array ss, .additionalItems t]) (hne : ss ≠ []) {f : SRef → Nat → Bool}
    (hf : ∀ u (k : Nat) x, (elems v)[k]? = some x → verdictOf .d2019 env st m u x = some (f u k)) :
    b = true ↔ ∀ k, k < (elems v).length → f (ss.getD k t) k = true := by
  obtain ⟨M, hM, hb⟩ := written_step hst hstat m hw hs h
  have hM' : ∀ u (k : Nat) x, (elems v)[k]? = some x → (M.valid [s] u x ↔ f u k = true) :=
    fun u k x hx => hM _ _ _ (elems_wf hw _ (List.mem_of_getElem? hx)) (hf _ _ _ hx) _
  simp only [hk.mem_iff, List.mem_cons, List.not_mem_nil, or_false, forall_eq_or_imp, forall_eq, ObsHolds,
    KwHolds, reduceCtorEq, Kw.items9Array.injEq] at hb
  rw [hb]
  constructor
  · rintro ⟨h1, h2⟩ k hlt
    have hx : (elems v)[k]? = some (elems v)[k] := List.getElem?_eq_getElem hlt
    rw [← hM' _ _ _ hx, List.getD]
    cases hg : ss[k]? with
    | some u => exact h1 k u _ hg hx
    | none => exact h2 hne h1 k _ hx (List.getElem?_eq_none_iff.1 hg)
  · intro h1
    refine ⟨fun k u x hu hx => ?_, fun _ _ k x hx hle => ?_⟩
    · have := h1 k (List.getElem?_eq_some_iff.1 hx).1
      rw [List.getD, hu] at this
      exact (hM' _ _ _ hx).2 this
    · have := h1 k (List.getElem?_eq_some_iff.1 hx).1
      rw [List.getD, List.getElem?_eq_none_iff.2 hle] at this
      exact (hM' _ _ _ hx).2 this

/-- Without the array form of `items`, `additionalItems` is ignored. -/
theorem C53_additionalItems_ignored {t : SRef} (hs : st.obj s = .obj [.additionalItems t]) : b = true := by
  obtain ⟨M, _, hb⟩ := written_step hst hstat 0 hw hs h
  rw [hb, List.forall_mem_singleton]
  simp [ObsHolds]

/-- `unevaluatedItems` next to the array form of `items`: it applies to the items after those. -/
theorem C53_unevaluatedItems {kws : List Kw} {ss : List SRef} {t : SRef} (hs : st.obj s = .obj kws)
    (hk : kws.Perm [.items9Array ss, .unevaluatedItems9 t]) {f : SRef → Nat → Bool}
    (hf : ∀ u (k : Nat) x, (elems v)[k]? = some x → verdictOf .d2019 env st m u x = some (f u k)) :
    b = true ↔ ∀ k, k < (elems v).length → f (ss.getD k t) k = true := by
  obtain ⟨M, hM, hb⟩ := written_step hst hstat m hw hs h
  have hM' : ∀ u (k : Nat) x, (elems v)[k]? = some x → (M.valid [s] u x ↔ f u k = true) :=
    fun u k x hx => hM _ _ _ (elems_wf hw _ (List.mem_of_getElem? hx)) (hf _ _ _ hx) _
  simp only [hk.mem_iff, List.mem_cons, List.not_mem_nil, or_false, forall_eq_or_imp, forall_eq, ObsHolds,
    exists_eq_or_imp, exists_eq_left, ObsEv, KwHolds] at hb
  rw [hb]
  constructor
  · rintro ⟨h1, h2⟩ k hlt
    have hx : (elems v)[k]? = some (elems v)[k] := List.getElem?_eq_getElem hlt
    rw [← hM' _ _ _ hx, List.getD]
    cases hg : ss[k]? with
    | some u => exact h1 k u _ hg hx
    | none =>
      have := List.getElem?_eq_none_iff.1 hg
      exact h2 k _ hx (fun hn => by omega)
  · intro h1
    have h2 : ∀ (k : Nat) (u : SRef) (x : Value), ss[k]? = some u → (elems v)[k]? = some x → M.valid [s] u x := by
      intro k u x hu hx
      have := h1 k (List.getElem?_eq_some_iff.1 hx).1
      rw [List.getD, hu] at this
      exact (hM' _ _ _ hx).2 this
    refine ⟨h2, fun k x hx hn => ?_⟩
    have := h1 k (List.getElem?_eq_some_iff.1 hx).1
    rw [List.getD, List.getElem?_eq_none_iff.2 (by
      rcases Nat.lt_or_ge k ss.length with h | h
      · exact absurd ⟨h2, h⟩ hn
      · exact h)] at this
    exact (hM' _ _ _ hx).2 this

end

/-- Schemas 0 to 3: `{"type": "string"}`, `{"type": "number"}`, `true`, `false`; then one for each
theorem, and the two counterexamples. -/
def legacySchemas : List SchemaObj := [
  .obj [.assert (.type_ ["string"])], .obj [.assert (.type_ ["number"])], .bool true, .bool false,
  .obj [.items9 0], .obj [.items9 3], .obj [.additionalItems 1, .items9Array [0, 2]], .obj [.additionalItems 3],
  .obj [.unevaluatedItems9 1, .items9Array [0, 2]],
  .obj [.items9 2, .unevaluatedItems9 3], .obj [.items9Array [], .additionalItems 3]]

example : Written .d2019 (listStore legacySchemas) ∧ StaticStore (listStore legacySchemas) :=
  ⟨written_of (by decide), static_of (by decide)⟩

/-- The verdicts on `["x", 1, "y"]`. -/
example : (List.range 9).map (fun s => verdictOf .d2019 demoEnv (listStore legacySchemas) 5 s
      (.arr [.str "x", .num (.int 1), .str "y"])) =
    [false, false, true, false, false, false, false, true, false].map some := by decide +kernel

/-- The verdicts on `["x", 1, 2]`. -/
example : (List.range 9).map (fun s => verdictOf .d2019 demoEnv (listStore legacySchemas) 5 s
      (.arr [.str "x", .num (.int 1), .num (.int 2)])) =
    [false, false, true, false, false, false, true, true, true].map some := by decide +kernel

/-- `{"items": true, "unevaluatedItems": false}`: `items` evaluates every item, so `[1]` is valid, but
jschon rejects it. -/
theorem C53_items_true :
    verdictOf .d2019 demoEnv (listStore legacySchemas) 5 9 (.arr [.num (.int 1)]) = some false ∧
    ∀ R, Accepts R demoEnv ((listStore legacySchemas).ordered true) 9 (.arr [.num (.int 1)]) := by
  refine ⟨by decide +kernel, fun R => ⟨2, fun m hm => ?_⟩⟩
  obtain ⟨k, rfl⟩ : ∃ k, m = k + 2 := ⟨m - 2, by omega⟩
  have h0 : ((listStore legacySchemas).ordered true).obj 9 = .obj [.items9 2, .unevaluatedItems9 3] := rfl
  have h2 : ((listStore legacySchemas).ordered true).obj 2 = .bool true := rfl
  rw [show k + 2 = (k + 1) + 1 from rfl, unroll, step]
  simp only [h0]
  intro kw hk
  simp only [List.mem_cons, List.not_mem_nil, or_false] at hk
  rcases hk with rfl | rfl
  · intro x hx
    rw [unroll, step]
    simp only [h2]
  · intro k x hx hn
    exact absurd ⟨.items9 2, List.mem_cons_self, trivial⟩ hn

/-- `{"items": [], "additionalItems": false}`: every item is additional, so `[1]` is invalid, but
jschon accepts it. -/
theorem C53_empty_items :
    verdictOf .d2019 demoEnv (listStore legacySchemas) 5 10 (.arr [.num (.int 1)]) = some true ∧
    ∀ R, Rejects R demoEnv ((listStore legacySchemas).ordered true) 10 (.arr [.num (.int 1)]) := by
  refine ⟨by decide +kernel, fun R => ⟨2, fun m hm => ?_⟩⟩
  obtain ⟨k, rfl⟩ : ∃ k, m = k + 2 := ⟨m - 2, by omega⟩
  have h0 : ((listStore legacySchemas).ordered true).obj 10 = .obj [.items9Array [], .additionalItems 3] := rfl
  have h2 : ((listStore legacySchemas).ordered true).obj 3 = .bool false := rfl
  intro hv
  simp only [unroll, step, h0, KwHolds, List.forall_mem_cons] at hv
  have := hv.2.1 [] (by simp) 0 (.num (.int 1)) rfl (by simp)
  simp [h2] at this

end Jschon
