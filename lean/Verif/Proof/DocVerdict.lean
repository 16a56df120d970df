import Verif.Proof.DocBridge
import Verif.Proof.Island
import Verif.Proof.Verdict
import Verif.Proof.Halt
import Verif.Spec.DocFaithful

/-!
# The verdict on a document
-/

namespace Jschon
open Spec

section
variable [dia : Dialect]
variable {lib : UriLib} {L : Links} {enabled : String → Bool} {C : Nat → Site → Prop} {b : Uri} {kws : List Kw}
  {kvs : List (String × Value)}

theorem ObjReads.subschema (O : ObjReads lib L enabled C b kws kvs) {kw : Kw} {t : Nat} (hk : kw ∈ kws)
    (h : Subschema kw t) : ∃ q, C t q := by
  obtain ⟨k, v, hv, hr⟩ := O.of_kw _ hk
  cases kw <;> simp only [KwReads] at hr <;> simp only [Subschema] at h
  case ref =>
    obtain ⟨-, s, u, -, h1, h2⟩ := hr
    exact ⟨_, h ▸ h2 _ h1⟩
  case dynamicRef =>
    obtain ⟨-, -, s, u, -, h1, -, h2⟩ := hr
    exact ⟨_, h ▸ (h2 _ h1).1⟩
  case recursiveRef =>
    obtain ⟨-, -, s, u, -, h1, h2⟩ := hr
    exact ⟨_, h ▸ h2 _ h1⟩
  case prefixItems | items9Array =>
    obtain ⟨-, -, vs, -, hl⟩ := hr
    obtain ⟨v, -, hc⟩ := hl.mem h
    exact ⟨_, hc⟩
  case items | additionalItems | unevaluatedItems | unevaluatedItems9 => exact ⟨_, h ▸ hr.2.2⟩
  case items9 => exact ⟨_, h ▸ hr.2.2.2⟩
  case allOf | anyOf | oneOf =>
    obtain ⟨-, vs, -, hl⟩ := hr
    obtain ⟨v, -, hc⟩ := hl.mem h
    exact ⟨_, hc⟩
  case dependentSchemas | properties | patternProperties =>
    obtain ⟨-, vs, -, hl⟩ := hr
    obtain ⟨n, h⟩ := h
    obtain ⟨v, -, hc⟩ := hl.mem h
    exact ⟨_, hc⟩
  all_goals exact ⟨_, h ▸ hr.2⟩

theorem oneKey_common : ∀ k ∈ ["not", "if", "then", "else", "contains", "additionalProperties", "propertyNames", "unevaluatedItems",
    "unevaluatedProperties"], ∀ v, OneKey k v := by
  intro k hk v
  refine .inl ?_
  cases dia <;> (revert k; decide)

theorem manyKey_common : ∀ k ∈ ["allOf", "anyOf", "oneOf"], ManyKey k := by
  intro k hk
  refine .inl ?_
  cases dia <;> (revert k; decide)

theorem oneKey_items20 (h : dia = .d2020) {v : Value} : OneKey "items" v := by
  subst h; exact .inl (by decide)

theorem oneKey_items19 (h : dia = .d2019) {v : Value} (hv : ∀ vs, v ≠ .arr vs) : OneKey "items" v := by
  subst h; exact .inr ⟨by decide, hv⟩

theorem oneKey_additionalItems (h : dia = .d2019) {v : Value} : OneKey "additionalItems" v := by
  subst h; exact .inl (by decide)

theorem manyKey_prefixItems (h : dia = .d2020) : ManyKey "prefixItems" := by
  subst h; exact .inl (by decide)

theorem manyKey_items (h : dia = .d2019) : ManyKey "items" := by
  subst h; exact .inr (by decide)

theorem ObjReads.inPlace {q : Site} (hq : q.schema = .obj kvs) (O : ObjReads lib L enabled C q.base kws kvs) {R : Rules}
    {sc : List SRef} {sc' : List Site} (T : Aims lib L enabled C R sc sc' q.base)
    (hin : ∀ x ∈ sc', L.sites x) {kw : Kw} {t : Nat}
    (hk : kw ∈ kws) (h : InPlace R sc kw t) : ∃ u, C t u ∧ DInPlace lib L q u ∧ DApplies lib L sc' q u := by
  obtain ⟨k, v, hv, hr⟩ := O.of_kw _ hk
  have has : q.Has k v := ⟨_, hq, hv⟩
  cases kw <;> simp only [KwReads] at hr <;> simp only [InPlace] at h
  case allOf =>
    obtain ⟨rfl, vs, rfl, hl⟩ := hr
    obtain ⟨v, h1, hc⟩ := hl.mem h
    exact ⟨_, hc, .many (.inl rfl) has h1, .many (manyKey_common _ (by decide)) has h1⟩
  case anyOf =>
    obtain ⟨rfl, vs, rfl, hl⟩ := hr
    obtain ⟨v, h1, hc⟩ := hl.mem h
    exact ⟨_, hc, .many (.inr (.inl rfl)) has h1, .many (manyKey_common _ (by decide)) has h1⟩
  case oneOf =>
    obtain ⟨rfl, vs, rfl, hl⟩ := hr
    obtain ⟨v, h1, hc⟩ := hl.mem h
    exact ⟨_, hc, .many (.inr (.inr rfl)) has h1, .many (manyKey_common _ (by decide)) has h1⟩
  case if_ => obtain ⟨rfl, hc⟩ := hr; exact ⟨_, h ▸ hc, .one (.inl rfl) has, .one (oneKey_common _ (by decide) _) has⟩
  case then_ => obtain ⟨rfl, hc⟩ := hr; exact ⟨_, h ▸ hc, .one (.inr (.inl rfl)) has, .one (oneKey_common _ (by decide) _) has⟩
  case else_ => obtain ⟨rfl, hc⟩ := hr; exact ⟨_, h ▸ hc, .one (.inr (.inr rfl)) has, .one (oneKey_common _ (by decide) _) has⟩
  case dependentSchemas =>
    obtain ⟨rfl, vs, rfl, hl⟩ := hr
    obtain ⟨n, h⟩ := h
    obtain ⟨v, h1, hc⟩ := hl.mem h
    exact ⟨_, hc, .dependentSchemas has h1, .named (by decide) (by decide) has h1⟩
  case ref =>
    obtain ⟨rfl, s, u, rfl, h1, h2⟩ := hr
    exact ⟨u, h ▸ h2 _ h1, .ref (sc := []) has (fun _ h => by cases h) (.ref h1), .ref has (.ref h1)⟩
  case dynamicRef =>
    have hr' := hr
    obtain ⟨rfl, -, s, u, rfl, -⟩ := hr'
    obtain ⟨⟨u, hu⟩, h2⟩ := T.dyn _ _ _ _ hr
    exact ⟨u, h ▸ h2 _ hu, .ref has hin hu, .ref has hu⟩
  case recursiveRef =>
    obtain ⟨rfl, h19, s, u, rfl, h0, h1⟩ := hr
    obtain ⟨⟨u, hu⟩, h2⟩ := T.recr _ _ _ h19 h0 h1
    exact ⟨u, h ▸ h2 _ hu, .ref has hin hu, .ref has hu⟩

theorem ObjReads.applies {q : Site} (hq : q.schema = .obj kvs) (O : ObjReads lib L enabled C q.base kws kvs) {R : Rules}
    {sc : List SRef} {sc' : List Site} (T : Aims lib L enabled C R sc sc' q.base)
    (hin : ∀ x ∈ sc', L.sites x) {kw : Kw} {t : Nat}
    (hk : kw ∈ kws) (h : Applies R sc kw t) : ∃ u, C t u ∧ DApplies lib L sc' q u := by
  by_cases hi : InPlace R sc kw t
  · obtain ⟨v, hc, -, ha⟩ := O.inPlace hq T hin hk hi
    exact ⟨v, hc, ha⟩
  · obtain ⟨k, v, hv, hr⟩ := O.of_kw _ hk
    have has : q.Has k v := ⟨_, hq, hv⟩
    cases kw <;> simp only [KwReads] at hr <;> simp only [Applies] at h
    case unevaluatedItems | unevaluatedItems9 =>
      obtain ⟨rfl, -, hc⟩ := hr
      exact ⟨_, h ▸ hc, .one (oneKey_common _ (by decide) _) has⟩
    case items =>
      obtain ⟨rfl, h20, hc⟩ := hr
      exact ⟨_, h ▸ hc, .one (oneKey_items20 h20) has⟩
    case items9 =>
      obtain ⟨rfl, h19, ha, hc⟩ := hr
      exact ⟨_, h ▸ hc, .one (oneKey_items19 h19 ha) has⟩
    case additionalItems =>
      obtain ⟨rfl, h19, hc⟩ := hr
      exact ⟨_, h ▸ hc, .one (oneKey_additionalItems h19) has⟩
    case items9Array =>
      obtain ⟨rfl, h19, vs, rfl, hl⟩ := hr
      obtain ⟨v, h1, hc⟩ := hl.mem h
      exact ⟨_, hc, .many (manyKey_items h19) has h1⟩
    case not_ | contains | additionalProperties | unevaluatedProperties | propertyNames =>
      obtain ⟨rfl, hc⟩ := hr
      exact ⟨_, h ▸ hc, .one (oneKey_common _ (by decide) _) has⟩
    case prefixItems =>
      obtain ⟨rfl, h20, vs, rfl, hl⟩ := hr
      obtain ⟨v, h1, hc⟩ := hl.mem h
      exact ⟨_, hc, .many (manyKey_prefixItems h20) has h1⟩
    case properties | patternProperties =>
      obtain ⟨rfl, vs, rfl, hl⟩ := hr
      obtain ⟨n, h⟩ := h
      obtain ⟨v, h1, hc⟩ := hl.mem h
      exact ⟨_, hc, .named (by decide) (by decide) has h1⟩
    all_goals exact absurd h hi

variable {st : Store} {R : Rules} {root : Nat} {doc : Site}

section
variable (S : StoreReads lib L enabled C st) (hd : ∀ sc t f, Outermost st f sc t (R.dyn sc t f))
  (hrr : ∀ sc t, OutermostRec st sc t (R.recr sc t))

include S in
theorem StoreReads.sites {sc : List SRef} {sc' : List Site} (h : Scopes C sc sc') : ∀ x ∈ sc', L.sites x := by
  intro x hx
  obtain ⟨s, -, hc⟩ := h.mem hx
  exact S.at_ hc

include S hd hrr

theorem StoreReads.reach (hr : C root doc) {sc : List SRef}
    (h : Spec.Reach R st root sc) : ∃ sc', Scopes C sc sc' ∧ DScope lib L doc sc' := by
  induction h with
  | root => exact ⟨[doc], .cons hr .nil, .root⟩
  | step _ h1 h2 h3 ih =>
    obtain ⟨sc', hs, hp⟩ := ih
    have hs' := hs
    cases hs with
    | @cons _ p _ r hv hs =>
      obtain ⟨kvs, e, O⟩ := S.members hv h1
      obtain ⟨u, hu, ha⟩ := O.applies e (S.aims hd hrr hs' _) (S.sites hs') h2 h3
      exact ⟨u :: p :: r, .cons hu hs', .step hp ha⟩

theorem StoreReads.watched (hr : C root doc) {sc : List SRef}
    (h : Watched R st root sc) : ∃ p r, Scopes C sc (p :: r) ∧ DWatched lib L p := by
  induction h with
  | @here _ _ _ kw h1 h2 h3 h4 =>
    obtain ⟨sc', hs, -⟩ := S.reach hd hrr hr h1
    have hs' := hs
    cases hs with
    | @cons _ p _ r hv hs =>
      obtain ⟨kvs, e, O⟩ := S.members hv h2
      obtain ⟨k, u, hu, hk⟩ := O.of_kw _ h3
      refine ⟨p, r, hs', ?_⟩
      cases kw <;> simp only [IsUneval] at h4 <;> simp only [KwReads] at hk
      · exact .here (S.at_ hv) ⟨_, e, hu⟩ (.inr hk.1)
      · exact .here (S.at_ hv) ⟨_, e, hu⟩ (.inl hk.1)
      · exact .here (S.at_ hv) ⟨_, e, hu⟩ (.inr hk.1)
  | sub _ h1 h2 h3 ih =>
    obtain ⟨p, r, hs', hw⟩ := ih
    have hs := hs'
    cases hs with
    | cons hv hs =>
      obtain ⟨kvs, e, O⟩ := S.members hv h1
      obtain ⟨u, hu, hi, -⟩ := O.inPlace e (S.aims hd hrr hs' _) (S.sites hs') h2 h3
      exact ⟨u, p :: r, .cons hu hs', .sub hw hi⟩

omit S hd hrr in
theorem mark_common : ∀ k ∈ ["properties", "patternProperties", "additionalProperties", "unevaluatedProperties", "items",
    "contains", "unevaluatedItems"], k ∈ markNames := by
  cases dia <;> decide

omit S hd hrr in
theorem mark_prefixItems (h : dia = .d2020) : "prefixItems" ∈ markNames := by
  subst h; decide

omit S hd hrr in
theorem mark_additionalItems (h : dia = .d2019) : "additionalItems" ∈ markNames := by
  subst h; decide

theorem StoreReads.loud {sc : List SRef} (h : Loud R st sc) : ∀ p r, Scopes C sc (p :: r) → DLoud lib L p := by
  induction h with
  | @here _ _ _ kw h1 h2 h3 =>
    intro p r hs
    cases hs with
    | cons hv hs =>
      obtain ⟨kvs, e, O⟩ := S.members hv h1
      obtain ⟨k, u, hu, hk⟩ := O.of_kw _ h2
      refine .here ⟨_, e, hu⟩ ?_
      cases kw <;> simp only [Annotates] at h3 <;> simp only [KwReads] at hk <;> rw [hk.1]
      case prefixItems => exact mark_prefixItems hk.2.1
      case additionalItems => exact mark_additionalItems hk.2.1
      all_goals exact mark_common _ (by decide)
  | sub h1 h2 h3 _ ih =>
    intro p r hs'
    have hs := hs'
    cases hs with
    | cons hv hs =>
      obtain ⟨kvs, e, O⟩ := S.members hv h1
      rcases h3 with h3 | rfl
      · obtain ⟨u, hu, hi, -⟩ := O.inPlace e (S.aims hd hrr hs' _) (S.sites hs') h2 h3
        exact .sub (.inl hi) (ih u _ (.cons hu hs'))
      · obtain ⟨k, u, hu, rfl, hc⟩ := O.of_kw _ h2
        exact .sub (.inr ⟨u, ⟨_, e, hu⟩, rfl⟩) (ih _ _ (.cons hc hs'))

omit hd hrr in
/-- A dynamic reference to a dynamic anchor. -/
theorem StoreReads.dynamic {s : Nat} {p : Site} {kws : List Kw} {t : Nat} {f : String} (hv : C s p)
    (hs : st.obj s = .obj kws) (ht : .dynamicRef t f true ∈ kws) :
    ∃ r u, dia = .d2020 ∧ p.Has "$dynamicRef" (.str r) ∧ L.refer p.base r u ∧ Dynamic lib r f u ∧ AnchorText f ∧ C t u := by
  obtain ⟨kvs, e, O⟩ := S.members hv hs
  obtain ⟨k, _, hu, rfl, h20, r, u, rfl, h1, hf, h2⟩ := O.of_kw _ ht
  obtain ⟨f', hf'⟩ := (h2 u h1).2.1 rfl
  have : f = f' := by rw [hf, hf'.1]; rfl
  subst this
  exact ⟨r, u, h20, ⟨_, e, hu⟩, h1, hf', S.anchor h20 (h2 u h1).1 hf'.2, (h2 u h1).1⟩

omit hd hrr in
theorem StoreReads.noReentry (h20 : dia = .d2020) {sc : List SRef} {sc' : List Site} (hs : Scopes C sc sc') {f : String} (hf : AnchorText f)
    (h : DNoReentry L f sc') : NoReentry st f sc := by
  intro x y z b c hl hx hy hz hb hc
  obtain ⟨l', hl', hs'⟩ := hs.sublist hl
  cases hs' with
  | cons c1 hs' => cases hs' with
    | cons c2 hs' => cases hs' with
      | cons c3 hs' =>
        cases hs'
        rename_i p q r
        rw [S.base c1] at hx
        rw [S.base c2] at hy
        rw [S.base c3] at hz
        cases hx; cases hy
        have e : r.base.str = p.base.str := by injection hz
        obtain ⟨t, ht⟩ := hb
        obtain ⟨t', ht'⟩ := hc
        obtain ⟨u, -, hu⟩ := S.dynAnchor h20 c1 hf ht
        obtain ⟨u', -, hu'⟩ := S.dynAnchor h20 c2 hf ht'
        rw [h p q r hl' (S.text c1 c3 e.symm) ⟨u, hu⟩ ⟨u', hu'⟩]

theorem StoreReads.faithful (hr : C root doc) {env : Env} {x : Value}
    (hf : DFaithful lib L doc env x) : Faithful R env st root x where
  regular :=
    { quiet_not := fun s sc kws t hw hs ht hl => by
        obtain ⟨p, r, hv', hd'⟩ := S.watched hd hrr hr hw
        have hv := hv'
        cases hv with
        | cons hv _ =>
          obtain ⟨kvs, e, O⟩ := S.members hv hs
          obtain ⟨k, u, hu, rfl, hc⟩ := O.of_kw _ ht
          exact hf.quiet_not _ _ hd' ⟨u, ⟨_, e, hu⟩, rfl⟩ (S.loud hd hrr hl _ _ (.cons hc hv'))
      items_true := fun s sc kws t hw hs ht => by
        obtain ⟨p, r, hv, hdw⟩ := S.watched hd hrr hr hw
        cases hv with
        | cons hv _ =>
          obtain ⟨kvs, e, O⟩ := S.members hv hs
          obtain ⟨k, u, hu, rfl, h19, -, hc⟩ := O.of_kw _ ht
          intro hb
          rcases S.obj hc with ⟨v, h1, h2⟩ | ⟨_, _, -, h2, -⟩
          · rw [hb] at h2
            cases h2
            have h1 : u = .bool true := h1
            subst h1
            exact hf.items_true h19 p hdw ⟨_, e, hu⟩
          · rw [hb] at h2; cases h2
      items_array := fun s sc kws t hw hs ht => by
        obtain ⟨sc', hv, -⟩ := S.reach hd hrr hr hw
        cases hv with
        | cons hv _ =>
          obtain ⟨kvs, e, O⟩ := S.members hv hs
          obtain ⟨k, u, hu, rfl, h19, vs, rfl, hl⟩ := O.of_kw _ ht
          rintro rfl
          have := hl.1
          exact hf.items_array h19 _ vs (S.at_ hv) ⟨_, e, hu⟩ (List.length_eq_zero_iff.1 this.symm) }
  dyn s sc kws t f hw hs ht := by
    obtain ⟨sc', hv', hp⟩ := S.reach hd hrr hr hw
    have hv := hv'
    cases hv with
    | cons hv _ =>
      obtain ⟨r, u, h20, h1, h2, h3, h4, -⟩ := S.dynamic hv hs ht
      exact S.noReentry h20 hv' h4 (hf.dyn h20 _ _ r f u hp h1 h2 h3)
  mult s sc kws m n hw hs ht hn := by
    obtain ⟨sc', hv, -⟩ := S.reach hd hrr hr hw
    cases hv with
    | cons hv _ =>
      obtain ⟨kvs, e, O⟩ := S.members hv hs
      obtain ⟨k, u, hu, -, ⟨a, ha⟩, h⟩ := O.of_kw _ ht
      have := (h a ha).multipleOf m rfl
      subst this
      cases ha
      exact hf.mult _ m n (S.at_ hv) ⟨_, e, hu⟩ hn

end

theorem StoreReads.island (S : StoreReads lib L enabled C st) : Island (fun s => ∃ q, C s q) st where
  closed s kws kw t hs he hk h := by
    obtain ⟨v, hv⟩ := hs
    obtain ⟨kvs, -, O⟩ := S.members hv he
    exact O.subschema hk h
  dyn s kws t f hs he hk x b u hx hb hl := by
    obtain ⟨v, hv⟩ := hs
    obtain ⟨_, _, -, -, -, -, hf, -⟩ := S.dynamic hv he hk
    obtain ⟨q, hq⟩ := hx
    rw [S.base hq] at hb
    cases hb
    obtain ⟨q', h, -⟩ := S.lookup hq hf hl
    exact ⟨q', h⟩

open Classical in
/-- The store with the other schemas left out. -/
noncomputable def clearing (P : Nat → Prop) (st : Store) : Store where
  obj x := if P x then st.obj x else .obj []
  base := st.base
  lookup := st.lookup

omit dia in
theorem clearing_obj {P : Nat → Prop} {s : Nat} (h : P s) : (clearing P st).obj s = st.obj s := by
  simp only [clearing, if_pos h]

theorem StoreReads.clearing (S : StoreReads lib L enabled C st) :
    StoreReads lib L enabled C (Jschon.clearing (fun s => ∃ q, C s q) st) where
  obj hc := by rw [clearing_obj ⟨_, hc⟩]; exact S.obj hc
  at_ := S.at_
  base := S.base
  text := S.text
  anchor := S.anchor
  lookup := S.lookup
  found := S.found
  dyn := S.dyn

omit dia in
theorem StoreReads.sameOn : SameOn (fun s => ∃ q, C s q) (Jschon.clearing (fun s => ∃ q, C s q) st) st :=
  ⟨fun _ hs => (clearing_obj hs).symm, fun _ _ _ _ _ _ _ _ _ => ⟨rfl, fun _ _ => rfl⟩⟩

/-- The verdict on a document in a store that has it, among other things. -/
theorem StoreReads.verdict (S : StoreReads lib L enabled C st)
    (hk : ∀ s q kws, C s q → st.obj s = .obj kws → KwsOk dia kws) (hr : C root doc) {env : Env} {i : Inst}
    (hw : i.value.WF) (hf : DFaithful lib L doc env i.value) {n : Nat} {r : RNode}
    (h : evaluate st env n root i = some r) {m : Nat} (hm : n ≤ m) :
    r.valid = true ↔ (dunroll lib env enabled L m).valid [] doc i.value := by
  let P : Nat → Prop := fun s => ∃ q, C s q
  have S' := S.clearing
  have hstore : StoreOk dia (Jschon.clearing P st) := by
    intro s kws he
    by_cases hs : P s
    · rw [clearing_obj hs] at he
      obtain ⟨v, hv⟩ := hs
      exact hk s v kws hv he
    · simp only [Jschon.clearing, if_neg hs] at he
      cases he
      exact ⟨by simp, (fun _ h => by cases h), (fun pre a post e => by simp at e)⟩
  rw [evaluate_island S'.island StoreReads.sameOn ⟨doc, hr⟩] at h
  obtain ⟨R, hR⟩ := standard_exists dia env (Jschon.clearing P st)
  refine (evaluate_spec hstore hR (S'.faithful hR.dyn hR.recr hr hf) hw h hm).trans ?_
  refine (S'.unroll hR.dialect ?_ hR.dyn hR.recr m).valid hr .nil _
  funext a b
  exact propext (hR.mult a b)

omit dia in
/-- The least rank of a subschema that the schema object is made from. -/
theorem leastRank (rank : Site → Nat) (s : Nat) : ∃ n, (∀ v, C s v → n ≤ rank v) ∧
    ((∃ v, C s v) → ∃ v, C s v ∧ rank v = n) ∧ ((¬ ∃ v, C s v) → n = 0) := by
  by_cases h : ∃ v, C s v
  · have key : ∀ k, (∃ v, C s v ∧ rank v ≤ k) → ∃ v, C s v ∧ ∀ u, C s u → rank v ≤ rank u := by
      intro k
      induction k with
      | zero =>
        rintro ⟨v, hv, hk⟩
        exact ⟨v, hv, fun u _ => by omega⟩
      | succ k ih =>
        rintro ⟨v, hv, hk⟩
        by_cases h' : ∃ v, C s v ∧ rank v ≤ k
        · exact ih h'
        · refine ⟨v, hv, fun u hu => ?_⟩
          have : ¬ rank u ≤ k := fun hk => h' ⟨u, hu, hk⟩
          omega
    obtain ⟨v, hv⟩ := h
    obtain ⟨u, hu, hm⟩ := key (rank v) ⟨v, hv, Nat.le_refl _⟩
    exact ⟨rank u, hm, fun _ => ⟨u, hu, rfl⟩, fun h => absurd ⟨v, hv⟩ h⟩
  · exact ⟨0, fun _ _ => Nat.zero_le _, fun h' => absurd h' h, fun _ => rfl⟩

theorem StoreReads.mayInPlace (S : StoreReads lib L enabled C st) {s : Nat} {p : Site} {kws : List Kw} (hv : C s p)
    (hs : (Jschon.clearing (fun s => ∃ q, C s q) st).obj s = .obj kws) {kw : Kw} {t : Nat} (hk : kw ∈ kws)
    (h : MayInPlace (Jschon.clearing (fun s => ∃ q, C s q) st) kw t) : ∃ q, C t q ∧ (DInPlace lib L p q ∨ DNot lib p q) := by
  have S' := S.clearing
  obtain ⟨kvs, e, O⟩ := S'.members hv hs
  by_cases hn : ∃ u f d, kw = .dynamicRef u f d
  · obtain ⟨u, f, d, rfl⟩ := hn
    obtain ⟨k, _, hv', rfl, h20, r, q, rfl, h1, hf, h2⟩ := O.of_kw _ hk
    have has : p.Has "$dynamicRef" (.str r) := ⟨_, e, hv'⟩
    rcases h with rfl | ⟨rfl, b, hda⟩
    · refine ⟨q, (h2 q h1).1, .inl ?_⟩
      by_cases hdy : ∃ f', Dynamic lib r f' q
      · obtain ⟨f', hdy⟩ := hdy
        exact .ref (sc := []) has (fun _ h => by cases h) (.dynamic h20 h1 hdy (.none (fun _ h => by cases h)))
      · exact .ref (sc := []) has (fun _ h => by cases h) (.static h20 h1 fun f' h => hdy ⟨f', h⟩)
    · obtain ⟨f', hdy⟩ := (h2 q h1).2.1 rfl
      have : f = f' := by rw [hf, hdy.1]; rfl
      subst this
      have ht : ∃ q, C t q := by
        by_cases ht : ∃ q, C t q
        · exact ht
        · have := hda.2.2
          simp only [Jschon.clearing, if_neg ht] at this
          cases this
      obtain ⟨q', hq'⟩ := ht
      have h3 := (S'.has h20 hq').1 hda.2.2
      refine ⟨q', hq', .inl (.ref (sc := [q']) has (fun x hx => List.mem_singleton.1 hx ▸ S.at_ hq') (.dynamic h20 h1 hdy ?_))⟩
      exact .found (inner := []) (outer := []) rfl (S.dyn.2 ⟨S.at_ hq', rfl, h20, h3⟩) (fun _ h => by cases h)
  by_cases hn' : ∃ u, kw = .recursiveRef u
  · obtain ⟨u, rfl⟩ := hn'
    obtain ⟨k, _, hv', rfl, h19, r, q, rfl, h1, h2⟩ := O.of_kw _ hk
    have has : p.Has "$recursiveRef" (.str r) := ⟨_, e, hv'⟩
    rcases h with rfl | ⟨hu, ht⟩
    · refine ⟨q, h2 q h1, .inl (.ref (sc := []) has (fun _ h => by cases h) (.recursive h19 h1 ?_))⟩
      by_cases hq : q.Recursive
      · exact .none hq (fun _ h => by cases h)
      · exact .static hq
    · have hu' := (S'.recursive h19 (h2 q h1)).1 hu
      have ht' : ∃ q, C t q := by
        by_cases ht' : ∃ q, C t q
        · exact ht'
        · simp only [RecAnchor, Jschon.clearing, if_neg ht'] at ht
          cases ht
      obtain ⟨q', hq'⟩ := ht'
      refine ⟨q', hq', .inl (.ref (sc := [q']) has (fun x hx => List.mem_singleton.1 hx ▸ S.at_ hq') (.recursive h19 h1 ?_))⟩
      exact .found (inner := []) (outer := []) hu' rfl ((S'.recursive h19 hq').1 ht) (fun _ h => by cases h)
  · let R : Rules := ⟨dia, fun _ _ => True, fun sc t f => Classical.choose (outermost_exists (Jschon.clearing (fun s => ∃ q, C s q) st) f t sc),
      fun sc t => if isRecursiveAnchor (Jschon.clearing (fun s => ∃ q, C s q) st) t then recLoop (Jschon.clearing (fun s => ∃ q, C s q) st) sc t else t⟩
    by_cases hi : InPlace R [] kw t
    · obtain ⟨v, hc, hd, -⟩ := O.inPlace e (S'.aims (R := R)
        (fun sc t f => Classical.choose_spec (outermost_exists (Jschon.clearing (fun s => ∃ q, C s q) st) f t sc))
        (fun sc t => recr_outermost) .nil _) (fun _ h => by cases h) hk hi
      exact ⟨v, hc, .inl hd⟩
    · obtain ⟨k, v, hv, hr⟩ := O.of_kw _ hk
      cases kw <;> simp only [MayInPlace] at h
      case not_ =>
        obtain ⟨rfl, hc⟩ := hr
        exact ⟨_, h ▸ hc, .inr ⟨v, ⟨_, e, hv⟩, rfl⟩⟩
      case dynamicRef => exact absurd ⟨_, _, _, rfl⟩ hn
      case recursiveRef => exact absurd ⟨_, rfl⟩ hn'
      all_goals exact absurd h hi

/-- Evaluation of a document ends if its references form no cycle of in-place applications. -/
theorem StoreReads.halts (S : StoreReads lib L enabled C st) (hr : C root doc) {rank : Site → Nat} {bound : Nat}
    (hd : DRanked lib L rank bound) (env : Env) (i : Inst) : ∃ n r, evaluate st env n root i = some r := by
  let P : Nat → Prop := fun s => ∃ v, C s v
  let rk : Nat → Nat := fun s => Classical.choose (leastRank (C := C) rank s)
  have hrk : ∀ s, _ := fun s => Classical.choose_spec (leastRank (C := C) rank s)
  have hR : Ranked (Jschon.clearing P st) rk bound := by
    refine ⟨fun s => ?_, fun s kws kw t he hk hm => ?_⟩
    · by_cases hs : P s
      · obtain ⟨v, hv, e⟩ := (hrk s).2.1 hs
        show Classical.choose _ < _
        rw [← e]
        exact hd.lt v (S.at_ hv)
      · have h0 : rk s = 0 := (hrk s).2.2 hs
        have := hd.lt doc (S.at_ hr)
        omega
    · by_cases hs : P s
      · obtain ⟨v, hv, e⟩ := (hrk s).2.1 hs
        obtain ⟨u, hu, hi⟩ := S.mayInPlace hv he hk hm
        have h1 := hd.decreases v u (S.at_ hv) hi
        have h2 : rk t ≤ rank u := (hrk t).1 u hu
        have h3 : rank v = rk s := e
        omega
      · simp only [Jschon.clearing, if_neg hs] at he
        cases he
        cases hk
  obtain ⟨r, h⟩ := evalSchema_halts (env := env) hR _ root i.value (Nat.lt_succ_self _) [root] i.path (RNode.root root i)
  refine ⟨(sizeOf i.value * bound + rk root).succ, r, ?_⟩
  rw [evaluate_island S.clearing.island StoreReads.sameOn ⟨doc, hr⟩]
  exact h

end

/-! ## The store of a world -/

theorem Spec.AnchorText.pct {f : String} (h : AnchorText f) : PctText f.toList f.toList := by
  obtain ⟨c, cs, h1, h2, h3⟩ := h
  rw [h1]
  have tail : ∀ l : List Char, (∀ d ∈ l, ('a' ≤ d ∧ d ≤ 'z') ∨ ('A' ≤ d ∧ d ≤ 'Z') ∨ ('0' ≤ d ∧ d ≤ '9') ∨ d = '-' ∨ d = '.' ∨ d = '_') →
      PctText l l := by
    intro l
    induction l with
    | nil => exact fun _ => .nil
    | cons d l ih =>
      intro h
      refine .plain (.inl ?_) (ih fun x hx => h x (List.mem_cons_of_mem _ hx))
      rcases h d List.mem_cons_self with h | h | h | h | h | h
      · exact .inl h
      · exact .inr (.inl h)
      · exact .inr (.inr (.inl h))
      · exact .inr (.inr (.inr (.inl h)))
      · exact .inr (.inr (.inr (.inr (.inl h))))
      · exact .inr (.inr (.inr (.inr (.inr (.inl h)))))
  refine .plain (.inl ?_) (tail cs h3)
  rcases h2 with h | h | h
  · exact .inl h
  · exact .inr (.inl h)
  · exact .inr (.inr (.inr (.inr (.inr (.inl h)))))

theorem Spec.AnchorText.parse {f : String} (h : AnchorText f) : ∃ e, Ptr.parseUriFragment f = .error e := by
  cases hp : Ptr.parseUriFragment f with
  | error e => exact ⟨e, rfl⟩
  | ok p =>
    unfold Ptr.parseUriFragment at hp
    rw [h.pct.unquote, String.ofList_toList, ptrParse_iff] at hp
    have := h.pct
    rw [hp] at this
    refine absurd ?_ (h.notPointer (ks := p.keys))
    rw [hp]; exact this

/-- What the catalog gives for an anchor in a schema resource. -/
theorem lookup_anchor [dia : Dialect] {E : CEnv} (hL : SiteLib E.lib) {cid : String} {b : Uri} (hb : (absolute E.lib).base b) {f : String}
    (hf : AnchorText f) (w : World) : (w.store E cid).lookup b.str f = cacheGet w.caches cid (b.withFragment f) := by
  simp only [World.store, hL.text b hb.1 hb.2, hL.resolve f b hf.pct.fragment hb.1 hb.2]
  cases hc : cacheGet w.caches cid (b.withFragment f) with
  | some s => rw [getSchemaWith_cached hc]; rfl
  | none =>
    simp only [getSchemaWith, bind, M.andThen, M.read, hc]
    cases hbc : baseCached w cid (b.withFragment f) with
    | some s =>
      obtain ⟨e, he⟩ := hf.parse
      have hfr : (b.withFragment f).fragment = some f := rfl
      simp only [getSchemaEnd, followFragment, hfr, if_neg hf.ne, bind, M.andThen, M.read, World.evalFragment, he,
        M.raise, resultOf]
    | none =>
      simp only [loadSchema, bind, M.andThen, M.ofExcept]
      cases loadJson E.lib E.sources (b.withFragment f).noFragment <;>
        simp only [M.raise, resultOf]

section
variable [dia : Dialect]
variable {E : CEnv} {L : Links} {c0 : Caches} {cid : String} {u : Uri} {root : Nat} {kvs0 : List (String × Value)}
  {w w' : World}

theorem Corr.as {p q : Site} {ks : List String} {x : Nat} (c : Corr E L root p w ks x q) {kvs : List (String × Value)}
    (e : q.schema = .obj kvs) : Corr E L root p w ks x ⟨q.base, .obj kvs⟩ := by
  obtain ⟨b, v⟩ := q
  cases e
  exact c

/-- The store has the schemas made from the documents. -/
theorem DocNames.storeReads_of {docs : List (Nat × Site)} (D : DocNames E L cid docs w)
    (hat : ∀ {s q}, MadeFrom E L docs w s q → L.sites q)
    (hdyn : ∀ {b f q}, L.dyn b f q ↔ L.sites q ∧ q.base = b ∧ dia = .d2020 ∧ q.Has "$dynamicAnchor" (.str f))
    (hfound : ∀ {s p f q}, MadeFrom E L docs w s p → L.dyn p.base f q →
      ∃ root d ks, (root, d) ∈ docs ∧ Stands E.lib d ks q)
    (hc : w'.caches = w.caches) (hb : ∀ x, w'.baseUri x = w.baseUri x)
    (ho : ∀ {s q}, MadeFrom E L docs w s q → (∃ v, q.schema = .bool v ∧ (w'.store E cid).obj s = .bool v) ∨
      ∃ kvs kws, q.schema = .obj kvs ∧ (w'.store E cid).obj s = .obj kws ∧
        ObjReads E.lib L E.fmtEnabled (MadeFrom E L docs w) q.base kws kvs) :
    StoreReads E.lib L E.fmtEnabled (MadeFrom E L docs w) (w'.store E cid) where
  obj := ho
  at_ := hat
  base := by
    rintro s q ⟨root, p, ks, h, c⟩
    simp only [World.store, hb, c.base, Option.map_some]
  text := by
    rintro s p t q ⟨_, _, _, -, c⟩ ⟨_, _, _, -, c'⟩ e
    rw [← D.lib.text _ c.absolute.1 c.absolute.2, e, D.lib.text _ c'.absolute.1 c'.absolute.2]
  anchor := by
    rintro s q f h20 ⟨_, _, _, -, c⟩ hf
    exact c.anchorText (.inr ⟨h20, hf⟩)
  lookup := by
    rintro s p f t ⟨_, _, _, h, c⟩ hf hl
    rw [lookup_anchor D.lib c.absolute hf, hc] at hl
    have hnf : (p.base.withFragment f).noFragment = p.base := noFragment_of (u := p.base) c.absolute.2
    obtain ⟨_, _, ls, q', h', cy, e⟩ := D.only h c.at_ hnf.symm hl
    refine ⟨q', ⟨_, _, _, h', cy⟩, ?_⟩
    rcases e with ⟨h1, -⟩ | ⟨f', -, -, h⟩
    · have := cy.absolute.2
      rw [← h1] at this
      cases this
    · have h2 : (q'.base.withFragment f').noFragment = q'.base := noFragment_of (u := q'.base) cy.absolute.2
      rw [← hnf, h, h2]
  found := by
    intro s p f q hm hd
    obtain ⟨root', p', ls, h', h2⟩ := hfound hm hd
    obtain ⟨-, h3, h20, h4⟩ := hdyn.1 hd
    obtain ⟨_, _, _, -, c⟩ := hm
    obtain ⟨y, cy⟩ := D.find h' h2
    refine ⟨y, ?_, ⟨_, _, _, h', cy⟩⟩
    rw [lookup_anchor D.lib c.absolute (cy.anchorText (.inr ⟨h20, h4⟩)), hc, ← h3]
    exact D.anchored h' cy (.inr ⟨h20, h4⟩)
  dyn := hdyn

theorem DocNames.storeReads {docs : List (Nat × Site)} (D : DocNames E L cid docs w)
    (hL : L = links E.lib (docs.map (·.2))) (hc : w'.caches = w.caches) (hb : ∀ x, w'.baseUri x = w.baseUri x)
    (ho : ∀ {s q}, MadeFrom E L docs w s q → (∃ v, q.schema = .bool v ∧ (w'.store E cid).obj s = .bool v) ∨
      ∃ kvs kws, q.schema = .obj kvs ∧ (w'.store E cid).obj s = .obj kws ∧
        ObjReads E.lib L E.fmtEnabled (MadeFrom E L docs w) q.base kws kvs) :
    StoreReads E.lib L E.fmtEnabled (MadeFrom E L docs w) (w'.store E cid) := by
  refine D.storeReads_of ?_ (by rw [hL]; exact .rfl) ?_ hc hb ho
  · rintro s q ⟨root, p, ks, h, c⟩
    obtain ⟨i, hi⟩ := mem_located (lib := E.lib) h c.at_
    rw [hL]
    exact ⟨i, ks, hi⟩
  · rintro s p f q - hd
    rw [hL] at hd
    obtain ⟨⟨i, ls, h1⟩, -, -, -⟩ := hd
    obtain ⟨root', p', h', -, h2⟩ := located_mem h1
    exact ⟨root', p', ls, h', h2⟩

/-- What evaluation finds in the schemas of the document. -/
theorem DocRead.objs {C : Nat → Site → Prop} (D : DocRead E L C c0 cid u root kvs0 w w') {ks : List String} {x : Nat}
    {q : Site} (c : Corr E L root ⟨u, .obj kvs0⟩ w ks x q) :
    (∃ v, q.schema = .bool v ∧ (w'.store E cid).obj x = .bool v) ∨
      ∃ kvs kws, q.schema = .obj kvs ∧ (w'.store E cid).obj x = .obj kws ∧
        ObjReads E.lib L E.fmtEnabled C q.base kws kvs ∧ KwsOk dia kws := by
  have data := D.grown.ext.data (D.made.ok.dom x c.isSchema)
  rcases c.good with ⟨b, e⟩ | ⟨kvs, e, -⟩
  · refine .inl ⟨b, e, ?_⟩
    have := rearr_bool D.made.ok.ord (e ▸ c.rearr)
    simp only [World.store, World.schemaObj, data, this]
  · refine .inr ⟨kvs, _, e, ?_, D.obj_reads (b := q.base) (c.as e), D.kwsOk (b := q.base) (c.as e)⟩
    obtain ⟨ms, this, -⟩ := rearr_obj D.made.ok.ord (e ▸ c.rearr)
    simp only [World.store, World.schemaObj, data, this]

theorem DocDone.storeReads (D : DocDone E L [(root, ⟨u, .obj kvs0⟩)] c0 cid u root kvs0 w w')
    (A : DocAlone E c0 cid ⟨u, .obj kvs0⟩) (hL : L = links E.lib [⟨u, .obj kvs0⟩]) :
    StoreReads E.lib L E.fmtEnabled (MadeFrom E L [(root, ⟨u, .obj kvs0⟩)] w) (w'.store E cid) := by
  refine (D.made.docNames A).storeReads hL D.mid.caches (D.mid.base D.made.ok) ?_
  rintro s q ⟨root', p, ks, h, c⟩
  cases List.mem_singleton.1 h
  rcases D.read.objs c with h | ⟨kvs, kws, h1, h2, h3, -⟩
  · exact .inl h
  · exact .inr ⟨kvs, kws, h1, h2, h3⟩

/-- The verdict on a constructed document. -/
theorem DocDone.verdict (D : DocDone E L [(root, ⟨u, .obj kvs0⟩)] c0 cid u root kvs0 w w')
    (A : DocAlone E c0 cid ⟨u, .obj kvs0⟩) (hL : L = links E.lib [⟨u, .obj kvs0⟩]) {env : Env} {i : Inst}
    (hw : i.value.WF) (hf : DFaithful E.lib L ⟨u, .obj kvs0⟩ env i.value) {n : Nat} {r : RNode}
    (h : evaluate (w'.store E cid) env n root i = some r) {m : Nat} (hm : n ≤ m) :
    r.valid = true ↔ (dunroll E.lib env E.fmtEnabled L m).valid [] ⟨u, .obj kvs0⟩ i.value := by
  refine (D.storeReads A hL).verdict ?_ ⟨_, _, [], D.mem, D.made.corr⟩ hw hf h hm
  rintro s q kws ⟨root', p, ks, h1, c⟩ he
  cases List.mem_singleton.1 h1
  rcases D.read.objs c with ⟨b, -, h⟩ | ⟨kvs, kws, -, h, -, h'⟩
  · rw [h] at he; cases he
  · rw [h] at he; cases he; exact h'

end
end Jschon
