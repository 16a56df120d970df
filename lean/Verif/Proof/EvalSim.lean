import Verif.Proof.EvalStep

/-!
# The evaluator computes the observed meaning
-/

namespace Jschon

open Spec

section
variable (st : Store) (env : Env) (d : Dialect) (M : Meaning) (sc : List SRef) (kws : List Kw) (i : Inst)

/-- `minContains` among the keywords done has reset `contains` to valid. -/
def Reset (done : List Kw) : Prop :=
  ∃ m, Kw.minContains m ∈ done ∧
    KwHolds (codeRules st env d) env M sc kws i.value (.minContains m) ∧
    ∀ mx, Kw.maxContains mx ∈ kws → KwHolds (codeRules st env d) env M sc kws i.value (.maxContains mx)

/-- When a keyword's result passes after the keywords `done`. -/
def PassD (done : List Kw) : Kw → Prop
  | .contains t => (∃ xs, i.value = .arr xs) →
      1 ≤ matching M sc t i.value ∨ Reset st env d M sc kws i done
  | kw => ObsHolds (codeRules st env d) env st M sc kws i.value kw

/-- The entries that the keywords `done` have added. -/
structure NewOk (s : SRef) (done : List Kw) (new : List ((String × List String) × RNode)) : Prop where
  keys : ∀ e ∈ new, ∃ kw ∈ done, e.1 = (kw.key, i.path)
  nodup : (new.map Prod.fst).Nodup
  good : ∀ e ∈ new, Good (fun j => i.path <+: j.path) e.2
  schema : ∀ e ∈ new, e.2.info.schema = s
  inst : ∀ e ∈ new, e.2.info.inst = i
  out : ∀ kw ∈ done, StepOut st env d M sc kws i kw (PassD st env d M sc kws i done kw)
    (clookup (kw.key, i.path) new)

end

theorem clookup_of_mem {k : String × List String} {c : RNode} :
    ∀ {cs : List ((String × List String) × RNode)}, (cs.map Prod.fst).Nodup → (k, c) ∈ cs →
      clookup k cs = some c
  | [], _, h => by cases h
  | (k', c') :: r, hn, h => by
    rw [List.map_cons, List.nodup_cons] at hn
    rcases List.mem_cons.1 h with h | h'
    · simp only [Prod.mk.injEq] at h
      simp only [clookup, if_pos h.1, h.2]
    · have : k ≠ k' := by
        rintro rfl
        exact hn.1 (List.mem_map.2 ⟨_, h', rfl⟩)
      simp only [clookup, if_neg this]
      exact clookup_of_mem hn.2 h'

theorem clookup_cset_self {k : String × List String} {c : RNode} :
    ∀ {cs : List ((String × List String) × RNode)}, clookup k (cset k c cs) = some c
  | [] => by simp [cset, clookup]
  | (k', c') :: r => by
    by_cases h : k = k'
    · simp [cset, clookup, h]
    · simp only [cset, if_neg h, clookup]; exact clookup_cset_self

theorem clookup_cset_ne {k k2 : String × List String} {c : RNode} (hne : k2 ≠ k) :
    ∀ {cs : List ((String × List String) × RNode)}, clookup k2 (cset k c cs) = clookup k2 cs
  | [] => by simp [cset, clookup, hne]
  | (k', c') :: r => by
    by_cases h : k = k'
    · subst h; simp [cset, clookup, hne]
    · simp only [cset, if_neg h, clookup, clookup_cset_ne hne]

theorem map_fst_cset {k : String × List String} {c : RNode} :
    ∀ {cs : List ((String × List String) × RNode)}, (∃ e ∈ cs, e.1 = k) →
      (cset k c cs).map Prod.fst = cs.map Prod.fst
  | [], h => by obtain ⟨e, he, _⟩ := h; cases he
  | (k', c') :: r, h => by
    by_cases hk : k = k'
    · simp [cset, hk]
    · simp only [cset, if_neg hk, List.map_cons]
      rw [map_fst_cset]
      obtain ⟨e, he, h⟩ := h
      rcases List.mem_cons.1 he with rfl | he
      · exact absurd h.symm hk
      · exact ⟨e, he, h⟩

section
variable {d : Dialect} {st : Store} {env : Env} {rec : Rec} {M : Meaning}
variable {a b : List SRef} {s : SRef} {i : Inst} {kws : List Kw}

/-- A keyword that does not apply to the type of the instance holds and evaluates nothing. -/
theorem inapplicable {kw : Kw} {sc : List SRef} {done : List Kw}
    (h : kw.types.contains i.value.type = false) :
    StepOut st env d M sc kws i kw (PassD st env d M sc kws i done kw) none := by
  have harr : [JType.array].contains i.value.type = false → ∀ xs, i.value ≠ .arr xs := by
    intro h xs he; rw [he] at h; simp [Value.type] at h
  have hobj : [JType.object].contains i.value.type = false → ∀ kvs, i.value ≠ .obj kvs := by
    intro h xs he; rw [he] at h; simp [Value.type] at h
  have hel : [JType.array].contains i.value.type = false → elems i.value = [] := by
    intro h
    cases hv : i.value with
    | arr xs => exact absurd hv (harr h xs)
    | _ => rfl
  have hmem : [JType.object].contains i.value.type = false → members i.value = [] := by
    intro h
    cases hv : i.value with
    | obj xs => exact absurd hv (hobj h xs)
    | _ => rfl
  have hall : ∀ l, l = [JType.null, .boolean, .number, .string, .array, .object] →
      l.contains i.value.type = false → False := by
    rintro l rfl h
    cases hv : i.value <;> simp [hv, Value.type] at h
  have hP : PassD st env d M sc kws i done kw := by
    cases kw
    case assert x => exact assertHolds_of_type env _ x i.value h
    case contains t => exact fun ⟨xs, hx⟩ => absurd hx (harr h xs)
    case maxContains t => exact fun ⟨xs, hx⟩ => absurd hx (harr h xs)
    case minContains t => exact fun ⟨xs, hx⟩ => absurd hx (harr h xs)
    case prefixItems ss => intro k t x _ hx; rw [hel h] at hx; simp at hx
    case items9Array ss => intro k t x _ hx; rw [hel h] at hx; simp at hx
    case items ss => intro k x hx; rw [hel h] at hx; simp at hx
    case unevaluatedItems ss => intro k x hx; rw [hel h] at hx; simp at hx
    case unevaluatedItems9 ss => intro k x hx; rw [hel h] at hx; simp at hx
    case items9 t =>
      simp only [PassD, ObsHolds]
      split
      · intro hn; exact absurd (hel h) hn
      · intro x hx; rw [hel h] at hx; cases hx
    case additionalItems t => intro ss _ _ _ k x hx; rw [hel h] at hx; simp at hx
    case dependentSchemas ps => rintro p _ ⟨x, hx⟩; rw [hmem h] at hx; cases hx
    case properties ps => intro n t x _ hx; rw [hmem h] at hx; cases hx
    case patternProperties ps => intro re t n x _ hx; rw [hmem h] at hx; cases hx
    case additionalProperties t => intro n x hx; rw [hmem h] at hx; cases hx
    case unevaluatedProperties t => intro n x hx; rw [hmem h] at hx; cases hx
    case propertyNames t => rintro n ⟨x, hx⟩; rw [hmem h] at hx; cases hx
    case static => trivial
    case annot => trivial
    case contentSchema => trivial
    all_goals exact absurd h (fun h => hall _ rfl h)
  refine ⟨⟨fun _ => hP, fun _ c hc => by cases hc⟩, ?_, ?_, ?_⟩
  · intro pt hpt _
    simp only [oevs, reduceCtorEq, false_and, exists_false, false_iff]
    cases pt with
    | item k =>
      have hk : k < (elems i.value).length := hpt
      cases kw
      case dependentSchemas ps =>
        rintro ⟨_, p, _, ⟨x, hx⟩, _⟩
        rw [hmem h] at hx; cases hx
      case contains t => rw [hel h] at hk; simp at hk
      case prefixItems t => rw [hel h] at hk; simp at hk
      case items t => rw [hel h] at hk; simp at hk
      case items9 t => rw [hel h] at hk; simp at hk
      case items9Array t => rw [hel h] at hk; simp at hk
      case additionalItems t => rw [hel h] at hk; simp at hk
      all_goals first
        | exact id
        | exact absurd h (fun h => hall _ rfl h)
    | name n =>
      obtain ⟨x, hx⟩ := hpt
      cases kw
      case dependentSchemas ps => rw [hmem h] at hx; cases hx
      case properties ps => rw [hmem h] at hx; cases hx
      case patternProperties ps => rw [hmem h] at hx; cases hx
      case additionalProperties ps => rw [hmem h] at hx; cases hx
      all_goals first
        | exact id
        | exact absurd h (fun h => hall _ rfl h)
  · intro pt hpt hu
    cases pt with
    | item k =>
      have hk : k < (elems i.value).length := hpt
      cases kw
      case unevaluatedItems t => rw [hel h] at hk; simp at hk
      case unevaluatedItems9 t => rw [hel h] at hk; simp at hk
      all_goals exact absurd hu (by simp [UnevalFor])
    | name n =>
      obtain ⟨x, hx⟩ := hpt
      cases kw
      case unevaluatedProperties t => rw [hmem h] at hx; cases hx
      all_goals exact absurd hu (by simp [UnevalFor])
  · cases kw
    case if_ t => exact absurd h (fun h => hall _ rfl h)
    case contains t => exact fun ⟨xs, hx⟩ => absurd hx (harr h xs)
    case maxContains t => exact fun ⟨xs, hx⟩ => absurd hx (harr h xs)
    case properties t => exact fun ⟨xs, hx⟩ => absurd hx (hobj h xs)
    case patternProperties t => exact fun ⟨xs, hx⟩ => absurd hx (hobj h xs)
    case prefixItems t => exact fun ⟨xs, hx⟩ => absurd hx (harr h xs)
    case items9Array ss => intro z; simp [hel h]
    case items9 ss => rfl
    all_goals exact trivial

/-- Two keywords that deal with what is not evaluated, of the same kind, have the same name. -/
theorem unevalFor_key {kw kw' : Kw} {pt : Pt} (h : UnevalFor kw pt) (h' : UnevalFor kw' pt) :
    kw.key = kw'.key := by
  cases pt <;> cases kw <;> simp only [UnevalFor] at h <;> cases kw' <;> simp only [UnevalFor] at h' <;> rfl

/-- A keyword that evaluates something is one that the `unevaluated` keyword depends on. -/
theorem evaluator_dep {kw kw' : Kw} {pt : Pt} {sc : List SRef} (hkw : kw.Ok d) (hkw' : kw'.Ok d) (hu : UnevalFor kw pt)
    (hpt : pt.In i.value)
    (h : ObsEv (codeRules st env d) env st M sc kws i.value kw' pt) :
    kw'.key ∈ kw.dependsOn (decide (d = .d2019)) := by
  cases pt with
  | name n =>
    cases kw <;> simp only [UnevalFor] at hu
    cases kw' <;> simp only [ObsEv] at h
    case dynamicRef t f dy => rw [hkw']; simp [Kw.dependsOn, Kw.key]
    case recursiveRef t => rw [hkw']; simp [Kw.dependsOn, Kw.key]
    all_goals cases d <;> simp [Kw.dependsOn, Kw.key]
  | item k =>
    have harr := pt_item_arr hpt
    cases kw <;> simp only [UnevalFor] at hu
    · cases kw' <;> simp only [ObsEv] at h
      case dependentSchemas ps =>
        obtain ⟨_, p, _, ⟨x, hx⟩, _⟩ := h
        obtain ⟨xs, hxs⟩ := harr
        rw [hxs] at hx; cases hx
      case recursiveRef t => rw [show d = .d2020 from hkw] at hkw'; cases hkw'
      case additionalItems t => rw [show d = .d2020 from hkw] at hkw'; cases hkw'
      all_goals simp [Kw.dependsOn, Kw.key]
    · cases kw' <;> simp only [ObsEv] at h
      case dependentSchemas ps =>
        obtain ⟨_, p, _, ⟨x, hx⟩, _⟩ := h
        obtain ⟨xs, hxs⟩ := harr
        rw [hxs] at hx; cases hx
      case dynamicRef t f dy => rw [show d = .d2019 from hkw] at hkw'; cases hkw'
      case prefixItems t => rw [show d = .d2019 from hkw] at hkw'; cases hkw'
      case contains t => rw [show d = .d2019 from hkw] at h; exact absurd h.1 (by simp [codeRules])
      all_goals simp [Kw.dependsOn, Kw.key]

/-- What the entries evaluate. -/
theorem new_evs {sc : List SRef} {done : List Kw} {new : List ((String × List String) × RNode)}
    (h : NewOk st env d M sc kws i s done new) (C : String → Value → Prop) :
    (∃ e ∈ new, evs C i.path e.2) ↔ ∃ kw ∈ done, oevs C i.path (clookup (kw.key, i.path) new) := by
  constructor
  · rintro ⟨e, he, hev⟩
    obtain ⟨kw, hkw, hk⟩ := h.keys e he
    obtain ⟨k, c⟩ := e
    cases hk
    exact ⟨kw, hkw, c, clookup_of_mem h.nodup he, hev⟩
  · rintro ⟨kw, hkw, c, hc, hev⟩
    exact ⟨_, mem_of_clookup hc, hev⟩

variable (hok : RecOk d rec M) (hst : Stut (s :: a) (s :: b)) (hw : i.value.WF)
  (hkws : KwsOk d kws) (hobj : st.obj s = .obj kws)
  (hbool : ∀ t bb, st.obj t = .bool bb → ∀ sc v pt, ¬ M.ev sc t v pt)

include hok hst hw hkws hobj hbool

/-- What a keyword finds when its turn comes: the results of the keywords that it depends on, and the
annotations of what has been evaluated. -/
theorem loop_ready {done rest : List Kw} {kw : Kw} (hsplit : kws = done ++ kw :: rest)
    {r0 r : RNode} (hc0 : Clean r0) (ha0 : AwayFrom i.path r0) (hi0 : r.info = r0.info)
    {new : List ((String × List String) × RNode)} (hnew : NewOk st env d M (s :: b) kws i s done new)
    (hch : r.children = r0.children ++ new) {parent : RNode}
    (hparent : r.setChild (kw.key, i.path) (r.fresh i kw.key s) = parent) :
    (∀ key ∈ kw.dependsOn (decide (d = .d2019)),
      SibOk st env d M (s :: b) kws i s (sibling parent i key) key) ∧
    ∀ pt, pt.In i.value → UnevalFor kw pt → (evs (Cover d pt) i.path parent ↔
      ∃ kw' ∈ kws, ObsEv (codeRules st env d) env st M (s :: b) kws i.value kw' pt) := by
  have hkw : kw ∈ kws := by rw [hsplit]; simp
  have hdone : ∀ kw' ∈ done, kw' ∈ kws := fun kw' h => by rw [hsplit]; exact List.mem_append_left _ h
  have hkne : ∀ kw' ∈ done, kw'.key ≠ kw.key := by
    intro kw' hkw' he
    have := hkws.nodup
    rw [hsplit, List.map_append, List.map_cons, List.nodup_append] at this
    exact this.2.2 _ (List.mem_map.2 ⟨kw', hkw', rfl⟩) _ List.mem_cons_self he
  have hr0 : ∀ key, ∀ e ∈ r0.children, e.1 ≠ (key, i.path) := by
    intro key e he hk
    exact (ha0 e he).1 (by rw [hk])
  have hnk : ∀ e ∈ new, e.1 ≠ (kw.key, i.path) := by
    intro e he hk
    obtain ⟨kw', hkw', he'⟩ := hnew.keys e he
    rw [he'] at hk
    simp only [Prod.mk.injEq, and_true] at hk
    exact hkne kw' hkw' hk
  have hrk : ∀ e ∈ r.children, e.1 ≠ (kw.key, i.path) := by
    intro e he
    rw [hch] at he
    rcases List.mem_append.1 he with he | he
    · exact hr0 _ e he
    · exact hnk e he
  have hpc : parent.children = r0.children ++ (new ++ [((kw.key, i.path), r.fresh i kw.key s)]) := by
    rw [← hparent, RNode.setChild, RNode.children_mk, cset_new hrk, hch, List.append_assoc]
  have hpi : parent.info = r0.info := by rw [← hparent]; exact hi0
  have hsibl : ∀ key, key ≠ kw.key → sibling parent i key = clookup (key, i.path) new := by
    intro key hne
    rw [sibling, hpc, clookup_append (hr0 key)]
    cases hl : clookup (key, i.path) new with
    | some c => exact clookup_append_some hl
    | none =>
      rw [clookup_append (clookup_none_iff.1 hl)]
      simp [clookup, hne]
  have hdeps : ∀ kw' ∈ kws, kw'.key ∈ kw.dependsOn (decide (d = .d2019)) → kw' ∈ done :=
    fun kw' hkw' hd => hkws.deps done kw rest hsplit kw' hkw' hd
  have hnotself : kw.key ∉ kw.dependsOn (decide (d = .d2019)) := by
    intro hd
    exact hkne kw (hdeps kw hkw hd) rfl
  have hsib : ∀ key ∈ kw.dependsOn (decide (d = .d2019)),
      SibOk st env d M (s :: b) kws i s (sibling parent i key) key := by
    intro key hkey
    have hne : key ≠ kw.key := by rintro rfl; exact hnotself hkey
    rw [hsibl key hne]
    refine ⟨?_, ?_, ?_⟩
    · rintro kw' hkw' rfl
      exact (hnew.out kw' (hdeps kw' hkw' hkey)).extra
    · intro habs
      rw [clookup_none_iff]
      intro e he hk
      obtain ⟨kw', hkw', he'⟩ := hnew.keys e he
      rw [he'] at hk
      simp only [Prod.mk.injEq, and_true] at hk
      exact habs kw' (hdone kw' hkw') hk
    · intro c hc
      exact hnew.schema _ (mem_of_clookup hc)
  have hann : ∀ pt, pt.In i.value → UnevalFor kw pt → (evs (Cover d pt) i.path parent ↔
      ∃ kw' ∈ kws, ObsEv (codeRules st env d) env st M (s :: b) kws i.value kw' pt) := by
    intro pt hpt hu
    have h1 : evs (Cover d pt) i.path parent ↔ ∃ e ∈ new, evs (Cover d pt) i.path e.2 := by
      rw [evs_iff, hpi, hc0.valid, hc0.discard, hc0.ann, hpc]
      simp only [ne_eq, not_true, false_and, false_or, true_and, List.mem_append,
        List.mem_singleton]
      constructor
      · rintro ⟨e, he | he | rfl, hev⟩
        · exact absurd hev (not_evs (ha0 e he).2)
        · exact ⟨e, he, hev⟩
        · rw [evs_iff] at hev
          obtain ⟨_, _, ⟨hn, _⟩ | ⟨e, he, _⟩⟩ := hev
          · exact absurd rfl hn
          · cases he
      · rintro ⟨e, he, hev⟩
        exact ⟨e, .inr (.inl he), hev⟩
    rw [h1, new_evs hnew]
    constructor
    · rintro ⟨kw', hkw', ho⟩
      by_cases hu' : UnevalFor kw' pt
      · exact absurd (unevalFor_key hu' hu) (hkne kw' hkw')
      · exact ⟨kw', hdone kw' hkw', ((hnew.out kw' hkw').ev pt hpt hu').1 ho⟩
    · rintro ⟨kw', hkw', ho⟩
      have hd := hdeps kw' hkw' (evaluator_dep (hkws.ok kw hkw) (hkws.ok kw' hkw') hu hpt ho)
      have hu' : ¬ UnevalFor kw' pt := fun hu' => hkne kw' hd (unevalFor_key hu' hu)
      exact ⟨kw', hd, ((hnew.out kw' hd).ev pt hpt hu').2 ho⟩
  exact ⟨hsib, hann⟩

/-- One round of the loop. -/
theorem loop_step {done rest : List Kw} {kw : Kw} (hsplit : kws = done ++ kw :: rest)
    {r0 r r' : RNode} (hc0 : Clean r0) (ha0 : AwayFrom i.path r0) (hi0 : r.info = r0.info)
    {new : List ((String × List String) × RNode)} (hnew : NewOk st env d M (s :: b) kws i s done new)
    (hch : r.children = r0.children ++ new)
    (hty : kw.types.contains i.value.type = true)
    (h : withSub r i kw.key s (fun parent c => evalKw st env rec (s :: a) kw i parent c) = some r') :
    ∃ new', r'.children = r0.children ++ new' ∧
      NewOk st env d M (s :: b) kws i s (done ++ [kw]) new' := by
  have hkw : kw ∈ kws := by rw [hsplit]; simp
  have hdone : ∀ kw' ∈ done, kw' ∈ kws := fun kw' h => by rw [hsplit]; exact List.mem_append_left _ h
  have hkne : ∀ kw' ∈ done, kw'.key ≠ kw.key := by
    intro kw' hkw' he
    have := hkws.nodup
    rw [hsplit, List.map_append, List.map_cons, List.nodup_append] at this
    exact this.2.2 _ (List.mem_map.2 ⟨kw', hkw', rfl⟩) _ List.mem_cons_self he
  have hr0 : ∀ key, ∀ e ∈ r0.children, e.1 ≠ (key, i.path) := by
    intro key e he hk
    exact (ha0 e he).1 (by rw [hk])
  have hnk : ∀ e ∈ new, e.1 ≠ (kw.key, i.path) := by
    intro e he hk
    obtain ⟨kw', hkw', he'⟩ := hnew.keys e he
    rw [he'] at hk
    simp only [Prod.mk.injEq, and_true] at hk
    exact hkne kw' hkw' hk
  have hrk : ∀ e ∈ r.children, e.1 ≠ (kw.key, i.path) := by
    intro e he
    rw [hch] at he
    rcases List.mem_append.1 he with he | he
    · exact hr0 _ e he
    · exact hnk e he
  simp only [withSub] at h
  generalize hparent : r.setChild (kw.key, i.path) (r.fresh i kw.key s) = parent at h
  have hpc : parent.children = r0.children ++ (new ++ [((kw.key, i.path), r.fresh i kw.key s)]) := by
    rw [← hparent, RNode.setChild, RNode.children_mk, cset_new hrk, hch, List.append_assoc]
  have hpi : parent.info = r0.info := by rw [← hparent]; exact hi0
  have hsibl : ∀ key, key ≠ kw.key → sibling parent i key = clookup (key, i.path) new := by
    intro key hne
    rw [sibling, hpc, clookup_append (hr0 key)]
    cases hl : clookup (key, i.path) new with
    | some c => exact clookup_append_some hl
    | none =>
      rw [clookup_append (clookup_none_iff.1 hl)]
      simp [clookup, hne]
  have hdeps : ∀ kw' ∈ kws, kw'.key ∈ kw.dependsOn (decide (d = .d2019)) → kw' ∈ done :=
    fun kw' hkw' hd => hkws.deps done kw rest hsplit kw' hkw' hd
  have hnotself : kw.key ∉ kw.dependsOn (decide (d = .d2019)) := by
    intro hd
    exact hkne kw (hdeps kw hkw hd) rfl
  obtain ⟨hsib, hann⟩ := loop_ready hok hst hw hkws hobj hbool hsplit hc0 ha0 hi0 hnew hch hparent
  have hfresh : FreshFor (r.fresh i kw.key s) i kw.key s := freshFor_fresh r i kw.key s
  cases he : evalKw st env rec (s :: a) kw i parent (r.fresh i kw.key s) with
  | none => simp [he] at h
  | some p =>
    obtain ⟨parent', c'⟩ := p
    simp only [he, Option.some.injEq] at h
    have hstep := kw_step hok hst hw hkws hobj hbool hkw hfresh hty hsib hann he
    obtain ⟨hgood, himm⟩ := evalKw_good (closed_prefix i.path) (hok.good _ (closed_prefix i.path))
      (List.prefix_refl _) (Good.fresh (List.prefix_refl i.path)) he
    -- the general shape of the new entries
    have hshape : ∀ new1 : List ((String × List String) × RNode),
        parent'.children = r0.children ++ (new1 ++ [((kw.key, i.path), r.fresh i kw.key s)]) →
        (∀ e ∈ new1, ∃ kw ∈ done, e.1 = (kw.key, i.path)) →
        (new1.map Prod.fst).Nodup →
        (∀ e ∈ new1, Good (fun j => i.path <+: j.path) e.2) →
        (∀ e ∈ new1, e.2.info.schema = s) →
        (∀ e ∈ new1, e.2.info.inst = i) →
        (∀ kw' ∈ done, StepOut st env d M (s :: b) kws i kw' (PassD st env d M (s :: b) kws i (done ++ [kw]) kw')
          (clookup (kw'.key, i.path) new1)) →
        ∃ new', r'.children = r0.children ++ new' ∧
          NewOk st env d M (s :: b) kws i s (done ++ [kw]) new' := by
      intro new1 hp' hk1 hn1 hg1 hs1 hi1 ho1
      have hnk1 : ∀ e ∈ new1, e.1 ≠ (kw.key, i.path) := by
        intro e he hk
        obtain ⟨kw', hkw', he'⟩ := hk1 e he
        rw [he'] at hk
        simp only [Prod.mk.injEq, and_true] at hk
        exact hkne kw' hkw' hk
      have hall : ∀ e ∈ r0.children ++ new1, e.1 ≠ (kw.key, i.path) := by
        intro e he
        rcases List.mem_append.1 he with he | he
        · exact hr0 _ e he
        · exact hnk1 e he
      have hset : (parent'.setChild (kw.key, i.path) c').children =
          r0.children ++ (new1 ++ [((kw.key, i.path), c')]) := by
        rw [RNode.setChild, RNode.children_mk, hp', ← List.append_assoc, cset_last hall,
          List.append_assoc]
      have hpass0 : StepOut st env d M (s :: b) kws i kw (PassD st env d M (s :: b) kws i (done ++ [kw]) kw)
          (remains c') := by
        have : PassD st env d M (s :: b) kws i (done ++ [kw]) kw ↔ Pass0 st env d M (s :: b) kws i kw := by
          cases kw
          case contains t =>
            simp only [PassD, Pass0]
            constructor
            · intro h harr
              rcases h harr with h | ⟨m, hm, _⟩
              · exact h
              · exfalso
                rcases List.mem_append.1 hm with hm | hm
                · -- `minContains` comes after `contains`
                  obtain ⟨l1, l2, hl⟩ := List.append_of_mem hm
                  have := hkws.deps l1 (.minContains m) (l2 ++ .contains t :: rest)
                    (by rw [hsplit, hl]; simp) (.contains t) hkw (by simp [Kw.dependsOn, Kw.key])
                  exact hkne (.contains t) (by rw [hl]; exact List.mem_append_left _ this) rfl
                · simp at hm
            · intro h harr; exact .inl (h harr)
          all_goals exact Iff.rfl
        exact ⟨hstep.pass.trans this.symm, hstep.ev, hstep.uev, hstep.extra⟩
      have hlook : ∀ kw' ∈ done, ∀ l : List ((String × List String) × RNode), (∀ e ∈ l, e.1 = (kw.key, i.path)) →
          clookup (kw'.key, i.path) (new1 ++ l) = clookup (kw'.key, i.path) new1 := by
        intro kw' hkw' l hl
        cases hl' : clookup (kw'.key, i.path) new1 with
        | some c => exact clookup_append_some hl'
        | none =>
          rw [clookup_append (clookup_none_iff.1 hl'), clookup_none_iff]
          intro e he hk
          rw [hl e he] at hk
          simp only [Prod.mk.injEq, and_true] at hk
          exact hkne kw' hkw' hk.symm
      by_cases hd : c'.info.discard = true
      · rw [if_pos hd] at h
        refine ⟨new1, ?_, ?_, hn1, hg1, hs1, hi1, ?_⟩
        · rw [← h, RNode.delChild, RNode.children_mk, hset, ← List.append_assoc, cerase_last hall]
        · intro e he
          obtain ⟨kw', hkw', hk⟩ := hk1 e he
          exact ⟨kw', List.mem_append_left _ hkw', hk⟩
        · intro kw' hkw'
          rcases List.mem_append.1 hkw' with hkw' | hkw'
          · exact ho1 kw' hkw'
          · rw [List.mem_singleton.1 hkw', clookup_none_iff.2 hnk1, ← remains_none hd]
            exact hpass0
      · rw [if_neg hd] at h
        have hd : c'.info.discard = false := by simpa using hd
        refine ⟨new1 ++ [((kw.key, i.path), c')], ?_, ?_, ?_, ?_, ?_, ?_, ?_⟩
        · rw [← h, hset]
        · intro e he
          rcases List.mem_append.1 he with he | he
          · obtain ⟨kw', hkw', hk⟩ := hk1 e he
            exact ⟨kw', List.mem_append_left _ hkw', hk⟩
          · rw [List.mem_singleton.1 he]
            exact ⟨kw, by simp, rfl⟩
        · rw [List.map_append, List.nodup_append]
          refine ⟨hn1, by simp, ?_⟩
          intro x hx y hy hxy
          obtain ⟨e, he, rfl⟩ := List.mem_map.1 hx
          simp only [List.map_cons, List.map_nil, List.mem_singleton] at hy
          exact hnk1 e he (hxy.trans hy)
        · intro e he
          rcases List.mem_append.1 he with he | he
          · exact hg1 e he
          · rw [List.mem_singleton.1 he]; exact hgood
        · intro e he
          rcases List.mem_append.1 he with he | he
          · exact hs1 e he
          · rw [List.mem_singleton.1 he]; exact himm.schema
        · intro e he
          rcases List.mem_append.1 he with he | he
          · exact hi1 e he
          · rw [List.mem_singleton.1 he]; exact himm.inst
        · intro kw' hkw'
          rcases List.mem_append.1 hkw' with hkw' | hkw'
          · rw [hlook kw' hkw' _ (by simp)]; exact ho1 kw' hkw'
          · rw [List.mem_singleton.1 hkw', clookup_append hnk1]
            simp only [clookup, if_true, ← remains_some hd]
            exact hpass0
    -- entries of other keywords stay as they are, unless `minContains` resets `contains`
    have hsame : ∀ kw' ∈ done, (∀ t, kw' ≠ .contains t) →
        (PassD st env d M (s :: b) kws i (done ++ [kw]) kw' ↔ PassD st env d M (s :: b) kws i done kw') := by
      intro kw' hkw' hne
      cases kw'
      case contains t => exact absurd rfl (hne t)
      all_goals exact Iff.rfl
    have hreset : (∀ m, kw ≠ .minContains m) → (Reset st env d M (s :: b) kws i (done ++ [kw]) ↔
        Reset st env d M (s :: b) kws i done) := by
      intro hne
      constructor
      · rintro ⟨m, hm, h⟩
        rcases List.mem_append.1 hm with hm | hm
        · exact ⟨m, hm, h⟩
        · exact absurd (List.mem_singleton.1 hm).symm (hne m)
      · rintro ⟨m, hm, h⟩
        exact ⟨m, List.mem_append_left _ hm, h⟩
    have hkeep : parent' = parent → (∀ t, Kw.contains t ∈ done →
        (PassD st env d M (s :: b) kws i (done ++ [kw]) (.contains t) ↔
          PassD st env d M (s :: b) kws i done (.contains t))) →
        ∃ new', r'.children = r0.children ++ new' ∧
          NewOk st env d M (s :: b) kws i s (done ++ [kw]) new' := by
      intro hp hcon
      refine hshape new (by rw [hp, hpc]) hnew.keys hnew.nodup hnew.good hnew.schema hnew.inst ?_
      intro kw' hkw'
      have ho := hnew.out kw' hkw'
      refine ⟨ho.pass.trans ?_, ho.ev, ho.uev, ho.extra⟩
      by_cases hex : ∃ t, kw' = .contains t
      · obtain ⟨t, rfl⟩ := hex
        exact (hcon t hkw').symm
      · exact (hsame kw' hkw' (fun t h => hex ⟨t, h⟩)).symm
    by_cases hmin : ∃ m, kw = .minContains m
    · obtain ⟨m, rfl⟩ := hmin
      have harr := type_arr (v := i.value) hty
      obtain ⟨-, hp⟩ := kw_minContains (M := M) (b := b) (kws := kws) hfresh hkws.ok harr
        (hsib "contains" (by simp [Kw.dependsOn])) (hsib "maxContains" (by simp [Kw.dependsOn])) he
      have hsc := hsibl "contains" (by simp [Kw.key])
      rcases hp with ⟨hp, hcon⟩ | ⟨con, hcon, hval, hmn, hmx, hp⟩
      · refine hkeep hp (fun t ht => ?_)
        obtain ⟨cn, ks, hcn, _⟩ := (hnew.out _ ht).extra harr
        have := hcon cn (by rw [hsc]; exact hcn)
        simp only [PassD, harr, true_implies]
        rcases this with hv | hno
        · have hps := (hnew.out _ ht).pass.1 (by
            intro c hc
            have : some cn = some c := hcn.symm.trans hc
            cases this
            simp [RNode.passed, hv])
          simp only [PassD, harr, true_implies] at hps
          refine ⟨fun _ => hps, fun _ => ?_⟩
          rcases hps with h | ⟨m', hm', h⟩
          · exact .inl h
          · exact .inr ⟨m', List.mem_append_left _ hm', h⟩
        · refine or_congr Iff.rfl ⟨?_, ?_⟩
          · rintro ⟨m', hm', h⟩
            rcases List.mem_append.1 hm' with hm' | hm'
            · exact ⟨m', hm', h⟩
            · cases List.mem_singleton.1 hm'
              exact absurd h hno
          · rintro ⟨m', hm', h⟩
            exact ⟨m', List.mem_append_left _ hm', h⟩
      · rw [hsc] at hcon
        have hmem := mem_of_clookup hcon
        refine hshape (cset ("contains", i.path) con.pass_ new) ?_ ?_ ?_ ?_ ?_ ?_ ?_
        · rw [hp, RNode.setChild, RNode.children_mk, hpc, cset_append (hr0 "contains")]
          congr 1
          -- the entry is there, so the list is modified inside `new`
          have : ∀ {l l' : List ((String × List String) × RNode)} {k : String × List String} {c : RNode},
              (∃ e ∈ l, e.1 = k) → cset k c (l ++ l') = cset k c l ++ l' := by
            intro l l' k c hex
            induction l with
            | nil => obtain ⟨e, he, _⟩ := hex; cases he
            | cons x l ih =>
              obtain ⟨k', c0⟩ := x
              by_cases hk : k = k'
              · simp [cset, hk]
              · simp only [List.cons_append, cset, if_neg hk]
                rw [ih]
                obtain ⟨e, he, h⟩ := hex
                rcases List.mem_cons.1 he with rfl | he
                · exact absurd h.symm hk
                · exact ⟨e, he, h⟩
          exact this ⟨_, hmem, rfl⟩
        · intro e he
          rcases mem_cset he with rfl | he
          · exact hnew.keys (("contains", i.path), con) hmem
          · exact hnew.keys e he
        · rw [map_fst_cset ⟨_, hmem, rfl⟩]; exact hnew.nodup
        · intro e he
          rcases mem_cset he with rfl | he
          · exact (hnew.good _ hmem).upd (Upd.pass_ _)
          · exact hnew.good e he
        · intro e he
          rcases mem_cset he with rfl | he
          · exact hnew.schema (("contains", i.path), con) hmem
          · exact hnew.schema e he
        · intro e he
          rcases mem_cset he with rfl | he
          · exact hnew.inst (("contains", i.path), con) hmem
          · exact hnew.inst e he
        · intro kw' hkw'
          by_cases hk : kw'.key = "contains"
          · obtain ⟨t, rfl⟩ := key_contains (hkws.ok _ (hdone _ hkw')) hk
            have ho := hnew.out _ hkw'
            obtain ⟨cn, ks, hcn, hann', hlen, hkids, hkey, hks⟩ := ho.extra harr
            have hcc : cn = con := by
              have : some cn = some con := hcn.symm.trans hcon
              cases this; rfl
            subst hcc
            have hks := hks hval
            have hl : clookup ((Kw.contains t).key, i.path) (cset ("contains", i.path) cn.pass_ new) =
                some cn.pass_ := clookup_cset_self
            rw [hl]
            refine ⟨?_, ?_, ?_, ?_⟩
            · simp only [PassD, harr, true_implies, Option.some.injEq, forall_eq']
              refine ⟨fun _ => .inr ⟨m, by simp, hmn, hmx⟩, fun _ => by simp [RNode.passed, RNode.pass_]⟩
            · intro pt hpt hu
              rw [← ho.ev pt hpt hu, hcn]
              have h1 : ¬ oevs (Cover d pt) i.path (some cn) := by
                rintro ⟨c, hc, hev⟩
                cases hc
                rw [evs_iff, hval] at hev
                exact absurd hev.1 (by simp)
              have h2 : ¬ oevs (Cover d pt) i.path (some cn.pass_) := by
                rintro ⟨c, hc, hev⟩
                cases hc
                rw [evs_desc (hkids.upd (Upd.pass_ _)) hkey (hnew.inst _ hmem)] at hev
                obtain ⟨_, _, _, hcov⟩ := hev
                have : (cn.pass_).info.annotation = nats [] := by
                  rw [← hks]; exact hann'
                rw [this] at hcov
                cases pt with
                | name n => exact not_cover_name_item (by simp) hcov
                | item k =>
                  cases d <;> simp [Cover, nats, isTrue, intOf, indicesOf] at hcov
              exact ⟨fun h => absurd h h2, fun h => absurd h h1⟩
            · intro pt hpt hu; cases pt <;> exact absurd hu (by simp [UnevalFor])
            · intro _
              exact ⟨_, ks, rfl, hann', hlen, hkids.upd (Upd.pass_ _), hkey, fun _ => hks⟩
          · have hl : clookup (kw'.key, i.path) (cset ("contains", i.path) con.pass_ new) =
                clookup (kw'.key, i.path) new :=
              clookup_cset_ne (by simp only [ne_eq, Prod.mk.injEq, and_true]; exact hk)
            have ho := hnew.out kw' hkw'
            rw [hl]
            exact ⟨ho.pass.trans (hsame kw' hkw' (by rintro t rfl; exact hk rfl)).symm, ho.ev, ho.uev, ho.extra⟩
    · rcases evalKw_parent he with hp | ⟨con, hm, _⟩
      · refine hkeep hp (fun t ht => ?_)
        simp only [PassD]
        rw [hreset (fun m hm => hmin ⟨m, hm⟩)]
      · exact absurd hm hmin

/-- The loop over the first keywords. -/
theorem loop_prefix {r0 : RNode} (hc0 : Clean r0) (ha0 : AwayFrom i.path r0) {later : List Kw} :
    ∀ {rest done : List Kw} {r r' : RNode}, kws = done ++ (rest ++ later) → r.info = r0.info →
      (∃ new, r.children = r0.children ++ new ∧ NewOk st env d M (s :: b) kws i s done new) →
      kwLoop st env rec a s i rest r = some r' →
      ∃ new, r'.children = r0.children ++ new ∧ NewOk st env d M (s :: b) kws i s (done ++ rest) new
  | [], done, r, r', hsplit, _, hinv, h => by
    simp only [kwLoop, Option.some.injEq] at h
    subst h; rw [List.append_nil]
    exact hinv
  | kw :: rest, done, r, r', hsplit, hi, ⟨new, hch, hnew⟩, h => by
    have hsplit' : kws = (done ++ [kw]) ++ (rest ++ later) := by rw [hsplit]; simp
    rw [show done ++ kw :: rest = (done ++ [kw]) ++ rest by simp]
    rw [kwLoop] at h
    split at h
    · rename_i hty
      split at h
      · contradiction
      · rename_i r1 hr1
        have h1 := loop_step hok hst hw hkws hobj hbool hsplit hc0 ha0 hi hnew hch hty hr1
        have hi1 : r1.info = r0.info := by
          have : kwLoop st env rec a s i [kw] r = some r1 := by
            rw [kwLoop, if_pos hty, hr1]; rfl
          rw [kwLoop_info this, hi]
        exact loop_prefix hc0 ha0 hsplit' hi1 h1 h
    · rename_i hty
      have hty : kw.types.contains i.value.type = false := by simpa using hty
      refine loop_prefix hc0 ha0 hsplit' hi ⟨new, hch, ?_, hnew.nodup, hnew.good, hnew.schema, hnew.inst, ?_⟩ h
      · intro e he
        obtain ⟨kw', hkw', hk⟩ := hnew.keys e he
        exact ⟨kw', List.mem_append_left _ hkw', hk⟩
      · intro kw' hkw'
        rcases List.mem_append.1 hkw' with hkw' | hkw'
        · have ho := hnew.out kw' hkw'
          refine ⟨ho.pass.trans ?_, ho.ev, ho.uev, ho.extra⟩
          cases kw'
          case contains t =>
            simp only [PassD]
            refine imp_congr_right (fun harr => or_congr Iff.rfl ⟨?_, ?_⟩)
            · rintro ⟨m, hm, h⟩; exact ⟨m, List.mem_append_left _ hm, h⟩
            · rintro ⟨m, hm, h⟩
              rcases List.mem_append.1 hm with hm | hm
              · exact ⟨m, hm, h⟩
              · cases List.mem_singleton.1 hm
                obtain ⟨xs, hx⟩ := harr
                rw [hx] at hty
                simp [Kw.types, Value.type] at hty
          all_goals exact Iff.rfl
        · rw [List.mem_singleton.1 hkw']
          have : clookup (kw.key, i.path) new = none := by
            rw [clookup_none_iff]
            intro e he hk
            obtain ⟨kw', hkw', he'⟩ := hnew.keys e he
            rw [he'] at hk
            simp only [Prod.mk.injEq, and_true] at hk
            have hn := hkws.nodup
            rw [hsplit, List.cons_append, List.map_append, List.map_cons, List.nodup_append] at hn
            exact hn.2.2 _ (List.mem_map.2 ⟨kw', hkw', rfl⟩) _ List.mem_cons_self hk
          rw [this]
          exact inapplicable hty

/-- The loop over the keywords. -/
theorem loop_inv {r0 : RNode} (hc0 : Clean r0) (ha0 : AwayFrom i.path r0)
    {rest done : List Kw} {r r' : RNode} (hsplit : kws = done ++ rest) (hi : r.info = r0.info)
    (hinv : ∃ new, r.children = r0.children ++ new ∧ NewOk st env d M (s :: b) kws i s done new)
    (h : kwLoop st env rec a s i rest r = some r') :
    ∃ new, r'.children = r0.children ++ new ∧ NewOk st env d M (s :: b) kws i s kws new := by
  have := loop_prefix hok hst hw hkws hobj hbool hc0 ha0 (later := []) (by simpa using hsplit) hi hinv h
  rwa [← hsplit] at this

omit hok hst hw hobj hbool hkws

/-- All results pass iff all keywords hold. -/
theorem all_pass_iff {sc : List SRef} :
    (∀ kw ∈ kws, PassD st env d M sc kws i kws kw) ↔
    ∀ kw ∈ kws, ObsHolds (codeRules st env d) env st M sc kws i.value kw := by
  constructor
  · intro h kw hkw
    have := h kw hkw
    cases kw
    case contains t =>
      intro harr hno
      rcases this harr with h | ⟨m, hm, _⟩
      · exact h
      · exact absurd hm (hno m)
    all_goals exact this
  · intro h kw hkw
    have := h kw hkw
    cases kw
    case contains t =>
      intro harr
      by_cases hex : ∃ m, Kw.minContains m ∈ kws
      · obtain ⟨m, hm⟩ := hex
        exact .inr ⟨m, hm, h _ hm, fun mx hmx => h _ hmx⟩
      · exact .inl (this harr (fun m hm => hex ⟨m, hm⟩))
    all_goals exact this

end

/-- The evaluator agrees with the observed meaning, if the evaluator of subschemas does. -/
theorem body_ok {d : Dialect} {st : Store} {env : Env} {rec : Rec} {M : Meaning} (hok : RecOk d rec M)
    (hstore : StoreOk d st) (hbool : ∀ t bb, st.obj t = .bool bb → ∀ sc v pt, ¬ M.ev sc t v pt)
    {sc sc' : List SRef} {s : SRef} {i : Inst} {r r' : RNode} (hst : Stut (s :: sc) (s :: sc'))
    (hw : i.value.WF) (hc : Clean r) (ha : AwayFrom i.path r)
    (h : evalBody st env rec sc s i r = some r') :
    (r'.info.valid = true ↔ (obsStep (codeRules st env d) env st M).valid sc' s i.value) ∧
      ∃ new, r'.children = r.children ++ new ∧
        (∀ e ∈ new, e.1.2 = i.path ∧ Good (fun j => i.path <+: j.path) e.2) ∧
        ∀ pt, pt.In i.value →
          ((∃ e ∈ new, evs (Cover d pt) i.path e.2) ↔
            (obsStep (codeRules st env d) env st M).ev sc' s i.value pt) := by
  simp only [evalBody] at h
  split at h
  · rename_i hs
    rw [← Option.some.inj h]
    exact ⟨by simp [obsStep, hs, hc.valid], [], by simp, by simp, by simp [obsStep, hs]⟩
  · rename_i hs
    rw [← Option.some.inj h]
    exact ⟨by simp [obsStep, hs, RNode.fail], [], by simp [RNode.fail], by simp, by simp [obsStep, hs]⟩
  · rename_i kws hs
    have hkws := hstore s kws hs
    split at h
    · contradiction
    · rename_i r1 hr1
      have hi := kwLoop_info hr1
      obtain ⟨new, hch, hnew⟩ := loop_inv (b := sc') hok hst hw hkws hs hbool hc ha (done := []) (by simp) rfl
        ⟨[], by simp, by simp, by simp, by simp, by simp, by simp, by simp⟩ hr1
      have hany : (r1.children.any (fun e => decide (e.2.info.inst.path = i.path) && !e.2.passed)) = true ↔
          ¬ ∀ kw ∈ kws, PassD st env d M (s :: sc') kws i kws kw := by
        rw [List.any_eq_true, hch]
        constructor
        · rintro ⟨e, he, hp⟩ hall
          simp only [Bool.and_eq_true, decide_eq_true_eq, Bool.not_eq_true'] at hp
          rcases List.mem_append.1 he with he | he
          · exact (ha e he).2.inst hp.1
          · obtain ⟨kw, hkw, hk⟩ := hnew.keys e he
            obtain ⟨k, c⟩ := e
            cases hk
            have := (hnew.out kw hkw).pass.2 (hall kw hkw) c (clookup_of_mem hnew.nodup he)
            rw [hp.2] at this; cases this
        · intro hn
          apply Classical.byContradiction
          intro hno
          refine hn (fun kw hkw => (hnew.out kw hkw).pass.1 (fun c hcl => ?_))
          have hmem := mem_of_clookup hcl
          apply Classical.byContradiction
          intro hp
          refine hno ⟨_, List.mem_append_right _ hmem, ?_⟩
          rw [hnew.inst _ hmem]
          simpa using hp
      have hval : r'.info.valid = true ↔ (obsStep (codeRules st env d) env st M).valid sc' s i.value := by
        simp only [obsStep, hs]
        rw [← all_pass_iff, ← Option.some.inj h]
        split
        · rename_i hp
          simp only [RNode.fail, RNode.info_mk, Bool.false_eq_true, false_iff]
          exact hany.1 hp
        · rename_i hp
          simp only [hi, hc.valid, true_iff]
          exact Classical.byContradiction (fun hn => hp (hany.2 hn))
      have hch' : r'.children = r1.children := by
        rw [← Option.some.inj h]; split <;> rfl
      refine ⟨hval, new, by rw [hch', hch], ?_, ?_⟩
      · intro e he
        obtain ⟨kw, hkw, hk⟩ := hnew.keys e he
        exact ⟨by rw [hk], hnew.good e he⟩
      · intro pt hpt
        rw [new_evs hnew]
        simp only [obsStep, hs]
        constructor
        · rintro ⟨kw, hkw, ho⟩
          by_cases hu : UnevalFor kw pt
          · right
            have := ((hnew.out kw hkw).uev pt hpt hu).1 ho
            cases pt with
            | name n =>
              cases kw <;> simp only [UnevalFor] at hu
              exact ⟨_, hkw, this⟩
            | item k =>
              cases kw <;> simp only [UnevalFor] at hu
              · exact ⟨_, .inl hkw, this⟩
              · exact ⟨_, .inr hkw, this⟩
          · exact .inl ⟨kw, hkw, ((hnew.out kw hkw).ev pt hpt hu).1 ho⟩
        · have hev : (∃ kw ∈ kws, ObsEv (codeRules st env d) env st M (s :: sc') kws i.value kw pt) →
              ∃ kw ∈ kws, oevs (Cover d pt) i.path (clookup (kw.key, i.path) new) := by
            rintro ⟨kw, hkw, ho⟩
            refine ⟨kw, hkw, ((hnew.out kw hkw).ev pt hpt (fun hu => ?_)).2 ho⟩
            cases pt <;> cases kw <;> simp only [UnevalFor] at hu <;> exact ho
          have hun : ∀ kw ∈ kws, UnevalFor kw pt →
              ObsHolds (codeRules st env d) env st M (s :: sc') kws i.value kw →
              ∃ kw ∈ kws, oevs (Cover d pt) i.path (clookup (kw.key, i.path) new) := by
            intro kw hkw hu hh
            rcases ((hnew.out kw hkw).uev pt hpt hu).2 hh with h | h
            · exact ⟨kw, hkw, h⟩
            · exact hev h
          rintro (h | h)
          · exact hev h
          · cases pt with
            | name n =>
              obtain ⟨t, ht, hh⟩ := h
              exact hun _ ht trivial hh
            | item k =>
              obtain ⟨t, ht | ht, hh⟩ := h
              · exact hun _ ht trivial hh
              · exact hun _ ht trivial hh

/-- The evaluator with fuel `n` agrees with the observed meaning after `n` unrollings. -/
theorem evalSchema_ok {d : Dialect} {st : Store} {env : Env} (hstore : StoreOk d st) (n : Nat) :
    RecOk d (evalSchema st env n) (obsUnroll (codeRules st env d) env st n) := by
  induction n with
  | zero =>
    exact ⟨fun Q hQ => evalSchema_good hQ 0, fun Q hQ => evalSchema_kids hQ 0,
      fun _ _ _ _ _ h => evalSchema_frame h, fun _ _ _ _ _ _ _ _ _ _ h => by simp [evalSchema] at h⟩
  | succ n ih =>
    refine ⟨fun Q hQ => evalSchema_good hQ _, fun Q hQ => evalSchema_kids hQ _,
      fun _ _ _ _ _ h => evalSchema_frame h, ?_⟩
    intro sc sc' s i r r' hst hw hc ha h
    refine body_ok ih hstore ?_ hst hw hc ha h
    intro t bb ht sc v pt
    cases n with
    | zero => exact id
    | succ n => simp [obsUnroll, obsStep, ht]

end Jschon
