import Verif.Proof.Verdict
import Verif.Proof.KwOrder

/-!
# Stores for examples, and stores built from schemas as written
-/

namespace Jschon

open Spec

/-- A store of schema objects without URIs. -/
def listStore (l : List SchemaObj) : Store :=
  ⟨fun s => l.getD s (.bool true), fun _ => none, fun _ _ => none⟩

/-- Regexes are prefixes, floats are decimal fractions, no format has a validator that fails. -/
def demoEnv : Env :=
  ⟨fun re s => re.toList.isPrefixOf s.toList, id, fun _ => [], fun _ _ => true⟩

/-- No keyword depends on one that comes later. -/
def depsCheck (legacy : Bool) : List Kw → Bool
  | [] => true
  | a :: post => (a :: post).all (fun b => !(a.dependsOn legacy).contains b.key) && depsCheck legacy post

theorem depsCheck_suffix {legacy : Bool} : ∀ {pre : List Kw} {a : Kw} {post : List Kw},
    depsCheck legacy (pre ++ a :: post) = true → ∀ b ∈ a :: post, b.key ∉ a.dependsOn legacy
  | [], a, post, h, b, hb => by
    simp only [List.nil_append, depsCheck, Bool.and_eq_true, List.all_eq_true, Bool.not_eq_true'] at h
    have := h.1 b hb
    simpa using this
  | x :: pre, a, post, h, b, hb => by
    simp only [List.cons_append, depsCheck, Bool.and_eq_true] at h
    exact depsCheck_suffix h.2 b hb

theorem kwsOk_of {d : Dialect} {kws : List Kw} (h1 : (kws.map Kw.key).Nodup) (h2 : ∀ kw ∈ kws, kw.Ok d)
    (h3 : depsCheck (decide (d = .d2019)) kws = true) : KwsOk d kws := by
  refine ⟨h1, h2, ?_⟩
  intro pre a post hl b hb hk
  rw [hl] at hb h3
  rcases List.mem_append.1 hb with hb | hb
  · exact hb
  · exact absurd hk (depsCheck_suffix h3 b hb)

theorem listStore_ok {d : Dialect} {l : List SchemaObj} (h : ∀ kws, .obj kws ∈ l → KwsOk d kws) :
    StoreOk d (listStore l) := by
  intro s kws hs
  simp only [listStore, List.getD] at hs
  cases hg : l[s]? with
  | none => rw [hg] at hs; simp at hs
  | some o =>
    rw [hg] at hs
    simp only [Option.getD_some] at hs
    exact h kws (hs ▸ List.mem_of_getElem? hg)

/-! ## Simple sufficient conditions -/

/-- No keyword by which jschon and the specification differ. -/
def PlainKw : Kw → Prop
  | .unevaluatedProperties _ | .unevaluatedItems _ | .unevaluatedItems9 _ => False
  | .dynamicRef _ _ dynamic => dynamic = false
  | .assert (.multipleOf _) => False
  | .items9Array ss => ss ≠ []
  | _ => True

theorem no_watched {R : Rules} {st : Store} {root : SRef}
    (h : ∀ s kws, st.obj s = .obj kws → ∀ kw ∈ kws, ¬ IsUneval kw) {sc : List SRef} :
    ¬ Watched R st root sc := by
  intro hw
  induction hw with
  | here _ ho hk hu => exact h _ _ ho _ hk hu
  | sub _ _ _ _ ih => exact ih

theorem faithful_plain {R : Rules} {env : Env} {st : Store} {root : SRef} {v : Value}
    (h : ∀ s kws, st.obj s = .obj kws → ∀ kw ∈ kws, PlainKw kw) : Faithful R env st root v := by
  have hw : ∀ {sc}, ¬ Watched R st root sc := no_watched (fun s kws ho kw hk hu => by
    have := h s kws ho kw hk
    cases kw <;> first | exact this | exact hu)
  refine ⟨⟨fun _ _ _ _ h _ _ => absurd h hw, fun _ _ _ _ h _ _ => absurd h hw, ?_⟩, ?_, ?_⟩
  · intro s sc kws ss _ ho hk; exact h s kws ho _ hk
  · intro s sc kws t f _ ho hk; exact absurd (h s kws ho _ hk) (by simp [PlainKw])
  · intro s sc kws m n _ ho hk; exact absurd (h s kws ho _ hk) (by simp [PlainKw])

/-- With `unevaluatedProperties` and `unevaluatedItems`, but without `not`. -/
def PositiveKw (st : Store) : Kw → Prop
  | .not_ _ => False
  | .dynamicRef _ _ dynamic => dynamic = false
  | .assert (.multipleOf _) => False
  | .items9 t => st.obj t ≠ .bool true
  | .items9Array ss => ss ≠ []
  | _ => True

theorem faithful_positive {R : Rules} {env : Env} {st : Store} {root : SRef} {v : Value}
    (h : ∀ s kws, st.obj s = .obj kws → ∀ kw ∈ kws, PositiveKw st kw) : Faithful R env st root v := by
  refine ⟨⟨?_, ?_, ?_⟩, ?_, ?_⟩
  · intro s sc kws t _ ho hk; exact absurd (h s kws ho _ hk) id
  · intro s sc kws t _ ho hk; exact h s kws ho _ hk
  · intro s sc kws ss _ ho hk; exact h s kws ho _ hk
  · intro s sc kws t f _ ho hk; exact absurd (h s kws ho _ hk) (by simp [PositiveKw])
  · intro s sc kws m n _ ho hk; exact absurd (h s kws ho _ hk) (by simp [PositiveKw])

theorem listStore_kws {l : List SchemaObj} {P : Kw → Prop}
    (h : ∀ kws, .obj kws ∈ l → ∀ kw ∈ kws, P kw) :
    ∀ s kws, (listStore l).obj s = .obj kws → ∀ kw ∈ kws, P kw := by
  intro s kws hs
  simp only [listStore, List.getD] at hs
  cases hg : l[s]? with
  | none => rw [hg] at hs; simp at hs
  | some o =>
    rw [hg] at hs
    simp only [Option.getD_some] at hs
    exact h kws (hs ▸ List.mem_of_getElem? hg)

/-! ## Stores as written -/

/-- The schema objects as written: keywords of the dialect, each once, in any order. -/
def Written (d : Dialect) (st : Store) : Prop :=
  ∀ s kws, st.obj s = .obj kws → (kws.map Kw.key).Nodup ∧ ∀ kw ∈ kws, kw.Ok d

/-- The value is not an array or object. -/
def Value.scalar : Value → Bool
  | .arr _ | .obj _ => false
  | _ => true

theorem Value.scalar_wf {v : Value} (h : v.scalar = true) : v.WF := by
  cases v with
  | null => exact .null
  | bool b => exact .bool
  | num n => exact .num
  | str s => exact .str
  | arr xs => cases h
  | obj kvs => cases h

/-- A check for `Kw.Ok`. -/
def Kw.okB (d : Dialect) : Kw → Bool
  | .assert (.enum vs) => vs.all Value.scalar
  | .assert (.const v) => v.scalar
  | .assert _ => true
  | .static k _ | .annot k _ _ | .unknown k _ => decide (k ∉ reserved d)
  | .prefixItems _ | .items _ | .unevaluatedItems _ | .dynamicRef _ _ _ => decide (d = .d2020)
  | .items9 _ | .items9Array _ | .additionalItems _ | .unevaluatedItems9 _ | .recursiveRef _ =>
    decide (d = .d2019)
  | .properties ps | .patternProperties ps | .dependentSchemas ps => decide (dkeys ps).Nodup
  | _ => true

theorem Kw.okB_sound {d : Dialect} {kw : Kw} (h : kw.okB d = true) : kw.Ok d := by
  cases kw
  case assert a =>
    cases a
    case enum vs =>
      intro w hw
      exact Value.scalar_wf (List.all_eq_true.1 h w hw)
    case const v => exact Value.scalar_wf h
    all_goals exact trivial
  all_goals first | exact trivial | (simp only [Kw.okB, decide_eq_true_eq] at h; exact h)

/-- A check for `Written`. -/
def writtenB (d : Dialect) (l : List SchemaObj) : Bool :=
  l.all (fun
    | .bool _ => true
    | .obj kws => decide (kws.map Kw.key).Nodup && kws.all (Kw.okB d))

theorem written_of {d : Dialect} {l : List SchemaObj} (h : writtenB d l = true) :
    Written d (listStore l) := by
  intro s kws hs
  simp only [listStore, List.getD] at hs
  cases hg : l[s]? with
  | none => rw [hg] at hs; simp at hs
  | some o =>
    rw [hg] at hs
    simp only [Option.getD_some] at hs
    have := List.all_eq_true.1 h _ (hs ▸ List.mem_of_getElem? hg)
    simp only [Bool.and_eq_true, decide_eq_true_eq] at this
    exact ⟨this.1, fun kw hkw => Kw.okB_sound (List.all_eq_true.1 this.2 kw hkw)⟩

theorem ordered_obj {d : Dialect} {st : Store} (h : Written d st) {s : SRef} {kws : List Kw}
    (hs : st.obj s = .obj kws) : ∃ out, (st.ordered (decide (d = .d2019))).obj s = .obj out ∧ out.Perm kws ∧
      DepsFirst Kw.key (Kw.dependsOn (decide (d = .d2019))) out := by
  obtain ⟨out, ho⟩ := resolveDependencies_isSome Kw.key (Kw.dependsOn (decide (d = .d2019))) kws
    (fun a _ => dependsOn_nodup _ a) ⟨kwRank, fun a _ => kwRank_lt _ a⟩
  obtain ⟨hp, hd⟩ := resolveDependencies_spec _ _ _ _ (h s kws hs).1 ho
  refine ⟨out, ?_, hp, hd⟩
  simp [Store.ordered, hs, ho]

theorem ordered_ok {d : Dialect} {st : Store} (h : Written d st) : StoreOk d (st.ordered (decide (d = .d2019))) := by
  intro s out hs
  cases ho : st.obj s with
  | bool b => simp [Store.ordered, ho] at hs
  | obj kws =>
    obtain ⟨out', h1, h2, h3⟩ := ordered_obj h ho
    rw [h1] at hs; cases hs
    refine ⟨?_, ?_, h3⟩
    · exact (h2.map Kw.key).nodup_iff.2 (h s kws ho).1
    · intro kw hkw; exact (h s kws ho).2 kw (h2.mem_iff.1 hkw)

theorem ordered_bool {d : Dialect} {st : Store} {s : SRef} {b : Bool} :
    (st.ordered (decide (d = .d2019))).obj s = .bool b ↔ st.obj s = .bool b := by
  simp only [Store.ordered]
  cases st.obj s <;> simp

/-- A property of all keywords as written is one of all keywords in order. -/
theorem ordered_kws {d : Dialect} {st : Store} (hw : Written d st) {P : Kw → Prop}
    (h : ∀ s kws, st.obj s = .obj kws → ∀ kw ∈ kws, P kw) :
    ∀ s kws, (st.ordered (decide (d = .d2019))).obj s = .obj kws → ∀ kw ∈ kws, P kw := by
  intro s out ho kw hkw
  cases hk : st.obj s with
  | bool b => rw [ordered_bool.2 hk] at ho; cases ho
  | obj kws =>
    obtain ⟨_, h1, h2, _⟩ := ordered_obj hw hk
    rw [h1] at ho; cases ho
    exact h s kws hk kw (h2.mem_iff.1 hkw)

/-- The keywords of a list of schema objects. -/
def allKws (l : List SchemaObj) : List Kw := l.flatMap (fun | .bool _ => [] | .obj kws => kws)

theorem listStore_all {d : Dialect} {l : List SchemaObj} (hw : Written d (listStore l)) {P : Kw → Prop}
    (h : ∀ kw ∈ allKws l, P kw) :
    ∀ s kws, ((listStore l).ordered (decide (d = .d2019))).obj s = .obj kws → ∀ kw ∈ kws, P kw :=
  ordered_kws hw (listStore_kws (fun _ hk kw hkw => h kw (List.mem_flatMap.2 ⟨_, hk, hkw⟩)))

theorem ordered_same {d : Dialect} {st st' : Store} (h : Written d st) (h' : Written d st')
    (hs : SameStore st st') :
    SameStore (st.ordered (decide (d = .d2019))) (st'.ordered (decide (d = .d2019))) := by
  refine ⟨hs.base, hs.lookup, ?_, ?_⟩
  · intro s b; rw [ordered_bool, ordered_bool]; exact hs.bool s b
  · intro s out out' ho ho' kw hn
    cases hk : st.obj s with
    | bool b => rw [ordered_bool.2 hk] at ho; cases ho
    | obj kws =>
      cases hk' : st'.obj s with
      | bool b => rw [ordered_bool.2 hk'] at ho'; cases ho'
      | obj kws' =>
        obtain ⟨_, h1, h2, _⟩ := ordered_obj h hk
        obtain ⟨_, h1', h2', _⟩ := ordered_obj h' hk'
        rw [h1] at ho; cases ho
        rw [h1'] at ho'; cases ho'
        rw [h2.mem_iff, h2'.mem_iff]
        exact hs.obj s kws kws' hk hk' kw hn

end Jschon
