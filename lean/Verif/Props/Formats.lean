import Verif.Spec.Formats
import Verif.Props.Keywords
import Verif.Props.Pointer

/-!
# Formats: C77
-/

namespace Jschon
open Spec

theorem after_snoc (st : FormatState) (ops : List FormatOp) (op : FormatOp) :
    st.after (ops ++ [op]) = (st.after ops).step op := by
  simp [FormatState.after, List.foldl_append]

theorem list_snoc_cases {α : Type} {pre post ops : List α} {o op : α} (h : ops ++ [op] = pre ++ o :: post) :
    (post = [] ∧ o = op ∧ pre = ops) ∨ ∃ post', post = post' ++ [op] ∧ ops = pre ++ o :: post' := by
  rcases List.eq_nil_or_concat post with rfl | ⟨p, x, rfl⟩
  · left
    have := List.append_inj' h (by simp)
    exact ⟨rfl, (List.cons.inj this.2).1.symm, this.1.symm⟩
  · right
    rw [List.concat_eq_append, ← List.cons_append, ← List.append_assoc] at h
    have := List.append_inj' h (by simp)
    cases this.2
    exact ⟨p, by simp, this.1⟩

theorem snoc_induction {α : Type} {P : List α → Prop} (nil : P []) (snoc : ∀ l a, P l → P (l ++ [a])) (l : List α) :
    P l := by
  have : ∀ m : List α, P m.reverse := by
    intro m
    induction m with
    | nil => exact nil
    | cons a m ih => rw [List.reverse_cons]; exact snoc _ _ ih
  rw [← List.reverse_reverse l]; exact this _

theorem imported_iff (ops : List FormatOp) :
    (FormatState.start.after ops).imported = true ↔ ∃ o ∈ ops, Imports o := by
  refine snoc_induction (P := fun ops => (FormatState.start.after ops).imported = true ↔ ∃ o ∈ ops, Imports o)
    (by simp [FormatState.after, FormatState.start]) (fun ops op ih => ?_) ops
  rw [after_snoc]
  simp only [List.mem_append, List.mem_singleton]
  cases op with
  | register a v =>
    simp only [FormatState.step, FormatState.register]
    rw [ih]
    exact ⟨fun ⟨o, h, i⟩ => ⟨o, .inl h, i⟩, fun ⟨o, h, i⟩ => by
      rcases h with h | rfl
      · exact ⟨o, h, i⟩
      · exact i.elim⟩
  | importFormats =>
    exact ⟨fun _ => ⟨_, .inr rfl, trivial⟩, fun _ => by
      simp only [FormatState.step, FormatState.importFormats]; split <;> simp_all⟩
  | enable c as =>
    exact ⟨fun _ => ⟨_, .inr rfl, trivial⟩, fun _ => by
      simp only [FormatState.step, FormatState.enable, FormatState.importFormats]; split <;> simp_all⟩

theorem import_lookup (ops : List FormatOp) (op : FormatOp) (hi : Imports op) (a : String) :
    (∀ w, Registers ops op a w →
      dlookup a (FormatState.start.after ops).importFormats.validators = some w) ∧
    ((∀ w, ¬ Registers ops op a w) → dlookup a (FormatState.start.after ops).importFormats.validators =
      dlookup a (FormatState.start.after ops).validators) := by
  have key := imported_iff ops
  constructor
  · intro w h
    cases h with
    | own => exact hi.elim
    | predefined _ h =>
      have : (FormatState.start.after ops).imported ≠ true := fun e => by
        obtain ⟨o, ho, hi⟩ := key.1 e; exact h o ho hi
      simp only [FormatState.importFormats, FormatState.register]
      rw [if_neg this, dlookup_dset]; simp
  · intro h
    simp only [FormatState.importFormats, FormatState.register]
    split
    · rfl
    · rename_i hn
      have : a ≠ "json-pointer" := by
        rintro rfl
        exact h _ (.predefined hi (fun o ho hi => hn (key.2 ⟨o, ho, hi⟩)))
      show dlookup a (dset _ _ _) = _
      rw [dlookup_dset]; simp [this]

theorem format_step (ops : List FormatOp) (op : FormatOp) (a : String) :
    (∀ w, Registers ops op a w →
      dlookup a (FormatState.start.after (ops ++ [op])).validators = some w) ∧
    ((∀ w, ¬ Registers ops op a w) → dlookup a (FormatState.start.after (ops ++ [op])).validators =
      dlookup a (FormatState.start.after ops).validators) := by
  rw [after_snoc]
  cases op with
  | register b v =>
    simp only [FormatState.step, FormatState.register, dlookup_dset]
    constructor
    · intro w h
      cases h with
      | own => simp
      | predefined h _ => exact h.elim
    · intro h
      have : a ≠ b := by rintro rfl; exact h v .own
      simp [this]
  | importFormats => exact import_lookup ops .importFormats trivial a
  | enable c as => exact import_lookup ops (.enable c as) trivial a

theorem registers_unique {pre : List FormatOp} {op : FormatOp} {a : String} {v w : Validator}
    (h : Registers pre op a v) (h' : Registers pre op a w) : v = w := by
  cases h with
  | own =>
    cases h' with
    | own => rfl
    | predefined h _ => exact h.elim
  | predefined h _ =>
    cases h' with
    | own => exact h.elim
    | predefined _ _ => rfl

theorem inForce_iff (ops : List FormatOp) (a : String) (v : Validator) :
    dlookup a (FormatState.start.after ops).validators = some v ↔ FormatInForce ops a v := by
  refine snoc_induction (P := fun ops => dlookup a (FormatState.start.after ops).validators = some v ↔
    FormatInForce ops a v) ?_ (fun ops op ih => ?_) ops
  · refine ⟨fun h => by simp [FormatState.after, FormatState.start, dlookup] at h, ?_⟩
    rintro ⟨pre, op, post, e, _⟩
    simp at e
  · obtain ⟨h1, h2⟩ := format_step ops op a
    by_cases hr : ∃ w, Registers ops op a w
    · obtain ⟨w, hw⟩ := hr
      rw [h1 w hw]
      constructor
      · intro e
        cases e
        refine ⟨ops, op, [], rfl, hw, fun pre' op' post' e hl => ?_⟩
        have := congrArg List.length e
        simp at this; omega
      · rintro ⟨pre, o, post, e, hreg, hlast⟩
        rcases list_snoc_cases e with ⟨rfl, rfl, rfl⟩ | ⟨post', rfl, rfl⟩
        · rw [registers_unique hreg hw]
        · exact absurd hw (hlast _ op [] rfl (by simp) w)
    · have hn : ∀ w, ¬ Registers ops op a w := fun w h => hr ⟨w, h⟩
      rw [h2 hn, ih]
      constructor
      · rintro ⟨pre, o, post, rfl, hreg, hlast⟩
        refine ⟨pre, o, post ++ [op], by simp, hreg, fun pre' op' post' e hl w hw => ?_⟩
        rcases list_snoc_cases e with ⟨rfl, rfl, rfl⟩ | ⟨p, rfl, e'⟩
        · exact hn w hw
        · exact hlast pre' op' p e' hl w hw
      · rintro ⟨pre, o, post, e, hreg, hlast⟩
        rcases list_snoc_cases e with ⟨rfl, rfl, rfl⟩ | ⟨post', rfl, rfl⟩
        · exact absurd hreg (hn v)
        · exact ⟨pre, o, post', rfl, hreg, fun pre' op' p e hl => hlast pre' op' (p ++ [op]) (by rw [e]; simp) hl⟩

theorem enabled_iff (ops : List FormatOp) (c : Nat) (a : String) :
    a ∈ (FormatState.start.after ops).enabled c ↔ FormatEnabled ops c a := by
  refine snoc_induction (P := fun ops => a ∈ (FormatState.start.after ops).enabled c ↔ FormatEnabled ops c a)
    (by simp [FormatState.after, FormatState.start, FormatEnabled]) (fun ops op ih => ?_) ops
  have himp : ∀ st : FormatState, st.importFormats.enabled = st.enabled := by
    intro st; simp only [FormatState.importFormats, FormatState.register]; split <;> rfl
  rw [after_snoc]
  have hold : FormatEnabled ops c a → FormatEnabled (ops ++ [op]) c a := fun ⟨as, h, h'⟩ =>
    ⟨as, List.mem_append_left _ h, h'⟩
  have hnew : FormatEnabled (ops ++ [op]) c a → FormatEnabled ops c a ∨ ∃ as, op = .enable c as ∧ a ∈ as := by
    rintro ⟨as, h, h'⟩
    rcases List.mem_append.1 h with h | h
    · exact .inl ⟨as, h, h'⟩
    · exact .inr ⟨as, (List.mem_singleton.1 h).symm, h'⟩
  cases op with
  | register b v =>
    rw [show ((FormatState.start.after ops).step (.register b v)).enabled = (FormatState.start.after ops).enabled from rfl, ih]
    exact ⟨hold, fun h => (hnew h).elim id (fun ⟨_, h, _⟩ => by cases h)⟩
  | importFormats =>
    rw [show (FormatState.start.after ops).step .importFormats = (FormatState.start.after ops).importFormats from rfl,
      himp, ih]
    exact ⟨hold, fun h => (hnew h).elim id (fun ⟨_, h, _⟩ => by cases h)⟩
  | enable d as =>
    simp only [FormatState.step, FormatState.enable, himp]
    by_cases hd : c = d
    · subst hd
      rw [if_pos rfl, List.mem_append, ih]
      constructor
      · rintro (h | h)
        · exact hold h
        · exact ⟨as, by simp, h⟩
      · intro h
        rcases hnew h with h | ⟨_, h, h'⟩
        · exact .inl h
        · cases h; exact .inr h'
    · rw [if_neg hd, ih]
      exact ⟨hold, fun h => (hnew h).elim id (fun ⟨_, h, _⟩ => by cases h; exact absurd rfl hd)⟩

/-! ## C77 -/

/-- C77: a `format` keyword that is constructed after a program's registrations and enablings has a
validator if and only if its catalog has been told to validate the format, and then the one that was
registered last. -/
theorem C77_constructs (ops : List FormatOp) (cat : Nat) (a : String) (kw : FormatKw) :
    newFormatKw (FormatState.start.after ops) cat a = .ok kw ↔
      kw.attr = a ∧ ((FormatEnabled ops cat a ∧ ∃ v, kw.validator = some v ∧ FormatInForce ops a v) ∨
        (¬ FormatEnabled ops cat a ∧ kw.validator = none)) := by
  obtain ⟨b, vd⟩ := kw
  rw [newFormatKw]
  split
  · rename_i h
    rw [enabled_iff] at h
    simp only [h, true_and, not_true_eq_false, false_and, or_false]
    split
    · rename_i v hv
      rw [inForce_iff] at hv
      simp only [Except.ok.injEq, FormatKw.mk.injEq]
      constructor
      · rintro ⟨rfl, rfl⟩; exact ⟨rfl, v, rfl, hv⟩
      · rintro ⟨rfl, w, rfl, hw⟩
        rw [← inForce_iff] at hv hw
        rw [hw] at hv
        exact ⟨rfl, hv.symm⟩
    · rename_i hn
      constructor
      · rintro ⟨⟩
      · rintro ⟨rfl, w, rfl, hw⟩
        rw [← inForce_iff, hn] at hw
        cases hw
  · rename_i h
    rw [enabled_iff] at h
    simp only [h, not_false_eq_true, false_and, true_and, false_or, Except.ok.injEq, FormatKw.mk.injEq, eq_comm]

/-- C77: a format that is enabled without having a validator cannot be used: KeyError. -/
theorem C77_unregistered (ops : List FormatOp) (cat : Nat) (a : String) :
    (¬ ∃ kw, newFormatKw (FormatState.start.after ops) cat a = .ok kw) ↔
      newFormatKw (FormatState.start.after ops) cat a = .error .keyError ∧
        FormatEnabled ops cat a ∧ ∀ v, ¬ FormatInForce ops a v := by
  rw [newFormatKw]
  split
  · rename_i h
    rw [enabled_iff] at h
    split
    · rename_i v hv
      rw [inForce_iff] at hv
      constructor
      · intro hn; exact absurd ⟨_, rfl⟩ hn
      · rintro ⟨h, _⟩; cases h
    · rename_i hn
      refine ⟨fun _ => ⟨rfl, h, fun v hv => ?_⟩, fun _ => by rintro ⟨_, ⟨⟩⟩⟩
      rw [← inForce_iff, hn] at hv; cases hv
  · constructor
    · intro hn; exact absurd ⟨_, rfl⟩ hn
    · rintro ⟨h, _⟩; cases h

/-- C77: the keyword fails if and only if it has a validator, the instance is of one of its types, and the
validator raises ValueError; it asserts nothing if it has none or the instance is of another type. -/
theorem C77_verdict (kw : FormatKw) (v : Value) :
    (kw.evaluate v = .ok .fails ↔
      ∃ f, kw.validator = some f ∧ v.type ∈ f.types ∧ f.run v = .error .valueError) ∧
    (kw.evaluate v = .ok .passes ↔ ∃ f, kw.validator = some f ∧ v.type ∈ f.types ∧ f.run v = .ok ()) ∧
    (kw.evaluate v = .ok .noAssert ↔ ∀ f, kw.validator = some f → v.type ∉ f.types) ∧
    ∀ e, kw.evaluate v = .error e ↔
      e ≠ .valueError ∧ ∃ f, kw.validator = some f ∧ v.type ∈ f.types ∧ f.run v = .error e := by
  obtain ⟨a, fo⟩ := kw
  cases fo with
  | none => simp [FormatKw.evaluate]
  | some f =>
    simp only [FormatKw.evaluate, List.contains_iff_mem, Option.some.injEq, exists_eq_left', forall_eq']
    by_cases h : v.type ∈ f.types
    · simp only [h, if_true, true_and]
      cases hf : f.run v with
      | ok u => simp
      | error x =>
        cases x <;> simp <;> intro e <;> (try constructor) <;> (try rintro rfl) <;> (try rintro ⟨_, rfl⟩) <;>
          simp_all [eq_comm]
    · simp [h]

/-- C77: with the predefined format enabled, and unless the program registers a validator of its own for
it, `format: json-pointer` accepts exactly the strings that are JSON Pointers by RFC 6901, and everything
that is not a string. -/
theorem C77_json_pointer (ops : List FormatOp) (cat : Nat) (he : FormatEnabled ops cat "json-pointer")
    (hown : ∀ v, .register "json-pointer" v ∉ ops) :
    ∃ kw, newFormatKw (FormatState.start.after ops) cat "json-pointer" = .ok kw ∧
      (∀ s, (kw.evaluate (.str s) = .ok .passes ↔ PointerText s.toList) ∧
        (kw.evaluate (.str s) = .ok .fails ↔ ¬ PointerText s.toList)) ∧
      ∀ v, v.type ≠ .string → kw.evaluate v = .ok .noAssert := by
  have hf : FormatInForce ops "json-pointer" jsonPointerValidator := by
    have hk := imported_iff ops
    have : ∃ o ∈ ops, Imports o := by
      obtain ⟨as, h, _⟩ := he; exact ⟨_, h, trivial⟩
    obtain ⟨pre, op, post, rfl, hi, hno⟩ : ∃ pre op post, ops = pre ++ op :: post ∧ Imports op ∧ ∀ o ∈ pre, ¬ Imports o := by
      clear he hown hk
      induction ops with
      | nil => obtain ⟨o, h, _⟩ := this; simp at h
      | cons o ops ih =>
        by_cases ho : Imports o
        · exact ⟨[], o, ops, rfl, ho, by simp⟩
        · obtain ⟨p, h, hp⟩ := this
          rcases List.mem_cons.1 h with rfl | h
          · exact absurd hp ho
          · obtain ⟨pre, op, post, rfl, a, b⟩ := ih ⟨p, h, hp⟩
            refine ⟨o :: pre, op, post, rfl, a, fun q hq => ?_⟩
            rcases List.mem_cons.1 hq with rfl | hq
            · exact ho
            · exact b q hq
    refine ⟨pre, op, post, rfl, .predefined hi hno, fun pre' op' post' e hl w hw => ?_⟩
    cases hw with
    | own => exact hown w (by rw [e]; simp)
    | predefined _ h =>
      refine h op ?_ hi
      have := congrArg (fun l => l[pre.length]?) e
      simp only [List.getElem?_append_right (Nat.le_refl _), Nat.sub_self, List.getElem?_cons_zero,
        List.getElem?_append_left hl] at this
      exact List.mem_of_getElem? this.symm
  refine ⟨⟨"json-pointer", some jsonPointerValidator⟩,
    (C77_constructs ops cat _ _).2 ⟨rfl, .inl ⟨he, _, rfl, hf⟩⟩, fun s => ?_, fun v hv => ?_⟩
  · simp only [FormatKw.evaluate, jsonPointerValidator, validateJsonPointer, Value.type]
    have := re_pointerText s.toList
    by_cases h : PointerText s.toList
    · simp [this.2 h, h]
    · have h' : jsonPointerRe.fullmatch s.toList ≠ true := fun e => h (this.1 e)
      simp [h', h]
  · simp [FormatKw.evaluate, jsonPointerValidator, hv]

/-- C77: what one catalog enables is not enabled in another. -/
theorem C77_catalogs (ops : List FormatOp) (cat : Nat) (a : String) (h : ∀ as, .enable cat as ∉ ops) :
    newFormatKw (FormatState.start.after ops) cat a = .ok ⟨a, none⟩ :=
  (C77_constructs ops cat a _).2 ⟨rfl, .inr ⟨fun ⟨as, h', _⟩ => h as h', rfl⟩⟩

/-- A validator that the program registers for a predefined format before it first enables any format is
overwritten when the predefined formats are imported. -/
theorem C77_overwritten (v : Validator) (cat : Nat) :
    newFormatKw (FormatState.start.after [.register "json-pointer" v, .enable cat ["json-pointer"]]) cat "json-pointer" =
      .ok ⟨"json-pointer", some jsonPointerValidator⟩ := by
  simp [newFormatKw, FormatState.after, FormatState.step, FormatState.enable, FormatState.importFormats,
    FormatState.register, FormatState.start, dset, dlookup]

/-! ## The formats of the evaluation model -/

/-- What construction (`CEnv`) knows of formats is what `newFormatKw` does. -/
structure FormatEnv (st : FormatState) (cat : Nat) (E : CEnv) (env : Env) : Prop where
  enabled : ∀ a, E.fmtEnabled a = true ↔ a ∈ st.enabled cat
  known : ∀ a, E.fmtKnown a = (dlookup a st.validators).isSome
  types : ∀ a f, dlookup a st.validators = some f → env.fmtTypes a = f.types
  ok : ∀ a f v, dlookup a st.validators = some f → (env.fmtOk a v = false ↔ f.run v = .error .valueError)

/-- C77: the keyword construction of the model of schemas succeeds exactly if `FormatKeyword.__init__`
does. -/
theorem C77_construct_model {st : FormatState} {cat : Nat} {E : CEnv} {env : Env} (h : FormatEnv st cat E env)
    (s : Nat) (a : String) (w : World) :
    initKw E s .format (.str a) w = some (w, match newFormatKw st cat a with
      | .ok _ => .ok ()
      | .error e => .error e) := by
  rw [initKw, newFormatKw]
  have h1 := h.enabled a
  have h2 := h.known a
  by_cases he : a ∈ st.enabled cat
  · rw [if_pos he, h1.2 he, h2]
    cases dlookup a st.validators <;> rfl
  · have : E.fmtEnabled a = false := by
      cases e : E.fmtEnabled a with
      | false => rfl
      | true => exact absurd (h1.1 e) he
    rw [if_neg he, this]; rfl

/-- C77: and a schema with this keyword alone rejects an instance exactly if the keyword fails. -/
theorem C77_verdict_model {st : FormatState} {cat : Nat} {E : CEnv} {env : Env} (h : FormatEnv st cat E env)
    {d : Dialect} {S : Store} (hst : Written d S) (hstat : StaticStore S) {n : Nat} {s : SRef} {a : String}
    (hs : S.obj s = .obj [.format a (E.fmtEnabled a)]) {v : Value} (hw : v.WF) {b : Bool}
    (hb : verdictOf d env S n s v = some b) {kw : FormatKw} (hkw : newFormatKw st cat a = .ok kw) :
    b = false ↔ kw.evaluate v = .ok .fails := by
  rw [C37_format hst hstat hs hw hb, (C77_verdict kw v).1, h.enabled]
  rw [newFormatKw] at hkw
  split at hkw
  · rename_i he
    split at hkw
    · rename_i f hf
      cases hkw
      simp only [he, true_and, h.types a f hf, h.ok a f v hf, Option.some.injEq, exists_eq_left']
    · cases hkw
  · rename_i he
    cases hkw
    simp [he]

/-- A program that registers a format, and enables it and the predefined one in one of two catalogs. -/
example :
    let ipv4 : Validator := ⟨fun v => match v with | .str "1.2.3.4" => .ok () | _ => .error .valueError, [.string]⟩
    let ops := [FormatOp.enable 0 ["json-pointer", "ipv4"], .register "ipv4" ipv4]
    FormatEnabled ops 0 "json-pointer" ∧ (∀ v, FormatOp.register "json-pointer" v ∉ ops) ∧
    FormatInForce ops "ipv4" ipv4 ∧ (∀ as, FormatOp.enable 1 as ∉ ops) := by
  refine ⟨⟨_, .head _, by simp⟩, by simp, ?_, by simp⟩
  rw [← inForce_iff]
  simp [FormatState.after, FormatState.step, FormatState.enable, FormatState.importFormats,
    FormatState.register, FormatState.start, dset, dlookup]

end Jschon
