import Verif.Proof.EvalTree
import Verif.Proof.EvalStep

/-!
# Where the results of a tree are in the schemas

Every result of a tree is about a keyword of a schema object, or about a subschema that such a keyword
has under a key, or is the root.
-/

namespace Jschon

/-- The subschema that a keyword evaluates with its own result. -/
def Kw.direct : Kw → Option SRef
  | .not_ t | .if_ t | .then_ t | .else_ t | .items t | .unevaluatedItems t | .contains t
  | .additionalProperties t | .unevaluatedProperties t | .propertyNames t | .items9 t
  | .additionalItems t | .unevaluatedItems9 t => some t
  | _ => none

/-- The subschemas that a keyword evaluates with results of their own, and their keys. -/
def Kw.indexed : Kw → String → SRef → Prop
  | .allOf ss, k, t | .anyOf ss, k, t | .oneOf ss, k, t | .prefixItems ss, k, t
  | .items9Array ss, k, t => ∃ n, k = natStr n ∧ ss[n]? = some t
  | .dependentSchemas ps, k, t | .properties ps, k, t | .patternProperties ps, k, t => (k, t) ∈ ps
  | _, _, _ => False

/-- The schema that a reference keyword evaluates, given the chain of schemas. -/
def refTarget (st : Store) (sc : List SRef) : Kw → Option SRef
  | .ref t => some t
  | .recursiveRef t => some (if isRecursiveAnchor st t then recLoop st sc t else t)
  | .dynamicRef t frag dynamic => some (if dynamic then dynLoop st frag sc [] t else t)
  | _ => none

/-- The schema that a result leads to: the keywords evaluated with it are keywords of that schema. -/
inductive Leads (st : Store) (info : RInfo) : SRef → Prop
  | root : info.relpath = [] → info.refschema = none → Leads st info info.schema
  | direct {kw t} : kw ∈ st.keywords info.schema → info.relpath = [kw.key] → info.refschema = none →
      kw.direct = some t → Leads st info t
  | indexed {kw k t} : kw ∈ st.keywords info.schema → info.relpath = [kw.key, k] →
      info.refschema = none → kw.indexed k t → Leads st info t
  | ref {t} : info.refschema = some t → Leads st info t

/-- Where a result is in its schema. -/
inductive NodeAt (st : Store) (info : RInfo) : Prop
  | root : info.relpath = [] → info.refschema = none → info.key = none → NodeAt st info
  | kw {kw} : kw ∈ st.keywords info.schema → info.relpath = [kw.key] → info.key = some kw.key →
      (∀ t, info.refschema = some t → ∃ sc, refTarget st sc kw = some t) →
      ((∀ sc, refTarget st sc kw = none) ∨ ∃ t, info.refschema = some t) → NodeAt st info
  | sub {kw k t} : kw ∈ st.keywords info.schema → info.relpath = [kw.key, k] → info.key = some k →
      info.refschema = none → kw.indexed k t → NodeAt st info

/-- A result about a keyword of `t`. -/
def KwOf (st : Store) (t : SRef) (info : RInfo) : Prop :=
  info.schema = t ∧ ∃ kw ∈ st.keywords t, info.relpath = [kw.key] ∧ info.key = some kw.key

/-- How a result relates to its parent. -/
inductive EdgeAt (st : Store) (info child : RInfo) : Prop
  | index {k} : child.schema = info.schema → child.relpath = info.relpath ++ [k] → child.key = some k →
      info.refschema = none → EdgeAt st info child
  | kw {t} : Leads st info t → KwOf st t child → EdgeAt st info child

inductive Placed (st : Store) : RNode → Prop
  | mk {info cs} : NodeAt st info → (∀ e ∈ cs, EdgeAt st info e.2.info) → (∀ e ∈ cs, Placed st e.2) →
      Placed st (.mk info cs)

theorem Placed.node {st : Store} {r : RNode} (h : Placed st r) : NodeAt st r.info := by
  cases h; assumption
theorem Placed.edges {st : Store} {r : RNode} (h : Placed st r) :
    ∀ e ∈ r.children, EdgeAt st r.info e.2.info := by cases h; assumption
theorem Placed.sub {st : Store} {r : RNode} (h : Placed st r) : ∀ e ∈ r.children, Placed st e.2 := by
  cases h; assumption
theorem Placed.intro {st : Store} {r : RNode} (h1 : NodeAt st r.info)
    (h2 : ∀ e ∈ r.children, EdgeAt st r.info e.2.info) (h3 : ∀ e ∈ r.children, Placed st e.2) :
    Placed st r := by cases r; exact .mk h1 h2 h3

/-- The attributes fixed at creation, and the reference. -/
structure KeepR (r r' : RNode) : Prop where
  imm : Imm r r'
  ref : r'.info.refschema = r.info.refschema

theorem KeepR.refl (r : RNode) : KeepR r r := ⟨Imm.refl r, rfl⟩
theorem KeepR.trans {a b c : RNode} (h : KeepR a b) (h' : KeepR b c) : KeepR a c :=
  ⟨h.imm.trans h'.imm, h'.ref.trans h.ref⟩
theorem KeepR.of_info {r r' : RNode} (h : r'.info = r.info) : KeepR r r' := ⟨Imm.of_info h, by rw [h]⟩

/-- Same node up to the attributes that are set by methods other than `refschema`. -/
structure CalmR (r r' : RNode) : Prop where
  keep : KeepR r r'
  children : r'.children = r.children

theorem CalmR.refl (r : RNode) : CalmR r r := ⟨KeepR.refl r, rfl⟩
theorem CalmR.trans {a b c : RNode} (h : CalmR a b) (h' : CalmR b c) : CalmR a c :=
  ⟨h.keep.trans h'.keep, h'.children.trans h.children⟩
theorem CalmR.annotate (r : RNode) (v) : CalmR r (r.annotate v) := ⟨⟨(Upd.annotate r v).imm, rfl⟩, rfl⟩
theorem CalmR.fail (r : RNode) (v) : CalmR r (r.fail v) := ⟨⟨(Upd.fail r v).imm, rfl⟩, rfl⟩
theorem CalmR.pass_ (r : RNode) : CalmR r r.pass_ := ⟨⟨(Upd.pass_ r).imm, rfl⟩, rfl⟩
theorem CalmR.noassert (r : RNode) : CalmR r r.noassert := ⟨⟨(Upd.noassert r).imm, rfl⟩, rfl⟩
theorem CalmR.setDiscard (r : RNode) : CalmR r r.setDiscard := ⟨⟨(Upd.setDiscard r).imm, rfl⟩, rfl⟩
theorem CalmR.ite {r a b : RNode} {p : Prop} [Decidable p] (ha : CalmR r a) (hb : CalmR r b) :
    CalmR r (if p then a else b) := by split <;> assumption
theorem calmR_finishItems (c : RNode) (t f) : CalmR c (finishItems c t f) :=
  CalmR.ite (CalmR.annotate _ _) (CalmR.fail _ _)
theorem calmR_finishProps (c : RNode) (t f) : CalmR c (finishProps c t f) :=
  CalmR.ite (CalmR.annotate _ _) (CalmR.fail _ _)

/-- All children are about keywords of `t`, and placed. -/
def Under (st : Store) (t : SRef) (r : RNode) : Prop :=
  ∀ e ∈ r.children, KwOf st t e.2.info ∧ Placed st e.2

/-- `t` may be evaluated with `r`: the results created are about keywords of `t`. -/
def Entered (t : SRef) (r : RNode) : Prop := t = r.info.schema → r.info.relpath = []

def RecPlaced (st : Store) (rec : Rec) : Prop :=
  ∀ sc t i r r', Entered t r → Under st t r → rec sc t i r = some r' → Under st t r' ∧ KeepR r r'

theorem Under.calm {st : Store} {t : SRef} {r r' : RNode} (h : Under st t r) (hu : CalmR r r') :
    Under st t r' := by
  intro e he; rw [hu.children] at he; exact h e he

theorem Under.nil {st : Store} {t : SRef} {r : RNode} (h : r.children = []) : Under st t r := by
  intro e he; rw [h] at he; cases he

theorem Under.set {st : Store} {t : SRef} {r c : RNode} {k} (h : Under st t r)
    (hc : KwOf st t c.info ∧ Placed st c) : Under st t (r.setChild k c) := by
  intro e he
  rcases mem_cset he with rfl | he
  · exact hc
  · exact h e he

theorem Under.del {st : Store} {t : SRef} {r : RNode} {k} (h : Under st t r) :
    Under st t (r.delChild k) := fun e he => h e (mem_cerase he)

theorem Entered.keep {t : SRef} {r r' : RNode} (h : Entered t r) (hu : KeepR r r') : Entered t r' := by
  unfold Entered; rw [hu.imm.schema, hu.imm.relpath]; exact h

theorem KwOf.keep {st : Store} {t : SRef} {r r' : RNode} (h : KwOf st t r.info) (hu : Imm r r') :
    KwOf st t r'.info := by
  unfold KwOf; rw [hu.schema, hu.relpath, hu.key]; exact h

/-- No schema object is evaluated by its own keywords. -/
def NoLoop (st : Store) : Prop := ∀ s, ∀ kw ∈ st.keywords s,
  (∀ t, kw.direct = some t → t ≠ s) ∧ ∀ k t, kw.indexed k t → t ≠ s

/-- `c` is the result created for the keyword `kw` of `s`. -/
structure NewKw (st : Store) (s : SRef) (kw : Kw) (c : RNode) : Prop where
  loop : NoLoop st
  mem : kw ∈ st.keywords s
  children : c.children = []
  schema : c.info.schema = s
  relpath : c.info.relpath = [kw.key]
  key : c.info.key = some kw.key
  ref : c.info.refschema = none

section
variable {rec : Rec} {st : Store} {env : Env} {sc : List SRef} {i : Inst} {s : SRef} {kw : Kw}
  {c c1 c' : RNode} {t : SRef}

theorem NewKw.mem' (F : NewKw st s kw c) (hu : KeepR c c') : kw ∈ st.keywords c'.info.schema := by
  rw [hu.imm.schema, F.schema]; exact F.mem

theorem NewKw.node (F : NewKw st s kw c) (hn : ∀ sc, refTarget st sc kw = none) (hu : KeepR c c') :
    NodeAt st c'.info :=
  .kw (F.mem' hu) (by rw [hu.imm.relpath, F.relpath]) (by rw [hu.imm.key, F.key])
    (fun t ht => by rw [hu.ref, F.ref] at ht; cases ht) (.inl hn)

theorem Kw.direct_noref (h : kw.direct = some t) (sc) : refTarget st sc kw = none := by
  cases kw <;> first | rfl | cases h

theorem Kw.indexed_noref {k} (h : kw.indexed k t) (sc) : refTarget st sc kw = none := by
  cases kw <;> first | rfl | exact h.elim

theorem NewKw.leaf (F : NewKw st s kw c) (hn : ∀ sc, refTarget st sc kw = none) (hu : CalmR c c') :
    Placed st c' ∧ Imm c c' := by
  refine ⟨.intro (F.node hn hu.keep) ?_ ?_, hu.keep.imm⟩ <;>
    (intro e he; rw [hu.children, F.children] at he; cases he)

theorem NewKw.under (F : NewKw st s kw c) (hd : kw.direct = some t) (h : Under st t c1)
    (hk : KeepR c c1) (hu : CalmR c1 c') : Placed st c' ∧ Imm c c' := by
  have hk' := hk.trans hu.keep
  have h' := h.calm hu
  refine ⟨.intro (F.node (Kw.direct_noref hd) hk') ?_ (fun e he => (h' e he).2), hk'.imm⟩
  intro e he
  exact .kw (.direct (F.mem' hk') (by rw [hk'.imm.relpath, F.relpath]) (by rw [hk'.ref, F.ref]) hd)
    (h' e he).1

theorem NewKw.entered (F : NewKw st s kw c) (h : t ≠ s) : Entered t c :=
  fun he => absurd (he.trans F.schema) h

theorem NewKw.one (F : NewKw st s kw c) (hrec : RecPlaced st rec) (hd : kw.direct = some t)
    (h : rec sc t i c = some c1) (hu : CalmR c1 c') : Placed st c' ∧ Imm c c' := by
  obtain ⟨h1, h2⟩ := hrec _ _ _ _ _ (F.entered ((F.loop _ _ F.mem).1 _ hd)) (.nil F.children) h
  exact F.under hd h1 h2 hu

theorem sharedLoop_under (hrec : RecPlaced st rec) : ∀ {is : List Inst} {c c' : RNode} {flags},
    Entered t c → Under st t c → sharedLoop rec sc t is c = some (c', flags) →
      Under st t c' ∧ KeepR c c'
  | [], c, c', flags, _, hc, h => by
    simp only [sharedLoop, Option.some.injEq, Prod.mk.injEq] at h
    rw [← h.1]; exact ⟨hc, .refl _⟩
  | i :: is, c, c', flags, he, hc, h => by
    simp only [sharedLoop] at h
    cases hr : rec sc t i c with
    | none => simp [hr] at h
    | some c1 =>
      simp only [hr] at h
      obtain ⟨hg, him⟩ := hrec _ _ _ _ _ he hc hr
      have hu : CalmR c1 (if c1.passed then c1 else c1.pass_) := CalmR.ite (CalmR.refl _) (CalmR.pass_ _)
      cases hs : sharedLoop rec sc t is (if c1.passed then c1 else c1.pass_) with
      | none => simp [hs] at h
      | some p =>
        obtain ⟨c3, fl⟩ := p
        simp only [hs, Option.some.injEq, Prod.mk.injEq] at h
        obtain ⟨h3, h4⟩ := sharedLoop_under hrec (he.keep (him.trans hu.keep)) (hg.calm hu) hs
        rw [← h.1]; exact ⟨h3, (him.trans hu.keep).trans h4⟩

theorem plainLoop_under (hrec : RecPlaced st rec) : ∀ {is : List Inst} {c c' : RNode},
    Entered t c → Under st t c → plainLoop rec sc t is c = some c' → Under st t c' ∧ KeepR c c'
  | [], c, c', _, hc, h => by
    simp only [plainLoop, Option.some.injEq] at h
    rw [← h]; exact ⟨hc, .refl _⟩
  | i :: is, c, c', he, hc, h => by
    simp only [plainLoop] at h
    cases hr : rec sc t i c with
    | none => simp [hr] at h
    | some c1 =>
      simp only [hr] at h
      obtain ⟨hg, him⟩ := hrec _ _ _ _ _ he hc hr
      obtain ⟨h3, h4⟩ := plainLoop_under hrec (he.keep him) hg h
      exact ⟨h3, him.trans h4⟩

theorem NewKw.shared (F : NewKw st s kw c) (hrec : RecPlaced st rec) (hd : kw.direct = some t)
    {is : List Inst} {flags} (h : sharedLoop rec sc t is c = some (c1, flags)) (hu : CalmR c1 c') :
    Placed st c' ∧ Imm c c' := by
  obtain ⟨h1, h2⟩ := sharedLoop_under hrec (F.entered ((F.loop _ _ F.mem).1 _ hd)) (.nil F.children) h
  exact F.under hd h1 h2 hu

theorem NewKw.plain (F : NewKw st s kw c) (hrec : RecPlaced st rec) (hd : kw.direct = some t)
    {is : List Inst} (h : plainLoop rec sc t is c = some c1) (hu : CalmR c1 c') :
    Placed st c' ∧ Imm c c' := by
  obtain ⟨h1, h2⟩ := plainLoop_under hrec (F.entered ((F.loop _ _ F.mem).1 _ hd)) (.nil F.children) h
  exact F.under hd h1 h2 hu

theorem NewKw.refs (F : NewKw st s kw c) (hrec : RecPlaced st rec) (hd : refTarget st sc kw = some t)
    (hts : t ≠ s) (h : rec sc t i c = some c1) : Placed st (c1.setRef t) ∧ Imm c (c1.setRef t) := by
  obtain ⟨h1, h2⟩ := hrec _ _ _ _ _ (F.entered hts) (.nil F.children) h
  have hi : Imm c (c1.setRef t) := h2.imm.trans (Upd.setRef _ _).imm
  refine ⟨.intro (.kw (kw := kw) ?_ (by rw [hi.relpath, F.relpath]) (by rw [hi.key, F.key]) ?_
    (.inr ⟨t, rfl⟩)) ?_ (fun e he => (h1 e he).2), hi⟩
  · rw [hi.schema, F.schema]; exact F.mem
  · intro t' ht'
    cases ht'
    exact ⟨sc, hd⟩
  · intro e he
    exact .kw (.ref rfl) (h1 e he).1

/-- A keyword of `s` whose children so far are about its subschemas. -/
structure Indexing (st : Store) (s : SRef) (kw : Kw) (c : RNode) : Prop where
  loop : NoLoop st
  mem : kw ∈ st.keywords s
  schema : c.info.schema = s
  relpath : c.info.relpath = [kw.key]
  key : c.info.key = some kw.key
  ref : c.info.refschema = none
  noref : ∀ sc, refTarget st sc kw = none
  sub : ∀ e ∈ c.children, e.2.info.schema = s ∧
    (∃ k, e.2.info.relpath = [kw.key, k] ∧ e.2.info.key = some k) ∧ Placed st e.2

theorem Indexing.placed (F : Indexing st s kw c) : Placed st c := by
  refine .intro (.kw (by rw [F.schema]; exact F.mem) F.relpath F.key
    (fun t ht => by rw [F.ref] at ht; cases ht) (.inl F.noref)) ?_ (fun e he => (F.sub e he).2.2)
  intro e he
  obtain ⟨h1, ⟨k, h2, h3⟩, _⟩ := F.sub e he
  exact .index (h1.trans F.schema.symm) (by rw [h2, F.relpath]; rfl) h3 F.ref

theorem Indexing.calm (F : Indexing st s kw c) (hu : CalmR c c') : Indexing st s kw c' where
  loop := F.loop
  mem := F.mem
  schema := by rw [hu.keep.imm.schema, F.schema]
  relpath := by rw [hu.keep.imm.relpath, F.relpath]
  key := by rw [hu.keep.imm.key, F.key]
  ref := by rw [hu.keep.ref, F.ref]
  noref := F.noref
  sub := by rw [hu.children]; exact F.sub

theorem Indexing.set (F : Indexing st s kw c) {k : String × List String} {d : RNode}
    (h1 : d.info.schema = s) (h2 : d.info.relpath = [kw.key, k.1]) (h3 : d.info.key = some k.1)
    (h4 : Placed st d) : Indexing st s kw (c.setChild k d) where
  loop := F.loop
  mem := F.mem
  schema := F.schema
  relpath := F.relpath
  key := F.key
  ref := F.ref
  noref := F.noref
  sub := by
    intro e he
    rcases mem_cset he with rfl | he
    · exact ⟨h1, ⟨_, h2, h3⟩, h4⟩
    · exact F.sub e he

theorem Indexing.del (F : Indexing st s kw c) {k : String × List String} :
    Indexing st s kw (c.delChild k) where
  loop := F.loop
  mem := F.mem
  schema := F.schema
  relpath := F.relpath
  key := F.key
  ref := F.ref
  noref := F.noref
  sub := fun e he => F.sub e (mem_cerase he)

theorem fresh_indexed (F : Indexing st s kw c) {k : String} (hi : kw.indexed k t) :
    Placed st (c.fresh i k c.schema) := by
  refine .intro (.sub (kw := kw) (k := k) (t := t) ?_ ?_ rfl rfl hi) ?_ ?_
  · show kw ∈ st.keywords c.info.schema
    rw [F.schema]; exact F.mem
  · show (if c.info.schema = c.info.schema then c.info.relpath ++ [k] else [k]) = _
    rw [if_pos rfl, F.relpath]; rfl
  · intro e he; cases he
  · intro e he; cases he

theorem subLoop_placed (hrec : RecPlaced st rec) :
    ∀ {jobs : List (String × SRef × Inst)} {c c' : RNode} {flags}, Indexing st s kw c →
      (∀ j ∈ jobs, kw.indexed j.1 j.2.1) →
      subLoop rec sc jobs c = some (c', flags) → Indexing st s kw c' ∧ c'.info = c.info
  | [], c, c', flags, hc, _, h => by
    simp only [subLoop, Option.some.injEq, Prod.mk.injEq] at h
    rw [← h.1]; exact ⟨hc, rfl⟩
  | (key, t, i) :: jobs, c, c', flags, hc, hj, h => by
    simp only [subLoop] at h
    have hi : kw.indexed key t := hj _ List.mem_cons_self
    cases hr : rec (c.schema :: sc) t i (c.fresh i key c.schema) with
    | none => simp [hr] at h
    | some sub =>
      simp only [hr] at h
      have hf := fresh_indexed (i := i) hc hi
      have hs0 : (c.fresh i key c.schema).info.schema = s := hc.schema
      have hr0 : (c.fresh i key c.schema).info.relpath = [kw.key, key] := by
        show (if c.info.schema = c.info.schema then c.info.relpath ++ [key] else [key]) = _
        rw [if_pos rfl, hc.relpath]; rfl
      obtain ⟨hg, hk⟩ := hrec _ _ _ _ _
        (fun he => absurd (he.trans hs0) ((hc.loop _ _ hc.mem).2 _ _ hi)) (.nil rfl) hr
      have h0 : Indexing st s kw (c.setChild (key, i.path) (c.fresh i key c.schema)) :=
        hc.set hs0 hr0 rfl hf
      have hsub : Placed st sub := by
        refine .intro (.sub (kw := kw) (k := key) (t := t) ?_ (by rw [hk.imm.relpath, hr0])
          (by rw [hk.imm.key]; rfl) (by rw [hk.ref]; rfl) hi) ?_ (fun e he => (hg e he).2)
        · rw [hk.imm.schema, hs0]; exact hc.mem
        · intro e he
          exact .kw (.indexed (kw := kw) (k := key) (by rw [hk.imm.schema, hs0]; exact hc.mem)
            (by rw [hk.imm.relpath, hr0]) (by rw [hk.ref]; rfl) hi) (hg e he).1
      have h1 : Indexing st s kw
          ((c.setChild (key, i.path) (c.fresh i key c.schema)).setChild (key, i.path) sub) :=
        h0.set (by rw [hk.imm.schema, hs0]) (by rw [hk.imm.relpath, hr0]) (by rw [hk.imm.key]; rfl) hsub
      generalize hd : (if sub.info.discard then
          ((c.setChild (key, i.path) (c.fresh i key c.schema)).setChild (key, i.path) sub).delChild
            (key, i.path)
        else (c.setChild (key, i.path) (c.fresh i key c.schema)).setChild (key, i.path) sub) = c2 at h
      have h2 : Indexing st s kw c2 ∧ c2.info = c.info := by
        rw [← hd]; split
        · exact ⟨h1.del, rfl⟩
        · exact ⟨h1, rfl⟩
      cases hs : subLoop rec sc jobs c2 with
      | none => simp [hs] at h
      | some p =>
        obtain ⟨c3, fl⟩ := p
        simp only [hs, Option.some.injEq, Prod.mk.injEq] at h
        obtain ⟨h3, h4⟩ := subLoop_placed hrec h2.1 (fun j hj' => hj j (List.mem_cons_of_mem _ hj')) hs
        rw [← h.1]; exact ⟨h3, h4.trans h2.2⟩

theorem NewKw.sub (F : NewKw st s kw c) (hn : ∀ sc, refTarget st sc kw = none)
    (hrec : RecPlaced st rec) {jobs : List (String × SRef × Inst)} {flags}
    (hj : ∀ j ∈ jobs, kw.indexed j.1 j.2.1) (h : subLoop rec sc jobs c = some (c1, flags))
    (hu : CalmR c1 c') : Placed st c' ∧ Imm c c' := by
  obtain ⟨h1, h2⟩ := subLoop_placed hrec
    ⟨F.loop, F.mem, F.schema, F.relpath, F.key, F.ref, hn, by
      intro e he; rw [F.children] at he; cases he⟩ hj h
  exact ⟨(h1.calm hu).placed, (Imm.of_info h2).trans hu.keep.imm⟩

theorem indexJobs_at {i : Inst} : ∀ {ss : List SRef} {n j}, j ∈ indexJobs i n ss →
    ∃ m, j.1 = natStr (n + m) ∧ ss[m]? = some j.2.1
  | [], _, _, h => by simp [indexJobs] at h
  | t :: ts, n, j, h => by
    simp only [indexJobs] at h
    rcases List.mem_cons.1 h with rfl | h
    · exact ⟨0, rfl, rfl⟩
    · obtain ⟨m, h1, h2⟩ := indexJobs_at h
      exact ⟨m + 1, by rw [h1, Nat.add_assoc, Nat.add_comm 1 m], h2⟩

theorem itemJobs_at {p : List String} : ∀ {ss : List SRef} {xs : List Value} {n j},
    j ∈ itemJobs ss (Inst.itemsFrom p n xs) → ∃ m, j.1 = natStr (n + m) ∧ ss[m]? = some j.2.1
  | [], _, _, _, h => by simp [itemJobs] at h
  | _ :: _, [], _, _, h => by simp [itemJobs, Inst.itemsFrom] at h
  | t :: ts, x :: xs, n, j, h => by
    simp only [itemJobs, Inst.itemsFrom] at h
    rcases List.mem_cons.1 h with rfl | h
    · exact ⟨0, rfl, rfl⟩
    · obtain ⟨m, h1, h2⟩ := itemJobs_at h
      exact ⟨m + 1, by rw [h1, Nat.add_assoc, Nat.add_comm 1 m], h2⟩

theorem indexJobs_zero {i : Inst} {ss : List SRef} {j} (h : j ∈ indexJobs i 0 ss) :
    ∃ m, j.1 = natStr m ∧ ss[m]? = some j.2.1 := by
  obtain ⟨m, h1, h2⟩ := indexJobs_at h
  exact ⟨m, by rw [h1, Nat.zero_add], h2⟩

theorem itemJobs_zero {i : Inst} {ss : List SRef} {j} (h : j ∈ itemJobs ss i.items) :
    ∃ m, j.1 = natStr m ∧ ss[m]? = some j.2.1 := by
  unfold Inst.items at h
  split at h
  · obtain ⟨m, h1, h2⟩ := itemJobs_at h
    exact ⟨m, by rw [h1, Nat.zero_add], h2⟩
  · cases ss <;> simp [itemJobs] at h

theorem mem_of_dlookup_pair {α : Type} {k : String} {t : α} : ∀ {ps : List (String × α)},
    dlookup k ps = some t → (k, t) ∈ ps
  | [], h => by simp [dlookup] at h
  | (k', t') :: r, h => by
    simp only [dlookup] at h
    split at h
    · rename_i hk
      simp only [Option.some.injEq] at h
      rw [hk, h]; exact List.mem_cons_self
    · exact List.mem_cons_of_mem _ (mem_of_dlookup_pair h)

theorem propJobs_at {ps : List (String × SRef)} {ms : List (String × Inst)} {j}
    (h : j ∈ propJobs ps ms) : (j.1, j.2.1) ∈ ps := by
  simp only [propJobs, List.mem_filterMap, Option.map_eq_some_iff] at h
  obtain ⟨m, _, t, ht, rfl⟩ := h
  exact mem_of_dlookup_pair ht

theorem patternJobs_at {ps : List (String × SRef)} {ms : List (String × Inst)} {j}
    (h : j ∈ patternJobs env ps ms) : (j.2.1, j.2.2.1) ∈ ps := by
  simp only [patternJobs, List.mem_flatMap, List.mem_map] at h
  obtain ⟨m, _, p, hp, rfl⟩ := h
  exact (List.mem_filter.1 hp).1

theorem evalKw_placed {parent parent' : RNode} (F : NewKw st s kw c)
    (hrec : RecPlaced st rec) (hself : ∀ t, refTarget st sc kw = some t → t ≠ s)
    (h : evalKw st env rec sc kw i parent c = some (parent', c')) : Placed st c' ∧ Imm c c' := by
  cases kw
  case assert a =>
    simp only [evalKw, Option.some.injEq, Prod.mk.injEq] at h
    rw [← h.2]; exact F.leaf (fun _ => rfl) (CalmR.ite (CalmR.refl _) (CalmR.fail _ _))
  case maxContains m =>
    simp only [evalKw, Option.some.injEq, Prod.mk.injEq] at h
    rw [← h.2]
    split
    · exact F.leaf (fun _ => rfl) (CalmR.refl _)
    · exact F.leaf (fun _ => rfl) (CalmR.ite (CalmR.fail _ _) (CalmR.refl _))
  case minContains m =>
    simp only [evalKw, evalMinContains, Option.some.injEq] at h
    split at h
    · simp only [Prod.mk.injEq] at h; rw [← h.2]; exact F.leaf (fun _ => rfl) (CalmR.refl _)
    · simp only [Prod.mk.injEq] at h; rw [← h.2]; exact F.leaf (fun _ => rfl) (CalmR.ite (CalmR.refl _) (CalmR.fail _ _))
  case allOf ss =>
    simp only [evalKw] at h
    split at h
    · contradiction
    · rename_i hs
      simp only [Option.some.injEq, Prod.mk.injEq] at h
      rw [← h.2]
      exact F.sub (fun _ => rfl) hrec (fun j hj => indexJobs_zero hj) hs
        (CalmR.ite (CalmR.refl _) (CalmR.fail _ _))
  case anyOf ss =>
    simp only [evalKw] at h
    split at h
    · contradiction
    · rename_i hs
      simp only [Option.some.injEq, Prod.mk.injEq] at h
      rw [← h.2]
      exact F.sub (fun _ => rfl) hrec (fun j hj => indexJobs_zero hj) hs
        (CalmR.ite (CalmR.refl _) (CalmR.fail _ _))
  case oneOf ss =>
    simp only [evalKw] at h
    split at h
    · contradiction
    · rename_i hs
      simp only [Option.some.injEq, Prod.mk.injEq] at h
      rw [← h.2]
      exact F.sub (fun _ => rfl) hrec (fun j hj => indexJobs_zero hj) hs
        (CalmR.ite (CalmR.refl _) (CalmR.fail _ _))
  case not_ t =>
    simp only [evalKw] at h
    split at h
    · contradiction
    · rename_i hs
      simp only [Option.some.injEq, Prod.mk.injEq] at h
      rw [← h.2]
      exact F.one hrec rfl hs (CalmR.ite (CalmR.fail _ _) (CalmR.pass_ _))
  case if_ t =>
    simp only [evalKw] at h
    split at h
    · contradiction
    · rename_i hs
      simp only [Option.some.injEq, Prod.mk.injEq] at h
      rw [← h.2]
      exact F.one hrec rfl hs (CalmR.noassert _)
  case then_ t =>
    simp only [evalKw] at h
    have hdisc : some (parent, c.setDiscard) = some (parent', c') → Placed st c' ∧ Imm c c' := by
      intro h
      simp only [Option.some.injEq, Prod.mk.injEq] at h
      rw [← h.2]; exact F.leaf (fun _ => rfl) (CalmR.setDiscard _)
    split at h
    · split at h
      · split at h
        · contradiction
        · rename_i hs
          simp only [Option.some.injEq, Prod.mk.injEq] at h
          rw [← h.2]
          exact F.one hrec rfl hs (CalmR.refl _)
      · exact hdisc h
    · exact hdisc h
  case else_ t =>
    simp only [evalKw] at h
    have hdisc : some (parent, c.setDiscard) = some (parent', c') → Placed st c' ∧ Imm c c' := by
      intro h
      simp only [Option.some.injEq, Prod.mk.injEq] at h
      rw [← h.2]; exact F.leaf (fun _ => rfl) (CalmR.setDiscard _)
    split at h
    · split at h
      · split at h
        · contradiction
        · rename_i hs
          simp only [Option.some.injEq, Prod.mk.injEq] at h
          rw [← h.2]
          exact F.one hrec rfl hs (CalmR.refl _)
      · exact hdisc h
    · exact hdisc h
  case dependentSchemas ps =>
    simp only [evalKw] at h
    split at h
    · contradiction
    · rename_i hs
      simp only [Option.some.injEq, Prod.mk.injEq] at h
      rw [← h.2]
      refine F.sub (fun _ => rfl) hrec (fun j hj => ?_) hs (CalmR.ite (CalmR.annotate _ _) (CalmR.fail _ _))
      obtain ⟨p, hp, rfl⟩ := List.mem_map.1 hj
      exact (List.mem_filter.1 hp).1
  case prefixItems ss =>
    simp only [evalKw] at h
    split at h
    · contradiction
    · rename_i hs
      simp only [Option.some.injEq, Prod.mk.injEq] at h
      rw [← h.2]
      exact F.sub (fun _ => rfl) hrec (fun j hj => itemJobs_zero hj) hs
        (CalmR.ite (CalmR.ite (CalmR.refl _) (CalmR.annotate _ _)) (CalmR.fail _ _))
  case items t =>
    simp only [evalKw] at h
    split at h
    · contradiction
    · rename_i hs
      simp only [Option.some.injEq, Prod.mk.injEq] at h
      rw [← h.2]
      exact F.shared hrec rfl hs
        (calmR_finishItems _ _ _)
  case unevaluatedItems t =>
    simp only [evalKw, Option.map_eq_some_iff, Prod.mk.injEq] at h
    obtain ⟨_, h, _, rfl⟩ := h
    simp only [evalUnevaluatedItems] at h
    split at h
    · rw [← Option.some.inj h]; exact F.leaf (fun _ => rfl) (CalmR.setDiscard _)
    split at h
    · rw [← Option.some.inj h]; exact F.leaf (fun _ => rfl) (CalmR.setDiscard _)
    split at h
    · rw [← Option.some.inj h]; exact F.leaf (fun _ => rfl) (CalmR.setDiscard _)
    split at h
    · contradiction
    · rename_i hs
      rw [← Option.some.inj h]
      exact F.shared hrec rfl hs
        (calmR_finishItems _ _ _)
  case contains t =>
    simp only [evalKw] at h
    split at h
    · contradiction
    · rename_i hs
      simp only [Option.some.injEq, Prod.mk.injEq] at h
      rw [← h.2]
      exact F.shared hrec rfl hs
        (CalmR.ite ((CalmR.annotate _ _).trans (CalmR.fail _ _)) (CalmR.annotate _ _))
  case properties ps =>
    simp only [evalKw] at h
    split at h
    · contradiction
    · rename_i hs
      simp only [Option.some.injEq, Prod.mk.injEq] at h
      rw [← h.2]
      exact F.sub (fun _ => rfl) hrec (fun j hj => propJobs_at hj) hs
        (CalmR.ite (CalmR.annotate _ _) (CalmR.fail _ _))
  case patternProperties ps =>
    simp only [evalKw] at h
    split at h
    · contradiction
    · rename_i hs
      simp only [Option.some.injEq, Prod.mk.injEq] at h
      rw [← h.2]
      refine F.sub (fun _ => rfl) hrec (fun j hj => ?_) hs (CalmR.ite (CalmR.annotate _ _) (CalmR.fail _ _))
      obtain ⟨q, hq, rfl⟩ := List.mem_map.1 hj
      exact patternJobs_at hq
  case additionalProperties t =>
    simp only [evalKw, Option.map_eq_some_iff, Prod.mk.injEq] at h
    obtain ⟨_, h, _, rfl⟩ := h
    simp only [evalAdditionalProperties] at h
    split at h
    · contradiction
    · rename_i hs
      rw [← Option.some.inj h]
      exact F.shared hrec rfl hs
        (calmR_finishProps _ _ _)
  case unevaluatedProperties t =>
    simp only [evalKw, Option.map_eq_some_iff, Prod.mk.injEq] at h
    obtain ⟨_, h, _, rfl⟩ := h
    simp only [evalUnevaluatedProperties] at h
    split at h
    · contradiction
    · rename_i hs
      rw [← Option.some.inj h]
      exact F.shared hrec rfl hs
        (calmR_finishProps _ _ _)
  case propertyNames t =>
    simp only [evalKw] at h
    split at h
    · contradiction
    · rename_i hs
      simp only [Option.some.injEq, Prod.mk.injEq] at h
      rw [← h.2]
      exact F.shared hrec rfl hs (CalmR.ite (CalmR.refl _) (CalmR.fail _ _))
  case items9 t =>
    simp only [evalKw] at h
    split at h
    · simp only [Option.some.injEq, Prod.mk.injEq] at h
      rw [← h.2]; exact F.leaf (fun _ => rfl) (CalmR.refl _)
    split at h
    · split at h
      · contradiction
      · rename_i hs
        simp only [Option.some.injEq, Prod.mk.injEq] at h
        rw [← h.2]
        exact F.one hrec rfl hs (CalmR.refl _)
    · split at h
      · contradiction
      · rename_i hs
        simp only [Option.some.injEq, Prod.mk.injEq] at h
        rw [← h.2]
        exact F.plain hrec rfl hs (CalmR.ite (CalmR.annotate _ _) (CalmR.refl _))
  case items9Array ss =>
    simp only [evalKw] at h
    split at h
    · simp only [Option.some.injEq, Prod.mk.injEq] at h
      rw [← h.2]; exact F.leaf (fun _ => rfl) (CalmR.refl _)
    split at h
    · contradiction
    · rename_i hs
      simp only [Option.some.injEq, Prod.mk.injEq] at h
      rw [← h.2]
      exact F.sub (fun _ => rfl) hrec (fun j hj => itemJobs_zero hj) hs
        (CalmR.ite (CalmR.annotate _ _) (CalmR.fail _ _))
  case additionalItems t =>
    simp only [evalKw] at h
    split at h
    · split at h
      · contradiction
      · rename_i hs
        simp only [Option.some.injEq, Prod.mk.injEq] at h
        rw [← h.2]
        exact F.shared hrec rfl hs
          (calmR_finishItems _ _ _)
    · simp only [Option.some.injEq, Prod.mk.injEq] at h
      rw [← h.2]; exact F.leaf (fun _ => rfl) (CalmR.setDiscard _)
  case unevaluatedItems9 t =>
    simp only [evalKw, Option.map_eq_some_iff, Prod.mk.injEq] at h
    obtain ⟨_, h, _, rfl⟩ := h
    simp only [evalUnevaluatedItems9] at h
    split at h
    · rw [← Option.some.inj h]; exact F.leaf (fun _ => rfl) (CalmR.setDiscard _)
    split at h
    · rw [← Option.some.inj h]; exact F.leaf (fun _ => rfl) (CalmR.setDiscard _)
    split at h
    · rw [← Option.some.inj h]; exact F.leaf (fun _ => rfl) (CalmR.setDiscard _)
    split at h
    · contradiction
    · rename_i hs
      rw [← Option.some.inj h]
      exact F.shared hrec rfl hs
        (calmR_finishItems _ _ _)
  case recursiveRef t =>
    simp only [evalKw] at h
    split at h
    · contradiction
    · rename_i hs
      simp only [Option.some.injEq, Prod.mk.injEq] at h
      rw [← h.2]
      exact F.refs hrec rfl (hself _ rfl) hs
  case ref t =>
    simp only [evalKw] at h
    split at h
    · contradiction
    · rename_i hs
      simp only [Option.some.injEq, Prod.mk.injEq] at h
      rw [← h.2]
      exact F.refs hrec rfl (hself _ rfl) hs
  case dynamicRef t frag dynamic =>
    simp only [evalKw] at h
    split at h
    · contradiction
    · rename_i hs
      simp only [Option.some.injEq, Prod.mk.injEq] at h
      rw [← h.2]
      exact F.refs hrec rfl (hself _ rfl) hs
  case static k v =>
    simp only [evalKw, Option.some.injEq, Prod.mk.injEq] at h
    rw [← h.2]; exact F.leaf (fun _ => rfl) (CalmR.refl _)
  case format attr enabled =>
    simp only [evalKw, Option.some.injEq, Prod.mk.injEq] at h
    rw [← h.2]
    exact F.leaf (fun _ => rfl) ((CalmR.annotate _ _).trans
      (CalmR.ite (CalmR.ite (CalmR.refl _) (CalmR.fail _ _)) (CalmR.noassert _)))
  case annot k so v =>
    simp only [evalKw, Option.some.injEq, Prod.mk.injEq] at h
    rw [← h.2]; exact F.leaf (fun _ => rfl) ((CalmR.annotate _ _).trans (CalmR.noassert _))
  case contentSchema v =>
    simp only [evalKw, Option.some.injEq, Prod.mk.injEq] at h
    rw [← h.2]
    split
    · exact F.leaf (fun _ => rfl) ((CalmR.annotate _ _).trans (CalmR.noassert _))
    · exact F.leaf (fun _ => rfl) (CalmR.setDiscard _)
  case unknown k v =>
    simp only [evalKw, Option.some.injEq, Prod.mk.injEq] at h
    rw [← h.2]; exact F.leaf (fun _ => rfl) ((CalmR.annotate _ _).trans (CalmR.noassert _))

theorem cset_again {k : String × List String} {a b : RNode} :
    ∀ {cs : List ((String × List String) × RNode)}, cset k b (cset k a cs) = cset k b cs
  | [] => by simp [cset]
  | (k', c') :: r => by
    simp only [cset]
    by_cases h : k = k'
    · simp [cset, h]
    · simp only [if_neg h, cset, cset_again]

theorem evalKw_parent_under {parent parent' : RNode} (hp : Under st t parent)
    (h : evalKw st env rec sc kw i parent c = some (parent', c')) :
    Under st t parent' ∧ parent'.info = parent.info := by
  rcases evalKw_parent h with rfl | ⟨con, _, hs, rfl⟩
  · exact ⟨hp, rfl⟩
  · have hm := mem_of_clookup hs
    obtain ⟨h1, h2⟩ := hp _ hm
    exact ⟨hp.set ⟨KwOf.keep (r := con) h1 (Upd.pass_ _).imm, .intro
      (by
        have := h2.node
        cases this with
        | root a b d => exact .root a b d
        | kw a b d e f => exact .kw a b d e f
        | sub a b d e f => exact .sub a b d e f)
      (by
        intro e he
        have := h2.edges e he
        cases this with
        | index a b d f => exact .index a b d f
        | kw a b =>
          refine .kw ?_ b
          cases a with
          | root x y => exact .root x y
          | direct x y z u => exact .direct x y z u
          | indexed x y z u => exact .indexed x y z u
          | ref x => exact .ref x)
      (fun e he => h2.sub e he)⟩, rfl⟩

theorem kwLoop_placed (hl : NoLoop st) (hrec : RecPlaced st rec) :
    ∀ {kws : List Kw} {r r' : RNode}, (∀ kw ∈ kws, kw ∈ st.keywords s ∧
      ∀ t, refTarget st (s :: sc) kw = some t → t ≠ s) → Entered s r → Under st s r →
      kwLoop st env rec sc s i kws r = some r' → Under st s r' ∧ r'.info = r.info
  | [], r, r', _, _, hr, h => by
    simp only [kwLoop, Option.some.injEq] at h
    rw [← h]; exact ⟨hr, rfl⟩
  | kw :: kws, r, r', hks, he, hr, h => by
    simp only [kwLoop] at h
    have hks' := fun k hk => hks k (List.mem_cons_of_mem _ hk)
    split at h
    · simp only [withSub] at h
      cases hev : evalKw st env rec (s :: sc) kw i
          (r.setChild (kw.key, i.path) (r.fresh i kw.key s)) (r.fresh i kw.key s) with
      | none => simp only [hev] at h; contradiction
      | some p =>
        obtain ⟨p', c'⟩ := p
        simp only [hev] at h
        obtain ⟨hmem, hself⟩ := hks kw List.mem_cons_self
        have hrel : (r.fresh i kw.key s).info.relpath = [kw.key] := by
          show (if s = r.info.schema then r.info.relpath ++ [kw.key] else [kw.key]) = _
          split
          · rename_i hs; rw [he hs]; rfl
          · rfl
        have F : NewKw st s kw (r.fresh i kw.key s) := ⟨hl, hmem, rfl, rfl, hrel, rfl, rfl⟩
        obtain ⟨hg, him⟩ := evalKw_placed F hrec hself hev
        have hkw : KwOf st s c'.info := by
          refine ⟨by rw [him.schema]; rfl, kw, hmem, by rw [him.relpath, hrel], by rw [him.key]; rfl⟩
        -- the parent without the fresh child
        have hp' : Under st s (p'.setChild (kw.key, i.path) c') ∧ p'.info = r.info := by
          rcases evalKw_parent hev with rfl | ⟨con, ⟨m, rfl⟩, hs, rfl⟩
          · refine ⟨?_, rfl⟩
            intro e he'
            rw [setChild_children, setChild_children, cset_again] at he'
            rcases mem_cset he' with rfl | he'
            · exact ⟨hkw, hg⟩
            · exact hr e he'
          · have h0 : Under st s (r.setChild (Kw.key (.minContains m), i.path)
                (r.fresh i (Kw.key (.minContains m)) s)) :=
              hr.set ⟨⟨rfl, _, hmem, hrel, rfl⟩, (F.leaf (fun _ => rfl) (CalmR.refl _)).1⟩
            obtain ⟨h1, h2⟩ := evalKw_parent_under h0 hev
            exact ⟨h1.set ⟨hkw, hg⟩, h2⟩
        have h2 : ∀ (b : Bool), Under st s (if b then (p'.setChild (kw.key, i.path) c').delChild
            (kw.key, i.path) else p'.setChild (kw.key, i.path) c') ∧
            (if b then (p'.setChild (kw.key, i.path) c').delChild (kw.key, i.path)
            else p'.setChild (kw.key, i.path) c').info = r.info := by
          intro b
          cases b
          · exact hp'
          · exact ⟨hp'.1.del, hp'.2⟩
        obtain ⟨h3, h4⟩ := kwLoop_placed hl hrec hks'
          (by unfold Entered; rw [(h2 _).2]; exact he) (h2 _).1 h
        exact ⟨h3, h4.trans (h2 _).2⟩
    · exact kwLoop_placed hl hrec hks' he hr h

/-! ## A reference to the schema it is in never ends -/

theorem refTarget_again (h : refTarget st (s :: sc) kw = some t) :
    refTarget st (s :: s :: sc) kw = some t := by
  cases kw <;> simp only [refTarget] at h ⊢ <;> try exact h
  · rename_i u
    rw [← h]
    congr 1
    split
    · simp only [recLoop]; split <;> rfl
    · rfl
  · rename_i u frag dyn
    rw [← h]
    congr 1
    split
    · exact dynLoop_dup
    · rfl

theorem evalKw_ref {parent : RNode} {x} (hr : refTarget st sc kw = some t)
    (h : evalKw st env rec sc kw i parent c = some x) : ∃ c1, rec sc t i c = some c1 := by
  cases kw <;> simp only [refTarget] at hr <;> try cases hr
  all_goals
    simp only [evalKw] at h
    split at h
    · contradiction
    · rename_i hs; exact ⟨_, hs⟩

theorem refTarget_types (hr : refTarget st sc kw = some t) (y : JType) : kw.types.contains y = true := by
  cases kw <;> simp only [refTarget] at hr <;> try cases hr
  all_goals cases y <;> rfl

theorem kwLoop_ref (hr : refTarget st (s :: sc) kw = some t) :
    ∀ {kws : List Kw} {r r' : RNode}, kw ∈ kws → kwLoop st env rec sc s i kws r = some r' →
      ∃ c c1, rec (s :: sc) t i c = some c1
  | k :: kws, r, r', hm, h => by
    simp only [kwLoop] at h
    rcases List.mem_cons.1 hm with rfl | hm
    · rw [if_pos (refTarget_types hr _)] at h
      simp only [withSub] at h
      cases hev : evalKw st env rec (s :: sc) kw i
          (r.setChild (kw.key, i.path) (r.fresh i kw.key s)) (r.fresh i kw.key s) with
      | none => simp only [hev] at h; contradiction
      | some p => exact ⟨_, evalKw_ref hr hev⟩
    · split at h
      · split at h
        · contradiction
        · exact kwLoop_ref hr hm h
      · exact kwLoop_ref hr hm h

theorem evalSchema_noself (hm : kw ∈ st.keywords s) : ∀ {n sc i r},
    refTarget st (s :: sc) kw = some s → evalSchema st env n sc s i r = none
  | 0, _, _, _, _ => rfl
  | n + 1, sc, i, r, hr => by
    cases h : evalSchema st env (n + 1) sc s i r with
    | none => rfl
    | some r' =>
      simp only [evalSchema, evalBody] at h
      unfold Store.keywords at hm
      split at h
      · rename_i ho; rw [ho] at hm; cases hm
      · rename_i ho; rw [ho] at hm; cases hm
      · rename_i kws ho
        rw [ho] at hm
        split at h
        · contradiction
        · rename_i hk
          obtain ⟨c, c1, hc⟩ := kwLoop_ref hr hm hk
          have := evalSchema_noself (sc := s :: sc) (i := i) (r := c) (n := n)
            (by unfold Store.keywords; rw [ho]; exact hm) (refTarget_again hr)
          rw [this] at hc; cases hc

theorem evalSchema_placed (hl : NoLoop st) : ∀ n, RecPlaced st (evalSchema st env n)
  | 0 => fun _ _ _ _ _ _ _ h => by simp [evalSchema] at h
  | n + 1 => fun sc s i r r' he hr h => by
    have hn : ∀ kw ∈ st.keywords s, ∀ t, refTarget st (s :: sc) kw = some t → t ≠ s := by
      intro kw hk t ht hts
      rw [hts] at ht
      rw [evalSchema_noself hk ht] at h; cases h
    simp only [evalSchema, evalBody] at h
    split at h
    · rw [← Option.some.inj h]; exact ⟨hr, .refl _⟩
    · rw [← Option.some.inj h]; exact ⟨hr.calm (CalmR.fail _ _), (CalmR.fail _ _).keep⟩
    · rename_i kws ho
      have hks : st.keywords s = kws := by unfold Store.keywords; rw [ho]
      split at h
      · contradiction
      · rename_i r1 hk
        obtain ⟨h1, h2⟩ := kwLoop_placed hl (evalSchema_placed hl n)
          (fun kw hkw => by rw [← hks] at hkw; exact ⟨hkw, hn kw hkw⟩) he hr hk
        rw [← Option.some.inj h]
        have hu := CalmR.ite (p := r1.children.any
          (fun e => decide (e.2.info.inst.path = i.path) && !e.2.passed) = true)
          (CalmR.fail r1 .null) (CalmR.refl r1)
        exact ⟨h1.calm hu, (KeepR.of_info h2).trans hu.keep⟩

/-- Every result of an evaluation that ends is placed. -/
theorem evaluate_placed (hl : NoLoop st) {n : Nat} {r : RNode}
    (h : evaluate st env n s i = some r) : Placed st r ∧ r.info.schema = s ∧ r.info.relpath = [] ∧
      r.info.key = none := by
  obtain ⟨h1, h2⟩ := evalSchema_placed hl n _ _ _ _ _ (fun _ => rfl) (.nil rfl) h
  have hs : r.info.schema = s := h2.imm.schema
  refine ⟨.intro (.root h2.imm.relpath h2.ref h2.imm.key) ?_ (fun e he => (h1 e he).2), hs,
    h2.imm.relpath, h2.imm.key⟩
  intro e he
  refine .kw (t := s) ?_ (h1 e he).1
  rw [← hs]
  exact .root h2.imm.relpath h2.ref

end

end Jschon
