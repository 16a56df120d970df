import Verif.Proof.RootMeta
import Verif.Proof.TwinDoc
import Verif.Props.DocObserved
import Verif.Props.Suite19

/-!
# C90: what `validate` says of a schema
-/

namespace Jschon
open Spec

/-! ## The metaschema of a document -/

theorem metaUri_root {w : World} {s : Nat} (hp : w.heap.parent s = none) : w.metaUri s = w.ownMeta s := by
  unfold World.metaUri World.nearest World.ownMeta
  rw [hp]
  cases (w.info s).bind SInfo.metaUri <;> rfl

theorem newDocument_ownMeta {E : CEnv} (hE : CEnvOk E) (hM : ∀ u m, E.metaschema u = .ok m → SchemaOnly m)
    {n : Nat} {cid : String} {uri metaUri : Option Uri} {doc : Value} {w w' : World} {s : Nat} (hd : doc.WF)
    (pre : SPre w cid uri none) (h : newDocument E n cid uri metaUri doc w = some (w', .ok s)) (u : Uri) :
    w'.ownMeta s = some u ↔ NamesMeta E.lib metaUri doc u := by
  have post := newDocument_spec hE hd pre h
  obtain ⟨rfl, -⟩ := post.ret _ rfl
  unfold newDocument newDocWith at h
  rcases M.bind_run h with ⟨w1, s, h1, h2⟩ | ⟨e, h1, h2⟩
  rotate_left
  · cases h2
  have p := (works hE doc hd).1 _ _ _ _ _ _ _ _ pre h1
  obtain ⟨rfl, -⟩ := p.ret s rfl
  rcases M.bind_run h2 with ⟨w2, x, h3, h4⟩ | ⟨e, h3, h4⟩
  rotate_left
  · cases h4
  obtain ⟨rfl, -⟩ := M.pure_run h4
  obtain ⟨-, g, -⟩ := resolveReferences_ok hE n _ _ _ _ p.ok p.isSchema h3
  have e : w'.ownMeta w.heap.next = w1.ownMeta w.heap.next := g.metaUri p.lt
  rw [e]
  cases doc with
  | obj kvs =>
    have hn : (dkeys kvs).Nodup := by cases hd with | obj h _ => exact h
    rcases newSchema_rootMeta hE hM hd pre h1 with ⟨a1, a2⟩ | ⟨t, a1, a2⟩
    · rw [a2]
      constructor
      · exact fun h => .inr ⟨fun _ e => by cases e; exact a1, h⟩
      · rintro (⟨_, t, h, h', -⟩ | ⟨-, h⟩)
        · cases h
          exact absurd (mem_dkeys.2 ⟨_, h'⟩) a1
        · exact h
    · rw [a2]
      constructor
      · intro h
        cases h
        exact .inl ⟨_, t, rfl, dlookup_mem a1, rfl⟩
      · rintro (⟨_, t', h, h', rfl⟩ | ⟨h, -⟩)
        · cases h
          rw [dlookup_of_mem hn h'] at a1
          cases a1
          rfl
        · exact absurd (dlookup_isSome.1 (by rw [a1]; rfl)) (h _ rfl)
  | bool b =>
    simp only [newSchema, boolSchema, bind, M.andThen, newSchemaNode, setDataM, M.change, pure, M.ret,
      Option.some.injEq, Prod.mk.injEq, and_true] at h1
    have : w1.ownMeta w.heap.next = metaUri := by rw [← h1]; simp [World.ownMeta]
    rw [this]
    constructor
    · exact fun h => .inr ⟨fun _ e => (by cases e), h⟩
    · rintro (⟨_, t, h, -⟩ | ⟨-, h⟩)
      · cases h
      · exact h
  | _ =>
    simp only [newSchema, bind, M.andThen, newSchemaNode, M.raise, Option.some.injEq, Prod.mk.injEq, reduceCtorEq,
      and_false] at h1

section
variable [dia : Dialect]
variable {E : CEnv} (hE : CEnvOk E)
include hE

omit dia in
/-- C90: the metaschema of a document is the one that its `$schema` names, otherwise the one that the constructor was
given, whatever is constructed later. -/
theorem C90_metaschema (hM : ∀ u m, E.metaschema u = .ok m → SchemaOnly m)
    {n : Nat} {cid : String} {uri metaUri : Option Uri}
    {doc : Value} {w w' w'' : World} {s : Nat} (hw : CHistory w) (hd : doc.WF)
    (hu : ∀ u, uri = some u → ∀ q, w.uri q = some u → w.cacheid q ≠ cid)
    (h : newDocument E n cid uri metaUri doc w = some (w', .ok s)) (ha : CAfter w' w'') (u : Uri) :
    w''.metaUri s = some u ↔ NamesMeta E.lib metaUri doc u := by
  have pre : SPre w cid uri none := .doc hw.ok hu
  have post := newDocument_spec hE hd pre h
  obtain ⟨h1, h2, -, h4, -⟩ := post.ret _ rfl
  obtain ⟨ok, g, -⟩ := ha.spec post.ok
  have hp : w''.heap.parent s = none := by
    rw [← h4]
    simp only [JHeap.parent, g.node s h2]
  rw [metaUri_root hp, ← newDocument_ownMeta hE hM hd pre h u]
  exact iff_of_eq (congrArg (· = some u) (g.metaUri h2))

/-- C90: a document without metaschema cannot be validated. -/
theorem C90_none (hM : ∀ u m, E.metaschema u = .ok m → SchemaOnly m)
    {n : Nat} {cid : String} {uri metaUri : Option Uri}
    {doc : Value} {w w' w'' : World} {s : Nat} (hw : CHistory w) (hd : doc.WF)
    (hu : ∀ u, uri = some u → ∀ q, w.uri q = some u → w.cacheid q ≠ cid)
    (h : newDocument E n cid uri metaUri doc w = some (w', .ok s)) (ha : CAfter w' w'')
    (hno : ∀ u, ¬ NamesMeta E.lib metaUri doc u) (env : Env) (k : Nat) :
    w''.validate E env k s = some (.error .schemaError) := by
  unfold World.validate
  cases hm : w''.metaUri s with
  | none => rfl
  | some u => exact absurd ((C90_metaschema hE hM hw hd hu h ha u).1 hm) (hno u)

end

/-! ## The verdict -/

theorem rearranged_twin {dec : Rat → Rat} {a b : Value} (h : Rearranged a b) : Twin dec a b := by
  induction h with
  | null => exact .null
  | bool => exact .bool
  | num => exact .num rfl rfl
  | str => exact .str
  | arr h1 _ ih => exact .arr h1 ih
  | @obj as bs h1 _ ih =>
    refine .obj (fun k => ?_) ih
    have : k ∈ dkeys as ↔ k ∈ dkeys bs := h1.mem_iff
    rw [dlookup_eq_none, dlookup_eq_none, this]

section
variable [dia : Dialect]
variable {E : CEnv} (hE : CEnvOk E) (hO : ∀ u m, E.metaschema u = .ok m → Ordered m) (hL : SiteLib E.lib)
  {shelf : List Site} {docs : List (Nat × Site)} {w : World} (hS : Stocked E "__meta__" shelf docs w)
include hE hO hL hS

/-- How `validate` comes to its result. -/
theorem validate_run {m : Nat} {p : Site} (hp : (m, p) ∈ docs) {s : Nat} (hm : w.metaUri s = some p.base) {mt : Meta}
    (hk : E.metaschema p.base = .ok mt) (env : Env) (n : Nat) : w.validate E env n s =
      (evaluate (w.store E "__meta__") env n m ⟨(readPath w.heap s).2.keys, val w.heap s⟩).map .ok := by
  obtain ⟨made, todo, S, hin⟩ := hS.depot hE hO hL
  obtain ⟨x, c⟩ := S.shelved.names.find (hin _ hp) .here
  have hr := c.reach
  cases hr
  have := S.shelved.names.resource (hin _ hp) c (.inl rfl)
  simp only [World.validate, hm, hk, this]

/-- C90: `validate` says of a schema, whether a document or a part of one, whether it is valid against the document
that its metaschema was made from. -/
theorem C90_verdict {m : Nat} {p : Site} (hp : (m, p) ∈ docs) {s : Nat} (hm : w.metaUri s = some p.base)
    {env : Env} {n : Nat} {r : RNode} (hv : w.validate E env n s = some (.ok r)) :
    (r.valid = true ↔ OAccepts E.lib env E.fmtEnabled (links E.lib (shelf ++ docs.map (·.2))) p (val w.heap s)) ∧
    (r.valid = false ↔ ORejects E.lib env E.fmtEnabled (links E.lib (shelf ++ docs.map (·.2))) p (val w.heap s)) := by
  obtain ⟨made, todo, S, hin⟩ := hS.depot hE hO hL
  have ok := S.shelved.names.ok
  cases hk : E.metaschema p.base with
  | error e => simp only [World.validate, hm, hk] at hv; cases hv
  | ok mt =>
    rw [validate_run hE hO hL hS hp hm hk] at hv
    obtain ⟨r', h1, h2⟩ := Option.map_eq_some_iff.1 hv
    cases h2
    exact C83_shelf hE hO hL hS hp (val_wf_ord ok.ord ok.keys.nodup s) h1

/-- C90: what `validate` says of a document is whether the document as it was written is valid against its
metaschema, whatever else is constructed in between. -/
theorem C90_document (hM : ∀ u m, E.metaschema u = .ok m → SchemaOnly m)
    {k : Nat} {cid : String} {uri metaUri : Option Uri} {doc : Value} {w0 w1 : World} {s : Nat} (hw : CHistory w0)
    (hd : doc.WF) (hu : ∀ u, uri = some u → ∀ q, w0.uri q = some u → w0.cacheid q ≠ cid)
    (h : newDocument E k cid uri metaUri doc w0 = some (w1, .ok s)) (ha : CAfter w1 w)
    {m : Nat} {p : Site} (hp : (m, p) ∈ docs) (hm : NamesMeta E.lib metaUri doc p.base)
    {env : Env} (hf : FormatsAlike env E.fmtEnabled) {n : Nat} {r : RNode}
    (hv : w.validate E env n s = some (.ok r)) :
    (r.valid = true ↔ OAccepts E.lib env E.fmtEnabled (links E.lib (shelf ++ docs.map (·.2))) p doc) ∧
    (r.valid = false ↔ ORejects E.lib env E.fmtEnabled (links E.lib (shelf ++ docs.map (·.2))) p doc) := by
  have hm' := (C90_metaschema hE hM hw hd hu h ha p.base).2 hm
  have post := newDocument_spec hE hd (.doc hw.ok hu) h
  obtain ⟨h1, h2, -, h4, -, h6, -⟩ := post.ret _ rfl
  obtain ⟨ok, g, -⟩ := ha.spec post.ok
  have e : val w.heap s = val w1.heap s := g.ext.val post.ok.ord ok.ord h2
  have tw : Twins env.dec (val w.heap s) doc :=
    ⟨rearranged_twin (by rw [e]; exact h6), val_wf_ord ok.ord ok.keys.nodup s, hd⟩
  obtain ⟨made, todo, S, hin⟩ := hS.depot hE hO hL
  have wf : ∀ q ∈ shelf ++ docs.map (·.2), q.schema.WF := by
    intro q hq
    obtain ⟨i, hi⟩ := List.getElem?_of_mem hq
    rcases S.shelved.here hi with h | ⟨root, h⟩
    · exact (S.shelf h hi).1.wf
    · obtain ⟨x, c⟩ := S.shelved.names.find h .here
      exact c.wf
  have same : ∀ l : List Site, (∀ q ∈ l, q.schema.WF) → TwinSites env.dec l l := by
    intro l
    induction l with
    | nil => exact fun _ => .nil
    | cons q l ih =>
      exact fun h => .cons ⟨rfl, .refl _, h q List.mem_cons_self, h q List.mem_cons_self⟩
        (ih fun q hq => h q (List.mem_cons_of_mem _ hq))
  have T := same _ wf
  have hpw := wf p (List.mem_append_right _ (List.mem_map_of_mem (f := (·.2)) hp))
  have P : TwinSite env.dec p p := ⟨rfl, .refl _, hpw, hpw⟩
  obtain ⟨V1, V2⟩ := C90_verdict hE hO hL hS hp hm' hv
  exact ⟨V1.trans ⟨accepts_twin hf T P tw, accepts_twin hf T P tw.symm⟩,
    V2.trans ⟨rejects_twin hf T P tw, rejects_twin hf T P tw.symm⟩⟩

/-- C90: `validate` ends if no cycle of references of the metaschema applies to one and the same part of the schema. -/
theorem C90_ends {m : Nat} {p : Site} (hp : (m, p) ∈ docs) {s : Nat} (hm : w.metaUri s = some p.base) {mt : Meta}
    (hk : E.metaschema p.base = .ok mt) {rank : Site → Nat} {bound : Nat}
    (hr : DRanked E.lib (links E.lib (shelf ++ docs.map (·.2))) rank bound) (env : Env) :
    ∃ n r, w.validate E env n s = some (.ok r) := by
  obtain ⟨n, r, h⟩ := C73_ends hE hO hL hS hp hr env ⟨(readPath w.heap s).2.keys, val w.heap s⟩
  exact ⟨n, r, by rw [validate_run hE hO hL hS hp hm hk, h]; rfl⟩

end

/-! ## A concrete case -/

namespace Toy
attribute [local instance] Toy.in2019

/-- A metaschema that says what `minimum` may be. -/
def metaMembers : List (String × Value) :=
  [("type", .str "object"), ("properties", .obj [("minimum", .obj [("type", .str "number")])])]
def metaSite : Site := ⟨⟨"hm19", none⟩, .obj metaMembers⟩
/-- A schema that does not follow it. -/
def wrongSchema : Value := .obj [("minimum", .str "x"), ("$schema", .str "hm19")]

/-- Both are constructed, and the second changes nothing in the cache of the first. -/
def bothMade : Bool :=
  match newDocument Toy.env 9 "__meta__" (some ⟨"hm19", none⟩) (some ⟨"hm19", none⟩) (.obj metaMembers) .empty with
  | some (w1, .ok _) =>
    match newDocument Toy.env 9 "" none none wrongSchema w1 with
    | some (w2, .ok _) => decide (alookup "__meta__" w2.caches = alookup "__meta__" w1.caches)
    | _ => false
  | _ => false

theorem both_made : ∃ (w1 w2 : World) (m s : Nat),
    newDocument Toy.env 9 "__meta__" (some ⟨"hm19", none⟩) (some ⟨"hm19", none⟩) (.obj metaMembers) .empty = some (w1, .ok m) ∧
    newDocument Toy.env 9 "" none none wrongSchema w1 = some (w2, .ok s) ∧
    alookup "__meta__" w2.caches = alookup "__meta__" w1.caches := by
  have h : bothMade = true := by decide +kernel
  unfold bothMade at h
  split at h
  · rename_i w1 m h1
    split at h
    · rename_i w2 s h2
      exact ⟨w1, w2, m, s, h1, h2, of_decide_eq_true h⟩
    · cases h
  · cases h

theorem meta_sites {ks : List String} {q : Site} (h : Stands Toy.lib metaSite ks q) : q = metaSite ∨
    q = ⟨⟨"hm19", none⟩, .obj [("type", .str "number")]⟩ := by
  have : (ks, q) ∈ [([], metaSite), (["properties", "minimum"], ⟨⟨"hm19", none⟩, .obj [("type", .str "number")]⟩)] :=
    subsites_all h (n := 5) rfl
  simp only [List.mem_cons, List.not_mem_nil, or_false, Prod.mk.injEq] at this
  rcases this with ⟨-, h⟩ | ⟨-, h⟩ <;> simp [h]

theorem meta_form : DocForm Toy.env (some meta2019) (links Toy.lib [metaSite]) metaSite := by
  refine .obj (.inl ⟨rfl, rfl⟩) ofDialect_shipped fun kv hkv => .inr ?_
  simp only [metaMembers, List.mem_cons, List.not_mem_nil, or_false] at hkv
  rcases hkv with rfl | rfl
  · exact .assert .type (fun re h => by cases h)
  · refine .named (by decide) fun kv hkv => ?_
    simp only [List.mem_cons, List.not_mem_nil, or_false] at hkv
    subst hkv
    refine .obj fun kv hkv => ?_
    simp only [List.mem_cons, List.not_mem_nil, or_false] at hkv
    subst hkv
    exact .assert .type (fun re h => by cases h)

theorem meta_arrival : Arrival Toy.env .empty "__meta__" [] [] (some ⟨"hm19", none⟩) (some ⟨"hm19", none⟩) metaMembers
    metaSite where
  wf := wf_spec _ (by decide +kernel)
  site := rfl
  form := ⟨some meta2019, meta_form, fun m h => ⟨_, rfl, by cases h; rfl⟩⟩
  near ks q k t r hs hk hm _ := by
    exfalso
    obtain ⟨kvs, e, hm⟩ := hm
    rcases meta_sites hs with rfl | rfl <;> cases e <;>
      simp only [metaMembers, List.mem_cons, List.not_mem_nil, or_false, Prod.mk.injEq] at hm <;>
      rcases hk with rfl | ⟨h, -⟩ <;> simp_all
  given u h := by cases h; exact ⟨rfl, ⟨rfl, rfl⟩, fun q h => by cases h⟩
  same h := of_decide_eq_true h
  unique := uniqueNames_check (n := 5) (by decide +kernel)
  free v ks q _ _ := rfl

theorem schemaOnly {u : Uri} {m : Meta} (h : Toy.env.metaschema u = .ok m) : SchemaOnly m := by
  have go : ∀ m ∈ [meta2020, meta2019, metaNext], ∀ c ∈ m.classes, c.shape ≠ .schema ∨ c.key = "$schema" := by
    decide +kernel
  have : m ∈ [meta2020, meta2019, metaNext] := by
    simp only [Toy.env] at h
    split at h
    · cases h; simp
    · split at h
      · cases h; simp
      · split at h
        · cases h; simp
        · cases h
  exact fun c hc hs => (go m this c hc).resolve_left fun h => h hs

/-- The metaschema rejects the schema. -/
theorem wrong_rejected (env : Env) :
    ORejects Toy.lib env Toy.env.fmtEnabled (links Toy.lib [metaSite]) metaSite wrongSchema := by
  refine ⟨0, fun m _ h => ?_⟩
  cases m with
  | zero => exact h
  | succ m =>
    have h := (h "properties" (.obj [("minimum", .obj [("type", .str "number")])]) (by simp [metaMembers])).properties rfl _ rfl
      "minimum" (.obj [("type", .str "number")]) (.str "x") (by simp) (by simp [members, wrongSchema])
    cases m with
    | zero => exact h
    | succ m =>
      have h := (h "type" (.str "number") (by simp)).assert _ .type
      simp [AssertHolds, Spec.HasType] at h

theorem meta_never {q : Site} (h : (links Toy.lib [metaSite]).sites q) {k : String} {v : Value}
    (hn : k ∉ ["type", "properties"]) : ¬ q.Has k v := by
  rintro ⟨kvs, e, hm⟩
  obtain ⟨i, ks, p, hp, h⟩ := h
  cases List.mem_singleton.1 (List.mem_of_getElem? hp)
  rcases meta_sites h with rfl | rfl <;> cases e <;>
    simp only [metaMembers, List.mem_cons, List.not_mem_nil, or_false, Prod.mk.injEq] at hm
  · rcases hm with ⟨rfl, -⟩ | ⟨rfl, -⟩ <;> exact hn (by decide)
  · obtain ⟨rfl, -⟩ := hm; exact hn (by decide)

theorem meta_ranked : DRanked Toy.lib (links Toy.lib [metaSite]) (fun _ => 0) 1 where
  lt p _ := by omega
  decreases p q h hd := by
    exfalso
    rcases hd with hd | ⟨t, hm, rfl⟩
    · cases hd with
      | many hk hm _ => rcases hk with rfl | rfl | rfl <;> exact meta_never h (by decide) hm
      | one hk hm => rcases hk with rfl | rfl | rfl <;> exact meta_never h (by decide) hm
      | dependentSchemas hm _ => exact meta_never h (by decide) hm
      | ref hm _ ht =>
        cases ht with
        | ref _ => exact meta_never h (by decide) hm
        | static _ _ => exact meta_never h (by decide) hm
        | dynamic _ _ _ => exact meta_never h (by decide) hm
        | recursive _ => exact meta_never h (by decide) hm
    · exact meta_never h (by decide) hm

end Toy

section
attribute [local instance] Toy.in2019

/-- `validate` of the schema ends, and finds it invalid. -/
example (env : Env) (hf : FormatsAlike env Toy.env.fmtEnabled) : ∃ (w : World) (s m : Nat),
    Stocked Toy.env "__meta__" [] [(m, Toy.metaSite)] w ∧ (∃ n r, w.validate Toy.env env n s = some (.ok r)) ∧
    (∀ n r, w.validate Toy.env env n s = some (.ok r) → r.valid = false) := by
  obtain ⟨w1, w2, m, s, h1, h2, hc⟩ := Toy.both_made
  have hS : Stocked Toy.env "__meta__" [] [(m, Toy.metaSite)] w1 :=
    .add (.start .start ⟨fun p h => (by cases h), fun p h => (by cases h), uniqueNames_check (n := 1) (by decide)⟩
      (fun p h => by cases h)) Toy.meta_arrival h1
  have hw : CHistory w1 := .new .start Toy.env_ok Toy.meta_arrival.wf (fun u _ q h => by cases h) h1
  have hd : Toy.wrongSchema.WF := Toy.wf_spec _ (by decide +kernel)
  have hS2 : Stocked Toy.env "__meta__" [] [(m, Toy.metaSite)] w2 :=
    .other hS (.new .refl Toy.env_ok hd (fun u h => by cases h) h2) fun p _ ks q v _ _ => by
      simp only [cacheGet, hc]
  have hn : NamesMeta Toy.lib none Toy.wrongSchema ⟨"hm19", none⟩ := .inl ⟨_, "hm19", rfl, by simp, rfl⟩
  refine ⟨w2, s, m, hS2, ?_, fun n r hv => ?_⟩
  · exact C90_ends Toy.env_ok (fun _ _ h => Toy.ordered h) Toy.site_lib hS2 List.mem_cons_self
      ((C90_metaschema Toy.env_ok (fun _ _ h => Toy.schemaOnly h) hw hd (fun u h => by cases h) h2 .refl _).2 hn) rfl
      Toy.meta_ranked env
  · exact (C90_document Toy.env_ok (fun _ _ h => Toy.ordered h) Toy.site_lib hS2 (fun _ _ h => Toy.schemaOnly h) hw hd
      (fun u h => by cases h) h2 .refl List.mem_cons_self hn hf hv).2.2 (Toy.wrong_rejected env)

/-- An empty schema object needs no metaschema, and then cannot be validated. -/
example (env : Env) : ∃ (w : World) (s : Nat), newDocument Toy.env 9 "" none none (.obj []) .empty = some (w, .ok s) ∧
    w.validate Toy.env env 9 s = some (.error .schemaError) := by
  have hd : (Value.obj []).WF := Toy.wf_spec _ (by decide +kernel)
  have : ∃ (w : World) (s : Nat), newDocument Toy.env 9 "" none none (.obj []) .empty = some (w, .ok s) := ⟨_, _, rfl⟩
  obtain ⟨w, s, h⟩ := this
  refine ⟨w, s, h, C90_none Toy.env_ok (fun _ _ h => Toy.schemaOnly h) .start hd (fun u h => by cases h) h .refl ?_ env 9⟩
  rintro u (⟨kvs, t, e, hm, -⟩ | ⟨-, h⟩)
  · cases e; cases hm
  · cases h

end

end Jschon
