import Verif.Spec.Registry
import Verif.Props.Metaschema
import Verif.Props.Catalog

/-!
# C89: catalogs and their names
-/

namespace Jschon
open Spec

/-! ## Getting a catalog -/

theorem versionNamed_iff {t : String} {v : Version} : versionNamed t = some v ↔ KnownVersion t v := by
  unfold versionNamed KnownVersion
  simp only [dlookup]
  constructor
  · intro h
    split at h
    · rename_i e; cases h; exact .inl ⟨e, rfl⟩
    · split at h
      · rename_i e; cases h; exact .inr (.inl ⟨e, rfl⟩)
      · split at h
        · rename_i e; cases h; exact .inr (.inr ⟨e, rfl⟩)
        · cases h
  · rintro (⟨rfl, rfl⟩ | ⟨rfl, rfl⟩ | ⟨rfl, rfl⟩) <;> rfl

theorem initVersion_name {P : Package} {v : Version} {c c' : CatalogObj} {r : Except Exc Unit}
    (h : initVersion P v c = some (c', r)) : c'.name = c.name := by
  unfold initVersion at h
  split at h
  · cases h; rfl
  · dsimp only at h
    split at h
    · cases h
    · cases h; rfl
    · cases h; rfl

theorem initVersions_name {P : Package} {ts : List String} {c c' : CatalogObj} {r : Except Exc Unit}
    (h : initVersions P ts c = some (c', r)) : c'.name = c.name := by
  induction ts generalizing c with
  | nil => cases h; rfl
  | cons t ts ih =>
    unfold initVersions at h
    split at h
    · cases h; rfl
    · split at h
      · cases h
      · rename_i hi; cases h; exact initVersion_name hi
      · rename_i hi; exact (ih h).trans (initVersion_name hi)

/-- What creation does to the catalogs and the registry, whether it succeeds or not. -/
theorem createCatalog_enter {P : Package} {st st' : Catalogs} {versions : List String} {name : String}
    {r : Except Exc Nat} (h : createCatalog P st versions name = some (st', r)) :
    ∃ c r', initVersions P versions (.new name) = some (c, r') ∧ c.name = name ∧ st' = st.enter c ∧
      ((r' = .ok () ∧ r = .ok st.cats.length) ∨ ∃ e, r' = .error e ∧ r = .error e) := by
  unfold createCatalog at h
  split at h
  · cases h
  · rename_i c e hi; cases h
    exact ⟨c, _, hi, initVersions_name hi, rfl, .inr ⟨e, rfl, rfl⟩⟩
  · rename_i c hi; cases h
    exact ⟨c, _, hi, initVersions_name hi, rfl, .inl ⟨rfl, rfl⟩⟩

/-- The registry has the last catalog of every name. -/
def Registered (st : Catalogs) (names : List String) : Prop :=
  st.cats.map CatalogObj.name = names ∧ ∀ name i, dlookup name st.registry = some i ↔ LastAt names name i

theorem lastAt_snoc {names : List String} {name n : String} {i : Nat} :
    LastAt (names ++ [n]) name i ↔ (name = n ∧ i = names.length) ∨ (name ≠ n ∧ LastAt names name i) := by
  constructor
  · rintro ⟨pre, post, he, rfl, hn⟩
    rcases List.eq_nil_or_concat post with rfl | ⟨post', x, rfl⟩
    · have := List.append_inj' he rfl
      obtain ⟨rfl, h⟩ := this
      cases h
      exact .inl ⟨rfl, rfl⟩
    · have he' : names ++ [n] = (pre ++ name :: post') ++ [x] := by rw [he]; simp
      obtain ⟨rfl, h⟩ := List.append_inj' he' rfl
      cases h
      simp only [List.concat_eq_append, List.mem_append, List.mem_singleton, not_or] at hn
      exact .inr ⟨hn.2, pre, post', rfl, rfl, hn.1⟩
  · rintro (⟨rfl, rfl⟩ | ⟨hne, pre, post, rfl, rfl, hn⟩)
    · exact ⟨names, [], rfl, rfl, by simp⟩
    · exact ⟨pre, post ++ [n], by simp, rfl, by simp [hn, hne]⟩

theorem Registered.enter {st : Catalogs} {names : List String} (h : Registered st names) (c : CatalogObj) :
    Registered (st.enter c) (names ++ [c.name]) := by
  obtain ⟨h1, h2⟩ := h
  refine ⟨by simp [Catalogs.enter, h1], fun name i => ?_⟩
  have hlen : names.length = st.cats.length := by rw [← h1]; simp
  rw [lastAt_snoc]
  simp only [Catalogs.enter, dlookup_dset]
  by_cases hn : name = c.name
  · rw [if_pos hn]
    constructor
    · intro h; cases h; exact .inl ⟨hn, hlen.symm⟩
    · rintro (⟨-, rfl⟩ | ⟨h, -⟩)
      · rw [hlen]
      · exact absurd hn h
  · rw [if_neg hn, h2]
    exact ⟨fun h => .inr ⟨hn, h⟩, fun h => h.elim (fun h => absurd h.1 hn) (·.2)⟩

theorem modify_names (cats : List CatalogObj) (i : Nat) (f : CatalogObj → CatalogObj) (hf : ∀ c, (f c).name = c.name) :
    (cats.modify i f).map CatalogObj.name = cats.map CatalogObj.name := by
  induction cats generalizing i with
  | nil => simp
  | cons c r ih => cases i <;> simp [hf, ih]

theorem run_registered {P : Package} {ops : List CatalogOp} {st st' : Catalogs} {names : List String}
    (h : Registered st names) (hr : st.run P ops = some st') : Registered st' (names ++ namesOf ops) := by
  induction ops generalizing st names with
  | nil => cases hr; simpa [namesOf] using h
  | cons op ops ih =>
    simp only [Catalogs.run] at hr
    split at hr
    · cases hr
    · rename_i st1 hs
      cases op with
      | new name =>
        cases hs
        have := ih (h.enter (.new name)) hr
        simpa [namesOf, CatalogObj.new] using this
      | create versions name =>
        simp only [Catalogs.step, Option.map_eq_some_iff] at hs
        obtain ⟨⟨st2, r⟩, hc, rfl⟩ := hs
        obtain ⟨c, r', -, rfl, rfl, -⟩ := createCatalog_enter hc
        simpa [namesOf] using ih (h.enter c) hr
      | change i f hf =>
        cases hs
        exact ih (st := { st with cats := st.cats.modify i f }) (names := names)
          ⟨(modify_names _ _ _ hf).trans h.1, h.2⟩ hr

/-- C89: whatever was done before, `get_catalog` returns the catalog that was created last with the given name,
and raises CatalogError if there is none. -/
theorem C89_get (P : Package) (ops : List CatalogOp) (st : Catalogs) (h : Catalogs.start.run P ops = some st)
    (name : String) :
    (∀ i, getCatalog st name = .ok i ↔ LastAt (namesOf ops) name i) ∧
    (getCatalog st name = .error .catalogError ↔ name ∉ namesOf ops) := by
  have h0 : Registered .start [] :=
    ⟨rfl, fun name i => ⟨(fun h => nomatch h), (fun h => by obtain ⟨pre, post, h, -⟩ := h; simp at h)⟩⟩
  have hr := run_registered h0 h
  simp only [List.nil_append] at hr
  have key := hr.2 name
  unfold getCatalog
  cases hd : dlookup name st.registry with
  | some j =>
    have hj := (key j).1 hd
    refine ⟨fun i => ?_, ?_⟩
    · rw [← key i, hd]; simp
    · obtain ⟨pre, post, he, -⟩ := hj
      simp [he]
  | none =>
    refine ⟨fun i => ?_, ?_⟩
    · rw [← key i, hd]; simp
    · refine ⟨fun _ hm => ?_, fun _ => rfl⟩
      obtain ⟨pre, post, he⟩ : ∃ pre post, namesOf ops = pre ++ name :: post ∧ name ∉ post := by
        clear key hr h
        generalize namesOf ops = l at hm
        induction l with
        | nil => cases hm
        | cons x r ih =>
          by_cases hx : name ∈ r
          · obtain ⟨pre, post, h, hn⟩ := ih hx
            exact ⟨x :: pre, post, by rw [h]; rfl, hn⟩
          · rcases List.mem_cons.1 hm with rfl | hm
            · exact ⟨[], r, rfl, hx⟩
            · exact absurd hm hx
      exact absurd ((key pre.length).2 ⟨pre, post, he.1, rfl, he.2⟩) (by rw [hd]; simp)

/-- C89: `Catalog(name)` has nothing in it; catalogs created before, with the same name or others, are as they were. -/
theorem C89_new (st : Catalogs) (name : String) :
    ∃ (st' : Catalogs) (i : Nat), newCatalog st name = (st', i) ∧ getCatalog st' name = .ok i ∧
      (∃ c, st'.cats[i]? = some c ∧ c.sources = [] ∧ c.vocabs = [] ∧ c.metas.objs = [] ∧ c.metas.cache = []) ∧
      (∀ (j : Nat) (c : CatalogObj), st.cats[j]? = some c → st'.cats[j]? = some c) ∧
      ∀ other, other ≠ name → getCatalog st' other = getCatalog st other := by
  refine ⟨_, _, rfl, ?_, ⟨.new name, by simp [Catalogs.enter], rfl, rfl, rfl, rfl⟩, ?_, ?_⟩
  · simp [getCatalog, Catalogs.enter, CatalogObj.new, dlookup_dset]
  · intro j c hj
    have := (List.getElem?_eq_some_iff.1 hj).1
    simp only [Catalogs.enter]
    rw [List.getElem?_append_left this]; exact hj
  · intro other ho
    simp [getCatalog, Catalogs.enter, CatalogObj.new, dlookup_dset, ho]

/-- C89: `create_catalog` does not touch the catalogs created before, and what it makes does not depend on them;
also if it raises, the new catalog has the name from then on. -/
theorem C89_create (P : Package) (st : Catalogs) (versions : List String) (name : String) (st' : Catalogs)
    (r : Except Exc Nat) (h : createCatalog P st versions name = some (st', r)) :
    getCatalog st' name = .ok st.cats.length ∧ (∀ i, r = .ok i → i = st.cats.length) ∧
      (∀ (j : Nat) (c : CatalogObj), st.cats[j]? = some c → st'.cats[j]? = some c) ∧
      (∀ other, other ≠ name → getCatalog st' other = getCatalog st other) ∧
      ∀ st2, ∃ st2' r2, createCatalog P st2 versions name = some (st2', r2) ∧
        st2'.cats[st2.cats.length]? = st'.cats[st.cats.length]? ∧
        ∀ e, r2 = .error e ↔ r = .error e := by
  obtain ⟨c, r', hi, rfl, rfl, hr⟩ := createCatalog_enter h
  refine ⟨by simp [getCatalog, Catalogs.enter, dlookup_dset], ?_, ?_, ?_, ?_⟩
  · rintro i rfl
    rcases hr with ⟨-, h⟩ | ⟨e, -, h⟩ <;> cases h
    rfl
  · intro j c' hj
    have := (List.getElem?_eq_some_iff.1 hj).1
    simp only [Catalogs.enter]
    rw [List.getElem?_append_left this]; exact hj
  · intro other ho
    simp [getCatalog, Catalogs.enter, dlookup_dset, ho]
  · intro st2
    rcases hr with ⟨rfl, rfl⟩ | ⟨e, rfl, rfl⟩
    · refine ⟨st2.enter c, .ok st2.cats.length, by simp [createCatalog, hi], by simp [Catalogs.enter], by simp⟩
    · refine ⟨st2.enter c, .error e, by simp [createCatalog, hi], by simp [Catalogs.enter], by simp⟩

/-! ## Versions -/

/-- A version that is not known is a ValueError, if those before it raise nothing; in no case does
`create_catalog` return. -/
theorem C89_unknown_version (P : Package) (st : Catalogs) (versions : List String) (name t : String)
    (ht : t ∈ versions) (hv : ∀ v, ¬ KnownVersion t v) (st' : Catalogs) (r : Except Exc Nat)
    (h : createCatalog P st versions name = some (st', r)) : ∃ e, r = .error e := by
  obtain ⟨c, r', hi, -, -, hr⟩ := createCatalog_enter h
  rcases hr with ⟨rfl, rfl⟩ | ⟨e, rfl, rfl⟩
  · exfalso
    clear h
    generalize CatalogObj.new name = c0 at hi
    induction versions generalizing c0 with
    | nil => cases ht
    | cons a ts ih =>
      unfold initVersions at hi
      split at hi
      · cases hi
      · rename_i v hva
        split at hi
        · cases hi
        · cases hi
        · rcases List.mem_cons.1 ht with rfl | ht
          · exact hv v (versionNamed_iff.1 hva)
          · exact ih ht _ hi
  · exact ⟨e, rfl⟩

theorem initVersions_append {P : Package} {ts us : List String} {c c1 : CatalogObj}
    (h : initVersions P ts c = some (c1, .ok ())) : initVersions P (ts ++ us) c = initVersions P us c1 := by
  induction ts generalizing c with
  | nil => cases h; rfl
  | cons t ts ih =>
    rw [List.cons_append]
    simp only [initVersions] at h ⊢
    split at h
    · cases h
    · rename_i v hv
      split at h
      · cases h
      · cases h
      · rename_i hi; exact ih h

theorem versionNamed_none {t : String} (hv : ∀ v, ¬ KnownVersion t v) : versionNamed t = none := by
  cases h : versionNamed t with
  | none => rfl
  | some v => exact absurd (versionNamed_iff.1 h) (hv v)

/-- C89: whatever goes wrong, it is not a KeyError that is raised. -/
theorem C89_no_key_error (P : Package) (st : Catalogs) (versions : List String) (name : String) (st' : Catalogs) :
    createCatalog P st versions name ≠ some (st', .error .keyError) := by
  intro h
  obtain ⟨c, r', hi, -, -, hr⟩ := createCatalog_enter h
  rcases hr with ⟨-, hr⟩ | ⟨e, rfl, hr⟩
  · cases hr
  · cases hr
    clear h
    generalize CatalogObj.new name = c0 at hi
    induction versions generalizing c0 with
    | nil => cases hi
    | cons t ts ih =>
      unfold initVersions at hi
      split at hi
      · cases hi
      · split at hi
        · cases hi
        · rename_i e _
          by_cases he : e = .keyError
          · rw [if_pos he] at hi; cases hi
          · rw [if_neg he] at hi; cases hi; exact he rfl
        · exact ih _ hi

/-- C89: with an unknown version, `create_catalog` raises ValueError, and leaves a catalog with the versions before
it under the name. -/
theorem C89_left_behind (P : Package) (st : Catalogs) (good : List String) (t : String) (rest : List String)
    (name : String) (hv : ∀ v, ¬ KnownVersion t v) (st1 : Catalogs)
    (hg : createCatalog P st good name = some (st1, .ok st.cats.length)) :
    createCatalog P st (good ++ t :: rest) name = some (st1, .error .valueError) := by
  obtain ⟨c, r', hi, -, rfl, hr⟩ := createCatalog_enter hg
  rcases hr with ⟨rfl, -⟩ | ⟨e, -, h⟩
  · unfold createCatalog
    rw [initVersions_append hi]
    simp only [initVersions, versionNamed_none hv]
  · cases h

/-! ## What is in a new catalog -/

theorem createAll_append (vs : Vocabs) (a b : List (Uri × List KwCls)) :
    createAll vs (a ++ b) = createAll (createAll vs a) b := by simp [createAll]

theorem createdAs_of_agree {calls : List (Uri × List KwCls)} {u : Uri} {cs : List KwCls} (hm : (u, cs) ∈ calls)
    (ha : ∀ cs', (u, cs') ∈ calls → cs' = cs) : CreatedAs calls u cs := by
  induction calls with
  | nil => cases hm
  | cons p r ih =>
    by_cases hr : ∃ cs', (u, cs') ∈ r
    · obtain ⟨cs', hr⟩ := hr
      have := ha cs' (.tail _ hr)
      subst this
      obtain ⟨pre, post, rfl, hp⟩ := ih hr fun c h => ha c (.tail _ h)
      exact ⟨p :: pre, post, rfl, hp⟩
    · rcases List.mem_cons.1 hm with rfl | hm
      · exact ⟨[], r, rfl, fun c hc he => hr ⟨c.2, by rw [← he]; exact hc⟩⟩
      · exact absurd ⟨cs, hm⟩ hr

/-- A metaschema is in the cache. -/
def MetaHeld (st : MetaState) (u : Uri) : Prop := ∃ i o, MetaAt st u i o ∧ o.filled = true

theorem MetaHeld.kept {st st' : MetaState} {u : Uri} (h : MetaHeld st u) (hk : MetaKept st st') : MetaHeld st' u := by
  obtain ⟨i, o, ha, hf⟩ := h
  obtain ⟨o', ha', hf', -⟩ := ha.kept hk
  exact ⟨i, o', ha', hf' hf⟩

/-- A metaschema other than number `i` is in the cache, under another URI than `uri`. -/
def HasOther (st : MetaState) (uri u : Uri) (i : Nat) : Prop :=
  ∃ j o, MetaAt st u j o ∧ o.filled = true ∧ j ≠ i ∧ u ≠ uri

theorem HasOther.change {st : MetaState} {uri u : Uri} {i : Nat} (h : HasOther st uri u i) (f : MetaObj → MetaObj) :
    HasOther (st.change i f) uri u i := by
  obtain ⟨j, o, ha, hf, hj, hu⟩ := h
  refine ⟨j, o, ⟨ha.cache, ?_, ha.isMeta, ha.uri⟩, hf, hj, hu⟩
  have hij : i ≠ j := fun e => hj e.symm
  simp [MetaState.change, List.getElem?_modify, ha.obj, hij]

theorem HasOther.kept {st st' : MetaState} {uri u : Uri} {i : Nat} (h : HasOther st uri u i) (hk : MetaKept st st') :
    HasOther st' uri u i := by
  obtain ⟨j, o, ha, hf, hj, hu⟩ := h
  obtain ⟨o', ha', hf', -⟩ := ha.kept hk
  exact ⟨j, o', ha', hf' hf, hj, hu⟩

theorem metaIdKw_other {E : MetaEnv} (hE : TameMeta E) {st st' : MetaState} {uri u : Uri} {i : Nat} {o : MetaObj}
    {doc : List (String × Value)} {r : Except Exc Unit} (h : MetaAt st uri i o) (hname : NamesItself E.lib uri doc)
    (hs : metaIdKw E st i doc = some (st', r)) (ho : HasOther st uri u i) : HasOther st' uri u i := by
  unfold metaIdKw at hs
  split at hs
  · cases hs; exact ho
  · rename_i v hv
    split at hs
    · cases hs; exact ho
    · rename_i mu hmu
      have hk := hE.coreOf st mu
      cases hco : E.coreOf st mu with
      | mk st1 r1 =>
        rw [hco] at hk
        obtain ⟨o1, h1, h2, h3⟩ := h.kept hk
        have ho := ho.kept hk
        rw [hco] at hs
        cases r1 with
        | error e => cases hs; exact ho
        | ok c =>
          simp only at hs
          cases v with
          | str t =>
            simp only at hs
            split at hs
            · cases hs; exact ho
            · split at hs
              · cases hs; exact ho
              · rename_i r hr
                cases hs
                have hsame : E.lib.same uri r = true := by
                  refine hname t hv r ?_
                  by_cases ha : E.lib.isAbsolute (E.lib.ofText t) = true
                  · rw [if_pos ha] at hr
                    cases hr
                    exact .inl rfl
                  · rw [if_neg ha, h1.obj, Option.bind_some, h1.uri] at hr
                    exact .inr hr
                have hset : metaSetUri E.lib st1 i r = st1 := by
                  simp [metaSetUri, h1.obj, h1.uri, hsame]
                rw [hset]
                exact ho.change _
          | _ => cases hs

/-- Creating a metaschema leaves those with other URIs in the cache. -/
theorem buildMeta_other {E : MetaEnv} (hE : TameMeta E) {st : MetaState} {uri u : Uri}
    {doc : List (String × Value)} {core : Vocab} {defaults : List Vocab} {st' : MetaState} {i : Nat}
    (hname : NamesItself E.lib uri doc) (hb : buildMeta E st uri doc core defaults = some (st', .ok i))
    (hu : u ≠ uri) (h : MetaHeld st u) : MetaHeld st' u := by
  unfold buildMeta at hb
  have h0 := newMetaNode_at st uri core
  have g0 : HasOther (⟨st.objs ++ [⟨true, false, uri, none, core, []⟩],
      aset uri st.objs.length st.cache⟩ : MetaState) uri u st.objs.length := by
    obtain ⟨j, o, ha, hf⟩ := h
    have hj := (List.getElem?_eq_some_iff.1 ha.obj).1
    refine ⟨j, o, ⟨?_, ?_, ha.isMeta, ha.uri⟩, hf, by omega, hu⟩
    · simp only [alookup_aset, if_neg hu]; exact ha.cache
    · simp only; rw [List.getElem?_append_left hj]; exact ha.obj
  simp only at hb
  revert hb h0 g0
  generalize (⟨st.objs ++ [⟨true, false, uri, none, core, []⟩], aset uri st.objs.length st.cache⟩ : MetaState) = s0
  generalize st.objs.length = n
  intro hb h0 g0
  cases h1 : metaSchemaKw E s0 n doc with
  | none => rw [h1] at hb; cases hb
  | some p =>
    obtain ⟨s1, r1⟩ := p
    rw [h1] at hb
    cases r1 with
    | error e => cases hb
    | ok _ =>
      obtain ⟨o1, a1, -⟩ := metaSchemaKw_at h0 h1
      have g1 : HasOther s1 uri u n := by
        unfold metaSchemaKw at h1
        split at h1
        · cases h1; exact g0
        · split at h1
          · cases h1
          · cases h1; exact g0.change _
        · cases h1
      simp only at hb
      cases h2 : metaVocabularyKw E s1 n core doc with
      | mk s2 r2 =>
        rw [h2] at hb
        cases r2 with
        | error e => cases hb
        | ok _ =>
          simp only at hb
          obtain ⟨⟨o2, a2⟩, g2⟩ : (∃ o2, MetaAt s2 uri n o2) ∧ HasOther s2 uri u n := by
            unfold metaVocabularyKw at h2
            split at h2
            · cases h2; exact ⟨⟨o1, a1⟩, g1⟩
            · split at h2
              · cases h2
              · cases h2; exact ⟨⟨_, a1.change _ rfl rfl⟩, g1.change _⟩
          cases h3 : metaIdKw E s2 n doc with
          | none => rw [h3] at hb; cases hb
          | some p =>
            obtain ⟨s3, r3⟩ := p
            rw [h3] at hb
            cases r3 with
            | error e => cases hb
            | ok _ =>
              simp only at hb
              have g4 := (metaIdKw_other hE a2 hname h3 g2).change
                (fun o => { o with kwclasses := addVocabs doc core defaults o.kwclasses })
              revert hb g4
              generalize s3.change n (fun o => { o with kwclasses := addVocabs doc core defaults o.kwclasses }) = s4
              intro hb g4
              have hk5 := hE.rest s4 n doc
              cases h5 : E.rest s4 n doc with
              | mk s5 r5 =>
                rw [h5] at hb hk5
                cases r5 with
                | error e => cases hb
                | ok _ =>
                  simp only at hb
                  have hk6 := hE.valid s5 n
                  cases h6 : E.valid s5 n with
                  | mk s6 r6 =>
                    rw [h6] at hb hk6
                    obtain ⟨j, o, ha, hf, -⟩ := (g4.kept hk5).kept hk6
                    cases r6 with
                    | error e => cases hb
                    | ok b =>
                      cases b with
                      | true => cases hb; exact ⟨j, o, ha, hf⟩
                      | false => cases hb

/-- The calls of `create_vocabulary` for a version. -/
def callsFor (P : Package) (t : String) : List (Uri × List KwCls) :=
  match versionNamed t with
  | none => []
  | some v => callsOf P.lib v.vocabs

/-- What is in a catalog for which `initialize` was called with the given versions. -/
structure VersionsIn (P : Package) (done : List String) (c : CatalogObj) : Prop where
  keys : (dkeys c.sources).Nodup
  sources : ∀ k s, dlookup k c.sources = some s ↔
    ∃ t ∈ done, ∃ v, KnownVersion t v ∧ k = v.base ∧ s = P.files v.folder
  vocabs : c.vocabs = createAll [] (done.flatMap (callsFor P))
  metas : ∀ t ∈ done, ∀ v, KnownVersion t v → MetaHeld c.metas ⟨v.schema, none⟩

theorem known_cases {t : String} {v : Version} (h : KnownVersion t v) :
    v = version2019 ∨ v = version2020 ∨ v = versionNext := by
  rcases h with ⟨-, h⟩ | ⟨-, h⟩ | ⟨-, h⟩ <;> simp [h]

theorem prefix_base {t t' : String} {v v' : Version} (h : KnownVersion t v) (h' : KnownVersion t' v')
    (hp : v'.base.toList <+: v.schema.toList) : v' = v := by
  have hp := List.isPrefixOf_iff_prefix.2 hp
  rcases known_cases h with rfl | rfl | rfl <;> rcases known_cases h' with rfl | rfl | rfl <;>
    first
      | rfl
      | exact absurd hp (by decide +kernel)

theorem base_inj {t t' : String} {v v' : Version} (h : KnownVersion t v) (h' : KnownVersion t' v')
    (hb : v'.base = v.base) : v' = v := by
  rcases known_cases h with rfl | rfl | rfl <;> rcases known_cases h' with rfl | rfl | rfl <;>
    first
      | rfl
      | exact absurd hb (by decide +kernel)

theorem schema_inj {t t' : String} {v v' : Version} (h : KnownVersion t v) (h' : KnownVersion t' v')
    (hb : v'.schema = v.schema) : v' = v := by
  rcases known_cases h with rfl | rfl | rfl <;> rcases known_cases h' with rfl | rfl | rfl <;>
    first
      | rfl
      | exact absurd hb (by decide +kernel)

theorem schema_base {t : String} {v : Version} (h : KnownVersion t v) : v.schema.toList.drop v.base.length = "schema".toList := by
  rcases known_cases h with rfl | rfl | rfl <;> decide +kernel

theorem vocabs_agree {t t' : String} {v v' : Version} (h : KnownVersion t v) (h' : KnownVersion t' v') :
    ∀ p ∈ v.vocabs, ∀ p' ∈ v'.vocabs, p'.1 = p.1 → p'.2 = p.2 := by
  rcases known_cases h with rfl | rfl | rfl <;> rcases known_cases h' with rfl | rfl | rfl <;> decide +kernel

theorem callsFor_known {P : Package} {t : String} {v : Version} (h : KnownVersion t v) :
    callsFor P t = callsOf P.lib v.vocabs := by
  unfold callsFor
  rw [versionNamed_iff.2 h]

/-- Loading the metaschema of a version reads its file. -/
theorem load_file {P : Package} (hP : SoundPackage P) {done : List String} {c : CatalogObj} {t : String} {v : Version}
    (hk : (dkeys c.sources).Nodup)
    (hs : ∀ k s, dlookup k c.sources = some s → ∃ t v, KnownVersion t v ∧ k = v.base ∧ s = P.files v.folder)
    (ht : KnownVersion t v) {x : Value} (h : loadJson P.lib c.sources (P.lib.ofText v.schema) = .ok x) :
    P.files v.folder "schema" = .ok x := by
  rw [hP.schema t v ht] at h
  unfold loadJson at h
  have hstr : (⟨v.schema, none⟩ : Uri).str = v.schema := rfl
  rw [hstr] at h
  split at h
  · cases h
  · rcases sourceCandidates_head (srcs := c.sources) (t := v.schema) with ⟨hn, -⟩ | ⟨⟨p, s⟩, r, he, hm, hp, -⟩
    · rw [hn] at h; cases h
    · rw [he] at h
      obtain ⟨t', v', h', rfl, rfl⟩ := hs p s (dlookup_of_mem hk hm)
      cases prefix_base ht h' hp
      simp only [schema_base ht] at h
      split at h
      · cases h; assumption
      · cases h

theorem addUriSource_ok {lib : UriLib} {srcs srcs' : List (String × Source)} {t : String} {s : Source}
    (ht : lib.ofText t = ⟨t, none⟩) (h : addUriSource lib srcs (some (lib.ofText t)) s = .ok srcs') :
    srcs' = dset t s srcs := by
  unfold addUriSource at h
  rw [ht] at h
  simp only at h
  split at h
  · cases h
  · split at h
    · cases h; rfl
    · cases h

theorem VersionsIn.init {P : Package} (hP : SoundPackage P) {done : List String} {c c' : CatalogObj} {t : String}
    {v : Version} (hc : VersionsIn P done c) (ht : KnownVersion t v) (h : initVersion P v c = some (c', .ok ())) :
    VersionsIn P (done ++ [t]) c' := by
  unfold initVersion at h
  split at h
  · cases h
  · rename_i srcs hs
    have hs := addUriSource_ok (hP.base t v ht) hs
    subst hs
    dsimp only at h
    split at h
    · cases h
    · cases h
    · rename_i m i hm
      cases h
      have hsrc : ∀ k s, dlookup k (dset v.base (P.files v.folder) c.sources) = some s ↔
          ∃ t' ∈ done ++ [t], ∃ v', KnownVersion t' v' ∧ k = v'.base ∧ s = P.files v'.folder := by
        intro k s
        rw [dlookup_dset]
        by_cases hk : k = v.base
        · rw [if_pos hk]
          constructor
          · intro h; cases h; exact ⟨t, by simp, v, ht, hk, rfl⟩
          · rintro ⟨t', -, v', h', rfl, rfl⟩
            rw [base_inj ht h' hk]
        · rw [if_neg hk, hc.sources]
          constructor
          · rintro ⟨t', h1, h2⟩; exact ⟨t', by simp [h1], h2⟩
          · rintro ⟨t', h1, v', h2, h3, h4⟩
            rcases List.mem_append.1 h1 with h1 | h1
            · exact ⟨t', h1, v', h2, h3, h4⟩
            · rw [List.mem_singleton] at h1
              subst h1
              have := versionNamed_iff.2 ht
              rw [versionNamed_iff.2 h2] at this
              cases this
              exact absurd h3 hk
      have hkeys : (dkeys (dset v.base (P.files v.folder) c.sources)).Nodup := nodup_dset hc.keys
      obtain ⟨doc, dcore, dvs, core, h1, -, -, -, h5⟩ := createMetaschema_build hm
      have hfile := load_file (c := { c with sources := dset v.base (P.files v.folder) c.sources }) (done := done) hP hkeys
        (fun k s h => by obtain ⟨t', -, v', h⟩ := (hsrc k s).1 h; exact ⟨t', v', h⟩) ht h1
      obtain ⟨hsch, hname⟩ := hP.file t v ht doc hfile
      rw [hP.schema t v ht] at h5
      refine ⟨hkeys, hsrc, ?_, ?_⟩
      · simp only [hc.vocabs, List.flatMap_append, List.flatMap_cons, List.flatMap_nil, List.append_nil,
          createAll_append, callsFor_known ht]
      · intro t' ht' v' hv'
        by_cases he : v' = v
        · subst he
          rcases buildMeta_end (hP.tame _) hname hsch h5 with ⟨o, d, a, f, -⟩ | ⟨e, he⟩
          · exact ⟨_, o, a, f⟩
          · cases he
        · refine buildMeta_other (hP.tame _) hname h5 (fun e => he (schema_inj ht hv' (congrArg Uri.base e))) ?_
          refine hc.metas t' ?_ v' hv'
          rcases List.mem_append.1 ht' with h | h
          · exact h
          · rw [List.mem_singleton] at h
            subst h
            have := versionNamed_iff.2 ht
            rw [versionNamed_iff.2 hv'] at this
            cases this
            exact absurd rfl he

theorem VersionsIn.all {P : Package} (hP : SoundPackage P) {ts done : List String} {c c' : CatalogObj}
    (hc : VersionsIn P done c) (h : initVersions P ts c = some (c', .ok ())) :
    VersionsIn P (done ++ ts) c' ∧ ∀ t ∈ ts, ∃ v, KnownVersion t v := by
  induction ts generalizing done c with
  | nil => cases h; exact ⟨by simpa using hc, by simp⟩
  | cons t ts ih =>
    unfold initVersions at h
    split at h
    · cases h
    · rename_i v hv
      have ht := versionNamed_iff.1 hv
      split at h
      · cases h
      · cases h
      · rename_i c1 hi
        obtain ⟨h1, h2⟩ := ih (hc.init hP ht hi) h
        refine ⟨by simpa using h1, fun t' h' => ?_⟩
        rcases List.mem_cons.1 h' with rfl | h'
        · exact ⟨v, ht⟩
        · exact h2 t' h'

/-- C89: if `create_catalog` returns, all versions are known, and the catalog it returns has exactly the sources and
the vocabularies of the versions, in whatever order these are given; and it has the metaschema of each. -/
theorem C89_versions (P : Package) (hP : SoundPackage P) (st : Catalogs) (versions : List String) (name : String)
    (st' : Catalogs) (i : Nat) (h : createCatalog P st versions name = some (st', .ok i)) :
    (∀ t ∈ versions, ∃ v, KnownVersion t v) ∧ ∃ c, st'.cats[i]? = some c ∧
      (∀ k s, dlookup k c.sources = some s ↔
        ∃ t ∈ versions, ∃ v, KnownVersion t v ∧ k = v.base ∧ s = P.files v.folder) ∧
      (∀ t ∈ versions, ∀ v, KnownVersion t v →
        (∀ p ∈ v.vocabs, ∃ w, getVocabulary c.vocabs (P.lib.ofText p.1) = .ok w ∧
          ∀ k cls, dlookup k w.kwclasses = some cls ↔ LastWith k cls p.2) ∧
        ∃ j o, getMetaschema (P.env c) c.metas (P.lib.ofText v.schema) = some (c.metas, .ok j) ∧
          c.metas.objs[j]? = some o ∧ o.uri = P.lib.ofText v.schema) ∧
      ∀ u, (∀ t ∈ versions, ∀ v, KnownVersion t v → ∀ p ∈ v.vocabs, u ≠ P.lib.ofText p.1) →
        getVocabulary c.vocabs u = .error .catalogError := by
  obtain ⟨c, r', hi, -, rfl, hr⟩ := createCatalog_enter h
  rcases hr with ⟨rfl, hr⟩ | ⟨e, -, hr⟩ <;> cases hr
  have h0 : VersionsIn P [] (.new name) :=
    ⟨by simp [CatalogObj.new, dkeys], fun k s => by simp [CatalogObj.new, dlookup], rfl, by simp⟩
  obtain ⟨hc, hk⟩ := h0.all hP hi
  rw [List.nil_append] at hc
  have calls : ∀ u cs, (u, cs) ∈ versions.flatMap (callsFor P) ↔
      ∃ t ∈ versions, ∃ v, KnownVersion t v ∧ ∃ p ∈ v.vocabs, u = P.lib.ofText p.1 ∧ cs = p.2 := by
    intro u cs
    rw [List.mem_flatMap]
    constructor
    · rintro ⟨t, ht, hm⟩
      obtain ⟨v, hv⟩ := hk t ht
      rw [callsFor_known hv, callsOf, List.mem_map] at hm
      obtain ⟨p, hp, he⟩ := hm
      cases he
      exact ⟨t, ht, v, hv, p, hp, rfl, rfl⟩
    · rintro ⟨t, ht, v, hv, p, hp, rfl, rfl⟩
      exact ⟨t, ht, by rw [callsFor_known hv]; exact List.mem_map.2 ⟨p, hp, rfl⟩⟩
  refine ⟨hk, c, by simp [Catalogs.enter], hc.sources, fun t ht v hv => ⟨fun p hp => ?_, ?_⟩, fun u hu => ?_⟩
  · have hcr : CreatedAs (versions.flatMap (callsFor P)) (P.lib.ofText p.1) p.2 := by
      refine createdAs_of_agree ((calls _ _).2 ⟨t, ht, v, hv, p, hp, rfl, rfl⟩) fun cs' h' => ?_
      obtain ⟨t', -, v', hv', p', hp', he, rfl⟩ := (calls _ _).1 h'
      rw [hP.vocab t v hv p hp, hP.vocab t' v' hv' p' hp'] at he
      exact vocabs_agree hv hv' p hp p' hp' (congrArg Uri.base he).symm
    obtain ⟨w, h1, -, h2⟩ := (C68_get_vocabulary _ _).1 _ hcr
    exact ⟨w, by rw [hc.vocabs]; exact h1, h2⟩
  · obtain ⟨j, o, ha, hf⟩ := hc.metas t ht v hv
    rw [hP.schema t v hv]
    refine ⟨j, o, ?_, ha.obj, ha.uri⟩
    rw [C69_cached _ _ _ j o ha.cache ha.obj hf, ha.isMeta]; rfl
  · rw [hc.vocabs]
    refine (C68_get_vocabulary _ _).2 fun p hp he => ?_
    obtain ⟨t, ht, v, hv, q, hq, h1, -⟩ := (calls p.1 p.2).1 hp
    exact hu t ht v hv q hq (he.symm.trans h1)

/-! ## A concrete case -/

namespace Toy

/-- A metaschema document with the given `$id` and one vocabulary. -/
def schemaFile (id core : String) : List (String × Value) :=
  [("$schema", .str id), ("$vocabulary", .obj [(core, .bool true)]), ("$id", .str id)]

/-- The files have small metaschemas; what follows `_bootstrap` succeeds. -/
def package : Package where
  lib := Toy.lib
  files folder := fun p =>
    if p = "schema" then
      if folder = "json-schema-2019-09" then .ok (.obj (schemaFile version2019.schema version2019.core))
      else if folder = "json-schema-2020-12" then .ok (.obj (schemaFile version2020.schema version2020.core))
      else .ok (.obj (schemaFile versionNext.schema versionNext.core))
    else .error .keyError
  coreOf _ st _ := (st, .ok exCore)
  rest _ st _ _ := (st, .ok ())
  valid _ st _ := (st, .ok true)

theorem package_ok : SoundPackage package where
  tame _ := ⟨fun _ _ => metaKept_refl _, fun _ _ _ => metaKept_refl _, fun _ _ => metaKept_refl _⟩
  base t v h := by rcases known_cases h with rfl | rfl | rfl <;> decide +kernel
  schema t v h := by rcases known_cases h with rfl | rfl | rfl <;> decide +kernel
  vocab t v h := by rcases known_cases h with rfl | rfl | rfl <;> decide +kernel
  file t v h doc hd := by
    have key : doc = schemaFile v.schema v.core := by
      rcases known_cases h with rfl | rfl | rfl <;> (cases hd; rfl)
    subst key
    refine ⟨rfl, fun t ht r hr => ?_⟩
    have e : dlookup "$id" (schemaFile v.schema v.core) = some (.str v.schema) := rfl
    rw [e] at ht; cases ht
    rcases hr with rfl | hr
    · rcases known_cases h with rfl | rfl | rfl <;> decide +kernel
    · have : Toy.lib.resolve (Toy.lib.ofText v.schema) (Uri.noFragment ⟨v.schema, none⟩) = some ⟨v.schema, none⟩ := by
        rcases known_cases h with rfl | rfl | rfl <;> decide +kernel
      have hl : package.lib = Toy.lib := rfl
      rw [hl, this] at hr
      cases hr
      rcases known_cases h with rfl | rfl | rfl <;> decide +kernel

end Toy

/-- A catalog is created with two versions; with a third one that is not known, ValueError is raised, and the
catalog is there all the same. -/
example : ∃ st', createCatalog Toy.package .start ["2020-12", "2019-09"] "c" = some (st', .ok 0) ∧
    createCatalog Toy.package .start (["2020-12", "2019-09"] ++ "draft-07" :: []) "c" = some (st', .error .valueError) ∧
    getCatalog st' "c" = .ok 0 := by
  have h : (createCatalog Toy.package .start ["2020-12", "2019-09"] "c").map
      (fun p => (match p.2 with | .ok i => some i | .error _ => none)) = some (some 0) := by decide +kernel
  obtain ⟨⟨st', r⟩, hc, hr⟩ := Option.map_eq_some_iff.1 h
  cases r with
  | error e => cases hr
  | ok i =>
    cases hr
    refine ⟨st', hc, C89_left_behind _ _ _ _ _ _ ?_ _ hc, (C89_create _ _ _ _ _ _ hc).1⟩
    rintro v (⟨h, -⟩ | ⟨h, -⟩ | ⟨h, -⟩) <;> exact absurd h (by decide)

end Jschon
