import Verif.Spec.Metaschema
import Verif.Props.Vocabulary

/-!
# C69: creating and getting metaschemas
-/

namespace Jschon

open Spec

/-- A metaschema that is cached is returned as it is; another schema that is cached under the URI is
a CatalogError; nothing is created. -/
theorem C69_cached (E : MetaEnv) (st : MetaState) (uri : Uri) (i : Nat) (o : MetaObj)
    (hc : alookup uri st.cache = some i) (ho : st.objs[i]? = some o) (hf : o.filled = true) :
    getMetaschema E st uri = some (st, if o.isMeta then .ok i else .error .catalogError) := by
  simp only [getMetaschema, hc, Option.bind_some, ho, Option.map_some, hf, if_true]
  split <;> rfl

/-- The state of the constructor: the object `i` of `uri`. -/
structure MetaAt (st : MetaState) (uri : Uri) (i : Nat) (o : MetaObj) : Prop where
  cache : alookup uri st.cache = some i
  obj : st.objs[i]? = some o
  isMeta : o.isMeta = true
  uri : o.uri = uri

theorem MetaAt.change {st uri i o} (h : MetaAt st uri i o) (f : MetaObj → MetaObj)
    (hm : (f o).isMeta = o.isMeta) (hu : (f o).uri = o.uri) : MetaAt (st.change i f) uri i (f o) where
  cache := h.cache
  obj := by simp [MetaState.change, h.obj]
  isMeta := hm.trans h.isMeta
  uri := hu.trans h.uri

theorem MetaAt.kept {st st' uri i o} (h : MetaAt st uri i o) (hk : MetaKept st st') :
    ∃ o', MetaAt st' uri i o' ∧ (o.filled = true → o'.filled = true) ∧
      ∀ k c, dlookup k o.kwclasses = some c → dlookup k o'.kwclasses = some c := by
  obtain ⟨o', h1, h2, h3, h4, h5⟩ := hk.objs i o h.obj
  exact ⟨o', ⟨hk.cache _ _ h.cache, h1, h2.trans h.isMeta, h4.trans h.uri⟩, h3, h5⟩

theorem metaSchemaKw_at {E : MetaEnv} {st uri i o doc st'} (h : MetaAt st uri i o)
    (hs : metaSchemaKw E st i doc = some (st', .ok ())) :
    ∃ o', MetaAt st' uri i o' ∧ ((dlookup "$schema" doc).isSome → o'.filled = true) ∧
      o'.kwclasses = o.kwclasses := by
  unfold metaSchemaKw at hs
  split at hs
  · rename_i hd
    cases hs
    exact ⟨o, h, by simp [hd], rfl⟩
  · split at hs
    · cases hs
    · cases hs
      exact ⟨_, h.change _ rfl rfl, fun _ => rfl, rfl⟩
  · cases hs

theorem metaIdKw_at {E : MetaEnv} (hE : TameMeta E) {st uri i o doc st' r} (h : MetaAt st uri i o)
    (hname : NamesItself E.lib uri doc) (hs : metaIdKw E st i doc = some (st', r)) :
    ∃ o', MetaAt st' uri i o' ∧ (o.filled = true → o'.filled = true) ∧
      ∀ k c, dlookup k o.kwclasses = some c → dlookup k o'.kwclasses = some c := by
  unfold metaIdKw at hs
  split at hs
  · cases hs
    exact ⟨o, h, id, fun _ _ => id⟩
  · rename_i v hv
    split at hs
    · cases hs
      exact ⟨o, h, id, fun _ _ => id⟩
    · rename_i mu hmu
      have hk := hE.coreOf st mu
      cases hco : E.coreOf st mu with
      | mk st1 r1 =>
        rw [hco] at hk
        obtain ⟨o1, h1, h2, h3⟩ := h.kept hk
        rw [hco] at hs
        cases r1 with
        | error e => cases hs; exact ⟨o1, h1, h2, h3⟩
        | ok c =>
          simp only at hs
          cases v with
          | str t =>
            simp only at hs
            split at hs
            · cases hs; exact ⟨o1, h1, h2, h3⟩
            · split at hs
              · cases hs; exact ⟨o1, h1, h2, h3⟩
              · rename_i r hr
                cases hs
                have hsame : E.lib.same uri r = true := by
                  refine hname t hv r ?_
                  by_cases ha : E.lib.isAbsolute (E.lib.ofText t) = true
                  · rw [if_pos ha] at hr
                    cases hr
                    exact .inl rfl
                  · rw [if_neg ha, h1.obj, Option.bind_some, h1.uri] at hr
                    exact .inr hr
                have hset : metaSetUri E.lib st1 i r = st1 := by
                  simp [metaSetUri, h1.obj, h1.uri, hsame]
                rw [hset]
                exact ⟨_, h1.change _ rfl rfl, fun _ => rfl, h3⟩
          | _ => cases hs

theorem dupdate_mono {β : Type} (e : List (String × β)) :
    ∀ {d d' : List (String × β)}, (∀ k c, dlookup k d = some c → dlookup k d' = some c) →
      ∀ k c, dlookup k (dupdate d e) = some c → dlookup k (dupdate d' e) = some c := by
  induction e with
  | nil => exact fun h => h
  | cons p r ih =>
    intro d d' h
    refine ih (d := dset p.1 p.2 d) (d' := dset p.1 p.2 d') (fun k c hk => ?_)
    rw [dlookup_dset] at hk ⊢
    by_cases hp : k = p.1
    · simpa [hp] using hk
    · simp only [hp, if_false] at hk ⊢
      exact h k c hk

theorem addVocabs_mono (doc : List (String × Value)) (core : Vocab) (defaults : List Vocab)
    {d d' : List (String × KwCls)} (h : ∀ k c, dlookup k d = some c → dlookup k d' = some c) :
    ∀ k c, dlookup k (addVocabs doc core defaults d) = some c →
      dlookup k (addVocabs doc core defaults d') = some c := by
  have h1 := dupdate_mono core.kwclasses h
  simp only [addVocabs]
  split
  · exact h1
  · revert h1
    generalize dupdate d core.kwclasses = e
    generalize dupdate d' core.kwclasses = e'
    clear h
    induction defaults generalizing e e' with
    | nil => exact fun h => h
    | cons v r ih => exact fun h => ih _ _ (dupdate_mono v.kwclasses h)

/-- The state in which the constructor starts. -/
theorem newMetaNode_at (st : MetaState) (uri : Uri) (core : Vocab) :
    MetaAt { objs := st.objs ++ [⟨true, false, uri, none, core, []⟩], cache := aset uri st.objs.length st.cache }
      uri st.objs.length ⟨true, false, uri, none, core, []⟩ where
  cache := by simp [alookup_aset]
  obj := by simp
  isMeta := rfl
  uri := rfl

/-- What is known of the object when the constructor comes to its end: by then its keyword table is
complete. -/
theorem buildMeta_end {E : MetaEnv} (hE : TameMeta E) {st : MetaState} {uri : Uri}
    {doc : List (String × Value)} {core : Vocab} {defaults : List Vocab} {st' : MetaState} {r : Except Exc Nat}
    (hname : NamesItself E.lib uri doc) (hschema : (dlookup "$schema" doc).isSome)
    (hb : buildMeta E st uri doc core defaults = some (st', r)) :
    (∃ o d, MetaAt st' uri st.objs.length o ∧ o.filled = true ∧
        metaTable E.lib E.vocabs doc core defaults = .ok d ∧
        (∀ k c, dlookup k d = some c → dlookup k o.kwclasses = some c) ∧
        (r = .ok st.objs.length ∨ r = .error .catalogError)) ∨
      (∃ e, r = .error e) := by
  unfold buildMeta at hb
  have h0 := newMetaNode_at st uri core
  simp only at hb
  revert hb h0
  generalize (⟨st.objs ++ [⟨true, false, uri, none, core, []⟩], aset uri st.objs.length st.cache⟩ : MetaState) = s0
  generalize st.objs.length = i
  intro hb h0
  cases h1 : metaSchemaKw E s0 i doc with
  | none => rw [h1] at hb; cases hb
  | some p =>
    obtain ⟨s1, r1⟩ := p
    rw [h1] at hb
    cases r1 with
    | error e => cases hb; exact .inr ⟨e, rfl⟩
    | ok _ =>
      obtain ⟨o1, a1, f1, k1⟩ := metaSchemaKw_at h0 h1
      have f1 := f1 hschema
      have k1 : o1.kwclasses = [] := k1
      simp only at hb
      -- `$vocabulary`
      cases h2 : metaVocabularyKw E s1 i core doc with
      | mk s2 r2 =>
        rw [h2] at hb
        cases r2 with
        | error e => cases hb; exact .inr ⟨e, rfl⟩
        | ok _ =>
          simp only at hb
          obtain ⟨o2, d2, a2, f2, k2, t2⟩ : ∃ o2 d2, MetaAt s2 uri i o2 ∧ o2.filled = true ∧
              o2.kwclasses = d2 ∧ metaTable E.lib E.vocabs doc core defaults =
                .ok (addVocabs doc core defaults d2) := by
            unfold metaVocabularyKw at h2
            cases hv : dlookup "$vocabulary" doc with
            | none =>
              rw [hv] at h2
              cases h2
              exact ⟨o1, [], a1, f1, k1, by simp [metaTable, hv]⟩
            | some v =>
              rw [hv] at h2
              simp only at h2
              cases hw : vocabularyKw E.lib E.vocabs core [] v with
              | mk d rr =>
                rw [hw] at h2
                cases rr with
                | error e => cases h2
                | ok _ =>
                  cases h2
                  exact ⟨_, d, a1.change _ rfl rfl, rfl, rfl, by simp [metaTable, hv, hw]⟩
          -- `$id`
          cases h3 : metaIdKw E s2 i doc with
          | none => rw [h3] at hb; cases hb
          | some p =>
            obtain ⟨s3, r3⟩ := p
            rw [h3] at hb
            cases r3 with
            | error e => cases hb; exact .inr ⟨e, rfl⟩
            | ok _ =>
              simp only at hb
              obtain ⟨o3, a3, f3, k3⟩ := metaIdKw_at hE a2 hname h3
              have a4 := a3.change (fun o => { o with kwclasses := addVocabs doc core defaults o.kwclasses }) rfl rfl
              have k4 := addVocabs_mono doc core defaults k3
              rw [k2] at k4
              have f4 := f3 f2
              revert hb a4
              generalize s3.change i (fun o => { o with kwclasses := addVocabs doc core defaults o.kwclasses }) = s4
              intro hb a4
              have hk5 := hE.rest s4 i doc
              cases h5 : E.rest s4 i doc with
              | mk s5 r5 =>
                rw [h5] at hb hk5
                obtain ⟨o5, a5, f5, k5⟩ := a4.kept hk5
                cases r5 with
                | error e => cases hb; exact .inr ⟨e, rfl⟩
                | ok _ =>
                  simp only at hb
                  have hk6 := hE.valid s5 i
                  cases h6 : E.valid s5 i with
                  | mk s6 r6 =>
                    rw [h6] at hb hk6
                    obtain ⟨o6, a6, f6, k6⟩ := a5.kept hk6
                    have hfin : ∀ k c, dlookup k (addVocabs doc core defaults d2) = some c →
                        dlookup k o6.kwclasses = some c := fun k c h => k6 k c (k5 k c (k4 k c h))
                    cases r6 with
                    | error e => cases hb; exact .inr ⟨e, rfl⟩
                    | ok b =>
                      cases b with
                      | true =>
                        cases hb
                        exact .inl ⟨o6, _, a6, f6 (f5 f4), t2, hfin, .inl rfl⟩
                      | false =>
                        cases hb
                        exact .inl ⟨o6, _, a6, f6 (f5 f4), t2, hfin, .inr rfl⟩

theorem createMetaschema_build {E : MetaEnv} {st : MetaState} {uri : Uri} {core : Option Uri}
    {defaults : List Uri} {st' : MetaState} {i : Nat}
    (h : createMetaschema E st uri core defaults = some (st', .ok i)) :
    ∃ doc dcore dvs c, loadJson E.lib E.sources uri = .ok (.obj doc) ∧
      getDefaultCore E.vocabs core = .ok dcore ∧ getVocabularies E.vocabs defaults = .ok dvs ∧
      chooseCore E.lib E.vocabs doc dcore = .ok c ∧ buildMeta E st uri doc c dvs = some (st', .ok i) := by
  unfold createMetaschema at h
  cases h1 : loadJson E.lib E.sources uri with
  | error e => rw [h1] at h; cases h
  | ok v =>
    rw [h1] at h
    cases h2 : getDefaultCore E.vocabs core with
    | error e => rw [h2] at h; cases h
    | ok dcore =>
      rw [h2] at h
      cases h3 : getVocabularies E.vocabs defaults with
      | error e => rw [h3] at h; cases h
      | ok dvs =>
        rw [h3] at h
        cases v with
        | obj doc =>
          simp only at h
          cases h4 : chooseCore E.lib E.vocabs doc dcore with
          | error e => rw [h4] at h; cases h
          | ok c =>
            rw [h4] at h
            exact ⟨doc, dcore, dvs, c, rfl, rfl, rfl, h4, h⟩
        | _ => cases h

/-- A dict of keyword classes by their keys. -/
def ByKey (d : List (String × KwCls)) : Prop := (dkeys d).Nodup ∧ ∀ p ∈ d, p.2.key = p.1

theorem ByKey.update {d e : List (String × KwCls)} (h : ByKey d) (h' : ByKey e) : ByKey (dupdate d e) :=
  ⟨dupdate_nodup h.1, dupdate_keyed h'.2 h.1 h.2⟩

theorem ByKey.find {d : List (String × KwCls)} (h : ByKey d) (k : String) :
    (d.map Prod.snd).find? (fun c => c.key = k) = dlookup k d := by
  have hk := h.2
  clear h
  induction d with
  | nil => rfl
  | cons p r ih =>
    obtain ⟨k', c⟩ := p
    have hc : c.key = k' := hk (k', c) (by simp)
    simp only [List.map_cons, List.find?_cons, dlookup, hc]
    by_cases h' : k = k'
    · simp [h']
    · simp [h', Ne.symm h', ih (fun p hp => hk p (by simp [hp]))]

theorem getVocabulary_byKey {calls : List (Uri × List KwCls)} {u : Uri} {v : Vocab}
    (h : getVocabulary (createAll [] calls) u = .ok v) : ByKey v.kwclasses := by
  rcases getVocabulary_cases calls u with ⟨cs, -, h'⟩ | ⟨-, h'⟩
  · rw [h'] at h
    cases h
    exact ⟨(newVocab_tabled u cs).nodup, (newVocab_tabled u cs).keyed⟩
  · rw [h'] at h; cases h

theorem getVocabularies_byKey {calls : List (Uri × List KwCls)} {us : List Uri} :
    ∀ {vs : List Vocab}, getVocabularies (createAll [] calls) us = .ok vs →
      ∀ v ∈ vs, ByKey v.kwclasses := by
  induction us with
  | nil => intro vs h; cases h; simp
  | cons u r ih =>
    intro vs h
    unfold getVocabularies at h
    cases h1 : getVocabulary (createAll [] calls) u with
    | error e => rw [h1] at h; cases h
    | ok v =>
      rw [h1] at h
      cases h2 : getVocabularies (createAll [] calls) r with
      | error e => rw [h2] at h; cases h
      | ok ws =>
        rw [h2] at h
        cases h
        intro x hx
        rcases List.mem_cons.1 hx with rfl | hx
        · exact getVocabulary_byKey h1
        · exact ih h2 x hx

theorem getDefaultCore_byKey {calls : List (Uri × List KwCls)} {core : Option Uri} {v : Vocab}
    (h : getDefaultCore (createAll [] calls) core = .ok (some v)) : ByKey v.kwclasses := by
  unfold getDefaultCore at h
  split at h
  · cases h
  · rename_i u
    split at h
    · cases h
    · cases h1 : getVocabulary (createAll [] calls) u with
      | error e => rw [h1] at h; cases h
      | ok w => rw [h1] at h; cases h; exact getVocabulary_byKey h1

theorem chooseCore_byKey {lib : UriLib} {calls : List (Uri × List KwCls)} {doc : List (String × Value)}
    {default : Option Vocab} {v : Vocab} (hd : ∀ w, default = some w → ByKey w.kwclasses)
    (h : chooseCore lib (createAll [] calls) doc default = .ok v) : ByKey v.kwclasses := by
  have hpick : ∀ names other, pickFrom lib (createAll [] calls) names other = .ok v → ByKey v.kwclasses := by
    intro names other h
    unfold pickFrom at h
    split at h
    · exact getVocabulary_byKey h
    · cases h
  unfold chooseCore at h
  split at h
  · rename_i w hw
    cases w with
    | obj kvs => exact hpick _ _ h
    | arr xs =>
      simp only [pickCore] at h
      split at h
      · exact hpick _ _ h
      · cases h
    | _ => cases h
  · split at h
    · cases h; exact hd _ rfl
    · cases h

theorem metaTable_byKey {lib : UriLib} {calls : List (Uri × List KwCls)} {doc : List (String × Value)}
    {core : Vocab} {defaults : List Vocab} {d : List (String × KwCls)} (hc : ByKey core.kwclasses)
    (hd : ∀ v ∈ defaults, ByKey v.kwclasses)
    (h : metaTable lib (createAll [] calls) doc core defaults = .ok d) : ByKey d := by
  have hadd : ∀ e, ByKey e → ByKey (addVocabs doc core defaults e) := by
    intro e he
    have h1 := he.update hc
    simp only [addVocabs]
    split
    · exact h1
    · revert h1
      generalize dupdate e core.kwclasses = x
      clear h he
      induction defaults generalizing x with
      | nil => exact fun h => h
      | cons v r ih =>
        exact fun h => ih (fun v hv => hd v (by simp [hv])) _ (h.update (hd v (by simp)))
  have hnil : ByKey ([] : List (String × KwCls)) := ⟨by simp [dkeys], by simp⟩
  unfold metaTable at h
  split at h
  · cases h; exact hadd _ hnil
  · rename_i v hv
    cases hw : vocabularyKw lib (createAll [] calls) core [] v with
    | mk e r =>
      rw [hw] at h
      cases r with
      | error x => cases h
      | ok _ =>
        cases h
        apply hadd
        unfold vocabularyKw at hw
        split at hw
        · rename_i kvs
          split at hw
          · rcases vocabLoop_spec lib calls kvs [] [] Tabled.nil with ⟨rest, d', h1, h2, h3, h4⟩ | ⟨-, d', h4⟩
            · rw [h4] at hw
              cases hw
              exact ⟨h2.nodup, h2.keyed⟩
            · rw [h4] at hw; cases hw
          · cases hw
        · split at hw <;> cases hw
        · split at hw <;> cases hw
        · cases hw
        · cases hw
        · cases hw

/-- A metaschema that was created has the keyword classes of its vocabularies (those of C68), and
`get_metaschema` returns it ever after: provided that its document has a `$schema` and names no other
URI, and that what is constructed besides does not take its URI. -/
theorem C69_created_partial (E : MetaEnv) (hE : TameMeta E) (calls : List (Uri × List KwCls))
    (hvs : E.vocabs = createAll [] calls) (st : MetaState) (uri : Uri)
    (core : Option Uri) (defaults : List Uri) (st' : MetaState) (i : Nat)
    (doc : List (String × Value)) (hdoc : loadJson E.lib E.sources uri = .ok (.obj doc))
    (hname : NamesItself E.lib uri doc) (hschema : (dlookup "$schema" doc).isSome)
    (h : createMetaschema E st uri core defaults = some (st', .ok i)) :
    getMetaschema E st' uri = some (st', .ok i) ∧
    ∃ o dcore dvs m, st'.objs[i]? = some o ∧ getDefaultCore E.vocabs core = .ok dcore ∧
      getVocabularies E.vocabs defaults = .ok dvs ∧
      newMeta E.lib E.vocabs doc dcore dvs = .ok m ∧
      ∀ k, (∃ c ∈ m.classes, c.key = k) → ∃ c, getKwclass m k = .ok c ∧ dlookup k o.kwclasses = some c := by
  obtain ⟨doc', dcore, dvs, c, h1, h2, h3, h4, h5⟩ := createMetaschema_build h
  rw [hdoc] at h1
  cases h1
  rcases buildMeta_end hE hname hschema h5 with ⟨o, d, a, f, t, k, hr⟩ | ⟨e, he⟩
  · rcases hr with hr | hr
    · cases hr
      refine ⟨?_, o, dcore, dvs, ⟨d.map Prod.snd, knownCoreUri c.uri⟩, a.obj, h2, h3, ?_, ?_⟩
      · rw [C69_cached E st' uri _ o a.cache a.obj f, a.isMeta]
        rfl
      · simp [newMeta, h4, t]
      · rw [hvs] at h2 h3 h4 t
        have hb : ByKey d := metaTable_byKey (chooseCore_byKey (fun w hw => getDefaultCore_byKey (hw ▸ h2)) h4)
          (getVocabularies_byKey h3) t
        rintro key ⟨x, hx, hxk⟩
        have hfind := hb.find key
        cases hl : (d.map Prod.snd).find? (fun c => c.key = key) with
        | none => exact absurd hxk (by simpa using List.find?_eq_none.1 hl x hx)
        | some y =>
          rw [hl] at hfind
          exact ⟨y, by simp [getKwclass, hl], k key y hfind.symm⟩
    · cases hr
  · cases he

/-- Nothing is cached if there is no document, no object, no vocabulary or no core vocabulary. -/
theorem C69_early_failure (E : MetaEnv) (st : MetaState) (uri : Uri) (core : Option Uri) (defaults : List Uri)
    (e : Exc)
    (h : loadJson E.lib E.sources uri = .error e ∨ getDefaultCore E.vocabs core = .error e ∨
      getVocabularies E.vocabs defaults = .error e ∨
      ∃ doc dcore, loadJson E.lib E.sources uri = .ok (.obj doc) ∧
        getDefaultCore E.vocabs core = .ok dcore ∧ chooseCore E.lib E.vocabs doc dcore = .error e) :
    ∃ e', createMetaschema E st uri core defaults = some (st, .error e') := by
  unfold createMetaschema
  cases h1 : loadJson E.lib E.sources uri with
  | error e1 => exact ⟨_, rfl⟩
  | ok v =>
    cases h2 : getDefaultCore E.vocabs core with
    | error e1 => exact ⟨_, rfl⟩
    | ok dcore =>
      cases h3 : getVocabularies E.vocabs defaults with
      | error e1 => exact ⟨_, rfl⟩
      | ok dvs =>
        rcases h with h | h | h | ⟨doc, dcore', h, h', h''⟩
        · rw [h1] at h; cases h
        · rw [h2] at h; cases h
        · rw [h3] at h; cases h
        · rw [h1] at h
          rw [h2] at h'
          cases h
          cases h'
          exact ⟨e, by simp [h'']⟩

/-- A document that is not an object has no `get`: nothing is cached, and what is raised is an
`AttributeError`, not a `CatalogError`. -/
theorem C69_not_object (E : MetaEnv) (st : MetaState) (uri : Uri) (core : Option Uri) (defaults : List Uri)
    (v : Value) (dcore : Option Vocab) (dvs : List Vocab) (hdoc : loadJson E.lib E.sources uri = .ok v)
    (hv : ∀ doc, v ≠ .obj doc) (hcore : getDefaultCore E.vocabs core = .ok dcore)
    (hdvs : getVocabularies E.vocabs defaults = .ok dvs) :
    createMetaschema E st uri core defaults = some (st, .error .attributeError) := by
  unfold createMetaschema
  cases v with
  | obj doc => exact absurd rfl (hv doc)
  | _ => simp only [hdoc, hcore, hdvs]

/-- The `$id` of a metaschema is refused for what it is exactly if it is no valid URI reference, if it
has a fragment that is not empty, or if it has an empty fragment and the core vocabulary is neither that
of 2019-09 nor that of 2020-12. -/
theorem C69_id_refused (E : MetaEnv) (st st1 : MetaState) (i : Nat) (doc : List (String × Value)) (t : String)
    (mu : Uri) (c : String) (hid : dlookup "$id" doc = some (.str t))
    (hmu : (st.objs[i]?).bind MetaObj.metaUri = some mu) (hc : E.coreOf st mu = (st1, .ok c)) :
    (∃ st', metaIdKw E st i doc = some (st', .error .uriError)) ↔
      E.lib.valid (E.lib.ofText t) = false ∨ (∃ f, (E.lib.ofText t).fragment = some f ∧ f ≠ "") ∨
      ((E.lib.ofText t).fragment = some "" ∧ c ≠ "https://json-schema.org/draft/2019-09/vocab/core" ∧
        c ≠ "https://json-schema.org/draft/2020-12/vocab/core") := by
  have hval : ∀ known : Bool, (E.lib.ofText t).validate E.lib false false known (!known) =
      if E.lib.valid (E.lib.ofText t) = false ∨ (∃ f, (E.lib.ofText t).fragment = some f ∧ f ≠ "") ∨
        ((E.lib.ofText t).fragment = some "" ∧ known = false) then .error .uriError else .ok () := by
    intro known
    unfold Uri.validate
    cases E.lib.valid (E.lib.ofText t) <;> cases known <;> cases (E.lib.ofText t).fragment with
    | none => simp
    | some f => by_cases hf : f = "" <;> simp [hf]
  unfold metaIdKw
  simp only [hid, hmu, hc, hval]
  by_cases hk : c = "https://json-schema.org/draft/2019-09/vocab/core" ∨
    c = "https://json-schema.org/draft/2020-12/vocab/core"
  · have hk' : ¬ (c ≠ "https://json-schema.org/draft/2019-09/vocab/core" ∧
        c ≠ "https://json-schema.org/draft/2020-12/vocab/core") := by
      rintro ⟨h1, h2⟩
      exact hk.elim h1 h2
    simp only [hk, decide_true, hk', and_false, or_false, Bool.true_eq_false]
    by_cases hb : E.lib.valid (E.lib.ofText t) = false ∨ ∃ f, (E.lib.ofText t).fragment = some f ∧ f ≠ ""
    · rw [if_pos hb]
      exact ⟨fun _ => hb, fun _ => ⟨_, rfl⟩⟩
    · rw [if_neg hb]
      refine ⟨fun ⟨st', h⟩ => ?_, fun h => absurd h hb⟩
      simp only at h
      split at h <;> cases h
  · have hk' : c ≠ "https://json-schema.org/draft/2019-09/vocab/core" ∧
        c ≠ "https://json-schema.org/draft/2020-12/vocab/core" := not_or.mp hk
    simp only [hk, decide_false, and_true]
    by_cases hb : E.lib.valid (E.lib.ofText t) = false ∨
        (∃ f, (E.lib.ofText t).fragment = some f ∧ f ≠ "") ∨ (E.lib.ofText t).fragment = some ""
    · rw [if_pos hb]
      refine ⟨fun _ => ?_, fun _ => ⟨_, rfl⟩⟩
      rcases hb with h | h | h
      · exact .inl h
      · exact .inr (.inl h)
      · exact .inr (.inr ⟨h, hk'⟩)
    · rw [if_neg hb]
      refine ⟨fun ⟨st', h⟩ => ?_, fun h => absurd ?_ hb⟩
      · simp only at h
        split at h <;> cases h
      · rcases h with h | h | h
        · exact .inl h
        · exact .inr (.inl h)
        · exact .inr (.inr h.1)

/-- It is false that a metaschema that could not be created is not returned: if the entries of
`$vocabulary` are rejected, `create_metaschema` raises, but what was constructed stays in the cache; it
is what `get_metaschema` returns the next time, with the keyword classes collected before the rejection,
and without those of the core vocabulary unless that came first. -/
theorem C69_rejected_is_returned (E : MetaEnv) (st : MetaState) (uri : Uri) (core : Option Uri)
    (doc : List (String × Value)) (dcore : Option Vocab) (c : Vocab) (t : String) (v : Value)
    (d : List (String × KwCls)) (e : Exc)
    (hdoc : loadJson E.lib E.sources uri = .ok (.obj doc)) (hcore : getDefaultCore E.vocabs core = .ok dcore)
    (hchoose : chooseCore E.lib E.vocabs doc dcore = .ok c)
    (hschema : dlookup "$schema" doc = some (.str t)) (hfit : FitUri E.lib (E.lib.ofText t))
    (hv : dlookup "$vocabulary" doc = some v) (hrej : vocabularyKw E.lib E.vocabs c [] v = (d, .error e)) :
    ∃ st' i o, createMetaschema E st uri core [] = some (st', .error e) ∧
      getMetaschema E st' uri = some (st', .ok i) ∧ st'.objs[i]? = some o ∧ o.kwclasses = d := by
  have hval : (E.lib.ofText t).validate E.lib true true true true = .ok () := by
    rcases validate_fit (lib := E.lib) (u := E.lib.ofText t) with ⟨-, h⟩ | ⟨h, -⟩
    · exact h
    · exact absurd hfit h
  have a0 := newMetaNode_at st uri c
  have a1 := a0.change (fun o => { o with metaUri := some (E.lib.ofText t), filled := true }) rfl rfl
  have a2 := a1.change (fun o => { o with kwclasses := d }) rfl rfl
  refine ⟨_, _, _, ?_, ?_, a2.obj, rfl⟩
  · simp only [createMetaschema, hdoc, hcore, getVocabularies, hchoose, buildMeta, metaSchemaKw, hschema,
      hval, metaVocabularyKw, hv, hrej]
  · rw [C69_cached E _ uri _ _ a2.cache a2.obj rfl]
    rfl

/-- It is false that a metaschema that is not valid is not returned: `create_metaschema` raises
CatalogError, and leaves it in the cache, from which `get_metaschema` takes it the next time. -/
theorem C69_invalid_is_returned (E : MetaEnv) (hE : TameMeta E) (st : MetaState) (uri : Uri)
    (core : Option Uri) (defaults : List Uri) (st' : MetaState) (i : Nat)
    (doc : List (String × Value)) (hdoc : loadJson E.lib E.sources uri = .ok (.obj doc))
    (hname : NamesItself E.lib uri doc) (hschema : (dlookup "$schema" doc).isSome)
    (hvalid : ∀ st i, E.valid st i = (st, .ok true))
    (h : createMetaschema E st uri core defaults = some (st', .ok i)) :
    createMetaschema { E with valid := fun st _ => (st, .ok false) } st uri core defaults =
        some (st', .error .catalogError) ∧
      getMetaschema { E with valid := fun st _ => (st, .ok false) } st' uri = some (st', .ok i) := by
  obtain ⟨doc', dcore, dvs, c, h1, h2, h3, h4, h5⟩ := createMetaschema_build h
  rw [hdoc] at h1
  cases h1
  constructor
  · simp only [createMetaschema, hdoc, h2, h3, h4]
    unfold buildMeta at h5 ⊢
    simp only at h5 ⊢
    revert h5
    generalize (⟨st.objs ++ [⟨true, false, uri, none, c, []⟩], aset uri st.objs.length st.cache⟩ : MetaState) = s0
    intro h5
    have e1 : metaSchemaKw { E with valid := fun st _ => (st, .ok false) } s0 st.objs.length doc =
        metaSchemaKw E s0 st.objs.length doc := rfl
    rw [e1]
    cases g1 : metaSchemaKw E s0 st.objs.length doc with
    | none => rw [g1] at h5; cases h5
    | some p =>
      obtain ⟨s1, r1⟩ := p
      rw [g1] at h5
      cases r1 with
      | error e => cases h5
      | ok _ =>
        simp only at h5 ⊢
        have e2 : metaVocabularyKw { E with valid := fun st _ => (st, .ok false) } s1 st.objs.length c doc =
            metaVocabularyKw E s1 st.objs.length c doc := rfl
        rw [e2]
        cases g2 : metaVocabularyKw E s1 st.objs.length c doc with
        | mk s2 r2 =>
          rw [g2] at h5
          cases r2 with
          | error e => cases h5
          | ok _ =>
            simp only at h5 ⊢
            have e3 : metaIdKw { E with valid := fun st _ => (st, .ok false) } s2 st.objs.length doc =
                metaIdKw E s2 st.objs.length doc := rfl
            rw [e3]
            cases g3 : metaIdKw E s2 st.objs.length doc with
            | none => rw [g3] at h5; cases h5
            | some p =>
              obtain ⟨s3, r3⟩ := p
              rw [g3] at h5
              cases r3 with
              | error e => cases h5
              | ok _ =>
                simp only at h5 ⊢
                revert h5
                generalize s3.change st.objs.length
                  (fun o => { o with kwclasses := addVocabs doc c dvs o.kwclasses }) = s4
                intro h5
                cases g5 : E.rest s4 st.objs.length doc with
                | mk s5 r5 =>
                  rw [g5] at h5
                  cases r5 with
                  | error e => cases h5
                  | ok _ =>
                    simp only [hvalid] at h5 ⊢
                    cases h5
                    rfl
  · rcases buildMeta_end hE hname hschema h5 with ⟨o, d, a, f, t, k, hr⟩ | ⟨e, he⟩
    · rcases hr with hr | hr
      · cases hr
        rw [C69_cached _ st' uri _ o a.cache a.obj f, a.isMeta]
        rfl
      · cases hr
    · cases he

theorem buildMeta_index {E : MetaEnv} {st : MetaState} {uri : Uri} {doc : List (String × Value)}
    {core : Vocab} {defaults : List Vocab} {st' : MetaState} {i : Nat}
    (h : buildMeta E st uri doc core defaults = some (st', .ok i)) : i = st.objs.length := by
  unfold buildMeta at h
  simp only at h
  split at h
  · cases h
  · cases h
  · split at h
    · cases h
    · split at h
      · cases h
      · cases h
      · split at h
        · cases h
        · split at h
          · cases h
          · cases h; rfl
          · cases h

/-- It is false that `get_metaschema` returns the same metaschema every time: if the `$id` of the document
is another URI, the metaschema is cached under that URI only, and each call creates another one. -/
theorem C69_moved_is_created_again (E : MetaEnv) (hcoreOf : ∀ st u, (E.coreOf st u).1 = st)
    (hrest : ∀ st i doc, (E.rest st i doc).1 = st) (hvalid : ∀ st i, (E.valid st i).1 = st)
    (st : MetaState) (hst : KeysNodup st.cache) (uri : Uri) (core : Option Uri) (defaults : List Uri)
    (st' : MetaState) (i : Nat) (doc : List (String × Value)) (t : String)
    (hdoc : loadJson E.lib E.sources uri = .ok (.obj doc))
    (hid : dlookup "$id" doc = some (.str t)) (habs : E.lib.isAbsolute (E.lib.ofText t) = true)
    (hother : E.lib.ofText t ≠ uri ∧ E.lib.same uri (E.lib.ofText t) = false)
    (h : createMetaschema E st uri core defaults = some (st', .ok i)) :
    getMetaschema E st' uri = createMetaschema E st' uri none [] ∧
      ∀ st'' j, getMetaschema E st' uri = some (st'', .ok j) → j ≠ i := by
  obtain ⟨doc', dcore, dvs, c, h1, h2, h3, h4, h5⟩ := createMetaschema_build h
  rw [hdoc] at h1
  cases h1
  have hi := buildMeta_index h5
  have hkey : alookup uri st'.cache = none ∧ i < st'.objs.length := by
    subst hi
    unfold buildMeta at h5
    have a0 := newMetaNode_at st uri c
    simp only at h5
    revert h5 a0
    generalize hs0 : (⟨st.objs ++ [⟨true, false, uri, none, c, []⟩], aset uri st.objs.length st.cache⟩ : MetaState) = s0
    have n0 : KeysNodup s0.cache := by rw [← hs0]; exact hst.aset
    have l0 : s0.objs.length = st.objs.length + 1 := by rw [← hs0]; simp
    clear hs0
    generalize st.objs.length = i at *
    intro h5 a0
    cases g1 : metaSchemaKw E s0 i doc with
    | none => rw [g1] at h5; cases h5
    | some p =>
      obtain ⟨s1, r1⟩ := p
      rw [g1] at h5
      cases r1 with
      | error e => cases h5
      | ok _ =>
        simp only at h5
        obtain ⟨o1, a1, -, -⟩ := metaSchemaKw_at a0 g1
        have c1 : s1.cache = s0.cache ∧ s1.objs.length = s0.objs.length := by
          unfold metaSchemaKw at g1
          split at g1
          · cases g1; exact ⟨rfl, rfl⟩
          · split at g1
            · cases g1
            · cases g1; exact ⟨rfl, by simp [MetaState.change]⟩
          · cases g1
        cases g2 : metaVocabularyKw E s1 i c doc with
        | mk s2 r2 =>
          rw [g2] at h5
          cases r2 with
          | error e => cases h5
          | ok _ =>
            simp only at h5
            obtain ⟨⟨o2, a2⟩, c2⟩ : (∃ o2, MetaAt s2 uri i o2) ∧ s2.cache = s1.cache ∧
                s2.objs.length = s1.objs.length := by
              unfold metaVocabularyKw at g2
              split at g2
              · cases g2; exact ⟨⟨o1, a1⟩, rfl, rfl⟩
              · rename_i v _
                cases hw : vocabularyKw E.lib E.vocabs c [] v with
                | mk d rr =>
                  rw [hw] at g2
                  cases rr with
                  | error e => cases g2
                  | ok _ =>
                    cases g2
                    exact ⟨⟨_, a1.change _ rfl rfl⟩, rfl, by simp [MetaState.change]⟩
            cases g3 : metaIdKw E s2 i doc with
            | none => rw [g3] at h5; cases h5
            | some p =>
              obtain ⟨s3, r3⟩ := p
              rw [g3] at h5
              cases r3 with
              | error e => cases h5
              | ok _ =>
                simp only at h5
                have c3 : alookup uri s3.cache = none ∧ s3.objs.length = s2.objs.length := by
                  unfold metaIdKw at g3
                  rw [hid] at g3
                  simp only at g3
                  split at g3
                  · cases g3
                  · rename_i mu hmu
                    have hk := hcoreOf s2 mu
                    cases hco : E.coreOf s2 mu with
                    | mk sx rx =>
                      rw [hco] at hk g3
                      simp only at hk
                      subst hk
                      cases rx with
                      | error e => cases g3
                      | ok cc =>
                        simp only [habs, if_true] at g3
                        split at g3
                        · cases g3
                        · cases g3
                          have hsame : E.lib.same o2.uri (E.lib.ofText t) = false := by
                            rw [a2.uri]; exact hother.2
                          simp only [metaSetUri, a2.obj, hsame, Bool.false_eq_true, if_false, MetaState.change,
                            List.length_modify, and_true]
                          rw [alookup_aset, if_neg (Ne.symm hother.1), a2.uri]
                          exact alookup_apop_self (by rw [c2.1, c1.1]; exact n0)
                revert h5
                generalize hs4 : s3.change i (fun o => { o with kwclasses := addVocabs doc c dvs o.kwclasses }) = s4
                intro h5
                have c4 : s4.cache = s3.cache ∧ s4.objs.length = s3.objs.length := by
                  rw [← hs4]; exact ⟨rfl, by simp [MetaState.change]⟩
                have hr := hrest s4 i doc
                cases g5 : E.rest s4 i doc with
                | mk s5 r5 =>
                  rw [g5] at h5 hr
                  simp only at hr
                  subst hr
                  cases r5 with
                  | error e => cases h5
                  | ok _ =>
                    simp only at h5
                    have hv := hvalid s5 i
                    cases g6 : E.valid s5 i with
                    | mk s6 r6 =>
                      rw [g6] at h5 hv
                      simp only at hv
                      subst hv
                      cases r6 with
                      | error e => cases h5
                      | ok b =>
                        cases b with
                        | false => cases h5
                        | true =>
                          cases h5
                          exact ⟨by rw [c4.1]; exact c3.1, by omega⟩
  have hget : getMetaschema E st' uri = createMetaschema E st' uri none [] := by
    simp [getMetaschema, hkey.1]
  refine ⟨hget, fun st'' j hj => ?_⟩
  rw [hget] at hj
  obtain ⟨_, _, _, _, -, -, -, -, hb⟩ := createMetaschema_build hj
  rw [buildMeta_index hb]
  omega

/-! ## Concrete cases -/

/-- The URI of the core vocabulary of 2020-12. -/
def exCore : String := "https://json-schema.org/draft/2020-12/vocab/core"

/-- A metaschema document with the given `$id` and `$vocabulary`. -/
def exMetaDoc (id : String) (kvs : List (String × Value)) : List (String × Value) :=
  [("$schema", .str "h:m"), ("$vocabulary", .obj kvs), ("$id", .str id)]

/-- A catalog whose only source has the document at `h:m`; what follows `_bootstrap` succeeds. -/
def exMetaEnv (doc : List (String × Value)) : MetaEnv where
  lib := Toy.lib
  sources := [("", fun p => if p = "h:m" then .ok (.obj doc) else .error .keyError)]
  vocabs := createAll [] exCalls
  coreOf st _ := (st, .ok exCore)
  rest st _ _ := (st, .ok ())
  valid st _ := (st, .ok true)

theorem metaKept_refl (st : MetaState) : MetaKept st st :=
  ⟨fun _ _ h => h, fun _ o h => ⟨o, h, rfl, id, rfl, fun _ _ => id⟩⟩

theorem exMetaEnv_tame (doc : List (String × Value)) : TameMeta (exMetaEnv doc) :=
  ⟨fun _ _ => metaKept_refl _, fun _ _ _ => metaKept_refl _, fun _ _ => metaKept_refl _⟩

theorem exMeta_load (doc : List (String × Value)) :
    loadJson (exMetaEnv doc).lib (exMetaEnv doc).sources ⟨"h:m", none⟩ = .ok (.obj doc) := by
  have hs : (⟨"h:m", none⟩ : Uri).str = "h:m" := rfl
  have hv : (⟨"h:m", none⟩ : Uri).validate Toy.lib true true false true = .ok () := by
    have : Toy.lib.hasScheme ⟨"h:m", none⟩ = true := by decide +kernel
    have hv : Toy.lib.valid ⟨"h:m", none⟩ = true := rfl
    have hn : Toy.lib.normal ⟨"h:m", none⟩ = true := rfl
    simp [Uri.validate, this, hv, hn]
  simp only [loadJson, exMetaEnv, hv, sourceCandidates, hs]
  simp

theorem exCore_created : CreatedAs exCalls (Toy.lib.ofText exCore)
    (coreBase ++ [⟨"$id", .id, []⟩] ++ coreDynamic) :=
  createdAs_of_nodup exCalls_nodup (by decide +kernel)

theorem exMeta_choose {id : String} {kvs : List (String × Value)} (h : OnlyCore (dkeys kvs) exCore) :
    chooseCore Toy.lib (createAll [] exCalls) (exMetaDoc id kvs) none =
      .ok (newVocab (Toy.lib.ofText exCore) (coreBase ++ [⟨"$id", .id, []⟩] ++ coreDynamic)) := by
  have hne : kvs ≠ [] := by
    rintro rfl
    obtain ⟨pre, post, he, -⟩ := h
    simp [dkeys] at he
  exact (C68_core Toy.lib exCalls (exMetaDoc id kvs) none kvs rfl hne).1 exCore _ h exCore_created

theorem exCore_only : OnlyCore (dkeys [(exCore, Value.bool true)]) exCore :=
  onlyCore_filter.1 (by decide +kernel)

/-- Both documents below lead to a metaschema. -/
theorem exMeta_created (id : String) (hid : id = "h:m" ∨ id = "h:b") :
    ∃ st', createMetaschema (exMetaEnv (exMetaDoc id [(exCore, .bool true)])) ⟨[], []⟩ ⟨"h:m", none⟩ none [] =
      some (st', .ok 0) := by
  have hfit : ∀ u, Toy.lib.hasScheme u = true → FitUri Toy.lib u := fun u h => ⟨rfl, h, rfl⟩
  have hgood : ∀ e ∈ [(exCore, Value.bool true)], ¬ BadEntry Toy.lib exCalls e := by
    intro e he
    rw [List.mem_singleton] at he
    subst he
    rintro (hb | hb)
    · exact hb (hfit _ (by decide +kernel))
    · exact CreatedAs.not exCore_created hb.1
  have huri : (Toy.lib.ofText exCore).str = exCore := by decide +kernel
  obtain ⟨d, hd⟩ : ∃ d, vocabularyKw Toy.lib (createAll [] exCalls)
      (newVocab (Toy.lib.ofText exCore) (coreBase ++ [⟨"$id", .id, []⟩] ++ coreDynamic)) []
      (.obj [(exCore, .bool true)]) = (d, .ok ()) := by
    have : (newVocab (Toy.lib.ofText exCore) (coreBase ++ [⟨"$id", .id, []⟩] ++ coreDynamic)).uri =
      Toy.lib.ofText exCore := rfl
    simp only [vocabularyKw, this, huri, dlookup, if_true]
    rcases vocabLoop_spec Toy.lib exCalls [(exCore, .bool true)] [] [] Tabled.nil with
      ⟨rest, d', h1, h2, h3, h4⟩ | ⟨⟨e, he, hb⟩, -⟩
    · exact ⟨d', h4⟩
    · exact absurd hb (hgood e he)
  have hval : ∀ t : String, Toy.lib.hasScheme (Toy.lib.ofText t) = true →
      (Toy.lib.ofText t).validate Toy.lib true true true true = .ok () := by
    intro t ht
    rcases validate_fit (lib := Toy.lib) (u := Toy.lib.ofText t) with ⟨-, h⟩ | ⟨h, -⟩
    · exact h
    · exact absurd (hfit _ ht) h
  have hload : loadJson Toy.lib (exMetaEnv (exMetaDoc id [(exCore, .bool true)])).sources ⟨"h:m", none⟩ =
      .ok (.obj (exMetaDoc id [(exCore, .bool true)])) := exMeta_load _
  have hchoose := exMeta_choose (id := id) exCore_only
  have hl1 : dlookup "$schema" (exMetaDoc id [(exCore, .bool true)]) = some (.str "h:m") := rfl
  have hl2 : dlookup "$vocabulary" (exMetaDoc id [(exCore, .bool true)]) =
    some (.obj [(exCore, .bool true)]) := rfl
  have hl3 : dlookup "$id" (exMetaDoc id [(exCore, .bool true)]) = some (.str id) := rfl
  have hidv : (Toy.lib.ofText id).validate Toy.lib false false true false = .ok () ∧
      Toy.lib.isAbsolute (Toy.lib.ofText id) = true := by
    have hf : (Toy.lib.ofText id).fragment = none ∧ Toy.lib.isAbsolute (Toy.lib.ofText id) = true := by
      rcases hid with rfl | rfl <;> decide +kernel
    refine ⟨?_, hf.2⟩
    have hv : Toy.lib.valid (Toy.lib.ofText id) = true := rfl
    simp [Uri.validate, hv, hf.1]
  have hknown : decide (exCore = "https://json-schema.org/draft/2019-09/vocab/core" ∨
      exCore = "https://json-schema.org/draft/2020-12/vocab/core") = true := by decide +kernel
  have e1 : (exMetaEnv (exMetaDoc id [(exCore, .bool true)])).lib = Toy.lib := rfl
  have e2 : (exMetaEnv (exMetaDoc id [(exCore, .bool true)])).vocabs = createAll [] exCalls := rfl
  simp only [createMetaschema, hload, getDefaultCore, getVocabularies, e1, e2, hchoose, buildMeta,
    metaSchemaKw, hl1, hval "h:m" (by decide +kernel), metaVocabularyKw, hl2, hd, metaIdKw, hl3]
  simp only [exMetaEnv, MetaState.change, List.nil_append, List.length_nil, List.modify_zero_cons,
    List.getElem?_cons_zero, Option.bind_some, hknown, Bool.not_true, hidv.1, hidv.2, if_true]
  exact ⟨_, rfl⟩

/-- A metaschema that names itself. -/
example : ∃ st', createMetaschema (exMetaEnv (exMetaDoc "h:m" [(exCore, .bool true)])) ⟨[], []⟩ ⟨"h:m", none⟩
      none [] = some (st', .ok 0) ∧
    getMetaschema (exMetaEnv (exMetaDoc "h:m" [(exCore, .bool true)])) st' ⟨"h:m", none⟩ = some (st', .ok 0) := by
  obtain ⟨st', h⟩ := exMeta_created "h:m" (.inl rfl)
  refine ⟨st', h, (C69_created_partial _ (exMetaEnv_tame _) exCalls rfl _ _ _ _ _ _ _ (exMeta_load _) ?_ rfl h).1⟩
  intro t ht r hr
  have ht : t = "h:m" := by
    have e : dlookup "$id" (exMetaDoc "h:m" [(exCore, .bool true)]) = some (.str "h:m") := rfl
    rw [e] at ht; cases ht; rfl
  subst ht
  rcases hr with rfl | hr
  · decide +kernel
  · have : Toy.lib.resolve (Toy.lib.ofText "h:m") (Uri.noFragment ⟨"h:m", none⟩) = some ⟨"h:m", none⟩ := by
      decide +kernel
    have hl : (exMetaEnv (exMetaDoc "h:m" [(exCore, .bool true)])).lib = Toy.lib := rfl
    rw [hl, this] at hr
    cases hr
    decide +kernel

/-- A metaschema that has another `$id` than the URI it is asked for. -/
example : ∃ st', createMetaschema (exMetaEnv (exMetaDoc "h:b" [(exCore, .bool true)])) ⟨[], []⟩ ⟨"h:m", none⟩
      none [] = some (st', .ok 0) ∧
    ∀ st'' j, getMetaschema (exMetaEnv (exMetaDoc "h:b" [(exCore, .bool true)])) st' ⟨"h:m", none⟩ =
      some (st'', .ok j) → j ≠ 0 := by
  obtain ⟨st', h⟩ := exMeta_created "h:b" (.inr rfl)
  exact ⟨st', h, (C69_moved_is_created_again _ (fun _ _ => rfl) (fun _ _ _ => rfl) (fun _ _ => rfl) _
    (by simp [KeysNodup]) _ _ _ _ _ _ "h:b" (exMeta_load _) rfl (by decide +kernel)
    ⟨by decide +kernel, by decide +kernel⟩ h).2⟩

/-- A metaschema that requires a vocabulary that was not created: first an error, then a metaschema. -/
example : ∃ st' i o,
    createMetaschema (exMetaEnv (exMetaDoc "h:m" [("h:none", .bool true), (exCore, .bool true)])) ⟨[], []⟩
      ⟨"h:m", none⟩ none [] = some (st', .error .schemaError) ∧
    getMetaschema (exMetaEnv (exMetaDoc "h:m" [("h:none", .bool true), (exCore, .bool true)])) st'
      ⟨"h:m", none⟩ = some (st', .ok i) ∧
    st'.objs[i]? = some o ∧ o.kwclasses = [] := by
  have honly : OnlyCore (dkeys [("h:none", Value.bool true), (exCore, .bool true)]) exCore :=
    onlyCore_filter.1 (by decide +kernel)
  refine C69_rejected_is_returned _ _ _ none _ none _ "h:m" _ _ _ (exMeta_load _) rfl
    (exMeta_choose honly) rfl ⟨rfl, by decide +kernel, rfl⟩ rfl ?_
  have huri : (Toy.lib.ofText exCore).str = exCore := by decide +kernel
  have huri' : (newVocab (Toy.lib.ofText exCore) (coreBase ++ [⟨"$id", .id, []⟩] ++ coreDynamic)).uri =
    Toy.lib.ofText exCore := rfl
  have hl : dlookup exCore [("h:none", Value.bool true), (exCore, .bool true)] = some (.bool true) := by
    have : exCore ≠ "h:none" := by decide +kernel
    simp [dlookup, this]
  have hval : (Toy.lib.ofText "h:none").validate Toy.lib true true true true = .ok () := by
    rcases validate_fit (lib := Toy.lib) (u := Toy.lib.ofText "h:none") with ⟨-, h⟩ | ⟨h, -⟩
    · exact h
    · exact absurd ⟨rfl, by decide +kernel, rfl⟩ h
  have hno : getVocabulary (createAll [] exCalls) (Toy.lib.ofText "h:none") = .error .catalogError :=
    (C68_get_vocabulary exCalls _).2 (by unfold NotCreated; decide +kernel)
  have e1 : (exMetaEnv (exMetaDoc "h:m" [("h:none", .bool true), (exCore, .bool true)])).lib = Toy.lib := rfl
  have e2 : (exMetaEnv (exMetaDoc "h:m" [("h:none", .bool true), (exCore, .bool true)])).vocabs =
    createAll [] exCalls := rfl
  simp only [e1, e2, vocabularyKw, huri', huri, hl, vocabLoop, hval, hno, truthy, if_true]

end Jschon
