import Verif.Proof.Vocabulary
import Verif.Proof.ToyEnv

/-!
# C68: vocabularies and the keyword tables of metaschemas
-/

namespace Jschon

open Spec

/-- What `get_kwclass` gives for a key that the metaschema does not know: a new class, if Python can
make one. -/
def Spec.UnknownClass (k : String) (r : Except Exc KwCls) : Prop :=
  (k = "" ∧ r = .error .indexError) ∨ (k ≠ "" ∧ '\x00' ∈ k.toList ∧ r = .error .valueError) ∨
    (k ≠ "" ∧ '\x00' ∉ k.toList ∧ r = .ok ⟨k, .unknown, []⟩)

/-- `get_kwclass` follows the table `l`: the last class in it with the key, or an unknown one. -/
def Spec.FollowsTable (m : Meta) (l : List KwCls) : Prop :=
  (∀ k c, LastWith k c l → getKwclass m k = .ok c) ∧
    ∀ k, (∀ c ∈ l, c.key ≠ k) → UnknownClass k (getKwclass m k)

theorem follows_of_tabled {d : List (String × KwCls)} {l : List KwCls} (h : Tabled d l) (b : Bool) :
    FollowsTable ⟨d.map Prod.snd, b⟩ l := by
  constructor
  · intro k c hc
    rw [← lastWith_some, ← h.find] at hc
    simp only [getKwclass, hc]
  · intro k hk
    rw [← lastWith_none, ← h.find] at hk
    simp only [getKwclass, hk, UnknownClass]
    by_cases h1 : k = ""
    · exact .inl ⟨h1, by simp [h1]⟩
    · by_cases h2 : '\x00' ∈ k.toList
      · exact .inr (.inl ⟨h1, h2, by simp [h1, h2]⟩)
      · exact .inr (.inr ⟨h1, h2, by simp [h1, h2]⟩)

/-- `get_vocabulary` returns the vocabulary that was created last under the URI, whose dict has for
each key the last class with that key; for any other URI it raises CatalogError. -/
theorem C68_get_vocabulary (calls : List (Uri × List KwCls)) (u : Uri) :
    (∀ cs, CreatedAs calls u cs → ∃ v, getVocabulary (createAll [] calls) u = .ok v ∧ v.uri = u ∧
      ∀ k c, dlookup k v.kwclasses = some c ↔ LastWith k c cs) ∧
    (NotCreated calls u → getVocabulary (createAll [] calls) u = .error .catalogError) := by
  constructor
  · intro cs hc
    rcases getVocabulary_cases calls u with ⟨cs', hc', h⟩ | ⟨hn, -⟩
    · cases CreatedAs.unique hc hc'
      exact ⟨_, h, rfl, fun k c => by rw [(newVocab_tabled u cs).look, lastWith_some]⟩
    · exact absurd hn (CreatedAs.not hc)
  · intro hn
    rcases getVocabulary_cases calls u with ⟨cs', hc', h⟩ | ⟨-, h⟩
    · exact absurd hn (CreatedAs.not hc')
    · exact h

/-- The names have the core URI `t` and no other. -/
def Spec.OnlyCore (names : List String) (t : String) : Prop :=
  ∃ pre post, names = pre ++ t :: post ∧ CoreText t ∧ ∀ t' ∈ pre ++ post, ¬ CoreText t'

theorem onlyCore_filter {names : List String} {t : String} :
    names.filter isCoreText = [t] ↔ OnlyCore names t := by
  constructor
  · intro h
    obtain ⟨pre, post, rfl, h1, h2, h3⟩ := List.filter_eq_cons_iff.1 h
    refine ⟨pre, post, rfl, (isCoreText_iff t).1 h2, ?_⟩
    intro t' ht'
    rw [← isCoreText_iff]
    rcases List.mem_append.1 ht' with ht' | ht'
    · exact h1 t' ht'
    · exact List.filter_eq_nil_iff.1 h3 t' ht'
  · rintro ⟨pre, post, rfl, hc, hn⟩
    refine List.filter_eq_cons_iff.2 ⟨pre, post, rfl, ?_, (isCoreText_iff t).2 hc, ?_⟩
    · intro x hx
      rw [isCoreText_iff]
      exact hn x (by simp [hx])
    · rw [List.filter_eq_nil_iff]
      intro x hx
      rw [isCoreText_iff]
      exact hn x (by simp [hx])

theorem pickFrom_cases (lib : UriLib) (calls : List (Uri × List KwCls)) (names : List String) (other : Exc) :
    (∃ t cs, OnlyCore names t ∧ CreatedAs calls (lib.ofText t) cs ∧
      pickFrom lib (createAll [] calls) names other = .ok (newVocab (lib.ofText t) cs)) ∨
    (∃ t, OnlyCore names t ∧ NotCreated calls (lib.ofText t) ∧
      pickFrom lib (createAll [] calls) names other = .error .catalogError) ∨
    ((∀ t, ¬ OnlyCore names t) ∧ pickFrom lib (createAll [] calls) names other = .error other) := by
  by_cases h : ∃ t, OnlyCore names t
  · obtain ⟨t, ht⟩ := h
    have hf := onlyCore_filter.2 ht
    rcases getVocabulary_cases calls (lib.ofText t) with ⟨cs, hc, hg⟩ | ⟨hc, hg⟩
    · exact .inl ⟨t, cs, ht, hc, by simp [pickFrom, hf, hg]⟩
    · exact .inr (.inl ⟨t, ht, hc, by simp [pickFrom, hf, hg]⟩)
  · refine .inr (.inr ⟨fun t ht => h ⟨t, ht⟩, ?_⟩)
    unfold pickFrom
    split
    · rename_i t ht
      exact absurd ⟨t, onlyCore_filter.1 ht⟩ h
    · rfl

/-- The core vocabulary of a metaschema with a (non-empty) `$vocabulary` object is the created one
whose URI is the only core URI listed.  It is a CatalogError if that was not created, and a
JSONSchemaError if none or several are listed: the default is not used. -/
theorem C68_core (lib : UriLib) (calls : List (Uri × List KwCls)) (doc : List (String × Value))
    (default : Option Vocab) (kvs : List (String × Value))
    (hv : dlookup "$vocabulary" doc = some (.obj kvs)) (hne : kvs ≠ []) :
    (∀ t cs, OnlyCore (dkeys kvs) t → CreatedAs calls (lib.ofText t) cs →
      chooseCore lib (createAll [] calls) doc default = .ok (newVocab (lib.ofText t) cs)) ∧
    (∀ t, OnlyCore (dkeys kvs) t → NotCreated calls (lib.ofText t) →
      chooseCore lib (createAll [] calls) doc default = .error .catalogError) ∧
    ((∀ t, ¬ OnlyCore (dkeys kvs) t) →
      chooseCore lib (createAll [] calls) doc default = .error .schemaError) := by
  have htr : truthy (.obj kvs) = true := by cases kvs <;> simp_all [truthy]
  have he : chooseCore lib (createAll [] calls) doc default =
      pickFrom lib (createAll [] calls) (dkeys kvs) .schemaError := by
    simp [chooseCore, hv, Option.filter, htr, pickCore]
  rw [he]
  have huniq : ∀ t t', OnlyCore (dkeys kvs) t → OnlyCore (dkeys kvs) t' → t = t' := by
    intro t t' h h'
    have := (onlyCore_filter.2 h).symm.trans (onlyCore_filter.2 h')
    simpa using this
  rcases pickFrom_cases lib calls (dkeys kvs) .schemaError with ⟨t, cs, h1, h2, h3⟩ | ⟨t, h1, h2, h3⟩ | ⟨h1, h3⟩
  · refine ⟨fun t' cs' ht' hc' => ?_, fun t' ht' hc' => ?_, fun hn => absurd h1 (hn t)⟩
    · cases huniq _ _ h1 ht'; cases CreatedAs.unique h2 hc'; exact h3
    · cases huniq _ _ h1 ht'; exact absurd hc' (CreatedAs.not h2)
  · refine ⟨fun t' cs' ht' hc' => ?_, fun t' ht' hc' => h3, fun hn => absurd h1 (hn t)⟩
    cases huniq _ _ h1 ht'; exact absurd h2 (CreatedAs.not hc')
  · exact ⟨fun t' cs' ht' => absurd ht' (h1 t'), fun t' ht' => absurd ht' (h1 t'), fun _ => h3⟩

/-- Without `$vocabulary`, or with a falsy one such as `{}`, the core vocabulary is the default; without
a default it is a JSONSchemaError. -/
theorem C68_core_default (lib : UriLib) (vs : Vocabs) (doc : List (String × Value))
    (default : Option Vocab)
    (hv : ∀ v, dlookup "$vocabulary" doc = some v → Falsy v) :
    (∀ c, default = some c → chooseCore lib vs doc default = .ok c) ∧
    (default = none → chooseCore lib vs doc default = .error .schemaError) := by
  have : (dlookup "$vocabulary" doc).filter truthy = none := by
    cases h : dlookup "$vocabulary" doc with
    | none => rfl
    | some v => simp [Option.filter, (truthy_iff v).2 (hv v h)]
  simp only [chooseCore, this]
  constructor
  · rintro c rfl; rfl
  · rintro rfl; rfl

theorem newMeta_listed (lib : UriLib) (calls : List (Uri × List KwCls)) (doc : List (String × Value))
    (core : Option Vocab) (defaults : List Vocab) (kvs : List (String × Value))
    (hv : dlookup "$vocabulary" doc = some (.obj kvs)) (t : String) (cs : List KwCls)
    (ht : OnlyCore (dkeys kvs) t) (hc : CreatedAs calls (lib.ofText t) cs) :
    (∃ listed d, dlookup (lib.ofText t).str kvs = some (.bool true) ∧ (∀ e ∈ kvs, ¬ BadEntry lib calls e) ∧
        Gathers lib calls kvs listed ∧ Tabled d (listed ++ cs) ∧
        newMeta lib (createAll [] calls) doc core defaults =
          .ok ⟨d.map Prod.snd, knownCoreUri (lib.ofText t)⟩) ∨
    ((dlookup (lib.ofText t).str kvs ≠ some (.bool true) ∨ ∃ e ∈ kvs, BadEntry lib calls e) ∧
        newMeta lib (createAll [] calls) doc core defaults = .error .schemaError) := by
  have hne : kvs ≠ [] := by
    rintro rfl
    obtain ⟨pre, post, he, -⟩ := ht
    simp [dkeys] at he
  have hcore := (C68_core lib calls doc core kvs hv hne).1 t cs ht hc
  simp only [newMeta, hcore, metaTable, hv]
  have huri : (newVocab (lib.ofText t) cs).uri = lib.ofText t := rfl
  by_cases hl : dlookup (lib.ofText t).str kvs = some (.bool true)
  · simp only [vocabularyKw, huri, hl]
    rcases vocabLoop_spec lib calls kvs [] [] Tabled.nil with ⟨rest, d', h1, h2, h3, h4⟩ | ⟨hb, d', h4⟩
    · rw [h4]
      refine .inl ⟨rest, dupdate d' (newVocab (lib.ofText t) cs).kwclasses, trivial, h3, h1, ?_, ?_⟩
      · exact Tabled.update (by simpa using h2) (newVocab_tabled _ cs)
      · simp [addVocabs, hv]
    · rw [h4]
      exact .inr ⟨.inr hb, rfl⟩
  · refine .inr ⟨.inl hl, ?_⟩
    have : vocabularyKw lib (createAll [] calls) (newVocab (lib.ofText t) cs) [] (.obj kvs) =
        ([], .error .schemaError) := by
      simp only [vocabularyKw, huri]
    rw [this]

/-- The keyword table of a metaschema with a `$vocabulary` object: the classes of the listed
vocabularies, a later one replacing those of an earlier one with the same key, and the classes of the
core vocabulary before all others.  There is a table exactly if the core vocabulary is listed with the
value `true`, every URI is fit, and every vocabulary that was not created is optional.  Otherwise it
is a JSONSchemaError. -/
theorem C68_listed (lib : UriLib) (calls : List (Uri × List KwCls)) (doc : List (String × Value))
    (core : Option Vocab) (defaults : List Vocab) (kvs : List (String × Value))
    (hv : dlookup "$vocabulary" doc = some (.obj kvs)) (t : String) (cs : List KwCls)
    (ht : OnlyCore (dkeys kvs) t) (hc : CreatedAs calls (lib.ofText t) cs) :
    (dlookup (lib.ofText t).str kvs = some (.bool true) → (∀ e ∈ kvs, ¬ BadEntry lib calls e) →
      ∃ m listed, newMeta lib (createAll [] calls) doc core defaults = .ok m ∧
        Gathers lib calls kvs listed ∧ FollowsTable m (listed ++ cs)) ∧
    ((dlookup (lib.ofText t).str kvs ≠ some (.bool true) ∨ ∃ e ∈ kvs, BadEntry lib calls e) →
      newMeta lib (createAll [] calls) doc core defaults = .error .schemaError) := by
  rcases newMeta_listed lib calls doc core defaults kvs hv t cs ht hc with
    ⟨listed, d, h1, h2, h3, h4, h5⟩ | ⟨h1, h2⟩
  · refine ⟨fun _ _ => ⟨_, listed, h5, h3, follows_of_tabled h4 _⟩, ?_⟩
    rintro (h | ⟨e, he, hb⟩)
    · exact absurd h1 h
    · exact absurd hb (h2 e he)
  · refine ⟨fun ha hb => ?_, fun _ => h2⟩
    rcases h1 with h1 | ⟨e, he, hbad⟩
    · exact absurd ha h1
    · exact absurd hbad (hb e he)

theorem tabled_defaults {d : List (String × KwCls)} {l : List KwCls} (h : Tabled d l)
    (defaults : List (Uri × List KwCls)) :
    Tabled ((defaults.map (fun p => newVocab p.1 p.2)).foldl (fun d v => dupdate d v.kwclasses) d)
      (l ++ defaults.flatMap Prod.snd) := by
  induction defaults generalizing d l with
  | nil => simpa using h
  | cons p r ih =>
    have := ih (h.update (newVocab_tabled p.1 p.2))
    simpa using this

/-- The keyword table of a metaschema without `$vocabulary`: the classes of the default core vocabulary
and of the default vocabularies, the later replacing the earlier. -/
theorem C68_default (lib : UriLib) (vs : Vocabs) (doc : List (String × Value)) (u : Uri) (cs : List KwCls)
    (defaults : List (Uri × List KwCls)) (hv : dlookup "$vocabulary" doc = none) :
    ∃ m, newMeta lib vs doc (some (newVocab u cs)) (defaults.map (fun p => newVocab p.1 p.2)) = .ok m ∧
      FollowsTable m (cs ++ defaults.flatMap Prod.snd) := by
  have hcore := (C68_core_default lib vs doc (some (newVocab u cs)) (by simp [hv])).1 _ rfl
  refine ⟨⟨(addVocabs doc (newVocab u cs) (defaults.map (fun p => newVocab p.1 p.2)) []).map Prod.snd,
    knownCoreUri u⟩, ?_, ?_⟩
  · simp only [newMeta, hcore, metaTable, hv]
    rfl
  · apply follows_of_tabled
    simp only [addVocabs, hv, Option.isSome_none, Bool.false_eq_true, if_false]
    exact tabled_defaults (by simpa using Tabled.nil.update (newVocab_tabled u cs)) defaults

/-! ## The vocabularies that come with jschon -/

theorem gathers_mem {lib : UriLib} {calls : List (Uri × List KwCls)} {kvs : List (String × Value)}
    {l : List KwCls} (h : Gathers lib calls kvs l) (c : KwCls) :
    c ∈ l ↔ ∃ e ∈ kvs, ∃ cs, CreatedAs calls (lib.ofText e.1) cs ∧ c ∈ cs := by
  induction h with
  | nil => simp
  | @known t r cs kvs rest hf hc _ ih =>
    simp only [List.mem_append, ih, List.mem_cons, exists_eq_or_imp]
    constructor
    · rintro (h | h)
      · exact .inl ⟨cs, hc, h⟩
      · exact .inr h
    · rintro (⟨cs', hc', h⟩ | h)
      · cases CreatedAs.unique hc hc'; exact .inl h
      · exact .inr h
  | @unknown t r kvs rest hf hn _ _ ih =>
    simp only [ih, List.mem_cons, exists_eq_or_imp]
    constructor
    · exact fun h => .inr h
    · rintro (⟨cs', hc', h⟩ | h)
      · exact absurd hn (CreatedAs.not hc')
      · exact h

theorem lastWith_consistent {l : List KwCls} (h : ∀ c ∈ l, ∀ c' ∈ l, c.key = c'.key → c = c') {k : String}
    {c : KwCls} (hc : c ∈ l) (hk : c.key = k) : LastWith k c l := by
  rw [← lastWith_some]
  cases hl : lastWith k l with
  | none => exact absurd hk (lastWith_none.1 hl c hc)
  | some c' =>
    obtain ⟨pre, post, rfl, hk', -⟩ := lastWith_some.1 hl
    rw [h c hc c' (by simp) (by rw [hk, hk'])]

/-- Two metaschemas with the same classes, of which no two have the same key, give the same classes. -/
theorem follows_same {m m' : Meta} {l : List KwCls} (h : FollowsTable m l)
    (hsame : ∀ c, c ∈ l ↔ c ∈ m'.classes)
    (hcons : ∀ c ∈ m'.classes, ∀ c' ∈ m'.classes, c.key = c'.key → c = c') (k : String) :
    getKwclass m k = getKwclass m' k := by
  cases hf : m'.classes.find? (fun c => c.key = k) with
  | some c =>
    have hm := List.mem_of_find?_eq_some hf
    have hk : c.key = k := by simpa using List.find?_some hf
    rw [h.1 k c (lastWith_consistent (fun a ha b hb => hcons a ((hsame a).1 ha) b ((hsame b).1 hb))
      ((hsame c).2 hm) hk)]
    simp [getKwclass, hf]
  | none =>
    have hno : ∀ c ∈ l, c.key ≠ k := by
      intro c hc
      have := List.find?_eq_none.1 hf c ((hsame c).1 hc)
      simpa using this
    have hm : m'.classes.find? (fun c => c.key = k) = none := hf
    rcases h.2 k hno with ⟨h1, h2⟩ | ⟨h1, h2, h3⟩ | ⟨h1, h2, h3⟩
    · rw [h2]
      subst h1
      simp [getKwclass, hm]
    · rw [h3]
      simp [getKwclass, hm, h1, h2]
    · rw [h3]
      simp [getKwclass, hm, h1, h2]

/-- A catalog in which the given vocabularies were created, and not replaced since; `rfc3986` takes
their URIs for what they are. -/
structure Spec.Supplied (lib : UriLib) (calls : List (Uri × List KwCls)) (shipped : List (String × List KwCls)) :
    Prop where
  created : ∀ p ∈ shipped, CreatedAs calls (lib.ofText p.1) p.2
  plain : ∀ p ∈ shipped, lib.ofText p.1 = ⟨p.1, none⟩
  fit : ∀ p ∈ shipped, FitUri lib ⟨p.1, none⟩

theorem shipped_table {lib : UriLib} {calls : List (Uri × List KwCls)} {shipped : List (String × List KwCls)}
    (hs : Supplied lib calls shipped) (t : String) (cs : List KwCls) (hmem : (t, cs) ∈ shipped)
    (honly : ∀ p ∈ shipped, isCoreText p.1 = true ↔ p.1 = t) (m' : Meta)
    (hsame1 : ∀ c ∈ m'.classes, ∃ p ∈ shipped, c ∈ p.2) (hsame2 : ∀ p ∈ shipped, ∀ c ∈ p.2, c ∈ m'.classes)
    (hcons : ∀ c ∈ m'.classes, ∀ c' ∈ m'.classes, c.key = c'.key → c = c')
    (hknown : knownCoreUri ⟨t, none⟩ = m'.knownCore)
    (doc : List (String × Value)) (core : Option Vocab) (defaults : List Vocab)
    (kvs : List (String × Value)) (hv : dlookup "$vocabulary" doc = some (.obj kvs))
    (hnodup : (dkeys kvs).Nodup) (hkeys : ∀ k, k ∈ dkeys kvs ↔ k ∈ shipped.map Prod.fst)
    (htrue : dlookup t kvs = some (.bool true)) :
    ∃ m, newMeta lib (createAll [] calls) doc core defaults = .ok m ∧ m.knownCore = m'.knownCore ∧
      (∀ k, getKwclass m k = getKwclass m' k) ∧ ∀ c ∈ m.classes, c ∈ m'.classes := by
  have hname : ∀ e ∈ kvs, ∃ p ∈ shipped, p.1 = e.1 := by
    intro e he
    have : e.1 ∈ dkeys kvs := List.mem_map.2 ⟨e, he, rfl⟩
    obtain ⟨p, hp, hpe⟩ := List.mem_map.1 ((hkeys e.1).1 this)
    exact ⟨p, hp, hpe⟩
  have hcoret : isCoreText t = true := (honly (t, cs) hmem).2 rfl
  have hOnly : OnlyCore (dkeys kvs) t := by
    have htm : t ∈ dkeys kvs := (hkeys t).2 (List.mem_map.2 ⟨(t, cs), hmem, rfl⟩)
    obtain ⟨pre, post, he⟩ := List.append_of_mem htm
    refine ⟨pre, post, he, (isCoreText_iff t).1 hcoret, ?_⟩
    intro t' ht' hct'
    have hmem' : t' ∈ dkeys kvs := by
      rw [he]
      rcases List.mem_append.1 ht' with h | h <;> simp [h]
    obtain ⟨p, hp, rfl⟩ := List.mem_map.1 ((hkeys t').1 hmem')
    have := (honly p hp).1 ((isCoreText_iff _).2 hct')
    rw [he, List.nodup_append] at hnodup
    rcases List.mem_append.1 ht' with h | h
    · exact hnodup.2.2 _ h t (by simp) this
    · rw [this] at h
      exact (List.nodup_cons.1 hnodup.2.1).1 h
  have hgood : ∀ e ∈ kvs, ¬ BadEntry lib calls e := by
    intro e he hb
    obtain ⟨p, hp, hpe⟩ := hname e he
    rcases hb with hb | hb
    · rw [← hpe, hs.plain p hp] at hb
      exact hb (hs.fit p hp)
    · rw [← hpe] at hb
      exact CreatedAs.not (hs.created p hp) hb.1
  have hplain := hs.plain _ hmem
  have hstr : (lib.ofText t).str = t := by rw [hplain]; rfl
  rcases newMeta_listed lib calls doc core defaults kvs hv t cs hOnly (hs.created _ hmem) with
    ⟨listed, d, h1, h2, h3, h4, h5⟩ | ⟨h1 | ⟨e, he, hb⟩, -⟩
  · have hall : ∀ c, c ∈ listed ++ cs ↔ c ∈ m'.classes := ?_
    · refine ⟨_, h5, by rw [hplain]; exact hknown, follows_same (follows_of_tabled h4 _) hall hcons, fun c hc => ?_⟩
      obtain ⟨p, hp, rfl⟩ := List.mem_map.1 hc
      obtain ⟨pre, post, he, -⟩ := lastWith_some.1 ((h4.look p.1).symm.trans (dlookup_of_mem h4.nodup hp))
      exact (hall _).1 (by rw [he]; simp)
    intro c
    rw [List.mem_append, gathers_mem h3]
    constructor
    · rintro (⟨e, he, cs', hc', hcc⟩ | h)
      · obtain ⟨p, hp, hpe⟩ := hname e he
        rw [← hpe] at hc'
        cases CreatedAs.unique (hs.created p hp) hc'
        exact hsame2 p hp c hcc
      · exact hsame2 _ hmem c h
    · intro hc
      obtain ⟨p, hp, hcp⟩ := hsame1 c hc
      have : p.1 ∈ dkeys kvs := (hkeys p.1).2 (List.mem_map.2 ⟨p, hp, rfl⟩)
      obtain ⟨e, he, hpe⟩ := List.mem_map.1 this
      exact .inl ⟨e, he, p.2, by rw [hpe]; exact hs.created p hp, hcp⟩
  · rw [hstr] at h1
    exact absurd htrue h1
  · exact absurd hb (hgood e he)

/-- A metaschema whose `$vocabulary` lists the vocabularies of 2020-12 that come with jschon, in
whatever order, with `true` for the core vocabulary, gives schemas the keyword classes of 2020-12. -/
theorem C68_shipped_2020 (lib : UriLib) (calls : List (Uri × List KwCls))
    (hs : Supplied lib calls shipped2020) (doc : List (String × Value)) (core : Option Vocab)
    (defaults : List Vocab) (kvs : List (String × Value))
    (hv : dlookup "$vocabulary" doc = some (.obj kvs))
    (hnodup : (dkeys kvs).Nodup) (hkeys : ∀ k, k ∈ dkeys kvs ↔ k ∈ shipped2020.map Prod.fst)
    (htrue : dlookup "https://json-schema.org/draft/2020-12/vocab/core" kvs = some (.bool true)) :
    ∃ m, newMeta lib (createAll [] calls) doc core defaults = .ok m ∧ m.knownCore = true ∧
      (∀ k, getKwclass m k = getKwclass meta2020 k) ∧ ∀ c ∈ m.classes, c ∈ meta2020.classes :=
  shipped_table hs _ _ (List.mem_cons_self ..) (by decide +kernel) meta2020 (by decide +kernel)
    (by decide +kernel) (by decide +kernel) (by decide +kernel) doc core defaults kvs hv hnodup hkeys htrue

/-- The same for 2019-09. -/
theorem C68_shipped_2019 (lib : UriLib) (calls : List (Uri × List KwCls))
    (hs : Supplied lib calls shipped2019) (doc : List (String × Value)) (core : Option Vocab)
    (defaults : List Vocab) (kvs : List (String × Value))
    (hv : dlookup "$vocabulary" doc = some (.obj kvs))
    (hnodup : (dkeys kvs).Nodup) (hkeys : ∀ k, k ∈ dkeys kvs ↔ k ∈ shipped2019.map Prod.fst)
    (htrue : dlookup "https://json-schema.org/draft/2019-09/vocab/core" kvs = some (.bool true)) :
    ∃ m, newMeta lib (createAll [] calls) doc core defaults = .ok m ∧ m.knownCore = true ∧
      (∀ k, getKwclass m k = getKwclass meta2019 k) ∧ ∀ c ∈ m.classes, c ∈ meta2019.classes :=
  shipped_table hs _ _ (List.mem_cons_self ..) (by decide +kernel) meta2019 (by decide +kernel)
    (by decide +kernel) (by decide +kernel) (by decide +kernel) doc core defaults kvs hv hnodup hkeys htrue

/-- The same for `next`, whose `$id` is that of `IdKeyword_Next`. -/
theorem C68_shipped_next (lib : UriLib) (calls : List (Uri × List KwCls))
    (hs : Supplied lib calls shippedNext) (doc : List (String × Value)) (core : Option Vocab)
    (defaults : List Vocab) (kvs : List (String × Value))
    (hv : dlookup "$vocabulary" doc = some (.obj kvs))
    (hnodup : (dkeys kvs).Nodup) (hkeys : ∀ k, k ∈ dkeys kvs ↔ k ∈ shippedNext.map Prod.fst)
    (htrue : dlookup "https://json-schema.org/draft/next/vocab/core" kvs = some (.bool true)) :
    ∃ m, newMeta lib (createAll [] calls) doc core defaults = .ok m ∧ m.knownCore = false ∧
      (∀ k, getKwclass m k = getKwclass metaNext k) ∧ ∀ c ∈ m.classes, c ∈ metaNext.classes :=
  shipped_table hs _ _ (List.mem_cons_self ..) (by decide +kernel) metaNext (by decide +kernel)
    (by decide +kernel) (by decide +kernel) (by decide +kernel) doc core defaults kvs hv hnodup hkeys htrue

/-! ## Concrete cases -/

theorem createdAs_of_nodup {calls : List (Uri × List KwCls)} (h : (calls.map Prod.fst).Nodup)
    {u : Uri} {cs : List KwCls} (hm : (u, cs) ∈ calls) : CreatedAs calls u cs := by
  obtain ⟨pre, post, rfl⟩ := List.append_of_mem hm
  refine ⟨pre, post, rfl, fun c hc he => ?_⟩
  simp only [List.map_append, List.map_cons, List.nodup_append, List.nodup_cons] at h
  exact h.2.1.1 (List.mem_map.2 ⟨c, hc, he⟩)

/-- A catalog with the three drafts, and a vocabulary that has a `type` of its own. -/
def exCalls : List (Uri × List KwCls) :=
  callsOf Toy.lib (shipped2019 ++ shipped2020 ++ shippedNext ++ [("h:own", [⟨"type", .unknown, []⟩])])

theorem exCalls_nodup : (exCalls.map Prod.fst).Nodup := by decide +kernel

theorem exCalls_supplied {shipped : List (String × List KwCls)}
    (h : ∀ p ∈ shipped, (Toy.lib.ofText p.1, p.2) ∈ exCalls ∧ Toy.lib.ofText p.1 = ⟨p.1, none⟩ ∧
      Toy.lib.hasScheme ⟨p.1, none⟩ = true) : Supplied Toy.lib exCalls shipped where
  created p hp := createdAs_of_nodup exCalls_nodup (h p hp).1
  plain p hp := (h p hp).2.1
  fit p hp := ⟨rfl, (h p hp).2.2, rfl⟩

example : Supplied Toy.lib exCalls shipped2020 := exCalls_supplied (by decide +kernel)
example : Supplied Toy.lib exCalls shipped2019 := exCalls_supplied (by decide +kernel)
example : Supplied Toy.lib exCalls shippedNext := exCalls_supplied (by decide +kernel)

/-- A `$vocabulary` that lists the core vocabulary, one that was not created as optional, the validation
vocabulary, and the one with its own `type`. -/
def exVocabulary : List (String × Value) :=
  [("https://json-schema.org/draft/2020-12/vocab/core", .bool true), ("h:none", .bool false),
   ("https://json-schema.org/draft/2020-12/vocab/validation", .bool true), ("h:own", .bool false)]

theorem exVocabulary_only :
    OnlyCore (dkeys exVocabulary) "https://json-schema.org/draft/2020-12/vocab/core" :=
  onlyCore_filter.1 (by decide +kernel)

/-- The metaschema has the `type` of the vocabulary that is listed last. -/
example : ∃ m, newMeta Toy.lib (createAll [] exCalls) [("$vocabulary", .obj exVocabulary)] none [] = .ok m ∧
    getKwclass m "type" = .ok ⟨"type", .unknown, []⟩ ∧
    getKwclass m "pattern" = .ok ⟨"pattern", .pattern, []⟩ ∧
    getKwclass m "$ref" = .ok ⟨"$ref", .ref, []⟩ := by
  have hc := createdAs_of_nodup exCalls_nodup (u := ⟨"https://json-schema.org/draft/2020-12/vocab/core", none⟩)
    (cs := coreBase ++ [⟨"$id", .id, []⟩] ++ coreDynamic) (by decide +kernel)
  have hval := createdAs_of_nodup exCalls_nodup
    (u := ⟨"https://json-schema.org/draft/2020-12/vocab/validation", none⟩)
    (cs := validationClasses) (by decide +kernel)
  have hown := createdAs_of_nodup exCalls_nodup (u := ⟨"h:own", none⟩)
    (cs := [⟨"type", .unknown, []⟩]) (by decide +kernel)
  have hnone : NotCreated exCalls ⟨"h:none", none⟩ := by unfold NotCreated; decide +kernel
  have hu : Toy.lib.ofText "https://json-schema.org/draft/2020-12/vocab/core" =
      ⟨"https://json-schema.org/draft/2020-12/vocab/core", none⟩ := by decide +kernel
  have hu2 : Toy.lib.ofText "https://json-schema.org/draft/2020-12/vocab/validation" =
      ⟨"https://json-schema.org/draft/2020-12/vocab/validation", none⟩ := by decide +kernel
  have hu3 : Toy.lib.ofText "h:own" = ⟨"h:own", none⟩ := by decide +kernel
  have hu4 : Toy.lib.ofText "h:none" = ⟨"h:none", none⟩ := by decide +kernel
  have fit : ∀ b, Toy.lib.hasScheme b = true → FitUri Toy.lib b := fun b hb => ⟨rfl, hb, rfl⟩
  have f1 := fit ⟨"https://json-schema.org/draft/2020-12/vocab/core", none⟩ (by decide +kernel)
  have f2 := fit ⟨"https://json-schema.org/draft/2020-12/vocab/validation", none⟩ (by decide +kernel)
  have f3 := fit ⟨"h:own", none⟩ (by decide +kernel)
  have f4 := fit ⟨"h:none", none⟩ (by decide +kernel)
  obtain ⟨m, listed, hm, hg, hf⟩ := (C68_listed Toy.lib exCalls [("$vocabulary", .obj exVocabulary)] none []
    exVocabulary rfl _ _ exVocabulary_only (by rw [hu]; exact hc)).1
    (by rw [hu]; rfl)
    (by
      intro e he
      simp only [exVocabulary, List.mem_cons, List.not_mem_nil, or_false] at he
      rintro (hb | ⟨hb, hb'⟩)
      · rcases he with rfl | rfl | rfl | rfl
        · exact hb (by rw [hu]; exact f1)
        · exact hb (by rw [hu4]; exact f4)
        · exact hb (by rw [hu2]; exact f2)
        · exact hb (by rw [hu3]; exact f3)
      · rcases he with rfl | rfl | rfl | rfl
        · rw [hu] at hb; exact CreatedAs.not hc hb
        · exact hb' .bool
        · rw [hu2] at hb; exact CreatedAs.not hval hb
        · rw [hu3] at hb; exact CreatedAs.not hown hb)
  have hl : listed = (coreBase ++ [⟨"$id", .id, []⟩] ++ coreDynamic) ++ (validationClasses ++ [⟨"type", .unknown, []⟩]) := by
    unfold exVocabulary at hg
    cases hg with
    | unknown _ hn => rw [hu] at hn; exact absurd hn (CreatedAs.not hc)
    | known _ hc1 hg =>
      rw [hu] at hc1
      cases CreatedAs.unique hc hc1
      cases hg with
      | known _ hc2 => rw [hu4] at hc2; exact absurd hnone (CreatedAs.not hc2)
      | unknown _ _ _ hg =>
        cases hg with
        | unknown _ hn => rw [hu2] at hn; exact absurd hn (CreatedAs.not hval)
        | known _ hc3 hg =>
          rw [hu2] at hc3
          cases CreatedAs.unique hval hc3
          cases hg with
          | unknown _ hn => rw [hu3] at hn; exact absurd hn (CreatedAs.not hown)
          | known _ hc4 hg =>
            rw [hu3] at hc4
            cases CreatedAs.unique hown hc4
            cases hg
            rfl
  subst hl
  refine ⟨m, hm, hf.1 _ _ (lastWith_some.1 ?_), hf.1 _ _ (lastWith_some.1 ?_), hf.1 _ _ (lastWith_some.1 ?_)⟩ <;>
    decide +kernel

/-- A `$vocabulary` without the core vocabulary, and one with the empty object. -/
example (core : Option Vocab) :
    newMeta Toy.lib (createAll [] exCalls) [("$vocabulary", .obj [("h:own", .bool true)])] core [] =
      .error .schemaError := by
  have h := (C68_core Toy.lib exCalls [("$vocabulary", .obj [("h:own", .bool true)])] core
    [("h:own", .bool true)] rfl (by simp)).2.2 (by
      intro t ht
      have := onlyCore_filter.2 ht
      have h0 : (dkeys [("h:own", Value.bool true)]).filter isCoreText = [] := by decide +kernel
      rw [h0] at this
      cases this)
  simp [newMeta, h]

end Jschon
