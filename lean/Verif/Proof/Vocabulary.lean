import Verif.Spec.Vocabulary
import Verif.Proof.Catalog

/-!
# Lemmas about vocabularies and keyword tables
-/

namespace Jschon

open Spec

/-- The last class with the key. -/
def lastWith (k : String) : List KwCls → Option KwCls
  | [] => none
  | c :: r => (lastWith k r).or (if c.key = k then some c else none)

theorem lastWith_append (k : String) (l m : List KwCls) :
    lastWith k (l ++ m) = (lastWith k m).or (lastWith k l) := by
  induction l with
  | nil => simp [lastWith]
  | cons c r ih => simp only [List.cons_append, lastWith, ih, Option.or_assoc]

theorem lastWith_none {k : String} {l : List KwCls} : lastWith k l = none ↔ ∀ c ∈ l, c.key ≠ k := by
  induction l with
  | nil => simp [lastWith]
  | cons c r ih =>
    simp only [lastWith, Option.or_eq_none_iff, ih, List.mem_cons, forall_eq_or_imp]
    constructor
    · rintro ⟨h1, h2⟩
      exact ⟨fun h => by simp [h] at h2, h1⟩
    · rintro ⟨h1, h2⟩
      exact ⟨h2, by simp [h1]⟩

theorem lastWith_some {k : String} {c : KwCls} {l : List KwCls} :
    lastWith k l = some c ↔ LastWith k c l := by
  induction l with
  | nil => simp [lastWith, LastWith]
  | cons d r ih =>
    simp only [lastWith, Option.or_eq_some_iff, ih, lastWith_none]
    constructor
    · rintro (⟨pre, post, rfl, h⟩ | ⟨h1, h2⟩)
      · exact ⟨d :: pre, post, rfl, h⟩
      · by_cases hk : d.key = k
        · simp only [hk, if_true, Option.some.injEq] at h2
          subst h2
          exact ⟨[], r, rfl, hk, h1⟩
        · simp [hk] at h2
    · rintro ⟨pre, post, he, hk, hp⟩
      cases pre with
      | nil =>
        simp only [List.nil_append, List.cons.injEq] at he
        obtain ⟨rfl, rfl⟩ := he
        exact .inr ⟨hp, by simp [hk]⟩
      | cons e pre =>
        simp only [List.cons_append, List.cons.injEq] at he
        obtain ⟨rfl, rfl⟩ := he
        exact .inl ⟨pre, post, rfl, hk, hp⟩

/-- The dict `d` is the table of the classes `l`. -/
structure Tabled (d : List (String × KwCls)) (l : List KwCls) : Prop where
  look : ∀ k, dlookup k d = lastWith k l
  nodup : (dkeys d).Nodup
  keyed : ∀ p ∈ d, p.2.key = p.1

theorem Tabled.nil : Tabled [] [] := ⟨fun _ => rfl, by simp [dkeys], by simp⟩

theorem Tabled.set {d l} (h : Tabled d l) (c : KwCls) : Tabled (dset c.key c d) (l ++ [c]) where
  look k := by
    rw [dlookup_dset, lastWith_append, h.look]
    by_cases hk : k = c.key
    · simp [hk, lastWith]
    · simp [hk, Ne.symm hk, lastWith]
  nodup := nodup_dset h.nodup
  keyed p hp := by
    rw [mem_dset_iff h.nodup] at hp
    rcases hp with hp | hp
    · rw [hp]
    · exact h.keyed _ hp.1

theorem Tabled.setAll {d l} (h : Tabled d l) (cs : List KwCls) :
    Tabled (dupdate d (cs.map (fun c => (c.key, c)))) (l ++ cs) := by
  induction cs generalizing d l with
  | nil => simpa [dupdate] using h
  | cons c r ih =>
    have := ih (h.set c)
    simpa [dupdate] using this

/-- Later entries of a dict with distinct keys replace earlier ones. -/
theorem dlookup_dupdate {β : Type} {e : List (String × β)} (hn : (dkeys e).Nodup) :
    ∀ (d : List (String × β)) (k : String), dlookup k (dupdate d e) = (dlookup k e).or (dlookup k d) := by
  induction e with
  | nil => intro d k; simp [dupdate, dlookup]
  | cons p r ih =>
    intro d k
    obtain ⟨k', v⟩ := p
    simp only [dkeys, List.map_cons, List.nodup_cons] at hn
    have := ih hn.2 (dset k' v d) k
    simp only [dupdate, List.foldl_cons] at this ⊢
    rw [this, dlookup_dset]
    by_cases hk : k = k'
    · subst hk
      have hno : dlookup k r = none := by
        rw [dlookup_eq_none]
        exact hn.1
      simp [hno, dlookup]
    · simp [hk, dlookup]

theorem dupdate_nodup {β : Type} {e : List (String × β)} :
    ∀ {d : List (String × β)}, (dkeys d).Nodup → (dkeys (dupdate d e)).Nodup := by
  induction e with
  | nil => exact fun h => h
  | cons p r ih => exact fun h => ih (nodup_dset h)

theorem dupdate_keyed {e : List (String × KwCls)} (he : ∀ p ∈ e, p.2.key = p.1) :
    ∀ {d : List (String × KwCls)}, (dkeys d).Nodup → (∀ p ∈ d, p.2.key = p.1) →
      ∀ p ∈ dupdate d e, p.2.key = p.1 := by
  induction e with
  | nil => exact fun _ h => h
  | cons q r ih =>
    intro d hn h
    refine ih (fun p hp => he p (by simp [hp])) (nodup_dset hn) (fun p hp => ?_)
    rw [mem_dset_iff hn] at hp
    rcases hp with hp | hp
    · rw [hp]; exact he q (by simp)
    · exact h _ hp.1

theorem Tabled.update {d e l m} (h : Tabled d l) (h' : Tabled e m) : Tabled (dupdate d e) (l ++ m) where
  look k := by rw [dlookup_dupdate h'.nodup, lastWith_append, h.look, h'.look]
  nodup := dupdate_nodup h.nodup
  keyed := dupdate_keyed h'.keyed h.nodup h.keyed

theorem newVocab_tabled (u : Uri) (cs : List KwCls) : Tabled (newVocab u cs).kwclasses cs := by
  have := Tabled.nil.setAll cs
  simpa [newVocab] using this

/-- Looking a key up in the classes of a table. -/
theorem Tabled.find {d l} (h : Tabled d l) (k : String) :
    (d.map Prod.snd).find? (fun c => c.key = k) = lastWith k l := by
  rw [← h.look]
  have hk := h.keyed
  clear h
  induction d with
  | nil => rfl
  | cons p r ih =>
    obtain ⟨k', c⟩ := p
    have hc : c.key = k' := hk (k', c) (by simp)
    simp only [List.map_cons, List.find?_cons, dlookup, hc]
    by_cases h' : k = k'
    · simp [h']
    · simp [h', Ne.symm h', ih (fun p hp => hk p (by simp [hp]))]

/-! ## The vocabularies of a catalog -/

theorem createAll_lookup (calls : List (Uri × List KwCls)) :
    ∀ (vs : Vocabs) (u : Uri),
      (∃ cs, CreatedAs calls u cs ∧ alookup u (createAll vs calls) = some (newVocab u cs)) ∨
      (NotCreated calls u ∧ alookup u (createAll vs calls) = alookup u vs) := by
  induction calls with
  | nil => exact fun vs u => .inr ⟨by simp [NotCreated], rfl⟩
  | cons c r ih =>
    intro vs u
    rcases ih (createVocabulary vs c.1 c.2) u with ⟨cs, ⟨pre, post, rfl, hp⟩, h⟩ | ⟨h1, h2⟩
    · exact .inl ⟨cs, ⟨c :: pre, post, rfl, hp⟩, h⟩
    · simp only [createVocabulary, alookup_aset] at h2
      by_cases hu : u = c.1
      · subst hu
        exact .inl ⟨c.2, ⟨[], r, rfl, h1⟩, by simpa [createAll, createVocabulary] using h2⟩
      · refine .inr ⟨?_, by simpa [createAll, createVocabulary, hu] using h2⟩
        intro x hx
        rcases List.mem_cons.1 hx with rfl | hx
        · exact Ne.symm hu
        · exact h1 _ hx

theorem CreatedAs.unique {calls : List (Uri × List KwCls)} {u : Uri} {cs cs' : List KwCls}
    (h : CreatedAs calls u cs) (h' : CreatedAs calls u cs') : cs = cs' := by
  induction calls with
  | nil => obtain ⟨pre, post, he, -⟩ := h; simp at he
  | cons c r ih =>
    obtain ⟨pre, post, he, hp⟩ := h
    obtain ⟨pre', post', he', hp'⟩ := h'
    cases pre with
    | nil =>
      cases pre' with
      | nil => simp_all
      | cons d pre' =>
        simp only [List.nil_append, List.cons_append, List.cons.injEq] at he he'
        obtain ⟨rfl, rfl⟩ := he
        exact absurd rfl (hp (u, cs') (by rw [he'.2]; simp))
    | cons d pre =>
      cases pre' with
      | nil =>
        simp only [List.nil_append, List.cons_append, List.cons.injEq] at he he'
        obtain ⟨rfl, rfl⟩ := he'
        exact absurd rfl (hp' (u, cs) (by rw [he.2]; simp))
      | cons d' pre' =>
        simp only [List.cons_append, List.cons.injEq] at he he'
        exact ih ⟨pre, post, he.2, hp⟩ ⟨pre', post', he'.2, hp'⟩

theorem CreatedAs.not {calls : List (Uri × List KwCls)} {u : Uri} {cs : List KwCls}
    (h : CreatedAs calls u cs) : ¬ NotCreated calls u := by
  obtain ⟨pre, post, rfl, hp⟩ := h
  exact fun hn => hn (u, cs) (by simp) rfl

theorem getVocabulary_cases (calls : List (Uri × List KwCls)) (u : Uri) :
    (∃ cs, CreatedAs calls u cs ∧ getVocabulary (createAll [] calls) u = .ok (newVocab u cs)) ∨
    (NotCreated calls u ∧ getVocabulary (createAll [] calls) u = .error .catalogError) := by
  rcases createAll_lookup calls [] u with ⟨cs, h, h'⟩ | ⟨h, h'⟩
  · exact .inl ⟨cs, h, by simp [getVocabulary, h']⟩
  · exact .inr ⟨h, by simp [getVocabulary, h', alookup]⟩

/-! ## Truth values and the form of core URIs -/

theorem truthy_iff (v : Value) : truthy v = false ↔ Falsy v := by
  constructor
  · intro h
    cases v with
    | null => exact .null
    | bool b => simp only [truthy] at h; subst h; exact .bool
    | num n =>
      simp only [truthy, ne_eq, decide_not, Bool.not_eq_eq_eq_not, Bool.not_false, decide_eq_true_eq] at h
      cases n with
      | int z =>
        simp only [Num.val] at h
        have : z = 0 := by exact_mod_cast h
        subst this; exact .int
      | flt q => simp only [Num.val] at h; subst h; exact .flt
    | str s =>
      simp only [truthy, ne_eq, decide_not, Bool.not_eq_eq_eq_not, Bool.not_false, decide_eq_true_eq] at h
      subst h; exact .str
    | arr xs => simp only [truthy] at h; cases xs with
      | nil => exact .arr
      | cons x xs => simp at h
    | obj kvs => simp only [truthy] at h; cases kvs with
      | nil => exact .obj
      | cons x xs => simp at h
  · intro h
    cases h <;> simp [truthy, Num.val]

theorem takeWhile_noslash {name rest : List Char} (h : '/' ∉ name) :
    (name ++ '/' :: rest).takeWhile (fun c => c ≠ '/') = name ∧
    (name ++ '/' :: rest).dropWhile (fun c => c ≠ '/') = '/' :: rest := by
  induction name with
  | nil => simp
  | cons c r ih =>
    simp only [List.mem_cons, not_or] at h
    have hc : c ≠ '/' := fun e => h.1 e.symm
    have := ih h.2
    simp only [List.cons_append, List.takeWhile_cons, List.dropWhile_cons, hc, ne_eq, not_false_eq_true,
      decide_true, if_true]
    exact ⟨by rw [this.1], this.2⟩

theorem coreSuffix_eq : ∃ tail, coreSuffix = '/' :: tail := ⟨"vocab/core".toList, by decide⟩

theorem isCoreText_iff (t : String) : isCoreText t = true ↔ CoreText t := by
  unfold isCoreText CoreText
  have e1 : "https://json-schema.org/draft/".toList = corePrefix := rfl
  have e2 : "/vocab/core".toList = coreSuffix := rfl
  have e3 : "/vocab/core\n".toList = coreSuffix ++ ['\n'] := by decide
  obtain ⟨core, e4⟩ := coreSuffix_eq
  rw [e1, e2, e3, e4]
  generalize corePrefix = pre at *
  clear e1 e2 e3 e4
  simp only [Bool.and_eq_true, Bool.or_eq_true, beq_iff_eq, Bool.not_eq_true', List.isEmpty_eq_false_iff,
    List.isPrefixOf_iff_prefix]
  constructor
  · rintro ⟨⟨rest, hr⟩, hne, ht⟩
    rw [← hr, List.drop_left] at hne ht
    refine ⟨rest.takeWhile (fun c => c ≠ '/'), hne, ?_, ?_⟩
    · intro hm
      have := List.all_takeWhile (p := fun c : Char => decide (c ≠ '/')) (l := rest)
      rw [List.all_eq_true] at this
      simpa using this _ hm
    · have hsplit := List.takeWhile_append_dropWhile (p := fun c : Char => decide (c ≠ '/')) (l := rest)
      rcases ht with ht | ht
      · left
        rw [← hr, List.append_assoc, ← ht, hsplit]
      · right
        rw [← hr, List.append_assoc, ← ht, hsplit]
  · rintro ⟨name, hne, hs, ht⟩
    obtain ⟨tail, ht, htail⟩ : ∃ tail, t.toList = pre ++ (name ++ '/' :: tail) ∧
        ('/' :: tail = '/' :: core ∨ '/' :: tail = '/' :: core ++ ['\n']) := by
      rcases ht with ht | ht
      · exact ⟨core, by rw [ht, List.append_assoc], .inl rfl⟩
      · exact ⟨core ++ ['\n'], by rw [ht, List.append_assoc]; rfl, .inr rfl⟩
    obtain ⟨h1, h2⟩ := takeWhile_noslash (rest := tail) hs
    rw [ht, List.drop_left, h1, h2]
    exact ⟨⟨_, rfl⟩, hne, htail⟩

/-! ## The entries of `$vocabulary` -/

theorem validate_fit {lib : UriLib} {u : Uri} :
    (FitUri lib u ∧ u.validate lib true true true true = .ok ()) ∨
    (¬ FitUri lib u ∧ u.validate lib true true true true = .error .uriError) := by
  unfold FitUri Uri.validate
  cases lib.valid u <;> cases lib.hasScheme u <;> cases lib.normal u <;> simp

theorem vocabLoop_spec (lib : UriLib) (calls : List (Uri × List KwCls)) (kvs : List (String × Value)) :
    ∀ (d : List (String × KwCls)) (l : List KwCls), Tabled d l →
      (∃ rest d', Gathers lib calls kvs rest ∧ Tabled d' (l ++ rest) ∧
        (∀ e ∈ kvs, ¬ BadEntry lib calls e) ∧
        vocabLoop lib (createAll [] calls) d kvs = (d', .ok ())) ∨
      ((∃ e ∈ kvs, BadEntry lib calls e) ∧
        ∃ d', vocabLoop lib (createAll [] calls) d kvs = (d', .error .schemaError)) := by
  induction kvs with
  | nil => exact fun d l h => .inl ⟨[], d, .nil, by simpa using h, by simp, rfl⟩
  | cons e r ih =>
    intro d l h
    obtain ⟨t, req⟩ := e
    simp only [vocabLoop]
    rcases validate_fit (lib := lib) (u := lib.ofText t) with ⟨hf, hv⟩ | ⟨hf, hv⟩
    · rw [hv]
      rcases getVocabulary_cases calls (lib.ofText t) with ⟨cs, hc, hg⟩ | ⟨hc, hg⟩
      · simp only [hg]
        have hgood : ¬ BadEntry lib calls (t, req) := by
          rintro (hb | hb)
          · exact hb hf
          · exact CreatedAs.not hc hb.1
        rcases ih _ _ (h.update (newVocab_tabled (lib.ofText t) cs)) with ⟨rest, d', h1, h2, h3, h4⟩ | ⟨⟨e, he, hb⟩, d', h4⟩
        · refine .inl ⟨cs ++ rest, d', .known hf hc h1, by simpa using h2, ?_, h4⟩
          intro e he
          rcases List.mem_cons.1 he with rfl | he
          · exact hgood
          · exact h3 e he
        · exact .inr ⟨⟨e, by simp [he], hb⟩, d', h4⟩
      · simp only [hg]
        by_cases htr : truthy req = true
        · rw [if_pos htr]
          refine .inr ⟨⟨(t, req), by simp, .inr ⟨hc, ?_⟩⟩, d, rfl⟩
          intro hfal
          rw [← truthy_iff] at hfal
          simp [htr] at hfal
        · rw [if_neg htr]
          have hfal : Falsy req := (truthy_iff req).1 (by simpa using htr)
          have hgood : ¬ BadEntry lib calls (t, req) := by
            rintro (hb | hb)
            · exact hb hf
            · exact hb.2 hfal
          rcases ih _ _ h with ⟨rest, d', h1, h2, h3, h4⟩ | ⟨⟨e, he, hb⟩, d', h4⟩
          · refine .inl ⟨rest, d', .unknown hf hc hfal h1, h2, ?_, h4⟩
            intro e he
            rcases List.mem_cons.1 he with rfl | he
            · exact hgood
            · exact h3 e he
          · exact .inr ⟨⟨e, by simp [he], hb⟩, d', h4⟩
    · rw [hv]
      exact .inr ⟨⟨(t, req), by simp, .inl hf⟩, d, rfl⟩

end Jschon
