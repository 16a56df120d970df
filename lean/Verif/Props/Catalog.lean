import Verif.Proof.Catalog

/-!
# Sources and caches of the catalog (C47, C48, C49)
-/

namespace Jschon

/-! ## C47 -/

/-- The remainder of `t` after the prefix `p`. -/
def Spec.Remainder (p t rest : String) : Prop := t.toList = p.toList ++ rest.toList

theorem remainder_drop {p t : String} (h : p.toList <+: t.toList) :
    Spec.Remainder p t (String.ofList (t.toList.drop p.length)) := by
  obtain ⟨r, hr⟩ := h
  simp only [Spec.Remainder, String.toList_ofList]
  rw [← hr, ← String.length_toList, List.drop_left]

theorem remainder_unique {p t a b : String} (ha : Spec.Remainder p t a) (hb : Spec.Remainder p t b) :
    a = b := by
  have := ha.symm.trans hb
  exact String.toList_inj.1 (List.append_cancel_left this)

/-- What `load_json` should do for a URI with the text `t`, after the calls of `add_uri_source`: ask the
chosen source for the remainder; fail if there is none, or if it fails. -/
def Spec.Loads (lib : UriLib) (calls : List (Option Uri × Source)) (t : String) (r : Except Exc Value) :
    Prop :=
  (∃ p s rest, Spec.Chosen lib calls t p s ∧ Spec.Remainder p t rest ∧
    ((∃ v, s rest = .ok v ∧ r = .ok v) ∨ (∃ e, s rest = .error e ∧ r = .error .catalogError))) ∨
  ((∀ p s, ¬ Spec.Chosen lib calls t p s) ∧ r = .error .catalogError)

/-- The chosen prefix and source are unique. -/
theorem C47_chosen_unique {lib : UriLib} {calls : List (Option Uri × Source)} {t p p' : String}
    {s s' : Source} (h : Spec.Chosen lib calls t p s) (h' : Spec.Chosen lib calls t p' s') :
    p = p' ∧ s = s' := by
  have hlen : p.toList.length = p'.toList.length := by
    have h1 := h.2.2 p' s' h'.1 h'.2.1
    have h2 := h'.2.2 p s h.1 h.2.1
    simp only [String.length_toList]; omega
  have hp : p = p' := String.toList_inj.1
    ((List.prefix_of_prefix_length_le h.2.1 h'.2.1 (by omega)).eq_of_length hlen)
  subst hp
  refine ⟨rfl, ?_⟩
  obtain ⟨hn, hm⟩ := mem_runSources (lib := lib) (p := p) (s := s) (srcs := []) calls (by simp [dkeys])
  have hm' := (mem_runSources (lib := lib) (p := p) (s := s') (srcs := []) calls (by simp [dkeys])).2
  have ha := hm.2 (Or.inl h.1)
  have hb := hm'.2 (Or.inl h'.1)
  have := (dlookup_of_mem hn ha).symm.trans (dlookup_of_mem hn hb)
  simpa using this

/-- If any registered prefix fits, one is chosen. -/
theorem C47_chosen_exists {lib : UriLib} {calls : List (Option Uri × Source)} {t p : String} {s : Source}
    (h : Spec.InForce lib calls p s) (hp : p.toList <+: t.toList) :
    ∃ p' s', Spec.Chosen lib calls t p' s' := by
  have hmem := fun p s => (mem_runSources (lib := lib) (p := p) (s := s) (srcs := []) calls
    (by simp [dkeys])).2
  simp only [List.not_mem_nil, false_and, or_false] at hmem
  rcases sourceCandidates_head (srcs := runSources lib [] calls) (t := t) with ⟨_, hno⟩ | ⟨e, r, _, he, hpre, hmax⟩
  · exact absurd hp (hno (p, s) ((hmem p s).2 h))
  · exact ⟨e.1, e.2, (hmem _ _).1 he, hpre, fun p' s' h' hp' => hmax (p', s') ((hmem _ _).2 h') hp'⟩

/-- `load_json` uses the source of the longest registered prefix of the URI, and passes it the
remainder of the URI. -/
theorem C47_longest_prefix (lib : UriLib) (calls : List (Option Uri × Source)) (u : Uri)
    (hu : lib.valid u = true ∧ lib.hasScheme u = true ∧ lib.normal u = true ∧ u.fragment = none) :
    Spec.Loads lib calls u.str (loadJson lib (runSources lib [] calls) u) := by
  have hmem := fun p s => (mem_runSources (lib := lib) (p := p) (s := s) (srcs := []) calls
    (by simp [dkeys])).2
  simp only [List.not_mem_nil, false_and, or_false] at hmem
  have hv : u.validate lib true true false true = .ok () := by
    simp [Uri.validate, hu.1, hu.2.1, hu.2.2.1, hu.2.2.2]
  simp only [loadJson, hv]
  rcases sourceCandidates_head (srcs := runSources lib [] calls) (t := u.str) with
    ⟨hs, hno⟩ | ⟨⟨p, s⟩, r, hs, he, hpre, hmax⟩
  · right
    simp only [hs, and_true]
    intro p s h
    exact hno (p, s) ((hmem p s).2 h.1) h.2.1
  · left
    refine ⟨p, s, _, ⟨(hmem _ _).1 he, hpre, fun p' s' h' hp' => hmax (p', s') ((hmem _ _).2 h') hp'⟩,
      remainder_drop hpre, ?_⟩
    simp only [hs]
    cases s (String.ofList (u.str.toList.drop p.length)) with
    | ok v => exact Or.inl ⟨v, rfl, rfl⟩
    | error e => exact Or.inr ⟨e, rfl, rfl⟩

/-- A URI that is not absolute and normalized, or has a fragment, is refused. -/
theorem C47_bad_uri (lib : UriLib) (srcs : List (String × Source)) (u : Uri)
    (hu : ¬ (lib.valid u = true ∧ lib.hasScheme u = true ∧ lib.normal u = true ∧ u.fragment = none)) :
    loadJson lib srcs u = .error .catalogError := by
  have hv : u.validate lib true true false true = .error .uriError := by
    revert hu
    simp only [Uri.validate]
    cases lib.valid u <;> cases lib.hasScheme u <;> cases lib.normal u <;> cases u.fragment <;> simp
  simp [loadJson, hv]

/-- What `load_json` should do determines what it does. -/
theorem C47_loads_unique {lib : UriLib} {calls : List (Option Uri × Source)} {t : String}
    {r r' : Except Exc Value} (h : Spec.Loads lib calls t r) (h' : Spec.Loads lib calls t r') : r = r' := by
  rcases h with ⟨p, s, rest, hc, hr, h⟩ | ⟨hno, h⟩
  · rcases h' with ⟨p', s', rest', hc', hr', h'⟩ | ⟨hno, h'⟩
    · obtain ⟨rfl, rfl⟩ := C47_chosen_unique hc hc'
      cases remainder_unique hr hr'
      rcases h with ⟨v, h1, rfl⟩ | ⟨e, h1, rfl⟩ <;> rcases h' with ⟨v', h2, rfl⟩ | ⟨e', h2, rfl⟩ <;>
        simp_all
    · exact absurd hc (hno _ _)
  · rcases h' with ⟨p', s', rest', hc', hr', h'⟩ | ⟨hno', h'⟩
    · exact absurd hc' (hno _ _)
    · rw [h, h']

/-- The source in force for a prefix is the last one registered: registering again replaces it, and
leaves the sources of other prefixes alone. -/
theorem C47_reregister {lib : UriLib} {calls : List (Option Uri × Source)} {u : Option Uri} {s : Source}
    (hu : Spec.Registrable lib u) (p : String) (s' : Source) :
    Spec.InForce lib (calls ++ [(u, s)]) p s' ↔
      if p = Spec.prefixOf u then s' = s else Spec.InForce lib calls p s' := by
  constructor
  · rintro ⟨b, u', a, h, hr, hp, ha⟩
    rcases List.eq_nil_or_concat a with rfl | ⟨a', x, rfl⟩
    · have := List.append_inj' (t₁ := [(u, s)]) (t₂ := [(u', s')]) h rfl
      simp only [List.cons.injEq, Prod.mk.injEq, and_true] at this
      obtain ⟨_, rfl, rfl⟩ := this
      simp [hp]
    · have h2 : calls ++ [(u, s)] = (b ++ (u', s') :: a') ++ [x] := by simp [h]
      obtain ⟨h3, h4⟩ := List.append_inj' h2 rfl
      simp only [List.cons.injEq, and_true] at h4
      subst h4
      have hne := ha (u, s) (by simp) hu
      rw [if_neg (Ne.symm hne)]
      exact ⟨b, u', a', h3, hr, hp, fun c hc => ha c (by simp [hc])⟩
  · intro h
    by_cases hp : p = Spec.prefixOf u
    · rw [if_pos hp] at h
      subst h
      exact ⟨calls, u, [], rfl, hu, hp.symm, by simp⟩
    · rw [if_neg hp] at h
      obtain ⟨b, u', a, h, hr, hp', ha⟩ := h
      refine ⟨b, u', a ++ [(u, s)], by simp [h], hr, hp', ?_⟩
      intro c hc hcr
      rcases List.mem_append.1 hc with hc | hc
      · exact ha c hc hcr
      · simp only [List.mem_singleton] at hc
        subst hc
        exact Ne.symm hp

/-- The order in which different prefixes are registered does not matter: for calls that name each
prefix once, any permutation of them loads the same. -/
theorem C47_order_independent {lib : UriLib} {calls calls' : List (Option Uri × Source)}
    (hperm : List.Perm calls calls')
    (hdist : (calls.map (fun c => Spec.prefixOf c.1)).Nodup) (u : Uri) :
    loadJson lib (runSources lib [] calls) u = loadJson lib (runSources lib [] calls') u := by
  by_cases hu : lib.valid u = true ∧ lib.hasScheme u = true ∧ lib.normal u = true ∧ u.fragment = none
  case neg => rw [C47_bad_uri lib _ u hu, C47_bad_uri lib _ u hu]
  have force : ∀ (cs : List (Option Uri × Source)), (cs.map (fun c => Spec.prefixOf c.1)).Nodup →
      ∀ p s, Spec.InForce lib cs p s ↔
        ∃ u, (u, s) ∈ cs ∧ Spec.Registrable lib u ∧ Spec.prefixOf u = p := by
    intro cs hd p s
    constructor
    · rintro ⟨b, u, a, h, hr, hp, _⟩
      exact ⟨u, by simp [h], hr, hp⟩
    · rintro ⟨u, hm, hr, hp⟩
      obtain ⟨b, a, h⟩ := List.append_of_mem hm
      refine ⟨b, u, a, h, hr, hp, ?_⟩
      intro c hc _ heq
      rw [h, List.map_append, List.map_cons, List.nodup_append] at hd
      have := (List.nodup_cons.1 hd.2.1).1
      exact this (List.mem_map.2 ⟨c, hc, heq.trans hp.symm⟩)
  have hdist' := (hperm.map (fun c => Spec.prefixOf c.1)).nodup_iff.1 hdist
  have hforce : ∀ p s, Spec.InForce lib calls p s ↔ Spec.InForce lib calls' p s := by
    intro p s
    rw [force _ hdist, force _ hdist']
    simp only [hperm.mem_iff]
  have hchosen : ∀ p s, Spec.Chosen lib calls u.str p s ↔ Spec.Chosen lib calls' u.str p s := by
    intro p s
    simp only [Spec.Chosen, hforce]
  have h := C47_longest_prefix lib calls u hu
  have h' := C47_longest_prefix lib calls' u hu
  refine C47_loads_unique h ?_
  simpa only [Spec.Loads, hchosen] using h'

section
/-- A toy URI library: everything is a valid and normalized URI with a scheme, and every path ends with
a slash if the text does. -/
def toyUriLib : UriLib where
  ofText s := ⟨s, none⟩
  valid _ := true
  hasScheme _ := true
  normal _ := true
  dirPath u := u.base.toList.getLast? = some '/'
  isAbsolute u := u.fragment = none
  same u v := u = v
  resolve u _ := some u
  uuid l := ⟨"urn:uuid:" ++ String.ofList (List.replicate l.length 'x'), none⟩

/-- Three registrations, the last of them refused because its path does not end with a slash. -/
def toySources (s1 s2 s3 : Source) : List (Option Uri × Source) :=
  [(none, s1), (some ⟨"http://a/", none⟩, s2), (some ⟨"http://a/b", none⟩, s3)]

-- the source of the longer prefix is chosen
example (s1 s2 s3 : Source) :
    Spec.Chosen toyUriLib (toySources s1 s2 s3) "http://a/b/c" "http://a/" s2 := by
  refine ⟨⟨[(none, s1)], some ⟨"http://a/", none⟩, _, rfl, ⟨rfl, rfl, rfl, rfl, by decide⟩, rfl, ?_⟩,
    by decide, ?_⟩
  · intro c hc hr
    simp only [List.mem_singleton] at hc
    subst hc
    exact absurd hr.2.2.2.2 (by decide)
  · rintro p' s' ⟨b, u, a, h, hr, rfl, _⟩ hp
    have hm : (u, s') ∈ toySources s1 s2 s3 := by rw [h]; simp
    simp only [toySources, List.mem_cons, Prod.mk.injEq, List.not_mem_nil, or_false] at hm
    rcases hm with ⟨rfl, _⟩ | ⟨rfl, _⟩ | ⟨rfl, _⟩
    · decide
    · decide
    · exact absurd hr.2.2.2.2 (by decide)

-- and it is asked for the remainder
example : Spec.Remainder "http://a/" "http://a/b/c" "b/c" := by
  simp only [Spec.Remainder]; decide
end

/-! ## C48 -/

theorem cached_cons {op : CacheOp} {ops : List CacheOp} {id : String} {u : Uri} {s : Nat} :
    Spec.Cached (op :: ops) id u s ↔
      Spec.Cached ops id u s ∨ (op = .add id u s ∧ ∀ c ∈ ops, ¬ Spec.Ends id u c) := by
  constructor
  · rintro ⟨b, a, h, ha⟩
    cases b with
    | nil =>
      simp only [List.nil_append, List.cons.injEq] at h
      obtain ⟨rfl, rfl⟩ := h
      exact Or.inr ⟨rfl, ha⟩
    | cons x b =>
      simp only [List.cons_append, List.cons.injEq] at h
      exact Or.inl ⟨b, a, h.2, ha⟩
  · rintro (⟨b, a, h, ha⟩ | ⟨rfl, ha⟩)
    · exact ⟨op :: b, a, by rw [h]; rfl, ha⟩
    · exact ⟨[], ops, rfl, ha⟩

theorem step_get {cs : Caches} (hok : CachesOk cs) (op : CacheOp) (id : String) (u : Uri) (s : Nat) :
    cacheGet (op.step cs) id u = some s ↔
      op = .add id u s ∨ (¬ Spec.Ends id u op ∧ cacheGet cs id u = some s) := by
  cases op with
  | add id' u' s' =>
    simp only [CacheOp.step, cacheGet_add, Spec.Ends, CacheOp.add.injEq]
    by_cases h : id = id' ∧ u = u'
    · obtain ⟨rfl, rfl⟩ := h
      simp
    · rw [if_neg h]
      have h2 : ¬ (id' = id ∧ u' = u) := fun e => h ⟨e.1.symm, e.2.symm⟩
      constructor
      · intro h3; exact Or.inr ⟨h2, h3⟩
      · rintro (h3 | h3)
        · exact absurd ⟨h3.1, h3.2.1⟩ h2
        · exact h3.2
  | del id' u' =>
    simp only [CacheOp.step, cacheGet_del hok, Spec.Ends, reduceCtorEq, false_or]
    by_cases h : id = id' ∧ u = u'
    · obtain ⟨rfl, rfl⟩ := h
      simp
    · rw [if_neg h]
      have h2 : ¬ (id' = id ∧ u' = u) := fun e => h ⟨e.1.symm, e.2.symm⟩
      exact (and_iff_right h2).symm
  | pop id' =>
    simp only [CacheOp.step, cacheGet_pop hok, Spec.Ends, reduceCtorEq, false_or]
    by_cases h : id = id'
    · subst h; simp
    · rw [if_neg h, and_iff_right (fun e => h e.symm)]

theorem cached_run {cs : Caches} (hok : CachesOk cs) (ops : List CacheOp) (id : String) (u : Uri)
    (s : Nat) : cacheGet (runCache cs ops) id u = some s ↔
      Spec.Cached ops id u s ∨ ((∀ c ∈ ops, ¬ Spec.Ends id u c) ∧ cacheGet cs id u = some s) := by
  induction ops generalizing cs with
  | nil =>
    simp [runCache, Spec.Cached]
  | cons op ops ih =>
    have h : runCache cs (op :: ops) = runCache (op.step cs) ops := rfl
    rw [h, ih (hok.step op), step_get hok, cached_cons]
    simp only [List.mem_cons, forall_eq_or_imp]
    constructor
    · rintro (h | ⟨h, h1 | ⟨h1, h2⟩⟩)
      · exact Or.inl (Or.inl h)
      · exact Or.inl (Or.inr ⟨h1, h⟩)
      · exact Or.inr ⟨⟨h1, h⟩, h2⟩
    · rintro ((h | ⟨h1, h⟩) | ⟨⟨h1, h⟩, h2⟩)
      · exact Or.inl h
      · exact Or.inr ⟨h, Or.inl h1⟩
      · exact Or.inr ⟨h, Or.inr ⟨h1, h2⟩⟩

/-- A lookup finds the schema added last under that URI and cache and not removed since, whatever else
was done; otherwise it finds nothing. -/
theorem C48_last_added (ops : List CacheOp) (id : String) (u : Uri) (s : Nat) :
    cacheGet (runCache [] ops) id u = some s ↔ Spec.Cached ops id u s := by
  rw [cached_run CachesOk.nil]
  constructor
  · rintro (h | ⟨_, h⟩)
    · exact h
    · simp [cacheGet, alookup] at h
  · exact Or.inl

/-- A call for one cache changes no lookup in another, at any point of any history. -/
theorem C48_isolated (ops : List CacheOp) (op : CacheOp) (id : String) (u : Uri)
    (hother : match op with
      | .add id' _ _ => id' ≠ id
      | .del id' _ => id' ≠ id
      | .pop id' => id' ≠ id) :
    cacheGet (runCache [] (ops ++ [op])) id u = cacheGet (runCache [] ops) id u := by
  have hends : ¬ Spec.Ends id u op := by
    cases op <;> simp only [Spec.Ends] at * <;> first | exact fun h => hother h.1 | exact hother
  have hne : ∀ s, op ≠ .add id u s := by
    intro s h
    subst h
    exact hother rfl
  have hrun : runCache [] (ops ++ [op]) = op.step (runCache [] ops) := by
    simp [runCache, List.foldl_append]
  rw [hrun]
  apply Option.ext
  intro s
  rw [step_get (runCache_ok CachesOk.nil ops)]
  constructor
  · rintro (h | h)
    · exact absurd h (hne s)
    · exact h.2
  · exact fun h => Or.inr ⟨hends, h⟩

/-- Calls for one URI change no lookup of another in the same cache. -/
theorem C48_other_uri (ops : List CacheOp) (id : String) (u u' : Uri) (s : Nat) (hne : u' ≠ u) :
    cacheGet (runCache [] (ops ++ [.add id u' s])) id u = cacheGet (runCache [] ops) id u ∧
    cacheGet (runCache [] (ops ++ [.del id u'])) id u = cacheGet (runCache [] ops) id u := by
  constructor
  · simp [runCache, List.foldl_append, CacheOp.step, cacheGet_add, Ne.symm hne]
  · have h : runCache [] (ops ++ [.del id u']) = delSchema (runCache [] ops) id u' := by
      simp [runCache, List.foldl_append, CacheOp.step]
    rw [h, cacheGet_del (runCache_ok CachesOk.nil ops), if_neg (fun e => hne e.2.symm)]

-- added, replaced and not removed since, with another cache popped in between
example : Spec.Cached [.add "a" ⟨"x", none⟩ 1, .add "a" ⟨"x", none⟩ 2, .pop "b", .del "a" ⟨"y", none⟩]
    "a" ⟨"x", none⟩ 2 :=
  ⟨[.add "a" ⟨"x", none⟩ 1], [.pop "b", .del "a" ⟨"y", none⟩], rfl, by
    simp [Spec.Ends]⟩

/-! ## C49 -/

theorem CacheProg.run_ok (p : CacheProg) {cs : Caches} (h : CachesOk cs) : CachesOk (p.run cs).1 := by
  induction p generalizing cs with
  | call op => exact h.step op
  | raise e => exact h
  | seq p q ihp ihq =>
    simp only [CacheProg.run]
    have := ihp h
    split <;> rename_i heq <;> rw [heq] at this
    · exact ihq this
    · exact this
  | block id p ih =>
    simp only [CacheProg.run, cacheBlock]
    split
    · exact h
    · exact (ih h).step (.pop id)

theorem step_isSome {cs : Caches} (hok : CachesOk cs) (op : CacheOp) (id : String) :
    (alookup id (op.step cs)).isSome = true ↔
      (∃ u s, op = .add id u s) ∨ (op ≠ .pop id ∧ (alookup id cs).isSome = true) := by
  cases op with
  | add id' u s =>
    simp only [CacheOp.step, addSchema, alookup_aset, CacheOp.add.injEq, ne_eq, reduceCtorEq,
      not_false_eq_true, true_and]
    by_cases h : id = id'
    · simp [h]
    · simp [h, Ne.symm h]
  | del id' u =>
    simp only [CacheOp.step, delSchema, reduceCtorEq, exists_false, false_or, ne_eq,
      not_false_eq_true, true_and]
    cases hl : alookup id' cs with
    | none => simp
    | some c =>
      simp only [alookup_aset]
      by_cases h : id = id'
      · subst h; simp [hl]
      · simp [h]
  | pop id' =>
    simp only [CacheOp.step, popCache, reduceCtorEq, exists_false, false_or, ne_eq, CacheOp.pop.injEq]
    by_cases h : id = id'
    · subst h; simp [alookup_apop_self hok.1]
    · simp [alookup_apop_ne h, Ne.symm h]

theorem run_isSome {cs : Caches} (hok : CachesOk cs) (ops : List CacheOp) (id : String) :
    (alookup id (runCache cs ops)).isSome = true ↔
      Spec.InUse ops id ∨ ((∀ c ∈ ops, c ≠ .pop id) ∧ (alookup id cs).isSome = true) := by
  induction ops generalizing cs with
  | nil => simp [runCache, Spec.InUse]
  | cons op ops ih =>
    have hcons : Spec.InUse (op :: ops) id ↔ Spec.InUse ops id ∨
        ((∃ u s, op = .add id u s) ∧ ∀ c ∈ ops, c ≠ .pop id) := by
      constructor
      · rintro ⟨b, u, s, a, h, ha⟩
        cases b with
        | nil =>
          simp only [List.nil_append, List.cons.injEq] at h
          obtain ⟨rfl, rfl⟩ := h
          exact Or.inr ⟨⟨u, s, rfl⟩, ha⟩
        | cons x b =>
          simp only [List.cons_append, List.cons.injEq] at h
          exact Or.inl ⟨b, u, s, a, h.2, ha⟩
      · rintro (⟨b, u, s, a, h, ha⟩ | ⟨⟨u, s, rfl⟩, ha⟩)
        · exact ⟨op :: b, u, s, a, by rw [h]; rfl, ha⟩
        · exact ⟨[], u, s, ops, rfl, ha⟩
    have h : runCache cs (op :: ops) = runCache (op.step cs) ops := rfl
    rw [h, ih (hok.step op), step_isSome hok, hcons]
    simp only [List.mem_cons, forall_eq_or_imp]
    constructor
    · rintro (h | ⟨h, h1 | ⟨h1, h2⟩⟩)
      · exact Or.inl (Or.inl h)
      · exact Or.inl (Or.inr ⟨h1, h⟩)
      · exact Or.inr ⟨⟨h1, h⟩, h2⟩
    · rintro ((h | ⟨h1, h⟩) | ⟨⟨h1, h⟩, h2⟩)
      · exact Or.inl h
      · exact Or.inr ⟨h, Or.inl h1⟩
      · exact Or.inr ⟨h, Or.inr ⟨h1, h2⟩⟩

theorem isSome_iff_inUse (ops : List CacheOp) (id : String) :
    (alookup id (runCache [] ops)).isSome = true ↔ Spec.InUse ops id := by
  rw [run_isSome CachesOk.nil]
  simp [alookup]

/-- After a `cache` block that was entered, whatever its body does and however it ends, nothing is
cached under its identifier, every other cache is as the body left it, and what the body raised is
raised. -/
theorem C49_exit (ops : List CacheOp) (id : String) (p : CacheProg)
    (hfree : ¬ Spec.InUse ops id) (id' : String) (u : Uri) :
    ((CacheProg.block id p).run (runCache [] ops)).2 = (p.run (runCache [] ops)).2 ∧
    cacheGet ((CacheProg.block id p).run (runCache [] ops)).1 id' u =
      if id' = id then none else cacheGet (p.run (runCache [] ops)).1 id' u := by
  rw [← isSome_iff_inUse] at hfree
  simp only [CacheProg.run, cacheBlock, if_neg hfree, true_and]
  exact cacheGet_pop (p.run_ok (runCache_ok CachesOk.nil ops))

/-- An identifier under which something was added, and that was not dropped since, is refused without
effect.  Missing: an identifier whose block has been entered is in use too, although nothing may have
been added to it yet; see `C49_nested_same_id`. -/
theorem C49_refused_partial (ops : List CacheOp) (id : String) (p : CacheProg) (h : Spec.InUse ops id) :
    (CacheProg.block id p).run (runCache [] ops) = (runCache [] ops, .error .catalogError) := by
  rw [← isSome_iff_inUse] at h
  simp only [CacheProg.run, cacheBlock, if_pos h]

/-- The identifier of a block that has been entered is not refused inside the block as long as nothing
was added; and the inner block drops what it cached, as if it had the identifier to itself. -/
theorem C49_nested_same_id :
    ∃ id inner, ((CacheProg.block id (.block id inner)).run []).2 = .ok () ∧
      ∃ u s, cacheGet (inner.run []).1 id u = some s ∧
        cacheGet ((CacheProg.block id inner).run []).1 id u = none :=
  ⟨"x", .call (.add "x" ⟨"u", none⟩ 1), rfl, ⟨"u", none⟩, 1, rfl, rfl⟩

theorem scoped_run (p : CacheProg) {ids : List String} (h : Spec.Scoped ids p) {cs : Caches}
    (hok : CachesOk cs) {id : String} (hid : id ∉ ids) (u : Uri) :
    cacheGet (p.run cs).1 id u = cacheGet cs id u := by
  induction p generalizing ids cs with
  | call op =>
    have hne : Spec.callId op ≠ id := fun e => hid (e ▸ h)
    cases op with
    | add id' u' s =>
      simp only [Spec.callId] at hne
      simp [CacheProg.run, CacheOp.step, cacheGet_add, Ne.symm hne]
    | del id' u' =>
      simp only [Spec.callId] at hne
      simp only [CacheProg.run, CacheOp.step, cacheGet_del hok]
      rw [if_neg (fun e => hne e.1.symm)]
    | pop id' =>
      simp only [Spec.callId] at hne
      simp only [CacheProg.run, CacheOp.step, cacheGet_pop hok]
      rw [if_neg (fun e => hne e.symm)]
  | raise e => rfl
  | seq p q ihp ihq =>
    simp only [Spec.Scoped] at h
    have hp := ihp h.1 hok hid
    have hok' := p.run_ok hok
    simp only [CacheProg.run]
    split <;> rename_i heq <;> rw [heq] at hp hok'
    · exact (ihq h.2 hok' hid).trans hp
    · exact hp
  | block id' p ih =>
    simp only [CacheProg.run, cacheBlock]
    by_cases hs : (alookup id' cs).isSome = true
    · rw [if_pos hs]
    · rw [if_neg hs]
      simp only [cacheGet_pop (p.run_ok hok)]
      by_cases he : id = id'
      · subst he
        have : alookup id cs = none := by simpa using hs
        simp [cacheGet, this]
      · rw [if_neg he]
        exact ih h hok (by simp [he, hid])

/-- A program that uses only the caches of its blocks leaves every lookup as it was, however it ends. -/
theorem C49_restores (ops : List CacheOp) (p : CacheProg) (h : Spec.Scoped [] p) (id : String) (u : Uri) :
    cacheGet (p.run (runCache [] ops)).1 id u = cacheGet (runCache [] ops) id u :=
  scoped_run p h (runCache_ok CachesOk.nil ops) List.not_mem_nil u

-- a block that adds a schema, opens another block, and raises inside it
example : Spec.Scoped [] (.block "x" (.seq (.call (.add "x" ⟨"u", none⟩ 1))
    (.block "y" (.seq (.call (.add "y" ⟨"v", none⟩ 2)) (.raise .keyError))))) := by
  simp [Spec.Scoped, Spec.callId]

-- a cache in use, although what was added has been removed again
example : Spec.InUse [.add "x" ⟨"u", none⟩ 1, .del "x" ⟨"u", none⟩] "x" :=
  ⟨[], ⟨"u", none⟩, 1, _, rfl, by simp⟩

-- a cache not in use any more
example : ¬ Spec.InUse [.add "x" ⟨"u", none⟩ 1, .pop "x"] "x" := by
  rw [← isSome_iff_inUse]; decide

end Jschon
