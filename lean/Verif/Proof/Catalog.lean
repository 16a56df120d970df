import Verif.Spec.Catalog
import Verif.Proof.Value

/-!
# Lemmas about dicts, sources and caches
-/

namespace Jschon

section
variable {κ β : Type} [DecidableEq κ]

theorem alookup_aset {k k' : κ} {v : β} {d : List (κ × β)} :
    alookup k (aset k' v d) = if k = k' then some v else alookup k d := by
  induction d with
  | nil =>
    simp only [aset, alookup]
  | cons e r ih =>
    obtain ⟨k'', w⟩ := e
    simp only [aset]
    by_cases h : k' = k''
    · subst h
      simp only [if_true, alookup]
      by_cases h' : k = k'
      · simp [h']
      · simp [h']
    · simp only [if_neg h, alookup, ih]
      by_cases h' : k = k''
      · subst h'
        simp [Ne.symm h]
      · simp [h']

theorem alookup_none {k : κ} {d : List (κ × β)} : alookup k d = none ↔ ∀ e ∈ d, e.1 ≠ k := by
  induction d with
  | nil => simp [alookup]
  | cons e r ih =>
    obtain ⟨k', w⟩ := e
    simp only [alookup]
    by_cases h : k = k'
    · subst h; simp
    · simp [h, ih, Ne.symm h]

theorem alookup_apop_ne {k k' : κ} {d : List (κ × β)} (h : k ≠ k') :
    alookup k (apop k' d) = alookup k d := by
  induction d with
  | nil => rfl
  | cons e r ih =>
    obtain ⟨k'', w⟩ := e
    simp only [apop]
    by_cases h1 : k' = k''
    · subst h1; simp [alookup, h]
    · simp only [if_neg h1, alookup, ih]

/-- The keys of a dict are distinct. -/
def KeysNodup (d : List (κ × β)) : Prop := (d.map Prod.fst).Nodup

theorem mem_keys_aset {k k' : κ} {v : β} {d : List (κ × β)} (h : k ∈ (aset k' v d).map Prod.fst) :
    k = k' ∨ k ∈ d.map Prod.fst := by
  induction d with
  | nil => simpa [aset] using h
  | cons e r ih =>
    obtain ⟨k'', w⟩ := e
    simp only [aset] at h
    by_cases h1 : k' = k''
    · simp only [if_pos h1, List.map_cons, List.mem_cons] at h
      right; simpa using h
    · simp only [if_neg h1, List.map_cons, List.mem_cons] at h
      rcases h with h | h
      · right; simp [h]
      · rcases ih h with h | h
        · exact Or.inl h
        · right; simp only [List.map_cons, List.mem_cons]; exact Or.inr h

theorem mem_keys_apop {k k' : κ} {d : List (κ × β)} (h : k ∈ (apop k' d).map Prod.fst) :
    k ∈ d.map Prod.fst := by
  induction d with
  | nil => exact h
  | cons e r ih =>
    obtain ⟨k'', w⟩ := e
    simp only [apop] at h
    by_cases h1 : k' = k''
    · simp only [if_pos h1] at h
      simp only [List.map_cons, List.mem_cons]; exact Or.inr h
    · simp only [if_neg h1, List.map_cons, List.mem_cons] at h
      simp only [List.map_cons, List.mem_cons]
      exact h.imp id ih

theorem KeysNodup.aset {k : κ} {v : β} {d : List (κ × β)} (h : KeysNodup d) :
    KeysNodup (Jschon.aset k v d) := by
  induction d with
  | nil => simp [KeysNodup, Jschon.aset]
  | cons e r ih =>
    obtain ⟨k', w⟩ := e
    simp only [KeysNodup, List.map_cons, List.nodup_cons] at h
    simp only [Jschon.aset]
    by_cases h1 : k = k'
    · simp only [if_pos h1, KeysNodup, List.map_cons, List.nodup_cons]; exact h
    · simp only [if_neg h1, KeysNodup, List.map_cons, List.nodup_cons]
      refine ⟨?_, ih h.2⟩
      intro hm
      rcases mem_keys_aset hm with hm | hm
      · exact h1 hm.symm
      · exact h.1 hm

theorem KeysNodup.apop {k : κ} {d : List (κ × β)} (h : KeysNodup d) :
    KeysNodup (Jschon.apop k d) := by
  induction d with
  | nil => exact h
  | cons e r ih =>
    obtain ⟨k', w⟩ := e
    simp only [KeysNodup, List.map_cons, List.nodup_cons] at h
    simp only [Jschon.apop]
    by_cases h1 : k = k'
    · simp only [if_pos h1]; exact h.2
    · simp only [if_neg h1, KeysNodup, List.map_cons, List.nodup_cons]
      exact ⟨fun hm => h.1 (mem_keys_apop hm), ih h.2⟩

theorem alookup_apop_self {k : κ} {d : List (κ × β)} (h : KeysNodup d) : alookup k (apop k d) = none := by
  induction d with
  | nil => rfl
  | cons e r ih =>
    obtain ⟨k', w⟩ := e
    simp only [KeysNodup, List.map_cons, List.nodup_cons] at h
    simp only [apop]
    by_cases h1 : k = k'
    · subst h1
      simp only [if_true]
      rw [alookup_none]
      intro e he heq
      exact h.1 (heq ▸ List.mem_map_of_mem he)
    · simp only [if_neg h1, alookup]
      exact ih h.2

theorem alookup_mem {k : κ} {v : β} {d : List (κ × β)} (h : alookup k d = some v) : (k, v) ∈ d := by
  induction d with
  | nil => simp [alookup] at h
  | cons e r ih =>
    obtain ⟨k', w⟩ := e
    simp only [alookup] at h
    by_cases h1 : k = k'
    · subst h1
      simp only [if_true, Option.some.injEq] at h
      subst h
      exact List.mem_cons_self
    · simp only [if_neg h1] at h
      exact List.mem_cons_of_mem _ (ih h)

end

/-! ## Caches -/

/-- Every dict of the caches has distinct keys. -/
def CachesOk (cs : Caches) : Prop := KeysNodup cs ∧ ∀ e ∈ cs, KeysNodup e.2

theorem mem_aset {κ β : Type} [DecidableEq κ] {k : κ} {v : β} {d : List (κ × β)} {e : κ × β}
    (h : e ∈ aset k v d) : e.2 = v ∨ e ∈ d := by
  induction d with
  | nil => simp only [aset, List.mem_singleton] at h; simp [h]
  | cons x r ih =>
    obtain ⟨k', w⟩ := x
    simp only [aset] at h
    by_cases h1 : k = k'
    · simp only [if_pos h1, List.mem_cons] at h
      rcases h with h | h
      · exact Or.inl (by simp [h])
      · exact Or.inr (List.mem_cons_of_mem _ h)
    · simp only [if_neg h1, List.mem_cons] at h
      rcases h with h | h
      · exact Or.inr (by simp [h])
      · exact (ih h).imp id (List.mem_cons_of_mem _)

theorem mem_apop {κ β : Type} [DecidableEq κ] {k : κ} {d : List (κ × β)} {e : κ × β}
    (h : e ∈ apop k d) : e ∈ d := by
  induction d with
  | nil => exact h
  | cons x r ih =>
    obtain ⟨k', w⟩ := x
    simp only [apop] at h
    by_cases h1 : k = k'
    · simp only [if_pos h1] at h; exact List.mem_cons_of_mem _ h
    · simp only [if_neg h1, List.mem_cons] at h
      rcases h with h | h
      · simp [h]
      · exact List.mem_cons_of_mem _ (ih h)

theorem CachesOk.nil : CachesOk [] := ⟨List.nodup_nil, by simp⟩

theorem CachesOk.step {cs : Caches} (h : CachesOk cs) (op : CacheOp) : CachesOk (op.step cs) := by
  cases op with
  | add id u s =>
    refine ⟨h.1.aset, ?_⟩
    intro e he
    rcases mem_aset he with he | he
    · rw [he]
      apply KeysNodup.aset
      cases hl : alookup id cs with
      | none => simp [KeysNodup]
      | some c => exact h.2 _ (alookup_mem hl)
    · exact h.2 _ he
  | del id u =>
    simp only [CacheOp.step, delSchema]
    split
    · exact h
    · rename_i c hl
      refine ⟨h.1.aset, ?_⟩
      intro e he
      rcases mem_aset he with he | he
      · rw [he]; exact (h.2 _ (alookup_mem hl)).apop
      · exact h.2 _ he
  | pop id => exact ⟨h.1.apop, fun e he => h.2 _ (mem_apop he)⟩

theorem cacheGet_add {cs : Caches} {id id' : String} {u u' : Uri} {s : Nat} :
    cacheGet (addSchema cs id u s) id' u' =
      if id' = id ∧ u' = u then some s else cacheGet cs id' u' := by
  simp only [cacheGet, addSchema, alookup_aset]
  by_cases h : id' = id
  · subst h
    simp only [if_true, Option.bind_some, alookup_aset, true_and]
    by_cases hu : u' = u
    · simp [hu]
    · simp only [if_neg hu]
      cases alookup id' cs <;> rfl
  · simp [h]

theorem cacheGet_del {cs : Caches} (hok : CachesOk cs) {id id' : String} {u u' : Uri} :
    cacheGet (delSchema cs id u) id' u' =
      if id' = id ∧ u' = u then none else cacheGet cs id' u' := by
  simp only [delSchema]
  cases hl : alookup id cs with
  | none =>
    simp only []
    split
    · rename_i h; simp [cacheGet, h.1, hl]
    · rfl
  | some c =>
    simp only [cacheGet, alookup_aset]
    by_cases h : id' = id
    · subst h
      simp only [if_true, Option.bind_some, true_and, hl]
      by_cases hu : u' = u
      · subst hu
        rw [alookup_apop_self (hok.2 _ (alookup_mem hl))]
        simp
      · simp only [if_neg hu, alookup_apop_ne hu]
    · simp [h]

theorem cacheGet_pop {cs : Caches} (hok : CachesOk cs) {id id' : String} {u' : Uri} :
    cacheGet (popCache cs id) id' u' = if id' = id then none else cacheGet cs id' u' := by
  simp only [cacheGet, popCache]
  by_cases h : id' = id
  · subst h
    rw [alookup_apop_self hok.1]
    simp
  · simp [h, alookup_apop_ne h]

/-- The caches after a sequence of calls. -/
def runCache (cs : Caches) (ops : List CacheOp) : Caches := ops.foldl CacheOp.step cs

theorem runCache_ok {cs : Caches} (h : CachesOk cs) (ops : List CacheOp) : CachesOk (runCache cs ops) := by
  induction ops generalizing cs with
  | nil => exact h
  | cons o os ih => exact ih (h.step o)

/-! ## Sources -/

theorem mem_dset_iff {β : Type} {k : String} {v : β} {d : List (String × β)} (hn : (dkeys d).Nodup)
    {e : String × β} : e ∈ dset k v d ↔ e = (k, v) ∨ (e ∈ d ∧ e.1 ≠ k) := by
  induction d with
  | nil => simp [dset]
  | cons x r ih =>
    obtain ⟨k', w⟩ := x
    simp only [dkeys_cons, List.nodup_cons] at hn
    simp only [dset]
    by_cases h1 : k = k'
    · subst h1
      simp only [if_true, List.mem_cons]
      constructor
      · rintro (h | h)
        · exact Or.inl h
        · refine Or.inr ⟨Or.inr h, ?_⟩
          intro heq
          exact hn.1 (heq ▸ List.mem_map_of_mem h)
      · rintro (h | ⟨h | h, hne⟩)
        · exact Or.inl h
        · exact absurd (by rw [h]) hne
        · exact Or.inr h
    · simp only [if_neg h1, List.mem_cons, ih hn.2]
      constructor
      · rintro (h | h | h)
        · exact Or.inr ⟨Or.inl h, by rw [h]; exact fun e => h1 e.symm⟩
        · exact Or.inl h
        · exact Or.inr ⟨Or.inr h.1, h.2⟩
      · rintro (h | ⟨h | h, hne⟩)
        · exact Or.inr (Or.inl h)
        · exact Or.inl h
        · exact Or.inr (Or.inr ⟨h, hne⟩)

theorem nodup_dset {β : Type} {k : String} {v : β} {d : List (String × β)} (hn : (dkeys d).Nodup) :
    (dkeys (dset k v d)).Nodup := by
  induction d with
  | nil => simp [dset, dkeys]
  | cons x r ih =>
    obtain ⟨k', w⟩ := x
    simp only [dkeys_cons, List.nodup_cons] at hn
    simp only [dset]
    by_cases h1 : k = k'
    · simp only [if_pos h1, dkeys_cons, List.nodup_cons]; exact hn
    · simp only [if_neg h1, dkeys_cons, List.nodup_cons]
      refine ⟨?_, ih hn.2⟩
      intro hm
      obtain ⟨e, he, hk⟩ := List.mem_map.1 hm
      rcases (mem_dset_iff hn.2).1 he with he | he
      · rw [he] at hk; exact h1 hk
      · exact hn.1 (hk ▸ List.mem_map_of_mem he.1)

/-- `_uri_sources` after the calls of `add_uri_source`; a call that raises changes nothing. -/
def runSources (lib : UriLib) (srcs : List (String × Source)) :
    List (Option Uri × Source) → List (String × Source)
  | [] => srcs
  | (u, s) :: r =>
    match addUriSource lib srcs u s with
    | .ok srcs' => runSources lib srcs' r
    | .error _ => runSources lib srcs r

theorem addUriSource_iff {lib : UriLib} {srcs : List (String × Source)} {u : Option Uri} {s : Source} :
    (Spec.Registrable lib u ∧ addUriSource lib srcs u s = .ok (dset (Spec.prefixOf u) s srcs)) ∨
    (¬ Spec.Registrable lib u ∧ addUriSource lib srcs u s = .error .catalogError) := by
  cases u with
  | none => left; exact ⟨trivial, rfl⟩
  | some u =>
    simp only [Spec.Registrable, addUriSource, Uri.validate, Spec.prefixOf]
    cases lib.valid u <;> cases lib.hasScheme u <;> cases lib.normal u <;> cases lib.dirPath u <;>
      cases u.fragment <;> simp

/-- The sources in force. -/
theorem mem_runSources {lib : UriLib} {p : String} {s : Source} :
    ∀ {srcs : List (String × Source)} (calls : List (Option Uri × Source)), (dkeys srcs).Nodup →
    ((dkeys (runSources lib srcs calls)).Nodup ∧
     ((p, s) ∈ runSources lib srcs calls ↔ Spec.InForce lib calls p s ∨
      ((p, s) ∈ srcs ∧ ∀ c ∈ calls, Spec.Registrable lib c.1 → Spec.prefixOf c.1 ≠ p))) := by
  intro srcs calls
  induction calls generalizing srcs with
  | nil =>
    intro hn
    refine ⟨hn, ?_⟩
    simp [runSources, Spec.InForce]
  | cons c r ih =>
    obtain ⟨u, s0⟩ := c
    intro hn
    -- what is in force after a first call that registers nothing for `p` later on
    have hcons : Spec.InForce lib ((u, s0) :: r) p s ↔ Spec.InForce lib r p s ∨
        (s0 = s ∧ Spec.Registrable lib u ∧ Spec.prefixOf u = p ∧
          ∀ c ∈ r, Spec.Registrable lib c.1 → Spec.prefixOf c.1 ≠ p) := by
      constructor
      · rintro ⟨b, u', a, h, hr, hp, ha⟩
        cases b with
        | nil =>
          simp only [List.nil_append, List.cons.injEq, Prod.mk.injEq] at h
          obtain ⟨⟨rfl, rfl⟩, rfl⟩ := h
          exact Or.inr ⟨rfl, hr, hp, ha⟩
        | cons x b =>
          simp only [List.cons_append, List.cons.injEq] at h
          exact Or.inl ⟨b, u', a, h.2, hr, hp, ha⟩
      · rintro (⟨b, u', a, h, hr, hp, ha⟩ | ⟨rfl, hr, hp, ha⟩)
        · exact ⟨(u, s0) :: b, u', a, by rw [h]; rfl, hr, hp, ha⟩
        · exact ⟨[], u, r, rfl, hr, hp, ha⟩
    rcases addUriSource_iff (lib := lib) (srcs := srcs) (u := u) (s := s0) with ⟨hreg, h⟩ | ⟨hreg, h⟩
    · simp only [runSources, h]
      obtain ⟨h1, h2⟩ := ih (nodup_dset (k := Spec.prefixOf u) (v := s0) hn)
      refine ⟨h1, ?_⟩
      rw [h2, hcons, mem_dset_iff hn]
      simp only [Prod.mk.injEq, List.mem_cons, forall_eq_or_imp]
      constructor
      · rintro (h | ⟨⟨rfl, rfl⟩ | ⟨h, hne⟩, ha⟩)
        · exact Or.inl (Or.inl h)
        · exact Or.inl (Or.inr ⟨rfl, hreg, rfl, ha⟩)
        · exact Or.inr ⟨h, fun _ e => hne e.symm, ha⟩
      · rintro ((h | ⟨rfl, _, rfl, ha⟩) | ⟨h, hne, ha⟩)
        · exact Or.inl h
        · exact Or.inr ⟨Or.inl ⟨rfl, rfl⟩, ha⟩
        · exact Or.inr ⟨Or.inr ⟨h, fun e => hne hreg e.symm⟩, ha⟩
    · simp only [runSources, h]
      obtain ⟨h1, h2⟩ := ih hn
      refine ⟨h1, ?_⟩
      rw [h2, hcons]
      simp only [List.mem_cons, forall_eq_or_imp]
      constructor
      · rintro (h | ⟨h, ha⟩)
        · exact Or.inl (Or.inl h)
        · exact Or.inr ⟨h, fun hr => absurd hr hreg, ha⟩
      · rintro ((h | h) | ⟨h, _, ha⟩)
        · exact Or.inl h
        · exact absurd h.2.1 hreg
        · exact Or.inr ⟨h, ha⟩

theorem sourceCandidates_head {srcs : List (String × Source)} {t : String} :
    (sourceCandidates srcs t = [] ∧ ∀ e ∈ srcs, ¬ e.1.toList <+: t.toList) ∨
    ∃ e r, sourceCandidates srcs t = e :: r ∧ e ∈ srcs ∧ e.1.toList <+: t.toList ∧
      ∀ e' ∈ srcs, e'.1.toList <+: t.toList → e'.1.length ≤ e.1.length := by
  have hperm := List.mergeSort_perm (srcs.filter (fun ps => ps.1.toList.isPrefixOf t.toList))
    (fun a b => decide (b.1.length ≤ a.1.length))
  have hmem : ∀ e, e ∈ sourceCandidates srcs t ↔ e ∈ srcs ∧ e.1.toList <+: t.toList := by
    intro e
    rw [sourceCandidates, hperm.mem_iff, List.mem_filter, List.isPrefixOf_iff_prefix]
  have hsorted := List.pairwise_mergeSort (le := fun (a b : String × Source) =>
      decide (b.1.length ≤ a.1.length))
    (by intro a b c hab hbc; simp only [decide_eq_true_eq] at *; omega)
    (by intro a b; simp only [Bool.or_eq_true, decide_eq_true_eq]; omega)
    (srcs.filter (fun ps => ps.1.toList.isPrefixOf t.toList))
  cases hs : sourceCandidates srcs t with
  | nil =>
    left
    refine ⟨rfl, fun e he hp => ?_⟩
    have := (hmem e).2 ⟨he, hp⟩
    rw [hs] at this
    exact absurd this List.not_mem_nil
  | cons e r =>
    right
    have he := (hmem e).1 (by rw [hs]; exact List.mem_cons_self)
    refine ⟨e, r, rfl, he.1, he.2, ?_⟩
    intro e' he' hp'
    have hm := (hmem e').2 ⟨he', hp'⟩
    rw [hs] at hm
    have hs' : (srcs.filter (fun ps => ps.1.toList.isPrefixOf t.toList)).mergeSort
        (fun a b => decide (b.1.length ≤ a.1.length)) = e :: r := hs
    rw [hs', List.pairwise_cons] at hsorted
    rcases List.mem_cons.1 hm with h | h
    · rw [h]; exact Nat.le_refl _
    · exact of_decide_eq_true (hsorted.1 e' h)

end Jschon
