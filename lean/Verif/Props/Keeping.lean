import Verif.Proof.Keeping
import Verif.Props.Validate
import Verif.Props.UriEdit

/-!
# C103: the metaschema of a schema is the one of its first use
-/

namespace Jschon
open Spec

section
variable {E : CEnv}

/-- C103: what `metaschema` has returned it returns again, whatever has happened in the meantime: changes of
`metaschema_uri`, of the caches, of anything. -/
theorem C103_first {k k' k'' : Keeping} {s m : Nat} (h : k.read E s = some (k', .ok m)) (hl : KLater k' k'') (E' : CEnv) :
    k''.read E' s = some (k'', .ok m) := by
  have hk : k'.kept s = some m := by
    unfold Keeping.read at h
    split at h
    · cases h; assumption
    · split at h
      · cases h
      · cases h
      · cases h; exact if_pos rfl
  unfold Keeping.read
  rw [hl.kept hk]

/-- C103: if it has raised an exception, nothing is kept, nor does a read change anything else than what the schema
itself keeps. -/
theorem C103_failed {k k' : Keeping} {s : Nat} {e : Exc} (h : k.read E s = some (k', .error e)) : k' = k := by
  unfold Keeping.read at h
  split at h
  · cases h
  · split at h
    · cases h
    · cases h; rfl
    · cases h

theorem C103_others {k k' : Keeping} {s : Nat} {r : Except Exc Nat} (h : k.read E s = some (k', r)) :
    k'.world = k.world ∧ ∀ x, x ≠ s → k'.kept x = k.kept x := by
  refine ⟨(read_world h).1, fun x hx => ?_⟩
  unfold Keeping.read at h
  split at h
  · cases h; rfl
  · split at h
    · cases h
    · cases h; rfl
    · cases h; exact if_neg hx

/-- C103: constructions are among what `C103_first` allows in between. -/
theorem C103_constructions {k : Keeping} (h : KHistories E k) (w : World) (reads : Nat → Bool) :
    KLater k (k.grow E w reads) := by
  refine .any .refl fun s m hk => ?_
  simp only [Keeping.grow, if_pos (h.freshly.dom s m hk), hk]

/-- C103: what schemas read in their construction is what the catalog has for their metaschema URI. -/
theorem C103_constructed {k : Keeping} {w : World} {reads : Nat → Bool} {s : Nat} (hs : k.world.heap.next ≤ s)
    (hr : reads s = true) {u : Uri} (hu : w.metaUri s = some u) {mt : Meta} (he : E.metaschema u = .ok mt) {m : Nat}
    (hm : cacheGet w.caches "__meta__" u = some m) (E' : CEnv) :
    (k.grow E w reads).read E' s = some (k.grow E w reads, .ok m) := by
  have : (k.grow E w reads).kept s = some m := by
    simp only [Keeping.grow, if_neg (Nat.not_lt.2 hs), hr, if_true, World.metaschema, hu, he, hm, Option.map_some]
  simp only [Keeping.read, this]

/-- C103: a schema that has not read its metaschema is validated by the one of the present. -/
theorem C103_unread [Dialect] {k : Keeping} {s : Nat} (hk : k.kept s = none) (env : Env) (n : Nat) :
    (k.validate E env n s).map (·.2) = k.world.validate E env n s :=
  validate_fresh (fun m h => by rw [hk] at h; cases h) env n

/-- C103: and so is every schema as long as no metaschema URI is changed and no metaschema takes the place of another
one. -/
theorem C103_unedited [Dialect] {k : Keeping} (h : KHistories E k) (env : Env) (n s : Nat) :
    (k.validate E env n s).map (·.2) = k.world.validate E env n s :=
  validate_fresh (fun m hm => h.freshly.fresh s m hm) env n

/-- C103: a schema is validated by the metaschema that it has read first: after changes of URIs and of the caches, of
the schema and of others, `validate` has the result that it had before, unless dynamic references ask for names. -/
theorem C103_renamed [Dialect] {lib : UriLib} {k : Keeping} {w' : World} (hw : CHistory k.world)
    (hr : Renamed lib k.world w') {s m : Nat} (hk : k.kept s = some m) (hst : Static (k.world.store E "__meta__") m)
    (env : Env) (n : Nat) :
    ((⟨w', k.kept⟩ : Keeping).validate E env n s).map (·.2) = (k.validate E env n s).map (·.2) := by
  unfold Keeping.validate Keeping.read
  simp only [hk]
  rw [C99_evaluate hw hr hst, (hr.ok hw.ok.caches).heap]
  simp only [Option.map_map]; rfl

/-- C103: `schema.metaschema_uri = u` sets the URI, but a schema that has read its metaschema is not validated by
another one. -/
theorem C103_unnoticed [Dialect] {lib : UriLib} {k : Keeping} {s m : Nat} (hs : k.world.isSchema s = true)
    (hk : k.kept s = some m) (u : Uri) (env : Env) (n : Nat) :
    ((UriEdit.metaUri s (some u)).step lib k.world).metaUri s = some u ∧
    (⟨(UriEdit.metaUri s (some u)).step lib k.world, k.kept⟩ : Keeping).validate E env n s =
      (evaluate (((UriEdit.metaUri s (some u)).step lib k.world).store E "__meta__") env n m
        ⟨(readPath k.world.heap s).2.keys, val k.world.heap s⟩).map fun r =>
          (⟨(UriEdit.metaUri s (some u)).step lib k.world, k.kept⟩, .ok r) := by
  constructor
  · rw [World.isSchema, Option.isSome_iff_exists] at hs
    obtain ⟨i, hi⟩ := hs
    simp [World.metaUri, World.nearest, UriEdit.step, World.setInfo, hi]
  · simp only [Keeping.validate, Keeping.read, hk]
    rfl

end

namespace Toy
attribute [local instance] Toy.in2019

def firstKept (w1 w2 : World) : Keeping :=
  ((⟨.empty, fun _ => none⟩ : Keeping).grow Toy.env w1 fun _ => true).grow Toy.env w2 fun _ => true

/-- The schema has kept its metaschema, and nothing is a dynamic reference. -/
def bothKept : Bool :=
  match newDocument Toy.env 9 "__meta__" (some ⟨"hm19", none⟩) (some ⟨"hm19", none⟩) (.obj metaMembers) .empty with
  | some (w1, .ok m) =>
    match newDocument Toy.env 9 "" none none wrongSchema w1 with
    | some (w2, .ok s) => (List.range w2.heap.next).all (fun x => (w2.keywords x).all fun kv => kv.1 ≠ "$dynamicRef") &&
        decide ((firstKept w1 w2).kept s = some m ∧ s ≠ m ∧ w2.isSchema s = true ∧
          alookup "__meta__" w2.caches = alookup "__meta__" w1.caches)
    | _ => false
  | _ => false

theorem both_kept : ∃ (w1 w2 : World) (m s : Nat),
    newDocument Toy.env 9 "__meta__" (some ⟨"hm19", none⟩) (some ⟨"hm19", none⟩) (.obj metaMembers) .empty = some (w1, .ok m) ∧
    newDocument Toy.env 9 "" none none wrongSchema w1 = some (w2, .ok s) ∧
    (∀ x < w2.heap.next, ∀ kv ∈ w2.keywords x, kv.1 ≠ "$dynamicRef") ∧ (firstKept w1 w2).kept s = some m ∧ s ≠ m ∧
    w2.isSchema s = true ∧ alookup "__meta__" w2.caches = alookup "__meta__" w1.caches := by
  have h : bothKept = true := by decide +kernel
  unfold bothKept at h
  split at h
  · rename_i w1 m h1
    split at h
    · rename_i w2 s h2
      simp only [Bool.and_eq_true, List.all_eq_true, List.mem_range, decide_eq_true_eq] at h
      exact ⟨w1, w2, m, s, h1, h2, h⟩
    · cases h
  · cases h

theorem static19 {w : World} (hw : CHistory w) (h : ∀ x < w.heap.next, ∀ kv ∈ w.keywords x, kv.1 ≠ "$dynamicRef")
    (s : Nat) : Static (w.store env "__meta__") s := by
  intro x kws t f _ ho hm
  have hmem : ∃ kv ∈ w.keywords x, w.kwOf env kv = some (.dynamicRef t f true) := by
    simp only [World.store, World.schemaObj] at ho
    split at ho
    · cases ho
    · cases ho; exact List.mem_filterMap.1 hm
  obtain ⟨kv, hkv, e⟩ := hmem
  have hx : x < w.heap.next := hw.ok.dom x (keywords_member hw.ok hkv).1
  have hkey := (kwOf_fits hw.ok.ord hw.ok.keys (k := kv.1) (o := kv.2) e).1
  exact h x hx kv hkv hkey.symm

end Toy

section
attribute [local instance] Toy.in2019

/-- The hypotheses of C103 can hold: the schema has kept its metaschema when it was constructed, then it loses its
metaschema URI and the cache loses the metaschema. -/
example : ∃ k w' s m, KHistories Toy.env k ∧ CHistory k.world ∧ k.world.isSchema s = true ∧ k.kept s = some m ∧ s ≠ m ∧
    Static (k.world.store Toy.env "__meta__") m ∧ Renamed Toy.env.lib k.world w' ∧
    (⟨w', k.kept⟩ : Keeping).read Toy.env s = some (⟨w', k.kept⟩, .ok m) := by
  obtain ⟨w1, w2, m, s, h1, h2, hst, hk, hne, hs, hc⟩ := Toy.both_kept
  have hw : CHistory w1 := .new .start Toy.env_ok Toy.meta_arrival.wf (fun u _ q h => by cases h) h1
  have hd : Toy.wrongSchema.WF := Toy.wf_spec _ (by decide +kernel)
  have hw2 : CHistory w2 := .new hw Toy.env_ok hd (fun u h => by cases h) h2
  have hK : KHistories Toy.env (Toy.firstKept w1 w2) :=
    .grow _ (.grow _ .start (.new .refl Toy.env_ok Toy.meta_arrival.wf (fun u _ q h => by cases h) h1)
      (fun u m h => by cases h)) (.new .refl Toy.env_ok hd (fun u h => by cases h) h2) fun u m h => by
        simpa only [cacheGet, hc, Toy.firstKept, Keeping.grow] using h
  refine ⟨_, _, s, m, hK, hw2, hs, hk, hne, Toy.static19 hw2 hst m,
    .del "__meta__" ⟨"hm19", none⟩ (.metaUri none .refl hs), ?_⟩
  simp only [Keeping.read, hk]

end

end Jschon
