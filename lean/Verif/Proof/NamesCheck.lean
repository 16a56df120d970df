import Verif.Spec.Document

/-!
# The subschemas of a concrete document

For concrete cases: an enumeration of the subschemas, and a check of their names.
-/

namespace Jschon
open Spec

variable [dia : Dialect]

/-- All lists one after another, if all are there. -/
def joined {α : Type} : List (Option (List α)) → Option (List α)
  | [] => some []
  | none :: _ => none
  | some x :: l => (joined l).map (x ++ ·)

omit dia in
theorem joined_mem {α : Type} {o : Option (List α)} : ∀ {l : List (Option (List α))} {r : List α}, joined l = some r →
    o ∈ l → ∃ x, o = some x ∧ ∀ a ∈ x, a ∈ r
  | [], _, _, h => by cases h
  | none :: _, _, h, _ => by cases h
  | some y :: l, r, h, hx => by
    simp only [joined, Option.map_eq_some_iff] at h
    obtain ⟨r', h1, rfl⟩ := h
    rcases List.mem_cons.1 hx with rfl | hx
    · exact ⟨y, rfl, fun a ha => List.mem_append_left _ ha⟩
    · obtain ⟨x, e, h⟩ := joined_mem h1 hx
      exact ⟨x, e, fun a ha => List.mem_append_right _ (h a ha)⟩

/-- It is an array. -/
def isArr : Value → Bool
  | .arr _ => true
  | _ => false

/-- The subschemas below a member, given those of its parts. -/
def subsitesIn (sub : Value → Option (List (List String × Site))) (kv : String × Value) :
    Option (List (List String × Site)) :=
  if kv.1 ∈ oneKeys ∨ kv.1 ∈ eitherKeys ∧ isArr kv.2 = false then (sub kv.2).map (·.map fun x => (kv.1 :: x.1, x.2))
  else if kv.1 ∈ manyKeys ∨ kv.1 ∈ eitherKeys then
    match kv.2 with
    | .arr us => joined (us.zipIdx.map fun ui => (sub ui.1).map (·.map fun x => (kv.1 :: toString ui.2 :: x.1, x.2)))
    | _ => some []
  else if kv.1 ∈ namedKeys then
    match kv.2 with
    | .obj ms => joined (ms.map fun nu => (sub nu.2).map (·.map fun x => (kv.1 :: nu.1 :: x.1, x.2)))
    | _ => some []
  else some []

/-- The subschemas of a schema, if it is not too deep. -/
def subsites (lib : UriLib) : Nat → Site → Option (List (List String × Site))
  | 0, _ => none
  | n + 1, p =>
    match p.schema with
    | .obj kvs =>
      (joined (kvs.map (subsitesIn fun u => subsites lib n (site lib p.base u)))).map (([], p) :: ·)
    | _ => some [([], p)]

theorem keys_apart : (∀ k ∈ manyKeys, k ∉ oneKeys ∧ k ∉ eitherKeys) ∧ (∀ k ∈ eitherKeys, k ∉ oneKeys) ∧
    ∀ k ∈ namedKeys, k ∉ oneKeys ∧ k ∉ manyKeys ∧ k ∉ eitherKeys := by
  refine ⟨?_, ?_, ?_⟩ <;> cases dia <;> decide

theorem subsites_here {lib : UriLib} {n : Nat} {p : Site} {l : List (List String × Site)} (hl : subsites lib n p = some l) :
    ([], p) ∈ l := by
  cases n with
  | zero => cases hl
  | succ n =>
    simp only [subsites] at hl
    split at hl
    · obtain ⟨l', -, rfl⟩ := Option.map_eq_some_iff.1 hl
      exact List.mem_cons_self
    · cases hl; exact List.mem_singleton.2 rfl

theorem subsites_step {lib : UriLib} {n : Nat} {b : Uri} {kvs : List (String × Value)} {l : List (List String × Site)}
    (hl : subsites lib n ⟨b, .obj kvs⟩ = some l) : ∃ m, ∀ kv ∈ kvs,
      ∃ x, subsitesIn (fun u => subsites lib m (site lib b u)) kv = some x ∧ ∀ a ∈ x, a ∈ l := by
  cases n with
  | zero => cases hl
  | succ n =>
    simp only [subsites] at hl
    obtain ⟨l', h1, rfl⟩ := Option.map_eq_some_iff.1 hl
    refine ⟨n, fun kv hkv => ?_⟩
    obtain ⟨x, e, h⟩ := joined_mem h1 (List.mem_map.2 ⟨kv, hkv, rfl⟩)
    exact ⟨x, e, fun a ha => List.mem_cons_of_mem _ (h a ha)⟩

/-- The enumeration is complete. -/
theorem subsites_all {lib : UriLib} {p q : Site} {ks : List String} (h : Stands lib p ks q) :
    ∀ {n l}, subsites lib n p = some l → (ks, q) ∈ l := by
  induction h with
  | here => exact subsites_here
  | @one b kvs k u ks q hk hm _ ih =>
    intro n l hl
    obtain ⟨m, h⟩ := subsites_step hl
    obtain ⟨x, e, h⟩ := h _ hm
    have hk' : k ∈ oneKeys ∨ k ∈ eitherKeys ∧ isArr u = false := by
      refine hk.imp (fun h => h) fun h => ⟨h.1, ?_⟩
      cases u with
      | arr us => exact absurd rfl (h.2 us)
      | _ => rfl
    simp only [subsitesIn, if_pos hk'] at e
    obtain ⟨y, h1, rfl⟩ := Option.map_eq_some_iff.1 e
    exact h _ (List.mem_map.2 ⟨_, ih h1, rfl⟩)
  | @many b kvs k us i u ks q hk hm hi _ ih =>
    intro n l hl
    obtain ⟨m, h⟩ := subsites_step hl
    obtain ⟨x, e, h⟩ := h _ hm
    have hno : ¬ (k ∈ oneKeys ∨ k ∈ eitherKeys ∧ isArr (.arr us) = false) := by
      rintro (h | ⟨-, h⟩)
      · rcases hk with hk | hk
        · exact (keys_apart.1 k hk).1 h
        · exact keys_apart.2.1 k hk h
      · cases h
    have hk' : k ∈ manyKeys ∨ k ∈ eitherKeys := hk
    simp only [subsitesIn, if_neg hno, if_pos hk'] at e
    have hz : (u, i) ∈ us.zipIdx := by
      rw [List.mem_zipIdx_iff_getElem?]; exact hi
    obtain ⟨y, e', h'⟩ := joined_mem e (List.mem_map.2 ⟨_, hz, rfl⟩)
    obtain ⟨y', h1, rfl⟩ := Option.map_eq_some_iff.1 e'
    exact h _ (h' _ (List.mem_map.2 ⟨_, ih h1, rfl⟩))
  | @named b kvs k ms n u ks q hk hm hi _ ih =>
    intro n l hl
    obtain ⟨m, h⟩ := subsites_step hl
    obtain ⟨x, e, h⟩ := h _ hm
    obtain ⟨n1, n2, n3⟩ := keys_apart.2.2 k hk
    have hno : ¬ (k ∈ oneKeys ∨ k ∈ eitherKeys ∧ isArr (.obj ms) = false) := fun h => h.elim n1 fun h => n3 h.1
    have hno' : ¬ (k ∈ manyKeys ∨ k ∈ eitherKeys) := fun h => h.elim n2 n3
    simp only [subsitesIn, if_neg hno, if_neg hno', if_pos hk] at e
    obtain ⟨y, e', h'⟩ := joined_mem e (List.mem_map.2 ⟨_, hi, rfl⟩)
    obtain ⟨y', h1, rfl⟩ := Option.map_eq_some_iff.1 e'
    exact h _ (h' _ (List.mem_map.2 ⟨_, ih h1, rfl⟩))

/-- The members of a schema. -/
def Spec.Site.members (q : Site) : List (String × Value) :=
  match q.schema with
  | .obj kvs => kvs
  | _ => []

omit dia in
theorem Spec.Site.has_iff {q : Site} {k : String} {v : Value} : q.Has k v ↔ (k, v) ∈ q.members := by
  obtain ⟨b, s⟩ := q
  cases s <;> simp [Site.Has, Site.members]

/-- The names of the anchors. -/
def Spec.Site.anchors (q : Site) : List String :=
  q.members.filterMap fun kv => if kv.1 = "$anchor" ∨ kv.1 = "$dynamicAnchor" then
    match kv.2 with
    | .str f => some f
    | _ => none
    else none

theorem Spec.Anchored.mem {q : Site} {f : String} (h : Anchored q f) : f ∈ q.anchors := by
  rcases h with h | ⟨-, h⟩ <;> rw [Site.has_iff] at h <;> refine List.mem_filterMap.2 ⟨_, h, ?_⟩
  · rw [if_pos (.inl rfl)]
  · rw [if_pos (.inr rfl)]

/-- All subschemas of the documents, with the number of the document. -/
def allSites (lib : UriLib) (n : Nat) (roots : List Site) : Option (List (Nat × List String × Site)) :=
  joined (roots.zipIdx.map fun pi => (subsites lib n pi.1).map (·.map fun x => (pi.2, x)))

theorem allSites_all {lib : UriLib} {n : Nat} {roots : List Site} {l : List (Nat × List String × Site)}
    (hl : allSites lib n roots = some l) {i : Nat} {ks : List String} {q : Site} (h : Located lib roots i ks q) :
    (i, ks, q) ∈ l := by
  obtain ⟨p, h1, h2⟩ := h
  have hz : (p, i) ∈ roots.zipIdx := by
    rw [List.mem_zipIdx_iff_getElem?]; exact h1
  obtain ⟨y, e', h'⟩ := joined_mem hl (List.mem_map.2 ⟨_, hz, rfl⟩)
  obtain ⟨y', h3, rfl⟩ := Option.map_eq_some_iff.1 e'
  exact h' _ (List.mem_map.2 ⟨_, subsites_all h2 h3, rfl⟩)

/-- It may be a schema resource. -/
def resourceLike (x : Nat × List String × Site) : Bool :=
  x.2.1.isEmpty || x.2.2.members.any fun kv => kv.1 = "$id"

/-- The two subschemas do not compete for a name, or are one. -/
def noClash (x y : Nat × List String × Site) : Bool :=
  (x.1 = y.1 && x.2.1 = y.2.1) || x.2.2.base ≠ y.2.2.base ||
    ((!resourceLike x || !resourceLike y) && !x.2.2.anchors.any fun f => y.2.2.anchors.contains f)

theorem uniqueNames_check {lib : UriLib} {n : Nat} {roots : List Site}
    (h : (allSites lib n roots).any (fun l => l.all fun x => l.all (noClash x)) = true) : UniqueNames lib roots := by
  cases hl : allSites lib n roots with
  | none => rw [hl] at h; cases h
  | some l =>
    rw [hl] at h
    simp only [Option.any_some, List.all_eq_true] at h
    have res : ∀ {i ks p}, Resource lib roots i ks p → resourceLike (i, ks, p) = true := by
      rintro i ks p ⟨-, h | ⟨t, h⟩⟩
      · subst h; rfl
      · rw [Site.has_iff] at h
        simp only [resourceLike, Bool.or_eq_true, List.any_eq_true]
        exact .inr ⟨_, h, by simp⟩
    have pair : ∀ {i ks p j ls q}, Located lib roots i ks p → Located lib roots j ls q → p.base = q.base →
        (resourceLike (i, ks, p) = true ∧ resourceLike (j, ls, q) = true) ∨
          (∃ f, f ∈ p.anchors ∧ f ∈ q.anchors) → i = j ∧ ks = ls := by
      intro i ks p j ls q h1 h2 hb hc
      have := h _ (allSites_all hl h1) _ (allSites_all hl h2)
      simp only [noClash, Bool.or_eq_true, Bool.and_eq_true, decide_eq_true_eq, Bool.not_eq_true',
        ne_eq] at this
      rcases this with (h | h) | ⟨h, h'⟩
      · exact h
      · exact absurd hb h
      · rcases hc with ⟨c1, c2⟩ | ⟨f, c1, c2⟩
        · rw [c1, c2] at h; simp at h
        · rw [List.any_eq_false] at h'
          exact absurd (List.contains_iff_mem.2 c2) (h' f c1)
    refine ⟨fun i ks p j ls q h1 h2 hb => pair h1.1 h2.1 hb (.inl ⟨res h1, res h2⟩), ?_⟩
    exact fun i ks p j ls q f h1 h2 hb a1 a2 => pair h1 h2 hb (.inr ⟨f, a1.mem, a2.mem⟩)

end Jschon
