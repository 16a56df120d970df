import Verif.Proof.ConstructInv
import Verif.Props.Construct

/-!
# C70, C71: the URIs of schemas

Whatever schemas are constructed and looked up, and however often that fails in between, schemas
inside documents have the URI that `$id` says and no other, and the caches of the catalog map exactly
the URIs and anchors of schemas, to schemas that have them.
-/

namespace Jschon
open Spec

theorem baseUri_iff {w : World} (ho : Ord w.heap) {b : Uri} : ∀ (x : Nat), w.baseUri x = some b ↔ BaseUri w x b := by
  intro x
  induction x using Nat.strongRecOn with
  | _ x ih =>
    cases hu : w.uri x with
    | some u =>
      rw [base_own hu, Option.some.injEq]
      refine ⟨fun h => h ▸ .own hu, fun h => ?_⟩
      cases h with
      | own h => rw [hu] at h; cases h; rfl
      | up h => rw [hu] at h; cases h
    | none =>
      cases hp : w.heap.parent x with
      | none =>
        constructor
        · intro h
          have hu' : (w.info x).bind SInfo.uri = none := hu
          simp [World.baseUri, World.nearest, hu', hp] at h
        · intro h
          cases h with
          | own h => rw [hu] at h; cases h
          | up _ h => rw [hp] at h; cases h
      | some p =>
        rw [base_up ho hp hu, ih p (ho.par x p hp)]
        refine ⟨fun h => .up hu hp h, fun h => ?_⟩
        cases h with
        | own h => rw [hu] at h; cases h
        | up _ h h' => rw [hp] at h; cases h; exact h'

theorem claims_iff {lib : UriLib} {w : World} (ho : Ord w.heap) {x : Nat} {v : Uri} :
    Claims lib w x v ↔ NameOf lib w x v := by
  constructor
  · rintro (h | ⟨h1, h2, h3⟩)
    · exact .uri h
    · exact .anchor h1 h2 ((baseUri_iff ho x).1 h3)
  · rintro (h | ⟨h1, h2, h3⟩)
    · exact .uri h
    · exact .anchor h1 h2 ((baseUri_iff ho x).2 h3)

theorem Spec.NamedHistory.ok {lib : UriLib} {w : World} (h : NamedHistory lib w) : CHistory w := by
  induction h with
  | start => exact .start
  | new _ hE _ hd hu h ih => exact .new ih hE hd (fun u e => (hu u e).2) h
  | get _ hE _ h ih => exact .get ih hE h

theorem Spec.NamedHistory.names {lib : UriLib} (hU : ∀ l, (lib.uuid l).fragment = none) {w : World}
    (h : NamedHistory lib w) : NamesOk lib [] 0 w := by
  induction h with
  | start => exact names_empty lib
  | new hh hE hl hd hu h ih =>
    subst hl
    exact ((names_inv hE hU [] 0).newDocument hE hd (.doc hh.ok.ok fun u e => (hu u e).2) (fun u e => (hu u e).1)
      ⟨Nat.zero_le _, ih⟩ h).2
  | get hh hE hl h ih =>
    subst hl
    exact ((names_inv hE hU [] 0).getSchema hE hh.ok.ok ⟨Nat.zero_le _, ih⟩ h).2

theorem WOk.member {w : World} (ok : WOk w) {x j : Nat} {k : String} {ms : List (String × Nat)}
    (hs : w.isSchema x = true) (hd : w.heap.data x = .obj ms) (hm : (k, j) ∈ ms) :
    ∃ o, (k, o) ∈ w.keywords x ∧ o.json = j := by
  unfold World.isSchema at hs
  cases hi : w.info x with
  | none => rw [hi] at hs; cases hs
  | some i =>
    have := ok.kws x i hi
    rw [hd] at this
    simp only [JData.members] at this
    rw [← this] at hm
    obtain ⟨kv, h1, h2⟩ := List.mem_map.1 hm
    cases h2
    exact ⟨kv.2, by simpa [World.keywords, hi] using h1, rfl⟩

theorem WOk.keyword {w : World} (ok : WOk w) {x : Nat} {k : String} (hk : k ∈ dkeys (w.keywords x)) (h0 : k ≠ "") :
    ∃ ms, w.heap.data x = .obj ms ∧ k ∈ dkeys ms := by
  cases hi : w.info x with
  | none => simp [World.keywords, hi, dkeys] at hk
  | some i =>
    have := ok.kws x i hi
    have hk' : k ∈ dkeys (w.heap.data x).members := by
      rw [← this]
      simpa [World.keywords, hi, dkeys, kwMembers, List.map_map, Function.comp_def] using hk
    cases hd : w.heap.data x with
    | obj ms => rw [hd] at hk'; exact ⟨ms, rfl, hk'⟩
    | arr cs =>
      rw [hd] at hk'
      simp [JData.members, dkeys] at hk'
      exact absurd hk'.2 h0
    | _ => rw [hd] at hk'; simp [JData.members, dkeys] at hk'

/-- A document with a schema that has a relative `$id` and an anchor. -/
def Toy.namedDoc : Value :=
  .obj [("$id", .str "h/r"), ("$defs", .obj [("a", .obj [("$id", .str "e"), ("$anchor", .str "x")]),
    ("b", .bool true)])]

theorem Toy.uuid_plain (l : List Uri) : (Toy.lib.uuid l).fragment = none := (Toy.site_lib.uuid l).1

/-- Constructing a document in an empty catalog is a history. -/
theorem Toy.named {doc : Value} {w : World} {r : Except Exc Nat} (hd : doc.WF)
    (h : Toy.build doc = some (w, r)) : NamedHistory Toy.lib w :=
  .new .start Toy.env_ok rfl hd (fun _ h => by cases h) h

/-! ## C70: `$id` -/

/-- C70: a schema inside a document that has a member `$id` with text `t` has as its URI `t` itself
if that is absolute, and otherwise `t` resolved against the base URI of what it is in. -/
theorem C70_id {lib : UriLib} (hU : ∀ l, (lib.uuid l).fragment = none) {w : World} (hw : NamedHistory lib w)
    {x p j : Nat} {ms : List (String × Nat)} {t : String} (hs : w.isSchema x = true)
    (hp : w.heap.parent x = some p) (hd : w.heap.data x = .obj ms) (hm : ("$id", j) ∈ ms)
    (ht : w.heap.data j = .str t) :
    ∃ r, w.uri x = some r ∧ ((lib.isAbsolute (lib.ofText t) = true ∧ r = lib.ofText t) ∨
      (lib.isAbsolute (lib.ofText t) = false ∧ ∃ b, BaseUri w p b ∧ lib.resolve (lib.ofText t) b = some r)) := by
  have ok := hw.ok.ok
  obtain ⟨o, h1, rfl⟩ := ok.member hs hd hm
  obtain ⟨r, h2, h3⟩ := (hw.names hU).id x p o.shape t (Nat.zero_le _) hp ⟨o, h1, rfl, ht⟩
  refine ⟨r, h2, ?_⟩
  rcases h3 with h3 | ⟨h3, b, h4, h5⟩
  · exact .inl h3
  · exact .inr ⟨h3, b, (baseUri_iff ok.ord p).1 h4, h5⟩

/-- C70: a schema inside a document that has no member `$id` has no URI. -/
theorem C70_no_id {lib : UriLib} (hU : ∀ l, (lib.uuid l).fragment = none) {w : World} (hw : NamedHistory lib w)
    {x p : Nat} (hs : w.isSchema x = true) (hp : w.heap.parent x = some p)
    (hd : ∀ ms, w.heap.data x = .obj ms → "$id" ∉ dkeys ms) : w.uri x = none := by
  refine (hw.names hU).noId x p (Nat.zero_le _) hs hp fun hk => ?_
  obtain ⟨ms, h1, h2⟩ := hw.ok.ok.keyword hk (by decide)
  exact hd ms h1 h2

/-- The document, with the schema with `$id`, which is instance 3, and the one without, instance 6. -/
theorem Toy.named_world : ∃ w r, Toy.build Toy.namedDoc = some (w, r) ∧
    w.isSchema 3 = true ∧ w.isSchema 6 = true ∧ w.heap.parent 3 = some 2 ∧ w.heap.parent 6 = some 2 ∧
    w.heap.data 3 = .obj [("$id", 4), ("$anchor", 5)] ∧ w.heap.data 4 = .str "e" ∧ w.heap.data 5 = .str "x" ∧
    w.heap.data 6 = .bool true ∧ w.uri 3 = some ⟨"h/e", none⟩ ∧
    (w.keywords 3).map (fun kv => (kv.1, kv.2.shape, kv.2.json)) = [("$id", .id, 4), ("$anchor", .anchor, 5)] := by
  have h : (Toy.build Toy.namedDoc).map (fun p =>
      decide (p.1.isSchema 3 = true) && decide (p.1.isSchema 6 = true) && decide (p.1.heap.parent 3 = some 2) &&
      decide (p.1.heap.parent 6 = some 2) &&
      (match p.1.heap.data 3 with | .obj ms => decide (ms = [("$id", 4), ("$anchor", 5)]) | _ => false) &&
      (match p.1.heap.data 4 with | .str t => decide (t = "e") | _ => false) &&
      (match p.1.heap.data 5 with | .str t => decide (t = "x") | _ => false) &&
      (match p.1.heap.data 6 with | .bool b => b | _ => false) &&
      decide (p.1.uri 3 = some ⟨"h/e", none⟩) &&
      decide ((p.1.keywords 3).map (fun kv => (kv.1, kv.2.shape, kv.2.json)) =
        [("$id", .id, 4), ("$anchor", .anchor, 5)])) = some true := by decide +kernel
  obtain ⟨⟨w, r⟩, hb, hp⟩ := Option.map_eq_some_iff.1 h
  simp only [Bool.and_eq_true, decide_eq_true_eq] at hp
  obtain ⟨⟨⟨⟨⟨⟨⟨⟨⟨h1, h2⟩, h3⟩, h4⟩, h5⟩, h6⟩, h7⟩, h8⟩, h9⟩, h10⟩ := hp
  refine ⟨w, r, hb, h1, h2, h3, h4, ?_, ?_, ?_, ?_, h9, h10⟩
  · split at h5
    · rename_i e; rw [e, of_decide_eq_true h5]
    · cases h5
  · split at h6
    · rename_i e; rw [e, of_decide_eq_true h6]
    · cases h6
  · split at h7
    · rename_i e; rw [e, of_decide_eq_true h7]
    · cases h7
  · split at h8
    · rename_i e; rw [e, h8]
    · cases h8

/-- The hypotheses of `C70_id` and `C70_no_id` can hold. -/
example : ∃ (w : World), NamedHistory Toy.lib w ∧
    (∃ x p j ms t, w.isSchema x = true ∧ w.heap.parent x = some p ∧ w.heap.data x = .obj ms ∧ ("$id", j) ∈ ms ∧
      w.heap.data j = .str t ∧ Toy.lib.isAbsolute (Toy.lib.ofText t) = false) ∧
    ∃ x p, w.isSchema x = true ∧ w.heap.parent x = some p ∧ ∀ ms, w.heap.data x = .obj ms → "$id" ∉ dkeys ms := by
  obtain ⟨w, r, hb, h1, h2, h3, h4, h5, h6, h7, h8, -⟩ := Toy.named_world
  refine ⟨w, Toy.named (Toy.wf_spec _ (by decide +kernel)) hb, ⟨3, 2, 4, _, _, h1, h3, h5, by decide, h6, by decide +kernel⟩,
    6, 2, h2, h4, fun ms h => ?_⟩
  rw [h8] at h; cases h

/-! ## C71: what can be looked up -/

/-- C71: what is cached for a URI is a schema of that cache which has that URI, or has it as its base
URI with an anchor of its own. -/
theorem C71_cached {lib : UriLib} (hU : ∀ l, (lib.uuid l).fragment = none) {w : World} (hw : NamedHistory lib w)
    {cid : String} {v : Uri} {x : Nat} (h : cacheGet w.caches cid v = some x) :
    w.isSchema x = true ∧ w.cacheid x = cid ∧ NameOf lib w x v := by
  obtain ⟨h1, h2⟩ := (hw.names hU).claim _ _ _ h (Nat.zero_le _)
  exact ⟨hw.ok.ok.cached _ _ _ h, h1, (claims_iff hw.ok.ok.ord).1 h2⟩

/-- C71: for the URI of a schema, and for its base URI with one of its anchors, `get_schema` returns a
schema of the same cache with that name, and changes nothing. -/
theorem C71_found {lib : UriLib} (hU : ∀ l, (lib.uuid l).fragment = none) {w : World} (hw : NamedHistory lib w)
    {x : Nat} {v : Uri} (hx : NameOf lib w x v) (E : CEnv) (n : Nat) (m : Option Uri) :
    ∃ y, getSchema E n v m (w.cacheid x) w = some (w, .ok y) ∧ w.isSchema y = true ∧
      w.cacheid y = w.cacheid x ∧ NameOf lib w y v := by
  obtain ⟨y, -, h⟩ := (hw.names hU).cached x v (Nat.zero_le _) ((claims_iff hw.ok.ok.ord).2 hx)
  exact ⟨y, getSchemaWith_cached h, C71_cached hU hw h⟩

/-- C71: if no other schema of the cache has that name, `get_schema` returns the schema. -/
theorem C71_unique {lib : UriLib} (hU : ∀ l, (lib.uuid l).fragment = none) {w : World} (hw : NamedHistory lib w)
    {x : Nat} {v : Uri} (hx : NameOf lib w x v)
    (hq : ∀ y, w.cacheid y = w.cacheid x → NameOf lib w y v → y = x) (E : CEnv) (n : Nat) (m : Option Uri) :
    getSchema E n v m (w.cacheid x) w = some (w, .ok x) := by
  obtain ⟨y, h1, -, h2, h3⟩ := C71_found hU hw hx E n m
  rw [← hq y h2 h3]
  rw [hq y h2 h3] at h1 ⊢
  exact h1

/-- The hypotheses of `C71_unique` can hold, for an anchor in an embedded resource. -/
example : ∃ (w : World) (x : Nat) (v : Uri), NamedHistory Toy.lib w ∧ NameOf Toy.lib w x v ∧
    (∀ y, w.cacheid y = w.cacheid x → NameOf Toy.lib w y v → y = x) ∧ v = ⟨"h/e", some "x"⟩ := by
  obtain ⟨w, r, hb, h1, h2, h3, h4, h5, h6, h7, h8, h9, h10⟩ := Toy.named_world
  have hw := Toy.named (Toy.wf_spec _ (by decide +kernel)) hb
  have hn : NameOf Toy.lib w 3 ⟨"h/e", some "x"⟩ := by
    have hv : (⟨"h/e", some "x"⟩ : Uri) = Toy.lib.ofText ((⟨"h/e", none⟩ : Uri).noFragment.str ++ "#" ++ "x") := by
      decide +kernel
    rw [hv]
    have hm : ("$anchor", KwShape.anchor, 5) ∈ (w.keywords 3).map (fun kv => (kv.1, kv.2.shape, kv.2.json)) := by
      rw [h10]; simp
    obtain ⟨⟨k, o⟩, m1, m2⟩ := List.mem_map.1 hm
    simp only [Prod.mk.injEq] at m2
    obtain ⟨rfl, m2, m3⟩ := m2
    exact .anchor ⟨o, m1, m2, by rw [m3]; exact h7⟩ (.inl rfl) (.own h9)
  refine ⟨w, 3, _, hw, hn, fun y hc hy => ?_, rfl⟩
  have only : (Toy.build Toy.namedDoc).map (fun p => (List.range p.1.heap.next).all (fun y => y == 3 ||
      ((p.1.uri y ≠ some ⟨"h/e", some "x"⟩) && (p.1.keywords y).all (fun kv => kv.2.shape ≠ .anchor && kv.2.shape ≠ .dynamicAnchor)))) =
      some true := by decide +kernel
  rw [hb] at only
  simp only [Option.map_some, Option.some.injEq, List.all_eq_true, List.mem_range, Bool.or_eq_true, beq_iff_eq,
    Bool.and_eq_true, decide_eq_true_eq] at only
  have hy' := (claims_iff hw.ok.ok.ord).2 hy
  rcases only y (hw.ok.ok.dom y hy'.isSchema) with h | ⟨ha, hk⟩
  · exact h
  · exfalso
    generalize hv : (⟨"h/e", some "x"⟩ : Uri) = v at *
    cases hy with
    | uri h => exact ha h
    | anchor hs hsh _ =>
      obtain ⟨o, m1, m2, -⟩ := hs
      have := hk _ m1
      rcases hsh with rfl | rfl
      · exact this.1 m2
      · exact this.2 m2

end Jschon
