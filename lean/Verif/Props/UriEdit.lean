import Verif.Proof.UriEdit
import Verif.Props.Cut
import Verif.Props.Names

/-!
# C99: a schema that gets another URI

`schema.uri = value`, `schema.metaschema_uri = value`, `catalog.add_schema` and `catalog.del_schema` can be used at
any time.  Static references have been resolved, so that evaluation is not concerned; what is found by URIs is.
-/

namespace Jschon
open Spec

section
variable {w w' : World} {lib : UriLib} (hw : CHistory w) (h : Renamed lib w w') {s : Nat} (hs : w.isSchema s = true)
include hw h

/-- C99: the data and the keywords of all schemas, and what exists, are as before. -/
theorem C99_kept : w'.heap = w.heap ∧ (∀ x, w'.isSchema x = w.isSchema x) ∧ (∀ x, w'.keywords x = w.keywords x) ∧
    ∀ x, w'.cacheid x = w.cacheid x :=
  have o := h.ok hw.ok.caches
  ⟨o.heap, o.isSchema, o.keywords, o.cacheid⟩

/-- C99: evaluation of a schema that has no dynamic reference to a dynamic anchor, and leads to none, gives the
results that it gave before. -/
theorem C99_evaluate [dia : Dialect] {E : CEnv} {cid : String} (hst : Static (w.store E cid) s) (cid' : String)
    (env : Env) (n : Nat) (i : Inst) : evaluate (w'.store E cid') env n s i = evaluate (w.store E cid) env n s i :=
  evaluate_island (P := Uses (w.store E cid) s)
    ⟨fun x kws kw t hx ho hk ht => .step hx ho hk ht, fun x kws t f hx ho hk => absurd hk (hst x kws t f hx ho)⟩
    ⟨fun x _ => (h.ok hw.ok.caches).obj x, fun x kws t f hx ho hk => absurd hk (hst x kws t f hx ho)⟩ .refl

include hs

/-- C99: after `schema.uri = u`, the schema has a URI that equals `u`, and all other schemas have the URIs they had. -/
theorem C99_uri (u : Option Uri) :
    (match u with
      | none => ((UriEdit.uri s u).step lib w').uri s = none
      | some v => ∃ o, ((UriEdit.uri s u).step lib w').uri s = some o ∧ (o = v ∨ lib.same o v = true)) ∧
    ∀ x, x ≠ s → ((UriEdit.uri s u).step lib w').uri x = w'.uri x := by
  have hi : ∃ i, w'.info s = some i := by
    rw [← (h.ok hw.ok.caches).isSchema] at hs
    exact Option.isSome_iff_exists.1 hs
  obtain ⟨i, hi⟩ := hi
  cases u with
  | none =>
    refine ⟨?_, fun x hx => ?_⟩
    · simp [UriEdit.step, World.uri, World.setInfo, hi]
    · simp [UriEdit.step, World.uri, World.setInfo, hx]
  | some v =>
    simp only [UriEdit.step, World.putUri]
    split
    · rename_i h1
      cases hu : w'.uri s with
      | none => rw [hu] at h1; cases h1
      | some o => rw [hu] at h1; exact ⟨⟨o, rfl, .inr h1⟩, fun _ _ => rfl⟩
    · refine ⟨⟨v, ?_, .inl rfl⟩, fun x hx => ?_⟩
      · simp [World.uri, World.setInfo, hi]
      · simp [World.uri, World.setInfo, hx]

omit hs in
/-- C99: after `schema.uri = u`, unless it had an equal URI, the schema is found by `u` in its cache, nothing is by its
former URI, and all else is found as before; `schema.uri = None` only takes its former URI from the cache. -/
theorem C99_caches (id : String) (v : Uri) :
    (∀ u, ((w'.uri s).map fun o => lib.same o u).getD false = false →
      cacheGet ((UriEdit.uri s (some u)).step lib w').caches id v =
        if id = w.cacheid s ∧ v = u then some s
        else if id = w.cacheid s ∧ w'.uri s = some v then none else cacheGet w'.caches id v) ∧
    (∀ u, ((w'.uri s).map fun o => lib.same o u).getD false = true →
      (UriEdit.uri s (some u)).step lib w' = w') ∧
    cacheGet ((UriEdit.uri s none).step lib w').caches id v =
      if id = w.cacheid s ∧ w'.uri s = some v then none else cacheGet w'.caches id v := by
  have ok := h.ok hw.ok.caches
  have hdel : cacheGet (delOld w'.caches (w'.cacheid s) (w'.uri s)) id v =
      if id = w.cacheid s ∧ w'.uri s = some v then none else cacheGet w'.caches id v := by
    rw [← ok.cacheid s]
    cases hu : w'.uri s with
    | none => simp [delOld]
    | some o => simp only [delOld, cacheGet_del ok.caches, Option.some.injEq, @eq_comm _ o v]
  refine ⟨fun u hu => ?_, fun u hu => ?_, hdel⟩
  · simp only [UriEdit.step, World.putUri, hu, Bool.false_eq_true, if_false, cacheGet_add, hdel]
    rw [ok.cacheid]
  · simp only [UriEdit.step, World.putUri, hu, if_true]

omit hs in
/-- C99: the base URI is that of the nearest schema above that has a URI, then as before. -/
theorem C99_base (x : Nat) (b : Uri) : w'.baseUri x = some b ↔ BaseUri w' x b :=
  baseUri_iff (by rw [(h.ok hw.ok.caches).heap]; exact hw.ok.ord) x

omit hs in
/-- C99: `get_schema` returns a schema that was given the URI. -/
theorem C99_found {u : Uri} (hu : ((w'.uri s).map fun o => lib.same o u).getD false = false) (E : CEnv) (n : Nat)
    (metaUri : Option Uri) : getSchema E n u metaUri (w.cacheid s) ((UriEdit.uri s (some u)).step lib w') =
      some ((UriEdit.uri s (some u)).step lib w', .ok s) := by
  have := (C99_caches hw h (s := s) (w.cacheid s) u).1 u hu
  rw [if_pos ⟨rfl, rfl⟩] at this
  rw [getSchema, getSchemaWith_split, this]

end

section
attribute [local instance] Toy.in2020

/-- What `get_schema` returns, or that it raises. -/
def Toy.found20 (u : Uri) (w : World) : Option (Option Nat) :=
  (getSchema Toy.env20 9 u none "" w).map fun p => match p.2 with | .ok s => some s | .error _ => none

theorem Toy.static20 {w : World} (hw : KHistory w)
    (h : ∀ x < w.heap.next, ∀ kv ∈ w.keywords x, kv.1 ≠ "$dynamicRef") (s : Nat) : Static (w.store env20 "") s := by
  intro x kws t f _ ho hm
  have hmem : ∃ kv ∈ w.keywords x, w.kwOf env20 kv = some (.dynamicRef t f true) := by
    simp only [World.store, World.schemaObj] at ho
    split at ho
    · cases ho
    · cases ho; exact List.mem_filterMap.1 hm
  obtain ⟨kv, hkv, e⟩ := hmem
  have hx : x < w.heap.next := hw.chistory.ok.dom x (keywords_member hw.chistory.ok hkv).1
  have hkey := (kwOf_fits hw.chistory.ok.ord hw.chistory.ok.keys (k := kv.1) (o := kv.2) e).1
  exact h x hx kv hkv hkey.symm

/-- The hypotheses of `C99_evaluate`, `C99_uri`, `C99_caches` and `C99_found` can hold. -/
example : ∃ w w', CHistory w ∧ w.isSchema 0 = true ∧ Renamed Toy.env20.lib w w' ∧
    Static (w.store Toy.env20 "") 0 ∧ w'.uri 0 = some ⟨"h/b", none⟩ ∧
    ((w'.uri 0).map fun o => Toy.env20.lib.same o ⟨"h/c", none⟩).getD false = false ∧
    Toy.found20 ⟨"h/b", none⟩ w' = some (some 0) := by
  have h : (Toy.build20 Toy.cutDoc).map (fun p => (List.range p.1.heap.next).all (fun x => (p.1.keywords x).all fun kv =>
      kv.1 ≠ "$dynamicRef") && decide (p.1.isSchema 0 = true ∧
        ((UriEdit.uri 0 (some ⟨"h/b", none⟩)).step Toy.env20.lib p.1).uri 0 = some ⟨"h/b", none⟩ ∧
        ((((UriEdit.uri 0 (some ⟨"h/b", none⟩)).step Toy.env20.lib p.1).uri 0).map fun o =>
          Toy.env20.lib.same o ⟨"h/c", none⟩).getD false = false ∧
        Toy.found20 ⟨"h/b", none⟩ ((UriEdit.uri 0 (some ⟨"h/b", none⟩)).step Toy.env20.lib p.1) = some (some 0))) =
      some true := by decide +kernel
  obtain ⟨⟨w, r⟩, hb, h⟩ := Option.map_eq_some_iff.1 h
  simp only [Bool.and_eq_true, List.all_eq_true, List.mem_range, decide_eq_true_eq] at h
  have hw := Toy.build20_history (Toy.wf_spec _ (by decide +kernel)) hb
  exact ⟨w, _, hw.chistory, h.2.1, .uri _ .refl h.2.1, Toy.static20 hw h.1 0, h.2.2⟩

/-- C99: `schema.uri = u` takes away the former URI also if another schema is found by it. -/
theorem C99_evicts : ∃ w a b, KHistory w ∧ w.isSchema a = true ∧ a ≠ b ∧ w.uri a = some ⟨"h/d", none⟩ ∧
    w.uri b = some ⟨"h/d", none⟩ ∧ cacheGet w.caches "" ⟨"h/d", none⟩ = some b ∧
    ((UriEdit.uri a (some ⟨"h/e", none⟩)).step Toy.env20.lib w).uri b = some ⟨"h/d", none⟩ ∧
    cacheGet ((UriEdit.uri a (some ⟨"h/e", none⟩)).step Toy.env20.lib w).caches "" ⟨"h/d", none⟩ = none := by
  have h : (Toy.build20 (.obj [("$defs", .obj [("a", .obj [("$id", .str "h/d")]), ("b", .obj [("$id", .str "h/d")])])])).map
      (fun p => decide (p.1.isSchema 2 = true ∧ 2 ≠ 4 ∧ p.1.uri 2 = some ⟨"h/d", none⟩ ∧ p.1.uri 4 = some ⟨"h/d", none⟩ ∧
        cacheGet p.1.caches "" ⟨"h/d", none⟩ = some 4 ∧
        ((UriEdit.uri 2 (some ⟨"h/e", none⟩)).step Toy.env20.lib p.1).uri 4 = some ⟨"h/d", none⟩ ∧
        cacheGet ((UriEdit.uri 2 (some ⟨"h/e", none⟩)).step Toy.env20.lib p.1).caches "" ⟨"h/d", none⟩ = none)) =
      some true := by decide +kernel
  obtain ⟨⟨w, r⟩, hb, h⟩ := Option.map_eq_some_iff.1 h
  exact ⟨w, 2, 4, Toy.build20_history (Toy.wf_spec _ (by decide +kernel)) hb, of_decide_eq_true h⟩

/-- C99: anchors are still found by the former URI, and not by the new one. -/
theorem C99_anchor_stays : ∃ w, KHistory w ∧ w.isSchema 0 = true ∧
    Toy.found20 ⟨"h/a", some "x"⟩ ((UriEdit.uri 0 (some ⟨"h/b", none⟩)).step Toy.env20.lib w) = some (some 0) ∧
    Toy.found20 ⟨"h/b", some "x"⟩ ((UriEdit.uri 0 (some ⟨"h/b", none⟩)).step Toy.env20.lib w) = some none := by
  have h : (Toy.build20 (.obj [("$id", .str "h/a"), ("$anchor", .str "x")])).map
      (fun p => decide (p.1.isSchema 0 = true ∧
    Toy.found20 ⟨"h/a", some "x"⟩ ((UriEdit.uri 0 (some ⟨"h/b", none⟩)).step Toy.env20.lib p.1) = some (some 0) ∧
    Toy.found20 ⟨"h/b", some "x"⟩ ((UriEdit.uri 0 (some ⟨"h/b", none⟩)).step Toy.env20.lib p.1) = some none)) =
      some true := by decide +kernel
  obtain ⟨⟨w, r⟩, hb, h⟩ := Option.map_eq_some_iff.1 h
  exact ⟨w, Toy.build20_history (Toy.wf_spec _ (by decide +kernel)) hb, of_decide_eq_true h⟩

/-- C99: `schema.uri = u` may change where dynamic references lead, and so what is valid. -/
theorem C99_dynamic : ∃ w, KHistory w ∧ w.isSchema 0 = true ∧ Toy.verdict20 w .null = some false ∧
    Toy.verdict20 ((UriEdit.uri 0 (some ⟨"h/c", none⟩)).step Toy.env20.lib w) .null = some true := by
  have h : (Toy.build20 Toy.anchorsDoc).map (fun p => decide (p.1.isSchema 0 = true ∧ Toy.verdict20 p.1 .null = some false ∧
    Toy.verdict20 ((UriEdit.uri 0 (some ⟨"h/c", none⟩)).step Toy.env20.lib p.1) .null = some true)) = some true := by
    decide +kernel
  obtain ⟨⟨w, r⟩, hb, h⟩ := Option.map_eq_some_iff.1 h
  exact ⟨w, Toy.build20_history (Toy.wf_spec _ (by decide +kernel)) hb, of_decide_eq_true h⟩

end

end Jschon
