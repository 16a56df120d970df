import Verif.Proof.Elsewhere
import Verif.Props.Document

/-!
# C61 with dynamic references, and C100: caches are separate
-/

namespace Jschon
open Spec

section
variable [dia : Dialect]

/-- C61, with dynamic references: whatever is constructed or loaded afterwards, successfully or not, evaluation of a
schema gives the result that it gave before, provided that the URIs that its dynamic references look up, and these
without their fragments, are cached for what they were cached for. -/
theorem C61_names {E : CEnv} {w w' : World} (hw : CHistory w) (ha : CAfter w w') {s : Nat}
    (hs : w.isSchema s = true) {cid : String}
    (hn : ∀ u, Consulted E (w.store E cid) s u → cacheGet w'.caches cid u = cacheGet w.caches cid u ∧
      cacheGet w'.caches cid u.noFragment = cacheGet w.caches cid u.noFragment)
    (env : Env) (n : Nat) (i : Inst) :
    evaluate (w'.store E cid) env n s i = evaluate (w.store E cid) env n s i := by
  obtain ⟨ok', g, b⟩ := ha.spec hw.ok
  exact evaluate_later hw.ok g b hs (fun x hx => schemaObj_later hw.ok ok' g b hx) hn env n i

/-! ## C100 -/

/-- C100: what is evaluated with one cache is evaluated as before, dynamic references included, whatever is constructed or
loaded with other cache identifiers, successfully or not. -/
theorem C100_evaluate {E : CEnv} {w w' : World} (hw : CHistory w) {cid : String} (ha : CElsewhere cid w w') {s : Nat}
    (hs : w.isSchema s = true) (env : Env) (n : Nat) (i : Inst) :
    evaluate (w'.store E cid) env n s i = evaluate (w.store E cid) env n s i :=
  C61_names hw ha.after hs (fun u _ => ⟨ha.others hw.ok u, ha.others hw.ok u.noFragment⟩) env n i

/-- C100, of `with catalog.cache(tmp) as tmp: …`: the same, after a block in which schemas are constructed and loaded with
cache identifiers other than `cid`, and at the end of which the cache `tmp` is removed. -/
theorem C100_block {E : CEnv} {w w' : World} (hw : CHistory w) {cid tmp : String} (hid : tmp ≠ cid)
    (ha : CElsewhere cid w w') {s : Nat} (hs : w.isSchema s = true) (env : Env) (n : Nat) (i : Inst) :
    evaluate (({ w' with caches := popCache w'.caches tmp } : World).store E cid) env n s i =
      evaluate (w.store E cid) env n s i := by
  obtain ⟨ok', g, b⟩ := ha.after.spec hw.ok
  have hk : ∀ u, cacheGet (popCache w'.caches tmp) cid u = cacheGet w.caches cid u := fun u => by
    rw [cacheGet_pop ok'.caches, if_neg (fun e => hid e.symm)]; exact ha.others hw.ok u
  exact evaluate_later (w' := { w' with caches := popCache w'.caches tmp }) hw.ok ⟨g.le, g.node, g.none, g.info⟩ b hs
    (fun x hx => schemaObj_later hw.ok ok' g b hx) (fun u _ => ⟨hk u, hk u.noFragment⟩) env n i

end

/-- C100: what is constructed or loaded with other cache identifiers, successfully or not, leaves the cache as it is. -/
theorem C100_kept {w w' : World} (hw : CHistory w) {cid : String} (ha : CElsewhere cid w w') (u : Uri) :
    cacheGet w'.caches cid u = cacheGet w.caches cid u := ha.others hw.ok u

/-- C100: `get_schema` returns the schema that it returned, if no document was loaded for it, and does nothing else. -/
theorem C100_found {E : CEnv} (hE : CEnvOk E) {w w' : World} (hw : CHistory w) {cid : String} (ha : CElsewhere cid w w') {n : Nat}
    {u : Uri} {metaUri : Option Uri} {t : Nat} (h : getSchema E n u metaUri cid w = some (w, .ok t)) :
    getSchema E n u metaUri cid w' = some (w', .ok t) := by
  have ok := hw.ok
  obtain ⟨ok', g, b⟩ := ha.after.spec ok
  have hk := ha.others ok
  have e2 : baseCached w' cid u = baseCached w cid u := by simp only [baseCached, hk u.noFragment]
  simp only [getSchema, getSchemaWith_split, hk u, e2] at h ⊢
  cases hc : cacheGet w.caches cid u with
  | some s => rw [hc] at h; cases h; rfl
  | none =>
    rw [hc] at h
    simp only [] at h ⊢
    cases hb : baseCached w cid u with
    | some s =>
      rw [hb] at h
      simp only [] at h ⊢
      have hs : s < w.heap.next := by
        simp only [baseCached] at hb
        split at hb
        · exact ok.dom _ (ok.cached _ _ _ hb)
        · cases hb
      have e := (getSchemaEnd_later ok g (u := u) hs).1
      rw [h] at e
      cases he : getSchemaEnd u s w' with
      | none => rw [he] at e; cases e
      | some p =>
        obtain ⟨w1, r⟩ := p
        obtain ⟨rfl, -⟩ := getSchemaEnd_spec he
        rw [he] at e
        cases r with
        | error x => cases e
        | ok y => cases e; rfl
    | none =>
      exfalso
      rw [hb] at h
      simp only [loadSchema] at h
      have hn : cacheGet w.caches cid u.noFragment = none := by
        unfold baseCached at hb
        split at hb
        · exact hb
        · rename_i hf
          have : u.noFragment = u := by
            cases u with
            | mk b f => simp at hf; subst hf; rfl
          rw [this, hc]
      have pre : SPre w cid (some u.noFragment) none := by
        refine ⟨ok, (fun p h => by cases h), (fun p h => by cases h), fun u' hu' hf q hq hcq => ?_⟩
        cases hu'
        obtain ⟨t, _, h2, _⟩ := ok.uris q _ hq hf
        rw [hcq, hn] at h2
        cases h2
      rcases M.bind_run h with ⟨w1, doc, h1, h2⟩ | ⟨e, h1, h2⟩
      · obtain ⟨rfl, hl⟩ := M.ofExcept_run h1
        rcases M.bind_run h2 with ⟨w2, s, h3, h4⟩ | ⟨e, h3, h4⟩
        · have p := newDocument_spec hE (hE.docs _ _ hl.symm) pre h3
          have : w2 = w1 := by
            replace h4 := M.read_bind h4
            cases hc2 : cacheGet w2.caches cid u with
            | some y => rw [hc2] at h4; exact (M.pure_run h4).1.symm
            | none => rw [hc2] at h4; exact (getSchemaEnd_spec h4).1.symm
          subst this
          obtain ⟨e, hlt, -⟩ := p.ret s rfl
          omega
        · cases h4
      · cases h2

attribute [local instance] Toy.in2020

/-- C100: the resource of `C61_usurped`, constructed with another cache identifier, is constructed, has the same URI, and
changes nothing. -/
example : ∃ w w' t, CHistory w ∧ CElsewhere "" w w' ∧ w'.uri t = w.uri 0 ∧ (w.uri 0).isSome = true ∧
    w'.cacheid t = "other" ∧ Toy.verdictIn w = some true ∧ Toy.verdictIn w' = some true ∧
    Toy.verdictIn { w' with caches := popCache w'.caches "other" } = some true := by
  have h : ((Toy.build Toy.dynDoc).bind fun p => (newDocument Toy.env 9 "other" none (some ⟨"m20", none⟩)
      Toy.usurper p.1).bind fun q => match q.2 with
        | .ok t => some (decide (q.1.uri t = p.1.uri 0 ∧ (p.1.uri 0).isSome = true ∧ q.1.cacheid t = "other" ∧
            Toy.verdictIn p.1 = some true))
        | .error _ => none) = some true := by decide +kernel
  obtain ⟨⟨w, r⟩, hb, h⟩ := Option.bind_eq_some_iff.1 h
  obtain ⟨⟨w', r'⟩, hb', h⟩ := Option.bind_eq_some_iff.1 h
  cases r' with
  | error e => cases h
  | ok t =>
    obtain ⟨h1, h2, h3, h4⟩ := of_decide_eq_true (Option.some.inj h)
    have hw : CHistory w :=
      .new .start Toy.env_ok (Toy.wf_spec _ (by decide +kernel)) (fun u hu => by cases hu) hb
    have ha : CElsewhere "" w w' :=
      .new .refl (by decide) Toy.env_ok (Toy.wf_spec _ (by decide +kernel)) (fun u hu => by cases hu) hb'
    have hs : w.isSchema 0 = true := by
      simp only [World.uri] at h2
      simp only [World.isSchema]
      cases hi : w.info 0 with
      | none => rw [hi] at h2; cases h2
      | some i => rfl
    refine ⟨w, w', t, hw, ha, h1, h2, h3, h4, ?_, ?_⟩
    · unfold Toy.verdictIn; rw [C100_evaluate hw ha hs]; exact h4
    · unfold Toy.verdictIn; rw [C100_block hw (tmp := "other") (by decide) ha hs]; exact h4

end Jschon
