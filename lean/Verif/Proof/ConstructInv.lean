import Verif.Proof.ConstructNamesAll
import Verif.Proof.ConstructDoc

/-!
# What the construction of schemas without their references preserves, everything preserves
-/

namespace Jschon
open Spec

/-- `I` is preserved by the construction of a document and by the resolution of a reference. -/
structure CInv (E : CEnv) (I : World → Prop) : Prop where
  new : ∀ cid uri metaUri doc w w' r, doc.WF → SPre w cid uri none → (∀ u, uri = some u → u.fragment = none) → I w →
    newSchema E cid uri metaUri none none doc w = some (w', r) → I w'
  ref : ∀ s key t d w w' r, WOk w → I w → setRef s key t d w = some (w', r) → I w'

section
variable {E : CEnv} {I : World → Prop}

theorem CInv.getSchemaWith (hE : CEnvOk E) {newDoc : NewDoc}
    (hI : ∀ cid uri metaUri doc w w' r, doc.WF → SPre w cid uri none → (∀ u, uri = some u → u.fragment = none) → I w →
      newDoc cid uri metaUri doc w = some (w', r) → I w')
    {u : Uri} {metaUri : Option Uri} {cid : String} {w w' : World} {r : Except Exc Nat} (ok : WOk w) (i : I w)
    (h : Jschon.getSchemaWith E newDoc u metaUri cid w = some (w', r)) : I w' := by
  unfold Jschon.getSchemaWith at h
  replace h := M.read_bind h
  cases hc : cacheGet w.caches cid u with
  | some s =>
    rw [hc] at h
    obtain ⟨rfl, rfl⟩ := M.pure_run h
    exact i
  | none =>
    rw [hc] at h
    replace h := M.read_bind h
    cases hb : baseCached w cid u with
    | some s =>
      rw [hb] at h
      obtain ⟨rfl, h2⟩ := getSchemaEnd_spec h
      exact i
    | none =>
      rw [hb] at h
      have hn : cacheGet w.caches cid u.noFragment = none := by
        unfold baseCached at hb
        split at hb
        · exact hb
        · rename_i hf
          have : u.noFragment = u := by
            cases u with
            | mk b f => simp at hf; subst hf; rfl
          rw [this, hc]
      have pre : SPre w cid (some u.noFragment) none := by
        refine ⟨ok, (fun p h => by cases h), (fun p h => by cases h), fun u' hu' hf q hq hcq => ?_⟩
        cases hu'
        obtain ⟨t, _, h2, _⟩ := ok.uris q _ hq hf
        rw [hcq, hn] at h2
        cases h2
      simp only [loadSchema] at h
      rcases M.bind_run h with ⟨w1, doc, h1, h2⟩ | ⟨e, h1, rfl⟩
      · obtain ⟨rfl, hl⟩ := M.ofExcept_run h1
        rcases M.bind_run h2 with ⟨w2, s, h3, h4⟩ | ⟨e, h3, rfl⟩
        · have i2 := hI _ _ _ _ _ _ _ (hE.docs _ _ hl.symm) pre (fun u h => by cases h; rfl) i h3
          replace h4 := M.read_bind h4
          cases hc2 : cacheGet w2.caches cid u with
          | some t =>
            rw [hc2] at h4
            obtain ⟨rfl, rfl⟩ := M.pure_run h4
            exact i2
          | none =>
            rw [hc2] at h4
            obtain ⟨rfl, h5⟩ := getSchemaEnd_spec h4
            exact i2
        · exact hI _ _ _ _ _ _ _ (hE.docs _ _ hl.symm) pre (fun u h => by cases h; rfl) i h3
      · obtain ⟨rfl, _⟩ := M.ofExcept_run h1
        exact i

theorem CInv.resolveKw (H : CInv E I) (hE : CEnvOk E) {newDoc : NewDoc} (hN : NewDocOk newDoc)
    (hI : ∀ cid uri metaUri doc w w' r, doc.WF → SPre w cid uri none → (∀ u, uri = some u → u.fragment = none) → I w →
      newDoc cid uri metaUri doc w = some (w', r) → I w')
    {s : Nat} {key : String} {kw : KwObj} {w w' : World} {r : Except Exc Unit} (ok : WOk w) (i : I w)
    (h : Jschon.resolveKw E newDoc s key kw w = some (w', r)) : I w' := by
  unfold Jschon.resolveKw at h
  replace h := M.read_bind h
  replace h := M.read_bind h
  rcases M.bind_run h with ⟨w1, u, h1, h2⟩ | ⟨e, h1, rfl⟩
  rotate_left
  · obtain rfl := refUri_world h1
    exact i
  obtain rfl := refUri_world h1
  rcases M.bind_run h2 with ⟨w2, t, h3, h4⟩ | ⟨e, h3, rfl⟩
  rotate_left
  · exact CInv.getSchemaWith hE hI ok i h3
  obtain ⟨a1, a2, a3⟩ := getSchemaWith_spec hE hN ok h3
  have i2 := CInv.getSchemaWith hE hI ok i h3
  rcases M.bind_run h4 with ⟨w3, d, h5, h6⟩ | ⟨e, h5, rfl⟩
  rotate_left
  · obtain rfl := refDynamic_world h5
    exact i2
  obtain rfl := refDynamic_world h5
  exact H.ref _ _ _ _ _ _ _ a1 i2 h6

theorem CInv.newDocWith (H : CInv E I) (hE : CEnvOk E) {resolve : Nat → M Unit}
    (hI : ∀ s w w' r, WOk w → w.isSchema s = true → I w → resolve s w = some (w', r) → I w') :
    ∀ cid uri metaUri doc w w' r, doc.WF → SPre w cid uri none → (∀ u, uri = some u → u.fragment = none) → I w →
      Jschon.newDocWith E resolve cid uri metaUri doc w = some (w', r) → I w' := by
  intro cid uri metaUri doc w w' r hd pre hu i h
  unfold Jschon.newDocWith at h
  rcases M.bind_run h with ⟨w1, s, h1, h2⟩ | ⟨e, h1, rfl⟩
  rotate_left
  · exact H.new _ _ _ _ _ _ _ hd pre hu i h1
  have p := (works hE doc hd).1 _ _ _ _ _ _ _ _ pre h1
  have i1 := H.new _ _ _ _ _ _ _ hd pre hu i h1
  obtain ⟨rfl, -⟩ := p.ret s rfl
  rcases M.bind_run h2 with ⟨w2, x, h3, h4⟩ | ⟨e, h3, rfl⟩
  · obtain ⟨rfl, rfl⟩ := M.pure_run h4
    exact hI _ _ _ _ p.ok p.isSchema i1 h3
  · exact hI _ _ _ _ p.ok p.isSchema i1 h3

/-- Iteration. -/
theorem each_inv {α : Type} {f : α → M Unit} {l : List α} {P : World → Prop}
    (hf : ∀ a ∈ l, ∀ w w' r, P w → f a w = some (w', r) → P w') {w w' : World} {r : Except Exc Unit} (p : P w)
    (h : M.each f l w = some (w', r)) : P w' := by
  induction l generalizing w with
  | nil =>
    obtain ⟨rfl, _⟩ := M.pure_run (a := ()) h
    exact p
  | cons a as ih =>
    rcases M.bind_run (m := f a) (f := fun _ => M.each f as) h with ⟨w2, x, h1, h2⟩ | ⟨e, h1, rfl⟩
    · exact ih (fun b hb => hf b (by simp [hb])) (hf a (by simp) _ _ _ p h1) h2
    · exact hf a (by simp) _ _ _ p h1

theorem CInv.resolve (H : CInv E I) (hE : CEnvOk E) : ∀ n s w w' r, WOk w → w.isSchema s = true → I w →
    resolveReferences E n s w = some (w', r) → I w' := by
  intro n
  induction n with
  | zero => intro s w w' r _ _ _ h; cases h
  | succ n ih =>
    intro s w w' r ok hs i h
    simp only [resolveReferences] at h
    replace h := M.read_bind h
    have hN := newDocWith_ok hE (resolveReferences_ok hE n)
    have hR := resolveReferences_ok hE n
    have hI := H.newDocWith hE ih
    have hsl := ok.dom s hs
    obtain ⟨si, hi⟩ := Option.isSome_iff_exists.1 hs
    have hkw : w.keywords s = si.keywords := by simp [World.keywords, hi]
    have hjl : ∀ kv ∈ w.keywords s, kv.2.json < w.heap.next ∧ KwOk w kv.2.shape kv.2.json := by
      intro kv hkv
      rw [hkw] at hkv
      exact ⟨(ok.ord.kid _ _ (ok.kid hi hkv)).2.1, (ok.shapes s si kv hi hkv).1⟩
    generalize w.keywords s = l at h hjl
    refine (each_inv (P := fun w1 => WOk w1 ∧ Grown w w1 ∧ I w1) (fun kv hkv w0 w1 r1 p h1 => ?_) ⟨ok, .refl _, i⟩ h).2.2
    obtain ⟨ok0, g0, i0⟩ := p
    obtain ⟨hj, hk⟩ := hjl kv hkv
    have hj0 := Nat.lt_of_lt_of_le hj g0.le
    have hs0 : w0.isSchema s = true := (g0.isSchema hsl).trans hs
    have hk0 : KwOk w0 kv.2.shape kv.2.json :=
      hk.mono (P := (· < w.heap.next)) (steady_old ok.ord (fun x hx => g0.isSchema hx)
        (fun x hx _ => g0.ext.data hx)) hj
    obtain ⟨b1, b2, -⟩ := resolveOne_spec hE hN hR ok0 hs0 hj0 hk0 h1
    refine ⟨b1, g0.trans b2, ?_⟩
    unfold resolveOne at h1
    split at h1
    · exact H.resolveKw hE hN hI ok0 i0 h1
    · replace h1 := M.read_bind h1
      split at h1
      · rename_i hsj
        exact ih _ _ _ _ ok0 hsj i0 h1
      · replace h1 := M.read_bind h1
        have hkid : ∀ c ∈ (w0.heap.data kv.2.json).kids, c < w0.heap.next :=
          fun c hc => (ok0.ord.kid _ _ hc).2.1
        refine (each_inv (P := fun w1 => WOk w1 ∧ Grown w0 w1 ∧ I w1) (fun c hc w2 w3 r3 p h3 => ?_) ⟨ok0, .refl _, i0⟩ h1).2.2
        obtain ⟨ok2, g2, i2⟩ := p
        obtain ⟨c1, c2, -⟩ := resolveItem_spec hR ok2 (Nat.lt_of_lt_of_le (hkid c hc) g2.le) h3
        refine ⟨c1, g2.trans c2, ?_⟩
        unfold resolveItem at h3
        replace h3 := M.read_bind h3
        split at h3
        · rename_i hsc
          exact ih _ _ _ _ ok2 hsc i2 h3
        · obtain ⟨rfl, _⟩ := M.pure_run h3
          exact i2

theorem CInv.newDocument (H : CInv E I) (hE : CEnvOk E) {n : Nat} {cid : String} {uri metaUri : Option Uri} {doc : Value}
    {w w' : World} {r : Except Exc Nat} (hd : doc.WF) (pre : SPre w cid uri none) (hu : ∀ u, uri = some u → u.fragment = none)
    (i : I w) (h : Jschon.newDocument E n cid uri metaUri doc w = some (w', r)) : I w' :=
  H.newDocWith hE (H.resolve hE n) _ _ _ _ _ _ _ hd pre hu i h

theorem CInv.getSchema (H : CInv E I) (hE : CEnvOk E) {n : Nat} {u : Uri} {metaUri : Option Uri} {cid : String}
    {w w' : World} {r : Except Exc Nat} (ok : WOk w) (i : I w)
    (h : Jschon.getSchema E n u metaUri cid w = some (w', r)) : I w' :=
  CInv.getSchemaWith hE (H.newDocWith hE (H.resolve hE n)) ok i h

end

/-- The URIs of schemas are kept in order. -/
theorem names_inv {E : CEnv} (hE : CEnvOk E) (hU : ∀ l, (E.lib.uuid l).fragment = none) (c0 : Caches) (n : Nat) :
    CInv E (fun w => n ≤ w.heap.next ∧ NamesOk E.lib c0 n w) where
  new cid uri metaUri doc w w' r hd pre hu i h := by
    have p := (works hE doc hd).1 _ _ _ _ _ _ _ _ pre h
    refine ⟨Nat.le_trans i.1 p.grow.le, (names hE hU n doc hd).1 _ _ _ _ _ _ _ _ pre ⟨(fun p h => nomatch h), hu⟩ i.1 i.2 h⟩
  ref s key t d w w' r ok i h := by
    unfold setRef at h
    obtain ⟨hw, rfl⟩ := M.change_run h
    rw [hw]
    refine ⟨i.1, i.2.same ok (.setInfo (fun _ => rfl) (fun _ => rfl) (fun i k o h => ?_) fun i k o h => ?_) rfl⟩
    · obtain ⟨kv, h1, h2⟩ := List.mem_map.1 h
      split at h2
      · cases h2; exact ⟨_, h1, rfl, rfl⟩
      · cases h2; exact ⟨_, h1, rfl, rfl⟩
    · refine ⟨if k = key then { o with refschema := some t, dynamic := d } else o, List.mem_map.2 ⟨_, h, ?_⟩, ?_⟩
      · simp only; split <;> rfl
      · split <;> exact ⟨rfl, rfl⟩

/-- What is registered for new schemas is what is said of them: there are none yet. -/
theorem names_start (lib : UriLib) {w : World} (ok : WOk w) : NamesOk lib w.caches w.heap.next w where
  claim cid v x h hx := absurd (ok.dom x (ok.cached _ _ _ h)) (Nat.not_lt.2 hx)
  cached x v hx c := absurd (ok.dom x c.isSchema) (Nat.not_lt.2 hx)
  noId x p hx h := absurd (ok.dom x h) (Nat.not_lt.2 hx)
  id x p sh t hx _ h := absurd (ok.dom x h.isSchema) (Nat.not_lt.2 hx)
  old _ _ _ h _ := h
  kept _ _ x _ h := ⟨x, h⟩

theorem names_empty (lib : UriLib) : NamesOk lib [] 0 .empty where
  claim cid v x h := by simp [World.empty, cacheGet, alookup] at h
  cached x v _ c := by have := c.isSchema; simp [World.isSchema, World.empty] at this
  noId x p _ h := by simp [World.isSchema, World.empty] at h
  id x p sh t _ _ h := by have := h.isSchema; simp [World.isSchema, World.empty] at this
  old _ _ _ _ h := absurd h (Nat.not_lt_zero _)
  kept _ _ _ _ h := by simp [cacheGet, alookup] at h

end Jschon
