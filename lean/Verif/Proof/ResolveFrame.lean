import Verif.Proof.ConstructRefs

/-!
# What the resolution of references leaves as it is
-/

namespace Jschon
open Spec

/-- Nothing is changed of the schemas before `b`. -/
def Before (b : Nat) (w w' : World) : Prop := ∀ x, x < b → w'.info x = w.info x

theorem Before.refl (b : Nat) (w : World) : Before b w w := fun _ _ => rfl

theorem Before.trans {b : Nat} {w w' w'' : World} (h : Before b w w') (h' : Before b w' w'') :
    Before b w w'' := fun x hx => (h' x hx).trans (h x hx)

theorem Before.le {a b : Nat} {w w' : World} (h : Before b w w') (hab : a ≤ b) : Before a w w' :=
  fun x hx => h x (Nat.lt_of_lt_of_le hx hab)

/-- The resolution of the references of a schema changes nothing of schemas that precede it. -/
def ResolveBefore (resolve : Nat → M Unit) : Prop :=
  ∀ s w w' r, WOk w → w.isSchema s = true → resolve s w = some (w', r) → Before s w w'

/-- The construction of a document changes nothing of the schemas that there are. -/
def NewDocBefore (newDoc : NewDoc) : Prop :=
  ∀ cid uri metaUri doc w w' r, doc.WF → SPre w cid uri none →
    newDoc cid uri metaUri doc w = some (w', r) → Before w.heap.next w w'

theorem getSchemaWith_before {E : CEnv} (hE : CEnvOk E) {newDoc : NewDoc} (hN : NewDocBefore newDoc) {u : Uri}
    {metaUri : Option Uri} {cid : String} {w w' : World} {r : Except Exc Nat} (ok : WOk w)
    (h : getSchemaWith E newDoc u metaUri cid w = some (w', r)) : Before w.heap.next w w' := by
  unfold getSchemaWith at h
  replace h := M.read_bind h
  cases hc : cacheGet w.caches cid u with
  | some s =>
    rw [hc] at h
    obtain ⟨rfl, rfl⟩ := M.pure_run h
    exact .refl _ _
  | none =>
    rw [hc] at h
    replace h := M.read_bind h
    cases hb : baseCached w cid u with
    | some s =>
      rw [hb] at h
      obtain ⟨rfl, h2⟩ := getSchemaEnd_spec h
      exact .refl _ _
    | none =>
      rw [hb] at h
      have hn : cacheGet w.caches cid u.noFragment = none := by
        unfold baseCached at hb
        split at hb
        · exact hb
        · rename_i hf
          have : u.noFragment = u := by
            cases u with
            | mk b f => simp at hf; subst hf; rfl
          rw [this, hc]
      have pre : SPre w cid (some u.noFragment) none := by
        refine ⟨ok, (fun p h => by cases h), (fun p h => by cases h), fun u' hu' hf q hq hcq => ?_⟩
        cases hu'
        obtain ⟨t, _, h2, _⟩ := ok.uris q _ hq hf
        rw [hcq, hn] at h2
        cases h2
      simp only [loadSchema] at h
      rcases M.bind_run h with ⟨w1, doc, h1, h2⟩ | ⟨e, h1, rfl⟩
      · obtain ⟨rfl, hl⟩ := M.ofExcept_run h1
        rcases M.bind_run h2 with ⟨w2, s, h3, h4⟩ | ⟨e, h3, rfl⟩
        · have a2 := hN _ _ _ _ _ _ _ (hE.docs _ _ hl.symm) pre h3
          replace h4 := M.read_bind h4
          cases hc2 : cacheGet w2.caches cid u with
          | some t =>
            rw [hc2] at h4
            obtain ⟨rfl, rfl⟩ := M.pure_run h4
            exact a2
          | none =>
            rw [hc2] at h4
            obtain ⟨rfl, h5⟩ := getSchemaEnd_spec h4
            exact a2
        · exact hN _ _ _ _ _ _ _ (hE.docs _ _ hl.symm) pre h3
      · obtain ⟨rfl, _⟩ := M.ofExcept_run h1
        exact .refl _ _

theorem setRef_before {s : Nat} {key : String} {t : Nat} {d : Bool} {w w' : World} {r : Except Exc Unit}
    (h : setRef s key t d w = some (w', r)) : Before s w w' := by
  unfold setRef at h
  obtain ⟨rfl, rfl⟩ := M.change_run h
  intro x hx
  rw [setInfo_info, if_neg (by omega)]

theorem resolveKw_before {E : CEnv} (hE : CEnvOk E) {newDoc : NewDoc} (hN : NewDocBefore newDoc) {s : Nat}
    {key : String} {kw : KwObj} {w w' : World} {r : Except Exc Unit} (ok : WOk w)
    (hs : w.isSchema s = true) (h : resolveKw E newDoc s key kw w = some (w', r)) : Before s w w' := by
  have hle : s ≤ w.heap.next := Nat.le_of_lt (ok.dom s hs)
  unfold resolveKw at h
  replace h := M.read_bind h
  replace h := M.read_bind h
  rcases M.bind_run h with ⟨w1, u, h1, h2⟩ | ⟨e, h1, rfl⟩
  rotate_left
  · obtain rfl := refUri_world h1
    exact .refl _ _
  obtain rfl := refUri_world h1
  rcases M.bind_run h2 with ⟨w2, t, h3, h4⟩ | ⟨e, h3, rfl⟩
  rotate_left
  · exact (getSchemaWith_before hE hN ok h3).le hle
  have a := (getSchemaWith_before hE hN ok h3).le hle
  rcases M.bind_run h4 with ⟨w3, d, h5, h6⟩ | ⟨e, h5, rfl⟩
  rotate_left
  · obtain rfl := refDynamic_world h5
    exact a
  obtain rfl := refDynamic_world h5
  exact a.trans (setRef_before h6)

theorem resolveItem_before {resolve : Nat → M Unit} (hB : ResolveBefore resolve)
    {c b : Nat} {w w' : World} {r : Except Exc Unit} (ok : WOk w) (hb : b ≤ c)
    (h : resolveItem resolve c w = some (w', r)) : Before b w w' := by
  unfold resolveItem at h
  replace h := M.read_bind h
  split at h
  · rename_i hs
    exact (hB _ _ _ _ ok hs h).le hb
  · obtain ⟨rfl, _⟩ := M.pure_run h
    exact .refl _ _

theorem resolveOne_before {E : CEnv} (hE : CEnvOk E) {newDoc : NewDoc} (hN : NewDocBefore newDoc)
    {resolve : Nat → M Unit} (hR : ResolveOk resolve) (hB : ResolveBefore resolve) {s : Nat}
    {kv : String × KwObj} {w w' : World} {r : Except Exc Unit} (ok : WOk w) (hs : w.isSchema s = true)
    (hj : s < kv.2.json) (h : resolveOne E newDoc resolve s kv w = some (w', r)) : Before s w w' := by
  unfold resolveOne at h
  split at h
  · exact resolveKw_before hE hN ok hs h
  · replace h := M.read_bind h
    split at h
    · rename_i hsj
      exact (hB _ _ _ _ ok hsj h).le (Nat.le_of_lt hj)
    · rename_i hsj
      replace h := M.read_bind h
      have hkid : ∀ c ∈ (w.heap.data kv.2.json).kids, s ≤ c ∧ c < w.heap.next := fun c hc =>
        ⟨by have := (ok.ord.kid _ _ hc).1; omega, (ok.ord.kid _ _ hc).2.1⟩
      generalize (w.heap.data kv.2.json).kids = l at h hkid
      clear hs hsj
      induction l generalizing w with
      | nil =>
        obtain ⟨rfl, _⟩ := M.pure_run (a := ()) h
        exact .refl _ _
      | cons a as ih =>
        rcases M.bind_run (m := resolveItem resolve a) (f := fun _ => M.each (resolveItem resolve) as) h with
          ⟨w2, x, h1, h2⟩ | ⟨e, h1, rfl⟩
        · obtain ⟨a1, a2, -⟩ := resolveItem_spec hR ok (hkid a (by simp)).2 h1
          exact (resolveItem_before hB ok (hkid a (by simp)).1 h1).trans
            (ih a1 h2 fun c hc => ⟨(hkid c (by simp [hc])).1,
              Nat.lt_of_lt_of_le (hkid c (by simp [hc])).2 a2.le⟩)
        · exact resolveItem_before hB ok (hkid a (by simp)).1 h1

theorem newDocWith_before {E : CEnv} (hE : CEnvOk E) {resolve : Nat → M Unit}
    (hB : ResolveBefore resolve) : NewDocBefore (newDocWith E resolve) := by
  intro cid uri metaUri doc w w' r hd pre h
  unfold newDocWith at h
  rcases M.bind_run h with ⟨w1, s, h1, h2⟩ | ⟨e, h1, rfl⟩
  rotate_left
  · have p := (works hE doc hd).1 _ _ _ _ _ _ _ _ pre h1
    exact fun x hx => p.grow.info x hx id
  have p := (works hE doc hd).1 _ _ _ _ _ _ _ _ pre h1
  obtain ⟨rfl, -⟩ := p.ret s rfl
  have b : Before w.heap.next w w1 := fun x hx => p.grow.info x hx id
  rcases M.bind_run h2 with ⟨w2, x, h3, h4⟩ | ⟨e, h3, rfl⟩
  · obtain ⟨rfl, rfl⟩ := M.pure_run h4
    exact b.trans (hB _ _ _ _ p.ok p.isSchema h3)
  · exact b.trans (hB _ _ _ _ p.ok p.isSchema h3)

theorem resolveReferences_before {E : CEnv} (hE : CEnvOk E) :
    ∀ n, ResolveBefore (resolveReferences E n) := by
  intro n
  induction n with
  | zero => intro s w w' r _ _ h; cases h
  | succ n ih =>
    intro s w w' r ok hs h
    simp only [resolveReferences] at h
    replace h := M.read_bind h
    have hR := resolveReferences_ok hE n
    have hN := newDocWith_ok hE hR
    have hNB := newDocWith_before hE ih
    obtain ⟨i, hi⟩ := Option.isSome_iff_exists.1 hs
    have hkw : w.keywords s = i.keywords := by simp [World.keywords, hi]
    have hjl : ∀ kv ∈ w.keywords s, s < kv.2.json ∧ kv.2.json < w.heap.next ∧
        KwOk w kv.2.shape kv.2.json := by
      intro kv hkv
      rw [hkw] at hkv
      have := ok.ord.kid _ _ (ok.kid hi hkv)
      exact ⟨this.1, this.2.1, (ok.shapes s i kv hi hkv).1⟩
    generalize w.keywords s = l at h hjl
    clear hi hkw i
    revert w
    induction l with
    | nil =>
      intro w _ _ h _
      obtain ⟨rfl, _⟩ := M.pure_run (a := ()) h
      exact .refl _ _
    | cons a as iha =>
      intro w ok hs h hjl
      obtain ⟨p1, p2, p3⟩ := hjl a (by simp)
      rcases M.bind_run (m := resolveOne E _ _ s a) (f := fun _ => M.each _ as) h with
        ⟨w2, x, h1, h2⟩ | ⟨e, h1, rfl⟩
      · obtain ⟨a1, a2, -⟩ := resolveOne_spec hE hN hR ok hs p2 p3 h1
        refine (resolveOne_before hE hNB hR ih ok hs p1 h1).trans
          (iha w2 a1 ((a2.isSchema (ok.dom _ hs)).trans hs) h2 fun kv hkv => ?_)
        obtain ⟨q1, q2, q3⟩ := hjl kv (by simp [hkv])
        exact ⟨q1, Nat.lt_of_lt_of_le q2 a2.le, q3.mono (P := (· < w.heap.next))
          (steady_old ok.ord (fun x hx => a2.isSchema hx) (fun x hx _ => a2.ext.data hx)) q2⟩
      · exact resolveOne_before hE hNB hR ih ok hs p1 h1

/-- The construction of a document changes nothing of the schemas that there are. -/
theorem newDocument_before {E : CEnv} (hE : CEnvOk E) (n : Nat) : NewDocBefore (newDocument E n) :=
  newDocWith_before hE (resolveReferences_before hE n)

/-- Getting a schema changes nothing of the schemas that there are. -/
theorem getSchema_before {E : CEnv} (hE : CEnvOk E) {n : Nat} {u : Uri} {metaUri : Option Uri}
    {cid : String} {w w' : World} {r : Except Exc Nat} (ok : WOk w)
    (h : getSchema E n u metaUri cid w = some (w', r)) : Before w.heap.next w w' :=
  getSchemaWith_before hE (newDocument_before hE n) ok h

end Jschon
