import Verif.Proof.DocDone
import Verif.Proof.Later

/-!
# Documents in later worlds
-/

namespace Jschon
open Spec

variable [dia : Dialect]

theorem Spec.Stands.sizeOf_le {lib : UriLib} {p q : Site} {ks : List String} (h : Stands lib p ks q) :
    sizeOf q.schema ≤ sizeOf p.schema := by
  induction h with
  | here => exact Nat.le_refl _
  | one _ hm _ ih =>
    have := List.sizeOf_lt_of_mem hm
    simp only [site, Value.obj.sizeOf_spec, Prod.mk.sizeOf_spec] at this ih ⊢
    omega
  | many _ hm hi _ ih =>
    have h1 := List.sizeOf_lt_of_mem hm
    have h2 := List.sizeOf_lt_of_mem (List.mem_of_getElem? hi)
    simp only [site, Value.obj.sizeOf_spec, Prod.mk.sizeOf_spec, Value.arr.sizeOf_spec] at h1 ih ⊢
    omega
  | named _ hm hi _ ih =>
    have h1 := List.sizeOf_lt_of_mem hm
    have h2 := List.sizeOf_lt_of_mem hi
    simp only [site, Value.obj.sizeOf_spec, Prod.mk.sizeOf_spec] at h1 h2 ih ⊢
    omega

theorem Spec.Stands.within {lib : UriLib} {p q : Site} {ks : List String} (h : Stands lib p ks q) :
    Spec.Within q.schema p.schema := by
  induction h with
  | here => exact .refl
  | one _ hm _ ih => exact .member ih hm
  | many _ hm hi _ ih => exact .member (.elem ih (List.mem_of_getElem? hi)) hm
  | named _ hm hi _ ih => exact .member (.member ih hi) hm

theorem links_one {lib : UriLib} {p q : Site} : (links lib [p]).sites q ↔ ∃ ks, Stands lib p ks q := by
  constructor
  · rintro ⟨i, ks, p, h1, h2⟩
    cases i with
    | zero => cases h1; exact ⟨ks, h2⟩
    | succ i => cases h1
  · rintro ⟨ks, h⟩
    exact ⟨0, ks, _, rfl, h⟩

theorem Spec.DTarget.key {lib : UriLib} {L : Links} {sc : List Site} {b : Uri} {k s : String} {q : Site}
    (h : DTarget lib L sc b k s q) : k = "$ref" ∨ k = "$dynamicRef" ∨ k = "$recursiveRef" := by
  cases h with
  | ref => exact .inl rfl
  | static => exact .inr (.inl rfl)
  | dynamic => exact .inr (.inl rfl)
  | recursive => exact .inr (.inr rfl)

/-! ## The schemas that are applied -/

theorem links_sub {lib : UriLib} {roots : List Site} {p q : Site} {ks : List String} (h : (links lib roots).sites p)
    (hs : Stands lib p ks q) : (links lib roots).sites q := by
  obtain ⟨i, ls, r, h1, h2⟩ := h
  exact ⟨i, ls ++ ks, r, h1, h2.trans hs⟩

theorem links_refer {lib : UriLib} {roots : List Site} {b : Uri} {t : String} {q : Site}
    (h : (links lib roots).refer b t q) : (links lib roots).sites q := by
  obtain ⟨r, -, h⟩ := h
  cases h with
  | pointer h1 _ _ h4 => exact links_sub ⟨_, _, h1.1⟩ h4
  | anchor h1 _ _ _ => exact ⟨_, _, h1⟩

theorem links_target {lib : UriLib} {roots : List Site} {sc : List Site} {b : Uri} {k s : String} {q : Site}
    (hsc : ∀ x ∈ sc, (links lib roots).sites x) (h : DTarget lib (links lib roots) sc b k s q) :
    (links lib roots).sites q := by
  cases h with
  | ref h => exact links_refer h
  | static _ h _ => exact links_refer h
  | dynamic _ h _ ho =>
    cases ho with
    | found _ hd _ => exact hd.1
    | none _ => exact links_refer h
  | recursive _ h ho =>
    cases ho with
    | static _ => exact links_refer h
    | found _ e _ _ => exact hsc _ (by rw [e]; simp)
    | none _ _ => exact links_refer h

theorem links_member {lib : UriLib} {p : Site} {k : String} {v u : Value} (h : p.Has k v)
    (hk : (OneKey k u ∧ u = v) ∨ (∃ us, ManyKey k ∧ v = .arr us ∧ u ∈ us) ∨
      ∃ ms n, k ∈ namedKeys ∧ v = .obj ms ∧ (n, u) ∈ ms) : ∃ ks, Stands lib p ks (site lib p.base u) := by
  obtain ⟨b, s⟩ := p
  obtain ⟨kvs, e, hm⟩ := h
  cases e
  rcases hk with ⟨hk, rfl⟩ | ⟨us, hk, rfl, hu⟩ | ⟨ms, n, hk, rfl, hu⟩
  · exact ⟨_, .one hk hm .here⟩
  · obtain ⟨i, hi⟩ := List.getElem?_of_mem hu
    exact ⟨_, .many hk hm hi .here⟩
  · exact ⟨_, .named hk hm hu .here⟩

theorem links_inPlace {lib : UriLib} {roots : List Site} {p q : Site} (hp : (links lib roots).sites p)
    (h : DInPlace lib (links lib roots) p q ∨ DNot lib p q) : (links lib roots).sites q := by
  rcases h with h | ⟨t, h, rfl⟩
  · cases h with
    | many hk hm ht =>
      obtain ⟨ks, h⟩ := links_member (lib := lib) hm (.inr (.inl ⟨_, manyKey_common _ (by rcases hk with rfl | rfl | rfl <;> decide), rfl, ht⟩))
      exact links_sub hp h
    | one hk hm =>
      obtain ⟨ks, h⟩ := links_member (lib := lib) hm (.inl ⟨oneKey_common _ (by rcases hk with rfl | rfl | rfl <;> decide) _, rfl⟩)
      exact links_sub hp h
    | dependentSchemas hm ht =>
      obtain ⟨ks, h⟩ := links_member (lib := lib) hm (.inr (.inr ⟨_, _, by decide, rfl, ht⟩))
      exact links_sub hp h
    | ref _ hsc ht => exact links_target hsc ht
  · obtain ⟨ks, h⟩ := links_member (lib := lib) h (.inl ⟨oneKey_common _ (by decide) _, rfl⟩)
    exact links_sub hp h

theorem links_scope {lib : UriLib} {roots : List Site} {root : Site} (hr : (links lib roots).sites root)
    {sc : List Site} (h : DScope lib (links lib roots) root sc) : ∀ p ∈ sc, (links lib roots).sites p := by
  induction h with
  | root => simpa using hr
  | @step p sc q _ ha ih =>
    have hp := ih p List.mem_cons_self
    intro x hx
    rcases List.mem_cons.1 hx with rfl | hx
    · cases ha with
      | one hk hm =>
        obtain ⟨ks, h⟩ := links_member (lib := lib) hm (.inl ⟨hk, rfl⟩)
        exact links_sub hp h
      | many hk hm ht =>
        obtain ⟨ks, h⟩ := links_member (lib := lib) hm (.inr (.inl ⟨_, hk, rfl, ht⟩))
        exact links_sub hp h
      | named hk _ hm ht =>
        obtain ⟨ks, h⟩ := links_member (lib := lib) hm (.inr (.inr ⟨_, _, hk, rfl, ht⟩))
        exact links_sub hp h
      | ref _ ht => exact links_target ih ht
    · exact ih x hx

/-- In a document without references, in-place applications are to smaller schemas. -/
theorem ranked_size {lib : UriLib} {p : Site}
    (h : ∀ ks q v, Stands lib p ks q → ¬ q.Has "$ref" v ∧ ¬ q.Has "$dynamicRef" v ∧ ¬ q.Has "$recursiveRef" v) :
    DRanked lib (links lib [p]) (fun q => sizeOf q.schema) (sizeOf p.schema + 1) where
  lt q hq := by
    obtain ⟨ks, hq⟩ := links_one.1 hq
    have := hq.sizeOf_le
    omega
  decreases q t hq hd := by
    obtain ⟨ks, hq⟩ := links_one.1 hq
    obtain ⟨b, s⟩ := q
    have mem : ∀ {k u}, (Site.mk b s).Has k u → sizeOf u < sizeOf s := by
      rintro k u ⟨kvs, e, hm⟩
      cases e
      have := List.sizeOf_lt_of_mem hm
      simp only [Value.obj.sizeOf_spec, Prod.mk.sizeOf_spec] at this ⊢
      omega
    rcases hd with hd | ⟨t, hm, rfl⟩
    · cases hd with
      | many _ hm ht =>
        have h1 := mem hm
        have h2 := List.sizeOf_lt_of_mem ht
        simp only [site, Value.arr.sizeOf_spec] at h1 ⊢
        omega
      | one _ hm => exact mem hm
      | dependentSchemas hm ht =>
        have h1 := mem hm
        have h2 := List.sizeOf_lt_of_mem ht
        simp only [site, Value.obj.sizeOf_spec, Prod.mk.sizeOf_spec] at h1 h2 ⊢
        omega
      | ref hm _ ht =>
        rcases ht.key with rfl | rfl | rfl
        · exact absurd hm (h ks _ _ hq).1
        · exact absurd hm (h ks _ _ hq).2.1
        · exact absurd hm (h ks _ _ hq).2.2
    · exact mem hm

/-- Later constructions do not matter: there are no dynamic references, or the schemas of the cache with the
base URIs of the document are the same. -/
def Spec.Settled (E : CEnv) (cid cid' : String) (p : Site) (w w' : World) : Prop :=
  (∀ ks q v, Stands E.lib p ks q → ¬ q.Has "$dynamicRef" v) ∨
  (cid' = cid ∧ ∀ ks q f, Stands E.lib p ks q →
    cacheGet w'.caches cid (q.base.withFragment f) = cacheGet w.caches cid (q.base.withFragment f))

omit dia in
theorem baseUri_later {w w' : World} (ok : WOk w) (g : Grown w w') (b : Before w.heap.next w w') {x : Nat}
    (hx : x < w.heap.next) : w'.baseUri x = w.baseUri x := by
  refine base_le ok.ord fun y hy => ⟨?_, ?_⟩
  · simp only [World.uri, b y (by omega)]
  · simp only [JHeap.parent, g.node y (by omega)]

section
variable {E : CEnv} {cid : String} {root : Nat} {kvs : List (String × Value)} {w w1 w' w'' : World} {c0 : Caches} {p : Site}

/-- Evaluation of a document gives the same after further constructions. -/
theorem DocDone.later (D : DocDone E (links E.lib [p]) [(root, p)] c0 cid p.base root kvs w1 w')
    (hp : p.schema = .obj kvs) (A : DocAlone E c0 cid p) (ok : WOk w') (ha : CAfter w' w'') {cid' : String}
    (hs : Settled E cid cid' p w' w'')
    {env : Env} {n : Nat} {i : Inst} :
    evaluate (w''.store E cid') env n root i = evaluate (w'.store E cid) env n root i := by
  obtain ⟨b, s⟩ := p
  cases hp
  obtain ⟨ok', g, bf⟩ := ha.spec ok
  have S := D.storeReads A rfl
  have lt : ∀ {x q}, MadeFrom E (links E.lib [⟨b, .obj kvs⟩]) [(root, ⟨b, .obj kvs⟩)] w1 x q → x < w'.heap.next := by
    rintro x q ⟨root', p, ks, h1, c⟩
    rw [D.mid.heap]; exact D.made.ok.dom _ c.isSchema
  refine evaluate_island S.island ⟨fun s hs => ?_, fun s kws t f hs' he hk x hx => ?_⟩ ⟨_, _, _, [], D.mem, D.made.corr⟩
  · obtain ⟨v, hv⟩ := hs
    exact schemaObj_later ok ok' g bf (lt hv)
  · obtain ⟨v, hv⟩ := hs'
    obtain ⟨r, _, -, h1, -, -, h4, -⟩ := S.dynamic hv he hk
    obtain ⟨q, hq⟩ := hx
    have hb : (w''.store E cid').base x = (w'.store E cid).base x := by
      simp only [World.store, baseUri_later ok g bf (lt hq)]
    refine ⟨hb, fun b' hb' => ?_⟩
    rw [S.base hq] at hb'
    cases hb'
    obtain ⟨root', p, ks, h5, c⟩ := hq
    cases List.mem_singleton.1 h5
    rcases hs with hs | ⟨rfl, hs⟩
    · obtain ⟨ks', hv⟩ := links_one.1 (S.at_ hv)
      exact absurd h1 (hs _ _ _ hv)
    · rw [lookup_anchor D.made.lib c.absolute h4, lookup_anchor D.made.lib c.absolute h4]
      exact hs _ _ _ c.at_

/-- No dynamic reference is involved. -/
theorem DocDone.static (D : DocDone E (links E.lib [p]) [(root, p)] c0 cid p.base root kvs w1 w')
    (hp : p.schema = .obj kvs) (A : DocAlone E c0 cid p)
    (hn : ∀ ks q v, Stands E.lib p ks q → ¬ q.Has "$dynamicRef" v) : Static (w'.store E cid) root := by
  obtain ⟨b, s⟩ := p
  cases hp
  have S := D.storeReads A rfl
  intro x kws t f hx ho hk
  have : ∃ q, MadeFrom E (links E.lib [⟨b, .obj kvs⟩]) [(root, ⟨b, .obj kvs⟩)] w1 x q := by
    clear ho hk
    induction hx with
    | refl => exact ⟨_, _, _, [], D.mem, D.made.corr⟩
    | step _ ho hk ht ih => exact S.island.closed _ _ _ _ ih ho hk ht
  obtain ⟨q, hv⟩ := this
  obtain ⟨r, _, -, h1, -⟩ := S.dynamic hv ho hk
  obtain ⟨ks', hv⟩ := links_one.1 (S.at_ hv)
  exact hn _ _ _ hv h1

end

/-- A boolean document, in later worlds. -/
theorem bool_later {E : CEnv} {w' w'' : World} {s : Nat} {b : Bool} (ok : WOk w') (hs : s < w'.heap.next)
    (hr : Rearranged (val w'.heap s) (.bool b)) (ha : CAfter w' w'') (cid : String) :
    (w''.store E cid).obj s = .bool b := by
  obtain ⟨-, g, -⟩ := ha.spec ok
  simp only [World.store, World.schemaObj, g.ext.data hs, rearr_bool ok.ord hr]

omit dia in
theorem evaluate_bool {st : Store} {env : Env} {s : Nat} {b : Bool} (h : st.obj s = .bool b) (n : Nat) (i : Inst) :
    ∃ r, evaluate st env (n + 1) s i = some r ∧ r.valid = b := by
  simp only [evaluate, evalSchema, evalBody, h]
  cases b <;> exact ⟨_, rfl, rfl⟩

end Jschon
