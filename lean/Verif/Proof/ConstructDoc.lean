import Verif.Proof.ConstructRefs
import Verif.Proof.JsonDoc
import Verif.Props.Percent

/-!
# Documents, histories and canonical URIs
-/

namespace Jschon
open Spec

theorem Grown.val {w w' : World} (g : Grown w w') (ok : WOk w) (ok' : WOk w') {c : Nat}
    (hc : c < w.heap.next) : Jschon.val w'.heap c = Jschon.val w.heap c := by
  refine val_congr ok.ord ok'.ord (fun x => x < w.heap.next) (fun x hx => ?_)
    (fun x hx c hc => ?_) c hc
  · exact g.ext.data hx
  · exact (ok.ord.kid x c hc).2.1

/-- What the construction of a document does. -/
structure DocPost (w w' : World) (cid : String) (doc : Value) (r : Except Exc Nat) : Prop where
  ok : WOk w'
  grown : Grown w w'
  ret : ∀ s, r = .ok s → s = w.heap.next ∧ s < w'.heap.next ∧ w'.isSchema s = true ∧
    w'.heap.parent s = none ∧ w'.cacheid s = cid ∧ Rearranged (val w'.heap s) doc ∧ AllResolved w' s ∧
    ∀ kvs, doc = .obj kvs → (w'.uri s).isSome = true

theorem newDocument_spec {E : CEnv} (hE : CEnvOk E) {n : Nat} {cid : String} {uri metaUri : Option Uri}
    {doc : Value} {w w' : World} {r : Except Exc Nat} (hd : doc.WF) (pre : SPre w cid uri none)
    (h : newDocument E n cid uri metaUri doc w = some (w', r)) : DocPost w w' cid doc r := by
  unfold newDocument newDocWith at h
  rcases M.bind_run h with ⟨w1, s, h1, h2⟩ | ⟨e, h1, rfl⟩
  rotate_left
  · have p := (works hE doc hd).1 _ _ _ _ _ _ _ _ pre h1
    exact ⟨p.ok, p.grow.grown, fun t ht => by cases ht⟩
  have p := (works hE doc hd).1 _ _ _ _ _ _ _ _ pre h1
  obtain ⟨rfl, hre⟩ := p.ret s rfl
  rcases M.bind_run h2 with ⟨w2, x, h3, h4⟩ | ⟨e, h3, rfl⟩
  rotate_left
  · obtain ⟨a1, a2, -⟩ := resolveReferences_ok hE n _ _ _ _ p.ok p.isSchema h3
    exact ⟨a1, p.grow.grown.trans a2, fun t ht => by cases ht⟩
  obtain ⟨a1, a2, a3⟩ := resolveReferences_ok hE n _ _ _ _ p.ok p.isSchema h3
  obtain ⟨rfl, rfl⟩ := M.pure_run h4
  refine ⟨a1, p.grow.grown.trans a2, fun t ht => ?_⟩
  cases ht
  refine ⟨rfl, Nat.lt_of_lt_of_le p.lt a2.le, (a2.isSchema p.lt).trans p.isSchema,
    (a2.ext.parent p.lt).trans p.parent, (a2.cacheid p.lt).trans p.cacheid, ?_, a3 rfl, fun kvs hk => ?_⟩
  · rw [a2.val p.ok a1 p.lt]; exact hre
  · rw [a2.uri p.lt]; exact p.named p.parent kvs hk

theorem newDocument_ok {E : CEnv} (hE : CEnvOk E) (n : Nat) : NewDocOk (newDocument E n) :=
  newDocWith_ok hE (resolveReferences_ok hE n)

theorem getSchema_spec {E : CEnv} (hE : CEnvOk E) {n : Nat} {u : Uri}
    {metaUri : Option Uri} {cid : String} {w w' : World} {r : Except Exc Nat} (ok : WOk w)
    (h : getSchema E n u metaUri cid w = some (w', r)) :
    WOk w' ∧ Grown w w' ∧ ∀ t, r = .ok t → w'.isSchema t = true :=
  getSchemaWith_spec hE (newDocument_ok hE n) ok h

theorem SPre.doc {w : World} (ok : WOk w) {cid : String} {uri : Option Uri}
    (h : ∀ u, uri = some u → ∀ q, w.uri q = some u → w.cacheid q ≠ cid) : SPre w cid uri none :=
  ⟨ok, (fun _ h => by cases h), (fun _ h => by cases h), fun u hu _ => h u hu⟩

theorem Spec.CHistory.ok {w : World} (h : CHistory w) : WOk w := by
  induction h with
  | start => exact wok_empty
  | new _ hE hd hu h ih => exact (newDocument_spec hE hd (.doc ih hu) h).ok
  | get _ hE h ih => exact (getSchema_spec hE ih h).1

/-! ## Canonical URIs -/

theorem Near.parent {w : World} (ok : WOk w) {cid : String} {x p : Nat} (h : Near w cid x)
    (hp : w.heap.parent x = some p) : Near w cid p := by
  rcases h with ⟨h1, h2⟩ | ⟨_, g, h2, h3, h4⟩
  · rw [← h2]; exact ok.near x p h1 hp
  · rw [hp] at h2; cases h2
    exact .inl ⟨h3, h4⟩

theorem isSchema_of_uri {w : World} {s : Nat} {u : Uri} (h : w.uri s = some u) : w.isSchema s = true := by
  simp only [World.uri] at h
  simp only [World.isSchema]
  cases hi : w.info s with
  | none => simp [hi] at h
  | some i => rfl

theorem Near.cacheid {w : World} {cid : String} {x : Nat} {u : Uri} (h : Near w cid x)
    (hu : w.uri x = some u) : w.cacheid x = cid := by
  rcases h with ⟨_, h⟩ | ⟨h, _⟩
  · exact h
  · rw [isSchema_of_uri hu] at h; cases h

/-- Going up one step on a path. -/
theorem reach_up {w : World} (ok : WOk w) {root x : Nat} {ks : List String} (hr : Reach w.heap root ks x)
    (hroot : w.heap.parent root = none) {p : Nat} (hp : w.heap.parent x = some p) :
    ∃ ks' k, ks = ks' ++ [k] ∧ Reach w.heap root ks' p ∧ Child w.heap p k x ∧ w.heap.key x = some k := by
  rcases List.eq_nil_or_concat ks with rfl | ⟨ks', k, rfl⟩
  · cases hr
    rw [hroot] at hp; cases hp
  · rw [List.concat_eq_append] at hr ⊢
    obtain ⟨b, h1, h2⟩ := reach_split hr
    have hc := reach_one.1 h2
    have := (ok.ord.kid b x (childD_kid hc)).2.2
    rw [hp] at this; cases this
    exact ⟨ks', k, rfl, h1, hc, ok.keys.key _ _ _ hc⟩

theorem fragmentKeys_none {u : Uri} (h : u.fragment = none) : fragmentKeys u = .ok [] := by
  simp only [fragmentKeys, h, Option.getD_none]
  rfl

theorem canonicalUp_spec {w : World} (ok : WOk w) {root : Nat} (hroot : w.heap.parent root = none)
    {cid : String} : ∀ (n x : Nat) (ks keys : List String) (cu : Uri), Reach w.heap root ks x →
      Near w cid x →
      (∀ r u ks', Reach w.heap r ks' x → w.uri r = some u → u.fragment = none) →
      w.canonicalUp n x keys = .ok (some cu) →
      ∃ r u k ks', Reach w.heap r (k :: ks') x ∧ w.uri r = some u ∧ w.cacheid r = cid ∧
        cu = u.withFragment (Ptr.uriFragment ⟨k :: ks' ++ keys⟩) := by
  intro n
  induction n with
  | zero => intro x ks keys cu _ _ _ h; cases h
  | succ n ih =>
    intro x ks keys cu hr hn hf h
    simp only [World.canonicalUp] at h
    cases hp : w.heap.parent x with
    | none => rw [hp] at h; cases h
    | some p =>
      obtain ⟨ks1, k, rfl, h1, h2, h3⟩ := reach_up ok hr hroot hp
      have hnp := hn.parent ok hp
      rw [hp, h3] at h
      simp only [Option.getD_some] at h
      cases hu : w.uri p with
      | some u =>
        rw [hu] at h
        simp only [fragmentKeys_none (hf p u [k] (reach_one.2 h2) hu)] at h
        cases h
        exact ⟨p, u, k, [], reach_one.2 h2, hu, hnp.cacheid hu, rfl⟩
      | none =>
        rw [hu] at h
        obtain ⟨r, u, k', ks', e1, e2, e3, e4⟩ := ih p ks1 (k :: keys) cu h1 hnp
          (fun r u ks' hr => hf r u (ks' ++ [k]) (reach_append hr (reach_one.2 h2))) h
        exact ⟨r, u, k', ks' ++ [k], reach_append e1 (reach_one.2 h2), e2, e3, by simp [e4]⟩

theorem canonicalUp_some {w : World} (ok : WOk w) {root : Nat} (hroot : w.heap.parent root = none)
    (hu : (w.uri root).isSome = true) : ∀ (n x : Nat) (ks keys : List String), Reach w.heap root ks x →
      x < n → x ≠ root →
      (∀ r u ks', Reach w.heap r ks' x → w.uri r = some u → u.fragment = none) →
      ∃ cu, w.canonicalUp n x keys = .ok (some cu) := by
  intro n
  induction n with
  | zero => intro x ks keys _ h; omega
  | succ n ih =>
    intro x ks keys hr hlt hne hf
    simp only [World.canonicalUp]
    have hpar : ∃ p, w.heap.parent x = some p := by
      rcases List.eq_nil_or_concat ks with rfl | ⟨ks', k, rfl⟩
      · cases hr; exact absurd rfl hne
      · rw [List.concat_eq_append] at hr
        obtain ⟨b, h1, h2⟩ := reach_split hr
        exact ⟨b, (ok.ord.kid b x (childD_kid (reach_one.1 h2))).2.2⟩
    obtain ⟨p, hp⟩ := hpar
    obtain ⟨ks1, k, rfl, h1, h2, h3⟩ := reach_up ok hr hroot hp
    rw [hp, h3]
    simp only [Option.getD_some]
    cases hup : w.uri p with
    | some u =>
      simp only [fragmentKeys_none (hf p u [k] (reach_one.2 h2) hup)]
      exact ⟨_, rfl⟩
    | none =>
      have := ok.ord.par x p hp
      refine ih p ks1 (k :: keys) h1 (by omega) ?_ fun r u ks' hr =>
        hf r u (ks' ++ [k]) (reach_append hr (reach_one.2 h2))
      rintro rfl
      rw [hup] at hu; cases hu

theorem uriFragment_slash (k : String) (ks : List String) :
    ∃ l, (Ptr.uriFragment ⟨k :: ks⟩).toList = '/' :: l := by
  have h : ∀ r, pyQuote ('/' :: r) = '/' :: pyQuote r := fun r => rfl
  unfold Ptr.uriFragment Ptr.str
  rw [String.toList_ofList, String.toList_ofList]
  simp only [List.map_cons, List.flatten_cons, List.cons_append, h]
  exact ⟨_, rfl⟩

/-- What `get_schema` does with a URI whose base is cached. -/
theorem getSchemaWith_fragment {E : CEnv} {newDoc : NewDoc} {w : World} {u : Uri} {m : Option Uri}
    {cid f : String} {r s : Nat} {ks : List String} (h1 : cacheGet w.caches cid u = none)
    (hf : u.fragment = some f) (hne : f ≠ "") (h2 : cacheGet w.caches cid u.noFragment = some r)
    (hp : Ptr.parseUriFragment f = .ok ⟨ks⟩) (hr : resolveJson w.heap ks r = .ok s)
    (hs : w.isSchema s = true) : getSchemaWith E newDoc u m cid w = some (w, .ok s) := by
  have hb : baseCached w cid u = some r := by simp [baseCached, hf, h2]
  have he : w.evalFragment f r = .ok s := by simp [World.evalFragment, hp, hr]
  have hend : getSchemaEnd u r w = some (w, .ok s) := by
    simp only [getSchemaEnd, followFragment, hf, if_neg hne, bind, M.andThen, M.read, he, pure, M.ret, hs,
      if_true]
  simp only [getSchemaWith, bind, M.andThen, M.read, h1, hb, hend]

theorem getSchemaWith_cached {E : CEnv} {newDoc : NewDoc} {w : World} {u : Uri} {m : Option Uri}
    {cid : String} {s : Nat} (h1 : cacheGet w.caches cid u = some s) :
    getSchemaWith E newDoc u m cid w = some (w, .ok s) := by
  simp only [getSchemaWith, bind, M.andThen, M.read, h1, pure, M.ret]

end Jschon
