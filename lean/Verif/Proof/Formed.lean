import Verif.Spec.Formed
import Verif.Proof.RootMeta
import Verif.Proof.KwOrder

/-!
# What gets through the constructor has the form of a schema
-/

namespace Jschon
open Spec

variable {E : CEnv}

/-- What the mixins require. -/
def MixinOk (E : CEnv) (shape : KwShape) (v : Value) : Prop :=
  match shape with
  | .subschema => Formed E v
  | .arrayOfSubschemas => (∃ xs, v = .arr xs ∧ ∀ x ∈ xs, Formed E x) ∨ ∃ t, v = .str t
  | .subschemaOrArray => Formed E v ∨ (∃ xs, v = .arr xs ∧ ∀ x ∈ xs, Formed E x) ∨ ∃ t, v = .str t
  | .objectOfSubschemas => ∃ kvs, v = .obj kvs ∧ ∀ kv ∈ kvs, Formed E kv.2
  | _ => True

theorem initKw_formed {s : Nat} {shape : KwShape} {v : Value} {w w' : World} (hb : MixinOk E shape v)
    (h : initKw E s shape v w = some (w', .ok ())) : FormedValue E shape v := by
  cases shape
  case subschema => exact .schema (.inl rfl) hb
  case arrayOfSubschemas =>
    obtain ⟨xs, rfl, hx⟩ | ⟨t, rfl⟩ := hb
    · exact .array (.inl rfl) hx
    · exact .text (.inl rfl)
  case subschemaOrArray =>
    obtain hb | ⟨xs, rfl, hx⟩ | ⟨t, rfl⟩ := hb
    · exact .schema (.inr rfl) hb
    · exact .array (.inr rfl) hx
    · exact .text (.inr rfl)
  case objectOfSubschemas =>
    obtain ⟨kvs, rfl, hx⟩ := hb
    exact .object hx
  case plain => exact .any (.inl rfl)
  case unknown => exact .any (.inr (.inl rfl))
  case vocabulary => exact .any (.inr (.inr rfl))
  case schema =>
    cases v <;> simp only [initKw] at h
    case str t =>
      cases hv : (E.lib.ofText t).validate E.lib true true true true with
      | ok u => exact .metaUri hv
      | error e => rw [hv] at h; exact nomatch (M.raise_run h).2
    all_goals exact nomatch (show (none : Option (World × Except Exc Unit)) = _ from h)
  case id =>
    cases v <;> simp only [initKw] at h
    case str t =>
      cases hv : (E.lib.ofText t).validate E.lib false false true false with
      | ok u => exact .id hv
      | error e => rw [hv] at h; exact nomatch (M.raise_run h).2
    all_goals exact nomatch (show (none : Option (World × Except Exc Unit)) = _ from h)
  case idNext =>
    cases v <;> simp only [initKw] at h
    case str t =>
      cases hv : (E.lib.ofText t).validate E.lib false false false true with
      | ok u => exact .idNext hv
      | error e => rw [hv] at h; exact nomatch (M.raise_run h).2
    all_goals exact nomatch (show (none : Option (World × Except Exc Unit)) = _ from h)
  case recursiveRef =>
    cases v <;> simp only [initKw] at h
    case str t =>
      split at h
      · rename_i ht; subst ht; exact .recursive
      · exact nomatch (M.raise_run h).2
    all_goals exact nomatch (M.raise_run h).2
  case pattern =>
    cases v <;> simp only [initKw] at h
    case str t =>
      split at h
      · rename_i ht; exact .pattern ht
      · exact nomatch (M.raise_run h).2
    all_goals exact nomatch (M.raise_run h).2
  case format =>
    cases v <;> simp only [initKw] at h
    case str t =>
      split at h
      · exact nomatch (M.raise_run h).2
      · rename_i ht
        refine .format fun he => ?_
        simpa [he] using ht
    case null => exact .noFormat .null
    case bool => exact .noFormat .bool
    case num => exact .noFormat .num
    all_goals exact nomatch (M.raise_run h).2
  all_goals
    cases v <;> simp only [initKw] at h
    case str t => exact .name (by simp)
    all_goals exact nomatch (show (none : Option (World × Except Exc Unit)) = _ from h)

/-- The initialization of a keyword does not touch the keywords. -/
theorem initKw_keywords {s : Nat} {shape : KwShape} {v : Value} {w w' : World} {r : Except Exc Unit}
    (h : initKw E s shape v w = some (w', r)) (x : Nat) : w'.keywords x = w.keywords x := by
  have hset : ∀ {f : SInfo → SInfo} (c : Caches), (∀ i, (f i).keywords = i.keywords) →
      World.keywords { w.setInfo s f with caches := c } x = w.keywords x := by
    intro f c hf
    simp only [World.keywords, World.setInfo]
    split
    · cases hi : w.info x with
      | none => simp_all
      | some i => subst_vars; simp [hi, hf]
    · rfl
  have hput : ∀ {u : Uri} {a : Bool} {w' : World} {r : Except Exc Unit},
      (do let r ← resolveUri E s u a; setUri E.lib s r : M Unit) w = some (w', r) → w'.keywords x = w.keywords x := by
    intro u a w' r h
    rcases M.bind_run h with ⟨w1, v, h1, h2⟩ | ⟨e, h1, _⟩
    · have := resolveUri_world h1; subst this
      obtain ⟨rfl, _⟩ := M.change_run h2
      unfold World.putUri
      split
      · rfl
      · exact hset (f := fun i => { i with uri := some v }) _ fun _ => rfl
    · have := resolveUri_world h1; subst this
      rfl
  have hanc : ∀ {t : String} {w' : World} {r : Except Exc Unit},
      addAnchor E s t w = some (w', r) → w'.keywords x = w.keywords x := by
    intro t w' r h
    have h := M.read_bind h
    cases hb : w.baseUri s with
    | none =>
      rw [hb] at h
      obtain ⟨rfl, _⟩ := M.raise_run h
      rfl
    | some b =>
      rw [hb] at h
      obtain ⟨rfl, _⟩ := M.change_run h
      rfl
  unfold initKw at h
  split at h
  all_goals try dsimp only at h
  all_goals try (split at h)
  all_goals first
    | (obtain ⟨rfl, _⟩ := M.pure_run h; rfl)
    | (obtain ⟨rfl, _⟩ := M.raise_run h; rfl)
    | exact hput h
    | exact hanc h
    | (obtain ⟨rfl, _⟩ := M.change_run h; exact hset (f := fun i => { i with metaUri := some _ }) _ fun _ => rfl)
    | (exact nomatch (show (none : Option (World × Except Exc Unit)) = some (w', r) from h))
    | skip
  all_goals
    generalize Uri.validate E.lib (E.lib.ofText _) _ _ _ _ = x at h
    obtain e | _ := x
    · obtain ⟨rfl, _⟩ := M.raise_run h
      rfl
    · first
        | exact hput h
        | (obtain ⟨rfl, _⟩ := M.change_run h
           exact hset (f := fun i => { i with metaUri := some _ }) _ fun _ => rfl)

/-- The classes of `_bootstrap` make plain JSON. -/
theorem kwBuild_boot {cid k : String} {v : Value} {shape : KwShape} (hs : shape.boot = true) {s : Nat} :
    kwBuild E cid k v shape s = newJsonM v (some s) (some k) := by
  cases shape <;> first | (exact absurd hs (by decide)) | (cases v <;> simp only [kwBuild])

theorem addKeyword_runs {s : Nat} {shape : KwShape} {key : String} {v : Value} {build : KwBuild} {w w' : World}
    (h : addKeyword E s shape key v build w = some (w', .ok ())) :
    ∃ w1 j w2, build shape s w = some (w1, .ok j) ∧ initKw E s shape v w1 = some (w2, .ok ()) ∧
      ∀ k, k ∈ dkeys (w'.keywords s) → k = key ∨ k ∈ dkeys (w2.keywords s) := by
  rcases M.bind_run h with ⟨w1, j, h1, h⟩ | ⟨_, _, h⟩
  · rcases M.bind_run h with ⟨w2, _, h2, h⟩ | ⟨_, _, h⟩
    · refine ⟨w1, j, w2, h1, h2, fun k hk => ?_⟩
      obtain ⟨rfl, _⟩ := M.change_run h
      have hkw : ∀ w3 : World, w3.info = (w2.setInfo s (fun i => { i with keywords := dset key { shape, json := j } i.keywords })).info →
          k ∈ dkeys (w3.keywords s) → k = key ∨ k ∈ dkeys (w2.keywords s) := by
        intro w3 he hk
        simp only [World.keywords, he, World.setInfo, if_true] at hk ⊢
        cases hi : w2.info s with
        | none => rw [hi] at hk; simp [dkeys] at hk
        | some i =>
          rw [hi] at hk
          simpa using (mem_dkeys_dset.1 hk)
      refine hkw _ ?_ hk
      dsimp only
      split <;> rfl
    · cases h
  · cases h

/-- The names that `_bootstrap` handles. -/
def BootName (k : String) : Prop := k = "$schema" ∨ k = "$vocabulary" ∨ k = "$id"

theorem bootOne_formed {cid : String} {kvs : List (String × Value)} {s : Nat} {key : String} {shape : KwShape}
    {w w' : World} (hs : shape.boot = true) (hn : BootName key) (hc : ClassOf E key shape)
    (hk : ∀ k ∈ dkeys (w.keywords s), BootName k)
    (h : bootOne E s kvs (kwBuilds E cid kvs) key shape w = some (w', .ok ())) :
    (∀ k ∈ dkeys (w'.keywords s), BootName k) ∧ ∀ v, dlookup key kvs = some v → FormedMember E key v := by
  unfold bootOne at h
  rw [dlookup_kwBuilds] at h
  cases hv : dlookup key kvs with
  | none =>
    rw [hv] at h
    obtain ⟨rfl, _⟩ := M.pure_run h
    exact ⟨hk, fun v hv => by cases hv⟩
  | some v =>
    rw [hv] at h
    obtain ⟨w1, j, w2, h1, h2, h3⟩ := addKeyword_runs h
    rw [kwBuild_boot hs] at h1
    refine ⟨fun k hkk => ?_, fun v' hv' => ?_⟩
    · rcases h3 k hkk with rfl | h4
      · exact hn
      · rw [initKw_keywords h2] at h4
        cases h1
        exact hk k h4
    · cases hv'
      refine .mk hc (initKw_formed ?_ h2)
      cases shape <;> first | (exact absurd hs (by decide)) | trivial

theorem getMeta_runs {s : Nat} {w w' : World} {m : Meta} (h : getMeta E s w = some (w', .ok m)) :
    w' = w ∧ ∃ u, E.metaschema u = .ok m := by
  have h' := M.read_bind h
  cases hu : w.metaUri s with
  | none => rw [hu] at h'; exact nomatch (M.raise_run h').2
  | some u =>
    rw [hu] at h'
    obtain ⟨h1, h2⟩ := M.ofExcept_run h'
    exact ⟨h1, u, h2.symm⟩

theorem bootstrap_formed {cid : String} {kvs : List (String × Value)} {s : Nat} {w w' : World}
    (hk : ∀ k ∈ dkeys (w.keywords s), BootName k)
    (h : bootstrap E s kvs (kwBuilds E cid kvs) w = some (w', .ok ())) :
    (∀ k ∈ dkeys (w'.keywords s), BootName k) ∧
    ∀ k v, BootName k → dlookup k kvs = some v → FormedMember E k v := by
  unfold bootstrap at h
  rcases M.bind_run h with ⟨w1, _, h1, h⟩ | ⟨_, _, h⟩
  · obtain ⟨k1, f1⟩ := bootOne_formed rfl (.inl rfl) .schema hk h1
    rcases M.bind_run h with ⟨w2, _, h2, h⟩ | ⟨_, _, h⟩
    · obtain ⟨k2, f2⟩ := bootOne_formed rfl (.inr (.inl rfl)) .vocabulary k1 h2
      cases hid : dlookup "$id" kvs with
      | none =>
        rw [hid] at h
        simp only [Option.isSome_none, Bool.false_eq_true, if_false] at h
        obtain ⟨rfl, _⟩ := M.pure_run h
        refine ⟨k2, ?_⟩
        rintro k v (rfl | rfl | rfl) hv
        · exact f1 v hv
        · exact f2 v hv
        · rw [hid] at hv; cases hv
      | some v =>
        rw [hid] at h
        simp only [Option.isSome_some, if_true] at h
        rcases M.bind_run h with ⟨w3, m, h3, h4⟩ | ⟨_, _, h⟩
        · obtain ⟨e3, u, hu⟩ := getMeta_runs h3
          rw [e3] at h4
          obtain ⟨k3, f3⟩ := bootOne_formed (shape := if m.knownCore then .id else .idNext)
            (by split <;> rfl) (.inr (.inr rfl)) (.id hu) k2 h4
          refine ⟨k3, ?_⟩
          rintro k v (rfl | rfl | rfl) hv
          · exact f1 v hv
          · exact f2 v hv
          · exact f3 v hv
        · cases h
    · cases h
  · cases h

/-- The classes that were looked up. -/
theorem kwClasses_classes {s : Nat} {w : World} : ∀ {ks : List String} {w' : World} {cs : List KwCls},
    kwClasses E s ks w = some (w', .ok cs) → ∀ c ∈ cs, ClassOf E c.key c.shape := by
  intro ks
  induction ks with
  | nil =>
    intro w' cs h
    obtain ⟨rfl, h⟩ := M.pure_run h
    cases h
    simp
  | cons k ks ih =>
    intro w' cs h
    simp only [kwClasses] at h
    have h := M.read_bind h
    split at h
    · exact ih h
    · rcases M.bind_run h with ⟨w1, m, h1, h5⟩ | ⟨_, _, h⟩
      · obtain ⟨e1, u, hu⟩ := getMeta_runs h1
        rw [e1] at h5
        rcases M.bind_run h5 with ⟨w2, c, h2, h6⟩ | ⟨_, _, h⟩
        · obtain ⟨e2, h2⟩ := M.ofExcept_run h2
          rw [e2] at h6
          rcases M.bind_run h6 with ⟨w3, cs', h3, h7⟩ | ⟨_, _, h⟩
          · obtain ⟨-, h4⟩ := M.pure_run h7
            cases h4
            intro c' hc'
            rcases List.mem_cons.1 hc' with rfl | hc'
            · obtain ⟨hk, -⟩ := getKwclass_spec h2.symm
              rw [hk]
              exact .kw hu h2.symm
            · exact ih h3 c' hc'
          · cases h
        · cases h
      · cases h

theorem each_runs {α : Type} {f : α → M Unit} : ∀ {l : List α} {w w' : World},
    M.each f l w = some (w', .ok ()) → ∀ a ∈ l, ∃ w1 w2, f a w1 = some (w2, .ok ())
  | [], _, _, _, a, ha => by cases ha
  | b :: l, w, w', h, a, ha => by
    rcases M.bind_run (m := f b) (f := fun _ => M.each f l) h with ⟨w1, _, h1, h⟩ | ⟨_, _, h⟩
    · rcases List.mem_cons.1 ha with rfl | ha
      · exact ⟨w, w1, h1⟩
      · exact each_runs h a ha
    · cases h

theorem objSchema_formed (hE : CEnvOk E) {cid cid' : String} {uri mu : Option Uri} {par : Option Nat}
    {key : Option String} {kvs : List (String × Value)} (hd : (Value.obj kvs).WF)
    (hb : ∀ k v, dlookup k kvs = some v → ∀ (shape : KwShape) (s : Nat) (w w' : World) (j : Nat),
      kwBuild E cid k v shape s w = some (w', .ok j) → MixinOk E shape v)
    {w w' : World} {s : Nat} (h : objSchema E cid' uri mu par key kvs (kwBuilds E cid kvs) w = some (w', .ok s)) :
    Formed E (.obj kvs) := by
  have hn : (dkeys kvs).Nodup := by cases hd with | obj h _ => exact h
  rcases M.bind_run h with ⟨w1, s', h1, h⟩ | ⟨_, _, h⟩
  · rcases M.bind_run h with ⟨w2, _, h2, h⟩ | ⟨_, _, h⟩
    · unfold initObject at h2
      rcases M.bind_run h2 with ⟨w3, _, h3, h2⟩ | ⟨_, _, h2⟩
      · rcases M.bind_run h2 with ⟨w4, _, h4, h2⟩ | ⟨_, _, h2⟩
        · rcases M.bind_run h2 with ⟨w5, _, h5, h2⟩ | ⟨_, _, h2⟩
          · rcases M.bind_run h2 with ⟨w6, cs, h6, hx⟩ | ⟨_, _, h2⟩
            · -- the new schema has no keywords
              have k1 : w1.keywords s' = [] := by
                cases h1
                simp [World.keywords]
              have k3 : w3.keywords s' = [] := by
                obtain ⟨rfl, _⟩ := M.change_run h3
                exact k1
              have k4 : w4.keywords s' = [] := by
                have h4 := M.read_bind h4
                split at h4
                · have h4 := M.read_bind h4
                  obtain ⟨rfl, _⟩ := M.change_run h4
                  unfold World.putUri
                  split
                  · exact k3
                  · simp only [World.keywords, World.setInfo, if_true] at k3 ⊢
                    cases hi : w3.info s' with
                    | none => rfl
                    | some i => rw [hi] at k3; exact k3
                · obtain ⟨rfl, _⟩ := M.pure_run h4
                  exact k3
              obtain ⟨k5, f5⟩ := bootstrap_formed (by rw [k4]; simp [dkeys]) h5
              obtain ⟨e6, c6⟩ := kwClasses_spec hE h6
              obtain ⟨-, c8, c9⟩ := c6 cs rfl
              have c10 := kwClasses_classes h6
              refine .obj fun kv hkv => ?_
              have hl : dlookup kv.1 kvs = some kv.2 := dlookup_of_mem hn hkv
              rcases c9 kv.1 (List.mem_map.2 ⟨kv, hkv, rfl⟩) with hk | hk
              · exact f5 _ _ (k5 _ hk) hl
              · obtain ⟨c, hc, hck⟩ := List.mem_map.1 hk
                unfold addClasses at hx
                cases ho : resolveDependencies KwCls.key KwCls.deps cs with
                | none => rw [ho] at hx; exact nomatch (show (none : Option (World × Except Exc Unit)) = _ from hx)
                | some order =>
                  rw [ho] at hx
                  have hp := (resolveDependencies_spec _ _ _ _ (c8.nodup hn) ho).1
                  obtain ⟨w7, w8, h7⟩ := each_runs hx c (hp.mem_iff.2 hc)
                  unfold addClass at h7
                  rw [dlookup_kwBuilds, hck, hl] at h7
                  obtain ⟨w9, j, w10, h8, h9, -⟩ := addKeyword_runs h7
                  exact .mk (hck ▸ c10 c hc) (initKw_formed (hb _ _ hl _ _ _ _ _ h8) h9)
            · cases h2
          · cases h2
        · cases h2
      · cases h2
    · cases h
  · cases h

theorem boolSchema_formed {b : Bool} : Formed E (.bool b) := .bool

theorem scalar_refused {α β : Type} {m : M α} {e : Exc} {w w' : World} {a : β}
    (h : (m >>= fun _ => (M.raise e : M β)) w = some (w', .ok a)) : False := by
  rcases M.bind_run h with ⟨w1, _, _, h⟩ | ⟨_, _, h⟩
  · exact nomatch (M.raise_run h).2
  · cases h

mutual
theorem newSchema_formed (hE : CEnvOk E) : (v : Value) → v.WF → ∀ (cid : String) (uri mu : Option Uri)
    (par : Option Nat) (key : Option String) (w w' : World) (s : Nat),
    newSchema E cid uri mu par key v w = some (w', .ok s) → Formed E v
  | .bool _, _, _, _, _, _, _, _, _, _, _ => .bool
  | .obj kvs, hd, cid, uri, mu, par, key, w, w', s, h => by
    simp only [newSchema] at h
    exact objSchema_formed hE hd (fun k v hl => kwBuilds_formed hE kvs (by cases hd with | obj _ h => exact h) cid k v hl) h
  | .null, _, _, _, _, _, _, _, _, _, h => by simp only [newSchema] at h; exact (scalar_refused h).elim
  | .num _, _, _, _, _, _, _, _, _, _, h => by simp only [newSchema] at h; exact (scalar_refused h).elim
  | .str _, _, _, _, _, _, _, _, _, _, h => by simp only [newSchema] at h; exact (scalar_refused h).elim
  | .arr _, _, _, _, _, _, _, _, _, _, h => by simp only [newSchema] at h; exact (scalar_refused h).elim
theorem kwBuild_formed (hE : CEnvOk E) : (v : Value) → v.WF → ∀ (cid k : String) (shape : KwShape) (s : Nat)
    (w w' : World) (j : Nat), kwBuild E cid k v shape s w = some (w', .ok j) → MixinOk E shape v
  | .bool b, _, cid, k, shape, s, w, w', j, h => by
    cases shape <;> simp only [kwBuild] at h <;> first
      | trivial
      | exact .bool
      | exact .inl .bool
      | exact nomatch (M.raise_run h).2
  | .obj kvs, hd, cid, k, shape, s, w, w', j, h => by
    have hs : ∀ {cid' : String} {uri mu : Option Uri} {par : Option Nat} {key : Option String} {w w' : World} {s : Nat},
        objSchema E cid' uri mu par key kvs (kwBuilds E cid kvs) w = some (w', .ok s) → Formed E (.obj kvs) :=
      fun h => objSchema_formed hE hd (fun k v hl =>
        kwBuilds_formed hE kvs (by cases hd with | obj _ h => exact h) cid k v hl) h
    have hm := newMembers_formed hE kvs (by cases hd with | obj _ h => exact h) cid
    cases shape <;> simp only [kwBuild] at h <;> first
      | trivial
      | exact hs h
      | exact .inl (hs h)
      | exact nomatch (M.raise_run h).2
      | skip
    rcases M.bind_run h with ⟨w1, j1, _, h⟩ | ⟨_, _, h⟩
    · rcases M.bind_run h with ⟨w2, ms, h2, _⟩ | ⟨_, _, h⟩
      · exact ⟨kvs, rfl, hm _ _ _ _ h2⟩
      · cases h
    · cases h
  | .arr xs, hd, cid, k, shape, s, w, w', j, h => by
    have hm := newItems_formed hE xs (by cases hd with | arr h => exact h) cid
    have hx : ∀ {cs : M Nat}, (cs = do
        let j ← newJsonNode (some s) (some k)
        let cs ← newItems E cid j 0 xs
        setDataM j (.arr cs)
        pure j) → cs w = some (w', .ok j) → ∀ x ∈ xs, Formed E x := by
      rintro cs rfl h
      rcases M.bind_run h with ⟨w1, j1, _, h⟩ | ⟨_, _, h⟩
      · rcases M.bind_run h with ⟨w2, ms, h2, _⟩ | ⟨_, _, h⟩
        · exact hm _ _ _ _ _ h2
        · cases h
      · cases h
    cases shape <;> simp only [kwBuild] at h <;> first
      | trivial
      | exact .inl ⟨xs, rfl, hx rfl h⟩
      | exact .inr (.inl ⟨xs, rfl, hx rfl h⟩)
      | exact nomatch (M.raise_run h).2
  | .str t, _, cid, k, shape, s, w, w', j, h => by
    cases shape <;> simp only [kwBuild] at h <;> first
      | trivial
      | exact .inr ⟨t, rfl⟩
      | exact .inr (.inr ⟨t, rfl⟩)
      | exact nomatch (M.raise_run h).2
  | .null, _, cid, k, shape, s, w, w', j, h => by
    cases shape <;> simp only [kwBuild] at h <;> first
      | trivial
      | exact nomatch (M.raise_run h).2
  | .num _, _, cid, k, shape, s, w, w', j, h => by
    cases shape <;> simp only [kwBuild] at h <;> first
      | trivial
      | exact nomatch (M.raise_run h).2
theorem newItems_formed (hE : CEnvOk E) : (xs : List Value) → (∀ x ∈ xs, x.WF) → ∀ (cid : String) (j i : Nat)
    (w w' : World) (cs : List Nat), newItems E cid j i xs w = some (w', .ok cs) → ∀ x ∈ xs, Formed E x
  | [], _, _, _, _, _, _, _, _, x, hx => by cases hx
  | y :: ys, hd, cid, j, i, w, w', cs, h, x, hx => by
    simp only [newItems] at h
    have ih := newItems_formed hE ys (fun x hx => hd x (by simp [hx])) cid j (i + 1)
    have hy := newSchema_formed hE y (hd y (by simp)) cid
    rcases M.bind_run h with ⟨w1, c, h1, h⟩ | ⟨_, _, h⟩
    · rcases M.bind_run h with ⟨w2, cs', h2, _⟩ | ⟨_, _, h⟩
      · rcases List.mem_cons.1 hx with rfl | hx
        · exact hy _ _ _ _ _ _ _ h1
        · exact ih _ _ _ h2 x hx
      · cases h
    · cases h
theorem newMembers_formed (hE : CEnvOk E) : (kvs : List (String × Value)) → (∀ x ∈ kvs, x.2.WF) → ∀ (cid : String)
    (j : Nat) (w w' : World) (cs : List (String × Nat)), newMembers E cid j kvs w = some (w', .ok cs) →
    ∀ kv ∈ kvs, Formed E kv.2
  | [], _, _, _, _, _, _, _, x, hx => by cases hx
  | (k, y) :: ys, hd, cid, j, w, w', cs, h, x, hx => by
    simp only [newMembers] at h
    have ih := newMembers_formed hE ys (fun x hx => hd x (by simp [hx])) cid j
    have hy := newSchema_formed hE y (hd (k, y) (by simp)) cid
    rcases M.bind_run h with ⟨w1, c, h1, h⟩ | ⟨_, _, h⟩
    · rcases M.bind_run h with ⟨w2, cs', h2, _⟩ | ⟨_, _, h⟩
      · rcases List.mem_cons.1 hx with rfl | hx
        · exact hy _ _ _ _ _ _ _ h1
        · exact ih _ _ _ h2 x hx
      · cases h
    · cases h
theorem kwBuilds_formed (hE : CEnvOk E) : (kvs : List (String × Value)) → (∀ x ∈ kvs, x.2.WF) → ∀ (cid k : String)
    (v : Value), dlookup k kvs = some v → ∀ (shape : KwShape) (s : Nat) (w w' : World) (j : Nat),
    kwBuild E cid k v shape s w = some (w', .ok j) → MixinOk E shape v
  | [], _, _, _, _, h => by cases h
  | (k', y) :: ys, hd, cid, k, v, h => by
    have ih := kwBuilds_formed hE ys (fun x hx => hd x (by simp [hx])) cid k v
    have hy := kwBuild_formed hE y (hd (k', y) (by simp)) cid k
    simp only [dlookup] at h
    split at h
    · cases h; exact hy
    · exact ih h
end

end Jschon
