import Verif.Proof.ConstructTotal
import Verif.Props.Construct

/-!
# C50, C54 and C59: documents that can be constructed, and documents that cannot
-/

namespace Jschon
open Spec

/-! ## C59: reference-free schemas can be constructed -/

/-- C59: a document without references whose keywords have values of the form that their classes expect
constructs, in every world, and recursion as deep as the document suffices. -/
theorem C59_constructs {E : CEnv} (hE : CEnvOk E) (hO : ∀ u m, E.metaschema u = .ok m → Ordered m)
    {w : World} (hw : CHistory w) {mo : Option Meta} {doc : Value} (hd : doc.WF) (hf : Fine E noRefs mo doc)
    {cid : String} {uri metaUri : Option Uri}
    (hu : ∀ u, uri = some u → ∀ q, w.uri q = some u → w.cacheid q ≠ cid)
    (hm : ∀ m, mo = some m → ∃ u, metaUri = some u ∧ E.metaschema u = .ok m) :
    ∃ (N : Nat) (w' : World) (s : Nat), ∀ n, N ≤ n → newDocument E n cid uri metaUri doc w = some (w', .ok s) := by
  obtain ⟨N, w', h, -⟩ := newDocument_returns hE hO hd (fun _ => trivial) (fun _ h => h) hf (.doc hw.ok hu) hm
  exact ⟨N, w', _, h⟩

/-- C59: the classes of both drafts are ordered. -/
theorem C59_ordered_2020 : Ordered meta2020 := ⟨kwRank, by decide +kernel⟩

theorem C59_ordered_2019 : Ordered meta2019 := ⟨kwRank, by decide +kernel⟩

theorem C59_ordered_next : Ordered metaNext := ⟨kwRank, by decide +kernel⟩

theorem Toy.ordered {u : Uri} {m : Meta} (h : Toy.env.metaschema u = .ok m) : Ordered m := by
  simp only [Toy.env] at h
  split at h
  · cases h; exact C59_ordered_2020
  · split at h
    · cases h; exact C59_ordered_2019
    · split at h
      · cases h; exact C59_ordered_next
      · cases h

/-! ## C54: unknown keywords -/

/-- A name that no vocabulary of the metaschema defines and that can be part of the name of a class. -/
def Spec.UnknownName (m : Meta) (k : String) : Prop :=
  (∀ c ∈ m.classes, c.key ≠ k) ∧ k ≠ "" ∧ '\x00' ∉ k.toList

theorem Spec.UnknownName.kwclass {m : Meta} {k : String} (h : UnknownName m k) :
    getKwclass m k = .ok ⟨k, .unknown, []⟩ := by
  unfold getKwclass
  have : m.classes.find? (fun c => c.key = k) = none := by
    rw [List.find?_eq_none]
    intro c hc; simpa using h.1 c hc
  rw [this]
  simp only [if_neg h.2.1, if_neg h.2.2]

/-- C54 (`_partial`: empty names and names with a null character are excepted, see the witnesses below):
members with unknown names can be added to every schema object that is fine otherwise, with any values,
and they are kept as instances of a keyword. -/
theorem C54_unknown_partial {E : CEnv} (hE : CEnvOk E) (hO : ∀ u m, E.metaschema u = .ok m → Ordered m)
    {w : World} (hw : CHistory w) {mo : Option Meta} {m : Meta} {kvs extra : List (String × Value)}
    (hd : (Value.obj (kvs ++ extra)).WF) (hmeta : MetaFor E mo kvs (some m)) (hid : IdFor E noRefs (some m) kvs)
    (hf : ∀ kv ∈ kvs, FineMember E noRefs (some m) kv.1 kv.2) (hx : ∀ kv ∈ extra, UnknownName m kv.1)
    (hb : ∀ kv ∈ extra, kv.1 ≠ "$schema" ∧ kv.1 ≠ "$id")
    {cid : String} {uri metaUri : Option Uri}
    (hu : ∀ u, uri = some u → ∀ q, w.uri q = some u → w.cacheid q ≠ cid)
    (hm : ∀ m, mo = some m → ∃ u, metaUri = some u ∧ E.metaschema u = .ok m) :
    ∃ (N : Nat) (w' : World) (s : Nat),
      (∀ n, N ≤ n → newDocument E n cid uri metaUri (.obj (kvs ++ extra)) w = some (w', .ok s)) ∧
      ∀ kv ∈ extra, ∃ o, (kv.1, o) ∈ w'.keywords s ∧ Rearranged (val w'.heap o.json) kv.2 := by
  have look : ∀ k, (∀ kv ∈ extra, kv.1 ≠ k) → dlookup k (kvs ++ extra) = dlookup k kvs := by
    intro k hk
    clear hd hmeta hid hf
    induction kvs with
    | nil =>
      rw [List.nil_append]
      exact dlookup_eq_none.2 fun h => by
        obtain ⟨kv, h1, h2⟩ := List.mem_map.1 h
        exact hk kv h1 h2
    | cons p ps ih => simp only [List.cons_append, dlookup, ih]
  have hs := look "$schema" fun kv h => (hb kv h).1
  have hi := look "$id" fun kv h => (hb kv h).2
  have hfine : Fine E noRefs mo (.obj (kvs ++ extra)) := by
    refine .obj (mo' := some m) ?_ ?_ fun kv hkv => ?_
    · unfold MetaFor; rw [hs]; exact hmeta
    · unfold IdFor; rw [hi]; exact hid
    · rcases List.mem_append.1 hkv with h | h
      · exact hf kv h
      · exact .kw (hx kv h).kwclass ⟨by simp, by simp, by simp⟩ (.lenient (.inr (.inl rfl)))
  obtain ⟨N, w', h, md⟩ := newDocument_returns hE hO hd (fun _ => trivial) (fun _ h => h) hfine (.doc hw.ok hu) hm
  refine ⟨N, w', _, h, fun kv hkv => ?_⟩
  have p := newDocument_spec hE hd (.doc hw.ok hu) (h N (Nat.le_refl _))
  obtain ⟨-, h2, h3, -, -, h6, -⟩ := p.ret _ rfl
  obtain ⟨i, hi'⟩ := Option.isSome_iff_exists.1 h3
  have hkw : w'.keywords w.heap.next = i.keywords := by simp [World.keywords, hi']
  have hmem := p.ok.kws _ i hi'
  cases hdat : w'.heap.data w.heap.next with
  | obj ms =>
    rw [hdat] at hmem
    rw [val_obj p.ok.ord hdat] at h6
    cases h6 with
    | obj h7 h8 =>
      have hk : kv.1 ∈ dkeys (kvs ++ extra) := List.mem_map.2 ⟨kv, List.mem_append.2 (.inr hkv), rfl⟩
      have hk' := h7.mem_iff.2 hk
      obtain ⟨x, hx1⟩ := Option.isSome_iff_exists.1 (dlookup_isSome.2 hk')
      have hmx := dlookup_mem hx1
      obtain ⟨q, hq1, hq2⟩ := List.mem_map.1 hmx
      rw [Prod.mk.injEq] at hq2
      have hq3 : (q.1, q.2) ∈ kwMembers i.keywords := by rw [hmem]; exact hq1
      obtain ⟨kw, hk1, hk2⟩ := List.mem_map.1 hq3
      rw [Prod.mk.injEq] at hk2
      refine ⟨kw.2, ?_, ?_⟩
      · rw [hkw, ← hq2.1, ← hk2.1]; exact hk1
      · rw [hk2.2, hq2.2]
        exact h8 _ _ _ hx1 (dlookup_of_mem (by cases hd with | obj h _ => exact h) (List.mem_append.2 (.inr hkv)))
  | _ => rw [val_eq p.ok.ord, hdat] at h6; cases h6

/-- The exception that a constructor raises, if it raises one. -/
def Toy.raised {α : Type} : Option (World × Except Exc α) → Option Exc
  | some (_, .error e) => some e
  | _ => none

theorem Toy.raised_iff {α : Type} {r : Option (World × Except Exc α)} {e : Exc} :
    Toy.raised r = some e ↔ ∃ w', r = some (w', .error e) := by
  constructor
  · intro h
    match r, h with
    | some (w', .error e'), h => cases h; exact ⟨w', rfl⟩
  · rintro ⟨w', rfl⟩; rfl

/-- C54: the empty name is refused: `key[0]` raises IndexError. -/
theorem C54_empty_name : ∃ w', Toy.build (.obj [("", .null)]) = some (w', .error .indexError) :=
  Toy.raised_iff.1 (by decide +kernel)

/-- C54: so is a name with a null character: `type()` raises ValueError. -/
theorem C54_nul_name : ∃ w', Toy.build (.obj [("a\x00", .null)]) = some (w', .error .valueError) :=
  Toy.raised_iff.1 (by decide +kernel)

/-- The hypotheses of C54 and C59 can hold: a schema with an identifier, nested schemas in both drafts
and an unknown keyword. -/
example : ∃ (N : Nat) (w' : World) (s : Nat),
    (∀ n, N ≤ n → newDocument Toy.env n "" none (some ⟨"m20", none⟩)
      (.obj ([("$id", .str "h/r"), ("$anchor", .str "top"),
        ("allOf", .arr [.bool true, .obj [("$schema", .str "hm19"), ("items", .arr [.bool false])]])] ++
        [("x-y", .arr [.null])])) .empty = some (w', .ok s)) ∧
    ∃ o, ("x-y", o) ∈ w'.keywords s := by
  obtain ⟨N, w', s, h1, h2⟩ := C54_unknown_partial (E := Toy.env) Toy.env_ok (fun _ _ h => Toy.ordered h) .start
    (mo := some meta2020) (m := meta2020)
    (kvs := [("$id", .str "h/r"), ("$anchor", .str "top"),
        ("allOf", .arr [.bool true, .obj [("$schema", .str "hm19"), ("items", .arr [.bool false])]])])
    (extra := [("x-y", .arr [.null])]) (cid := "") (uri := none) (metaUri := some ⟨"m20", none⟩)
    (Toy.wf_spec _ (by decide +kernel)) (.inl ⟨rfl, rfl⟩)
    (.inr ⟨"h/r", _, rfl, rfl, rfl, (fun _ => trivial), (fun h => absurd h (by decide +kernel))⟩)
    (by
      intro kv hkv
      simp only [List.mem_cons, List.not_mem_nil, or_false] at hkv
      rcases hkv with rfl | rfl | rfl
      · exact .boot (.inr (.inr rfl))
      · exact .kw (c := ⟨"$anchor", .anchor, []⟩) rfl ⟨by decide, by decide, by decide⟩ (.anchor (.inl rfl))
      · refine .kw (c := ⟨"allOf", .arrayOfSubschemas, []⟩) rfl ⟨by decide, by decide, by decide⟩ (.array (.inl rfl) fun x hx => ?_)
        simp only [List.mem_cons, List.not_mem_nil, or_false] at hx
        rcases hx with rfl | rfl
        · exact .bool
        · refine .obj (mo' := some meta2019) (.inr ⟨"hm19", meta2019, rfl, rfl, rfl, rfl⟩) (.inl rfl) fun kv hkv => ?_
          simp only [List.mem_cons, List.not_mem_nil, or_false] at hkv
          rcases hkv with rfl | rfl
          · exact .boot (.inl rfl)
          · refine .kw (c := ⟨"items", .subschemaOrArray, []⟩) rfl ⟨by decide, by decide, by decide⟩ (.array (.inr rfl) fun x hx => ?_)
            simp only [List.mem_cons, List.not_mem_nil, or_false] at hx
            subst hx; exact .bool)
    (by
      intro kv hkv
      simp only [List.mem_cons, List.not_mem_nil, or_false] at hkv
      subst hkv
      exact ⟨by decide +kernel, by decide, by decide⟩)
    (by decide) (fun u h => by cases h) (fun m hm => ⟨_, rfl, by cases hm; rfl⟩)
  obtain ⟨o, ho, -⟩ := h2 ("x-y", .arr [.null]) (by simp)
  exact ⟨N, w', s, h1, o, ho⟩

/-! ## C50: failed loads -/

theorem newDocument_grows {E : CEnv} (hE : CEnvOk E) {n : Nat} {cid : String} {uri metaUri : Option Uri}
    {doc : Value} {w w' : World} {r : Except Exc Nat} (hd : doc.WF) (pre : SPre w cid uri none)
    (h : newDocument E n cid uri metaUri doc w = some (w', r)) : w.heap.next < w'.heap.next := by
  unfold newDocument newDocWith at h
  rcases M.bind_run h with ⟨w1, s, h1, h2⟩ | ⟨e, h1, rfl⟩
  rotate_left
  · exact ((works hE doc hd).1 _ _ _ _ _ _ _ _ pre h1).lt
  have p := (works hE doc hd).1 _ _ _ _ _ _ _ _ pre h1
  obtain ⟨rfl, -⟩ := p.ret s rfl
  rcases M.bind_run h2 with ⟨w2, x, h3, h4⟩ | ⟨e, h3, rfl⟩
  · obtain ⟨-, a2, -⟩ := resolveReferences_ok hE n _ _ _ _ p.ok p.isSchema h3
    obtain ⟨rfl, rfl⟩ := M.pure_run h4
    exact Nat.lt_of_lt_of_le p.lt a2.le
  · obtain ⟨-, a2, -⟩ := resolveReferences_ok hE n _ _ _ _ p.ok p.isSchema h3
    exact Nat.lt_of_lt_of_le p.lt a2.le

/-- C50 (`_partial`: this says nothing if the construction of a document had begun, see the witness
below): if `get_schema` raises and no instance was created, then nothing has changed and the same call
raises the same again. -/
theorem C50_again_partial {E : CEnv} (hE : CEnvOk E) {n : Nat} {u : Uri} {metaUri : Option Uri} {cid : String}
    {w w' : World} {e : Exc} (hw : CHistory w) (h : getSchema E n u metaUri cid w = some (w', .error e))
    (hn : w'.heap.next = w.heap.next) : getSchema E n u metaUri cid w' = some (w', .error e) := by
  have same : w' = w := by
    unfold getSchema getSchemaWith at h
    replace h := M.read_bind h
    cases hc : cacheGet w.caches cid u with
    | some s => rw [hc] at h; cases h
    | none =>
      rw [hc] at h
      replace h := M.read_bind h
      cases hb : baseCached w cid u with
      | some s => rw [hb] at h; exact (getSchemaEnd_spec h).1
      | none =>
        rw [hb] at h
        have hno : cacheGet w.caches cid u.noFragment = none := by
          unfold baseCached at hb
          split at hb
          · exact hb
          · rename_i hf
            cases u with | mk b f => cases f <;> simp_all [Uri.noFragment]
        unfold loadSchema at h
        rcases M.bind_run h with ⟨w1, doc, h1, h2⟩ | ⟨e', h1, -⟩
        · obtain ⟨rfl, hl⟩ := M.ofExcept_run h1
          exfalso
          have pre : SPre w1 cid (some u.noFragment) none := by
            refine ⟨hw.ok, (fun p h => by cases h), (fun p h => by cases h), fun u' hu' hf q hq hc => ?_⟩
            cases hu'
            obtain ⟨t, -, h5, -⟩ := hw.ok.uris q _ hq hf
            rw [hc, hno] at h5; cases h5
          rcases M.bind_run h2 with ⟨w2, s, h3, h4⟩ | ⟨e', h3, -⟩
          · have hlt := newDocument_grows hE (hE.docs _ _ hl.symm) pre h3
            replace h4 := M.read_bind h4
            cases hc2 : cacheGet w2.caches cid u with
            | some t => rw [hc2] at h4; cases h4
            | none =>
              rw [hc2] at h4
              obtain ⟨rfl, -⟩ := getSchemaEnd_spec h4
              omega
          · have hlt := newDocument_grows hE (hE.docs _ _ hl.symm) pre h3
            omega
        · exact (M.ofExcept_run h1).1
  rw [same] at h ⊢; exact h

/-- C50: in particular, it raises again if there is no document to load. -/
theorem C50_no_document {E : CEnv} {n : Nat} {u : Uri} {metaUri : Option Uri} {cid : String}
    {w : World} {e : Exc} (hl : loadJson E.lib E.sources u.noFragment = .error e)
    (h1 : cacheGet w.caches cid u = none) (h2 : cacheGet w.caches cid u.noFragment = none) :
    getSchema E n u metaUri cid w = some (w, .error e) := by
  have hb : baseCached w cid u = none := by
    unfold baseCached; split
    · exact h2
    · rfl
  simp only [getSchema, getSchemaWith, bind, M.andThen, M.read, h1, hb, loadSchema, M.ofExcept, hl]

/-- The hypotheses of `C50_again_partial` can hold: there are no sources. -/
example : ∃ e, getSchema Toy.env 9 ⟨"h/x", some "a"⟩ none "" .empty = some (.empty, .error e) := by
  refine ⟨.catalogError, C50_no_document ?_ rfl rfl⟩
  simp only [Toy.env, loadJson, sourceCandidates, List.filter_nil, List.mergeSort_nil]
  rfl

/-- A document with a reference to nothing. -/
def Toy.broken : Source := fun _ => .ok (.obj [("$ref", .str "#/nope")])

/-- C50: after a call that raised, the same call can return a schema, though the sources are the same. -/
theorem C50_stale : ∃ (E : CEnv) (n : Nat) (u : Uri) (m : Option Uri) (w w' : World) (e : Exc) (s : Nat),
    CEnvOk E ∧ CHistory w ∧ getSchema E n u m "" w = some (w', .error e) ∧
    getSchema E n u m "" w' = some (w', .ok s) ∧
    ∃ o, ("$ref", o) ∈ w'.keywords s ∧ Refers o ∧ o.refschema = none := by
  have hE : CEnvOk (Toy.envWith Toy.broken) := Toy.envWith_ok _ fun t v h => by
    cases h; exact Toy.wf_spec _ (by decide +kernel)
  have hl := Toy.envWith_load Toy.broken "x"
  have hrun : getSchema (Toy.envWith Toy.broken) 9 ⟨"h/x", none⟩ (some ⟨"m20", none⟩) "" .empty =
      (newDocument (Toy.envWith Toy.broken) 9 "" (some ⟨"h/x", none⟩) (some ⟨"m20", none⟩)
        (.obj [("$ref", .str "#/nope")]) >>= fun s => do
          match ← M.read (fun w => cacheGet w.caches "" ⟨"h/x", none⟩) with
          | some t => pure t
          | none => getSchemaEnd ⟨"h/x", none⟩ s) .empty := by
    simp only [getSchema, getSchemaWith, bind, M.andThen, M.read, loadSchema]
    rw [show loadJson (Toy.envWith Toy.broken).lib (Toy.envWith Toy.broken).sources
      (Uri.mk "h/x" none).noFragment = .ok (.obj [("$ref", .str "#/nope")]) from hl]
    rfl
  have h : (newDocument (Toy.envWith Toy.broken) 9 "" (some ⟨"h/x", none⟩) (some ⟨"m20", none⟩)
        (.obj [("$ref", .str "#/nope")]) .empty).map (fun p =>
      (match p.2 with | .error e => decide (e = .catalogError) | .ok _ => false) &&
      decide (cacheGet p.1.caches "" ⟨"h/x", none⟩ = some 0) &&
      (p.1.keywords 0).any (fun kv => kv.1 = "$ref" && kv.2.shape = .ref && kv.2.refschema = none)) =
      some true := by decide +kernel
  obtain ⟨⟨w', r⟩, hb, hp⟩ := Option.map_eq_some_iff.1 h
  simp only [Bool.and_eq_true, List.any_eq_true, decide_eq_true_eq] at hp
  obtain ⟨⟨h1, h2⟩, ⟨k, o⟩, h3, ⟨rfl, h4⟩, h5⟩ := hp
  cases r with
  | ok s => cases h1
  | error e =>
    refine ⟨_, 9, ⟨"h/x", none⟩, some ⟨"m20", none⟩, .empty, w', e, 0, hE, .start, ?_,
      getSchemaWith_cached h2, o, h3, .inl h4, h5⟩
    rw [hrun]
    simp only [bind, M.andThen, hb]

/-- A source of documents that all have the same `$id`. -/
def Toy.moved : Source := fun _ => .ok (.obj [("$id", .str "h/y")])

/-- C71: a document whose `$id` is not the URI that it was asked for by is not found by that URI afterwards: each
`get_schema` constructs it anew, and the second one takes the place of the first under the URI that both have. -/
theorem C71_loaded_again : ∃ (E : CEnv) (n : Nat) (u v : Uri) (m : Option Uri) (w w' w'' : World) (s t : Nat),
    CEnvOk E ∧ CHistory w ∧ getSchema E n u m "" w = some (w', .ok s) ∧ getSchema E n u m "" w' = some (w'', .ok t) ∧
    t ≠ s ∧ getSchema E n v m "" w' = some (w', .ok s) ∧ getSchema E n v m "" w'' = some (w'', .ok t) := by
  have hE : CEnvOk (Toy.envWith Toy.moved) := Toy.envWith_ok _ fun t v h => by
    cases h; exact Toy.wf_spec _ (by decide +kernel)
  have hl := Toy.envWith_load Toy.moved "x"
  have hrun : ∀ w, cacheGet w.caches "" ⟨"h/x", none⟩ = none →
      getSchema (Toy.envWith Toy.moved) 9 ⟨"h/x", none⟩ (some ⟨"m20", none⟩) "" w =
      (newDocument (Toy.envWith Toy.moved) 9 "" (some ⟨"h/x", none⟩) (some ⟨"m20", none⟩)
        (.obj [("$id", .str "h/y")]) >>= fun s => do
          match ← M.read (fun w => cacheGet w.caches "" ⟨"h/x", none⟩) with
          | some t => pure t
          | none => getSchemaEnd ⟨"h/x", none⟩ s) w := by
    intro w hc
    have hb : baseCached w "" ⟨"h/x", none⟩ = none := rfl
    simp only [getSchema, getSchemaWith, bind, M.andThen, M.read, loadSchema, hc, hb]
    rw [show loadJson (Toy.envWith Toy.moved).lib (Toy.envWith Toy.moved).sources
      (Uri.mk "h/x" none).noFragment = .ok (.obj [("$id", .str "h/y")]) from hl]
    rfl
  let step : World → Option (World × Except Exc Nat) := newDocument (Toy.envWith Toy.moved) 9 "" (some ⟨"h/x", none⟩)
    (some ⟨"m20", none⟩) (.obj [("$id", .str "h/y")])
  have look : ∀ w : World, ∀ s, (cacheGet w.caches "" ⟨"h/y", none⟩ = some s) →
      getSchema (Toy.envWith Toy.moved) 9 ⟨"h/y", none⟩ (some ⟨"m20", none⟩) "" w = some (w, .ok s) :=
    fun w s h => getSchemaWith_cached h
  have h : (step .empty).bind (fun p => (step p.1).map (fun q =>
      (match p.2, q.2 with | .ok s, .ok t => decide (s = 0 ∧ t = 2) | _, _ => false) &&
      decide (cacheGet p.1.caches "" ⟨"h/x", none⟩ = none) && decide (cacheGet q.1.caches "" ⟨"h/x", none⟩ = none) &&
      decide (cacheGet p.1.caches "" ⟨"h/y", none⟩ = some 0) && decide (cacheGet q.1.caches "" ⟨"h/y", none⟩ = some 2)
      && p.1.isSchema 0 && q.1.isSchema 2)) =
      some true := by decide +kernel
  obtain ⟨⟨w', r⟩, hb, hp⟩ := Option.bind_eq_some_iff.1 h
  obtain ⟨⟨w'', q⟩, hb', hp⟩ := Option.map_eq_some_iff.1 hp
  simp only [Bool.and_eq_true, decide_eq_true_eq] at hp
  obtain ⟨⟨⟨⟨⟨⟨h1, h2⟩, h3⟩, h4⟩, h5⟩, h6⟩, h7⟩ := hp
  cases r with
  | error e => cases h1
  | ok s =>
    cases q with
    | error e => cases h1
    | ok t =>
      simp only [decide_eq_true_eq] at h1
      obtain ⟨rfl, rfl⟩ := h1
      simp only [step] at hb hb'
      refine ⟨_, 9, ⟨"h/x", none⟩, ⟨"h/y", none⟩, some ⟨"m20", none⟩, .empty, w', w'', 0, 2, hE, .start, ?_, ?_,
        by decide, look _ _ h4, look _ _ h5⟩
      · rw [hrun _ rfl]
        simp only [bind, M.andThen, hb, M.read, h2, getSchemaEnd, followFragment, pure, M.ret, h6, if_true]
      · rw [hrun _ h2]
        simp only [bind, M.andThen, hb', M.read, h3, getSchemaEnd, followFragment, pure, M.ret, h7, if_true]

end Jschon
