import Verif.Props.Vocabulary
import Verif.Props.Shelf

/-!
# C59, C62, C68, C72, C73: the metaschemas that the theorems about documents are for

The theorems about documents are for documents whose metaschemas have the keyword classes of the dialect
(`OfDialect`).  Here: a metaschema that is created from the vocabularies that come with jschon is one of these,
whichever of the three drafts they are of, and the assumptions about metaschemas that construction needs hold of
it.  The keyword classes of `next` are those of 2020-12 but for that of `$id`.
-/

namespace Jschon

open Spec

/-- What is assumed of metaschemas depends on their classes alone. -/
theorem idOnly_sub {m m' : Meta} (h : ∀ c ∈ m.classes, c ∈ m'.classes) (hm : IdOnly m') : IdOnly m :=
  fun c hc => hm c (h c hc)

theorem ordered_sub {m m' : Meta} (h : ∀ c ∈ m.classes, c ∈ m'.classes) (hm : Ordered m') : Ordered m := by
  obtain ⟨rank, hr⟩ := hm
  exact ⟨rank, fun c hc => hr c (h c hc)⟩

theorem filter_find {c : KwCls → Bool} {k : String} (hc : ∀ x, x.key = k → c x = true) :
    ∀ xs : List KwCls, (xs.filter c).find? (fun x => x.key = k) = xs.find? (fun x => x.key = k)
  | [] => rfl
  | x :: xs => by
    by_cases hk : x.key = k
    · simp [List.filter_cons, hc x hk, hk]
    · by_cases hx : c x = true
      · simp [List.filter_cons, hx, hk, filter_find hc xs]
      · simp [List.filter_cons, hx, hk, filter_find hc xs]

/-- The classes of `next` are those of 2020-12, but for that of `$id`. -/
theorem ofDialect_next : @OfDialect .d2020 metaNext := by
  refine @OfDialect.mk .d2020 _ (fun k hk => ?_) ⟨.idNext, rfl, .inr rfl⟩
  have h : metaNext.classes.find? (fun c => c.key = k) = meta2020.classes.find? (fun c => c.key = k) := by
    have : metaNext.classes = ⟨"$id", .idNext, []⟩ :: meta2020.classes.filter (fun c => c.key ≠ "$id") := rfl
    rw [this, List.find?_cons_of_neg (by simpa using fun h => hk h.symm)]
    exact filter_find (fun x hx => by simpa [hx] using hk) _
  show getKwclass metaNext k = getKwclass meta2020 k
  unfold getKwclass
  rw [h]

theorem ofDialect_eq [dia : Dialect] {m m' : Meta} (h : ∀ k, getKwclass m k = getKwclass m' k) (hm : OfDialect m') :
    OfDialect m := by
  refine ⟨fun k hk => by rw [h, hm.same k hk], ?_⟩
  obtain ⟨s, h1, h2⟩ := hm.id
  exact ⟨s, by rw [h, h1], h2⟩

/-- A metaschema whose `$vocabulary` lists the vocabularies of 2020-12 has what is assumed of metaschemas in the
theorems about documents of this dialect. -/
theorem C68_of_dialect_2020 (lib : UriLib) (calls : List (Uri × List KwCls))
    (hs : Supplied lib calls shipped2020) (doc : List (String × Value)) (core : Option Vocab)
    (defaults : List Vocab) (kvs : List (String × Value))
    (hv : dlookup "$vocabulary" doc = some (.obj kvs))
    (hnodup : (dkeys kvs).Nodup) (hkeys : ∀ k, k ∈ dkeys kvs ↔ k ∈ shipped2020.map Prod.fst)
    (htrue : dlookup "https://json-schema.org/draft/2020-12/vocab/core" kvs = some (.bool true)) :
    ∃ m, newMeta lib (createAll [] calls) doc core defaults = .ok m ∧ @OfDialect .d2020 m ∧ IdOnly m ∧ Ordered m := by
  obtain ⟨m, h1, -, h2, h3⟩ := C68_shipped_2020 lib calls hs doc core defaults kvs hv hnodup hkeys htrue
  exact ⟨m, h1, @ofDialect_eq .d2020 _ _ h2 (@ofDialect_shipped .d2020), idOnly_sub h3 Toy.ids2020,
    ordered_sub h3 C59_ordered_2020⟩

/-- The same for 2019-09. -/
theorem C68_of_dialect_2019 (lib : UriLib) (calls : List (Uri × List KwCls))
    (hs : Supplied lib calls shipped2019) (doc : List (String × Value)) (core : Option Vocab)
    (defaults : List Vocab) (kvs : List (String × Value))
    (hv : dlookup "$vocabulary" doc = some (.obj kvs))
    (hnodup : (dkeys kvs).Nodup) (hkeys : ∀ k, k ∈ dkeys kvs ↔ k ∈ shipped2019.map Prod.fst)
    (htrue : dlookup "https://json-schema.org/draft/2019-09/vocab/core" kvs = some (.bool true)) :
    ∃ m, newMeta lib (createAll [] calls) doc core defaults = .ok m ∧ @OfDialect .d2019 m ∧ IdOnly m ∧ Ordered m := by
  obtain ⟨m, h1, -, h2, h3⟩ := C68_shipped_2019 lib calls hs doc core defaults kvs hv hnodup hkeys htrue
  exact ⟨m, h1, @ofDialect_eq .d2019 _ _ h2 (@ofDialect_shipped .d2019), idOnly_sub h3 Toy.ids2019,
    ordered_sub h3 C59_ordered_2019⟩

/-- The same for `next`, whose documents are in the form of those of 2020-12. -/
theorem C68_of_dialect_next (lib : UriLib) (calls : List (Uri × List KwCls))
    (hs : Supplied lib calls shippedNext) (doc : List (String × Value)) (core : Option Vocab)
    (defaults : List Vocab) (kvs : List (String × Value))
    (hv : dlookup "$vocabulary" doc = some (.obj kvs))
    (hnodup : (dkeys kvs).Nodup) (hkeys : ∀ k, k ∈ dkeys kvs ↔ k ∈ shippedNext.map Prod.fst)
    (htrue : dlookup "https://json-schema.org/draft/next/vocab/core" kvs = some (.bool true)) :
    ∃ m, newMeta lib (createAll [] calls) doc core defaults = .ok m ∧ @OfDialect .d2020 m ∧ IdOnly m ∧ Ordered m := by
  obtain ⟨m, h1, -, h2, h3⟩ := C68_shipped_next lib calls hs doc core defaults kvs hv hnodup hkeys htrue
  exact ⟨m, h1, @ofDialect_eq .d2020 _ _ h2 ofDialect_next, idOnly_sub h3 Toy.idsNext,
    ordered_sub h3 C59_ordered_next⟩

attribute [local instance] Toy.in2020

/-! ## A concrete case: a document of `next` that refers to documents of 2020-12, and loads them -/

theorem Toy.next_arrival : Arrival (envWith parity) .empty "" [evenSite, oddSite] [] (some ⟨"h/main", none⟩)
    (some ⟨"mnext", none⟩) mainMembers mainSite :=
  { main_arrival with form := ⟨some metaNext, main_form ofDialect_next, fun m h => ⟨_, rfl, by cases h; rfl⟩⟩ }

/-- The document is constructed, although it is of another draft than the documents it refers to, and its verdict is
that of the documents as written. -/
example : ∃ w s, Stocked (Toy.envWith Toy.parity) "" [Toy.evenSite, Toy.oddSite] [(s, Toy.mainSite)] w ∧
    (∀ env i, ∃ k r, evaluate (w.store (Toy.envWith Toy.parity) "") env k s i = some r) ∧
    (∀ env k r, evaluate (w.store (Toy.envWith Toy.parity) "") env k s ⟨[], .arr [.null]⟩ = some r → r.valid = false) := by
  have hO : ∀ u m, (Toy.envWith Toy.parity).metaschema u = .ok m → Ordered m := fun _ _ h => Toy.ordered h
  have hL : SiteLib (Toy.envWith Toy.parity).lib := Toy.site_lib
  obtain ⟨N, w1, s, h1, S1⟩ := C73_constructs Toy.parity_ok hO hL (docs := [])
    (.start .start Toy.parity_shelf fun _ _ _ _ _ _ _ => rfl) Toy.next_arrival
  refine ⟨w1, s, S1, fun env i => ?_, fun env k r he => ?_⟩
  · exact C73_ends Toy.parity_ok hO hL S1 (p := Toy.mainSite) (by simp) Toy.three_ranked env i
  · exact (C73_verdict_partial Toy.parity_ok hO hL S1 (p := Toy.mainSite) (by simp) (Toy.wf_spec _ (by decide +kernel))
      (Toy.three_faithful _ (Toy.three_at (.inr rfl)) env _) he).2.2 (Toy.three_rejects env (.inr rfl))

end Jschon
