import Verif.Proof.Shelf
import Verif.Props.Suite

/-!
# C73: documents that are loaded when they are referred to
-/

namespace Jschon
open Spec

section
/- The dialect of the documents. -/
variable [dia : Dialect]
variable {E : CEnv} (hE : CEnvOk E) (hO : ∀ u m, E.metaschema u = .ok m → Ordered m) (hL : SiteLib E.lib)
  {cid : String} {shelf : List Site} {docs : List (Nat × Site)} {w : World} (hS : Stocked E cid shelf docs w)
include hE hO hL hS

/-- C73: a document of 2019-09 or 2020-12 in which references refer to schemas of documents constructed before, to its
own, or to schemas of documents that the catalog can load, constructs; also if the documents that can be loaded
refer to each other, in whatever cycles. -/
theorem C73_constructs {uri metaUri : Option Uri} {kvs : List (String × Value)} {p : Site}
    (hA : Arrival E w cid shelf (docs.map (·.2)) uri metaUri kvs p) : ∃ (N : Nat) (w' : World) (s : Nat),
      (∀ n, N ≤ n → newDocument E n cid uri metaUri (.obj kvs) w = some (w', .ok s)) ∧
      Stocked E cid shelf (docs ++ [(s, p)]) w' := by
  obtain ⟨made, todo, S, hin⟩ := hS.depot hE hO hL
  obtain ⟨N, w', h, -⟩ := S.add hE hO hL rfl (fun d hd => by
    obtain ⟨⟨root, d⟩, h, rfl⟩ := List.mem_map.1 hd
    exact ⟨root, hin _ h⟩) hA
  exact ⟨N, w', _, h, .add hS hA (h N (Nat.le_refl _))⟩

/-- C73: `get_schema` returns a schema for a URI that is for a schema of a document that was constructed or can be
loaded. -/
theorem C73_obtains {metaUri : Option Uri} {r : Uri} {q : Site} (hA : Obtainable E shelf (docs.map (·.2)) metaUri r q) :
    ∃ (N : Nat) (w' : World) (s : Nat), (∀ n, N ≤ n → getSchema E n r metaUri cid w = some (w', .ok s)) ∧
      Stocked E cid shelf docs w' := by
  obtain ⟨made, todo, S, hin⟩ := hS.depot hE hO hL
  obtain ⟨N, w', y, h, -⟩ := S.get hE hO hL hA.denotes (hA.avail hin) hA.form
  exact ⟨N, w', _, h, .get hS hA (h N (Nat.le_refl _))⟩

/-- C73 (`_partial`: documents are as `DocForm` says, and the points at which evaluation differs from the
specification are excluded by `DFaithful`): if evaluation of a value against a constructed document ends, then it
says whether the value is valid against the document as it was written, where references lead to whatever they
refer to in all documents, those that were constructed and those that were loaded. -/
theorem C73_verdict_partial {s : Nat} {p : Site} (hp : (s, p) ∈ docs) {env : Env} {i : Inst} {n : Nat} {r : RNode}
    (hi : i.value.WF) (hfa : DFaithful E.lib (links E.lib (shelf ++ docs.map (·.2))) p env i.value)
    (he : evaluate (w.store E cid) env n s i = some r) :
    (r.valid = true ↔ DAccepts E.lib env E.fmtEnabled (links E.lib (shelf ++ docs.map (·.2))) p i.value) ∧
    (r.valid = false ↔ DRejects E.lib env E.fmtEnabled (links E.lib (shelf ++ docs.map (·.2))) p i.value) := by
  obtain ⟨made, todo, S, hin⟩ := hS.depot hE hO hL
  exact S.verdict (S.from_ (hin _ hp)) hi hfa he

/-- C73 (`_partial` as above): the schema that `get_schema` returns is the one that the URI is for, whether it had to
be loaded or not: what evaluation says of a value is whether it is valid against it. -/
theorem C73_obtained_partial {metaUri : Option Uri} {u : Uri} {q : Site}
    (hA : Obtainable E shelf (docs.map (·.2)) metaUri u q) {n : Nat} {w' : World} {s : Nat}
    (hn : getSchema E n u metaUri cid w = some (w', .ok s)) {env : Env} {i : Inst} {k : Nat} {r : RNode}
    (hi : i.value.WF) (hfa : DFaithful E.lib (links E.lib (shelf ++ docs.map (·.2))) q env i.value)
    (he : evaluate (w'.store E cid) env k s i = some r) :
    (r.valid = true ↔ DAccepts E.lib env E.fmtEnabled (links E.lib (shelf ++ docs.map (·.2))) q i.value) ∧
    (r.valid = false ↔ DRejects E.lib env E.fmtEnabled (links E.lib (shelf ++ docs.map (·.2))) q i.value) := by
  obtain ⟨made, todo, S, hin⟩ := hS.depot hE hO hL
  obtain ⟨N, w1, y, h, new, todo', S', hm⟩ := S.get hE hO hL hA.denotes (hA.avail hin) hA.form
  cases getSchema_det hn (h N (Nat.le_refl _))
  exact S'.verdict hm hi hfa he

/-- C73: evaluation ends, for all values, if no cycle of references, of whatever documents, applies to one and
the same instance. -/
theorem C73_ends {s : Nat} {p : Site} (hp : (s, p) ∈ docs) {rank : Site → Nat} {bound : Nat}
    (hr : DRanked E.lib (links E.lib (shelf ++ docs.map (·.2))) rank bound) (env : Env) (i : Inst) :
    ∃ k r, evaluate (w.store E cid) env k s i = some r := by
  obtain ⟨made, todo, S, hin⟩ := hS.depot hE hO hL
  exact S.storeReads.halts (S.from_ (hin _ hp)) hr env i

/-- C73: so it does for schemas that `get_schema` returns. -/
theorem C73_obtained_ends {metaUri : Option Uri} {u : Uri} {q : Site}
    (hA : Obtainable E shelf (docs.map (·.2)) metaUri u q) {n : Nat} {w' : World} {s : Nat}
    (hn : getSchema E n u metaUri cid w = some (w', .ok s)) {rank : Site → Nat} {bound : Nat}
    (hr : DRanked E.lib (links E.lib (shelf ++ docs.map (·.2))) rank bound) (env : Env) (i : Inst) :
    ∃ k r, evaluate (w'.store E cid) env k s i = some r := by
  obtain ⟨made, todo, S, hin⟩ := hS.depot hE hO hL
  obtain ⟨N, w1, y, h, new, todo', S', hm⟩ := S.get hE hO hL hA.denotes (hA.avail hin) hA.form
  cases getSchema_det hn (h N (Nat.le_refl _))
  exact S'.storeReads.halts hm hr env i

/-- C73: a document constructed later, and those it loads, change nothing about earlier ones. -/
theorem C73_kept {uri metaUri : Option Uri} {kvs : List (String × Value)} {p : Site}
    (hA : Arrival E w cid shelf (docs.map (·.2)) uri metaUri kvs p) {n : Nat} {w' : World} {s : Nat}
    (hn : newDocument E n cid uri metaUri (.obj kvs) w = some (w', .ok s)) {t : Nat} {q : Site} (hq : (t, q) ∈ docs)
    (env : Env) (k : Nat) (i : Inst) :
    evaluate (w'.store E cid) env k t i = evaluate (w.store E cid) env k t i := by
  obtain ⟨made, todo, S, hin⟩ := hS.depot hE hO hL
  obtain ⟨N, w1, h, new, todo', -, S'⟩ := S.add hE hO hL rfl (fun d hd => by
    obtain ⟨⟨root, d⟩, h, rfl⟩ := List.mem_map.1 hd
    exact ⟨root, hin _ h⟩) hA
  cases newDocument_det hn (h N (Nat.le_refl _))
  exact S.later S' (refer_append _) (.new .refl hE hA.wf (fun u h => (hA.given u h).2.2) hn) (S.from_ (hin _ hq)) env k i

/-- C73: nor do documents that `get_schema` loads. -/
theorem C73_kept_get {metaUri : Option Uri} {u : Uri} {q : Site}
    (hA : Obtainable E shelf (docs.map (·.2)) metaUri u q) {n : Nat} {w' : World} {s : Nat}
    (hn : getSchema E n u metaUri cid w = some (w', .ok s)) {t : Nat} {p : Site} (hp : (t, p) ∈ docs)
    (env : Env) (k : Nat) (i : Inst) :
    evaluate (w'.store E cid) env k t i = evaluate (w.store E cid) env k t i := by
  obtain ⟨made, todo, S, hin⟩ := hS.depot hE hO hL
  obtain ⟨N, w1, y, h, new, todo', S', -⟩ := S.get hE hO hL hA.denotes (hA.avail hin) hA.form
  cases getSchema_det hn (h N (Nat.le_refl _))
  exact S.later S' (fun _ _ _ h => h) (.get .refl hE hn) (S.from_ (hin _ hp)) env k i

end

attribute [local instance] Toy.in2020

/-! ## A concrete case: two documents that refer to each other, and one that refers to them -/

namespace Toy

/-- A list of `odd`, at even depth. -/
def evenMembers : List (String × Value) := [("items", .obj [("$ref", .str "odd")])]
/-- A list of `even`, and nothing but a list. -/
def oddMembers : List (String × Value) := [("type", .str "array"), ("items", .obj [("$ref", .str "even")])]
def mainMembers : List (String × Value) := [("$ref", .str "even")]

def evenSite : Site := ⟨⟨"h/even", none⟩, .obj evenMembers⟩
def oddSite : Site := ⟨⟨"h/odd", none⟩, .obj oddMembers⟩
def mainSite : Site := ⟨⟨"h/main", none⟩, .obj mainMembers⟩
def evenItem : Site := ⟨⟨"h/even", none⟩, .obj [("$ref", .str "odd")]⟩
def oddItem : Site := ⟨⟨"h/odd", none⟩, .obj [("$ref", .str "even")]⟩

def parity : Source := fun t =>
  if t = "even" then .ok evenSite.schema else if t = "odd" then .ok oddSite.schema else .error .keyError

def three : Links := links Toy.lib [evenSite, oddSite, mainSite]

theorem even_stands {ks : List String} {q : Site} (h : Stands Toy.lib evenSite ks q) :
    (ks, q) ∈ [([], evenSite), (["items"], evenItem)] := subsites_all h (n := 5) rfl
theorem odd_stands {ks : List String} {q : Site} (h : Stands Toy.lib oddSite ks q) :
    (ks, q) ∈ [([], oddSite), (["items"], oddItem)] := subsites_all h (n := 5) rfl
theorem main_stands {ks : List String} {q : Site} (h : Stands Toy.lib mainSite ks q) :
    (ks, q) ∈ [([], mainSite)] := subsites_all h (n := 5) rfl

theorem refUri_odd {b : Uri} : RefUri Toy.lib b "odd" ⟨"h/odd", none⟩ := .inr ⟨by decide, by rfl⟩
theorem refUri_even {b : Uri} : RefUri Toy.lib b "even" ⟨"h/even", none⟩ := .inr ⟨by decide, by rfl⟩

theorem refers_odd {more : List Site} {b : Uri} : (links Toy.lib (evenSite :: oddSite :: more)).refer b "odd" oddSite :=
  ⟨_, refUri_odd, .pointer (i := 1) (ks := []) (p := oddSite) (ks' := []) ⟨⟨oddSite, rfl, .here⟩, .inl rfl⟩ rfl .nil .here⟩
theorem refers_even {more : List Site} {b : Uri} : (links Toy.lib (evenSite :: oddSite :: more)).refer b "even" evenSite :=
  ⟨_, refUri_even, .pointer (i := 0) (ks := []) (p := evenSite) (ks' := []) ⟨⟨evenSite, rfl, .here⟩, .inl rfl⟩ rfl .nil .here⟩

theorem parity_load (t : String) (v : Value) (h : parity t = .ok v) :
    loadJson (envWith parity).lib (envWith parity).sources ⟨"h/" ++ t, none⟩ = .ok v := by
  rw [envWith_load, h]

theorem parity_ok : CEnvOk (envWith parity) := envWith_ok _ fun t v h => by
  unfold parity at h
  split at h
  · cases h; exact wf_spec _ (by decide +kernel)
  · split at h
    · cases h; exact wf_spec _ (by decide +kernel)
    · cases h

theorem even_form {more : List Site} {m : Meta} (hm : OfDialect m) : DocForm (envWith parity) (some m) (links Toy.lib (evenSite :: oddSite :: more)) evenSite := by
  refine .obj (.inl ⟨rfl, rfl⟩) hm fun kv hkv => .inr ?_
  simp only [evenMembers, List.mem_cons, List.not_mem_nil, or_false] at hkv
  subst hkv
  refine .one (.inl (by decide)) (.obj fun kv hkv => ?_)
  simp only [List.mem_cons, List.not_mem_nil, or_false] at hkv
  subst hkv
  exact .ref refers_odd

theorem odd_form {more : List Site} {m : Meta} (hm : OfDialect m) : DocForm (envWith parity) (some m) (links Toy.lib (evenSite :: oddSite :: more)) oddSite := by
  refine .obj (.inl ⟨rfl, rfl⟩) hm fun kv hkv => .inr ?_
  simp only [oddMembers, List.mem_cons, List.not_mem_nil, or_false] at hkv
  rcases hkv with rfl | rfl
  · exact .assert .type (fun re h => by cases h)
  · refine .one (.inl (by decide)) (.obj fun kv hkv => ?_)
    simp only [List.mem_cons, List.not_mem_nil, or_false] at hkv
    subst hkv
    exact .ref refers_even

theorem main_form {m : Meta} (hm : OfDialect m) : DocForm (envWith parity) (some m) three mainSite := by
  refine .obj (.inl ⟨rfl, rfl⟩) hm fun kv hkv => .inr ?_
  simp only [mainMembers, List.mem_cons, List.not_mem_nil, or_false] at hkv
  subst hkv
  exact .ref refers_even

/-- The references of the three documents are to the two that can be loaded. -/
theorem three_near {p : Site} (hp : p = evenSite ∨ p = oddSite ∨ p = mainSite) {there : List Site} :
    NearRefs Toy.lib there [evenSite, oddSite] p := by
  intro ks q k t r hs hk hm hr
  have go : ∀ {b : Uri} {v : Value}, v = .str "odd" ∨ v = .str "even" → v = .str t → RefUri Toy.lib b t r →
      ∃ d ∈ [evenSite, oddSite], d.base = r.noFragment := by
    rintro b v (rfl | rfl) h hr
    · cases h; cases refUri_unique hr refUri_odd; exact ⟨oddSite, by simp, rfl⟩
    · cases h; cases refUri_unique hr refUri_even; exact ⟨evenSite, by simp, rfl⟩
  right
  rw [Site.has_iff] at hm
  have key : ∀ {s : String} {v : Value}, s = "items" ∨ s = "type" → k = s ∧ Value.str t = v → False := by
    rintro s v h ⟨rfl, -⟩
    rcases h with rfl | rfl <;> rcases hk with h | ⟨-, h⟩ <;> exact absurd h (by decide)
  rcases hp with rfl | rfl | rfl
  · have := even_stands hs
    simp only [List.mem_cons, List.not_mem_nil, or_false, Prod.mk.injEq] at this
    rcases this with ⟨-, rfl⟩ | ⟨-, rfl⟩ <;>
      simp only [Site.members, evenSite, evenItem, evenMembers, List.mem_cons, List.not_mem_nil, or_false, Prod.mk.injEq] at hm
    · exact (key (.inl rfl) hm).elim
    · exact go (.inl rfl) hm.2.symm hr
  · have := odd_stands hs
    simp only [List.mem_cons, List.not_mem_nil, or_false, Prod.mk.injEq] at this
    rcases this with ⟨-, rfl⟩ | ⟨-, rfl⟩ <;>
      simp only [Site.members, oddSite, oddItem, oddMembers, List.mem_cons, List.not_mem_nil, or_false, Prod.mk.injEq] at hm
    · rcases hm with hm | hm
      · exact (key (.inr rfl) hm).elim
      · exact (key (.inl rfl) hm).elim
    · exact go (.inr rfl) hm.2.symm hr
  · have := main_stands hs
    simp only [List.mem_cons, List.not_mem_nil, or_false, Prod.mk.injEq] at this
    obtain ⟨-, rfl⟩ := this
    simp only [Site.members, mainSite, mainMembers, List.mem_cons, List.not_mem_nil, or_false, Prod.mk.injEq] at hm
    exact go (.inr rfl) hm.2.symm hr

theorem parity_shelf : Shelf (envWith parity) [evenSite, oddSite] where
  each p hp := by
    simp only [List.mem_cons, List.not_mem_nil, or_false] at hp
    rcases hp with rfl | rfl
    · exact ⟨⟨_, rfl⟩, wf_spec _ (by decide +kernel), ⟨rfl, rfl⟩, rfl, parity_load "even" _ rfl, rfl, fun _ hm => even_form hm⟩
    · exact ⟨⟨_, rfl⟩, wf_spec _ (by decide +kernel), ⟨rfl, rfl⟩, rfl, parity_load "odd" _ rfl, rfl, fun _ hm => odd_form hm⟩
  near p hp := by
    simp only [List.mem_cons, List.not_mem_nil, or_false] at hp
    rcases hp with rfl | rfl
    · exact three_near (.inl rfl)
    · exact three_near (.inr (.inl rfl))
  unique := uniqueNames_check (n := 5) (by decide +kernel)

theorem main_arrival : Arrival (envWith parity) .empty "" [evenSite, oddSite] [] (some ⟨"h/main", none⟩) (some ⟨"m20", none⟩)
    mainMembers mainSite where
  wf := wf_spec _ (by decide +kernel)
  site := rfl
  form := ⟨some meta2020, main_form ofDialect_shipped, fun m h => ⟨_, rfl, by cases h; rfl⟩⟩
  near := three_near (.inr (.inr rfl))
  given u h := by cases h; exact ⟨rfl, ⟨rfl, rfl⟩, fun q h => by cases h⟩
  same h := of_decide_eq_true h
  unique := uniqueNames_check (n := 5) (by decide +kernel)
  free v ks q _ _ := rfl

theorem items_pct : PctText "/items".toList (textOf ["items"]) := by
  have e : textOf ["items"] = "/items".toList := rfl
  rw [e]
  refine pct_plain _ ?_
  have e : "/items".toList = ['/', 'i', 't', 'e', 'm', 's'] := rfl
  rw [e]
  unfold Unreserved SubDelim
  decide

/-- The URI of a schema in one of them. -/
theorem odd_obtainable : Obtainable (envWith parity) [evenSite, oddSite] [mainSite] (some ⟨"m20", none⟩)
    ⟨"h/odd", some "/items"⟩ oddItem where
  denotes := .pointer (i := 1) (ks := []) (p := oddSite) (ks' := ["items"]) ⟨⟨oddSite, rfl, .here⟩, .inl rfl⟩ rfl
    items_pct (.one (.inl (by decide)) (List.mem_cons_of_mem _ List.mem_cons_self) .here)
  near := .inr ⟨oddSite, by simp, rfl⟩
  form := ⟨_, _, rfl, rfl, ofDialect_shipped⟩

theorem three_unique : UniqueNames Toy.lib [evenSite, oddSite, mainSite] := uniqueNames_check (n := 5) (by decide +kernel)

theorem three_sites {q : Site} (h : three.sites q) :
    q = evenSite ∨ q = evenItem ∨ q = oddSite ∨ q = oddItem ∨ q = mainSite := by
  obtain ⟨i, ks, h⟩ := h
  have : (i, ks, q) ∈ [(0, [], evenSite), (0, ["items"], evenItem), (1, [], oddSite), (1, ["items"], oddItem),
    (2, [], mainSite)] := allSites_all (n := 5) rfl h
  simp only [List.mem_cons, List.not_mem_nil, or_false, Prod.mk.injEq] at this
  rcases this with ⟨-, -, h⟩ | ⟨-, -, h⟩ | ⟨-, -, h⟩ | ⟨-, -, h⟩ | ⟨-, -, h⟩ <;> simp [h]

/-- What members the schemas have. -/
theorem three_has {q : Site} (h : three.sites q) {k : String} {v : Value} (hk : q.Has k v) :
    (k = "$ref" ∧ v = .str "odd" ∧ q = evenItem) ∨ (k = "$ref" ∧ v = .str "even" ∧ (q = oddItem ∨ q = mainSite)) ∨
      k ∈ ["items", "type"] := by
  rw [Site.has_iff] at hk
  rcases three_sites h with rfl | rfl | rfl | rfl | rfl <;>
    simp only [Site.members, evenSite, evenItem, evenMembers, oddSite, oddItem, oddMembers, mainSite, mainMembers,
      List.mem_cons, List.not_mem_nil, or_false, Prod.mk.injEq] at hk
  · obtain ⟨rfl, -⟩ := hk; simp
  · obtain ⟨rfl, rfl⟩ := hk; exact .inl ⟨rfl, rfl, rfl⟩
  · rcases hk with ⟨rfl, -⟩ | ⟨rfl, -⟩ <;> simp
  · obtain ⟨rfl, rfl⟩ := hk; exact .inr (.inl ⟨rfl, rfl, .inl rfl⟩)
  · obtain ⟨rfl, rfl⟩ := hk; exact .inr (.inl ⟨rfl, rfl, .inr rfl⟩)

theorem three_never {q : Site} (h : three.sites q) {k : String} {v : Value}
    (hn : k ∉ ["$ref", "items", "type"]) : ¬ q.Has k v := by
  intro hk
  rcases three_has h hk with ⟨rfl, -⟩ | ⟨rfl, -⟩ | h
  · exact hn (by decide)
  · exact hn (by decide)
  · exact hn (List.mem_cons_of_mem _ h)

theorem three_refer {b : Uri} {t : String} {q q' : Site} (h : three.refer b t q) (h' : three.refer b t q') : q = q' := by
  refine refer_unique (fun p hp => ?_) three_unique (fun i ks q f hl hf => ?_) h h'
  · simp only [List.mem_cons, List.not_mem_nil, or_false] at hp
    rcases hp with rfl | rfl | rfl <;> exact wf_spec _ (by decide +kernel)
  · rcases hf with hf | ⟨-, hf⟩ <;> exact absurd hf (three_never ⟨i, ks, hl⟩ (by decide))

/-- Where the references lead. -/
theorem three_target {sc : List Site} {p q : Site} {k s : String} (h : three.sites p) (hm : p.Has k (.str s))
    (ht : DTarget Toy.lib three sc p.base k s q) :
    (p = evenItem ∧ q = oddSite) ∨ ((p = oddItem ∨ p = mainSite) ∧ q = evenSite) := by
  have hr : k = "$ref" ∧ three.refer p.base s q := by
    cases ht with
    | ref hr => exact ⟨rfl, hr⟩
    | static _ _ => exact absurd hm (three_never h (by decide))
    | dynamic _ _ _ => exact absurd hm (three_never h (by decide))
    | recursive h => cases h
  obtain ⟨rfl, hr⟩ := hr
  rcases three_has h hm with ⟨-, hs, hp⟩ | ⟨-, hs, hp⟩ | h
  · cases hs; exact .inl ⟨hp, three_refer hr refers_odd⟩
  · cases hs; exact .inr ⟨hp, three_refer hr refers_even⟩
  · exact absurd h (by decide)

theorem three_faithful (root : Site) (hr : three.sites root) (env : Env) (v : Value) : DFaithful Toy.lib three root env v where
  quiet_not p q hw hm := by
    exfalso
    have : ∀ x, ¬ DWatched Toy.lib three x := by
      intro x hx
      induction hx with
      | here h hm hk => rcases hk with rfl | rfl <;> exact three_never h (by decide) hm
      | sub _ _ ih => exact ih
    exact this _ hw
  dyn _ p sc s f u hp hm _ hd := absurd hm (three_never (links_scope hr hp p List.mem_cons_self) (by decide))
  items_true h := by cases h
  items_array h := by cases h
  mult p m n h hm := absurd hm (three_never h (by decide))

theorem three_ranked : DRanked Toy.lib three twoRank 2 where
  lt p _ := by unfold twoRank; split <;> omega
  decreases p q h hd := by
    rcases hd with hd | ⟨t, hm, rfl⟩
    · cases hd with
      | many hk hm _ => rcases hk with rfl | rfl | rfl <;> exact absurd hm (three_never h (by decide))
      | one hk hm => rcases hk with rfl | rfl | rfl <;> exact absurd hm (three_never h (by decide))
      | dependentSchemas hm _ => exact absurd hm (three_never h (by decide))
      | ref hm _ ht =>
        rcases three_target h hm ht with ⟨rfl, rfl⟩ | ⟨rfl | rfl, rfl⟩ <;> decide
    · exact absurd hm (three_never h (by decide))

/-- In a list of `even`, what is not a list is rejected at odd depth. -/
theorem three_rejects (env : Env) {p : Site} (hp : p = oddItem ∨ p = mainSite) :
    DRejects Toy.lib env Toy.env.fmtEnabled three p (.arr [.null]) := by
  refine ⟨0, fun m _ h => ?_⟩
  cases m with
  | zero => exact h
  | succ m =>
    have h1 : (dunroll Toy.lib env Toy.env.fmtEnabled three m).valid [p] evenSite (.arr [.null]) := by
      rcases hp with rfl | rfl <;>
        exact h.ref "$ref" "even" evenSite (by simp [mainMembers]) (.ref refers_even)
    cases m with
    | zero => exact h1
    | succ m =>
      have h2 := h1.items rfl (.obj [("$ref", .str "odd")]) (by simp [evenMembers]) 0 .null rfl
        (fun ss h => by simp [evenMembers] at h)
      cases m with
      | zero => exact h2
      | succ m =>
        have h3 := h2.ref "$ref" "odd" oddSite List.mem_cons_self (.ref refers_odd)
        cases m with
        | zero => exact h3
        | succ m =>
          obtain ⟨t, ht, ht'⟩ := h3.assert "type" (.str "array") _ (by simp [oddMembers]) .type
          simp only [List.mem_cons, List.not_mem_nil, or_false] at ht
          subst ht
          obtain ⟨kvs, h⟩ := ht'
          cases h

theorem three_at {q : Site} (h : q = oddItem ∨ q = mainSite) : three.sites q := by
  rcases h with rfl | rfl
  · exact ⟨1, ["items"], oddSite, rfl, .one (.inl (by decide)) (List.mem_cons_of_mem _ List.mem_cons_self) .here⟩
  · exact ⟨2, [], mainSite, rfl, .here⟩

end Toy

/-- The document is constructed, the other two are loaded, and a schema in one of them can be obtained;
evaluation ends for all values, and reaches what is written in the other one. -/
example : ∃ w w' s t, Stocked (Toy.envWith Toy.parity) "" [Toy.evenSite, Toy.oddSite] [(s, Toy.mainSite)] w ∧
    (∃ n, getSchema (Toy.envWith Toy.parity) n ⟨"h/odd", some "/items"⟩ (some ⟨"m20", none⟩) "" w = some (w', .ok t)) ∧
    (∀ env i, ∃ k r, evaluate (w.store (Toy.envWith Toy.parity) "") env k s i = some r) ∧
    (∀ env k r, evaluate (w.store (Toy.envWith Toy.parity) "") env k s ⟨[], .arr [.null]⟩ = some r → r.valid = false) ∧
    (∀ env k r, evaluate (w'.store (Toy.envWith Toy.parity) "") env k t ⟨[], .arr [.null]⟩ = some r → r.valid = false) := by
  have hO : ∀ u m, (Toy.envWith Toy.parity).metaschema u = .ok m → Ordered m := fun _ _ h => Toy.ordered h
  have hL : SiteLib (Toy.envWith Toy.parity).lib := Toy.site_lib
  obtain ⟨N, w1, s, h1, S1⟩ := C73_constructs Toy.parity_ok hO hL (docs := [])
    (.start .start Toy.parity_shelf fun _ _ _ _ _ _ _ => rfl) Toy.main_arrival
  obtain ⟨N2, w2, t, h2, S2⟩ := C73_obtains Toy.parity_ok hO hL S1 Toy.odd_obtainable
  refine ⟨w1, w2, s, t, S1, ⟨N2, h2 _ (Nat.le_refl _)⟩, fun env i => ?_, fun env k r he => ?_, fun env k r he => ?_⟩
  · exact C73_ends Toy.parity_ok hO hL S1 (p := Toy.mainSite) (by simp) Toy.three_ranked env i
  · exact (C73_verdict_partial Toy.parity_ok hO hL S1 (p := Toy.mainSite) (by simp) (Toy.wf_spec _ (by decide +kernel))
      (Toy.three_faithful _ (Toy.three_at (.inr rfl)) env _) he).2.2 (Toy.three_rejects env (.inr rfl))
  · exact (C73_obtained_partial Toy.parity_ok hO hL S1 Toy.odd_obtainable (h2 _ (Nat.le_refl _))
      (Toy.wf_spec _ (by decide +kernel)) (Toy.three_faithful _ (Toy.three_at (.inl rfl)) env _) he).2.2
      (Toy.three_rejects env (.inl rfl))

end Jschon
