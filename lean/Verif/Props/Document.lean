import Verif.Proof.DocLater
import Verif.Proof.NamesCheck
import Verif.Proof.ConstructMono
import Verif.Props.Constructible

/-!
# C61 to C63: from the text of a schema to the verdict
-/

namespace Jschon
open Spec

section
/- The dialect of the documents. -/
variable [dia : Dialect]

/-! ## C61: other schemas have no influence -/

omit dia in
/-- C61: evaluation of a schema depends on nothing but a group of schemas that stands by itself. -/
theorem C61_island {P : SRef → Prop} {st st' : Store} (hI : Island P st) (hS : SameOn P st st') {s : SRef}
    (hs : P s) (env : Env) (n : Nat) (i : Inst) : evaluate st' env n s i = evaluate st env n s i :=
  evaluate_island hI hS hs

/-- C61 (`_partial`: it is supposed that no dynamic reference is involved): whatever is constructed or
loaded afterwards, successfully or not, evaluation of a schema gives the result that it gave before. -/
theorem C61_later_partial {E : CEnv} {w w' : World} (hw : CHistory w) (ha : CAfter w w') {s : Nat}
    (hs : w.isSchema s = true) {cid : String} (hst : Static (w.store E cid) s) (cid' : String) (env : Env)
    (n : Nat) (i : Inst) :
    evaluate (w'.store E cid') env n s i = evaluate (w.store E cid) env n s i := by
  obtain ⟨ok', g, b⟩ := ha.spec hw.ok
  have hlt := hw.ok.dom s hs
  refine evaluate_island (P := Uses (w.store E cid) s) ⟨fun x kws kw t hx ho hk ht => .step hx ho hk ht, ?_⟩
    ⟨fun x hx => ?_, ?_⟩ .refl
  · exact fun x kws t f hx ho hk => absurd hk (hst x kws t f hx ho)
  · exact schemaObj_later hw.ok ok' g b (uses_old hw.ok hlt hx)
  · exact fun x kws t f hx ho hk => absurd hk (hst x kws t f hx ho)

/-! ## C59: documents with references can be constructed -/

/-- The names of the document are new: its URI, if given, is an absolute URI that no schema of the cache
has; no two schemas of the document have the same name; and nothing is cached with a URI of one of
its schema resources. -/
structure Spec.NewUri (E : CEnv) (w : World) (cid : String) (uri : Option Uri) (doc : Value) : Prop where
  given : ∀ u, uri = some u → u.fragment = none ∧ Solid E.lib u ∧
    ∀ q, w.uri q = some u → w.cacheid q ≠ cid
  same : E.lib.same (uri.getD (E.lib.uuid w.uris)) (docSite E.lib w uri doc).base = true →
    uri.getD (E.lib.uuid w.uris) = (docSite E.lib w uri doc).base
  unique : UniqueNames E.lib [docSite E.lib w uri doc]
  free : ∀ v ks q, Stands E.lib (docSite E.lib w uri doc) ks q → q.base = v.noFragment →
    cacheGet w.caches cid v = none

section
variable {E : CEnv} (hE : CEnvOk E) (hO : ∀ u m, E.metaschema u = .ok m → Ordered m) (hL : SiteLib E.lib)
  {w : World} (hw : CHistory w) {mo : Option Meta} {doc : Value} (hd : doc.WF) {cid : String}
  {uri metaUri : Option Uri} {p : Site} (hp : p = docSite E.lib w uri doc) (hf : DocForm E mo (links E.lib [p]) p)
  (hu : NewUri E w cid uri doc) (hm : ∀ m, mo = some m → ∃ u, metaUri = some u ∧ E.metaschema u = .ok m)
include hE hO hL hw hd hp hf hu hm

/-- C59: a document of 2019-09 or 2020-12 in which references refer to schemas of the document constructs. -/
theorem C59_local : ∃ (N : Nat) (w' : World) (s : Nat), ∀ n, N ≤ n →
    newDocument E n cid uri metaUri doc w = some (w', .ok s) := by
  have pre : SPre w cid uri none := .doc hw.ok fun u h => (hu.given u h).2.2
  cases doc with
  | bool b =>
    obtain ⟨N, w', h, -⟩ := newDocument_returns hE hO hd (fun _ => trivial) (fun _ h => h) (A := noRefs) .bool pre hm
    exact ⟨N, w', _, h⟩
  | obj kvs =>
    obtain ⟨N, w1, w', h, -⟩ := newDocument_local hE hO hL hd hp hf pre hm
      (fun u h => ⟨(hu.given u h).1, (hu.given u h).2.1⟩) (hp ▸ hu.same) ⟨hp ▸ hu.unique, hp ▸ hu.free⟩
    exact ⟨N, w', _, h⟩
  | _ => subst hp; cases hf

/-! ## C62: the verdict on what was written -/

/-- C62 (`_partial`: documents are as `DocForm` says, and the points at which evaluation differs from the
specification are excluded by `DFaithful`): once a document is constructed, and whatever is constructed
afterwards, unless it takes the names of the document and there are dynamic references, if evaluation of a
value ends, then it says whether the value is valid against the document as it was written. -/
theorem C62_verdict_partial {k : Nat} {w' : World} {s : Nat}
    (hn : newDocument E k cid uri metaUri doc w = some (w', .ok s))
    {w'' : World} (ha : CAfter w' w'') {cid' : String} (hs : Settled E cid cid' p w' w'')
    {env : Env} {i : Inst} {n : Nat} {r : RNode} (hi : i.value.WF)
    (hfa : DFaithful E.lib (links E.lib [p]) p env i.value)
    (he : evaluate (w''.store E cid') env n s i = some r) :
    (r.valid = true ↔ DAccepts E.lib env E.fmtEnabled (links E.lib [p]) p i.value) ∧
    (r.valid = false ↔ DRejects E.lib env E.fmtEnabled (links E.lib [p]) p i.value) := by
  have pre : SPre w cid uri none := .doc hw.ok fun u h => (hu.given u h).2.2
  have post := newDocument_spec hE hd pre hn
  obtain ⟨rfl, h2, -, -, -, h6, -⟩ := post.ret _ rfl
  have main : ∀ m, n ≤ m →
      (r.valid = true ↔ (dunroll E.lib env E.fmtEnabled (links E.lib [p]) m).valid [] p i.value) := by
    cases doc with
    | bool b =>
      have hb := bool_later (E := E) post.ok h2 h6 ha cid'
      intro m hm
      cases n with
      | zero => cases he
      | succ n =>
        obtain ⟨r', h1, h2⟩ := evaluate_bool (env := env) hb n i
        rw [he] at h1; cases h1
        obtain ⟨k, rfl⟩ : ∃ k, m = k + 1 := ⟨m - 1, by omega⟩
        rw [h2, hp]; exact Iff.rfl
    | obj kvs =>
      obtain ⟨N, w1, w2, h, -, D⟩ := newDocument_local hE hO hL hd hp hf pre hm
        (fun u h => ⟨(hu.given u h).1, (hu.given u h).2.1⟩) (hp ▸ hu.same) ⟨hp ▸ hu.unique, hp ▸ hu.free⟩
      cases newDocument_det hn (h N (Nat.le_refl _))
      rw [D.later (by rw [hp]; rfl) ⟨hp ▸ hu.unique, hp ▸ hu.free⟩ post.ok ha hs] at he
      subst hp
      exact fun m hm => D.verdict ⟨hu.unique, hu.free⟩ rfl hi hfa he hm
    | _ => subst hp; cases hf
  refine ⟨⟨fun hv => ⟨n, fun m hm => (main m hm).1 hv⟩, ?_⟩, ⟨fun hv => ⟨n, fun m hm h' => ?_⟩, ?_⟩⟩
  · rintro ⟨m, hm⟩
    exact (main (max n m) (Nat.le_max_left _ _)).2 (hm _ (Nat.le_max_right _ _))
  · rw [(main m hm).2 h'] at hv
    cases hv
  · rintro ⟨m, hm⟩
    cases hv : r.valid with
    | false => rfl
    | true => exact absurd ((main (max n m) (Nat.le_max_left _ _)).1 hv) (hm _ (Nat.le_max_right _ _))

omit hE hO hL hw hd hp hf hu hm in
/-- C62: the two verdicts exclude each other. -/
theorem C62_not_both {lib : UriLib} {env : Env} {enabled : String → Bool} {L : Links} {p : Site} {v : Value}
    (h : DAccepts lib env enabled L p v) : ¬ DRejects lib env enabled L p v := by
  rintro ⟨m, hm⟩
  obtain ⟨n, hn⟩ := h
  exact hm (max n m) (Nat.le_max_right _ _) (hn _ (Nat.le_max_left _ _))

/-! ## C63: evaluation ends -/

/-- C63: evaluation of a constructed document ends, for all values, if no cycle of references applies to
one and the same instance. -/
theorem C63_ends {rank : Site → Nat} {bound : Nat} (hr : DRanked E.lib (links E.lib [p]) rank bound)
    {n : Nat} {w' : World} {s : Nat} (h : newDocument E n cid uri metaUri doc w = some (w', .ok s))
    {w'' : World} (ha : CAfter w' w'') {cid' : String} (hs : Settled E cid cid' p w' w'') (env : Env) (i : Inst) :
    ∃ k r, evaluate (w''.store E cid') env k s i = some r := by
  have pre : SPre w cid uri none := .doc hw.ok fun u h => (hu.given u h).2.2
  have post := newDocument_spec hE hd pre h
  obtain ⟨rfl, h2, -, -, -, h6, -⟩ := post.ret _ rfl
  cases doc with
  | bool b =>
    obtain ⟨r, hr, -⟩ := evaluate_bool (env := env) (bool_later (E := E) post.ok h2 h6 ha cid') 0 i
    exact ⟨1, r, hr⟩
  | obj kvs =>
    obtain ⟨N, w1, w2, h', -, D⟩ := newDocument_local hE hO hL hd hp hf pre hm
      (fun u h => ⟨(hu.given u h).1, (hu.given u h).2.1⟩) (hp ▸ hu.same) ⟨hp ▸ hu.unique, hp ▸ hu.free⟩
    cases newDocument_det h (h' N (Nat.le_refl _))
    have later := @DocDone.later _ _ _ _ _ _ _ _ _ _ D (by rw [hp]; rfl) ⟨hp ▸ hu.unique, hp ▸ hu.free⟩ post.ok ha _ hs
    subst hp
    obtain ⟨k, r, hk⟩ := (D.storeReads ⟨hu.unique, hu.free⟩ rfl).halts ⟨_, _, [], D.mem, D.made.corr⟩ hr env i
    exact ⟨k, r, by rw [later]; exact hk⟩
  | _ => subst hp; cases hf

/-- C63: in particular, if there are no references. -/
theorem C63_no_references (hr : ∀ ks q v, Stands E.lib p ks q → ¬ q.Has "$ref" v ∧ ¬ q.Has "$dynamicRef" v ∧
    ¬ q.Has "$recursiveRef" v)
    {n : Nat} {w' : World} {s : Nat} (h : newDocument E n cid uri metaUri doc w = some (w', .ok s))
    {w'' : World} (ha : CAfter w' w'') (cid' : String) (env : Env) (i : Inst) :
    ∃ k r, evaluate (w''.store E cid') env k s i = some r :=
  C63_ends hE hO hL hw hd hp hf hu hm (ranked_size hr) h ha (.inl fun ks q v h => (hr ks q v h).2.1) env i

end

/-- A reference that consists of a fragment, which stands for a JSON pointer, refers to the subschema at
the end of the pointer in the schema resource that the reference is in. -/
theorem refer_pointer {lib : UriLib} (hL : SiteLib lib) {roots : List Site} {i : Nat} {ls ks : List String} {p q : Site}
    (hp : Resource lib roots i ls p) (ha : Solid lib p.base) (hn : p.base.fragment = none) {f : String}
    (hf : PctText f.toList (textOf ks)) (hs : Stands lib p ks q) : (links lib roots).refer p.base ("#" ++ f) q :=
  ⟨p.base.withFragment f, .inr ⟨hL.relative f hf.fragment, hL.resolve f _ hf.fragment ha hn⟩,
    .pointer hp (noFragment_of (u := p.base) hn).symm hf hs⟩

/-- A reference that consists of a fragment, which is the name of an anchor. -/
theorem refer_anchor {lib : UriLib} (hL : SiteLib lib) {roots : List Site} {i : Nat} {ks : List String} {q : Site}
    (hp : Located lib roots i ks q) (ha : Solid lib q.base) (hn : q.base.fragment = none) {f : String}
    (hf : AnchorText f) (hq : Anchored q f) : (links lib roots).refer q.base ("#" ++ f) q :=
  ⟨q.base.withFragment f, .inr ⟨hL.relative f hf.pct.fragment, hL.resolve f _ hf.pct.fragment ha hn⟩,
    .anchor hp (noFragment_of (u := q.base) hn).symm rfl hq⟩

end

/-! ## A concrete case: lists -/

/-- The concrete documents are of 2020-12, unless it is said otherwise. -/
abbrev Toy.in2020 : Dialect := .d2020

attribute [local instance] Toy.in2020

theorem Toy.one20 {k : String} {u : Value} (h : OneKey k u) : k ∈ oneKeys := h.elim id fun h => by cases h.1
theorem Toy.many20 {k : String} (h : ManyKey k) : k ∈ manyKeys := h.elim id fun h => by cases h

/-- Texts that need no encoding. -/
theorem Toy.pct_plain (l : List Char) (h : ∀ c ∈ l, Unreserved c ∨ SubDelim c ∨ c ∈ [':', '@', '/', '?']) :
    PctText l l := by
  induction l with
  | nil => exact .nil
  | cons c l ih => exact .plain (h c (by simp)) (ih fun d hd => h d (by simp [hd]))

namespace Toy

/-- A list: an object whose member `next`, if there is one, is a list. -/
def listSchema : Value :=
  .obj [("type", .str "object"), ("properties", .obj [("next", .obj [("$ref", .str "#/$defs/l")])])]

/-- The document that defines lists and refers to the definition. -/
def listMembers : List (String × Value) := [("$defs", .obj [("l", listSchema)]), ("$ref", .str "#/$defs/l")]

def listDoc : Value := .obj listMembers

/-- The base URI. -/
def uuid0 : Uri := ⟨"h:urn:uuid:", none⟩

def listSite : Site := ⟨uuid0, listDoc⟩

def listLinks : Links := links Toy.lib [listSite]

theorem list_site : listSite = docSite Toy.lib .empty none listDoc := rfl

theorem list_at {ks : List String} {q : Site} (h : Stands Toy.lib listSite ks q) :
    (ks = [] ∧ q = listSite) ∨ (ks = ["$defs", "l"] ∧ q = ⟨uuid0, listSchema⟩) ∨
      (ks = ["$defs", "l", "properties", "next"] ∧ q = ⟨uuid0, .obj [("$ref", .str "#/$defs/l")]⟩) := by
  have := subsites_all h (n := 9) (l := [([], listSite), (["$defs", "l"], ⟨uuid0, listSchema⟩),
    (["$defs", "l", "properties", "next"], ⟨uuid0, .obj [("$ref", .str "#/$defs/l")]⟩)]) rfl
  simpa only [List.mem_cons, List.not_mem_nil, or_false, Prod.mk.injEq] using this

theorem list_pct : PctText "/$defs/l".toList (textOf ["$defs", "l"]) := by
  have e : textOf ["$defs", "l"] = "/$defs/l".toList := rfl
  rw [e]
  refine pct_plain _ ?_
  have e : "/$defs/l".toList = ['/', '$', 'd', 'e', 'f', 's', '/', 'l'] := rfl
  rw [e]
  simp only [Unreserved, SubDelim, List.forall_mem_cons, List.not_mem_nil, false_imp_iff, implies_true, and_true]
  refine ⟨?_, ?_, ?_, ?_, ?_, ?_, ?_, ?_⟩ <;> decide

theorem list_refers : listLinks.refer uuid0 "#/$defs/l" ⟨uuid0, listSchema⟩ :=
  refer_pointer (i := 0) (p := listSite) (f := "/$defs/l") site_lib ⟨⟨listSite, rfl, .here⟩, .inl rfl⟩ (by decide) rfl list_pct
    (.named (k := "$defs") (ms := [("l", listSchema)]) (by decide) (List.mem_cons_self) (List.mem_cons_self) .here)

theorem list_sites {q : Site} (h : listLinks.sites q) : q = listSite ∨ q = ⟨uuid0, listSchema⟩ ∨
    q = ⟨uuid0, .obj [("$ref", .str "#/$defs/l")]⟩ := by
  obtain ⟨ks, h⟩ := links_one.1 h
  rcases list_at h with ⟨-, h⟩ | ⟨-, h⟩ | ⟨-, h⟩
  · exact .inl h
  · exact .inr (.inl h)
  · exact .inr (.inr h)

theorem list_located {i : Nat} {ks : List String} {q : Site} (h : Located Toy.lib [listSite] i ks q) :
    Stands Toy.lib listSite ks q := by
  obtain ⟨p, h1, h2⟩ := h
  cases i with
  | zero => cases h1; exact h2
  | succ i => cases h1

/-- What members the schemas have. -/
theorem list_has {q : Site} (h : listLinks.sites q) {k : String} {v : Value} (hk : q.Has k v) :
    (k = "$ref" ∧ v = .str "#/$defs/l") ∨ k ∈ ["$defs", "type", "properties"] := by
  obtain ⟨kvs, e, hm⟩ := hk
  rcases list_sites h with rfl | rfl | rfl <;> cases e <;>
    simp only [listMembers, List.mem_cons, List.not_mem_nil, or_false, Prod.mk.injEq] at hm
  · rcases hm with ⟨rfl, rfl⟩ | ⟨rfl, rfl⟩ <;> simp
  · rcases hm with ⟨rfl, rfl⟩ | ⟨rfl, rfl⟩ <;> simp
  · obtain ⟨rfl, rfl⟩ := hm; simp

theorem list_refers_only {q : Site} (h : listLinks.refer uuid0 "#/$defs/l" q) : q = ⟨uuid0, listSchema⟩ := by
  obtain ⟨r, h1, h2⟩ := h
  have hr : r = uuid0.withFragment "/$defs/l" := refUri_unique h1
    (.inr ⟨by decide +kernel, by rfl⟩)
  subst hr
  cases h2 with
  | @pointer i ks p ks' _ hp hb hf hs =>
    have hp0 : p = listSite := by
      obtain ⟨h1, h | ⟨t, h⟩⟩ := hp
      · subst h
        cases list_located h1
        rfl
      · rcases list_has (links_one.2 ⟨_, list_located h1⟩) h with ⟨h, -⟩ | h
        · exact absurd h (by decide)
        · exact absurd h (by decide)
    subst hp0
    have hk : ks' = ["$defs", "l"] := textOf_inj (hf.unquote.symm.trans list_pct.unquote)
    subst hk
    rcases list_at hs with ⟨h, -⟩ | ⟨-, h⟩ | ⟨h, -⟩
    · cases h
    · exact h
    · cases h
  | anchor h1 _ _ h4 =>
    rcases h4 with h4 | ⟨-, h4⟩ <;> rcases list_has (links_one.2 ⟨_, list_located h1⟩) h4 with ⟨h, -⟩ | h <;>
      exact absurd h (by decide)

theorem list_doc : DocForm Toy.env (some meta2020) listLinks listSite := by
  refine .obj (.inl ⟨rfl, rfl⟩) ofDialect_shipped fun kv hkv => ?_
  have href : MemberForm Toy.env listLinks uuid0 "$ref" (.str "#/$defs/l") := .ref list_refers
  simp only [listMembers, List.mem_cons, List.not_mem_nil, or_false] at hkv
  rcases hkv with rfl | rfl
  · refine .inr (.named (by decide) fun kv hkv => ?_)
    simp only [List.mem_cons, List.not_mem_nil, or_false] at hkv
    subst hkv
    refine .obj fun kv hkv => ?_
    simp only [List.mem_cons, List.not_mem_nil, or_false] at hkv
    rcases hkv with rfl | rfl
    · exact .assert .type (fun re h => by cases h)
    · refine .named (by decide) fun kv hkv => ?_
      simp only [List.mem_cons, List.not_mem_nil, or_false] at hkv
      subst hkv
      refine .obj fun kv hkv => ?_
      simp only [List.mem_cons, List.not_mem_nil, or_false] at hkv
      subst hkv
      exact href
  · exact .inr href

/-- Two of the three schemas refer in place to the third one. -/
def listRank (q : Site) : Nat := if (dlookup "$ref" q.members).isSome then 1 else 0

theorem list_static (ks : List String) (q : Site) (v : Value) (h : Stands Toy.lib listSite ks q) :
    ¬ q.Has "$dynamicRef" v := by
  intro hv
  rcases list_has (links_one.2 ⟨_, h⟩) hv with ⟨h, -⟩ | h <;> exact absurd h (by decide)

theorem list_ranked : DRanked Toy.lib listLinks listRank 2 where
  lt p _ := by unfold listRank; split <;> omega
  decreases p q h hd := by
    have key : ∀ {k u}, p.Has k u → k ∈ ["allOf", "anyOf", "oneOf", "if", "then", "else", "not", "dependentSchemas"] →
        False := by
      intro k u hm hk
      rcases list_has h hm with ⟨rfl, -⟩ | h
      · exact absurd hk (by decide)
      · simp only [List.mem_cons, List.not_mem_nil, or_false] at h
        rcases h with rfl | rfl | rfl <;> exact absurd hk (by decide)
    rcases hd with hd | ⟨t, hm, rfl⟩
    · cases hd with
      | many hk hm _ => exact (key hm (by rcases hk with rfl | rfl | rfl <;> decide)).elim
      | one hk hm => exact (key hm (by rcases hk with rfl | rfl | rfl <;> decide)).elim
      | dependentSchemas hm _ => exact (key hm (by decide)).elim
      | @ref k s sc _ hm _ ht =>
        obtain ⟨ks, hst⟩ := links_one.1 h
        rcases ht.key with rfl | rfl | rfl
        rotate_right
        · rcases list_has h hm with ⟨h', -⟩ | h' <;> exact absurd h' (by decide)
        · rcases list_has h hm with ⟨-, hs⟩ | h'
          · cases hs
            have hb : p.base = uuid0 := by rcases list_sites h with rfl | rfl | rfl <;> rfl
            have hq : q = ⟨uuid0, listSchema⟩ := by
              rw [hb] at ht
              generalize hkey : "$ref" = key at ht
              cases ht with
              | ref hr => exact list_refers_only hr
              | static _ _ => exact absurd hkey (by decide)
              | dynamic _ _ _ => exact absurd hkey (by decide)
              | recursive h => cases h
            subst hq
            have h1 : listRank p = 1 := by
              rcases list_sites h with rfl | rfl | rfl
              · rfl
              · rw [Site.has_iff] at hm; simp [Site.members, listSchema] at hm
              · rfl
            rw [h1]; decide
          · exact absurd h' (by decide)
        · exact absurd hm (list_static _ _ _ hst)
    · exact (key hm (by decide)).elim

theorem list_faithful (env : Env) (v : Value) : DFaithful Toy.lib listLinks listSite env v where
  quiet_not p q hw hm := by
    exfalso
    have : ∀ x, ¬ DWatched Toy.lib listLinks x := by
      intro x hx
      induction hx with
      | here h hm hk =>
        rcases list_has h hm with ⟨rfl, -⟩ | h
        · rcases hk with hk | hk <;> exact absurd hk (by decide)
        · rcases hk with rfl | rfl <;> exact absurd h (by decide)
      | sub _ _ ih => exact ih
    exact this _ hw
  dyn _ p sc s f u hp hm _ _ := by
    obtain ⟨ks, h⟩ := links_one.1 (links_scope (links_one.2 ⟨[], .here⟩) hp p List.mem_cons_self)
    exact absurd hm (list_static _ _ _ h)
  items_true h := by cases h
  items_array h := by cases h
  mult p m n h hm := by
    rcases list_has h hm with ⟨h, -⟩ | h <;> exact absurd h (by decide)

/-- What is not a list is rejected, however deep the reason is. -/
theorem list_rejects (env : Env) : DRejects Toy.lib env Toy.env.fmtEnabled listLinks listSite
    (.obj [("next", .obj [("next", .null)])]) := by
  refine ⟨0, fun m _ h => ?_⟩
  let M := fun k => dunroll Toy.lib env Toy.env.fmtEnabled listLinks k
  have viaRef : ∀ k sc kvs v, ("$ref", .str "#/$defs/l") ∈ kvs → (M (k + 1)).valid sc ⟨uuid0, .obj kvs⟩ v →
      ∃ sc', (M k).valid sc' ⟨uuid0, listSchema⟩ v := fun k sc kvs v hm h => ⟨_, h.ref _ _ _ hm (.ref list_refers)⟩
  have next : ∀ k sc x, (M k).valid sc ⟨uuid0, listSchema⟩ (.obj [("next", x)]) →
      ∃ j sc', (M j).valid sc' ⟨uuid0, listSchema⟩ x := by
    intro k sc x h
    cases k with
    | zero => exact h.elim
    | succ k =>
      have h1 := h.properties [("next", .obj [("$ref", .str "#/$defs/l")])] (by simp) "next" _ x
        (List.mem_singleton.2 rfl) (by simp [members])
      cases k with
      | zero => exact h1.elim
      | succ k => exact ⟨k, viaRef k _ _ _ (List.mem_singleton.2 rfl) h1⟩
  cases m with
  | zero => exact h
  | succ m =>
    obtain ⟨sc, h⟩ := viaRef m _ listMembers _ (by simp [listMembers]) h
    obtain ⟨j, sc, hj⟩ := next _ _ _ h
    obtain ⟨k, sc, hk⟩ := next _ _ _ hj
    cases k with
    | zero => exact hk
    | succ k =>
      obtain ⟨t, ht, ht'⟩ := hk.assert "type" (.str "object") _ (by simp) .type
      simp only [List.mem_cons, List.not_mem_nil, or_false] at ht
      subst ht
      obtain ⟨kvs, h⟩ := ht'
      cases h

theorem list_new : NewUri Toy.env .empty "" none listDoc where
  given u h := by cases h
  same h := of_decide_eq_true h
  unique := uniqueNames_check (n := 9) (by decide +kernel)
  free v ks q _ _ := rfl

end Toy

/-- The document is constructed, evaluation ends for all values, and what is not a list is found
invalid. -/
example : ∃ n w' s, newDocument Toy.env n "" none (some ⟨"m20", none⟩) Toy.listDoc .empty = some (w', .ok s) ∧
    (∀ env i, ∃ k r, evaluate (w'.store Toy.env "") env k s i = some r) ∧
    ∀ env k r, evaluate (w'.store Toy.env "") env k s ⟨[], .obj [("next", .obj [("next", .null)])]⟩ = some r →
      r.valid = false := by
  have hwf : Toy.listDoc.WF := Toy.wf_spec _ (by decide +kernel)
  have hm : ∀ m, some meta2020 = some m → ∃ u, some (Uri.mk "m20" none) = some u ∧ Toy.env.metaschema u = .ok m :=
    fun m h => ⟨_, rfl, by cases h; rfl⟩
  obtain ⟨N, w', s, h⟩ := C59_local Toy.env_ok (fun _ _ h => Toy.ordered h) Toy.site_lib .start hwf Toy.list_site
    Toy.list_doc Toy.list_new hm
  refine ⟨N, w', s, h N (Nat.le_refl _), fun env i => ?_, fun env k r he => ?_⟩
  · exact C63_ends Toy.env_ok (fun _ _ h => Toy.ordered h) Toy.site_lib .start hwf Toy.list_site Toy.list_doc Toy.list_new
      hm Toy.list_ranked (h N (Nat.le_refl _)) .refl (.inl Toy.list_static) env i
  · exact (C62_verdict_partial Toy.env_ok (fun _ _ h => Toy.ordered h) Toy.site_lib .start hwf Toy.list_site Toy.list_doc
      Toy.list_new hm (h N (Nat.le_refl _)) .refl (.inl Toy.list_static) (Toy.wf_spec _ (by decide +kernel))
      (Toy.list_faithful env _) he).2.2 (Toy.list_rejects env)

/-- The hypotheses of C61 can hold: after lists are defined, a document that fails to construct changes
nothing. -/
example : ∃ w s w' e, CHistory w ∧ w.isSchema s = true ∧ Static (w.store Toy.env "") s ∧ CAfter w w' ∧
    newDocument Toy.env 9 "" none (some ⟨"m20", none⟩) (.obj [("", .null)]) w = some (w', .error e) ∧
    w'.heap.next ≠ w.heap.next ∧
    ∀ env n i, evaluate (w'.store Toy.env "") env n s i = evaluate (w.store Toy.env "") env n s i := by
  have h : ((Toy.build Toy.listDoc).bind fun p => (newDocument Toy.env 9 "" none (some ⟨"m20", none⟩)
      (.obj [("", .null)]) p.1).map fun q => Toy.gives p.2 0 &&
        (match q.2 with | .error .indexError => true | _ => false) && decide (q.1.heap.next ≠ p.1.heap.next)) = some true := by
    decide +kernel
  obtain ⟨⟨w, r⟩, hb, h⟩ := Option.bind_eq_some_iff.1 h
  obtain ⟨⟨w', r'⟩, hb', h⟩ := Option.map_eq_some_iff.1 h
  simp only [Bool.and_eq_true, Toy.gives_iff, decide_eq_true_eq] at h
  obtain ⟨⟨rfl, h2⟩, h3⟩ := h
  have hwf : Toy.listDoc.WF := Toy.wf_spec _ (by decide +kernel)
  have hw : CHistory w := .new .start Toy.env_ok hwf (fun u hu => by cases hu) hb
  have hwf' : (Value.obj [("", .null)]).WF := Toy.wf_spec _ (by decide +kernel)
  have ha : CAfter w w' := .new .refl Toy.env_ok hwf' (fun u hu => by cases hu) hb'
  obtain ⟨N, w1, w2, hN, -, D⟩ := newDocument_local Toy.env_ok (fun _ _ h => Toy.ordered h) Toy.site_lib hwf
    Toy.list_site Toy.list_doc (cid := "") (metaUri := some ⟨"m20", none⟩) (.doc wok_empty fun u h => by cases h)
    (fun m h => ⟨_, rfl, by cases h; rfl⟩) (fun u h => by cases h) Toy.list_new.same ⟨Toy.list_new.unique, Toy.list_new.free⟩
  cases newDocument_det hb (hN N (Nat.le_refl _))
  have hs : w.isSchema 0 = true := (C55_value Toy.env_ok .start hwf (fun u h => by cases h) hb).2.1
  have hst : Static (w.store Toy.env "") 0 := D.static rfl ⟨Toy.list_new.unique, Toy.list_new.free⟩ Toy.list_static
  cases r' with
  | ok t => cases h2
  | error e =>
    exact ⟨w, 0, w', e, hw, hs, hst, ha, hb', h3, fun env n i => C61_later_partial hw ha hs hst _ env n i⟩

/-! ## C61 and dynamic references -/

/-- A resource with a dynamic anchor, to which members `x` refer dynamically. -/
def Toy.dynDoc : Value := .obj [("$id", .str "h/r"), ("$dynamicAnchor", .str "a"),
  ("properties", .obj [("x", .obj [("$dynamicRef", .str "#a")])])]

/-- Another resource with the same identifier and the same dynamic anchor. -/
def Toy.usurper : Value := .obj [("$id", .str "h/r"), ("$dynamicAnchor", .str "a"), ("type", .str "string")]

def Toy.anyEnv : Env := ⟨fun _ _ => false, id, fun _ => [], fun _ _ => true⟩

def Toy.verdictIn (w : World) : Option Bool :=
  (evaluate (w.store Toy.env "") Toy.anyEnv 9 0 ⟨[], .obj [("x", .null)]⟩).map RNode.valid

/-- C61: a resource that is constructed later and has the same `$id` takes the place of the first one in
the cache, and dynamic references of the first one lead there: the verdict on a value changes. -/
theorem C61_usurped : ∃ w w' r, CHistory w ∧ CAfter w w' ∧
    newDocument Toy.env 9 "" none (some ⟨"m20", none⟩) Toy.usurper w = some (w', r) ∧
    Toy.verdictIn w = some true ∧ Toy.verdictIn w' = some false := by
  have h : ((Toy.build Toy.dynDoc).bind fun p => (newDocument Toy.env 9 "" none (some ⟨"m20", none⟩)
      Toy.usurper p.1).map fun q => decide (Toy.verdictIn p.1 = some true ∧ Toy.verdictIn q.1 = some false)) =
      some true := by decide +kernel
  obtain ⟨⟨w, r⟩, hb, h⟩ := Option.bind_eq_some_iff.1 h
  obtain ⟨⟨w', r'⟩, hb', h⟩ := Option.map_eq_some_iff.1 h
  have h := of_decide_eq_true h
  exact ⟨w, w', r', .new .start Toy.env_ok (Toy.wf_spec _ (by decide +kernel)) (fun u hu => by cases hu) hb,
    .new .refl Toy.env_ok (Toy.wf_spec _ (by decide +kernel)) (fun u hu => by cases hu) hb', hb', h.1, h.2⟩

/-- C62: a boolean document constructs, with every metaschema, and evaluation of it, by whatever catalog, says so of
every value. -/
theorem C62_boolean [dia : Dialect] (E : CEnv) (w : World) (cid : String) (uri metaUri : Option Uri) (b : Bool) :
    ∃ w', (∀ n, newDocument E (n + 1) cid uri metaUri (.bool b) w = some (w', .ok w.heap.next)) ∧
      ∀ E' cid' env n i, ∃ r, evaluate (w'.store E' cid') env (n + 1) w.heap.next i = some r ∧ r.valid = b := by
  have key : ∃ w', boolSchema cid uri metaUri none none b w = some (w', .ok w.heap.next) ∧
      w'.keywords w.heap.next = [] ∧ w'.heap.data w.heap.next = .bool b := by
    refine ⟨_, rfl, ?_, ?_⟩
    · simp [World.keywords]
    · simp [JHeap.setData, JHeap.data, JHeap.alter, JHeap.push]
  obtain ⟨w', h1, h2, h3⟩ := key
  refine ⟨w', fun n => ?_, fun E' cid' env n i => ?_⟩
  · simp only [newDocument, newDocWith, newSchema, Bind.bind, M.andThen, h1, resolveReferences, M.read, h2, M.each]
    rfl
  · have : (w'.store E' cid').obj w.heap.next = .bool b := by
      simp [World.store, World.schemaObj, h3]
    simp only [evaluate, evalSchema, evalBody, this]
    cases b <;> exact ⟨_, rfl, rfl⟩

end Jschon
