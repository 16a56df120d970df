import Verif.Proof.Suite
import Verif.Proof.NamesCheck
import Verif.Props.Document

/-!
# C72: documents that refer to each other
-/

namespace Jschon
open Spec

section
/- The dialect of the documents. -/
variable [dia : Dialect]
variable {E : CEnv} (hE : CEnvOk E) (hO : ∀ u m, E.metaschema u = .ok m → Ordered m) (hL : SiteLib E.lib)
  {cid : String} {docs : List (Nat × Site)} {w : World} (hS : Suite E cid docs w)
include hE hO hL hS

/-- C72: a document of 2019-09 or 2020-12 in which references refer to schemas of documents constructed before or to its
own constructs. -/
theorem C72_constructs {uri metaUri : Option Uri} {kvs : List (String × Value)} {p : Site}
    (hA : Addition E w cid docs uri metaUri kvs p) : ∃ (N : Nat) (w' : World) (s : Nat),
      (∀ n, N ≤ n → newDocument E n cid uri metaUri (.obj kvs) w = some (w', .ok s)) ∧
      Suite E cid (docs ++ [(s, p)]) w' := by
  obtain ⟨N, w', h, -⟩ := (hS.stock hE hO hL).add hE hO hL hA
  exact ⟨N, w', _, h, .add hS hA (h N (Nat.le_refl _))⟩

/-- C72 (`_partial`: documents are as `DocForm` says, and the points at which evaluation differs from the
specification are excluded by `DFaithful`): if evaluation of a value ends, then it says whether the value is
valid against the document as it was written, where references lead to whatever they refer to in all
documents. -/
theorem C72_verdict_partial {s : Nat} {p : Site} (hp : (s, p) ∈ docs) {env : Env} {i : Inst} {n : Nat} {r : RNode}
    (hi : i.value.WF) (hfa : DFaithful E.lib (links E.lib (docs.map (·.2))) p env i.value)
    (he : evaluate (w.store E cid) env n s i = some r) :
    (r.valid = true ↔ DAccepts E.lib env E.fmtEnabled (links E.lib (docs.map (·.2))) p i.value) ∧
    (r.valid = false ↔ DRejects E.lib env E.fmtEnabled (links E.lib (docs.map (·.2))) p i.value) := by
  have main := fun m (hm : n ≤ m) => (hS.stock hE hO hL).verdict hp hi hfa he hm
  refine ⟨⟨fun hv => ⟨n, fun m hm => (main m hm).1 hv⟩, ?_⟩, ⟨fun hv => ⟨n, fun m hm h' => ?_⟩, ?_⟩⟩
  · rintro ⟨m, hm⟩
    exact (main (max n m) (Nat.le_max_left _ _)).2 (hm _ (Nat.le_max_right _ _))
  · rw [(main m hm).2 h'] at hv
    cases hv
  · rintro ⟨m, hm⟩
    cases hv : r.valid with
    | false => rfl
    | true => exact absurd ((main (max n m) (Nat.le_max_left _ _)).1 hv) (hm _ (Nat.le_max_right _ _))

/-- C72: evaluation ends, for all values, if no cycle of references, of whatever documents, applies to one and
the same instance. -/
theorem C72_ends {s : Nat} {p : Site} (hp : (s, p) ∈ docs) {rank : Site → Nat} {bound : Nat}
    (hr : DRanked E.lib (links E.lib (docs.map (·.2))) rank bound) (env : Env) (i : Inst) :
    ∃ k r, evaluate (w.store E cid) env k s i = some r :=
  (hS.stock hE hO hL).storeReads.halts ((hS.stock hE hO hL).made hp) hr env i

/-- C72: a document constructed later changes nothing about earlier ones, not even their dynamic references. -/
theorem C72_earlier {uri metaUri : Option Uri} {kvs : List (String × Value)} {p : Site}
    (hA : Addition E w cid docs uri metaUri kvs p) {n : Nat} {w' : World} {s : Nat}
    (hn : newDocument E n cid uri metaUri (.obj kvs) w = some (w', .ok s)) {t : Nat} {q : Site} (hq : (t, q) ∈ docs)
    (env : Env) (k : Nat) (i : Inst) :
    evaluate (w'.store E cid) env k t i = evaluate (w.store E cid) env k t i := by
  have S := hS.stock hE hO hL
  obtain ⟨N, w1, h, -, hc⟩ := S.add hE hO hL hA
  cases newDocument_det hn (h N (Nat.le_refl _))
  exact S.later (.new .refl hE hA.wf (fun u h => (hA.given u h).2.2) hn) hc hq env k i

end

attribute [local instance] Toy.in2020

/-! ## A concrete case: a list of anything, and a list of strings -/

namespace Toy

/-- Lists of what is called `item`. -/
def anyMembers : List (String × Value) :=
  [("$id", .str "h/list"), ("items", .obj [("$dynamicRef", .str "#item")]),
   ("$defs", .obj [("item", .obj [("$dynamicAnchor", .str "item")])])]

/-- The same lists, where `item` is a string. -/
def strMembers : List (String × Value) :=
  [("$id", .str "h/strings"), ("$ref", .str "list"),
   ("$defs", .obj [("item", .obj [("$dynamicAnchor", .str "item"), ("type", .str "string")])])]

def anyBase : Uri := ⟨"h/list", none⟩
def strBase : Uri := ⟨"h/strings", none⟩
def anySite : Site := ⟨anyBase, .obj anyMembers⟩
def strSite : Site := ⟨strBase, .obj strMembers⟩
def eachSite : Site := ⟨anyBase, .obj [("$dynamicRef", .str "#item")]⟩
def anyItem : Site := ⟨anyBase, .obj [("$dynamicAnchor", .str "item")]⟩
def strItem : Site := ⟨strBase, .obj [("$dynamicAnchor", .str "item"), ("type", .str "string")]⟩

def oneList : Links := links Toy.lib [anySite]
def twoLists : Links := links Toy.lib [anySite, strSite]

/-- The base URI and the keywords. -/
def tag (q : Site) : Uri × List String := (q.base, dkeys q.members)

theorem apart {p q : Site} (h : tag p ≠ tag q) : p ≠ q := fun e => h (e ▸ rfl)

theorem two_located {i : Nat} {ks : List String} {q : Site} (h : Located Toy.lib [anySite, strSite] i ks q) :
    (i, ks, q) ∈ [(0, [], anySite), (0, ["items"], eachSite), (0, ["$defs", "item"], anyItem),
      (1, [], strSite), (1, ["$defs", "item"], strItem)] :=
  allSites_all (n := 9) rfl h

theorem two_sites {q : Site} (h : twoLists.sites q) :
    q = anySite ∨ q = eachSite ∨ q = anyItem ∨ q = strSite ∨ q = strItem := by
  obtain ⟨i, ks, h⟩ := h
  have := two_located h
  simp only [List.mem_cons, List.not_mem_nil, or_false, Prod.mk.injEq] at this
  rcases this with ⟨-, -, h⟩ | ⟨-, -, h⟩ | ⟨-, -, h⟩ | ⟨-, -, h⟩ | ⟨-, -, h⟩
  · exact .inl h
  · exact .inr (.inl h)
  · exact .inr (.inr (.inl h))
  · exact .inr (.inr (.inr (.inl h)))
  · exact .inr (.inr (.inr (.inr h)))

theorem two_unique : UniqueNames Toy.lib [anySite, strSite] := uniqueNames_check (n := 9) (by decide +kernel)
theorem one_unique : UniqueNames Toy.lib [anySite] := uniqueNames_check (n := 9) (by decide +kernel)

theorem item_text : AnchorText "item" := ⟨'i', ['t', 'e', 'm'], rfl, by decide, by decide⟩

theorem at_anyItem {roots : List Site} : Located Toy.lib (anySite :: roots) 0 ["$defs", "item"] anyItem :=
  ⟨anySite, rfl, .named (k := "$defs") (ms := [("item", .obj [("$dynamicAnchor", .str "item")])]) (by decide)
    (by simp [anyMembers]) List.mem_cons_self .here⟩

theorem at_strItem : Located Toy.lib [anySite, strSite] 1 ["$defs", "item"] strItem :=
  ⟨strSite, rfl, .named (k := "$defs")
    (ms := [("item", .obj [("$dynamicAnchor", .str "item"), ("type", .str "string")])]) (by decide)
    (by simp [strMembers]) List.mem_cons_self .here⟩

theorem refers_item {roots : List Site} : (links Toy.lib (anySite :: roots)).refer anyBase "#item" anyItem :=
  refer_anchor (q := anyItem) (f := "item") site_lib at_anyItem (by decide) rfl item_text
    (.inr ⟨rfl, _, rfl, List.mem_cons_self⟩)

theorem refers_list : twoLists.refer strBase "list" anySite :=
  ⟨anyBase, .inr ⟨by decide, by rfl⟩, .pointer (i := 0) (ks := []) (p := anySite) (ks' := [])
    ⟨⟨anySite, rfl, .here⟩, .inl rfl⟩ rfl .nil .here⟩

theorem two_refer {b : Uri} {t : String} {q q' : Site} (h : twoLists.refer b t q) (h' : twoLists.refer b t q') : q = q' := by
  refine refer_unique (fun p hp => ?_) two_unique (fun i ks q f hl hf => ?_) h h'
  · simp only [List.mem_cons, List.not_mem_nil, or_false] at hp
    rcases hp with rfl | rfl <;> exact wf_spec _ (by decide +kernel)
  · have := hf.mem
    have he : f = "item" := by
      have hs := two_sites ⟨i, ks, hl⟩
      rcases hs with rfl | rfl | rfl | rfl | rfl <;>
        simpa [Site.anchors, Site.members, anySite, eachSite, anyItem, strSite, strItem, anyMembers, strMembers] using this
    rw [he]; exact item_text

theorem any_member {L : Links} (hr : L.refer anyBase "#item" anyItem) : DocForm Toy.env (some meta2020) L anySite := by
  refine .obj (.inl ⟨rfl, rfl⟩) ofDialect_shipped fun kv hkv => .inr ?_
  simp only [anyMembers, List.mem_cons, List.not_mem_nil, or_false] at hkv
  rcases hkv with rfl | rfl | rfl
  · exact .id (idText (by rfl))
  · refine .one (.inl (by decide)) (.obj fun kv hkv => ?_)
    simp only [List.mem_cons, List.not_mem_nil, or_false] at hkv
    subst hkv
    exact .dynamicRef rfl hr rfl
  · refine .named (by decide) fun kv hkv => ?_
    simp only [List.mem_cons, List.not_mem_nil, or_false] at hkv
    subst hkv
    refine .obj fun kv hkv => ?_
    simp only [List.mem_cons, List.not_mem_nil, or_false] at hkv
    subst hkv
    exact .anchor (.inr ⟨rfl, rfl⟩) item_text

theorem str_member : DocForm Toy.env (some meta2020) twoLists strSite := by
  refine .obj (.inl ⟨rfl, rfl⟩) ofDialect_shipped fun kv hkv => .inr ?_
  simp only [strMembers, List.mem_cons, List.not_mem_nil, or_false] at hkv
  rcases hkv with rfl | rfl | rfl
  · exact .id (idText (by rfl))
  · exact .ref refers_list
  · refine .named (by decide) fun kv hkv => ?_
    simp only [List.mem_cons, List.not_mem_nil, or_false] at hkv
    subst hkv
    refine .obj fun kv hkv => ?_
    simp only [List.mem_cons, List.not_mem_nil, or_false] at hkv
    rcases hkv with rfl | rfl
    · exact .anchor (.inr ⟨rfl, rfl⟩) item_text
    · exact .assert .type (fun re h => by cases h)

/-- What members the schemas have. -/
theorem two_has {q : Site} (h : twoLists.sites q) {k : String} {v : Value} (hk : q.Has k v) :
    (k = "$ref" ∧ v = .str "list" ∧ q = strSite) ∨ (k = "$dynamicRef" ∧ v = .str "#item" ∧ q = eachSite) ∨
      (k ∈ ["$id", "$defs", "items"] ∧ (q = anySite ∨ q = strSite)) ∨
      (k ∈ ["$dynamicAnchor", "type"] ∧ (q = anyItem ∨ q = strItem)) := by
  obtain ⟨kvs, e, hm⟩ := hk
  rcases two_sites h with rfl | rfl | rfl | rfl | rfl <;> cases e <;>
    simp only [anyMembers, strMembers, List.mem_cons, List.not_mem_nil, or_false, Prod.mk.injEq] at hm
  · rcases hm with ⟨rfl, rfl⟩ | ⟨rfl, rfl⟩ | ⟨rfl, rfl⟩ <;> simp
  · obtain ⟨rfl, rfl⟩ := hm; simp
  · obtain ⟨rfl, rfl⟩ := hm; simp
  · rcases hm with ⟨rfl, rfl⟩ | ⟨rfl, rfl⟩ | ⟨rfl, rfl⟩ <;> simp
  · rcases hm with ⟨rfl, rfl⟩ | ⟨rfl, rfl⟩ <;> simp

theorem two_never {q : Site} (h : twoLists.sites q) {k : String} {v : Value}
    (hn : k ∉ ["$ref", "$dynamicRef", "$id", "$defs", "items", "$dynamicAnchor", "type"]) : ¬ q.Has k v := by
  intro hk
  refine hn ?_
  rcases two_has h hk with ⟨rfl, -⟩ | ⟨rfl, -⟩ | ⟨h, -⟩ | ⟨h, -⟩
  · decide
  · decide
  · simp only [List.mem_cons, List.not_mem_nil, or_false] at h ⊢
    rcases h with rfl | rfl | rfl <;> decide
  · simp only [List.mem_cons, List.not_mem_nil, or_false] at h ⊢
    rcases h with rfl | rfl <;> decide

/-- Which schemas have the dynamic anchor. -/
theorem two_dyn {b : Uri} {f : String} {q : Site} (h : twoLists.dyn b f q) : q = anyItem ∨ q = strItem := by
  obtain ⟨h1, -, -, h3⟩ := h
  rcases two_has h1 h3 with ⟨h, -⟩ | ⟨h, -⟩ | ⟨h, -⟩ | ⟨-, h⟩
  · exact absurd h (by decide)
  · exact absurd h (by decide)
  · exact absurd h (by decide)
  · exact h

theorem dyn_any : twoLists.dyn anyBase "item" anyItem := ⟨⟨0, _, at_anyItem⟩, rfl, rfl, _, rfl, List.mem_cons_self⟩
theorem dyn_str : twoLists.dyn strBase "item" strItem := ⟨⟨1, _, at_strItem⟩, rfl, rfl, _, rfl, List.mem_cons_self⟩

theorem item_dynamic : Dynamic Toy.lib "#item" "item" anyItem := ⟨by rfl, _, rfl, List.mem_cons_self⟩

/-- Where the references lead. -/
theorem two_target {sc : List Site} {p q : Site} {k s : String} (h : twoLists.sites p) (hm : p.Has k (.str s))
    (ht : DTarget Toy.lib twoLists sc p.base k s q) :
    (k = "$ref" ∧ p = strSite ∧ q = anySite) ∨
    (k = "$dynamicRef" ∧ p = eachSite ∧ DOutermost twoLists "item" sc anyItem q) := by
  rcases ht.key with rfl | rfl | rfl
  rotate_right
  · exact absurd hm (two_never h (by decide))
  · rcases two_has h hm with ⟨-, hs, rfl⟩ | ⟨h, -⟩ | ⟨h, -⟩ | ⟨h, -⟩
    · cases hs
      left
      generalize hkey : "$ref" = key at ht
      cases ht with
      | ref hr => exact ⟨hkey.symm, rfl, two_refer hr refers_list⟩
      | static _ _ => exact absurd hkey (by decide)
      | dynamic _ _ _ => exact absurd hkey (by decide)
      | recursive h => cases h
    · exact absurd h (by decide)
    · exact absurd h (by decide)
    · exact absurd h (by decide)
  · rcases two_has h hm with ⟨h, -⟩ | ⟨-, hs, rfl⟩ | ⟨h, -⟩ | ⟨h, -⟩
    · exact absurd h (by decide)
    · cases hs
      right
      generalize hkey : "$dynamicRef" = key at ht
      cases ht with
      | ref hr => exact absurd hkey (by decide)
      | static _ hr hn =>
        cases two_refer hr refers_item
        exact absurd item_dynamic (hn _)
      | dynamic _ hr hd ho =>
        cases two_refer hr refers_item
        have := hd.1.symm.trans item_dynamic.1
        cases this
        exact ⟨rfl, rfl, ho⟩
      | recursive h => cases h
    · exact absurd h (by decide)
    · exact absurd h (by decide)

/-- What is applied: the list, then each item, then what `item` is. -/
theorem two_applies {sc : List Site} {p q : Site} (h : twoLists.sites p) (ha : DApplies Toy.lib twoLists sc p q) :
    (p = strSite ∧ q = anySite) ∨ (p = anySite ∧ q = eachSite) ∨
      (p = eachSite ∧ DOutermost twoLists "item" sc anyItem q) := by
  cases ha with
  | @one k t hk hm =>
    replace hk := one20 hk
    have hi : k = "items" := by
      rcases two_has h hm with ⟨rfl, -⟩ | ⟨rfl, -⟩ | ⟨h, -⟩ | ⟨h, -⟩
      · exact absurd hk (by decide)
      · exact absurd hk (by decide)
      · simp only [List.mem_cons, List.not_mem_nil, or_false] at h
        rcases h with rfl | rfl | rfl
        · exact absurd hk (by decide)
        · exact absurd hk (by decide)
        · rfl
      · simp only [List.mem_cons, List.not_mem_nil, or_false] at h
        rcases h with rfl | rfl <;> exact absurd hk (by decide)
    subst hi
    rw [Site.has_iff] at hm
    rcases two_sites h with rfl | rfl | rfl | rfl | rfl <;>
      simp [Site.members, anySite, eachSite, anyItem, strSite, strItem, anyMembers, strMembers] at hm
    subst hm
    exact .inr (.inl ⟨rfl, rfl⟩)
  | many hk hm _ =>
    replace hk := many20 hk
    refine absurd hm (two_never h fun h => ?_)
    simp only [List.mem_cons, List.not_mem_nil, or_false] at h
    rcases h with rfl | rfl | rfl | rfl | rfl | rfl | rfl <;> exact absurd hk (by decide)
  | named hk hd hm _ =>
    refine absurd hm (two_never h fun h => ?_)
    simp only [List.mem_cons, List.not_mem_nil, or_false] at h
    rcases h with rfl | rfl | rfl | rfl | rfl | rfl | rfl <;> first | exact hd rfl | exact absurd hk (by decide)
  | ref hm ht =>
    rcases two_target h hm ht with ⟨-, h1, h2⟩ | ⟨-, h1, h2⟩
    · exact .inl ⟨h1, h2⟩
    · exact .inr (.inr ⟨h1, h2⟩)

theorem two_item {sc : List Site} {q : Site} (h : DOutermost twoLists "item" sc anyItem q) : q = anyItem ∨ q = strItem := by
  cases h with
  | found _ hd _ => exact two_dyn hd
  | none _ => exact .inl rfl

theorem two_at {q : Site} (h : q ∈ [anySite, eachSite, anyItem, strSite, strItem]) : twoLists.sites q := by
  simp only [List.mem_cons, List.not_mem_nil, or_false] at h
  rcases h with rfl | rfl | rfl | rfl | rfl
  · exact ⟨0, [], anySite, rfl, .here⟩
  · exact ⟨0, ["items"], anySite, rfl, .one (.inl (by decide)) (List.mem_cons_of_mem _ List.mem_cons_self) .here⟩
  · exact ⟨0, _, at_anyItem⟩
  · exact ⟨1, [], strSite, rfl, .here⟩
  · exact ⟨1, _, at_strItem⟩

/-- The dynamic scopes. -/
theorem two_scope {root : Site} (hr : root = anySite ∨ root = strSite) {sc : List Site}
    (h : DScope Toy.lib twoLists root sc) : sc = [strSite] ∨ sc = [anySite] ∨ sc = [anySite, strSite] ∨
      sc = [eachSite, anySite] ∨ sc = [eachSite, anySite, strSite] ∨
      ∃ q r, (q = anyItem ∨ q = strItem) ∧ sc = q :: r := by
  induction h with
  | root => rcases hr with rfl | rfl <;> simp
  | @step p sc q h ha ih =>
    have hp : twoLists.sites p := links_scope (two_at (by rcases hr with rfl | rfl <;> simp)) h p List.mem_cons_self
    rcases two_applies hp ha with ⟨rfl, rfl⟩ | ⟨rfl, rfl⟩ | ⟨rfl, ho⟩
    · rcases ih with h | h | h | h | h | ⟨q, r, h1, h⟩ <;> injection h with e1 e2
      · subst e2; simp
      · exact absurd e1 (apart (by decide))
      · exact absurd e1 (apart (by decide))
      · exact absurd e1 (apart (by decide))
      · exact absurd e1 (apart (by decide))
      · subst e1; rcases h1 with h1 | h1 <;> exact absurd h1 (apart (by decide))
    · rcases ih with h | h | h | h | h | ⟨q, r, h1, h⟩ <;> injection h with e1 e2
      · exact absurd e1 (apart (by decide))
      · subst e2; simp
      · subst e2; simp
      · exact absurd e1 (apart (by decide))
      · exact absurd e1 (apart (by decide))
      · subst e1; rcases h1 with h1 | h1 <;> exact absurd h1 (apart (by decide))
    · exact .inr (.inr (.inr (.inr (.inr ⟨_, _, two_item ho, rfl⟩))))

theorem two_faithful {root : Site} (hr : root = anySite ∨ root = strSite) (env : Env) (v : Value) :
    DFaithful Toy.lib twoLists root env v where
  quiet_not p q hw hm := by
    exfalso
    have : ∀ x, ¬ DWatched Toy.lib twoLists x := by
      intro x hx
      induction hx with
      | here h hm hk => rcases hk with rfl | rfl <;> exact two_never h (by decide) hm
      | sub _ _ ih => exact ih
    exact this _ hw
  dyn _ p sc s f u hp hm _ hd := by
    have hs : twoLists.sites p := links_scope (two_at (by rcases hr with rfl | rfl <;> simp)) hp p List.mem_cons_self
    have hpe : p = eachSite := by
      rcases two_has hs hm with ⟨h, -⟩ | ⟨-, -, h⟩ | ⟨h, -⟩ | ⟨h, -⟩
      · exact absurd h (by decide)
      · exact h
      · exact absurd h (by decide)
      · exact absurd h (by decide)
    subst hpe
    intro x y z hl hx _ _
    have hsc := two_scope hr hp
    have h3 : eachSite :: sc = [eachSite, anySite] ∨ eachSite :: sc = [eachSite, anySite, strSite] := by
      rcases hsc with h | h | h | h | h | ⟨q, r, h1, h⟩
      · injection h with e; exact absurd e (apart (by decide))
      · injection h with e; exact absurd e (apart (by decide))
      · injection h with e; exact absurd e (apart (by decide))
      · exact .inl h
      · exact .inr h
      · injection h with e; subst e; rcases h1 with h1 | h1 <;> exact absurd h1 (apart (by decide))
    rcases h3 with h | h <;> rw [h] at hl
    · have := hl.length_le
      simp at this
    · have := hl.eq_of_length rfl
      injection this with e1 e2
      injection e2 with e2 e3
      injection e3 with e3
      subst e1; subst e3
      exact absurd hx (by decide)
  items_true h := by cases h
  items_array h := by cases h
  mult p m n h hm := absurd hm (two_never h (by decide))

/-- References are applied in place. -/
def twoRank (q : Site) : Nat := if (dlookup "$ref" q.members).isSome || (dlookup "$dynamicRef" q.members).isSome then 1 else 0

theorem two_ranked : DRanked Toy.lib twoLists twoRank 2 where
  lt p _ := by unfold twoRank; split <;> omega
  decreases p q h hd := by
    rcases hd with hd | ⟨t, hm, rfl⟩
    · cases hd with
      | many hk hm _ => rcases hk with rfl | rfl | rfl <;> exact absurd hm (two_never h (by decide))
      | one hk hm => rcases hk with rfl | rfl | rfl <;> exact absurd hm (two_never h (by decide))
      | dependentSchemas hm _ => exact absurd hm (two_never h (by decide))
      | ref hm _ ht =>
        rcases two_target h hm ht with ⟨-, rfl, rfl⟩ | ⟨-, rfl, h2⟩
        · decide
        · rcases two_item h2 with rfl | rfl <;> decide
    · exact absurd hm (two_never h (by decide))

/-- In the list of strings, what is not a string is rejected. -/
theorem two_rejects (env : Env) : DRejects Toy.lib env Toy.env.fmtEnabled twoLists strSite (.arr [.str "", .null]) := by
  refine ⟨0, fun m _ h => ?_⟩
  cases m with
  | zero => exact h
  | succ m =>
    have h1 := h.ref "$ref" "list" anySite (by simp [strMembers]) (.ref refers_list)
    cases m with
    | zero => exact h1
    | succ m =>
      have h2 := h1.items rfl (.obj [("$dynamicRef", .str "#item")]) (by simp [anyMembers]) 1 .null rfl
        (fun ss h => by simp [anyMembers] at h)
      cases m with
      | zero => exact h2
      | succ m =>
        have h3 := h2.ref "$dynamicRef" "#item" strItem List.mem_cons_self
          (.dynamic rfl refers_item item_dynamic (.found (inner := [eachSite, anySite]) (outer := []) rfl dyn_str
            (fun _ h => by cases h)))
        cases m with
        | zero => exact h3
        | succ m =>
          obtain ⟨t, ht, ht'⟩ := h3.assert "type" (.str "string") _ (by simp) .type
          simp only [List.mem_cons, List.not_mem_nil, or_false] at ht
          subst ht
          obtain ⟨kvs, h⟩ := ht'
          cases h

/-- Of some keywords, the others demand nothing. -/
theorem holds_few {env : Env} {enabled : String → Bool} {M : DMeaning} {sc : List Site} {sub : Value → Site}
    {target : String → String → Site → Prop} {kvs : List (String × Value)} {v : Value}
    (hk : ∀ k w, (k, w) ∈ kvs → k ∈ ["$id", "$defs", "$dynamicAnchor", "items", "$dynamicRef"])
    (hi : ∀ t, ("items", t) ∈ kvs → ∀ (k : Nat) x, (elems v)[k]? = some x → DBeyond kvs k → M.valid sc (sub t) x)
    (hr : ∀ k s u, (k, .str s) ∈ kvs → target k s u → M.valid sc u v) :
    DHolds env enabled M sc sub target kvs v where
  assert k w a h hw := by
    have h1 := hk _ _ h
    have h2 := written_name hw
    simp only [List.mem_cons, List.not_mem_nil, or_false] at h1
    rcases h1 with rfl | rfl | rfl | rfl | rfl <;> exact absurd h2 (by decide)
  allOf _ h := absurd (hk _ _ h) (by decide)
  anyOf _ h := absurd (hk _ _ h) (by decide)
  oneOf _ h := absurd (hk _ _ h) (by decide)
  not_ _ h := absurd (hk _ _ h) (by decide)
  then_ _ _ h := absurd (hk _ _ h) (by decide)
  else_ _ _ h := absurd (hk _ _ h) (by decide)
  dependentSchemas _ h := absurd (hk _ _ h) (by decide)
  properties _ h := absurd (hk _ _ h) (by decide)
  patternProperties _ h := absurd (hk _ _ h) (by decide)
  additionalProperties _ h := absurd (hk _ _ h) (by decide)
  propertyNames _ h := absurd (hk _ _ h) (by decide)
  unevaluatedProperties _ h := absurd (hk _ _ h) (by decide)
  prefixItems _ _ h := absurd (hk _ _ h) (by decide)
  items _ := hi
  itemsAll h := by cases h
  itemsEach h := by cases h
  additionalItems h := by cases h
  contains _ h := absurd (hk _ _ h) (by decide)
  minContains _ _ h := absurd (hk _ _ h) (by decide)
  maxContains _ _ h := absurd (hk _ _ h) (by decide)
  unevaluatedItems _ h := absurd (hk _ _ h) (by decide)
  ref := hr
  format _ h := absurd (hk _ _ h) (by decide)

/-- In the list of anything, everything is accepted. -/
theorem two_accepts (env : Env) (v : Value) : DAccepts Toy.lib env Toy.env.fmtEnabled twoLists anySite v := by
  refine ⟨3, fun m hm => ?_⟩
  obtain ⟨m, rfl⟩ : ∃ k, m = k + 3 := ⟨m - 3, by omega⟩
  have few : ∀ {q k w}, q = anySite ∨ q = eachSite ∨ q = anyItem → q.Has k w →
      k ∈ ["$id", "$defs", "$dynamicAnchor", "items", "$dynamicRef"] := by
    intro q k w hq h
    rw [Site.has_iff] at h
    rcases hq with rfl | rfl | rfl <;> simp [Site.members, anySite, eachSite, anyItem, anyMembers] at h
    · rcases h with ⟨rfl, -⟩ | ⟨rfl, -⟩ | ⟨rfl, -⟩ <;> decide
    · obtain ⟨rfl, -⟩ := h; decide
    · obtain ⟨rfl, -⟩ := h; decide
  refine holds_few (fun k w h => few (q := anySite) (.inl rfl) ⟨_, rfl, h⟩) (fun t ht i x _ _ => ?_) (fun k s u h ht => ?_)
  · have ht' : t = .obj [("$dynamicRef", .str "#item")] := by simpa [anyMembers] using ht
    subst ht'
    refine holds_few (fun k w h => few (q := eachSite) (.inr (.inl rfl)) ⟨_, rfl, h⟩)
      (fun t h => by simp at h) (fun k s u h ht => ?_)
    rcases two_target (p := eachSite) (two_at (by simp)) ⟨_, rfl, h⟩ ht with ⟨-, h, -⟩ | ⟨-, -, ho⟩
    · exact absurd h (apart (by decide))
    · have hu : u = anyItem := by
        cases ho with
        | found e hd _ =>
          rcases two_dyn hd with h | h
          · exact h
          · subst h
            have hb := hd.2.1
            rename_i inner outer p _
            have hp : p ∈ [eachSite, anySite] := by
              show p ∈ (eachSite :: [anySite] : List Site)
              have : p ∈ inner ++ p :: outer := by simp
              rw [← e] at this
              exact this
            simp only [List.mem_cons, List.not_mem_nil, or_false] at hp
            rcases hp with rfl | rfl <;> exact absurd hb (by decide)
        | none _ => rfl
      subst hu
      refine holds_few (fun k w h => few (q := anyItem) (.inr (.inr rfl)) ⟨_, rfl, h⟩)
        (fun t h => by simp at h) (fun k s u h ht => ?_)
      rcases two_target (p := anyItem) (two_at (by simp)) ⟨_, rfl, h⟩ ht with ⟨-, h, -⟩ | ⟨-, h, -⟩ <;>
      exact absurd h (apart (by decide))
  · rcases two_target (p := anySite) (two_at (by simp)) ⟨_, rfl, h⟩ ht with ⟨-, h, -⟩ | ⟨-, h, -⟩ <;>
      exact absurd h (apart (by decide))

/-- A world in which nothing is cached but schemas with other base URIs. -/
theorem any_addition : Addition Toy.env .empty "" [] none (some ⟨"m20", none⟩) anyMembers anySite where
  wf := wf_spec _ (by decide +kernel)
  site := rfl
  form := ⟨some meta2020, any_member refers_item, fun m h => ⟨_, rfl, by cases h; rfl⟩⟩
  given u h := by cases h
  same h := of_decide_eq_true h
  unique := one_unique
  free v ks q _ _ := rfl

end Toy

/-- Both documents are constructed, and evaluation ends for all values; the list of strings rejects a list
with something else, though this is what it refers to in the other document, which still accepts
everything. -/
example : ∃ w s t, Suite Toy.env "" [(s, Toy.anySite), (t, Toy.strSite)] w ∧
    (∀ env i, ∃ k r, evaluate (w.store Toy.env "") env k t i = some r) ∧
    (∀ env k r, evaluate (w.store Toy.env "") env k t ⟨[], .arr [.str "", .null]⟩ = some r → r.valid = false) ∧
    (∀ env k r, evaluate (w.store Toy.env "") env k s ⟨[], .arr [.str "", .null]⟩ = some r → r.valid = true) := by
  obtain ⟨N, w1, s, h1, S1⟩ := C72_constructs Toy.env_ok (fun _ _ h => Toy.ordered h) Toy.site_lib (.start .start)
    Toy.any_addition
  have hb := h1 _ (Nat.le_max_left N 9)
  -- nothing is cached with the names of the second document
  have hc : ∀ v, v.noFragment = Toy.strBase → cacheGet w1.caches "" v = none := by
    have hk : ((newDocument Toy.env 9 "" none (some ⟨"m20", none⟩) (.obj Toy.anyMembers) .empty).any fun p =>
        p.1.caches.all fun c => c.2.all fun e => decide (e.1.noFragment ≠ Toy.strBase)) = true := by decide +kernel
    obtain ⟨⟨w', r'⟩, hr, hk⟩ := (Option.any_eq_true _ _).1 hk
    cases newDocument_det hr hb
    intro v hv
    cases hg : cacheGet w1.caches "" v with
    | none => rfl
    | some y =>
      obtain ⟨c, h3, h4⟩ := Option.bind_eq_some_iff.1 hg
      simp only [List.all_eq_true, decide_eq_true_eq] at hk
      exact absurd hv (hk _ (alookup_mem h3) _ (alookup_mem h4))
  have A2 : Addition Toy.env w1 "" [(s, Toy.anySite)] none (some ⟨"m20", none⟩) Toy.strMembers Toy.strSite :=
    { wf := Toy.wf_spec _ (by decide +kernel)
      site := rfl
      form := ⟨some meta2020, Toy.str_member, fun m h => ⟨_, rfl, by cases h; rfl⟩⟩
      given := fun u h => by cases h
      same := fun h => of_decide_eq_true h
      unique := Toy.two_unique
      free := fun v ks q h e => by
        refine hc v (e.symm.trans ?_)
        have := Toy.two_located (i := 1) ⟨_, rfl, h⟩
        simp only [List.mem_cons, List.not_mem_nil, or_false, Prod.mk.injEq] at this
        rcases this with ⟨h, -⟩ | ⟨h, -⟩ | ⟨h, -⟩ | ⟨-, -, rfl⟩ | ⟨-, -, rfl⟩
        · cases h
        · cases h
        · cases h
        · rfl
        · rfl }
  obtain ⟨N2, w2, t, h2, S2⟩ := C72_constructs Toy.env_ok (fun _ _ h => Toy.ordered h) Toy.site_lib S1 A2
  refine ⟨w2, s, t, S2, fun env i => ?_, fun env k r he => ?_, fun env k r he => ?_⟩
  · exact C72_ends Toy.env_ok (fun _ _ h => Toy.ordered h) Toy.site_lib S2 (p := Toy.strSite) (by simp) Toy.two_ranked env i
  · exact (C72_verdict_partial Toy.env_ok (fun _ _ h => Toy.ordered h) Toy.site_lib S2 (by simp)
      (Toy.wf_spec _ (by decide +kernel)) (Toy.two_faithful (.inr rfl) env _) he).2.2 (Toy.two_rejects env)
  · exact (C72_verdict_partial Toy.env_ok (fun _ _ h => Toy.ordered h) Toy.site_lib S2 (by simp)
      (Toy.wf_spec _ (by decide +kernel)) (Toy.two_faithful (.inl rfl) env _) he).1.2 (Toy.two_accepts env _)

end Jschon
