import Verif.Props.Suite

/-!
# Several documents of 2019-09

The theorems on suites of documents hold for both dialects.  Their concrete case for 2019-09: a tree, and
a tree of which every node has data, which extends the first by `$recursiveAnchor`.
-/

namespace Jschon
open Spec

abbrev Toy.in2019 : Dialect := .d2019
attribute [local instance] Toy.in2019

namespace Toy

/-- A node with at most one child. -/
def treeMembers : List (String × Value) :=
  [("$id", .str "h/tree"), ("$recursiveAnchor", .bool true), ("type", .str "object"),
   ("properties", .obj [("children", .obj [("items", .arr [.obj [("$recursiveRef", .str "#")]]),
     ("additionalItems", .bool false)])])]

/-- A node that has data, as have all nodes below it. -/
def strictMembers : List (String × Value) :=
  [("$id", .str "h/strict"), ("$recursiveAnchor", .bool true), ("$ref", .str "tree"),
   ("required", .arr [.str "data"])]

def treeBase : Uri := ⟨"h/tree", none⟩
def strictBase : Uri := ⟨"h/strict", none⟩
def treeSite : Site := ⟨treeBase, .obj treeMembers⟩
def strictSite : Site := ⟨strictBase, .obj strictMembers⟩
def kidsSite : Site := ⟨treeBase, .obj [("items", .arr [.obj [("$recursiveRef", .str "#")]]),
  ("additionalItems", .bool false)]⟩
def kidSite : Site := ⟨treeBase, .obj [("$recursiveRef", .str "#")]⟩
def noSite : Site := ⟨treeBase, .bool false⟩

def oneTree : Links := links Toy.lib [treeSite]
def twoTrees : Links := links Toy.lib [treeSite, strictSite]

theorem trees_located {i : Nat} {ks : List String} {q : Site} (h : Located Toy.lib [treeSite, strictSite] i ks q) :
    (i, ks, q) ∈ [(0, [], treeSite), (0, ["properties", "children"], kidsSite),
      (0, ["properties", "children", "items", "0"], kidSite),
      (0, ["properties", "children", "additionalItems"], noSite), (1, [], strictSite)] :=
  allSites_all (n := 9) rfl h

theorem trees_sites {q : Site} (h : twoTrees.sites q) :
    q = treeSite ∨ q = kidsSite ∨ q = kidSite ∨ q = noSite ∨ q = strictSite := by
  obtain ⟨i, ks, h⟩ := h
  have := trees_located h
  simp only [List.mem_cons, List.not_mem_nil, or_false, Prod.mk.injEq] at this
  rcases this with ⟨-, -, h⟩ | ⟨-, -, h⟩ | ⟨-, -, h⟩ | ⟨-, -, h⟩ | ⟨-, -, h⟩
  · exact .inl h
  · exact .inr (.inl h)
  · exact .inr (.inr (.inl h))
  · exact .inr (.inr (.inr (.inl h)))
  · exact .inr (.inr (.inr (.inr h)))

theorem trees_unique : UniqueNames Toy.lib [treeSite, strictSite] := uniqueNames_check (n := 9) (by decide +kernel)
theorem tree_unique : UniqueNames Toy.lib [treeSite] := uniqueNames_check (n := 9) (by decide +kernel)

theorem refers_self {roots : List Site} : (links Toy.lib (treeSite :: roots)).refer treeBase "#" treeSite :=
  ⟨⟨"h/tree", some ""⟩, .inr ⟨by decide, by rfl⟩, .pointer (i := 0) (ks := []) (p := treeSite) (ks' := [])
    ⟨⟨treeSite, rfl, .here⟩, .inl rfl⟩ rfl .nil .here⟩

theorem refers_tree : twoTrees.refer strictBase "tree" treeSite :=
  ⟨treeBase, .inr ⟨by decide, by rfl⟩, .pointer (i := 0) (ks := []) (p := treeSite) (ks' := [])
    ⟨⟨treeSite, rfl, .here⟩, .inl rfl⟩ rfl .nil .here⟩

theorem trees_refer {b : Uri} {t : String} {q q' : Site} (h : twoTrees.refer b t q) (h' : twoTrees.refer b t q') : q = q' := by
  refine refer_unique (fun p hp => ?_) trees_unique (fun i ks q f hl hf => ?_) h h'
  · simp only [List.mem_cons, List.not_mem_nil, or_false] at hp
    rcases hp with rfl | rfl <;> exact wf_spec _ (by decide +kernel)
  · exfalso
    have := hf.mem
    rcases trees_sites ⟨i, ks, hl⟩ with rfl | rfl | rfl | rfl | rfl <;>
      simp [Site.anchors, Site.members, treeSite, kidsSite, kidSite, noSite, strictSite, treeMembers, strictMembers] at this

theorem tree_member {L : Links} (hr : L.refer treeBase "#" treeSite) : DocForm Toy.env (some meta2019) L treeSite := by
  refine .obj (.inl ⟨rfl, rfl⟩) ofDialect_shipped fun kv hkv => .inr ?_
  simp only [treeMembers, List.mem_cons, List.not_mem_nil, or_false] at hkv
  rcases hkv with rfl | rfl | rfl | rfl
  · exact .id (idText (by rfl))
  · exact .recursiveAnchor rfl
  · exact .assert .type (fun re h => by cases h)
  · refine .named (by decide) fun kv hkv => ?_
    simp only [List.mem_cons, List.not_mem_nil, or_false] at hkv
    subst hkv
    refine .obj fun kv hkv => ?_
    simp only [List.mem_cons, List.not_mem_nil, or_false] at hkv
    rcases hkv with rfl | rfl
    · refine .many (.inr (by decide)) fun u hu => ?_
      simp only [List.mem_cons, List.not_mem_nil, or_false] at hu
      subst hu
      refine .obj fun kv hkv => ?_
      simp only [List.mem_cons, List.not_mem_nil, or_false] at hkv
      subst hkv
      exact .recursiveRef rfl hr
    · exact .one (.inl (by decide)) .bool

theorem strict_member : DocForm Toy.env (some meta2019) twoTrees strictSite := by
  refine .obj (.inl ⟨rfl, rfl⟩) ofDialect_shipped fun kv hkv => .inr ?_
  simp only [strictMembers, List.mem_cons, List.not_mem_nil, or_false] at hkv
  rcases hkv with rfl | rfl | rfl | rfl
  · exact .id (idText (by rfl))
  · exact .recursiveAnchor rfl
  · exact .ref refers_tree
  · exact .assert (.required (ns := ["data"])) (fun re h => by cases h)

/-- What members the schemas have. -/
theorem trees_has {q : Site} (h : twoTrees.sites q) {k : String} {v : Value} (hk : q.Has k v) :
    (k = "$ref" ∧ v = .str "tree" ∧ q = strictSite) ∨ (k = "$recursiveRef" ∧ v = .str "#" ∧ q = kidSite) ∨
      (k ∈ ["$id", "$recursiveAnchor", "type", "required", "properties"] ∧ (q = treeSite ∨ q = strictSite)) ∨
      (k ∈ ["items", "additionalItems"] ∧ q = kidsSite) := by
  obtain ⟨kvs, e, hm⟩ := hk
  rcases trees_sites h with rfl | rfl | rfl | rfl | rfl <;> cases e <;>
    simp only [treeMembers, strictMembers, List.mem_cons, List.not_mem_nil, or_false, Prod.mk.injEq] at hm
  · rcases hm with ⟨rfl, rfl⟩ | ⟨rfl, rfl⟩ | ⟨rfl, rfl⟩ | ⟨rfl, rfl⟩ <;> simp
  · rcases hm with ⟨rfl, rfl⟩ | ⟨rfl, rfl⟩ <;> simp
  · obtain ⟨rfl, rfl⟩ := hm; simp
  · rcases hm with ⟨rfl, rfl⟩ | ⟨rfl, rfl⟩ | ⟨rfl, rfl⟩ | ⟨rfl, rfl⟩ <;> simp

theorem trees_never {q : Site} (h : twoTrees.sites q) {k : String} {v : Value}
    (hn : k ∉ ["$ref", "$recursiveRef", "$id", "$recursiveAnchor", "type", "required", "properties", "items",
      "additionalItems"]) : ¬ q.Has k v := by
  intro hk
  refine hn ?_
  rcases trees_has h hk with ⟨rfl, -⟩ | ⟨rfl, -⟩ | ⟨h, -⟩ | ⟨h, -⟩
  · decide
  · decide
  · simp only [List.mem_cons, List.not_mem_nil, or_false] at h ⊢
    rcases h with rfl | rfl | rfl | rfl | rfl <;> decide
  · simp only [List.mem_cons, List.not_mem_nil, or_false] at h ⊢
    rcases h with rfl | rfl <;> decide

theorem tree_recursive : treeSite.Recursive := ⟨_, rfl, by simp [treeMembers]⟩
theorem strict_recursive : strictSite.Recursive := ⟨_, rfl, by simp [strictMembers]⟩

theorem trees_recursive {q : Site} (h : twoTrees.sites q) (hr : q.Recursive) : q = treeSite ∨ q = strictSite := by
  rcases trees_has h hr with ⟨h, -⟩ | ⟨h, -⟩ | ⟨-, h⟩ | ⟨h, -⟩
  · exact absurd h (by decide)
  · exact absurd h (by decide)
  · exact h
  · exact absurd h (by decide)

/-- Where the references lead. -/
theorem trees_target {sc : List Site} {p q : Site} {k s : String} (h : twoTrees.sites p) (hm : p.Has k (.str s))
    (ht : DTarget Toy.lib twoTrees sc p.base k s q) :
    (k = "$ref" ∧ p = strictSite ∧ q = treeSite) ∨
    (k = "$recursiveRef" ∧ p = kidSite ∧ DOutermostRec sc treeSite q) := by
  rcases ht.key with rfl | rfl | rfl
  · rcases trees_has h hm with ⟨-, hs, rfl⟩ | ⟨h, -⟩ | ⟨h, -⟩ | ⟨h, -⟩
    · cases hs
      left
      generalize hkey : "$ref" = key at ht
      cases ht with
      | ref hr => exact ⟨hkey.symm, rfl, trees_refer hr refers_tree⟩
      | static h => cases h
      | dynamic h => cases h
      | recursive _ _ _ => exact absurd hkey (by decide)
    · exact absurd h (by decide)
    · exact absurd h (by decide)
    · exact absurd h (by decide)
  · exact absurd hm (trees_never h (by decide))
  · rcases trees_has h hm with ⟨h, -⟩ | ⟨-, hs, rfl⟩ | ⟨h, -⟩ | ⟨h, -⟩
    · exact absurd h (by decide)
    · cases hs
      right
      generalize hkey : "$recursiveRef" = key at ht
      cases ht with
      | ref hr => exact absurd hkey (by decide)
      | static h => cases h
      | dynamic h => cases h
      | recursive _ hr ho =>
        cases trees_refer hr refers_self
        exact ⟨rfl, rfl, ho⟩
    · exact absurd h (by decide)
    · exact absurd h (by decide)

theorem trees_faithful (root : Site) (env : Env) (v : Value) : DFaithful Toy.lib twoTrees root env v := by
  have hw : ∀ x, ¬ DWatched Toy.lib twoTrees x := by
    intro x hx
    induction hx with
    | here h hm hk => rcases hk with rfl | rfl <;> exact trees_never h (by decide) hm
    | sub _ _ ih => exact ih
  exact {
    quiet_not := fun p q h => absurd h (hw p)
    dyn := fun h => by cases h
    items_true := fun _ p h => absurd h (hw p)
    items_array := fun _ p ss h hm he => by
      subst he
      obtain ⟨kvs, e, hm⟩ := hm
      rcases trees_sites h with rfl | rfl | rfl | rfl | rfl <;> cases e <;>
        simp [treeMembers, strictMembers] at hm
    mult := fun p m n h hm => absurd hm (trees_never h (by decide)) }

/-- References are applied in place. -/
def treeRank (q : Site) : Nat :=
  if (dlookup "$recursiveRef" q.members).isSome then 2 else if (dlookup "$ref" q.members).isSome then 1 else 0

theorem trees_ranked : DRanked Toy.lib twoTrees treeRank 3 where
  lt p _ := by
    unfold treeRank
    split
    · omega
    · split <;> omega
  decreases p q h hd := by
    rcases hd with hd | ⟨t, hm, rfl⟩
    · cases hd with
      | many hk hm _ => rcases hk with rfl | rfl | rfl <;> exact absurd hm (trees_never h (by decide))
      | one hk hm => rcases hk with rfl | rfl | rfl <;> exact absurd hm (trees_never h (by decide))
      | dependentSchemas hm _ => exact absurd hm (trees_never h (by decide))
      | ref hm hsc ht =>
        rcases trees_target h hm ht with ⟨-, rfl, rfl⟩ | ⟨-, rfl, h2⟩
        · decide
        · have : q = treeSite ∨ q = strictSite := by
            cases h2 with
            | static h => exact absurd tree_recursive h
            | found _ e hr _ => exact trees_recursive (hsc _ (by rw [e]; simp)) hr
            | none => exact .inl rfl
          rcases this with rfl | rfl <;> decide
    · exact absurd hm (trees_never h (by decide))

/-- A node with data, and a child without. -/
def plainTree : Value := .obj [("data", .null), ("children", .arr [.obj []])]

/-- A node with two children. -/
def wideTree : Value := .obj [("children", .arr [.obj [], .obj []])]

/-- The stricter document rejects a tree of which one node has no data. -/
theorem strict_rejects (env : Env) : DRejects Toy.lib env Toy.env.fmtEnabled twoTrees strictSite plainTree := by
  refine ⟨0, fun m _ h => ?_⟩
  cases m with
  | zero => exact h
  | succ m =>
  have h1 := h.ref "$ref" "tree" treeSite (by simp [strictMembers]) (.ref refers_tree)
  cases m with
  | zero => exact h1
  | succ m =>
  have h2 := h1.properties [("children", kidsSite.schema)] (by simp [treeMembers, kidsSite]) "children" _ (.arr [.obj []]) List.mem_cons_self
    (by simp [plainTree, Spec.members])
  cases m with
  | zero => exact h2
  | succ m =>
  have h3 := h2.itemsEach rfl [.obj [("$recursiveRef", .str "#")]] (by simp) 0 _ _ rfl rfl
  cases m with
  | zero => exact h3
  | succ m =>
  have h4 := h3.ref "$recursiveRef" "#" strictSite List.mem_cons_self
    (.recursive rfl refers_self (.found (inner := [kidSite, kidsSite, treeSite]) (outer := []) tree_recursive rfl
      strict_recursive (fun _ h => by cases h)))
  cases m with
  | zero => exact h4
  | succ m =>
  have h5 := h4.assert "required" (.arr [.str "data"]) _ (by simp [strictMembers]) (.required (ns := ["data"]))
  obtain ⟨x, hx⟩ := h5 [] rfl "data" (by simp)
  cases hx

/-- The tree has at most one child. -/
theorem tree_rejects (env : Env) : DRejects Toy.lib env Toy.env.fmtEnabled twoTrees treeSite wideTree := by
  refine ⟨0, fun m _ h => ?_⟩
  cases m with
  | zero => exact h
  | succ m =>
  have h2 := h.properties [("children", kidsSite.schema)] (by simp [treeMembers, kidsSite]) "children" _ (.arr [.obj [], .obj []]) List.mem_cons_self
    (by simp [wideTree, Spec.members])
  cases m with
  | zero => exact h2
  | succ m =>
  have h3 := h2.additionalItems rfl (.bool false) [.obj [("$recursiveRef", .str "#")]] (by simp) (by simp) 1 _ rfl
    (by simp)
  cases m with
  | zero => exact h3
  | succ m => exact Bool.noConfusion h3

/-- Of some keywords, the others demand nothing. -/
theorem holds_few9 {env : Env} {enabled : String → Bool} {M : DMeaning} {sc : List Site} {sub : Value → Site}
    {target : String → String → Site → Prop} {kvs : List (String × Value)} {v : Value}
    (hk : ∀ k w, (k, w) ∈ kvs → k ∈ ["$id", "$recursiveAnchor", "type", "properties", "items", "additionalItems",
      "$recursiveRef"])
    (ha : ∀ w a, ("type", w) ∈ kvs → WrittenAs "type" w a → AssertHolds env (IsMultiple env.dec) a v)
    (hp : ∀ ps, ("properties", .obj ps) ∈ kvs → ∀ n t x, (n, t) ∈ ps → (n, x) ∈ Spec.members v → M.valid sc (sub t) x)
    (hi : ∀ t, ("items", t) ∈ kvs → ∃ ss, t = .arr ss)
    (hi' : ∀ ss, ("items", .arr ss) ∈ kvs → ∀ (k : Nat) t x, ss[k]? = some t → (elems v)[k]? = some x →
      M.valid sc (sub t) x)
    (hb : ∀ t ss, ("additionalItems", t) ∈ kvs → ("items", .arr ss) ∈ kvs →
      ∀ (k : Nat) x, (elems v)[k]? = some x → ss.length ≤ k → M.valid sc (sub t) x)
    (hr : ∀ k s u, (k, .str s) ∈ kvs → target k s u → M.valid sc u v) :
    DHolds env enabled M sc sub target kvs v where
  assert k w a h hw := by
    have h1 := hk _ _ h
    have h2 := written_name hw
    simp only [List.mem_cons, List.not_mem_nil, or_false] at h1
    rcases h1 with rfl | rfl | rfl | rfl | rfl | rfl | rfl
    · exact absurd h2 (by decide)
    · exact absurd h2 (by decide)
    · exact ha _ _ h hw
    all_goals exact absurd h2 (by decide)
  allOf _ h := absurd (hk _ _ h) (by decide)
  anyOf _ h := absurd (hk _ _ h) (by decide)
  oneOf _ h := absurd (hk _ _ h) (by decide)
  not_ _ h := absurd (hk _ _ h) (by decide)
  then_ _ _ h := absurd (hk _ _ h) (by decide)
  else_ _ _ h := absurd (hk _ _ h) (by decide)
  dependentSchemas _ h := absurd (hk _ _ h) (by decide)
  properties := hp
  patternProperties _ h := absurd (hk _ _ h) (by decide)
  additionalProperties _ h := absurd (hk _ _ h) (by decide)
  propertyNames _ h := absurd (hk _ _ h) (by decide)
  unevaluatedProperties _ h := absurd (hk _ _ h) (by decide)
  prefixItems h := by cases h
  items h := by cases h
  itemsAll _ t h hn := by obtain ⟨ss, e⟩ := hi t h; exact absurd e (hn ss)
  itemsEach _ := hi'
  additionalItems _ := hb
  contains _ h := absurd (hk _ _ h) (by decide)
  minContains _ _ h := absurd (hk _ _ h) (by decide)
  maxContains _ _ h := absurd (hk _ _ h) (by decide)
  unevaluatedItems _ h := absurd (hk _ _ h) (by decide)
  ref := hr
  format _ h := absurd (hk _ _ h) (by decide)

/-- The document of trees still accepts it. -/
theorem tree_accepts (env : Env) : DAccepts Toy.lib env Toy.env.fmtEnabled twoTrees treeSite plainTree := by
  refine ⟨5, fun m hm => ?_⟩
  obtain ⟨m, rfl⟩ : ∃ k, m = k + 5 := ⟨m - 5, by omega⟩
  have few : ∀ {q k w}, q = treeSite ∨ q = kidsSite ∨ q = kidSite → q.Has k w →
      k ∈ ["$id", "$recursiveAnchor", "type", "properties", "items", "additionalItems", "$recursiveRef"] := by
    intro q k w hq h
    rw [Site.has_iff] at h
    rcases hq with rfl | rfl | rfl <;> simp [Site.members, treeSite, kidsSite, kidSite, treeMembers] at h
    · rcases h with ⟨rfl, -⟩ | ⟨rfl, -⟩ | ⟨rfl, -⟩ | ⟨rfl, -⟩ <;> decide
    · rcases h with ⟨rfl, -⟩ | ⟨rfl, -⟩ <;> decide
    · obtain ⟨rfl, -⟩ := h; decide
  have noTree : ∀ {sc k s u}, (k, Value.str s) ∈ treeMembers → ¬ DTarget Toy.lib twoTrees sc treeBase k s u := by
    intro sc k s u h ht
    have hs : twoTrees.sites treeSite := ⟨0, [], treeSite, rfl, .here⟩
    rcases trees_target (p := treeSite) hs ⟨_, rfl, h⟩ ht with ⟨-, h, -⟩ | ⟨-, h, -⟩ <;>
      exact absurd h (apart (by decide))
  have object : ∀ {kvs : List (String × Value)} w a, ("type", w) ∈ treeMembers → WrittenAs "type" w a →
      AssertHolds env (IsMultiple env.dec) a (.obj kvs) := by
    intro kvs w a h ha
    have : w = .str "object" := by simpa [treeMembers] using h
    subst this
    generalize hkey : "type" = key at ha
    generalize hval : Value.str "object" = val at ha
    cases ha <;> first | (cases hval; done) | exact absurd hkey (by decide) | skip
    cases hval
    exact ⟨"object", by simp, _, rfl⟩
  have noItems : ∀ t, ("items", t) ∉ treeMembers := by simp [treeMembers]
  -- the child, to which the document of trees applies
  have leaf : ∀ n sc, (dunroll Toy.lib env Toy.env.fmtEnabled twoTrees (n + 1)).valid sc treeSite (.obj []) := by
    intro n sc
    refine holds_few9 (fun k w h => few (q := treeSite) (.inl rfl) ⟨_, rfl, h⟩) object ?_ (fun t h => absurd h (noItems t))
      (fun ss h => absurd h (noItems _)) (fun t ss _ h => absurd h (noItems _)) (fun k s u h ht => absurd ht (noTree h))
    intro ps _ n t x _ hx
    simp [Spec.members] at hx
  refine holds_few9 (fun k w h => few (q := treeSite) (.inl rfl) ⟨_, rfl, h⟩) object ?_ (fun t h => absurd h (noItems t))
      (fun ss h => absurd h (noItems _)) (fun t ss _ h => absurd h (noItems _)) (fun k s u h ht => absurd ht (noTree h))
  intro ps hps n t x ht hx
  have hps' : ps = [("children", kidsSite.schema)] := by simpa [treeMembers, kidsSite] using hps
  subst hps'
  simp only [List.mem_cons, List.not_mem_nil, or_false, Prod.mk.injEq] at ht
  obtain ⟨rfl, rfl⟩ := ht
  have hx' : x = .arr [.obj []] := by simpa [plainTree, Spec.members] using hx
  subst hx'
  refine holds_few9 (fun k w h => few (q := kidsSite) (.inr (.inl rfl)) ⟨_, rfl, h⟩) (fun w a h => ?_) (fun ps h => ?_)
    (fun t h => ?_) (fun ss h k t x ht hx => ?_) (fun t ss h1 h2 k x hx hl => ?_) (fun k s u h ht => ?_)
  · simp at h
  · simp at h
  · simp at h; exact ⟨_, h⟩
  · have hss : ss = [.obj [("$recursiveRef", .str "#")]] := by simpa using h
    subst hss
    match k, ht, hx with
    | 0, ht, hx =>
      cases ht; cases hx
      refine holds_few9 (fun k w h => few (q := kidSite) (.inr (.inr rfl)) ⟨_, rfl, h⟩) (fun w a h => ?_) (fun ps h => ?_)
        (fun t h => ?_) (fun ss h k t x ht hx => ?_) (fun t ss h1 h2 k x hx hl => ?_) (fun k s u h ht => ?_)
      · simp at h
      · simp at h
      · simp at h
      · simp at h
      · simp at h1
      · have hs : twoTrees.sites kidSite := by
          refine ⟨0, ["properties", "children", "items", "0"], treeSite, rfl, ?_⟩
          refine .named (k := "properties") (ms := [("children", kidsSite.schema)]) (by decide)
            (by simp [treeMembers, kidsSite]) List.mem_cons_self ?_
          exact .many (k := "items") (i := 0) (us := [kidSite.schema]) (.inr (by decide)) (by simp [kidSite]) rfl .here
        rcases trees_target (p := kidSite) hs ⟨_, rfl, h⟩ ht with ⟨-, h, -⟩ | ⟨-, -, ho⟩
        · exact absurd h (apart (by decide))
        · have hu : u = treeSite := by
            cases ho with
            | static h => exact absurd tree_recursive h
            | none => rfl
            | @found inner outer p _ e hr _ =>
              have hp : u ∈ [kidSite, kidsSite, treeSite] := by
                show u ∈ (kidSite :: kidsSite :: [treeSite] : List Site)
                have : u ∈ inner ++ u :: outer := by simp
                rw [← e] at this
                exact this
              simp only [List.mem_cons, List.not_mem_nil, or_false] at hp
              obtain ⟨kvs, e', hr⟩ := hr
              rcases hp with rfl | rfl | rfl
              · cases e'; simp at hr
              · cases e'; simp at hr
              · rfl
          subst hu
          exact leaf _ _
    | k + 1, ht, hx => simp at ht
  · have hss : ss = [.obj [("$recursiveRef", .str "#")]] := by simpa using h2
    subst hss
    match k, hx, hl with
    | 0, _, hl => simp at hl
    | k + 1, hx, _ => simp [elems] at hx
  · simp at h

theorem tree_addition : Addition Toy.env .empty "" [] none (some ⟨"m19", none⟩) treeMembers treeSite where
  wf := wf_spec _ (by decide +kernel)
  site := rfl
  form := ⟨some meta2019, tree_member refers_self, fun m h => ⟨_, rfl, by cases h; rfl⟩⟩
  given u h := by cases h
  same h := of_decide_eq_true h
  unique := tree_unique
  free v ks q _ _ := rfl

end Toy

/-- Both documents are constructed, and evaluation ends for all values; the stricter document demands of all
nodes of a tree what it demands of the first, though it only refers to the document of trees, which still
accepts the same tree, and rejects others. -/
example : ∃ w s t, Suite Toy.env "" [(s, Toy.treeSite), (t, Toy.strictSite)] w ∧
    (∀ env i, ∃ k r, evaluate (w.store Toy.env "") env k t i = some r) ∧
    (∀ env k r, evaluate (w.store Toy.env "") env k t ⟨[], Toy.plainTree⟩ = some r → r.valid = false) ∧
    (∀ env k r, evaluate (w.store Toy.env "") env k s ⟨[], Toy.plainTree⟩ = some r → r.valid = true) ∧
    (∀ env k r, evaluate (w.store Toy.env "") env k s ⟨[], Toy.wideTree⟩ = some r → r.valid = false) := by
  obtain ⟨N, w1, s, h1, S1⟩ := C72_constructs Toy.env_ok (fun _ _ h => Toy.ordered h) Toy.site_lib (.start .start)
    Toy.tree_addition
  have hb := h1 _ (Nat.le_max_left N 9)
  -- nothing is cached with the names of the second document
  have hc : ∀ v, v.noFragment = Toy.strictBase → cacheGet w1.caches "" v = none := by
    have hk : ((newDocument Toy.env 9 "" none (some ⟨"m19", none⟩) (.obj Toy.treeMembers) .empty).any fun p =>
        p.1.caches.all fun c => c.2.all fun e => decide (e.1.noFragment ≠ Toy.strictBase)) = true := by decide +kernel
    obtain ⟨⟨w', r'⟩, hr, hk⟩ := (Option.any_eq_true _ _).1 hk
    cases newDocument_det hr hb
    intro v hv
    cases hg : cacheGet w1.caches "" v with
    | none => rfl
    | some y =>
      obtain ⟨c, h3, h4⟩ := Option.bind_eq_some_iff.1 hg
      simp only [List.all_eq_true, decide_eq_true_eq] at hk
      exact absurd hv (hk _ (alookup_mem h3) _ (alookup_mem h4))
  have A2 : Addition Toy.env w1 "" [(s, Toy.treeSite)] none (some ⟨"m19", none⟩) Toy.strictMembers Toy.strictSite :=
    { wf := Toy.wf_spec _ (by decide +kernel)
      site := rfl
      form := ⟨some meta2019, Toy.strict_member, fun m h => ⟨_, rfl, by cases h; rfl⟩⟩
      given := fun u h => by cases h
      same := fun h => of_decide_eq_true h
      unique := Toy.trees_unique
      free := fun v ks q h e => by
        refine hc v (e.symm.trans ?_)
        have := Toy.trees_located (i := 1) ⟨_, rfl, h⟩
        simp only [List.mem_cons, List.not_mem_nil, or_false, Prod.mk.injEq] at this
        rcases this with ⟨h, -⟩ | ⟨h, -⟩ | ⟨h, -⟩ | ⟨h, -⟩ | ⟨-, -, rfl⟩
        · cases h
        · cases h
        · cases h
        · cases h
        · rfl }
  obtain ⟨N2, w2, t, h2, S2⟩ := C72_constructs Toy.env_ok (fun _ _ h => Toy.ordered h) Toy.site_lib S1 A2
  refine ⟨w2, s, t, S2, fun env i => ?_, fun env k r he => ?_, fun env k r he => ?_, fun env k r he => ?_⟩
  · exact C72_ends Toy.env_ok (fun _ _ h => Toy.ordered h) Toy.site_lib S2 (p := Toy.strictSite) (by simp) Toy.trees_ranked env i
  · exact (C72_verdict_partial Toy.env_ok (fun _ _ h => Toy.ordered h) Toy.site_lib S2 (by simp)
      (Toy.wf_spec _ (by decide +kernel)) (Toy.trees_faithful _ env _) he).2.2 (Toy.strict_rejects env)
  · exact (C72_verdict_partial Toy.env_ok (fun _ _ h => Toy.ordered h) Toy.site_lib S2 (by simp)
      (Toy.wf_spec _ (by decide +kernel)) (Toy.trees_faithful _ env _) he).1.2 (Toy.tree_accepts env)
  · exact (C72_verdict_partial Toy.env_ok (fun _ _ h => Toy.ordered h) Toy.site_lib S2 (by simp)
      (Toy.wf_spec _ (by decide +kernel)) (Toy.trees_faithful _ env _) he).2.2 (Toy.tree_rejects env)

end Jschon
