import Verif.Spec.Shelf
import Verif.Proof.Suite

/-!
# Loading of documents while references are resolved
-/

namespace Jschon
open Spec

variable [dia : Dialect]

/-! ## Procedures with some bound -/

/-- With large bounds, the procedure returns the same. -/
def M.Ends {α : Type} (m : Nat → M α) (w : World) (Q : World → α → Prop) : Prop := ∃ N, M.Settles m N w Q

omit dia in
theorem M.Settles.le {α : Type} {m : Nat → M α} {N N' : Nat} {w : World} {Q : World → α → Prop} (h : N ≤ N')
    (hs : M.Settles m N w Q) : M.Settles m N' w Q := by
  obtain ⟨w', a, h1, h2⟩ := hs
  exact ⟨w', a, fun n hn => h1 n (Nat.le_trans h hn), h2⟩

omit dia in
theorem M.Ends.bind {α β : Type} {m : Nat → M α} {f : Nat → α → M β} {w : World} {Q : World → α → Prop}
    {R : World → β → Prop} (h : M.Ends m w Q) (hf : ∀ w' a, Q w' a → M.Ends (fun n => f n a) w' R) :
    M.Ends (fun n => m n >>= f n) w R := by
  obtain ⟨N, w1, a, h1, h2⟩ := h
  obtain ⟨N', h3⟩ := hf w1 a h2
  refine ⟨max N N', M.Settles.bind (Q := fun w' a' => w' = w1 ∧ a' = a)
    ⟨w1, a, fun n hn => h1 n (by omega), rfl, rfl⟩ ?_⟩
  rintro _ _ ⟨rfl, rfl⟩
  exact h3.le (Nat.le_max_right _ _)

omit dia in
theorem M.Ends.mono {α : Type} {m : Nat → M α} {w : World} {Q R : World → α → Prop} (h : M.Ends m w Q)
    (hq : ∀ w' a, Q w' a → R w' a) : M.Ends m w R := by
  obtain ⟨N, h⟩ := h
  exact ⟨N, h.mono hq⟩

omit dia in
theorem M.ends_read {α β : Type} {g : World → α} {f : Nat → α → M β} {w : World} {R : World → β → Prop}
    (h : M.Ends (fun n => f n (g w)) w R) : M.Ends (fun n => M.read g >>= f n) w R := by
  obtain ⟨N, h⟩ := h
  exact ⟨N, M.settles_read h⟩

omit dia in
theorem M.ends_each {α : Type} {f : Nat → α → M Unit} {I : World → Prop} : ∀ {l : List α},
    (∀ a ∈ l, ∀ w, I w → M.Ends (fun n => f n a) w (fun w' _ => I w')) → ∀ w, I w →
    M.Ends (fun n => M.each (f n) l) w (fun w' _ => I w')
  | [], _, w, hw => ⟨0, w, (), fun _ _ => rfl, hw⟩
  | a :: as, h, w, hw =>
    (h a (by simp) w hw).bind (f := fun n _ => M.each (f n) as) fun w' _ hw' =>
      M.ends_each (fun b hb => h b (by simp [hb])) w' hw'

omit dia in
theorem M.Ends.succ {α : Type} {m : Nat → M α} {w : World} {Q : World → α → Prop} (h : M.Ends (fun n => m (n + 1)) w Q) :
    M.Ends m w Q := by
  obtain ⟨N, w1, a, h1, h2⟩ := h
  refine ⟨N + 1, w1, a, fun n hn => ?_, h2⟩
  obtain ⟨n, rfl⟩ : ∃ m, n = m + 1 := ⟨n - 1, by omega⟩
  exact h1 n (by omega)

/-! ## What is there, and what is not yet -/

/-- There is a schema resource with the URI, or a document of that URI, constructed or not. -/
def Avail (lib : UriLib) (made : List (Nat × Site)) (all : List Site) (b : Uri) : Prop :=
  (∃ root d, (root, d) ∈ made ∧ HasResource lib d b) ∨ ∃ d ∈ all, d.base = b

/-- The references of the document are to what is there or may be loaded. -/
def Nearby (lib : UriLib) (made : List (Nat × Site)) (all : List Site) (p : Site) : Prop :=
  ∀ ks q k t r, Stands lib p ks q → k = "$ref" ∨ dia = .d2020 ∧ k = "$dynamicRef" → q.Has k (.str t) → RefUri lib q.base t r →
    HasResource lib p r.noFragment ∨ Avail lib made all r.noFragment

/-- The documents `all`: those that are `made`, with their schemas, and those `todo`, which can be loaded. -/
structure Shelved (E : CEnv) (cid : String) (all : List Site) (made : List (Nat × Site)) (todo : List Nat) (w : World) :
    Prop where
  names : DocNames E (links E.lib all) cid made w
  unique : UniqueNames E.lib all
  here : ∀ {i p}, all[i]? = some p → i ∈ todo ∨ ∃ root, (root, p) ∈ made
  back : ∀ {root p}, (root, p) ∈ made → ∃ i, all[i]? = some p ∧ i ∉ todo
  free : ∀ {i p}, i ∈ todo → all[i]? = some p → ∀ v ks q, Stands E.lib p ks q → q.base = v.noFragment →
    cacheGet w.caches cid v = none

/-- The documents `todo` can be loaded. -/
def Loadable (E : CEnv) (all : List Site) (made : List (Nat × Site)) (todo : List Nat) : Prop :=
  ∀ {i p}, i ∈ todo → all[i]? = some p → OnShelf E (links E.lib all) p ∧ Nearby E.lib made all p

theorem Avail.mono {lib : UriLib} {made made' : List (Nat × Site)} {all all' : List Site} {b : Uri}
    (h : ∀ d ∈ made, d ∈ made') (h' : ∀ d ∈ all, d ∈ all') (ha : Avail lib made all b) : Avail lib made' all' b := by
  rcases ha with ⟨root, d, h1, h2⟩ | ⟨d, h1, h2⟩
  · exact .inl ⟨root, d, h _ h1, h2⟩
  · exact .inr ⟨d, h' _ h1, h2⟩

theorem Nearby.mono {lib : UriLib} {made made' : List (Nat × Site)} {all all' : List Site} {p : Site}
    (h : ∀ d ∈ made, d ∈ made') (h' : ∀ d ∈ all, d ∈ all') (hn : Nearby lib made all p) : Nearby lib made' all' p :=
  fun ks q k t r h1 h2 h3 h4 => (hn ks q k t r h1 h2 h3 h4).imp (fun h => h) (·.mono h h')

theorem uniqueNames_at {lib : UriLib} {roots : List Site} {j : Nat} {p : Site} (hj : roots[j]? = some p)
    (h : UniqueNames lib roots) : UniqueNames lib [p] := by
  have shift : ∀ {i ks q}, Located lib [p] i ks q → i = 0 ∧ Located lib roots j ks q := by
    rintro i ks q ⟨p', h1, h2⟩
    cases i with
    | zero => cases h1; exact ⟨rfl, _, hj, h2⟩
    | succ i => cases h1
  refine ⟨fun i ks q j ls r h1 h2 e => ?_, fun i ks q j ls r f h1 h2 e h3 h4 => ?_⟩
  · obtain ⟨rfl, h3⟩ := shift h1.1
    obtain ⟨rfl, h4⟩ := shift h2.1
    exact ⟨rfl, (h.resource _ _ _ _ _ _ ⟨h3, h1.2⟩ ⟨h4, h2.2⟩ e).2⟩
  · obtain ⟨rfl, h5⟩ := shift h1
    obtain ⟨rfl, h6⟩ := shift h2
    exact ⟨rfl, (h.anchor _ _ _ _ _ _ f h5 h6 e h3 h4).2⟩

section
variable {E : CEnv} {cid : String} {all : List Site} {made : List (Nat × Site)} {todo : List Nat} {w : World}

/-- What stands in a document with the URI of one of its resources is of that document. -/
theorem Spec.UniqueNames.same {lib : UriLib} (h : UniqueNames lib all) {i j : Nat} {p d : Site} (hi : all[i]? = some p)
    (hj : all[j]? = some d) {ks : List String} {q : Site} (hs : Stands lib p ks q) {b : Uri} (hb : q.base = b)
    (hd : HasResource lib d b) : i = j := by
  obtain ⟨ls, o, h1, h2, h3⟩ := hd
  obtain ⟨ks', r, r1, r2, r3⟩ := hs.resource
  exact (h.resource i ks' r j ls o ⟨⟨_, hi, r1⟩, r2⟩ ⟨⟨_, hj, h1⟩, h2⟩ (by rw [r3, hb, h3])).1

/-- What a URI is for, among the documents that are there. -/
theorem Shelved.denotes (S : Shelved E cid all made todo w) {r : Uri} {q : Site} (h : Denotes E.lib all r q)
    {root : Nat} {d : Site} (hd : (root, d) ∈ made) (hr : HasResource E.lib d r.noFragment) :
    Denotes E.lib (made.map (·.2)) r q := by
  obtain ⟨j, hj, -⟩ := S.back hd
  cases h with
  | pointer h1 h2 h3 h4 =>
    obtain ⟨p', p1, p2⟩ := h1.1
    cases S.unique.same p1 hj p2 h2 hr
    rw [hj] at p1
    cases p1
    obtain ⟨i, hi⟩ := mem_located hd p2
    exact .pointer ⟨hi, h1.2⟩ h2 h3 h4
  | anchor h1 h2 h3 h4 =>
    obtain ⟨p', p1, p2⟩ := h1
    cases S.unique.same p1 hj p2 h2 hr
    rw [hj] at p1
    cases p1
    obtain ⟨i, hi⟩ := mem_located hd p2
    exact .anchor hi h2 h3 h4

/-- The schema that a URI is for is found, if its document is there. -/
theorem Shelved.find (S : Shelved E cid all made todo w) {r : Uri} {q : Site} (h : Denotes E.lib all r q)
    {root : Nat} {d : Site} (hd : (root, d) ∈ made) (hr : HasResource E.lib d r.noFragment) :
    ∃ y, (∀ q', Denotes E.lib all r q' → MadeFrom E (links E.lib all) made w y q') ∧
      (∀ newDoc m, getSchemaWith E newDoc r m cid w = some (w, .ok y)) ∧
      (r.fragment = some "" → ∀ newDoc m, getSchemaWith E newDoc r.noFragment m cid w = some (w, .ok y)) := by
  have same : SameCaches w w := ⟨rfl, rfl, fun _ _ => rfl⟩
  obtain ⟨y, -, hy, hy0⟩ := S.names.denotes (S.denotes h hd hr)
  refine ⟨y, fun q' h' => ?_, hy w same, fun he => hy0 he w same⟩
  obtain ⟨y', m, hy', -⟩ := S.names.denotes (S.denotes h' hd hr)
  have := (hy w same (fun _ _ _ _ => M.raise .schemaError) none).symm.trans
    (hy' w same (fun _ _ _ _ => M.raise .schemaError) none)
  cases this
  exact m

end

omit dia in
/-- What `get_schema` does after it has loaded a document. -/
theorem loaded_end {E : CEnv} {cid : String} {r : Uri} {w : World} {s y : Nat}
    (h : cacheGet w.caches cid r.noFragment = some s)
    (hy : ∀ newDoc m, getSchemaWith E newDoc r m cid w = some (w, .ok y)) :
    (do
      match ← M.read (fun w => cacheGet w.caches cid r) with
      | some t => pure t
      | none => getSchemaEnd r s : M Nat) w = some (w, .ok y) := by
  have h0 := hy (fun _ _ _ _ => M.raise .schemaError) none
  cases hc : cacheGet w.caches cid r with
  | some t =>
    rw [getSchemaWith_cached hc] at h0
    cases h0
    simp only [bind, M.andThen, M.read, hc, pure, M.ret]
  | none =>
    cases hf : r.fragment with
    | none => rw [noFragment_of hf, hc] at h; cases h
    | some f =>
      have hb : baseCached w cid r = some s := by unfold baseCached; rw [hf]; exact h
      simp only [getSchemaWith, bind, M.andThen, M.read, hc, hb] at h0
      simp only [bind, M.andThen, M.read, hc, h0]

/-! ## While references are resolved -/

/-- The documents `new` are being constructed. -/
structure Loading (E : CEnv) (cid : String) (all : List Site) (old new : List (Nat × Site)) (todo : List Nat)
    (w : World) : Prop where
  shelved : Shelved E cid all (old ++ new) todo w
  shelf : Loadable E all (old ++ new) todo
  snap : ∀ {root p}, (root, p) ∈ new → ∃ c0 kvs w0, p.schema = .obj kvs ∧
    DocMade E (links E.lib all) c0 cid p.base root kvs w0 ∧ Grown w0 w
  kws : ∀ {x q}, MadeFrom E (links E.lib all) new w x q → ∀ kv ∈ w.keywords x,
    Bare kv.2 ∨ Aimed E.lib (links E.lib all) (MadeFrom E (links E.lib all) (old ++ new) w) w x kv.2
  near : ∀ {root p}, (root, p) ∈ new → Nearby E.lib (old ++ new) all p

/-- Further documents may have been loaded, and are resolved. -/
structure Onto (E : CEnv) (cid : String) (all : List Site) (old : List (Nat × Site)) (m : Nat)
    (new : List (Nat × Site)) (w : World) (new' : List (Nat × Site)) (w' : World) : Prop where
  load : ∃ todo, todo.length ≤ m ∧ Loading E cid all old new' todo w'
  grown : Grown w w'
  sub : ∀ d ∈ new, d ∈ new'
  done : ∀ d ∈ new', d ∈ new ∨ AllResolved w' d.1

def Onward (E : CEnv) (cid : String) (all : List Site) (old : List (Nat × Site)) (m : Nat)
    (new : List (Nat × Site)) (w w' : World) : Prop := ∃ new', Onto E cid all old m new w new' w'

omit dia in
theorem Aimed.grown {lib : UriLib} {L : Links} {C C' : Nat → Site → Prop} {w w' : World} (hC : ∀ t q, C t q → C' t q)
    (ok : WOk w) (g : Grown w w') {x : Nat} (hx : x < w.heap.next) {o : KwObj} (ho : o.json < w.heap.next)
    (h : Aimed lib L C w x o) : Aimed lib L C' w' x o := by
  obtain ⟨b, s, q, t, h1, h2, h3, h4, h5, h6⟩ := h.target
  exact ⟨h.shape, b, s, q, t, (g.base ok hx).trans h1, (g.ext.data ho).trans h2, h3, h4, fun q hq => hC _ _ (h5 q hq), h6⟩

section
variable {E : CEnv} {cid : String} {all : List Site} {old new : List (Nat × Site)} {todo : List Nat} {w w' : World}

theorem MadeFrom.grown {L : Links} {docs docs' : List (Nat × Site)} (ok : WOk w) (ok' : WOk w') (g : Grown w w')
    (h : ∀ d ∈ docs, d ∈ docs') {x : Nat} {q : Site} (m : MadeFrom E L docs w x q) : MadeFrom E L docs' w' x q := by
  obtain ⟨root, p, ks, h1, c⟩ := m
  exact ⟨root, p, ks, h _ h1, c.grown ok ok' g fun _ _ _ h => h⟩

theorem Onto.trans {m m' : Nat} {new1 new2 : List (Nat × Site)} {w1 w2 : World}
    (a : Onto E cid all old m new w new1 w1) (hm : m' ≤ m) (b : Onto E cid all old m' new1 w1 new2 w2) :
    Onto E cid all old m new w new2 w2 where
  load := by
    obtain ⟨todo, h1, h2⟩ := b.load
    exact ⟨todo, Nat.le_trans h1 hm, h2⟩
  grown := a.grown.trans b.grown
  sub d hd := b.sub d (a.sub d hd)
  done d hd := by
    rcases b.done d hd with h | h
    · rcases a.done d h with h' | h'
      · exact .inl h'
      · obtain ⟨todo, -, l⟩ := a.load
        refine .inr (h'.mono l.shelved.names.ok b.grown ?_)
        obtain ⟨x, c⟩ := l.shelved.names.find (List.mem_append_right _ h) .here
        have := reach_le l.shelved.names.ok.ord c.reach
        have := l.shelved.names.ok.dom _ c.isSchema
        omega
    · exact .inr h

theorem Onto.refl {m : Nat} (l : Loading E cid all old new todo w) (hm : todo.length ≤ m) :
    Onto E cid all old m new w new w := ⟨⟨todo, hm, l⟩, .refl _, fun _ h => h, fun _ h => .inl h⟩

/-- One more document is made. -/
theorem Shelved.add {made : List (Nat × Site)} (S : Shelved E cid all made todo w) {j : Nat} {d : Site} (hj : j ∈ todo)
    (hd : all[j]? = some d) {s : Nat} {kvs : List (String × Value)} (hk : d.schema = .obj kvs)
    (D : DocMade E (links E.lib all) w.caches cid d.base s kvs w') (g : Grow w w') :
    Shelved E cid all (made ++ [(s, d)]) (todo.filter (· ≠ j)) w' := by
  have he : d = ⟨d.base, .obj kvs⟩ := by rw [← hk]
  have al : DocAlone E w.caches cid ⟨d.base, .obj kvs⟩ := by
    rw [← he]; exact ⟨uniqueNames_at hd S.unique, S.free hj hd⟩
  have N1 := S.names.add D g.grown (fun _ _ _ h => h) al
  rw [← he] at N1
  have last : (s, d) ∈ made ++ [(s, d)] := List.mem_append_right _ (List.mem_singleton.2 rfl)
  refine ⟨N1, S.unique, fun {i p} hi => ?_, fun {root p} h => ?_, fun {i p} hi hp v ks q hq hb => ?_⟩
  · by_cases h : i = j
    · subst h
      rw [hd] at hi
      cases hi
      exact .inr ⟨s, last⟩
    · rcases S.here hi with h' | ⟨root, h'⟩
      · exact .inl (List.mem_filter.2 ⟨h', by simpa using h⟩)
      · exact .inr ⟨root, List.mem_append_left _ h'⟩
  · rcases List.mem_append.1 h with h | h
    · obtain ⟨i, h1, h2⟩ := S.back h
      exact ⟨i, h1, fun h3 => h2 (List.mem_filter.1 h3).1⟩
    · cases List.mem_singleton.1 h
      exact ⟨j, hd, fun h3 => by simpa using (List.mem_filter.1 h3).2⟩
  · obtain ⟨h1, h2⟩ := List.mem_filter.1 hi
    cases hc : cacheGet w'.caches cid v with
    | none => rfl
    | some y =>
      exfalso
      rcases Nat.lt_or_ge y s with hy | hy
      · have := D.names.old cid v y hc hy
        rw [S.free h1 hp v ks q hq hb] at this
        cases this
      · have hcl := (D.names.claim cid v y hc hy).2
        obtain ⟨ls, q', cy⟩ := D.all y hy hcl.isSchema
        have e : q'.base = v.noFragment := by
          rcases cy.claims D hcl with ⟨rfl, -⟩ | ⟨f, -, -, rfl⟩
          · exact (noFragment_of cy.absolute.2).symm
          · exact (noFragment_of (u := q'.base) cy.absolute.2).symm
        have hst := cy.at_
        rw [← he] at hst
        obtain ⟨ls', r, r1, r2, r3⟩ := hst.resource
        have := S.unique.same hp hd hq (hb.trans e.symm) ⟨ls', r, r1, r2, r3⟩
        simp [this] at h2

theorem Loading.add (l : Loading E cid all old new todo w) {j : Nat} {d : Site} (hj : j ∈ todo) (hd : all[j]? = some d)
    {s : Nat} {kvs : List (String × Value)} (hk : d.schema = .obj kvs)
    (D : DocMade E (links E.lib all) w.caches cid d.base s kvs w') (g : Grow w w') :
    Loading E cid all old (new ++ [(s, d)]) (todo.filter (· ≠ j)) w' := by
  have S := l.shelved
  have he : d = ⟨d.base, .obj kvs⟩ := by rw [← hk]
  have S1 := S.add hj hd hk D g
  rw [List.append_assoc] at S1
  have sub : ∀ e ∈ old ++ new, e ∈ old ++ (new ++ [(s, d)]) := by
    intro e h
    rw [← List.append_assoc]
    exact List.mem_append_left _ h
  have ok := S.names.ok
  refine ⟨S1, fun {i p} hi hp => ?_, fun {root p} h => ?_, fun {x q} hm kv hkv => ?_, fun {root p} h => ?_⟩
  · obtain ⟨h1, -⟩ := List.mem_filter.1 hi
    exact ⟨(l.shelf h1 hp).1, (l.shelf h1 hp).2.mono sub fun _ h => h⟩
  · rcases List.mem_append.1 h with h | h
    · obtain ⟨c0, kvs', w0, h1, h2, h3⟩ := l.snap h
      exact ⟨c0, kvs', w0, h1, h2, h3.trans g.grown⟩
    · cases List.mem_singleton.1 h
      exact ⟨_, kvs, w', hk, D, .refl _⟩
  · obtain ⟨root, p, ks, h, c⟩ := hm
    rcases List.mem_append.1 h with h | h
    · have c0 := S.names.back g.grown (List.mem_append_right _ h) c
      have hx := ok.dom _ c0.isSchema
      rw [keywords_of_info (g.info x hx (fun h => h))] at hkv
      refine (l.kws ⟨root, p, ks, h, c0⟩ kv hkv).imp (fun h => h) fun h => ?_
      exact h.grown (fun t q hm => hm.grown ok D.ok g.grown sub) ok g.grown hx (keywords_kid ok hkv).2
    · cases List.mem_singleton.1 h
      rw [he] at c
      exact .inl ((D.tidy x (c.le D) c.isSchema).1 kv hkv)
  · rcases List.mem_append.1 h with h | h
    · exact (l.near h).mono sub fun _ h => h
    · cases List.mem_singleton.1 h
      exact (l.shelf hj hd).2.mono sub fun _ h => h

/-- A reference is resolved. -/
theorem Loading.set (l : Loading E cid all old new todo w) {x y : Nat} {k : String} {d : Bool} {w' : World}
    (hset : setRef x k y d w = some (w', .ok ())) (hy : w.isSchema y = true)
    (h : ∀ kv ∈ w.keywords x, kv.1 = k → Aimed E.lib (links E.lib all) (MadeFrom E (links E.lib all) (old ++ new) w) w x
      (refObj k y d kv.1 kv.2)) : Loading E cid all old new todo w' ∧ Grown w w' := by
  have S := l.shelved
  have ok := S.names.ok
  obtain ⟨ok', g, -, a4⟩ := setRef_spec ok hy hset
  have hw : w'.heap = w.heap ∧ w'.caches = w.caches ∧ ∀ z, z ≠ x → w'.info z = w.info z := by
    unfold setRef at hset
    obtain ⟨rfl, -⟩ := M.change_run hset
    exact ⟨rfl, rfl, fun z hz => by simp [World.setInfo, hz]⟩
  refine ⟨⟨⟨S.names.grown ok' g fun _ _ _ _ _ _ _ _ => by rw [hw.2.1], S.unique, S.here, S.back, fun hi hp v ks q hq hb => ?_⟩,
    l.shelf, fun h => ?_, fun {z q} hm kv hkv => ?_, l.near⟩, g⟩
  · rw [hw.2.1]; exact S.free hi hp v ks q hq hb
  · obtain ⟨c0, kvs', w0, h1, h2, h3⟩ := l.snap h
    exact ⟨c0, kvs', w0, h1, h2, h3.trans g⟩
  · obtain ⟨root, p, ks, hp, c⟩ := hm
    have c0 := S.names.back g (List.mem_append_right _ hp) c
    have hz := ok.dom _ c0.isSchema
    have up : ∀ {o : KwObj}, o.json < w.heap.next →
        Aimed E.lib (links E.lib all) (MadeFrom E (links E.lib all) (old ++ new) w) w z o →
        Aimed E.lib (links E.lib all) (MadeFrom E (links E.lib all) (old ++ new) w') w' z o :=
      fun ho h => h.grown (fun t q hm => hm.grown ok ok' g fun _ h => h) ok g hz ho
    by_cases hzx : z = x
    · subst hzx
      rw [a4] at hkv
      obtain ⟨kv0, b1, rfl⟩ := List.mem_map.1 hkv
      have hj := (keywords_kid ok b1).2
      by_cases hk : kv0.1 = k
      · refine .inr (up ?_ (h kv0 b1 hk))
        simp only [refObj, hk, if_true]; exact hj
      · simp only [refObj, hk, if_false]
        exact (l.kws ⟨root, p, ks, hp, c0⟩ kv0 b1).imp (fun h => h) (up hj)
    · rw [keywords_of_info (hw.2.2 z hzx)] at hkv
      exact (l.kws ⟨root, p, ks, hp, c0⟩ kv hkv).imp (fun h => h) (up (keywords_kid ok hkv).2)

end
end Jschon
