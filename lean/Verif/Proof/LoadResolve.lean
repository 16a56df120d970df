import Verif.Proof.Load

/-!
# Resolution of references that loads documents
-/

namespace Jschon
open Spec

variable [dia : Dialect]

section
variable {E : CEnv} {cid : String} {all : List Site} {old new : List (Nat × Site)} {todo : List Nat} {w w' : World}

theorem MadeFrom.isSchema {L : Links} {docs : List (Nat × Site)} {x : Nat} {q : Site} (m : MadeFrom E L docs w x q) :
    w.isSchema x = true := by
  obtain ⟨_, _, _, -, c⟩ := m
  exact c.isSchema

omit dia in
theorem HasMeta.metaUri {m : Meta} {x : Nat} (h : HasMeta E w m x) : ∃ u, w.metaUri x = some u ∧ E.metaschema u = .ok m :=
  h.nearest (x + 1) (Nat.lt_succ_self _)

variable (hE : CEnvOk E) (hO : ∀ u m, E.metaschema u = .ok m → Ordered m) (hL : SiteLib E.lib)
include hE hO hL

/-- What is shown of the resolution of the references of a document. -/
def ResolvesAt (E : CEnv) (cid : String) (all : List Site) (old : List (Nat × Site)) (m : Nat) : Prop :=
  ∀ {new todo w}, todo.length ≤ m → Loading E cid all old new todo w → ∀ {root p}, (root, p) ∈ new →
    M.Ends (fun n => resolveReferences E n root) w (fun w' _ => Onward E cid all old m new w w')

/-- A schema is obtained. -/
theorem ends_get {m : Nat} (ih : ∀ k, k < m → ResolvesAt E cid all old k) (l : Loading E cid all old new todo w)
    (hm : todo.length ≤ m) {r : Uri} {q : Site} (hd : Denotes E.lib all r q)
    (ha : Avail E.lib (old ++ new) all r.noFragment) {mu : Option Uri}
    (hmu : ∃ u m, mu = some u ∧ E.metaschema u = .ok m ∧ OfDialect m) :
    M.Ends (fun n => getSchemaWith E (newDocument E n) r mu cid) w (fun w' y =>
      ∃ new', Onto E cid all old m new w new' w' ∧
        ∀ q', Denotes E.lib all r q' → MadeFrom E (links E.lib all) (old ++ new') w' y q') := by
  have S := l.shelved
  have there : ∀ {root d}, (root, d) ∈ old ++ new → HasResource E.lib d r.noFragment →
      M.Ends (fun n => getSchemaWith E (newDocument E n) r mu cid) w (fun w' y =>
        ∃ new', Onto E cid all old m new w new' w' ∧
          ∀ q', Denotes E.lib all r q' → MadeFrom E (links E.lib all) (old ++ new') w' y q') := by
    intro root d h1 h2
    obtain ⟨y, h3, h4, -⟩ := S.find hd h1 h2
    exact ⟨0, w, y, fun n _ => h4 _ _, new, .refl l hm, h3⟩
  rcases ha with ⟨root, d, h1, h2⟩ | ⟨d, h1, h2⟩
  · exact there h1 h2
  obtain ⟨j, hj⟩ := List.getElem?_of_mem h1
  rcases S.here hj with htodo | ⟨root, h3⟩
  rotate_left
  · exact there h3 ⟨[], d, .here, .inl rfl, h2⟩
  -- the document is loaded
  obtain ⟨O, -⟩ := l.shelf htodo hj
  obtain ⟨kvs, hk⟩ := O.obj
  have hnf : r.noFragment.noFragment = r.noFragment := noFragment_of rfl
  have hnone : ∀ v, d.base = v.noFragment → cacheGet w.caches cid v = none := fun v hv => S.free htodo hj v [] d .here hv
  have hb : baseCached w cid r = none := by
    unfold baseCached
    split
    · exact hnone _ (by rw [hnf, h2])
    · rfl
  have hdoc : docSite E.lib w (some r.noFragment) (.obj kvs) = d := by
    have := O.own
    rw [hk] at this
    show (⟨ownBase E.lib r.noFragment (.obj kvs), .obj kvs⟩ : Site) = d
    rw [← h2, this, ← hk]
  have hwf := O.wf
  rw [hk] at hwf
  have pre : SPre w cid (some r.noFragment) none := by
    refine ⟨S.names.ok, (fun p h => by cases h), (fun p h => by cases h), fun u' hu' hf q hq hcq => ?_⟩
    cases hu'
    obtain ⟨t, _, h2', _⟩ := S.names.ok.uris q _ hq hf
    rw [hcq, hnone _ (by rw [hnf, h2])] at h2'
    cases h2'
  obtain ⟨mu', mm, hmu1, hmu2, hmu3⟩ := hmu
  obtain ⟨w1, s, n1, rfl, g1, D⟩ := returns_docMade (metaUri := mu) hE hO hL (mo := some mm) (L := links E.lib all) hwf
    (hdoc ▸ O.form mm hmu3) pre (fun m h => by cases h; exact ⟨mu', hmu1, hmu2⟩)
    (fun u h => by cases h; exact ⟨rfl, h2 ▸ O.absolute⟩)
    (fun _ => by rw [hdoc, h2]; rfl)
  rw [hdoc] at D
  have l1 := l.add htodo hj hk D g1
  have hlt : (todo.filter (· ≠ j)).length < todo.length := by
    refine Nat.lt_of_le_of_ne (List.length_filter_le _ _) fun h => ?_
    have := List.length_filter_eq_length_iff.1 h j htodo
    simp at this
  have last : (w.heap.next, d) ∈ new ++ [(w.heap.next, d)] := List.mem_append_right _ (List.mem_singleton.2 rfl)
  obtain ⟨N, w2, ⟨⟩, h4, new2, o2⟩ := ih _ (Nat.lt_of_lt_of_le hlt hm) (Nat.le_refl _) l1 last
  obtain ⟨todo2, h5, l2⟩ := o2.load
  have S2 := l2.shelved
  have hin := List.mem_append_right old (o2.sub _ last)
  obtain ⟨y, h6, h7, -⟩ := S2.find hd hin ⟨[], d, .here, .inl rfl, h2⟩
  have hroot : cacheGet w2.caches cid r.noFragment = some w.heap.next := by
    obtain ⟨x, c⟩ := S2.names.find hin .here
    have := S2.names.resource hin c (.inl rfl)
    have hr := c.reach
    cases hr
    rw [← h2]; exact this
  have hload : loadJson E.lib E.sources r.noFragment = .ok (.obj kvs) := by rw [← h2, ← hk]; exact O.loads
  refine ⟨N, w2, y, fun n hn => ?_, new2, ⟨⟨todo2, by omega, l2⟩, g1.grown.trans o2.grown,
    fun d hd => o2.sub d (List.mem_append_left _ hd), fun d' hd' => ?_⟩, h6⟩
  · have he := loaded_end hroot h7
    simp only [bind, M.andThen, M.read] at he
    simp only [getSchemaWith, bind, M.andThen, M.read, hnone r h2, hb, loadSchema, M.ofExcept, hload, newDocument,
      newDocWith, n1, h4 n hn, pure, M.ret]
    exact he
  · rcases o2.done d' hd' with h | h
    · rcases List.mem_append.1 h with h | h
      · exact .inl h
      · cases List.mem_singleton.1 h
        exact .inr ((resolveReferences_ok hE _ _ _ _ _ D.ok D.isSchema (h4 _ (Nat.le_refl _))).2.2 rfl)
    · exact .inr h

/-- One reference. -/
theorem ends_resolveKw {m : Nat} (ih : ∀ k, k < m → ResolvesAt E cid all old k) (l : Loading E cid all old new todo w)
    (hm : todo.length ≤ m) {root : Nat} {p : Site} (hp : (root, p) ∈ new) {c0 : Caches} {kvs0 : List (String × Value)}
    {w0 : World} (D : DocMade E (links E.lib all) c0 cid p.base root kvs0 w0) (g : Grown w0 w)
    {ks : List String} {x : Nat} {b : Uri} {kvs : List (String × Value)}
    (c : Corr E (links E.lib all) root p w0 ks x ⟨b, .obj kvs⟩) {k : String} {kw o : KwObj} (ho : (k, o) ∈ w0.keywords x)
    (hsh : kw.shape = o.shape) (hj : kw.json = o.json) (hr : o.shape.isRef = true) :
    M.Ends (fun n => resolveKw E (newDocument E n) x k kw) w (fun w' _ => Onward E cid all old m new w w') := by
  obtain ⟨v, hv, f⟩ := c.member_exists D ho
  obtain ⟨hk, t, q, rfl, h2, h3, h3'⟩ := f.isRef c hv hr
  obtain ⟨r, r1, r2⟩ := h2
  have hdat : w0.heap.data o.json = .str t := rearr_str D.ok.ord f.rearr
  have hx0 := D.ok.dom x c.isSchema
  have hj0 : o.json < w0.heap.next := (D.ok.ord.kid _ _ (childD_kid f.child)).2.1
  have hcid : w.cacheid x = cid := by rw [g.cacheid hx0]; exact D.cacheids x c.reach c.isSchema
  have hmeta : ∃ u m, w.metaUri x = some u ∧ E.metaschema u = .ok m ∧ OfDialect m := by
    obtain ⟨m, hm, h⟩ := c.meta_ kvs rfl
    obtain ⟨u, h1, h2⟩ := (h.grown g hx0).metaUri
    exact ⟨u, m, h1, h2, hm⟩
  obtain ⟨N, w1, y, new1, r', fr, huri, h4, o1, h5, hfr⟩ : ∃ N w1 y new1 r' fr,
      (refUri E x kw).Returns w (fun w'' rf => w = w'' ∧ rf = (r', fr)) ∧
      (∀ n, N ≤ n → getSchemaWith E (newDocument E n) r' (w.metaUri x) cid w = some (w1, .ok y)) ∧
      Onto E cid all old m new w new1 w1 ∧
      (∀ q', Denotes E.lib all r q' → MadeFrom E (links E.lib all) (old ++ new1) w1 y q') ∧
      (o.shape ≠ .recursiveRef → fr = (E.lib.ofText t).fragment) := by
    by_cases hrec : o.shape = .recursiveRef
    · -- the base URI itself is looked up
      have hk' : k = "$recursiveRef" := by
        rcases hk with ⟨-, h⟩ | ⟨-, h⟩ | ⟨h, -⟩
        · rw [h] at hrec; cases hrec
        · rw [h] at hrec; cases hrec
        · exact h
      obtain ⟨-, rfl⟩ := h3' hk'
      have hnil : Fragment "".toList := .nil
      have hrel := hL.relative "" hnil
      have hres := hL.resolve "" b hnil c.absolute.1 c.absolute.2
      have hr' : r = b.withFragment "" := by
        rcases r1 with ⟨e1, -⟩ | ⟨-, e2⟩
        · exact absurd (hrel.symm.trans e1) Bool.false_ne_true
        · exact Option.some.inj (e2.symm.trans hres)
      have hb : r.noFragment = b := by rw [hr']; exact noFragment_of (u := b) c.absolute.2
      obtain ⟨ls, d, d1, d2, d3⟩ := c.at_.resource
      obtain ⟨y, hy1, -, hy2⟩ := l.shelved.find r2 (List.mem_append_right _ hp) ⟨ls, d, d1, d2, d3.trans hb.symm⟩
      refine ⟨0, w, y, new, b, none, ?_, fun n _ => ?_, .refl l hm, hy1, fun h => absurd hrec h⟩
      · unfold refUri
        rw [hsh, hrec]
        refine M.returns_read ?_
        rw [g.base D.ok hx0, c.base]
        exact M.returns_pure ⟨rfl, rfl⟩
      · have := hy2 (by rw [hr']; rfl) (newDocument E n) (w.metaUri x)
        rw [hb] at this
        exact this
    · have hkk : k = "$ref" ∨ dia = .d2020 ∧ k = "$dynamicRef" := by
        rcases hk with ⟨h, -⟩ | ⟨h, -⟩ | ⟨-, h⟩
        · exact .inl h
        · exact .inr ⟨(h3 h).1, h⟩
        · exact absurd h hrec
      have hav : Avail E.lib (old ++ new) all r.noFragment := by
        rcases l.near hp ks _ k t r c.at_ hkk ⟨kvs, rfl, hv⟩ r1 with h | h
        · exact .inl ⟨root, p, List.mem_append_right _ hp, h⟩
        · exact h
      obtain ⟨N, w1, y, h4, new1, o1, h5⟩ := ends_get hE hO hL ih l hm r2 hav hmeta
      refine ⟨N, w1, y, new1, r, (E.lib.ofText t).fragment, ?_, h4, o1, h5, fun _ => rfl⟩
      have : refUri E x kw = (do
          match ← M.read (fun w => w.heap.data kw.json) with
          | .str text =>
            resolveUri E x (E.lib.ofText text) (E.lib.isAbsolute (E.lib.ofText text).noFragment) >>= fun r =>
              pure (r, (E.lib.ofText text).fragment)
          | _ => M.unmodelled) := by
        unfold refUri
        rcases hk with ⟨-, h⟩ | ⟨-, h⟩ | ⟨-, h⟩
        · rw [hsh, h]; rfl
        · rw [hsh, h]; rfl
        · exact absurd h hrec
      rw [this]
      refine M.returns_read ?_
      rw [hj, g.ext.data hj0, hdat]
      refine M.Returns.bind (Q := fun w'' r' => w = w'' ∧ r' = r) ?_ ?_
      · unfold resolveUri
        rcases r1 with ⟨e1, rfl⟩ | ⟨e1, e2⟩
        · rw [if_pos e1]
          exact M.returns_pure ⟨rfl, rfl⟩
        · rw [if_neg (by rw [e1]; exact Bool.false_ne_true)]
          refine M.returns_read ?_
          rw [g.base D.ok hx0, c.base]
          simp only [e2]
          exact M.returns_pure ⟨rfl, rfl⟩
      · rintro w1 r ⟨rfl, rfl⟩
        exact M.returns_pure ⟨rfl, rfl⟩
  obtain ⟨todo1, h6, l1⟩ := o1.load
  have ok1 := l1.shelved.names.ok
  have g01 := g.trans o1.grown
  have h2 : (links E.lib all).refer b t q := ⟨r, r1, r2⟩
  have hto : ∀ q', (links E.lib all).refer b t q' → MadeFrom E (links E.lib all) (old ++ new1) w1 y q' := by
    rintro q' ⟨r', r1', r2'⟩
    cases refUri_unique r1 r1'
    exact h5 q' r2'
  obtain ⟨root', p', ks', -, cy⟩ := hto q h2
  have hys : w1.isSchema y = true := cy.isSchema
  -- the flag
  obtain ⟨d, hd, hd'⟩ : ∃ d, (refDynamic o.shape y fr w1 = some (w1, .ok d)) ∧
      (o.shape = .dynamicRef → ∀ q, (links E.lib all).refer b t q → (d = true ↔ ∃ f, Dynamic E.lib t f q)) := by
    rcases hk with ⟨-, hs⟩ | ⟨hk, hs⟩ | ⟨-, hs⟩
    · exact ⟨false, by rw [hs]; rfl, fun h => by rw [hs] at h; cases h⟩
    rotate_left
    · exact ⟨false, by rw [hs]; rfl, fun h => by rw [hs] at h; cases h⟩
    · obtain ⟨hd20, kvs1, hq⟩ := h3 hk
      rw [hfr (by rw [hs]; exact fun h => by cases h)]
      obtain ⟨d, e1, e2⟩ := cy.dynamic hd20 ok1 hq (E.lib.ofText t).fragment
      have hrun : refDynamic o.shape y (E.lib.ofText t).fragment w1 = some (w1, .ok d) := by
        unfold refDynamic
        rw [hs, if_pos rfl]
        show M.ofExcept (isDynamic w1 y _) w1 = _
        rw [e1]
        rfl
      refine ⟨d, hrun, fun _ q' hq' => ?_⟩
      obtain ⟨root2, p2, ks2, -, cy2⟩ := hto q' hq'
      -- both were made into the same object
      have hq2 : ∃ kvs2, q'.schema = .obj kvs2 := by
        rcases cy2.good with ⟨b', h⟩ | ⟨kvs2, h, -⟩
        · exfalso
          have h5 := cy2.rearr
          rw [h] at h5
          have h6 := cy.rearr
          rw [hq] at h6
          obtain ⟨ms, h7, -⟩ := rearr_obj ok1.ord h6
          rw [rearr_bool ok1.ord h5] at h7
          cases h7
        · exact ⟨kvs2, h⟩
      obtain ⟨kvs2, hq2⟩ := hq2
      obtain ⟨d2, e3, e4⟩ := cy2.dynamic hd20 ok1 hq2 (E.lib.ofText t).fragment
      rw [e1] at e3
      cases e3
      exact e4
  obtain ⟨w2, hset⟩ : ∃ w2, setRef x k y d w1 = some (w2, .ok ()) := ⟨_, rfl⟩
  have hrun : ∀ n, N ≤ n → resolveKw E (newDocument E n) x k kw w = some (w2, .ok ()) := by
    intro n hn
    suffices h : (resolveKw E (newDocument E n) x k kw).Returns w (fun w'' _ => w'' = w2) by
      obtain ⟨_, _, e, rfl⟩ := h
      exact e
    unfold resolveKw
    refine M.returns_read (M.returns_read ?_)
    rw [hcid]
    refine huri.bind ?_
    rintro _ _ ⟨rfl, rfl⟩
    refine M.Returns.bind (Q := fun w'' t => w1 = w'' ∧ t = y) ⟨_, _, h4 n hn, rfl, rfl⟩ ?_
    rintro _ _ ⟨rfl, rfl⟩
    rw [hsh]
    refine M.Returns.bind (Q := fun w'' d' => w1 = w'' ∧ d' = d) ⟨_, _, hd, rfl, rfl⟩ ?_
    rintro _ _ ⟨rfl, rfl⟩
    exact ⟨w2, (), hset, rfl⟩
  obtain ⟨l2, g2⟩ := l1.set hset hys fun kv hkv hkey => by
    obtain ⟨o', b2, b3, b4⟩ := g01.kw hx0 hkv
    rw [hkey] at b2
    have : o' = o := by
      have n1 := dlookup_of_mem (c.keys D).2 b2
      have n2 := dlookup_of_mem (c.keys D).2 ho
      rw [n1] at n2; cases n2; rfl
    subst this
    simp only [refObj, hkey, if_true]
    refine ⟨?_, b, t, q, y, (g01.base D.ok hx0).trans c.base, ?_, h2, rfl, hto, ?_⟩
    · show kv.2.shape = _ ∨ kv.2.shape = _ ∨ kv.2.shape = _
      rw [b3]
      exact hk.imp And.right (·.imp And.right And.right)
    · show w1.heap.data kv.2.json = _
      rw [b4, g01.ext.data hj0]; exact hdat
    · intro h
      replace h : kv.2.shape = _ := h
      rw [b3] at h
      exact hd' h
  refine ⟨N, w2, (), hrun, new1, o1.trans (Nat.le_refl _) ⟨⟨todo1, h6, l2⟩, g2, fun _ h => h, fun _ h => .inl h⟩⟩

/-- Resolution of the references of a document, which may load others. -/
theorem ends_resolve : ∀ m, ResolvesAt E cid all old m := by
  intro m
  induction m using Nat.strongRecOn with
  | ind m ih =>
  intro new todo w hm l root p hp
  obtain ⟨c0, kvs0, w0, hps, D, g⟩ := l.snap hp
  have hpe : p = ⟨p.base, .obj kvs0⟩ := by rw [← hps]
  generalize hI : Onward E cid all old m new w = I
  suffices main : ∀ d, ∀ {ks : List String} {x : Nat} {q : Site}, Corr E (links E.lib all) root p w0 ks x q →
      w0.heap.next - x ≤ d → ∀ w1, I w1 → M.Ends (fun n => resolveReferences E n x) w1 (fun w'' _ => I w'') by
    refine main _ (ks := []) (q := p) ?_ (Nat.le_refl _) w (hI ▸ ⟨new, .refl l hm⟩)
    have := D.corr
    rw [← hpe] at this
    exact this
  intro d
  induction d with
  | zero => intro ks x q c hd; have := D.ok.dom x c.isSchema; omega
  | succ d ihd =>
    intro ks x q c hd w1 m1
    have hx := D.ok.dom x c.isSchema
    have gr : ∀ {w1}, I w1 → Grown w0 w1 := by
      intro w1 h
      rw [← hI] at h
      obtain ⟨_, o⟩ := h
      exact g.trans o.grown
    refine M.Ends.succ ?_
    simp only [resolveReferences]
    refine M.ends_read (f := fun n kws => M.each (resolveOne E (newDocWith E (resolveReferences E n))
      (resolveReferences E n) x) kws) ?_
    refine M.ends_each (I := I) (fun kv hkv w2 m2 => ?_) w1 m1
    obtain ⟨o, ho, b1, b2⟩ := (gr m1).kw hx hkv
    obtain ⟨b, kvs, rfl⟩ := c.obj D ho
    have below : ∀ {ls : List String} {y : Nat} {q' : Site}, Corr E (links E.lib all) root p w0 ls y q' → x < y →
        ∀ w1, I w1 → M.Ends (fun n => resolveReferences E n y) w1 (fun w'' _ => I w'') :=
      fun cy hy w1 m1 => ihd cy (by omega) w1 m1
    obtain ⟨v, hv, f⟩ := c.member_exists D ho
    have hjx := D.ok.ord.kid _ _ (childD_kid f.child)
    by_cases hr : o.shape.isRef = true
    · have m2' := m2
      rw [← hI] at m2'
      obtain ⟨new2, o2⟩ := m2'
      obtain ⟨todo2, ht2, l2⟩ := o2.load
      obtain ⟨N, w3, a, e, new3, o3⟩ := ends_resolveKw hE hO hL ih l2 ht2 (o2.sub _ hp) D (gr m2) c ho b1 b2 hr
      refine ⟨N, w3, a, fun n hn => ?_, hI ▸ ⟨new3, o2.trans (Nat.le_refl _) o3⟩⟩
      show resolveOne E _ _ x kv w2 = _
      unfold resolveOne
      rw [if_pos (by rw [b1]; exact hr)]
      exact e n hn
    · suffices h : M.Ends (fun n => (do
          if ← M.read (fun w => w.isSchema o.json) then resolveReferences E n o.json
          else M.read (fun w => (w.heap.data o.json).kids) >>= M.each (resolveItem (resolveReferences E n)) : M Unit))
          w2 (fun w'' _ => I w'') by
        obtain ⟨N, w3, a, e, h⟩ := h
        refine ⟨N, w3, a, fun n hn => ?_, h⟩
        show resolveOne E _ _ x kv w2 = _
        unfold resolveOne
        rw [if_neg (by rw [b1]; exact hr), b2]
        exact e n hn
      refine M.ends_read (f := fun n b => if b = true then resolveReferences E n o.json
        else M.read (fun w => (w.heap.data o.json).kids) >>= M.each (resolveItem (resolveReferences E n))) ?_
      rw [(gr m2).isSchema hjx.2.1]
      have kids : w0.isSchema o.json = false → (∀ y ∈ (w0.heap.data o.json).kids, w0.isSchema y = true →
          ∃ ls q', Corr E (links E.lib all) root p w0 ls y q') →
          M.Ends (fun n => if w0.isSchema o.json = true then resolveReferences E n o.json
            else M.read (fun w => (w.heap.data o.json).kids) >>= M.each (resolveItem (resolveReferences E n)))
          w2 (fun w'' _ => I w'') := by
        intro hns hk
        rw [hns]
        simp only [Bool.false_eq_true, if_false]
        refine M.ends_read (f := fun n l => M.each (resolveItem (resolveReferences E n)) l) ?_
        rw [(gr m2).ext.data hjx.2.1]
        refine M.ends_each (I := I) (fun y hy w3 m3 => ?_) w2 m2
        have hyk := D.ok.ord.kid _ _ hy
        unfold resolveItem
        refine M.ends_read (f := fun n b => if b = true then resolveReferences E n y else pure ()) ?_
        rw [(gr m3).isSchema hyk.2.1]
        cases hys : w0.isSchema y with
        | false => exact ⟨0, w3, (), fun _ _ => rfl, m3⟩
        | true =>
          obtain ⟨ls, v', cy⟩ := hk y hy hys
          exact below cy (by omega) w3 m3
      rcases c.parts D ho with h | ⟨q', cy⟩ | ⟨h, h'⟩
      · refine kids (h _ .refl) fun y hy hys => ?_
        rw [h y (.step hy .refl)] at hys; cases hys
      · rw [cy.isSchema]
        exact below cy hjx.1 w2 m2
      · refine kids h fun y hy _ => ?_
        obtain ⟨n, q', cy⟩ := h' y hy
        exact ⟨_, _, cy⟩

end
end Jschon
