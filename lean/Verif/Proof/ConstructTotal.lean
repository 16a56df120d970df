import Verif.Proof.ConstructDoc
import Verif.Proof.KwOrder
import Verif.Spec.Constructible

/-!
# Construction succeeds on fine documents
-/

namespace Jschon
open Spec

/-! ## Plain JSON instances -/

theorem ext_push (h : JHeap) (n : JNode) : Ext h (h.push n) :=
  ⟨Nat.le_succ _, fun x hx => by
    simp only [JHeap.push]; rw [if_neg (Nat.ne_of_lt hx)]⟩

theorem ext_setData {h h' : JHeap} (e : Ext h h') {r : Ref} (hr : h.next ≤ r) (d : JData) :
    Ext h (h'.setData r d) :=
  ⟨e.le, fun x hx => by
    simp only [JHeap.setData, JHeap.alter]
    rw [if_neg (by omega)]; exact e.old x hx⟩

mutual
theorem buildData_ext : (v : Value) → ∀ (h : JHeap) (r : Ref), Ext h (buildData h r v).1
  | .null, h, _ => by simp only [buildData]; exact .refl h
  | .bool _, h, _ => by simp only [buildData]; exact .refl h
  | .num _, h, _ => by simp only [buildData]; exact .refl h
  | .str _, h, _ => by simp only [buildData]; exact .refl h
  | .arr xs, h, r => by simp only [buildData]; exact buildItems_ext xs h r 0
  | .obj kvs, h, r => by simp only [buildData]; exact buildMembers_ext kvs h r
theorem buildItems_ext : (xs : List Value) → ∀ (h : JHeap) (r : Ref) (i : Nat), Ext h (buildItems h r i xs).1
  | [], h, _, _ => by simp only [buildItems]; exact .refl h
  | x :: xs, h, r, i => by
    simp only [buildItems]
    exact (ext_setData ((ext_push h _).trans (buildData_ext x _ _)) (Nat.le_refl _) _).trans
      (buildItems_ext xs _ _ _)
theorem buildMembers_ext : (kvs : List (String × Value)) → ∀ (h : JHeap) (r : Ref),
    Ext h (buildMembers h r kvs).1
  | [], h, _ => by simp only [buildMembers]; exact .refl h
  | (k, x) :: xs, h, r => by
    simp only [buildMembers]
    exact (ext_setData ((ext_push h _).trans (buildData_ext x _ _)) (Nat.le_refl _) _).trans
      (buildMembers_ext xs _ _)
end

theorem newJson_ext (h : JHeap) (v : Value) (p : Option Ref) (k : Option String) :
    Ext h (newJson h v p k).1 :=
  ext_setData ((ext_push h _).trans (buildData_ext v _ _)) (Nat.le_refl _) _

/-! ## Computations that return -/

/-- `m` returns, with a result as described. -/
def M.Returns {α : Type} (m : M α) (w : World) (Q : World → α → Prop) : Prop :=
  ∃ w' a, m w = some (w', .ok a) ∧ Q w' a

theorem M.Returns.bind {α β : Type} {m : M α} {f : α → M β} {w : World} {Q : World → α → Prop}
    {R : World → β → Prop} (h : m.Returns w Q) (hf : ∀ w' a, Q w' a → (f a).Returns w' R) :
    (m >>= f).Returns w R := by
  obtain ⟨w1, a, h1, h2⟩ := h
  obtain ⟨w2, b, h3, h4⟩ := hf w1 a h2
  refine ⟨w2, b, ?_, h4⟩
  simp only [Bind.bind, M.andThen, h1, h3]

theorem M.Returns.mono {α : Type} {m : M α} {w : World} {Q R : World → α → Prop}
    (h : m.Returns w Q) (hq : ∀ w' a, Q w' a → R w' a) : m.Returns w R := by
  obtain ⟨w1, a, h1, h2⟩ := h
  exact ⟨w1, a, h1, hq _ _ h2⟩

theorem M.returns_pure {α : Type} {a : α} {w : World} {Q : World → α → Prop} (h : Q w a) :
    (pure a : M α).Returns w Q := ⟨w, a, rfl, h⟩

theorem M.returns_change {f : World → World} {w : World} {Q : World → Unit → Prop} (h : Q (f w) ()) :
    (M.change f).Returns w Q := ⟨f w, (), rfl, h⟩

theorem M.returns_read {α β : Type} {g : World → α} {f : α → M β} {w : World} {R : World → β → Prop}
    (h : (f (g w)).Returns w R) : (M.read g >>= f).Returns w R := by
  obtain ⟨w1, a, h1, h2⟩ := h
  exact ⟨w1, a, h1, h2⟩

/-! ## What does not change -/

/-- The base of the URI of the schema, if it has one, is allowed. -/
def GoodUri (A : Allowed) (w : World) (x : Nat) : Prop := ∀ u, w.uri x = some u → A.base u.noFragment

/-- Going on from `w` to `w'`, the nodes before `b` stay where they are, keep their metaschema URI and
do not lose their URI. -/
structure Calm (A : Allowed) (b : Nat) (w w' : World) : Prop where
  le : w.heap.next ≤ w'.heap.next
  parent : ∀ x, x < b → w'.heap.parent x = w.heap.parent x
  isSchema : ∀ x, x < b → w.isSchema x = true → w'.isSchema x = true
  metaUri : ∀ x, x < b → (w'.info x).bind SInfo.metaUri = (w.info x).bind SInfo.metaUri
  uri : ∀ x, x < b → (w.uri x).isSome = true → (w'.uri x).isSome = true
  good : ∀ x, x < b → GoodUri A w x → GoodUri A w' x
  keys : ∀ x k, x < b → k ∈ dkeys (w.keywords x) → k ∈ dkeys (w'.keywords x)
  dom : ∀ x, w'.heap.next ≤ x → w.info x = none → w'.info x = none
  cacheid : ∀ x, x < w.heap.next → w'.cacheid x = w.cacheid x

variable {A : Allowed}

theorem Calm.refl (b : Nat) (w : World) : Calm A b w w :=
  ⟨Nat.le_refl _, fun _ _ => rfl, fun _ _ h => h, fun _ _ => rfl, fun _ _ h => h, fun _ _ h => h, fun _ _ _ h => h,
    fun _ _ h => h, fun _ _ => rfl⟩

theorem Calm.trans {b : Nat} {w w' w'' : World} (a : Calm A b w w') (c : Calm A b w' w'') : Calm A b w w'' :=
  ⟨Nat.le_trans a.le c.le, fun x hx => (c.parent x hx).trans (a.parent x hx),
    fun x hx h => c.isSchema x hx (a.isSchema x hx h),
    fun x hx => (c.metaUri x hx).trans (a.metaUri x hx), fun x hx h => c.uri x hx (a.uri x hx h),
    fun x hx h => c.good x hx (a.good x hx h),
    fun x k hx h => c.keys x k hx (a.keys x k hx h),
    fun x hx h => c.dom x hx (a.dom x (Nat.le_trans c.le hx) h),
    fun x hx => (c.cacheid x (Nat.lt_of_lt_of_le hx a.le)).trans (a.cacheid x hx)⟩

theorem Calm.weaken {b b' : Nat} {w w' : World} (a : Calm A b w w') (h : b' ≤ b) : Calm A b' w w' :=
  ⟨a.le, fun x hx => a.parent x (by omega), fun x hx => a.isSchema x (by omega),
    fun x hx => a.metaUri x (by omega),
    fun x hx => a.uri x (by omega), fun x hx => a.good x (by omega), fun x k hx => a.keys x k (by omega), a.dom, a.cacheid⟩

/-- Steps on the whole world. -/
theorem Calm.next {b : Nat} {w w' w'' : World} (a : Calm A b w w') (c : Calm A w'.heap.next w' w'')
    (h : b ≤ w.heap.next) : Calm A b w w'' := a.trans (c.weaken (Nat.le_trans h a.le))

/-- There is a URI at `s` or above. -/
inductive HasUri (A : Allowed) (w : World) : Nat → Prop
  | here {s} : (w.uri s).isSome = true → GoodUri A w s → HasUri A w s
  | up {s p} : GoodUri A w s → w.heap.parent s = some p → p < s → HasUri A w p → HasUri A w s

/-- The metaschema in force at `s`. -/
inductive HasMeta (E : CEnv) (w : World) (m : Meta) : Nat → Prop
  | here {s u} : (w.info s).bind SInfo.metaUri = some u → E.metaschema u = .ok m → HasMeta E w m s
  | up {s p} : (w.info s).bind SInfo.metaUri = none → w.heap.parent s = some p → p < s → HasMeta E w m p →
      HasMeta E w m s

theorem HasUri.mono {b : Nat} {w w' : World} (c : Calm A b w w') {s : Nat} (h : HasUri A w s) (hs : s < b) :
    HasUri A w' s := by
  induction h with
  | here h h' => exact .here (c.uri _ hs h) (c.good _ hs h')
  | up h0 h1 h2 _ ih => exact .up (c.good _ hs h0) ((c.parent _ hs).trans h1) h2 (ih (by omega))

theorem HasMeta.mono {E : CEnv} {m : Meta} {b : Nat} {w w' : World} (c : Calm A b w w') {s : Nat}
    (h : HasMeta E w m s) (hs : s < b) : HasMeta E w' m s := by
  induction h with
  | here h h' => exact .here ((c.metaUri _ hs).trans h) h'
  | up h0 h1 h2 _ ih => exact .up ((c.metaUri _ hs).trans h0) ((c.parent _ hs).trans h1) h2 (ih (by omega))

theorem HasUri.nearest {w : World} {s : Nat} (h : HasUri A w s) : ∀ n, s < n →
    ∃ u, w.nearest SInfo.uri n s = some u ∧ A.base u.noFragment := by
  induction h with
  | @here s h h' =>
    intro n hn
    obtain ⟨u, hu⟩ := Option.isSome_iff_exists.1 h
    cases n with
    | zero => omega
    | succ n => exact ⟨u, by rw [World.nearest, show (w.info s).bind SInfo.uri = some u from hu], h' u hu⟩
  | @up s p h0 h1 h2 _ ih =>
    intro n hn
    cases n with
    | zero => omega
    | succ n =>
      rw [World.nearest]
      cases hu : (w.info s).bind SInfo.uri with
      | some u => exact ⟨u, rfl, h0 u hu⟩
      | none => simp only [h1]; exact ih n (by omega)

theorem HasUri.base {w : World} {s : Nat} (h : HasUri A w s) : ∃ u, w.baseUri s = some u ∧ A.base u := by
  obtain ⟨u, hu, hb⟩ := h.nearest (s + 1) (Nat.lt_succ_self _)
  exact ⟨u.noFragment, by rw [World.baseUri, hu]; rfl, hb⟩

theorem HasMeta.nearest {E : CEnv} {m : Meta} {w : World} {s : Nat} (h : HasMeta E w m s) : ∀ n, s < n →
    ∃ u, w.nearest SInfo.metaUri n s = some u ∧ E.metaschema u = .ok m := by
  induction h with
  | @here s u h h' =>
    intro n hn
    cases n with
    | zero => omega
    | succ n => exact ⟨u, by rw [World.nearest, h], h'⟩
  | @up s p h0 h1 h2 _ ih =>
    intro n hn
    cases n with
    | zero => omega
    | succ n =>
      rw [World.nearest, h0]
      simp only [h1]
      exact ih n (by omega)

theorem HasMeta.get {E : CEnv} {m : Meta} {w : World} {s : Nat} (h : HasMeta E w m s) :
    (getMeta E s).Returns w (fun w' m' => w' = w ∧ m' = m) := by
  obtain ⟨u, h1, h2⟩ := h.nearest (s + 1) (Nat.lt_succ_self _)
  refine M.returns_read ?_
  rw [World.metaUri, h1]
  exact ⟨w, m, by simp only [M.ofExcept, h2], rfl, rfl⟩

/-! ## Steps -/

theorem calm_info {w w' : World} (h1 : w'.info = w.info) (h2 : w.heap.next ≤ w'.heap.next)
    (h3 : ∀ x, x < w.heap.next → w'.heap.parent x = w.heap.parent x)
    : Calm A w.heap.next w w' where
  le := h2
  parent := h3
  isSchema x _ h := by simp only [World.isSchema, h1]; exact h
  metaUri x _ := by rw [h1]
  uri x _ h := by simp only [World.uri, h1]; exact h
  good x _ h := by simp only [GoodUri, World.uri, h1]; exact h
  keys x k _ h := by simp only [World.keywords, h1]; exact h
  dom x _ h := by rw [h1]; exact h
  cacheid x _ := by simp only [World.cacheid, h1]

/-- The names and classes of keywords. -/
def sigs (kws : List (String × KwObj)) : List (String × KwShape) := kws.map (fun kv => (kv.1, kv.2.shape))

theorem sigs_keys (kws : List (String × KwObj)) : (sigs kws).map Prod.fst = dkeys kws := by
  simp [sigs, dkeys, Function.comp_def]

/-- The keywords that `_bootstrap` makes. -/
def BootKw (k : String) (shape : KwShape) : Prop :=
  (k = "$schema" ∧ shape = .schema) ∨ (k = "$vocabulary" ∧ shape = .vocabulary) ∨
  (k = "$id" ∧ (shape = .id ∨ shape = .idNext))

/-- Not yet resolved. -/
def Bare (kw : KwObj) : Prop := kw.refschema = none ∧ kw.dynamic = false

/-- The keywords of a schema as construction leaves them: first those of `_bootstrap`, then the others,
each after those it depends on and of the class that the metaschema in force has for it. -/
def Tidy (E : CEnv) (A : Allowed) (w : World) (x : Nat) : Prop :=
  (∀ kv ∈ w.keywords x, Bare kv.2) ∧ ∃ (bs : List (String × KwShape)) (cs : List KwCls),
    sigs (w.keywords x) = bs ++ cs.map (fun c => (c.key, c.shape)) ∧ (∀ b ∈ bs, BootKw b.1 b.2) ∧
    (∀ c ∈ cs, A.cls c) ∧ DepsFirst KwCls.key KwCls.deps cs ∧
    (cs ≠ [] → ∃ m, HasMeta E w m x ∧ ∀ c ∈ cs, getKwclass m c.key = .ok c) ∧
    (w.heap.parent x ≠ none → "$schema" ∉ dkeys (w.keywords x) → (w.info x).bind SInfo.metaUri = none)

/-- The metaschema in force at `x` remains. -/
def Remains (E : CEnv) (w w' : World) (x : Nat) : Prop :=
  w'.heap.parent x = w.heap.parent x ∧ ∀ m, HasMeta E w m x → HasMeta E w' m x

theorem Calm.remains {E : CEnv} {b : Nat} {w w' : World} (c : Calm A b w w') {x : Nat} (h : x < b) : Remains E w w' x :=
  ⟨c.parent x h, fun _ hm => hm.mono c h⟩

theorem Tidy.mono {E : CEnv} {w w' : World} {x : Nat} (h : Tidy E A w x) (hi : w'.info x = w.info x)
    (hm : Remains E w w' x) : Tidy E A w' x := by
  have hk : w'.keywords x = w.keywords x := by simp only [World.keywords, hi]
  obtain ⟨h1, bs, cs, h2, h3, h4, h5, h6, h9⟩ := h
  refine ⟨by rw [hk]; exact h1, bs, cs, by rw [hk]; exact h2, h3, h4, h5, fun h => ?_, ?_⟩
  · obtain ⟨m, h7, h8⟩ := h6 h
    exact ⟨m, hm.2 m h7, h8⟩
  · rw [hk, hi, hm.1]; exact h9

/-- The old nodes keep their attributes, and the new schemas are tidy. -/
structure Made (E : CEnv) (A : Allowed) (w w' : World) : Prop where
  info : ∀ x, x < w.heap.next → w'.info x = w.info x
  tidy : ∀ x, w.heap.next ≤ x → w'.isSchema x = true → Tidy E A w' x

theorem keywords_of_info {w w' : World} {x : Nat} (h : w'.info x = w.info x) : w'.keywords x = w.keywords x := by
  simp only [World.keywords, h]

theorem isSchema_of_info {w w' : World} {x : Nat} (h : w'.info x = w.info x) : w'.isSchema x = w.isSchema x := by
  simp only [World.isSchema, h]

theorem Made.trans {E : CEnv} {w w' w'' : World} (hle : w.heap.next ≤ w'.heap.next) (a : Made E A w w')
    (c : Calm A w'.heap.next w' w'') (b : Made E A w' w'') : Made E A w w'' where
  info x hx := (b.info x (by omega)).trans (a.info x hx)
  tidy x hx hs := by
    by_cases h : w'.heap.next ≤ x
    · exact b.tidy x h hs
    · have hi := b.info x (by omega)
      exact (a.tidy x hx (by rw [← isSchema_of_info hi]; exact hs)).mono hi (c.remains (by omega))

theorem made_info {E : CEnv} {w w' : World} (hd : ∀ x, w.heap.next ≤ x → w.info x = none) (h : w'.info = w.info) :
    Made E A w w' where
  info x _ := by rw [h]
  tidy x hx hs := by simp [World.isSchema, h, hd x hx] at hs

/-- Only attributes of `s` other than its keywords have changed. -/
structure Touch (s : Nat) (w w' : World) : Prop where
  next : w'.heap.next = w.heap.next
  info : ∀ x, x ≠ s → w'.info x = w.info x
  keywords : w'.keywords s = w.keywords s

theorem Touch.refl (s : Nat) (w : World) : Touch s w w := ⟨rfl, fun _ _ => rfl, rfl⟩

theorem Touch.trans {s : Nat} {w w' w'' : World} (a : Touch s w w') (b : Touch s w' w'') : Touch s w w'' :=
  ⟨b.next.trans a.next, fun x hx => (b.info x hx).trans (a.info x hx), b.keywords.trans a.keywords⟩

theorem touch_setInfo {w : World} {s : Nat} {f : SInfo → SInfo} (h : ∀ i, (f i).keywords = i.keywords)
    (c : Caches) : Touch s w { w.setInfo s f with caches := c } := by
  refine ⟨rfl, fun x hx => by simp only [World.setInfo, if_neg hx], ?_⟩
  simp only [World.keywords, World.setInfo, if_true]
  cases w.info s with
  | none => rfl
  | some i => simp [h]

theorem touch_putUri {lib : UriLib} {w : World} {s : Nat} {u : Uri} : Touch s w (w.putUri lib s u) := by
  unfold World.putUri
  split
  · exact .refl _ _
  · exact touch_setInfo (f := fun i => { i with uri := some u }) (fun _ => rfl) _

/-- `s` has new keywords. -/
structure Adds (E : CEnv) (A : Allowed) (s : Nat) (new : List (String × KwShape)) (w w' : World) : Prop where
  le : w.heap.next ≤ w'.heap.next
  info : ∀ x, x < w.heap.next → x ≠ s → w'.info x = w.info x
  tidy : ∀ x, w.heap.next ≤ x → w'.isSchema x = true → Tidy E A w' x
  sigs : sigs (w'.keywords s) = sigs (w.keywords s) ++ new
  bare : ∀ kv ∈ w'.keywords s, kv ∈ w.keywords s ∨ Bare kv.2

theorem Adds.refl {E : CEnv} {s : Nat} {w : World} (hd : ∀ x, w.heap.next ≤ x → w.info x = none) : Adds E A s [] w w where
  le := Nat.le_refl _
  info _ _ _ := rfl
  tidy x hx hs := by simp [World.isSchema, hd x hx] at hs
  sigs := by simp
  bare _ h := .inl h

theorem Adds.trans {E : CEnv} {s : Nat} {l l' : List (String × KwShape)} {w w' w'' : World} (hs : s < w.heap.next)
    (a : Adds E A s l w w') (c : Calm A w'.heap.next w' w'') (b : Adds E A s l' w' w'') : Adds E A s (l ++ l') w w'' where
  le := Nat.le_trans a.le b.le
  info x hx hn := (b.info x (Nat.lt_of_lt_of_le hx a.le) hn).trans (a.info x hx hn)
  tidy x hx hx' := by
    by_cases h : w'.heap.next ≤ x
    · exact b.tidy x h hx'
    · have hi := b.info x (by omega) (by omega)
      exact (a.tidy x hx (by rw [← isSchema_of_info hi]; exact hx')).mono hi (c.remains (by omega))
  sigs := by rw [b.sigs, a.sigs, List.append_assoc]
  bare kv h := by
    rcases b.bare kv h with h | h
    · exact a.bare kv h
    · exact .inr h

/-- One keyword: its instance, its initialization, its entry. -/
theorem Adds.one {E : CEnv} {s : Nat} {l : List (String × KwShape)} {w w1 w2 w3 : World} (hs : s < w.heap.next)
    (hle : w.heap.next ≤ w1.heap.next) (a : Made E A w w1) (b : Touch s w1 w2) (c : Adds E A s l w2 w3)
    (hm : ∀ x, w.heap.next ≤ x → x < w1.heap.next → w1.isSchema x = true → Remains E w1 w3 x) :
    Adds E A s l w w3 where
  le := by have := c.le; have := b.next; omega
  info x hx hn := by
    rw [c.info x (by have := b.next; omega) hn, b.info x hn, a.info x hx]
  tidy x hx hx' := by
    have h2 := b.next
    by_cases h : w1.heap.next ≤ x
    · exact c.tidy x (by omega) hx'
    · have hi := (c.info x (by omega) (by omega)).trans (b.info x (by omega))
      have hx1 : w1.isSchema x = true := by rw [← isSchema_of_info hi]; exact hx'
      exact (a.tidy x hx hx1).mono hi (hm x hx (by omega) hx1)
  sigs := by rw [c.sigs, b.keywords, keywords_of_info (a.info s hs)]
  bare kv h := by
    have := c.bare kv h
    rwa [b.keywords, keywords_of_info (a.info s hs)] at this

theorem calm_setData (w : World) (s : Nat) (d : JData) :
    Calm A w.heap.next w { w with heap := w.heap.setData s d } :=
  calm_info rfl (Nat.le_refl _) (fun _ _ => setData_parent ..)

theorem calm_newJsonM {E : CEnv} {v : Value} {p : Option Nat} {k : Option String} {w : World}
    (hd : ∀ x, w.heap.next ≤ x → w.info x = none) :
    (newJsonM v p k).Returns w (fun w' _ => Calm A w.heap.next w w' ∧ Made E A w w' ∧ w'.info = w.info) :=
  ⟨_, _, rfl, calm_info rfl (newJson_ext ..).le (fun _ hx => (newJson_ext ..).parent hx),
    made_info hd rfl, rfl⟩

theorem push_next_parent (h : JHeap) (n : JNode) : (h.push n).parent h.next = n.parent := by
  simp only [JHeap.parent, JHeap.push, if_true, Option.bind_some]

theorem calm_newJsonNode {p : Nat} {k : Option String} {w : World} :
    (newJsonNode (some p) k).Returns w (fun w' j => Calm A w.heap.next w w' ∧ j = w.heap.next ∧
      w'.heap.next = w.heap.next + 1 ∧ w'.heap.parent j = some p ∧ w'.info = w.info) :=
  ⟨_, _, rfl, calm_info rfl (Nat.le_succ _) (fun _ hx => (ext_push ..).parent hx), rfl, rfl,
    push_next_parent .., rfl⟩

theorem calm_newSchemaNode {cid : String} {uri metaUri : Option Uri} {p : Option Nat} {k : Option String}
    {w : World} :
    (newSchemaNode cid uri metaUri p k).Returns w (fun w' s => Calm A w.heap.next w w' ∧
      s = w.heap.next ∧ w'.heap.next = w.heap.next + 1 ∧ w'.heap.parent s = p ∧
      w'.info s = some { cacheid := cid, uri, metaUri } ∧ ∀ x, x ≠ s → w'.info x = w.info x) := by
  refine ⟨_, _, rfl, ⟨Nat.le_succ _, fun _ hx => (ext_push ..).parent hx, fun x hx h => ?_, fun x hx => ?_,
    fun x hx h => ?_, fun x hx h => ?_, fun x k hx h => ?_, fun x hx h => ?_, fun x hx => ?_⟩, rfl, rfl,
    push_next_parent .., if_pos rfl,
    fun x hx => if_neg hx⟩
  · simp only [World.isSchema, if_neg (Nat.ne_of_lt hx)]; exact h
  · simp only [if_neg (Nat.ne_of_lt hx)]
  · simp only [World.uri, if_neg (Nat.ne_of_lt hx)]; exact h
  · simp only [GoodUri, World.uri, if_neg (Nat.ne_of_lt hx)]; exact h
  · simp only [World.keywords, if_neg (Nat.ne_of_lt hx)]; exact h
  · simp only
    rw [if_neg (Nat.ne_of_gt hx)]; exact h
  · simp only [World.cacheid, if_neg (Nat.ne_of_lt hx)]

theorem calm_setInfo (w : World) (s : Nat) (f : SInfo → SInfo) (c : Caches) (h1 : ∀ i, (f i).metaUri = i.metaUri)
    (h2 : ∀ i, i.uri.isSome = true → (f i).uri.isSome = true)
    (h3 : ∀ i u, (f i).uri = some u → i.uri = some u ∨ A.base u.noFragment)
    (h4 : ∀ i k, k ∈ dkeys i.keywords → k ∈ dkeys (f i).keywords)
    (h5 : ∀ i, (f i).cacheid = i.cacheid) :
    Calm A w.heap.next w { w.setInfo s f with caches := c } where
  le := Nat.le_refl _
  parent _ _ := rfl
  isSchema x _ h := by simp only [World.isSchema, World.setInfo] at h ⊢; split <;> simpa using h
  metaUri x _ := by
    simp only [World.setInfo]
    split
    · cases w.info x with
      | none => rfl
      | some i => exact h1 i
    · rfl
  uri x _ h := by
    simp only [World.uri, World.setInfo] at h ⊢
    split
    · cases hi : w.info x with
      | none => rw [hi] at h; cases h
      | some i => rw [hi] at h; exact h2 i h
    · exact h
  good x _ h := by
    simp only [GoodUri, World.uri, World.setInfo] at h ⊢
    split
    · cases hi : w.info x with
      | none => intro u hu; cases hu
      | some i =>
        rw [hi] at h
        intro u hu
        rcases h3 i u hu with h' | h'
        · exact h u h'
        · exact h'
    · exact h
  keys x k _ h := by
    simp only [World.keywords, World.setInfo] at h ⊢
    split
    · cases hi : w.info x with
      | none => rw [hi] at h; simp [dkeys] at h
      | some i => rw [hi] at h; exact h4 i k h
    · exact h
  dom x _ h := by
    simp only [World.setInfo]
    split
    · rw [h]; rfl
    · exact h
  cacheid x _ := setInfo_cacheid w s f h5 x

theorem calm_putUri (lib : UriLib) (w : World) (s : Nat) (u : Uri) (hq : A.base u.noFragment) :
    Calm A w.heap.next w (w.putUri lib s u) := by
  unfold World.putUri
  split
  · exact .refl _ _
  · exact calm_setInfo w s (fun i => { i with uri := some u }) _ (fun _ => rfl) (fun _ _ => rfl)
      (fun _ v h => .inr (by cases h; exact hq)) (fun _ _ h => h) (fun _ => rfl)

theorem returns_setUri {lib : UriLib} {s : Nat} {u : Uri} {w : World} (hq : A.base u.noFragment) :
    (setUri lib s u).Returns w (fun w' _ => Calm A w.heap.next w w' ∧ Touch s w w') :=
  M.returns_change ⟨calm_putUri lib w s u hq, touch_putUri⟩

theorem returns_resolveUri {E : CEnv} {s : Nat} {u : Uri} {a : Bool} {w : World} (hb : HasUri A w s)
    (h1 : a = true → A.base u.noFragment)
    (h2 : a = false → ∀ b, A.base b → ∃ r, E.lib.resolve u b = some r ∧ A.base r.noFragment) :
    (resolveUri E s u a).Returns w (fun w' r => w' = w ∧ A.base r.noFragment) := by
  unfold resolveUri
  split
  · rename_i ha
    exact M.returns_pure ⟨rfl, h1 ha⟩
  · rename_i ha
    obtain ⟨b, hb, hg⟩ := hb.base
    obtain ⟨r, hr, hr'⟩ := h2 (by simpa using ha) b hg
    refine M.returns_read ?_
    rw [hb]
    simp only [hr]
    exact M.returns_pure ⟨rfl, hr'⟩

theorem returns_addAnchor {E : CEnv} {s : Nat} {t : String} {w : World} (hb : HasUri A w s) :
    (addAnchor E s t).Returns w (fun w' _ => Calm A w.heap.next w w' ∧ Touch s w w') := by
  obtain ⟨b, hb, -⟩ := hb.base
  refine M.returns_read ?_
  rw [hb]
  exact M.returns_change ⟨calm_info rfl (Nat.le_refl _) (fun _ _ => rfl),
    rfl, fun _ _ => rfl, rfl⟩

/-! ## Keywords -/

/-- A constructor of the instance of a keyword returns. -/
def BuildFine (E : CEnv) (A : Allowed) (b : KwBuild) (shape : KwShape) (s : Nat) (w : World) : Prop :=
  (b shape s).Returns w (fun w' _ => Calm A w.heap.next w w' ∧ Made E A w w')

theorem returns_enter {E : CEnv} {s j : Nat} {shape : KwShape} {key : String} {w : World}
    (hs : w.isSchema s = true) (hk : key ∉ dkeys (w.keywords s)) (hd : ∀ x, w.heap.next ≤ x → w.info x = none) :
    (M.change fun w =>
      let w := w.setInfo s (fun i => { i with keywords := dset key { shape, json := j } i.keywords })
      match w.heap.data s with
      | .obj ms => { w with heap := w.heap.setData s (.obj (dset key j ms)) }
      | _ => w).Returns w (fun w' _ => Calm A w.heap.next w w' ∧ Adds E A s [(key, shape)] w w') := by
  have h : Calm A w.heap.next w (w.setInfo s (fun i =>
      { i with keywords := dset key { shape, json := j } i.keywords })) :=
    calm_setInfo w s (fun i => { i with keywords := dset key { shape, json := j } i.keywords }) w.caches
    (fun _ => rfl) (fun _ h => h) (fun _ _ h => .inl h) (fun i k h => mem_dkeys_dset.2 (.inr h))
    (fun _ => rfl)
  have ha : Adds E A s [(key, shape)] w (w.setInfo s (fun i =>
      { i with keywords := dset key { shape, json := j } i.keywords })) := by
    obtain ⟨i, hi⟩ := Option.isSome_iff_exists.1 hs
    have hkw : (w.setInfo s (fun i => { i with keywords := dset key { shape, json := j } i.keywords })).keywords s =
        w.keywords s ++ [(key, { shape, json := j })] := by
      simp only [World.keywords, hi, Option.map_some, Option.getD_some] at hk
      simp only [World.keywords, World.setInfo, if_true, hi, Option.map_some, Option.getD_some]
      rcases dset_cases (k := key) (v := ({ shape, json := j } : KwObj)) (d := i.keywords) with
        ⟨h1, h2⟩ | ⟨l, x, r, h1, h2, h3⟩
      · exact h2
      · exact absurd (by rw [h2]; simp [dkeys]) hk
    refine ⟨Nat.le_refl _, fun x _ hx => by simp only [World.setInfo, if_neg hx], fun x hx hx' => ?_, ?_, ?_⟩
    · rw [setInfo_isSchema] at hx'
      simp [World.isSchema, hd x hx] at hx'
    · rw [hkw]; simp [Jschon.sigs]
    · rw [hkw]
      intro kv h
      rcases List.mem_append.1 h with h | h
      · exact .inl h
      · rw [List.mem_singleton.1 h]; exact .inr ⟨rfl, rfl⟩
  refine M.returns_change ?_
  simp only
  split
  · exact ⟨h.trans (calm_setData (w.setInfo s (fun i =>
      { i with keywords := dset key { shape, json := j } i.keywords })) s _),
      ⟨ha.le, ha.info, fun x hx hx' => by
        have h2 : (w.setInfo s (fun i =>
          { i with keywords := dset key { shape, json := j } i.keywords })).isSchema x = true := hx'
        rw [setInfo_isSchema] at h2
        simp [World.isSchema, hd x hx] at h2, ha.sigs, ha.bare⟩⟩
  · exact ⟨h, ha⟩

/-- What is needed of `initKw`: it returns. -/
theorem returns_addKeyword {E : CEnv} {s : Nat} {shape : KwShape} {key : String} {v : Value} {b : KwBuild}
    {w : World} (hlt : s < w.heap.next) (hk : key ∉ dkeys (w.keywords s))
    (hd : ∀ x, w.heap.next ≤ x → w.info x = none) {Q : World → World → Prop} {B : World → Prop}
    (hb : (b shape s).Returns w (fun w' _ => Calm A w.heap.next w w' ∧ Made E A w w' ∧ B w'))
    (hm : ∀ w1 w2 x, B w1 → Q w1 w2 → w.heap.next ≤ x → x < w1.heap.next → w1.isSchema x = true → Remains E w1 w2 x)
    (hi : ∀ w1, Calm A w.heap.next w w1 → (initKw E s shape v).Returns w1
      (fun w2 _ => Q w1 w2 ∧ w2.isSchema s = true ∧ Touch s w1 w2)) :
    (addKeyword E s shape key v b).Returns w (fun w' _ => (∃ w1 w2, Calm A w.heap.next w w1 ∧ Q w1 w2 ∧
      Calm A w2.heap.next w2 w') ∧ Adds E A s [(key, shape)] w w') := by
  refine hb.bind fun w1 j c1 => (hi w1 c1.1).bind fun w2 _ c2 => ?_
  have hk2 : w2.keywords s = w.keywords s := by
    rw [c2.2.2.keywords, keywords_of_info (c1.2.1.info s hlt)]
  have hd2 : ∀ x, w2.heap.next ≤ x → w2.info x = none := by
    intro x hx
    rw [c2.2.2.next] at hx
    have := c1.1.le
    rw [c2.2.2.info x (by omega)]
    exact c1.1.dom x hx (hd x (by omega))
  exact (returns_enter c2.2.1 (by rw [hk2]; exact hk) hd2).mono fun w3 _ c3 =>
    ⟨⟨w1, w2, c1.1, c2.1, c3.1⟩, .one hlt c1.1.le c1.2.1 c2.2.2 c3.2 fun x hx hx1 hs => by
      have h1 := hm w1 w2 x c1.2.2 c2.1 hx hx1 hs
      have h2 : Remains E w2 w3 x := c3.1.remains (by rw [c2.2.2.next]; exact hx1)
      exact ⟨h2.1.trans h1.1, fun m h => h2.2 m (h1.2 m h)⟩⟩

theorem returns_addKeyword_calm {E : CEnv} {s : Nat} {shape : KwShape} {key : String} {v : Value} {b : KwBuild}
    {w : World} (hs : w.isSchema s = true) (hlt : s < w.heap.next) (hk : key ∉ dkeys (w.keywords s))
    (hd : ∀ x, w.heap.next ≤ x → w.info x = none) (hb : BuildFine E A b shape s w)
    (hi : ∀ w1, Calm A w.heap.next w w1 → (initKw E s shape v).Returns w1
      (fun w2 _ => Calm A w1.heap.next w1 w2 ∧ Touch s w1 w2)) :
    (addKeyword E s shape key v b).Returns w (fun w' _ => Calm A w.heap.next w w' ∧
      Adds E A s [(key, shape)] w w') := by
  refine (returns_addKeyword hlt hk hd (Q := fun w1 w2 => Calm A w1.heap.next w1 w2) (B := fun _ => True)
    (hb.mono fun _ _ h => ⟨h.1, h.2, trivial⟩) (fun w1 w2 x _ c _ hx _ => c.remains hx) fun w1 c1 => ?_).mono ?_
  · refine (hi w1 c1).mono fun w2 _ c2 => ⟨c2.1, ?_, c2.2⟩
    exact c2.1.isSchema s (Nat.lt_of_lt_of_le hlt c1.le) (c1.isSchema s hlt hs)
  · rintro w' _ ⟨⟨w1, w2, c1, c2, c3⟩, ha⟩
    exact ⟨(c1.next c2 (Nat.le_refl _)).next c3 (Nat.le_refl _), ha⟩

/-- The constructors of the keyword classes return on fine values. -/
theorem returns_initKw {E : CEnv} {m : Meta} {shape : KwShape} {v : Value} (h : FineValue E A m shape v)
    {s : Nat} {w : World} (hb : HasUri A w s) :
    (initKw E s shape v).Returns w (fun w' _ => Calm A w.heap.next w w' ∧ Touch s w w') := by
  have done : (pure () : M Unit).Returns w (fun w' _ => Calm A w.heap.next w w' ∧ Touch s w w') :=
    M.returns_pure ⟨.refl _ _, .refl _ _⟩
  cases h with
  | lenient h => rcases h with rfl | rfl | rfl <;> cases v <;> exact done
  | schema h _ => rcases h with rfl | rfl <;> cases v <;> exact done
  | array h _ => rcases h with rfl | rfl <;> exact done
  | object _ => exact done
  | anchor h => rcases h with rfl | rfl <;> exact returns_addAnchor hb
  | pattern h => simp only [initKw, h, if_true]; exact done
  | @format _ t h =>
    simp only [initKw]
    split
    · rename_i hc
      simp only [Bool.and_eq_true, Bool.not_eq_true'] at hc
      rw [h hc.1] at hc; cases hc.2
    · exact done
  | ref h => rcases h with rfl | rfl <;> exact done
  | recursive => exact done

/-! ## Schema objects -/

/-- The classes whose constructor makes a plain JSON instance. -/
def KwShape.plainJson : KwShape → Bool
  | .subschema | .arrayOfSubschemas | .objectOfSubschemas | .subschemaOrArray => false
  | _ => true

theorem kwBuild_plain {E : CEnv} {cid k : String} {v : Value} {shape : KwShape} (h : shape.plainJson = true)
    {s : Nat} {w : World} (hd : ∀ x, w.heap.next ≤ x → w.info x = none) :
    (kwBuild E cid k v shape s).Returns w (fun w' _ => Calm A w.heap.next w w' ∧ Made E A w w' ∧ w'.info = w.info) := by
  have : kwBuild E cid k v shape s = newJsonM v (some s) (some k) := by
    cases v <;> cases shape <;> first | rfl | cases h
  rw [this]
  exact calm_newJsonM hd

theorem kwBuild_plain_fine {E : CEnv} {cid k : String} {v : Value} {shape : KwShape} (h : shape.plainJson = true)
    {s : Nat} {w : World} (hd : ∀ x, w.heap.next ≤ x → w.info x = none) :
    BuildFine E A (kwBuild E cid k v) shape s w :=
  (kwBuild_plain h hd).mono fun _ _ h => ⟨h.1, h.2.1⟩

/-- Everything that keyword constructors need. -/
structure Ready (E : CEnv) (A : Allowed) (mo : Option Meta) (s : Nat) (w : World) : Prop where
  lt : s < w.heap.next
  isSchema : w.isSchema s = true
  uri : HasUri A w s
  metas : ∀ m, mo = some m → HasMeta E w m s
  dom : ∀ x, w.heap.next ≤ x → w.info x = none

theorem Ready.mono {E : CEnv} {mo : Option Meta} {s : Nat} {w w' : World} (r : Ready E A mo s w)
    (c : Calm A w.heap.next w w') : Ready E A mo s w' :=
  ⟨Nat.lt_of_lt_of_le r.lt c.le, c.isSchema s r.lt r.isSchema, r.uri.mono c r.lt,
    fun m hm => (r.metas m hm).mono c r.lt,
    fun x hx => c.dom x hx (r.dom x (Nat.le_trans c.le hx))⟩

theorem HasUri.of {w w' : World} (h1 : ∀ x, w'.uri x = w.uri x)
    (h2 : w'.heap = w.heap) {s : Nat} (h : HasUri A w s) : HasUri A w' s := by
  induction h with
  | here h h' => exact .here (by rw [h1]; exact h) (by rw [GoodUri, h1]; exact h')
  | up h' a b _ ih => exact .up (by rw [GoodUri, h1]; exact h') (by rw [h2]; exact a) b ih

theorem not_mem_of_sigs {kws : List (String × KwObj)} {l : List (String × KwShape)} {k : String}
    (h : sigs kws = l) (hl : ∀ b ∈ l, b.1 ≠ k) : k ∉ dkeys kws := by
  rw [← sigs_keys, h]
  intro hk
  obtain ⟨b, h1, h2⟩ := List.mem_map.1 hk
  exact hl b h1 h2

/-- What a step of `_bootstrap` adds. -/
def BootAdds (key : String) (kvs : List (String × Value)) (new : List (String × KwShape)) : Prop :=
  (new = [] ∧ key ∉ dkeys kvs) ∨ ∃ shape, new = [(key, shape)] ∧ BootKw key shape

theorem returns_bootSchema {E : CEnv} {mo mo' : Option Meta} {kvs : List (String × Value)} {cid : String}
    {s : Nat} {w : World} (hm : MetaFor E mo kvs mo') (r : Ready E A mo s w) (hk : w.keywords s = []) :
    (bootOne E s kvs (kwBuilds E cid kvs) "$schema" .schema).Returns w (fun w' _ => Calm A s w w' ∧
      Ready E A mo' s w' ∧ ("$schema" ∉ dkeys kvs → w' = w) ∧ ∃ new, Adds E A s new w w' ∧ BootAdds "$schema" kvs new) := by
  unfold bootOne
  rw [dlookup_kwBuilds]
  rcases hm with ⟨h1, rfl⟩ | ⟨t, m, h1, h2, h3, rfl⟩
  · rw [h1]
    exact M.returns_pure ⟨.refl _ _, r, fun _ => rfl, [], .refl r.dom, .inl ⟨rfl, dlookup_eq_none.1 h1⟩⟩
  · rw [h1]
    have hi : ∀ w1, Calm A w.heap.next w w1 → (initKw E s .schema (.str t)).Returns w1 (fun w2 _ =>
        (w2 = w1.setInfo s (fun i => { i with metaUri := some (E.lib.ofText t) })) ∧ w2.isSchema s = true ∧
          Touch s w1 w2) := by
      intro w1 c1
      simp only [initKw, h2]
      refine M.returns_change ⟨rfl, ?_, touch_setInfo (f := fun i => { i with metaUri := some (E.lib.ofText t) })
        (fun _ => rfl) _⟩
      rw [setInfo_isSchema]
      exact c1.isSchema s r.lt r.isSchema
    refine (returns_addKeyword r.lt (by rw [hk]; simp [dkeys]) r.dom 
      (Q := fun w1 w2 => w2 = w1.setInfo s (fun i => { i with metaUri := some (E.lib.ofText t) }))
      (kwBuild_plain rfl r.dom) (fun w1 w2 x hB _ hx _ hs => ?_) hi).mono ?_
    · simp [World.isSchema, hB, r.dom x hx] at hs
    rintro w' _ ⟨⟨w1, w2, c1, rfl, c3⟩, ha⟩
    have r1 := r.mono c1
    have c2 : Calm A s w1 (w1.setInfo s (fun i => { i with metaUri := some (E.lib.ofText t) })) := by
      refine ⟨Nat.le_refl _, fun _ _ => rfl, fun x hx h => ?_, fun x hx => ?_, fun x hx h => ?_, fun x hx h => ?_,
        fun x k hx h => ?_, fun x _ h => ?_, fun x _ => setInfo_cacheid w1 s (fun i => { i with metaUri := some (E.lib.ofText t) }) (fun _ => rfl) x⟩
      · rw [setInfo_isSchema]; exact h
      · simp only [World.setInfo, if_neg (Nat.ne_of_lt hx)]
      · simp only [World.uri, World.setInfo, if_neg (Nat.ne_of_lt hx)]; exact h
      · simp only [GoodUri, World.uri, World.setInfo, if_neg (Nat.ne_of_lt hx)]; exact h
      · simp only [World.keywords, World.setInfo, if_neg (Nat.ne_of_lt hx)]; exact h
      · simp only [World.setInfo]
        split
        · rw [h]; rfl
        · exact h
    have r2 : Ready E A (some m) s (w1.setInfo s (fun i => { i with metaUri := some (E.lib.ofText t) })) := by
      obtain ⟨i, hi⟩ := Option.isSome_iff_exists.1 r1.isSchema
      have hur : HasUri A (w1.setInfo s (fun i => { i with metaUri := some (E.lib.ofText t) })) s := by
        refine HasUri.of (w := w1) (w' := w1.setInfo s (fun i => { i with metaUri := some (E.lib.ofText t) }))
          (fun x => ?_) rfl r1.uri
        simp only [World.uri, World.setInfo]
        split
        · cases hi : w1.info x <;> rfl
        · rfl
      refine ⟨r1.lt, by rw [setInfo_isSchema]; exact r1.isSchema, hur, ?_, fun x hx => ?_⟩
      · rintro m' h; cases h
        exact .here (u := E.lib.ofText t) (by simp [World.setInfo, hi]) h3
      · exact c2.dom x hx (r1.dom x hx)
    refine ⟨?_, r2.mono c3, fun h => absurd (mem_dkeys.2 ⟨_, dlookup_mem h1⟩) h, _, ha, .inr ⟨_, rfl, .inl ⟨rfl, rfl⟩⟩⟩
    refine ((c1.weaken (Nat.le_of_lt r.lt)).trans c2).trans (c3.weaken (Nat.le_of_lt r1.lt))

theorem returns_bootVocab {E : CEnv} {mo : Option Meta} {kvs : List (String × Value)} {cid : String}
    {s : Nat} {w : World} (r : Ready E A mo s w) (hk : "$vocabulary" ∉ dkeys (w.keywords s)) :
    (bootOne E s kvs (kwBuilds E cid kvs) "$vocabulary" .vocabulary).Returns w (fun w' _ =>
      Calm A w.heap.next w w' ∧ ∃ new, Adds E A s new w w' ∧ BootAdds "$vocabulary" kvs new) := by
  unfold bootOne
  rw [dlookup_kwBuilds]
  cases h1 : dlookup "$vocabulary" kvs with
  | none => exact M.returns_pure ⟨.refl _ _, [], .refl r.dom, .inl ⟨rfl, dlookup_eq_none.1 h1⟩⟩
  | some v =>
    refine (returns_addKeyword_calm r.isSchema r.lt hk r.dom (kwBuild_plain_fine rfl r.dom) fun w1 _ => ?_).mono
      fun w' _ h => ⟨h.1, _, h.2, .inr ⟨_, rfl, .inr (.inl ⟨rfl, rfl⟩)⟩⟩
    cases v <;> exact M.returns_pure ⟨.refl _ _, .refl _ _⟩

theorem returns_bootId {E : CEnv} {mo : Option Meta} {kvs : List (String × Value)} {cid : String}
    {s : Nat} {w : World} (hid : IdFor E A mo kvs) (r : Ready E A mo s w) (hk : "$id" ∉ dkeys (w.keywords s)) :
    (if (dlookup "$id" kvs).isSome then do
      let m ← getMeta E s
      bootOne E s kvs (kwBuilds E cid kvs) "$id" (if m.knownCore then .id else .idNext)
    else pure ()).Returns w (fun w' _ =>
      Calm A w.heap.next w w' ∧ ∃ new, Adds E A s new w w' ∧ BootAdds "$id" kvs new) := by
  rcases hid with h1 | ⟨t, m, h1, rfl, h3, h4, h5⟩
  · rw [h1]
    exact M.returns_pure ⟨.refl _ _, [], .refl r.dom, .inl ⟨rfl, dlookup_eq_none.1 h1⟩⟩
  · rw [h1, if_pos (show (some (Value.str t)).isSome = true from rfl)]
    refine (r.metas m rfl).get.bind ?_
    rintro w' m' ⟨rfl, rfl⟩
    unfold bootOne
    rw [dlookup_kwBuilds, h1]
    have hi : ∀ w1, Calm A w'.heap.next w' w1 → (initKw E s (if m'.knownCore then .id else .idNext) (.str t)).Returns w1
        (fun w2 _ => Calm A w1.heap.next w1 w2 ∧ Touch s w1 w2) := by
      intro w1 c1
      cases hk : m'.knownCore <;> rw [hk] at h3 <;>
        simp only [Bool.not_true, Bool.not_false] at h3 <;>
        simp only [Bool.false_eq_true, if_true, if_false, initKw, h3] <;>
        exact (returns_resolveUri (r.mono c1).uri h4 h5).bind (by rintro w2 u ⟨rfl, hu⟩; exact returns_setUri hu)
    refine (returns_addKeyword_calm r.isSchema r.lt hk r.dom (kwBuild_plain_fine (by split <;> rfl) r.dom) hi).mono
      fun w' _ h => ⟨h.1, _, h.2, .inr ⟨_, rfl, .inr (.inr ⟨rfl, by split <;> simp⟩)⟩⟩

theorem BootAdds.ne {key k : String} {kvs : List (String × Value)} {new : List (String × KwShape)}
    (h : BootAdds key kvs new) (hk : key ≠ k) : ∀ b ∈ new, b.1 ≠ k := by
  rcases h with ⟨rfl, -⟩ | ⟨sh, rfl, -⟩
  · intro b h; cases h
  · intro b h; rw [List.mem_singleton.1 h]; exact hk

theorem BootAdds.boot {key : String} {kvs : List (String × Value)} {new : List (String × KwShape)}
    (h : BootAdds key kvs new) : ∀ b ∈ new, BootKw b.1 b.2 := by
  rcases h with ⟨rfl, -⟩ | ⟨sh, rfl, h⟩
  · intro b h; cases h
  · intro b hb; rw [List.mem_singleton.1 hb]; exact h

theorem BootAdds.mem {key : String} {kvs : List (String × Value)} {new : List (String × KwShape)}
    (h : BootAdds key kvs new) (hk : key ∈ dkeys kvs) : ∃ shape, (key, shape) ∈ new := by
  rcases h with ⟨-, h⟩ | ⟨sh, rfl, h⟩
  · exact absurd hk h
  · exact ⟨sh, List.mem_singleton.2 rfl⟩

/-- What `_bootstrap` adds. -/
theorem boot_adds {kvs : List (String × Value)} {l1 l2 l3 : List (String × KwShape)}
    (h1 : BootAdds "$schema" kvs l1) (h2 : BootAdds "$vocabulary" kvs l2) (h3 : BootAdds "$id" kvs l3) :
    (∀ b ∈ l1 ++ l2 ++ l3, BootKw b.1 b.2) ∧
    ∀ k, (k = "$schema" ∨ k = "$vocabulary" ∨ k = "$id") → k ∈ dkeys kvs → ∃ shape, (k, shape) ∈ l1 ++ l2 ++ l3 := by
  constructor
  · intro b hb
    rcases List.mem_append.1 hb with hb | hb
    · rcases List.mem_append.1 hb with hb | hb
      · exact h1.boot b hb
      · exact h2.boot b hb
    · exact h3.boot b hb
  · rintro k (rfl | rfl | rfl) hk
    · obtain ⟨sh, h⟩ := h1.mem hk; exact ⟨sh, by simp [h]⟩
    · obtain ⟨sh, h⟩ := h2.mem hk; exact ⟨sh, by simp [h]⟩
    · obtain ⟨sh, h⟩ := h3.mem hk; exact ⟨sh, by simp [h]⟩

theorem returns_bootstrap {E : CEnv} {mo mo' : Option Meta} {kvs : List (String × Value)} {cid : String}
    {s : Nat} {w : World} (hm : MetaFor E mo kvs mo') (hid : IdFor E A mo' kvs)
    (r : Ready E A mo s w) (hk : w.keywords s = []) :
    (bootstrap E s kvs (kwBuilds E cid kvs)).Returns w (fun w' _ => Calm A s w w' ∧ Ready E A mo' s w' ∧
      ("$schema" ∉ dkeys kvs → Calm A w.heap.next w w') ∧
      ∃ bs, Adds E A s bs w w' ∧ (∀ b ∈ bs, BootKw b.1 b.2) ∧
        ∀ k, (k = "$schema" ∨ k = "$vocabulary" ∨ k = "$id") → k ∈ dkeys kvs → ∃ shape, (k, shape) ∈ bs) := by
  refine (returns_bootSchema (A := A) hm r hk).bind ?_
  rintro w1 _ ⟨a1, a2, a0, l1, a3, a4⟩
  have s1 : sigs (w1.keywords s) = l1 := by rw [a3.sigs, hk]; rfl
  refine (returns_bootVocab (A := A) a2 (not_mem_of_sigs s1 (a4.ne (by decide)))).bind ?_
  rintro w2 _ ⟨b1, l2, b2, b3⟩
  have s2 : sigs (w2.keywords s) = l1 ++ l2 := by rw [b2.sigs, s1]
  refine (returns_bootId (A := A) hid (a2.mono b1) (not_mem_of_sigs s2 fun b hb => ?_)).mono ?_
  · rcases List.mem_append.1 hb with hb | hb
    · exact a4.ne (by decide) b hb
    · exact b3.ne (by decide) b hb
  rintro w3 _ ⟨c1, l3, c2, c3⟩
  have hs := Nat.le_of_lt r.lt
  refine ⟨(a1.next b1 hs).next c1 hs, (a2.mono b1).mono c1, fun h => ?_, _, (a3.trans r.lt b1 b2).trans r.lt c1 c2, boot_adds a4 b3 c3⟩
  have := a0 h; subst this
  exact b1.next c1 (Nat.le_refl _)

/-- What is known of the classes of keywords. -/
def ClassFor (E : CEnv) (A : Allowed) (mo : Option Meta) (kvs : List (String × Value)) (c : KwCls) : Prop :=
  ∃ v m, dlookup c.key kvs = some v ∧ (c.key, v) ∈ kvs ∧ mo = some m ∧ getKwclass m c.key = .ok c ∧ A.cls c ∧
    FineValue E A m c.shape v

theorem returns_kwClasses {E : CEnv} {mo : Option Meta} {kvs : List (String × Value)}
    {s : Nat} {w : World} (r : Ready E A mo s w) (hf : ∀ kv ∈ kvs, FineMember E A mo kv.1 kv.2)
    (hk : ∀ k, (k = "$schema" ∨ k = "$vocabulary" ∨ k = "$id") → k ∈ dkeys kvs → k ∈ dkeys (w.keywords s)) :
    ∀ ks, (∀ k ∈ ks, k ∈ dkeys kvs) → (kwClasses E s ks).Returns w (fun w' cs => w' = w ∧
      (∀ c ∈ cs, c.key ∉ dkeys (w.keywords s) ∧ ClassFor E A mo kvs c) ∧ (cs.map KwCls.key).Sublist ks)
  | [], _ => M.returns_pure ⟨rfl, by simp, .slnil⟩
  | k :: ks, hks => by
    unfold kwClasses
    refine M.returns_read ?_
    have ih := returns_kwClasses r hf hk ks fun k h => hks k (List.mem_cons_of_mem _ h)
    split
    · exact ih.mono fun _ _ h => ⟨h.1, h.2.1, h.2.2.cons _⟩
    · rename_i hn
      have hn' : k ∉ dkeys (w.keywords s) := by
        intro h
        cases hd : dlookup k (w.keywords s) with
        | none => exact dlookup_eq_none.1 hd h
        | some o => rw [hd] at hn; exact hn rfl
      have hkk := hks k List.mem_cons_self
      obtain ⟨v, hv⟩ := Option.isSome_iff_exists.1 (dlookup_isSome.2 hkk)
      obtain ⟨m, c, hm, hc, hA, hfv⟩ : ∃ m c, mo = some m ∧ getKwclass m k = .ok c ∧ A.cls c ∧
          FineValue E A m c.shape v := by
        have hfm := hf _ (dlookup_mem hv)
        simp only at hfm
        cases hfm with
        | boot h => exact absurd (hk k h hkk) hn'
        | kw h1 h2 h3 => exact ⟨_, _, rfl, h1, h2, h3⟩
      refine (r.metas m hm).get.bind ?_
      rintro w' m' ⟨rfl, rfl⟩
      refine (M.Returns.bind (Q := fun w1 c' => w1 = w' ∧ c' = c) ⟨w', c, by simp only [M.ofExcept, hc], rfl, rfl⟩ ?_)
      rintro _ _ ⟨rfl, rfl⟩
      refine ih.bind ?_
      rintro _ cs ⟨rfl, hcs, hsub⟩
      have hkey := (getKwclass_spec hc).1
      refine M.returns_pure ⟨rfl, fun c' hc' => ?_, ?_⟩
      · rcases List.mem_cons.1 hc' with rfl | hc'
        · unfold ClassFor
          rw [hkey]
          exact ⟨hn', v, m', hv, dlookup_mem hv, hm, hc, hA, hfv⟩
        · exact hcs c' hc'
      · rw [List.map_cons, hkey]; exact hsub.cons_cons _

/-- The constructor for the value of a keyword returns if the value is fine. -/
def BuildsFine (E : CEnv) (A : Allowed) (k : String) (v : Value) : Prop :=
  ∀ (m : Meta) (shape : KwShape), FineValue E A m shape v → v.WF → ∀ (cid : String) (s : Nat) (w : World),
    Ready E A (some m) s w → BuildFine E A (kwBuild E cid k v) shape s w

theorem returns_addEach {E : CEnv} {mo : Option Meta} {kvs : List (String × Value)} {cid : String}
    (ih : ∀ kv ∈ kvs, BuildsFine E A kv.1 kv.2) (hwf : ∀ kv ∈ kvs, kv.2.WF) {s : Nat} : ∀ {cs : List KwCls} {w : World},
    Ready E A mo s w → (∀ c ∈ cs, c.key ∉ dkeys (w.keywords s) ∧ ClassFor E A mo kvs c) → (cs.map KwCls.key).Nodup →
    (M.each (addClass E s kvs (kwBuilds E cid kvs)) cs).Returns w (fun w' _ => Calm A w.heap.next w w' ∧
      Adds E A s (cs.map (fun c => (c.key, c.shape))) w w')
  | [], w, r, _, _ => ⟨w, (), rfl, .refl _ _, .refl r.dom⟩
  | c :: cs, w, r, hc, hn => by
    obtain ⟨hk, v, m, h1, h2, hmo, h3, hA, h4⟩ := hc c List.mem_cons_self
    have step : (addClass E s kvs (kwBuilds E cid kvs) c).Returns w (fun w' _ => Calm A w.heap.next w w' ∧
        Adds E A s [(c.key, c.shape)] w w') := by
      unfold addClass
      rw [dlookup_kwBuilds, h1]
      exact returns_addKeyword_calm r.isSchema r.lt hk r.dom
        (ih _ h2 m c.shape h4 (hwf _ h2) cid s w (hmo ▸ r)) fun w2 c2 => returns_initKw h4 (r.mono c2).uri
    refine M.Returns.bind step ?_
    rintro w1 _ ⟨c1, a1⟩
    rw [List.map_cons, List.nodup_cons] at hn
    refine (returns_addEach ih hwf (cs := cs) (r.mono c1) (fun c' hc' => ⟨?_, (hc c' (List.mem_cons_of_mem _ hc')).2⟩) hn.2).mono ?_
    · rw [← sigs_keys, a1.sigs, List.map_append, sigs_keys]
      intro h
      rcases List.mem_append.1 h with h | h
      · exact (hc c' (List.mem_cons_of_mem _ hc')).1 h
      · simp only [List.map_cons, List.map_nil, List.mem_singleton] at h
        exact hn.1 (h ▸ List.mem_map_of_mem hc')
    · rintro w2 _ ⟨c2, a2⟩
      exact ⟨c1.next c2 (Nat.le_refl _), a1.trans r.lt c2 a2⟩

theorem returns_addClasses {E : CEnv} (hO : ∀ u m, E.metaschema u = .ok m → Ordered m) {mo : Option Meta}
    {kvs : List (String × Value)} {cid : String} (ih : ∀ kv ∈ kvs, BuildsFine E A kv.1 kv.2)
    (hwf : ∀ kv ∈ kvs, kv.2.WF) {s : Nat} {w : World} (r : Ready E A mo s w) {cs : List KwCls}
    (hcs : ∀ c ∈ cs, c.key ∉ dkeys (w.keywords s) ∧ ClassFor E A mo kvs c) (hn : (cs.map KwCls.key).Nodup) :
    (addClasses E s kvs (kwBuilds E cid kvs) cs).Returns w (fun w' _ => Calm A w.heap.next w w' ∧
      ∃ order, Adds E A s (order.map (fun c => (c.key, c.shape))) w w' ∧
        (∀ c ∈ order, A.cls c ∧ ∃ m, mo = some m ∧ getKwclass m c.key = .ok c) ∧
        DepsFirst KwCls.key KwCls.deps order) := by
  have cls : ∀ m, mo = some m → ∀ c, getKwclass m c.key = .ok c → c ∈ m.classes ∨ c.deps = [] := by
    intro m _ c hc
    unfold getKwclass at hc
    split at hc
    · rename_i c' hf
      cases hc
      exact .inl (List.mem_of_find?_eq_some hf)
    · split at hc
      · cases hc
      · split at hc
        · cases hc
        · have : (⟨c.key, .unknown, []⟩ : KwCls) = c := Except.ok.inj hc
          rw [← this]; exact .inr rfl
  obtain ⟨order, ho⟩ : ∃ order, resolveDependencies KwCls.key KwCls.deps cs = some order := by
    cases cs with
    | nil => exact ⟨[], rfl⟩
    | cons c0 cs =>
      obtain ⟨-, _, m, _, _, hmo, _, _⟩ := hcs c0 List.mem_cons_self
      obtain ⟨u, _, hu⟩ := (r.metas m hmo).nearest (s + 1) (Nat.lt_succ_self _)
      obtain ⟨rank, hrank⟩ := hO u m hu
      have key : ∀ c ∈ c0 :: cs, c ∈ m.classes ∨ c.deps = [] := by
        intro c hc
        obtain ⟨-, _, m', _, _, hmo', h4, _⟩ := hcs c hc
        rw [hmo] at hmo'; cases hmo'
        exact cls m hmo c h4
      refine resolveDependencies_isSome _ _ _ (fun c hc => ?_) ⟨rank, fun c hc d hd => ?_⟩
      · rcases key c hc with h | h
        · exact (hrank c h).1
        · rw [h]; exact List.nodup_nil
      · rcases key c hc with h | h
        · exact (hrank c h).2 d hd
        · rw [h] at hd; cases hd
  obtain ⟨hp, hdeps⟩ := resolveDependencies_spec _ _ _ _ hn ho
  unfold addClasses
  rw [ho]
  refine (returns_addEach ih hwf r (fun c hc => hcs c (hp.mem_iff.1 hc)) ((hp.map _).nodup_iff.2 hn)).mono ?_
  rintro w' _ ⟨c1, a1⟩
  refine ⟨c1, order, a1, fun c hc => ?_, hdeps⟩
  obtain ⟨-, _, m, _, _, hm, h1, h, _⟩ := hcs c (hp.mem_iff.1 hc)
  exact ⟨h, m, hm, h1⟩

/-- Where a schema is constructed. -/
structure Place (E : CEnv) (A : Allowed) (mo : Option Meta) (metaUri : Option Uri) (parent : Option Nat) (w : World) :
    Prop where
  root : parent = none → ∀ m, mo = some m → ∃ u, metaUri = some u ∧ E.metaschema u = .ok m
  child : ∀ p, parent = some p → p < w.heap.next ∧ HasUri A w p ∧ metaUri = none ∧
    ∀ m, mo = some m → HasMeta E w m p
  dom : ∀ x, w.heap.next ≤ x → w.info x = none

theorem Place.mono {E : CEnv} {mo : Option Meta} {metaUri : Option Uri} {parent : Option Nat} {w w' : World}
    (pl : Place E A mo metaUri parent w) (c : Calm A w.heap.next w w') : Place E A mo metaUri parent w' :=
  ⟨pl.root, fun p hp => by
    obtain ⟨h1, h2, h3, h4⟩ := pl.child p hp
    exact ⟨Nat.lt_of_lt_of_le h1 c.le, h2.mono c h1, h3, fun m hm => (h4 m hm).mono c h1⟩,
    fun x hx => c.dom x hx (pl.dom x (Nat.le_trans c.le hx))⟩

theorem returns_nameAnonymous {E : CEnv} {s : Nat} {w : World} (hs : w.isSchema s = true)
    (h : ∀ p, w.heap.parent s = some p → p < s ∧ HasUri A w p)
    (hg : GoodUri A w s) (hq : w.heap.parent s = none → ∀ l, A.base (E.lib.uuid l).noFragment) :
    (nameAnonymous E s).Returns w (fun w' _ => Calm A w.heap.next w w' ∧ (s < w.heap.next → HasUri A w' s) ∧
      Touch s w w') := by
  refine M.returns_read ?_
  split
  · rename_i hc
    simp only [Bool.and_eq_true, Option.isNone_iff_eq_none] at hc
    refine M.returns_read (M.returns_change ⟨calm_putUri _ _ _ _ (hq hc.1 _), fun _ => .here ?_ ?_, touch_putUri⟩)
    · rw [putUri_none hs hc.2]; rfl
    · intro u hu
      rw [putUri_none hs hc.2] at hu
      cases hu
      exact hq hc.1 _
  · rename_i hc
    refine M.returns_pure ⟨.refl _ _, fun _ => ?_, .refl _ _⟩
    cases hu : w.uri s with
    | some u => exact .here (by rw [hu]; rfl) hg
    | none =>
      cases hp : w.heap.parent s with
      | none => exact absurd (by rw [hu, hp]; rfl) hc
      | some p => exact .up hg hp (h p hp).1 (h p hp).2

/-- The keywords of a schema object. -/
theorem returns_keywords {E : CEnv} (hO : ∀ u m, E.metaschema u = .ok m → Ordered m) {mo : Option Meta}
    {kvs : List (String × Value)} {cid : String} (ih : ∀ kv ∈ kvs, BuildsFine E A kv.1 kv.2)
    (hwf : (Value.obj kvs).WF) (hf : ∀ kv ∈ kvs, FineMember E A mo kv.1 kv.2) {s : Nat} {w : World}
    (r : Ready E A mo s w) {bs : List (String × KwShape)} (hbs : sigs (w.keywords s) = bs)
    (hk : ∀ k, (k = "$schema" ∨ k = "$vocabulary" ∨ k = "$id") → k ∈ dkeys kvs → ∃ shape, (k, shape) ∈ bs) :
    (kwClasses E s (dkeys kvs) >>= addClasses E s kvs (kwBuilds E cid kvs)).Returns w (fun w' _ =>
      Calm A w.heap.next w w' ∧ ∃ order, Adds E A s (order.map (fun c => (c.key, c.shape))) w w' ∧
        (∀ c ∈ order, A.cls c ∧ ∃ m, mo = some m ∧ getKwclass m c.key = .ok c) ∧
        DepsFirst KwCls.key KwCls.deps order) := by
  have hn : (dkeys kvs).Nodup := by cases hwf with | obj h _ => exact h
  have hw' : ∀ kv ∈ kvs, kv.2.WF := by cases hwf with | obj _ h => exact h
  refine (returns_kwClasses r hf (fun k h1 h2 => ?_) (dkeys kvs) fun _ h => h).bind ?_
  · obtain ⟨sh, h⟩ := hk k h1 h2
    rw [← sigs_keys, hbs]
    exact List.mem_map.2 ⟨_, h, rfl⟩
  rintro _ cs ⟨rfl, hcs, hsub⟩
  exact returns_addClasses hO ih hw' r hcs (hsub.nodup hn)

theorem returns_objSchema {E : CEnv} (hO : ∀ u m, E.metaschema u = .ok m → Ordered m) {mo : Option Meta}
    {kvs : List (String × Value)} {cid : String} (ih : ∀ kv ∈ kvs, BuildsFine E A kv.1 kv.2)
    (hwf : (Value.obj kvs).WF) (hf : Fine E A mo (.obj kvs)) {uri metaUri : Option Uri} {parent : Option Nat}
    {key : Option String} {w : World} (pl : Place E A mo metaUri parent w)
    (hq : (∀ u, uri = some u → A.base u.noFragment) ∧ (parent = none → ∀ l, A.base (E.lib.uuid l).noFragment)) :
    (objSchema E cid uri metaUri parent key kvs (kwBuilds E cid kvs)).Returns w
      (fun w' s => ((Calm A w.heap.next w w' ∧ Made E A w w') ∧ s = w.heap.next) ∧
        ∃ mo', MetaFor E mo kvs mo' ∧ Ready E A mo' w.heap.next w') := by
  cases hf with
  | @obj _ mo' _ hm hid hmem =>
  refine (calm_newSchemaNode (A := A)).bind ?_
  rintro w1 s ⟨c1, rfl, hn, hp, hi, ho⟩
  have hs1 : w1.isSchema w.heap.next = true := by simp [World.isSchema, hi]
  have inner : (initObject E w.heap.next kvs (kwBuilds E cid kvs)).Returns w1
      (fun w' _ => Calm A w.heap.next w1 w' ∧ (∀ x, x < w.heap.next → w'.info x = w1.info x) ∧
        (∀ x, w.heap.next ≤ x → w'.isSchema x = true → Tidy E A w' x) ∧ Ready E A mo' w.heap.next w') := by
    refine (M.returns_change (Q := fun w' _ => Calm A w1.heap.next w1 w' ∧ Touch w.heap.next w1 w')
      ⟨calm_setData w1 _ _, rfl, fun _ _ => rfl, rfl⟩).bind ?_
    rintro w2 _ ⟨c2, t2⟩
    have hlt : w.heap.next < w1.heap.next := by omega
    have hs2 := c2.isSchema _ hlt hs1
    have hp2 := (c2.parent _ hlt).trans hp
    refine (returns_nameAnonymous (A := A) hs2 (fun p h => ?_) (c2.good _ hlt fun u h => ?_)
      fun h => hq.2 (by rw [← hp2]; exact h)).bind ?_
    · rw [hp2] at h
      obtain ⟨h1, h2, -⟩ := pl.child p h
      exact ⟨h1, (h2.mono c1 h1).mono c2 (by omega)⟩
    · simp only [World.uri, hi, Option.bind_some] at h
      exact hq.1 u h
    rintro w3 _ ⟨c3, hu, t3⟩
    have hlt2 : w.heap.next < w2.heap.next := Nat.lt_of_lt_of_le hlt c2.le
    have c23 := c2.next c3 (Nat.le_refl _)
    have t23 := t2.trans t3
    have r3 : Ready E A mo w.heap.next w3 := by
      refine ⟨Nat.lt_of_lt_of_le hlt2 c3.le, c3.isSchema _ hlt2 hs2, hu hlt2, fun m hmo => ?_, fun x hx => ?_⟩
      rotate_left
      · exact (c1.trans (c23.weaken (Nat.le_of_lt hlt))).dom x hx
          (pl.dom x (Nat.le_trans (c1.trans (c23.weaken (Nat.le_of_lt hlt))).le hx))
      have hmeta : (w1.info w.heap.next).bind SInfo.metaUri = metaUri := by rw [hi]; rfl
      refine HasMeta.mono c23 ?_ hlt
      cases hpar : parent with
      | none =>
        obtain ⟨u, e1, e2⟩ := pl.root hpar m hmo
        exact .here (hmeta.trans e1) e2
      | some p =>
        obtain ⟨h1, -, h3, h4⟩ := pl.child p hpar
        exact .up (hmeta.trans h3) (hp.trans hpar) h1 ((h4 m hmo).mono c1 h1)
    have hk3 : w3.keywords w.heap.next = [] := by rw [t23.keywords]; simp [World.keywords, hi]
    refine (returns_bootstrap (A := A) hm hid r3 hk3).bind ?_
    rintro w4 _ ⟨c4, r4, hmu, bs, a4, hb, hk⟩
    have hs4 : sigs (w4.keywords w.heap.next) = bs := by rw [a4.sigs, hk3]; rfl
    refine (returns_keywords hO ih hwf hmem r4 hs4 hk).mono ?_
    rintro w5 _ ⟨c5, order, a5, hA, hdeps⟩
    have a35 := a4.trans r3.lt c5 a5
    refine ⟨((c23.weaken (Nat.le_of_lt hlt)).trans c4).trans (c5.weaken (Nat.le_of_lt r4.lt)), fun x hx => ?_,
      fun x hx hx' => ?_, r4.mono c5⟩
    · rw [a35.info x (by have := t23.next; omega) (by omega), t23.info x (by omega)]
    · by_cases he : x = w.heap.next
      · subst he
        refine ⟨fun kv hkv => ?_, bs, order, ?_, hb, fun c hc => (hA c hc).1, hdeps, fun hne => ?_, fun hpar hns => ?_⟩
        · rcases a35.bare kv hkv with h | h
          · rw [hk3] at h; cases h
          · exact h
        · rw [a35.sigs, hk3]; rfl
        · obtain ⟨c0, hc0⟩ := List.exists_mem_of_ne_nil _ hne
          obtain ⟨-, m, hm', -⟩ := hA c0 hc0
          refine ⟨m, (r4.metas m hm').mono c5 r4.lt, fun c hc => ?_⟩
          obtain ⟨-, m', hm'', h⟩ := hA c hc
          rw [hm'] at hm''; cases hm''; exact h
        · have hns' : "$schema" ∉ dkeys kvs := by
            intro h
            obtain ⟨sh, h1⟩ := hk "$schema" (.inl rfl) h
            refine hns ?_
            rw [← sigs_keys, a35.sigs, hk3]
            exact List.mem_map.2 ⟨_, List.mem_append.2 (.inr (List.mem_append.2 (.inl h1))), rfl⟩
          have hp5 : w5.heap.parent w.heap.next = parent := by
            rw [c5.parent _ r4.lt, (hmu hns').parent _ r3.lt, c23.parent _ hlt, hp]
          rw [c5.metaUri _ r4.lt, (hmu hns').metaUri _ r3.lt, c23.metaUri _ hlt, hi]
          cases hpar' : parent with
          | none => rw [hp5] at hpar; exact absurd hpar' hpar
          | some p => exact (pl.child p hpar').2.2.1
      · exact a35.tidy x (by have := t23.next; omega) hx'
  refine inner.bind ?_
  rintro w2 _ ⟨c2, h2, h3, h4⟩
  exact M.returns_pure ⟨⟨⟨c1.trans c2, fun x hx => (h2 x hx).trans (ho x (by omega)), h3⟩, rfl⟩, mo', hm, h4⟩

/-- The constructor of schemas returns if the value is fine. -/
def SchemaFine (E : CEnv) (A : Allowed) (v : Value) : Prop :=
  ∀ (mo : Option Meta), Fine E A mo v → v.WF → ∀ (cid : String) (uri metaUri : Option Uri) (parent : Option Nat)
    (key : Option String) (w : World), Place E A mo metaUri parent w → (∀ u, uri = some u → A.base u.noFragment) ∧ (parent = none → ∀ l, A.base (E.lib.uuid l).noFragment) →
    (newSchema E cid uri metaUri parent key v).Returns w
      (fun w' s => (Calm A w.heap.next w w' ∧ Made E A w w') ∧ s = w.heap.next)

/-- A place below a schema. -/
theorem Ready.place {E : CEnv} {m : Meta} {s : Nat} {w : World} (r : Ready E A (some m) s w) :
    Place E A (some m) none (some s) w :=
  ⟨(fun h => by cases h), fun p h => by
    cases h; exact ⟨r.lt, r.uri, rfl, fun m' h' => by cases h'; exact r.metas _ rfl⟩, r.dom⟩

theorem returns_newItems {E : CEnv} {m : Meta} {cid : String} {j : Nat} : ∀ {xs : List Value},
    (∀ x ∈ xs, SchemaFine E A x ∧ Fine E A (some m) x ∧ x.WF) → ∀ {i : Nat} {w : World},
    Place E A (some m) none (some j) w →
    (newItems E cid j i xs).Returns w (fun w' _ => Calm A w.heap.next w w' ∧ Made E A w w')
  | [], _, _, _, pl => by
    simp only [newItems]; exact M.returns_pure ⟨.refl _ _, made_info pl.dom rfl⟩
  | x :: xs, hx, i, w, pl => by
    simp only [newItems]
    obtain ⟨h1, h2, h3⟩ := hx x List.mem_cons_self
    refine (h1 _ h2 h3 cid none none (some j) _ w pl ⟨(fun _ h => by cases h), (fun h => by cases h)⟩).bind ?_
    rintro w1 c ⟨⟨c1, m1⟩, -⟩
    refine (returns_newItems (fun y hy => hx y (List.mem_cons_of_mem _ hy)) (pl.mono c1)).bind ?_
    rintro w2 cs ⟨c2, m2⟩
    exact M.returns_pure ⟨c1.next c2 (Nat.le_refl _), m1.trans c1.le c2 m2⟩

theorem returns_newMembers {E : CEnv} {m : Meta} {cid : String} {j : Nat} : ∀ {kvs : List (String × Value)},
    (∀ kv ∈ kvs, SchemaFine E A kv.2 ∧ Fine E A (some m) kv.2 ∧ kv.2.WF) → ∀ {w : World},
    Place E A (some m) none (some j) w →
    (newMembers E cid j kvs).Returns w (fun w' _ => Calm A w.heap.next w w' ∧ Made E A w w')
  | [], _, _, pl => by
    simp only [newMembers]; exact M.returns_pure ⟨.refl _ _, made_info pl.dom rfl⟩
  | (k, x) :: xs, hx, w, pl => by
    simp only [newMembers]
    obtain ⟨h1, h2, h3⟩ := hx (k, x) List.mem_cons_self
    refine (h1 _ h2 h3 cid none none (some j) _ w pl ⟨(fun _ h => by cases h), (fun h => by cases h)⟩).bind ?_
    rintro w1 c ⟨⟨c1, m1⟩, -⟩
    refine (returns_newMembers (fun y hy => hx y (List.mem_cons_of_mem _ hy)) (pl.mono c1)).bind ?_
    rintro w2 cs ⟨c2, m2⟩
    exact M.returns_pure ⟨c1.next c2 (Nat.le_refl _), m1.trans c1.le c2 m2⟩

/-- A container for schemas, below a schema. -/
theorem Ready.container {E : CEnv} {m : Meta} {s j : Nat} {w w1 : World}
    (r : Ready E A (some m) s w) (h : Calm A w.heap.next w w1 ∧ j = w.heap.next ∧
      w1.heap.next = w.heap.next + 1 ∧ w1.heap.parent j = some s ∧ w1.info = w.info) :
    (Calm A w.heap.next w w1 ∧ Made E A w w1) ∧ Place E A (some m) none (some j) w1 := by
  obtain ⟨c1, rfl, hn, hp, hi⟩ := h
  have hnone : w1.info w.heap.next = none := by rw [hi]; exact r.dom _ (Nat.le_refl _)
  refine ⟨⟨c1, made_info r.dom hi⟩, (fun h => by cases h), fun p h => ?_, fun x hx => ?_⟩
  rotate_left
  · rw [hi]; exact r.dom x (by omega)
  cases h
  refine ⟨by omega, .up (fun u h => by simp [World.uri, hnone] at h) hp r.lt (r.uri.mono c1 r.lt), rfl, fun m' h' => ?_⟩
  cases h'
  exact .up (by rw [hnone]; rfl) hp r.lt ((r.metas _ rfl).mono c1 r.lt)

/-- Filling in the data at the end. -/
theorem returns_fill {E : CEnv} {w w2 : World} {j : Nat} {d : JData} (hd : ∀ x, w.heap.next ≤ x → w.info x = none)
    (h : Calm A w.heap.next w w2 ∧ Made E A w w2) :
    (setDataM j d >>= fun _ => pure j : M Nat).Returns w2 (fun w' _ => Calm A w.heap.next w w' ∧ Made E A w w') := by
  refine ⟨_, j, rfl, h.1.next (calm_setData w2 j d) (Nat.le_refl _), h.2.trans h.1.le (calm_setData w2 j d) (made_info (fun x hx => ?_) rfl)⟩
  exact h.1.dom x hx (hd x (Nat.le_trans h.1.le hx))

/-- The constructors return on fine values. -/
theorem fine_returns {E : CEnv} (hO : ∀ u m, E.metaschema u = .ok m → Ordered m) (v : Value) :
    SchemaFine E A v ∧ ∀ k, BuildsFine E A k v := by
  have str : ∀ {t : String} {k cid : String} {shape : KwShape} {s : Nat} {w : World} {m : Meta}, shape.plainJson = true →
      Ready E A (some m) s w → BuildFine E A (kwBuild E cid k (.str t)) shape s w := fun h r => kwBuild_plain_fine h r.dom
  have len : ∀ {v : Value} {k cid : String} {shape : KwShape} {s : Nat} {w : World} {m : Meta}, Lenient shape →
      Ready E A (some m) s w → BuildFine E A (kwBuild E cid k v) shape s w :=
    fun h r => kwBuild_plain_fine (by rcases h with rfl | rfl | rfl <;> rfl) r.dom
  have bsch : ∀ {b : Bool} {cid : String} {uri metaUri : Option Uri} {parent : Option Nat} {key : Option String}
      {w : World}, (∀ x, w.heap.next ≤ x → w.info x = none) → (parent ≠ none → metaUri = none) →
        (boolSchema cid uri metaUri parent key b).Returns w
        (fun w' s => (Calm A w.heap.next w w' ∧ Made E A w w') ∧ s = w.heap.next) := by
    intro b cid uri metaUri parent key w hd hmu
    refine (calm_newSchemaNode (A := A)).bind ?_
    rintro w1 s ⟨c1, rfl, hn, hpp, hi, ho⟩
    refine (M.returns_change (Q := fun w' _ => Calm A w1.heap.next w1 w' ∧ w'.info = w1.info) ⟨calm_setData w1 _ _, rfl⟩).bind ?_
    rintro w2 _ ⟨c2, e2⟩
    refine M.returns_pure ⟨⟨c1.next c2 (Nat.le_refl _), fun x hx => by rw [e2]; exact ho x (by omega), fun x hx hs => ?_⟩, rfl⟩
    by_cases he : x = w.heap.next
    · subst he
      have : w2.keywords w.heap.next = [] := by simp [World.keywords, e2, hi]
      refine ⟨by rw [this]; simp, [], [], by rw [this]; rfl, by simp, by simp, (fun pre a post h => by cases pre <;> cases h),
        fun h => absurd rfl h, fun hpar _ => ?_⟩
      have hp2 : w2.heap.parent w.heap.next = parent := by rw [c2.parent _ (by omega), hpp]
      rw [hp2] at hpar
      rw [e2, hi]; exact hmu hpar
    · have hi2 : w2.info x = none := by rw [e2, ho x he]; exact hd x hx
      simp [World.isSchema, hi2] at hs
  induction v using Value.induct with
  | null =>
    refine ⟨(fun mo h => by cases h), fun k m shape h hwf cid s w r => ?_⟩
    cases h with
    | lenient h => exact len h r
    | schema _ h => cases h
  | num n =>
    refine ⟨(fun mo h => by cases h), fun k m shape h hwf cid s w r => ?_⟩
    cases h with
    | lenient h => exact len h r
    | schema _ h => cases h
  | str t =>
    refine ⟨(fun mo h => by cases h), fun k m shape h hwf cid s w r => ?_⟩
    cases h with
    | lenient h => exact len h r
    | schema _ h => cases h
    | anchor h => rcases h with rfl | rfl <;> exact str rfl r
    | pattern _ => exact str rfl r
    | format _ => exact str rfl r
    | ref h => rcases h with rfl | rfl <;> exact str rfl r
    | recursive => exact str rfl r
  | bool b =>
    refine ⟨fun mo h hwf cid uri metaUri parent key w pl hq => ?_, fun k m shape h hwf cid s w r => ?_⟩
    · simp only [newSchema]; refine bsch pl.dom fun h => ?_
      cases hpar : parent with
      | none => exact absurd hpar h
      | some p => exact (pl.child p hpar).2.2.1
    · cases h with
      | lenient h => exact len h r
      | schema h _ => rcases h with rfl | rfl <;> simp only [BuildFine, kwBuild] <;>
          exact (bsch r.dom fun _ => rfl).mono fun _ _ h => h.1
  | arr xs ih =>
    refine ⟨(fun mo h => by cases h), fun k m shape h hwf cid s w r => ?_⟩
    cases h with
    | lenient h => exact len h r
    | schema _ h => cases h
    | array h hx =>
      have hwx : ∀ x ∈ xs, x.WF := by cases hwf with | arr h => exact h
      have hc : (do
          let j ← newJsonNode (some s) (some k)
          let cs ← newItems E cid j 0 xs
          setDataM j (.arr cs)
          pure j : M Nat).Returns w (fun w' _ => Calm A w.heap.next w w' ∧ Made E A w w') := by
        refine (calm_newJsonNode (A := A)).bind ?_
        rintro w1 j h1
        obtain ⟨⟨c1, m1⟩, pl⟩ := r.container h1
        refine (returns_newItems (fun x h => ⟨(ih x h).1, hx x h, hwx x h⟩) pl).bind ?_
        rintro w2 d ⟨c2, m2⟩
        exact returns_fill r.dom ⟨c1.next c2 (Nat.le_refl _), m1.trans c1.le c2 m2⟩
      rcases h with rfl | rfl <;> simp only [BuildFine, kwBuild] <;> exact hc
  | obj kvs ih =>
    refine ⟨fun mo h hwf cid uri metaUri parent key w pl hq => ?_, fun k m shape h hwf cid s w r => ?_⟩
    · simp only [newSchema]
      exact (returns_objSchema hO (fun kv hkv => (ih kv hkv).2 _) hwf h pl hq).mono fun _ _ h => h.1
    · cases h with
      | lenient h => exact len h r
      | schema h hf =>
        rcases h with rfl | rfl <;> simp only [BuildFine, kwBuild] <;>
          exact (returns_objSchema hO (fun kv hkv => (ih kv hkv).2 _) hwf hf r.place
            ⟨(fun _ h => by cases h), (fun h => by cases h)⟩).mono fun _ _ h => h.1.1
      | object hx =>
        have hwx : ∀ kv ∈ kvs, kv.2.WF := by cases hwf with | obj _ h => exact h
        simp only [BuildFine, kwBuild]
        refine (calm_newJsonNode (A := A)).bind ?_
        rintro w1 j h1
        obtain ⟨⟨c1, m1⟩, pl⟩ := r.container h1
        refine (returns_newMembers (fun x h => ⟨(ih x h).1, hx x h, hwx x h⟩) pl).bind ?_
        rintro w2 d ⟨c2, m2⟩
        exact returns_fill r.dom ⟨c1.next c2 (Nat.le_refl _), m1.trans c1.le c2 m2⟩

/-! ## Schemas without references -/

theorem each_same {α : Type} {f : α → M Unit} {w : World} : ∀ {l : List α},
    (∀ a ∈ l, f a w = some (w, .ok ())) → M.each f l w = some (w, .ok ())
  | [], _ => rfl
  | a :: as, h => by
    have h2 := each_same (f := f) (l := as) fun b hb => h b (by simp [hb])
    simp only [M.each, M.andThen, h a (by simp), h2]

/-- Where there are no references, resolving them changes nothing. -/
theorem resolve_same {E : CEnv} {w : World} (ok : WOk w) {b : Nat}
    (hr : ∀ x kv, b ≤ x → kv ∈ w.keywords x → kv.2.shape.isRef = false) :
    ∀ n s, b ≤ s → w.isSchema s = true → w.heap.next - s ≤ n →
      resolveReferences E n s w = some (w, .ok ()) := by
  intro n
  induction n with
  | zero => intro s _ hs hn; have := ok.dom s hs; omega
  | succ n ih =>
    intro s hb hs hn
    have hsl := ok.dom s hs
    obtain ⟨i, hi⟩ := Option.isSome_iff_exists.1 hs
    have hkw : w.keywords s = i.keywords := by simp [World.keywords, hi]
    have one : ∀ kv ∈ w.keywords s,
        resolveOne E (newDocWith E (resolveReferences E n)) (resolveReferences E n) s kv w =
          some (w, .ok ()) := by
      intro kv hkv
      have hc := ok.ord.kid _ _ (ok.kid hi (hkw ▸ hkv))
      unfold resolveOne
      rw [hr s kv hb hkv]
      simp only [Bool.false_eq_true, if_false]
      show (if w.isSchema kv.2.json then resolveReferences E n kv.2.json else _ : M Unit) w = _
      split
      · rename_i hj
        exact ih _ (by omega) hj (by omega)
      · refine each_same (w := w) (l := (w.heap.data kv.2.json).kids) fun c hc' => ?_
        have hcc := ok.ord.kid _ _ hc'
        show (if w.isSchema c then resolveReferences E n c else _ : M Unit) w = _
        split
        · rename_i hj
          exact ih _ (by omega) hj (by omega)
        · rfl
    exact each_same (w := w) (l := w.keywords s) one

theorem Tidy.noRefs {E : CEnv} {w : World} {x : Nat} (h : Tidy E A w x) (hA : ∀ c, A.cls c → noRefs.cls c) :
    ∀ kv ∈ w.keywords x, kv.2.shape.isRef = false := by
  obtain ⟨-, bs, cs, h1, h2, h3, -, -⟩ := h
  intro kv hkv
  have hm : (kv.1, kv.2.shape) ∈ bs ++ cs.map (fun c => (c.key, c.shape)) := by
    rw [← h1]; exact List.mem_map.2 ⟨kv, hkv, rfl⟩
  rcases List.mem_append.1 hm with hm | hm
  · have hb := h2 _ hm
    simp only [BootKw] at hb
    rcases hb with h | h | h
    · rw [h.2]; rfl
    · rw [h.2]; rfl
    · rcases h.2 with h | h <;> rw [h] <;> rfl
  · obtain ⟨c, hc, he⟩ := List.mem_map.1 hm
    rw [Prod.mk.injEq] at he
    rw [← he.2]
    obtain ⟨a1, a2, a3⟩ := hA c (h3 c hc)
    cases hs : c.shape <;> first | rfl | (exfalso; simp_all)

/-- The constructor of schema documents returns on fine documents. -/
theorem newDocument_returns {E : CEnv} (hE : CEnvOk E) (hO : ∀ u m, E.metaschema u = .ok m → Ordered m)
    {mo : Option Meta} {doc : Value} (hd : doc.WF) (hq : ∀ u, A.base u) (hA : ∀ c, A.cls c → noRefs.cls c)
    (hf : Fine E A mo doc) {cid : String}
    {uri metaUri : Option Uri} {w : World} (pre : SPre w cid uri none)
    (hm : ∀ m, mo = some m → ∃ u, metaUri = some u ∧ E.metaschema u = .ok m) :
    ∃ N w', (∀ n, N ≤ n → newDocument E n cid uri metaUri doc w = some (w', .ok w.heap.next)) ∧ Made E A w w' := by
  have hdom : ∀ x, w.heap.next ≤ x → w.info x = none := fun x hx => by
    cases hi : w.info x with
    | none => rfl
    | some i =>
      have := pre.ok.dom x (by simp [World.isSchema, hi])
      omega
  obtain ⟨w1, s, h1, ⟨c, md⟩, rfl⟩ := (fine_returns hO doc).1 mo hf hd (cid := cid) (uri := uri) (metaUri := metaUri)
    (parent := none) (key := none) (w := w) ⟨fun _ => hm, (fun p h => by cases h), hdom⟩ ⟨fun _ _ => hq _, fun _ _ => hq _⟩
  have p := (works hE doc hd).1 _ _ _ _ _ _ _ _ pre h1
  refine ⟨w1.heap.next, w1, fun n hn => ?_, md⟩
  have h2 : resolveReferences E n w.heap.next w1 = some (w1, .ok ()) := by
    refine resolve_same p.ok (b := w.heap.next) (fun x kv hx hkv => ?_) n _ (Nat.le_refl _) p.isSchema (by omega)
    have hs : w1.isSchema x = true := by
      cases hi : w1.info x with
      | none => simp [World.keywords, hi] at hkv
      | some i => simp [World.isSchema, hi]
    exact (md.tidy x hx hs).noRefs hA kv hkv
  simp only [newDocument, newDocWith, Bind.bind, M.andThen, h1, h2]
  rfl

end Jschon
