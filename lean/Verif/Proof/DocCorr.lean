import Verif.Proof.ConstructLocal
import Verif.Proof.DocRef
import Verif.Proof.RootUri
import Verif.Proof.ConstructReach
import Verif.Proof.ConstructInv

/-!
# Constructed documents and what was written

Each subschema of the document, as it was written, and the schema object made from it.
-/

namespace Jschon
open Spec

variable [dia : Dialect]

/-- The names that `_bootstrap` looks for. -/
def bootNames : List String := ["$schema", "$vocabulary", "$id"]

/-- The metaschema of the schema is one of the dialect. -/
def HasDia (E : CEnv) (w : World) (x : Nat) : Prop := ∃ m, OfDialect m ∧ HasMeta E w m x

/-- Every schema of the document, and what it is in, is the root or is in a container. -/
def Hung (root : Nat) (w : World) : Prop :=
  ∀ x, root ≤ x → x < w.heap.next → (w.isSchema x = true ∨ ∃ y, w.isSchema y = true ∧ w.heap.parent y = some x) →
    x = root ∨ ∃ p, root ≤ p ∧ p < w.heap.next ∧ x ∈ (w.heap.data p).kids

/-- A constructed document, before its references are resolved; `c0` are the caches before. -/
structure DocMade (E : CEnv) (L : Links) (c0 : Caches) (cid : String) (u : Uri) (root : Nat)
    (kvs : List (String × Value)) (w : World) : Prop where
  lib : SiteLib E.lib
  ok : WOk w
  parent : w.heap.parent root = none
  isSchema : w.isSchema root = true
  tidy : ∀ x, root ≤ x → w.isSchema x = true → Tidy E (absolute E.lib) w x
  rearr : Rearranged (val w.heap root) (.obj kvs)
  wf : (Value.obj kvs).WF
  meta_ : HasDia E w root
  members : ∀ kv ∈ kvs, kv.1 = "$schema" ∨ MemberForm E L u kv.1 kv.2
  uri : w.uri root = some u
  absolute : (absolute E.lib).base u
  cacheid : w.cacheid root = cid
  names : NamesOk E.lib c0 root w
  hangs : Hung root w

/-- `x` is the schema object made from the subschema `q` at `ks`. -/
structure Corr (E : CEnv) (L : Links) (root : Nat) (p : Site) (w : World) (ks : List String) (x : Nat) (q : Site) :
    Prop where
  reach : Jschon.Reach w.heap root ks x
  at_ : Stands E.lib p ks q
  isSchema : w.isSchema x = true
  rearr : Rearranged (val w.heap x) q.schema
  meta_ : ∀ kvs, q.schema = .obj kvs → HasDia E w x
  wf : q.schema.WF
  base : w.baseUri x = some q.base
  absolute : (absolute E.lib).base q.base
  good : (∃ b, q.schema = .bool b) ∨ ∃ kvs, q.schema = .obj kvs ∧
    ∀ kv ∈ kvs, kv.1 = "$schema" ∨ MemberForm E L q.base kv.1 kv.2
  id : ∀ t, q.Has "$id" (.str t) → w.uri x = some q.base
  noId : ks ≠ [] → (∀ t, ¬ q.Has "$id" (.str t)) → w.uri x = none

/-- `o` is the keyword object made from the member `(k, v)`. -/
structure KwFor (w : World) (x : Nat) (k : String) (v : Value) (o : KwObj) : Prop where
  mem : (k, o) ∈ w.keywords x
  child : Child w.heap x k o.json
  rearr : Rearranged (val w.heap o.json) v
  ok : KwObjOk w o
  cls : BootKw k o.shape ∨ ∃ c, getKwclass dialectMeta k = .ok c ∧ o.shape = c.shape
  bare : Bare o

theorem KwFor.shape {w : World} {x : Nat} {k : String} {v : Value} {o : KwObj} (f : KwFor w x k v o)
    (hk : k ∉ bootNames) {c : KwCls} (hc : getKwclass dialectMeta k = .ok c) : o.shape = c.shape := by
  rcases f.cls with h | ⟨c', h1, h2⟩
  · refine absurd ?_ hk
    rcases h with ⟨h, -⟩ | ⟨h, -⟩ | ⟨h, -⟩ <;> rw [h] <;> decide
  · rw [hc] at h1; cases h1; exact h2

theorem KwFor.boot {w : World} {x : Nat} {k : String} {v : Value} {o : KwObj} (f : KwFor w x k v o)
    (hk : k ∈ bootNames) : BootKw k o.shape := by
  rcases f.cls with h | ⟨c', h1, h2⟩
  · exact h
  · simp only [bootNames, List.mem_cons, List.not_mem_nil, or_false] at hk
    rcases hk with rfl | rfl | rfl <;> cases dia <;> cases h1
    · exact .inl ⟨rfl, h2⟩
    · exact .inl ⟨rfl, h2⟩
    · exact .inr (.inl ⟨rfl, h2⟩)
    · exact .inr (.inl ⟨rfl, h2⟩)
    · exact .inr (.inr ⟨rfl, .inl h2⟩)
    · exact .inr (.inr ⟨rfl, .inl h2⟩)

omit dia in
theorem HasMeta.unique {E : CEnv} {w : World} {m m' : Meta} {x : Nat} (h : HasMeta E w m x) (h' : HasMeta E w m' x) :
    m = m' := by
  induction h with
  | here h1 h2 =>
    cases h' with
    | here h3 h4 => rw [h1] at h3; cases h3; rw [h2] at h4; cases h4; rfl
    | up h3 => rw [h1] at h3; cases h3
  | up h1 h2 _ _ ih =>
    cases h' with
    | here h3 h4 => rw [h1] at h3; cases h3
    | up _ h4 _ h5 => rw [h2] at h4; cases h4; exact ih h5

theorem Spec.Stands.trans {lib : UriLib} {a b c : Site} {ks ls : List String} (h : Stands lib a ks b)
    (h' : Stands lib b ls c) : Stands lib a (ks ++ ls) c := by
  induction h with
  | here => exact h'
  | one h1 h2 _ ih => exact .one h1 h2 (ih h')
  | many h1 h2 h3 _ ih => exact .many h1 h2 h3 (ih h')
  | named h1 h2 h3 _ ih => exact .named h1 h2 h3 (ih h')

omit dia in
/-- The data of an instance whose value is an object up to order. -/
theorem rearr_obj {h : JHeap} (ho : Ord h) {x : Nat} {kvs : List (String × Value)}
    (hr : Rearranged (val h x) (.obj kvs)) : ∃ ms, h.data x = .obj ms ∧ (dkeys ms).Perm (dkeys kvs) ∧
      ∀ k c v, dlookup k ms = some c → dlookup k kvs = some v → Rearranged (val h c) v := by
  cases hd : h.data x with
  | obj ms =>
    rw [val_obj ho hd] at hr
    cases hr with
    | obj h1 h2 =>
      refine ⟨ms, rfl, ?_, fun k c v h3 h4 => h2 k _ v ?_ h4⟩
      · simpa [dkeys, Function.comp_def] using h1
      · have : ∀ l : List (String × Nat), dlookup k l = some c →
            dlookup k (l.map (fun m => (m.1, val h m.2))) = some (val h c) := by
          intro l
          induction l with
          | nil => intro h; cases h
          | cons a l ih =>
            intro h
            simp only [dlookup, List.map_cons] at h ⊢
            split at h
            · cases h; rename_i he; simp [he]
            · rename_i he; simp [he]; exact ih h
        exact this ms h3
  | _ => rw [val_eq ho, hd] at hr; cases hr

omit dia in
theorem rearr_arr {h : JHeap} (ho : Ord h) {x : Nat} {vs : List Value}
    (hr : Rearranged (val h x) (.arr vs)) : ∃ cs, h.data x = .arr cs ∧ cs.length = vs.length ∧
      ∀ (i : Nat) c v, cs[i]? = some c → vs[i]? = some v → Rearranged (val h c) v := by
  cases hd : h.data x with
  | arr cs =>
    rw [val_arr ho hd] at hr
    cases hr with
    | arr h1 h2 =>
      refine ⟨cs, rfl, by simpa using h1, fun i c v h3 h4 => h2 i _ v ?_ h4⟩
      simp [h3]
  | _ => rw [val_eq ho, hd] at hr; cases hr

omit dia in
theorem rearr_bool {h : JHeap} (ho : Ord h) {x : Nat} {b : Bool} (hr : Rearranged (val h x) (.bool b)) :
    h.data x = .bool b := by
  cases hd : h.data x with
  | bool b' => rw [val_eq ho, hd] at hr; cases hr; rfl
  | _ => rw [val_eq ho, hd] at hr; cases hr

omit dia in
theorem rearr_str {h : JHeap} (ho : Ord h) {x : Nat} {t : String} (hr : Rearranged (val h x) (.str t)) :
    h.data x = .str t := by
  cases hd : h.data x with
  | str b' => rw [val_eq ho, hd] at hr; cases hr; rfl
  | _ => rw [val_eq ho, hd] at hr; cases hr

section
variable {E : CEnv} {L : Links} {c0 : Caches} {cid : String} {u : Uri} {root : Nat} {kvs0 : List (String × Value)}
  {w : World}

omit dia in
/-- The keyword object of a member of what was written. -/
theorem rearr_kw (ok : WOk w) {x : Nat} {kvs : List (String × Value)} (hw : (Value.obj kvs).WF)
    (hs : w.isSchema x = true) (hr : Rearranged (val w.heap x) (.obj kvs)) :
    (dkeys (w.keywords x)).Perm (dkeys kvs) ∧ (dkeys (w.keywords x)).Nodup ∧
    ∀ k v o, (k, v) ∈ kvs → (k, o) ∈ w.keywords x → Child w.heap x k o.json ∧ Rearranged (val w.heap o.json) v := by
  obtain ⟨ms, h1, h2, h3⟩ := rearr_obj ok.ord hr
  obtain ⟨i, hi⟩ := Option.isSome_iff_exists.1 hs
  have hk : w.keywords x = i.keywords := by simp [World.keywords, hi]
  have hmem : kwMembers i.keywords = ms := by rw [ok.kws x i hi, h1]; rfl
  have h4 : dkeys ms = dkeys (w.keywords x) := by rw [hk, ← dkeys_kwMembers, hmem]
  have hn : (dkeys kvs).Nodup := by cases hw with | obj h _ => exact h
  refine ⟨by rw [← h4]; exact h2, by rw [← h4]; exact ok.keys.nodup x ms h1, fun k v o hv ho => ?_⟩
  have hj : (k, o.json) ∈ ms := by
    rw [← hmem, ← hk]; exact List.mem_map.2 ⟨_, ho, rfl⟩
  refine ⟨?_, h3 k _ v (dlookup_of_mem (ok.keys.nodup x ms h1) hj) (dlookup_of_mem hn hv)⟩
  show ChildD (w.heap.data x) k o.json
  rw [h1]; exact hj

theorem DocMade.corr (D : DocMade E L c0 cid u root kvs0 w) :
    Corr E L root ⟨u, .obj kvs0⟩ w [] root ⟨u, .obj kvs0⟩ where
  reach := .here
  at_ := .here
  isSchema := D.isSchema
  rearr := D.rearr
  meta_ _ _ := D.meta_
  wf := D.wf
  base := by rw [base_own D.uri, noFragment_of D.absolute.2]
  absolute := D.absolute
  good := .inr ⟨kvs0, rfl, D.members⟩
  id _ _ := D.uri
  noId h := absurd rfl h

omit dia in
theorem reach_le {h : JHeap} (ho : Ord h) {a x : Nat} {ks : List String} (hr : Jschon.Reach h a ks x) : a ≤ x := by
  induction hr with
  | here => exact Nat.le_refl _
  | step hc _ ih => have := (ho.kid _ _ (childD_kid hc)).1; omega

variable {p q : Site} {ks : List String} {x : Nat}

theorem Corr.le (D : DocMade E L c0 cid u root kvs0 w) (c : Corr E L root p w ks x q) : root ≤ x :=
  reach_le D.ok.ord c.reach

theorem Corr.info (c : Corr E L root p w ks x q) : ∃ i, w.info x = some i ∧ w.keywords x = i.keywords := by
  obtain ⟨i, hi⟩ := Option.isSome_iff_exists.1 c.isSchema
  exact ⟨i, hi, by simp [World.keywords, hi]⟩

variable {b : Uri} {kvs : List (String × Value)} {k : String} {v : Value} {o : KwObj}

/-- The keywords of a schema object are the members of what was written. -/
theorem Corr.keys (D : DocMade E L c0 cid u root kvs0 w) (c : Corr E L root p w ks x ⟨b, .obj kvs⟩) :
    (dkeys (w.keywords x)).Perm (dkeys kvs) ∧ (dkeys (w.keywords x)).Nodup :=
  have h := rearr_kw D.ok c.wf c.isSchema c.rearr
  ⟨h.1, h.2.1⟩

/-- The keyword object of a member. -/
theorem Corr.kw (D : DocMade E L c0 cid u root kvs0 w) (c : Corr E L root p w ks x ⟨b, .obj kvs⟩)
    (hm : (k, v) ∈ kvs) (ho : (k, o) ∈ w.keywords x) : KwFor w x k v o := by
  obtain ⟨-, -, h⟩ := rearr_kw D.ok c.wf c.isSchema c.rearr
  obtain ⟨hch, hr⟩ := h k v o hm ho
  obtain ⟨i, hi, hk⟩ := c.info
  obtain ⟨hb, bs, cs, t1, t2, -, -, t5, -⟩ := D.tidy x (c.le D) c.isSchema
  refine ⟨ho, hch, hr, D.ok.shapes x i _ hi (hk ▸ ho), ?_, hb _ ho⟩
  have hm : (k, o.shape) ∈ bs ++ cs.map (fun c => (c.key, c.shape)) := by
    rw [← t1]; exact List.mem_map.2 ⟨_, ho, rfl⟩
  rcases List.mem_append.1 hm with hm | hm
  · exact .inl (t2 _ hm)
  · obtain ⟨c', hc', he⟩ := List.mem_map.1 hm
    rw [Prod.mk.injEq] at he
    obtain ⟨m, hm1, hm2⟩ := t5 (by rintro rfl; cases hc')
    obtain ⟨m', hd, hm3⟩ := c.meta_ kvs rfl
    have := hm1.unique hm3
    subst this
    have hcl := hm2 c' hc'
    rw [he.1] at hcl
    by_cases hid : k = "$id"
    · obtain ⟨ci, e1, e2⟩ := hd.id
      rw [hid, e1] at hcl
      cases hcl
      exact .inl (.inr (.inr ⟨hid, he.2 ▸ e2⟩))
    · exact .inr ⟨c', (hd.same k hid).symm.trans hcl, he.2.symm⟩

theorem Corr.kw_exists (D : DocMade E L c0 cid u root kvs0 w) (c : Corr E L root p w ks x ⟨b, .obj kvs⟩)
    (hm : (k, v) ∈ kvs) : ∃ o, KwFor w x k v o := by
  have : k ∈ dkeys (w.keywords x) := (c.keys D).1.mem_iff.2 (mem_dkeys.2 ⟨_, hm⟩)
  obtain ⟨o, ho⟩ := mem_dkeys.1 this
  exact ⟨o, c.kw D hm ho⟩

theorem Corr.member_exists (D : DocMade E L c0 cid u root kvs0 w) (c : Corr E L root p w ks x ⟨b, .obj kvs⟩)
    (hm : (k, o) ∈ w.keywords x) : ∃ v, (k, v) ∈ kvs ∧ KwFor w x k v o := by
  have : k ∈ dkeys kvs := (c.keys D).1.mem_iff.1 (mem_dkeys.2 ⟨_, hm⟩)
  obtain ⟨v, hv⟩ := mem_dkeys.1 this
  exact ⟨v, hv, c.kw D hv hm⟩

/-- A schema object with keywords was written as an object. -/
theorem Corr.obj (D : DocMade E L c0 cid u root kvs0 w) (c : Corr E L root p w ks x q)
    (hm : (k, o) ∈ w.keywords x) : ∃ b kvs, q = ⟨b, .obj kvs⟩ := by
  obtain ⟨b, s⟩ := q
  rcases c.good with ⟨b', h⟩ | ⟨kvs, h, -⟩
  · exfalso
    simp only at h
    subst h
    have hdat := rearr_bool D.ok.ord c.rearr
    obtain ⟨i, hi, hk⟩ := c.info
    have := D.ok.kws x i hi
    rw [hdat] at this
    rw [hk] at hm
    have : (k, o.json) ∈ kwMembers i.keywords := List.mem_map.2 ⟨_, hm, rfl⟩
    simp_all [JData.members]
  · simp only at h
    exact ⟨b, kvs, by rw [h]⟩

/-- The base URI of a schema below a schema. -/
theorem base_below (D : DocMade E L c0 cid u root kvs0 w) {y g : Nat} (hs : w.isSchema y = true) (hle : root ≤ y)
    (hp : w.heap.parent y = some g) (hb : w.baseUri g = some b) (ha : (Jschon.absolute E.lib).base b) (hw : v.WF)
    (hre : Rearranged (val w.heap y) v) (hv : SchemaForm E L b v) :
    w.baseUri y = some (ownBase E.lib b v) ∧ (Jschon.absolute E.lib).base (ownBase E.lib b v) ∧
    (∀ t, (site E.lib b v).Has "$id" (.str t) → w.uri y = some (ownBase E.lib b v)) ∧
    ((∀ t, ¬ (site E.lib b v).Has "$id" (.str t)) → w.uri y = none) := by
  have habs : (Jschon.absolute E.lib).base (ownBase E.lib b v) :=
    ownBase_absolute D.lib ha fun kvs he v' hv' => by
      subst he
      cases hv with | obj h => exact memberForm_id (h _ hv')
  have none_ : "$id" ∉ dkeys (w.keywords y) → ownBase E.lib b v = b → w.baseUri y = some (ownBase E.lib b v) ∧
      w.uri y = none := fun h1 h2 => by
    have h3 := D.names.noId y g hle hs hp h1
    exact ⟨by rw [base_up D.ok.ord hp h3, h2]; exact hb, h3⟩
  cases hv with
  | @bool _ b' =>
    have hk : "$id" ∉ dkeys (w.keywords y) := by
      intro h
      obtain ⟨o, ho⟩ := mem_dkeys.1 h
      have hdat := rearr_bool D.ok.ord hre
      obtain ⟨i, hi⟩ := Option.isSome_iff_exists.1 hs
      have h1 := D.ok.kws y i hi
      rw [hdat] at h1
      have h2 : w.keywords y = i.keywords := by simp [World.keywords, hi]
      rw [h2] at ho
      have : ("$id", o.json) ∈ kwMembers i.keywords := List.mem_map.2 ⟨_, ho, rfl⟩
      simp_all [JData.members]
    obtain ⟨h1, h2⟩ := none_ hk rfl
    exact ⟨h1, habs, (fun t h => by obtain ⟨_, h, -⟩ := h; cases h), fun _ => h2⟩
  | @obj _ kvs h =>
    obtain ⟨e1, -, e3⟩ := rearr_kw D.ok hw hs hre
    cases hl : dlookup "$id" kvs with
    | none =>
      have hk : "$id" ∉ dkeys kvs := dlookup_eq_none.1 hl
      obtain ⟨h1, h2⟩ := none_ (fun h => hk (e1.mem_iff.1 h)) (by simp only [ownBase, hl])
      refine ⟨h1, habs, fun t h => ?_, fun _ => h2⟩
      obtain ⟨_, h, h'⟩ := h
      cases h
      exact absurd (mem_dkeys.2 ⟨_, h'⟩) hk
    | some v' =>
      obtain ⟨t, rfl, i1, i2⟩ := memberForm_id (h _ (dlookup_mem hl))
      have hmem := dlookup_mem hl
      obtain ⟨o, ho⟩ := mem_dkeys.1 (e1.mem_iff.2 (mem_dkeys.2 ⟨_, hmem⟩))
      obtain ⟨r, r1, r2⟩ := D.names.id y g o.shape t hle hp ⟨o, ho, rfl, rearr_str D.ok.ord (e3 _ _ _ hmem ho).2⟩
      have : r = ownBase E.lib b (.obj kvs) := by
        simp only [ownBase, hl]
        rcases r2 with ⟨j1, rfl⟩ | ⟨j1, b', j2, j3⟩
        · rw [if_pos j1]
        · rw [hb] at j2
          cases j2
          rw [if_neg (by rw [j1]; exact Bool.false_ne_true), j3]
          rfl
      subst this
      exact ⟨by rw [base_own r1, noFragment_of habs.2], habs, fun _ _ => r1, fun hno => absurd ⟨kvs, rfl, hmem⟩ (hno t)⟩

/-- A schema below a schema, directly or in a container. -/
theorem corr_below (D : DocMade E L c0 cid u root kvs0 w) (c : Corr E L root p w ks x ⟨b, .obj kvs⟩)
    {ls : List String} {y : Nat} {v : Value}
    (hr : Jschon.Reach w.heap x ls y) (hs : w.isSchema y = true)
    (ha : Stands E.lib ⟨b, .obj kvs⟩ ls (site E.lib b v))
    (hre : Rearranged (val w.heap y) v) (hv : SchemaForm E L b v) (hw : v.WF)
    (hp : (∃ k, ls = [k]) ∨ ∃ k k' j, ls = [k, k'] ∧ Child w.heap x k j ∧ w.isSchema j = false) :
    Corr E L root p w (ks ++ ls) y (site E.lib b v) := by
  have hgood : (∃ b, v = .bool b) ∨ ∃ kvs, v = .obj kvs ∧
      ∀ kv ∈ kvs, MemberForm E L (ownBase E.lib b v) kv.1 kv.2 := by
    cases hv with
    | bool => exact .inl ⟨_, rfl⟩
    | obj h => exact .inr ⟨_, rfl, h⟩
  have hle : root ≤ y := by have := c.le D; have := reach_le D.ok.ord hr; omega
  have hpar : ∃ p, w.heap.parent y = some p ∧ p < y ∧ HasDia E w p ∧ w.baseUri p = some b := by
    have hx := c.meta_ kvs rfl
    rcases hp with ⟨k, rfl⟩ | ⟨k, k', j, rfl, hj, hjs⟩
    · have := D.ok.ord.kid _ _ (childD_kid (reach_one.1 hr))
      exact ⟨x, this.2.2, this.1, hx, c.base⟩
    · cases hr with
      | step hc hr =>
        rename_i j'
        have : j' = j := reach_unique D.ok.keys.nodup (reach_one.2 hc) (reach_one.2 hj)
        subst this
        have h1 := D.ok.ord.kid _ _ (childD_kid hj)
        have h2 := D.ok.ord.kid _ _ (childD_kid (reach_one.1 hr))
        have hi : w.info j' = none := by
          cases hi : w.info j' with
          | none => rfl
          | some i => simp [World.isSchema, hi] at hjs
        obtain ⟨m, hm, hx⟩ := hx
        refine ⟨j', h2.2.2, h2.1, ⟨m, hm, .up (by rw [hi]; rfl) h1.2.2 h1.1 hx⟩, ?_⟩
        rw [base_up D.ok.ord h1.2.2 (by simp [World.uri, hi])]
        exact c.base
  obtain ⟨g, g1, g2, g3, g4⟩ := hpar
  obtain ⟨b1, b2, b3, b4⟩ := base_below D hs hle g1 g4 c.absolute hw hre hv
  refine ⟨reach_append c.reach hr, c.at_.trans ha, hs, hre, fun kvs' he => ?_, hw, b1, b2, ?_, b3, fun _ => b4⟩
  · replace he : v = .obj kvs' := he
    subst he
    obtain ⟨m, hm, g3⟩ := g3
    refine ⟨m, hm, .up ?_ g1 g2 g3⟩
    obtain ⟨-, -, -, -, -, -, -, -, h4⟩ := D.tidy y hle hs
    refine h4 (by rw [g1]; simp) fun hk => ?_
    -- the members of `v`
    rcases hgood with ⟨b, h⟩ | ⟨kvs2, h, hg⟩
    · cases h
    · cases h
      obtain ⟨v', hv'⟩ := mem_dkeys.1 ((rearr_kw D.ok hw hs hre).1.mem_iff.1 hk)
      exact (memberForm_boot (hg _ hv')).1 rfl
  · rcases hgood with h | ⟨kvs2, h, hg⟩
    · exact .inl h
    · exact .inr ⟨kvs2, h, fun kv hkv => .inr (hg kv hkv)⟩

theorem Corr.member (c : Corr E L root p w ks x ⟨b, .obj kvs⟩) (hm : (k, v) ∈ kvs)
    (hb : k ≠ "$schema") : MemberForm E L b k v := by
  rcases c.good with ⟨b, h⟩ | ⟨kvs', h, hg⟩
  · cases h
  · cases h
    rcases hg _ hm with h | h
    · exact absurd h hb
    · exact h

/-- The keys of the forms are disjoint. -/
theorem keys_disjoint : (∀ k ∈ oneKeys, k ∉ manyKeys ∧ k ∉ eitherKeys ∧ k ∉ namedKeys ∧ k ∉ noteKeys ∧ k ∉ bootNames) ∧
    (∀ k ∈ manyKeys, k ∉ oneKeys ∧ k ∉ eitherKeys ∧ k ∉ namedKeys ∧ k ∉ noteKeys ∧ k ∉ bootNames) ∧
    (∀ k ∈ eitherKeys, k ∉ oneKeys ∧ k ∉ manyKeys ∧ k ∉ namedKeys ∧ k ∉ noteKeys ∧ k ∉ bootNames) ∧
    (∀ k ∈ namedKeys, k ∉ oneKeys ∧ k ∉ manyKeys ∧ k ∉ eitherKeys ∧ k ∉ noteKeys ∧ k ∉ bootNames) := by
  refine ⟨?_, ?_, ?_, ?_⟩ <;> cases dia <;> decide +kernel

omit dia in
theorem not_schema {k : String} (h : k ∉ bootNames) : k ≠ "$schema" := by
  rintro rfl; exact h (by decide)

theorem oneKeys_names : ∀ k ∈ oneKeys, k ∈ definedNames := by cases dia <;> decide +kernel
theorem manyKeys_names : ∀ k ∈ manyKeys, k ∈ definedNames := by cases dia <;> decide +kernel
theorem eitherKeys_names : ∀ k ∈ eitherKeys, k ∈ definedNames := by cases dia <;> decide +kernel
theorem namedKeys_names : ∀ k ∈ namedKeys, k ∈ definedNames := by cases dia <;> decide +kernel

/-- A name whose value contains schemas. -/
def PartKey (k : String) : Prop := k ∈ oneKeys ∨ k ∈ manyKeys ∨ k ∈ eitherKeys ∨ k ∈ namedKeys

theorem PartKey.names (h : PartKey k) : k ∈ definedNames := by
  rcases h with h | h | h | h
  · exact oneKeys_names k h
  · exact manyKeys_names k h
  · exact eitherKeys_names k h
  · exact namedKeys_names k h

theorem PartKey.note (h : PartKey k) : k ∉ noteKeys := by
  rcases h with h | h | h | h
  · exact (keys_disjoint.1 k h).2.2.2.1
  · exact (keys_disjoint.2.1 k h).2.2.2.1
  · exact (keys_disjoint.2.2.1 k h).2.2.2.1
  · exact (keys_disjoint.2.2.2 k h).2.2.2.1

theorem PartKey.boot (h : PartKey k) : k ∉ bootNames := by
  rcases h with h | h | h | h
  · exact (keys_disjoint.1 k h).2.2.2.2
  · exact (keys_disjoint.2.1 k h).2.2.2.2
  · exact (keys_disjoint.2.2.1 k h).2.2.2.2
  · exact (keys_disjoint.2.2.2 k h).2.2.2.2

theorem PartKey.assert {a : Assertion} (h : PartKey k) : ¬ WrittenAs k v a := by
  intro ha
  have : ∀ k ∈ (["type", "enum", "const", "multipleOf", "maximum", "exclusiveMaximum", "minimum", "exclusiveMinimum",
      "maxLength", "minLength", "pattern", "maxItems", "minItems", "uniqueItems", "maxProperties", "minProperties",
      "required", "dependentRequired"] : List String), ¬ PartKey k := by
    unfold PartKey
    cases dia <;> decide +kernel
  cases ha <;> exact this _ (by decide) h

theorem Special.part (h : Special k) : ¬ PartKey k := by
  rintro (h1 | h1 | h1 | h1)
  · exact h.one h1
  · exact h.many h1
  · exact h.either h1
  · exact h.named h1

theorem Spec.OneKey.part (h : OneKey k v) : PartKey k := h.elim .inl fun h => .inr (.inr (.inl h.1))
theorem Spec.ManyKey.part (h : ManyKey k) : PartKey k := h.elim (fun h => .inr (.inl h)) fun h => .inr (.inr (.inl h))

/-- A member that contains schemas. -/
theorem memberForm_part (hk : PartKey k) (h : MemberForm E L b k v) :
    (OneKey k v ∧ SchemaForm E L b v) ∨ (ManyKey k ∧ ∃ vs, v = .arr vs ∧ ∀ x ∈ vs, SchemaForm E L b x) ∨
    (k ∈ namedKeys ∧ ∃ ms, v = .obj ms ∧ ∀ kv ∈ ms, SchemaForm E L b kv.2) := by
  cases h with
  | one h h' => exact .inl ⟨h, h'⟩
  | many h h' => exact .inr (.inl ⟨h, _, rfl, h'⟩)
  | named h h' => exact .inr (.inr ⟨h, _, rfl, h'⟩)
  | assert h => exact absurd h hk.assert
  | note h => exact absurd h hk.note
  | count h => rcases h with rfl | rfl <;> exact absurd hk (special (by decide)).part
  | anchor h => rcases h with rfl | ⟨-, rfl⟩ <;> exact absurd hk (special (by decide)).part
  | format | ref | id | dynamicRef | recursiveRef | recursiveAnchor => exact absurd hk (special (by decide)).part
  | unknown h => exact absurd hk.names h

theorem memberForm_one (hk : OneKey k v) (h : MemberForm E L b k v) : SchemaForm E L b v := by
  rcases memberForm_part hk.part h with h | ⟨h', vs, rfl, -⟩ | ⟨h', -⟩
  · exact h.2
  · rcases hk with hk | ⟨-, hk⟩
    · rcases h' with h' | h'
      · exact absurd h' (keys_disjoint.1 k hk).1
      · exact absurd h' (keys_disjoint.1 k hk).2.1
    · exact absurd rfl (hk vs)
  · rcases hk with hk | ⟨hk, -⟩
    · exact absurd h' (keys_disjoint.1 k hk).2.2.1
    · exact absurd h' (keys_disjoint.2.2.1 k hk).2.2.1

theorem memberForm_many {vs : List Value} (hk : ManyKey k) (h : MemberForm E L b k (.arr vs)) :
    ∀ x ∈ vs, SchemaForm E L b x := by
  rcases memberForm_part hk.part h with ⟨h, h'⟩ | ⟨h, vs, e, h'⟩ | ⟨h, ms, e, -⟩
  · cases h'
  · cases e; exact h'
  · cases e

theorem memberForm_manyKeys (hk : k ∈ manyKeys) (h : MemberForm E L b k v) : ∃ vs, v = .arr vs := by
  rcases memberForm_part (.inr (.inl hk)) h with ⟨h | ⟨h, -⟩, -⟩ | ⟨-, vs, e, -⟩ | ⟨h, -⟩
  · exact absurd h (keys_disjoint.2.1 k hk).1
  · exact absurd h (keys_disjoint.2.1 k hk).2.1
  · exact ⟨vs, e⟩
  · exact absurd h (keys_disjoint.2.1 k hk).2.2.1

theorem memberForm_named (hk : k ∈ namedKeys) (h : MemberForm E L b k v) :
    ∃ ms, v = .obj ms ∧ ∀ kv ∈ ms, SchemaForm E L b kv.2 := by
  rcases memberForm_part (.inr (.inr (.inr hk))) h with ⟨h | ⟨h, -⟩, -⟩ | ⟨h | h, -⟩ | ⟨h, h'⟩
  · exact absurd h (keys_disjoint.2.2.2 k hk).1
  · exact absurd h (keys_disjoint.2.2.2 k hk).2.2.1
  · exact absurd h (keys_disjoint.2.2.2 k hk).2.1
  · exact absurd h (keys_disjoint.2.2.2 k hk).2.2.1
  · exact h'

theorem Corr.memWF (c : Corr E L root p w ks x ⟨b, .obj kvs⟩) (hm : (k, v) ∈ kvs) : v.WF := by
  have := c.wf
  cases this with | obj _ h => exact h _ hm

theorem Corr.one (D : DocMade E L c0 cid u root kvs0 w) (c : Corr E L root p w ks x ⟨b, .obj kvs⟩)
    (hk : OneKey k v) (hm : (k, v) ∈ kvs) (ho : (k, o) ∈ w.keywords x) :
    Corr E L root p w (ks ++ [k]) o.json (site E.lib b v) := by
  have hb := hk.part.boot
  have f := c.kw D hm ho
  obtain ⟨cl, h1, h2⟩ := hk.cls
  have hv := memberForm_one hk (c.member hm (not_schema hb))
  have hs : w.isSchema o.json = true := by
    have := f.ok.1
    rw [f.shape hb h1] at this
    rcases h2 with h2 | h2 <;> rw [h2] at this
    · exact this
    · have hr := f.rearr
      rcases this with h | ⟨-, cs, e, -⟩ | ⟨-, t, e⟩
      · exact h
      all_goals
        rw [val_eq D.ok.ord, e] at hr
        cases hv <;> cases hr
  exact corr_below D c (reach_one.2 f.child) hs (.one hk hm .here) f.rearr
    hv (c.memWF hm) (.inl ⟨k, rfl⟩)

theorem Corr.many (D : DocMade E L c0 cid u root kvs0 w) (c : Corr E L root p w ks x ⟨b, .obj kvs⟩) {vs : List Value}
    (hk : ManyKey k) (hm : (k, .arr vs) ∈ kvs) (ho : (k, o) ∈ w.keywords x) :
    ∃ cs, w.heap.data o.json = .arr cs ∧ w.isSchema o.json = false ∧ cs.length = vs.length ∧
      ∀ (i : Nat) y v, cs[i]? = some y → vs[i]? = some v →
      Corr E L root p w (ks ++ [k, toString i]) y (site E.lib b v) := by
  have hb := hk.part.boot
  have f := c.kw D hm ho
  obtain ⟨cl, h1, h2⟩ := hk.cls
  obtain ⟨cs, h3, h4, h5⟩ := rearr_arr D.ok.ord f.rearr
  have hs : w.isSchema o.json = false ∧ ∀ y ∈ cs, w.isSchema y = true := by
    have := f.ok.1
    rw [f.shape hb h1] at this
    rcases h2 with h2 | h2 <;> rw [h2] at this <;> simp only [KwOk, h3] at this
    · rcases this with ⟨a, cs', e, b⟩ | ⟨_, t, e⟩
      · cases e; exact ⟨a, b⟩
      · cases e
    · rcases this with h | ⟨a, cs', e, b⟩ | ⟨_, t, e⟩
      · exact absurd h3 (D.ok.whole _ _ h)
      · cases e; exact ⟨a, b⟩
      · cases e
  refine ⟨cs, h3, hs.1, h4, fun i y v hy hv => ?_⟩
  have hch : Child w.heap o.json (toString i) y := by
    show ChildD (w.heap.data o.json) _ _
    rw [h3]; exact ⟨i, (natStr_eq_toString i).symm, hy⟩
  have hv20 := memberForm_many hk (c.member hm (not_schema hb))
  have hw : v.WF := by
    cases c.memWF hm with | arr h => exact h v (List.mem_of_getElem? hv)
  exact corr_below D c (.step f.child (reach_one.2 hch)) (hs.2 y (List.mem_of_getElem? hy))
    (.many hk hm hv .here) (h5 i y v hy hv) (hv20 v (List.mem_of_getElem? hv)) hw
    (.inr ⟨k, _, o.json, rfl, f.child, hs.1⟩)

theorem Corr.named (D : DocMade E L c0 cid u root kvs0 w) (c : Corr E L root p w ks x ⟨b, .obj kvs⟩)
    {vs : List (String × Value)} (hk : k ∈ namedKeys) (hm : (k, .obj vs) ∈ kvs) (ho : (k, o) ∈ w.keywords x) :
    ∃ cs, w.heap.data o.json = .obj cs ∧ w.isSchema o.json = false ∧ (dkeys cs).Perm (dkeys vs) ∧
      ∀ n y v, (n, y) ∈ cs → (n, v) ∈ vs →
      Corr E L root p w (ks ++ [k, n]) y (site E.lib b v) := by
  have hb := (keys_disjoint.2.2.2 k hk).2.2.2.2
  have f := c.kw D hm ho
  obtain ⟨cl, h1, h2⟩ := cls_named hk
  obtain ⟨cs, h3, h4, h5⟩ := rearr_obj D.ok.ord f.rearr
  have hs : w.isSchema o.json = false ∧ ∀ y ∈ cs, w.isSchema y.2 = true := by
    have := f.ok.1
    rw [f.shape hb h1, h2] at this
    simp only [KwOk, h3] at this
    obtain ⟨a, cs', e, b⟩ := this
    cases e; exact ⟨a, b⟩
  refine ⟨cs, h3, hs.1, h4, fun n y v hy hv => ?_⟩
  have hch : Child w.heap o.json n y := by
    show ChildD (w.heap.data o.json) _ _
    rw [h3]; exact hy
  obtain ⟨vs', e, hv20⟩ := memberForm_named hk (c.member hm (not_schema hb))
  cases e
  have hw := c.memWF hm
  have hn : (dkeys vs).Nodup := by cases hw with | obj h _ => exact h
  have hw : v.WF := by
    cases hw with | obj _ h => exact h _ hv
  exact corr_below D c (.step f.child (reach_one.2 hch)) (hs.2 _ hy) (.named hk hm hv .here)
    (h5 n y v (dlookup_of_mem (D.ok.keys.nodup _ _ h3) hy) (dlookup_of_mem hn hv)) (hv20 _ hv) hw
    (.inr ⟨k, _, o.json, rfl, f.child, hs.1⟩)

/-- Every subschema has a schema object. -/
theorem Corr.down (D : DocMade E L c0 cid u root kvs0 w) {a q : Site} {ls : List String} (h : Stands E.lib a ls q) :
    ∀ {ks : List String} {x : Nat}, Corr E L root p w ks x a → ∃ y, Corr E L root p w (ks ++ ls) y q := by
  induction h with
  | here => intro ks x c; exact ⟨x, by simpa using c⟩
  | one h1 h2 _ ih =>
    intro ks x c
    obtain ⟨o, f⟩ := c.kw_exists D h2
    obtain ⟨y, h⟩ := ih (c.one D h1 h2 f.mem)
    exact ⟨y, by simpa using h⟩
  | @many _ _ _ us i _ _ _ h1 h2 h3 _ ih =>
    intro ks x c
    obtain ⟨o, f⟩ := c.kw_exists D h2
    obtain ⟨cs, -, -, e, h4⟩ := c.many D h1 h2 f.mem
    obtain ⟨hlt, -⟩ := List.getElem?_eq_some_iff.1 h3
    obtain ⟨y, h⟩ := ih (h4 i cs[i] _ (List.getElem?_eq_getElem (by omega)) h3)
    exact ⟨y, by simpa using h⟩
  | @named _ _ _ ms n _ _ _ h1 h2 h3 _ ih =>
    intro ks x c
    obtain ⟨o, f⟩ := c.kw_exists D h2
    obtain ⟨cs, -, -, e, h4⟩ := c.named D h1 h2 f.mem
    obtain ⟨y0, hy0⟩ := mem_dkeys.1 (e.mem_iff.2 (mem_dkeys.2 ⟨_, h3⟩))
    obtain ⟨y, h⟩ := ih (h4 n y0 _ hy0 h3)
    exact ⟨y, by simpa using h⟩

theorem DocMade.find (D : DocMade E L c0 cid u root kvs0 w) {q : Site} {ls : List String}
    (h : Stands E.lib ⟨u, .obj kvs0⟩ ls q) : ∃ y, Corr E L root ⟨u, .obj kvs0⟩ w ls y q := by
  simpa using Corr.down D h D.corr

/-- What is below a keyword: nothing but JSON, a schema, or a container of schemas. -/
theorem Corr.parts (D : DocMade E L c0 cid u root kvs0 w) (c : Corr E L root p w ks x q)
    (ho : (k, o) ∈ w.keywords x) :
    NoSchema w o.json ∨ (∃ q, Corr E L root p w (ks ++ [k]) o.json q) ∨
    (w.isSchema o.json = false ∧ ∀ y ∈ (w.heap.data o.json).kids, ∃ n q, Corr E L root p w (ks ++ [k, n]) y q) := by
  obtain ⟨b, kvs, rfl⟩ := c.obj D ho
  obtain ⟨v, hv, f⟩ := c.member_exists D ho
  by_cases hb : k ∈ bootNames
  · have h1 := f.boot hb
    have h2 := f.ok.1
    rcases h1 with ⟨-, h1⟩ | ⟨-, h1⟩ | ⟨-, h1 | h1⟩ <;> rw [h1] at h2 <;> exact .inl h2
  · have hsh : ∀ {cl}, getKwclass dialectMeta k = .ok cl → KwOk w cl.shape o.json := fun h => by
      rw [← f.shape hb h]; exact f.ok.1
    have hmem := c.member hv (not_schema hb)
    by_cases hpart : PartKey k
    · rcases memberForm_part hpart hmem with ⟨k1, -⟩ | ⟨k2, vs, rfl, -⟩ | ⟨k3, vs, rfl, -⟩
      · exact .inr (.inl ⟨_, c.one D k1 hv ho⟩)
      · obtain ⟨cs, e1, e2, e3, e4⟩ := c.many D k2 hv ho
        refine .inr (.inr ⟨e2, fun y hy => ?_⟩)
        rw [e1] at hy
        obtain ⟨i, hi, rfl⟩ := List.mem_iff_getElem.1 (show y ∈ cs from hy)
        exact ⟨_, _, e4 i _ _ (List.getElem?_eq_getElem hi) (List.getElem?_eq_getElem (by omega))⟩
      · obtain ⟨cs, e1, e2, e3, e4⟩ := c.named D k3 hv ho
        refine .inr (.inr ⟨e2, fun y hy => ?_⟩)
        rw [e1] at hy
        obtain ⟨⟨n, y⟩, hi, rfl⟩ := List.mem_map.1 (show y ∈ cs.map (·.2) from hy)
        obtain ⟨v', hv'⟩ := mem_dkeys.1 (e3.mem_iff.1 (mem_dkeys.2 ⟨_, hi⟩))
        exact ⟨_, _, e4 n _ _ hi hv'⟩
    · left
      clear hv ho
      cases hmem with
      | one h => exact absurd h.part hpart
      | many h => exact absurd h.part hpart
      | named h => exact absurd (.inr (.inr (.inr h))) hpart
      | assert h =>
        obtain ⟨cl, e1, ⟨e2, -⟩ | ⟨re, e2, -⟩⟩ := cls_assert h <;> have h3 := hsh e1 <;> rw [e2] at h3 <;> exact h3
      | note h => obtain ⟨cl, e1, e2⟩ := cls_note h; have h3 := hsh e1; rw [e2] at h3; exact h3
      | count h => rcases h with rfl | rfl <;> cases dia <;> exact hsh (cl := _) rfl
      | anchor h =>
        rcases h with rfl | ⟨rfl, rfl⟩
        · cases dia <;> exact hsh (cl := _) rfl
        · exact hsh (cl := _) rfl
      | format | ref => cases dia <;> exact hsh (cl := _) rfl
      | dynamicRef hd | recursiveAnchor hd | recursiveRef hd => subst hd; exact hsh (cl := _) rfl
      | id => exact absurd (by decide) hb
      | unknown e1 e2 e3 => exact hsh (cls_unknown e1 e2 e3)

/-- Every schema object was made from a subschema. -/
theorem DocMade.all (D : DocMade E L c0 cid u root kvs0 w) : ∀ (y : Nat), root ≤ y → w.isSchema y = true →
    ∃ ks q, Corr E L root ⟨u, .obj kvs0⟩ w ks y q := by
  have kid : ∀ {g y ks q}, Corr E L root ⟨u, .obj kvs0⟩ w ks g q → y ∈ (w.heap.data g).kids →
      ∃ k o, (k, o) ∈ w.keywords g ∧ o.json = y := by
    intro g y ks q c hy
    obtain ⟨i, hi, hk⟩ := c.info
    have h1 := D.ok.kws g i hi
    rcases c.good with ⟨b', h⟩ | ⟨kvs, h, -⟩
    · have := c.rearr
      rw [h] at this
      rw [rearr_bool D.ok.ord this] at hy
      cases hy
    · have := c.rearr
      rw [h] at this
      obtain ⟨ms, e, -⟩ := rearr_obj D.ok.ord this
      rw [e] at hy h1
      obtain ⟨⟨k, y⟩, hm, rfl⟩ := List.mem_map.1 (show y ∈ ms.map Prod.snd from hy)
      rw [← show kwMembers i.keywords = ms from h1] at hm
      obtain ⟨⟨k', o⟩, ho, he⟩ := List.mem_map.1 hm
      cases he
      exact ⟨k', o, hk ▸ ho, rfl⟩
  intro y
  induction y using Nat.strongRecOn with
  | ind y ih =>
    intro hle hs
    rcases D.hangs y hle (D.ok.dom y hs) (.inl hs) with h | ⟨g, g1, g2, g3⟩
    · subst h
      exact ⟨_, _, D.corr⟩
    have k1 := D.ok.ord.kid _ _ g3
    rcases D.ok.near y g hs k1.2.2 with ⟨a, -⟩ | ⟨a, _, b, c, -⟩
    · obtain ⟨ks, q, cg⟩ := ih g k1.1 g1 a
      obtain ⟨k, o, h1, rfl⟩ := kid cg g3
      rcases cg.parts D h1 with h | ⟨q, h⟩ | ⟨h, -⟩
      · rw [h _ .refl] at hs; cases hs
      · exact ⟨_, _, h⟩
      · rw [h] at hs; cases hs
    · rcases D.hangs g g1 g2 (.inr ⟨y, hs, k1.2.2⟩) with h | ⟨g', h1, h2, h3⟩
      · subst h
        rw [D.isSchema] at a; cases a
      · have k2 := D.ok.ord.kid _ _ h3
        rw [k2.2.2] at b
        cases b
        obtain ⟨ks, q, cg⟩ := ih _ (by omega) h1 c
        obtain ⟨k, o, h4, rfl⟩ := kid cg h3
        rcases cg.parts D h4 with h | ⟨q, h⟩ | ⟨-, h⟩
        · rw [h _ (.step g3 .refl)] at hs; cases hs
        · rw [h.isSchema] at a; cases a
        · obtain ⟨n, q, h⟩ := h y g3
          exact ⟨_, _, h⟩

omit dia in
theorem reach_up_step {h : JHeap} {a x : Nat} {ks : List String} (hr : Jschon.Reach h a ks x) (hne : x ≠ a) :
    ∃ ks' k p, Jschon.Reach h a ks' p ∧ Child h p k x := by
  induction hr with
  | here => exact absurd rfl hne
  | @step a k c ks x hc hr ih =>
    by_cases he : x = c
    · subst he; exact ⟨[], k, a, .here, hc⟩
    · obtain ⟨ks', k', p, h1, h2⟩ := ih he
      exact ⟨k :: ks', k', p, .step hc h1, h2⟩

theorem DocMade.cacheids (D : DocMade E L c0 cid u root kvs0 w) : ∀ (x : Nat) {ks : List String},
    Jschon.Reach w.heap root ks x → w.isSchema x = true → w.cacheid x = cid := by
  intro x
  induction x using Nat.strongRecOn with
  | ind x ih =>
    intro ks hr hs
    by_cases he : x = root
    · subst he; exact D.cacheid
    · obtain ⟨ks', k, p, h1, h2⟩ := reach_up_step hr he
      have h3 := D.ok.ord.kid _ _ (childD_kid h2)
      rcases D.ok.near x p hs h3.2.2 with ⟨a, b⟩ | ⟨a, g, b, c, d⟩
      · rw [← b]; exact ih p h3.1 h1 a
      · have hne : p ≠ root := by
          rintro rfl
          rw [D.isSchema] at a; cases a
        obtain ⟨ks2, k2, g', h4, h5⟩ := reach_up_step h1 hne
        have h6 := D.ok.ord.kid _ _ (childD_kid h5)
        rw [h6.2.2] at b
        cases b
        rw [← d]; exact ih g (by omega) h4 c

end
end Jschon
