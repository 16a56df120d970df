import Verif.Proof.PlainDoc
import Verif.Proof.NoCache
import Verif.Props.DocObserved
import Verif.Props.SchemaEdit

/-!
# C93: a schema whose keywords are edited

The methods that change a JSON document can be called on the instances inside a schema, as in
`schema['enum'].append(1)`.  If the keyword keeps nothing but this instance, the edit is noticed: the schema
then validates as the edited document would.
-/

namespace Jschon
open Spec

section
variable {w w' : World} (hw : CHistory w) (he : PlainEdited w w')
include hw he

theorem Spec.PlainEdited.of_history : Amended w w' := he.amended (hw.cold.inv hw.ok.ord hw.ok.keys)

/-- C93: the keywords, the URIs, the positions of the schemas and the caches are as they were. -/
theorem C93_keywords {s : Nat} (hs : w.isSchema s = true) : w'.isSchema s = true ∧
    w'.keywords s = w.keywords s ∧ w'.uri s = w.uri s ∧ w'.baseUri s = w.baseUri s ∧
    w'.heap.parent s = w.heap.parent s ∧ w'.caches = w.caches := by
  have a := he.of_history hw
  have hl := hw.ok.dom s hs
  exact ⟨(a.isSchema s).trans hs, a.keywords s, a.uri s, a.baseUri hw.ok hl, a.parent s hl, a.caches⟩

/-- C93: a schema has the members that it had, and its value is made of what they are now. -/
theorem C93_members {s : Nat} (hs : w.isSchema s = true) : w'.heap.data s = w.heap.data s ∧
    ∀ ms, w.heap.data s = .obj ms → val w'.heap s = .obj (ms.map fun m => (m.1, val w'.heap m.2)) := by
  have a := he.of_history hw
  have hd := a.schemaData hw.ok hs
  exact ⟨hd, fun ms h => val_obj a.inv.ord (hd.trans h)⟩

/-- C93: what `value` returns, of a schema and of any other instance, is its content, whatever was read before. -/
theorem C93_value (x : Nat) : (readValue w'.heap x).2 = val w'.heap x :=
  have i := (he.of_history hw).inv
  (readValue_spec i.ord i.val x).2

/-- C93: nothing is changed but instances in the values of such keywords. -/
theorem C93_elsewhere {x : Nat} (hx : x < w.heap.next) (hn : ¬ InPlain w x) : w'.heap.data x = w.heap.data x :=
  (he.of_history hw).data x hx hn

/-- C93: evaluation sees all keywords. -/
theorem C93_all_seen [Dialect] {E : CEnv} {cid : String} : w'.liveStore E cid = w'.store E cid :=
  ((he.of_history hw).wok hw.ok).live

end

section
/- The dialect of the documents. -/
variable [dia : Dialect]
variable {E : CEnv} (hE : CEnvOk E) (hO : ∀ u m, E.metaschema u = .ok m → Ordered m) (hL : SiteLib E.lib)
variable {w : World} (hw : CHistory w) {mo : Option Meta} {doc : Value} (hd : doc.WF) {cid : String}
  {uri metaUri : Option Uri} {p : Site} (hp : p = docSite E.lib w uri doc) (hf : DocForm E mo (links E.lib [p]) p)
  (hu : NewUri E w cid uri doc) (hm : ∀ m, mo = some m → ∃ u, metaUri = some u ∧ E.metaschema u = .ok m)
  {k : Nat} {w' : World} {s : Nat} (hn : newDocument E k cid uri metaUri doc w = some (w', .ok s))
  {w'' : World} (he : PlainEdited w' w'')
  {mo' : Option Meta} {p' : Site} (hp' : p' = ⟨p.base, val w''.heap s⟩) (hf' : DocForm E mo' (links E.lib [p']) p')
include hE hO hL hw hd hp hf hu hm hn he hp' hf'

/-- What is there after the edits: a boolean schema, or the state in which construction of the edited document
would have left the catalog. -/
theorem edited_cases :
    (∃ b, p'.schema = .bool b ∧ (w''.store E cid).obj s = .bool b) ∨
    ∃ c0 u kvs w1, p' = ⟨u, .obj kvs⟩ ∧ DocAlone E c0 cid ⟨u, .obj kvs⟩ ∧
      DocDone E (links E.lib [p']) [(s, ⟨u, .obj kvs⟩)] c0 cid u s kvs w1 w'' := by
  have pre : SPre w cid uri none := .doc hw.ok fun u h => (hu.given u h).2.2
  have post := newDocument_spec hE hd pre hn
  obtain ⟨rfl, -, h2, -, -, h6, -⟩ := post.ret _ rfl
  have hw' : CHistory w' := .new hw hE hd (fun u h => (hu.given u h).2.2) hn
  have a := he.of_history hw'
  cases doc with
  | bool b =>
    left
    have hb : w'.heap.data w.heap.next = .bool b := rearr_bool post.ok.ord h6
    have hb' := (a.schemaData hw'.ok h2).trans hb
    refine ⟨b, by rw [hp', val_eq a.inv.ord, hb']; rfl, ?_⟩
    simp only [World.store, World.schemaObj, hb']
  | obj kvs =>
    right
    obtain ⟨N, w1, w2, h, -, D⟩ := newDocument_local hE hO hL hd hp hf pre hm
      (fun u h => ⟨(hu.given u h).1, (hu.given u h).2.1⟩) (hp ▸ hu.same) ⟨hp ▸ hu.unique, hp ▸ hu.free⟩
    cases newDocument_det hn (h N (Nat.le_refl _))
    obtain ⟨ms, hms, -⟩ := rearr_obj post.ok.ord h6
    have hv := val_obj a.inv.ord ((a.schemaData hw'.ok h2).trans hms)
    subst hp
    rw [hv] at hp'
    have hmem : ∀ kv ∈ ms.map (fun m => (m.1, val w''.heap m.2)), kv.1 = "$schema" ∨
        MemberForm E (links E.lib [p']) p'.base kv.1 kv.2 := by
      rw [hp'] at hf' ⊢
      cases hf' with
      | obj _ _ h => exact h
    have hb : p'.base = (docSite E.lib w uri (.obj kvs)).base := by rw [hp']
    obtain ⟨A', D'⟩ := D.amend (L' := links E.lib [p']) ⟨hu.unique, hu.free⟩ a hv (by rw [hp']; rfl)
      (by rw [hb] at hmem; exact hmem)
    exact ⟨_, _, _, _, hp', A', D'⟩
  | _ => subst hp; cases hf

/-- C93: a schema that is edited in this way validates as the edited document says, with what that means to
jschon. -/
theorem C93_document {env : Env} {i : Inst} {n : Nat} {r : RNode} (hi : i.value.WF)
    (hev : evaluate (w''.liveStore E cid) env n s i = some r) :
    (r.valid = true ↔ OAccepts E.lib env E.fmtEnabled (links E.lib [p']) p' i.value) ∧
    (r.valid = false ↔ ORejects E.lib env E.fmtEnabled (links E.lib [p']) p' i.value) := by
  rw [C93_all_seen (.new hw hE hd (fun u h => (hu.given u h).2.2) hn) he] at hev
  refine verdict_obs (n := n) fun m hnm => ?_
  rcases edited_cases hE hO hL hw hd hp hf hu hm hn he hp' hf' with ⟨b, h1, hb⟩ | ⟨c0, u, kvs, w1, rfl, A, D⟩
  · cases n with
    | zero => cases hev
    | succ n =>
      obtain ⟨r', h3, h2⟩ := evaluate_bool (env := env) hb n i
      rw [hev] at h3; cases h3
      obtain ⟨k, rfl⟩ : ∃ k, m = k + 1 := ⟨m - 1, by omega⟩
      obtain ⟨b', v'⟩ := p'
      cases h1
      rw [h2]; exact Iff.rfl
  · refine (D.storeReads A rfl).observed ?_ ⟨_, _, [], D.mem, D.made.corr⟩ hi hev hnm
    rintro s q kws ⟨root', p, ks, h1, c⟩ he
    cases List.mem_singleton.1 h1
    rcases D.read.objs c with ⟨b, -, h⟩ | ⟨kvs, kws, -, h, -, h'⟩
    · rw [h] at he; cases he
    · rw [h] at he; cases he; exact h'

/-- C93: and so it says whether a value is valid against the edited document, where jschon and the
specification agree. -/
theorem C93_verdict {env : Env} {i : Inst} {n : Nat} {r : RNode} (hi : i.value.WF)
    (hfa : DFaithful E.lib (links E.lib [p']) p' env i.value)
    (hev : evaluate (w''.liveStore E cid) env n s i = some r) :
    (r.valid = true ↔ DAccepts E.lib env E.fmtEnabled (links E.lib [p']) p' i.value) ∧
    (r.valid = false ↔ DRejects E.lib env E.fmtEnabled (links E.lib [p']) p' i.value) := by
  rw [C93_all_seen (.new hw hE hd (fun u h => (hu.given u h).2.2) hn) he] at hev
  have main : ∀ m, n ≤ m →
      (r.valid = true ↔ (dunroll E.lib env E.fmtEnabled (links E.lib [p']) m).valid [] p' i.value) := by
    rcases edited_cases hE hO hL hw hd hp hf hu hm hn he hp' hf' with ⟨b, h1, hb⟩ | ⟨c0, u, kvs, w1, rfl, A, D⟩
    · intro m hnm
      cases n with
      | zero => cases hev
      | succ n =>
        obtain ⟨r', h3, h2⟩ := evaluate_bool (env := env) hb n i
        rw [hev] at h3; cases h3
        obtain ⟨k, rfl⟩ : ∃ k, m = k + 1 := ⟨m - 1, by omega⟩
        obtain ⟨b', v'⟩ := p'
        cases h1
        rw [h2]; exact Iff.rfl
    · exact fun m hm => D.verdict A rfl hi hfa hev hm
  refine ⟨⟨fun hv => ⟨n, fun m hm => (main m hm).1 hv⟩, ?_⟩, ⟨fun hv => ⟨n, fun m hm h' => ?_⟩, ?_⟩⟩
  · rintro ⟨m, hm⟩
    exact (main (max n m) (Nat.le_max_left _ _)).2 (hm _ (Nat.le_max_right _ _))
  · rw [(main m hm).2 h'] at hv
    cases hv
  · rintro ⟨m, hm⟩
    cases hv : r.valid with
    | false => rfl
    | true => exact absurd ((main (max n m) (Nat.le_max_left _ _)).1 hv) (hm _ (Nat.le_max_right _ _))

/-- C93: evaluation ends, if no cycle of references applies to one and the same instance. -/
theorem C93_ends {rank : Site → Nat} {bound : Nat} (hr : DRanked E.lib (links E.lib [p']) rank bound) (env : Env)
    (i : Inst) : ∃ k r, evaluate (w''.liveStore E cid) env k s i = some r := by
  rw [C93_all_seen (.new hw hE hd (fun u h => (hu.given u h).2.2) hn) he]
  rcases edited_cases hE hO hL hw hd hp hf hu hm hn he hp' hf' with ⟨b, h1, hb⟩ | ⟨c0, u, kvs, w1, rfl, A, D⟩
  · obtain ⟨r, hr, -⟩ := evaluate_bool (env := env) hb 0 i
    exact ⟨1, r, hr⟩
  · exact (D.storeReads A rfl).halts ⟨_, _, [], D.mem, D.made.corr⟩ hr env i

/-- C93: a schema that is edited, and a schema that is constructed anew, in this or another catalog, from
its value, under its base URI, have the same verdict. -/
theorem C93_as_new {w0 : World} (hw0 : CHistory w0) {doc0 : Value} (hd0 : doc0.WF) {cid0 : String}
    {uri0 metaUri0 : Option Uri} (hp0 : p' = docSite E.lib w0 uri0 doc0) (hu0 : NewUri E w0 cid0 uri0 doc0)
    (hm0 : ∀ m, mo' = some m → ∃ u, metaUri0 = some u ∧ E.metaschema u = .ok m)
    {k0 : Nat} {w0' : World} {s0 : Nat} (hn0 : newDocument E k0 cid0 uri0 metaUri0 doc0 w0 = some (w0', .ok s0))
    {env : Env} {i i0 : Inst} {n n0 : Nat} {r r0 : RNode} (hi : i.value.WF) (hv : i0.value = i.value)
    (hev : evaluate (w''.liveStore E cid) env n s i = some r)
    (hev0 : evaluate (w0'.store E cid0) env n0 s0 i0 = some r0) : r.valid = r0.valid := by
  have h1 := (C93_document hE hO hL hw hd hp hf hu hm hn he hp' hf' hi hev).1
  have h2 := (C83_document hE hO hL hw0 hd0 hp0 hf' hu0 hm0 hn0 .refl (.inr ⟨rfl, fun _ _ _ _ => rfl⟩) (hv ▸ hi) hev0).1
  rw [hv] at h2
  rw [Bool.eq_iff_iff]
  exact h1.trans h2.symm

end

/-! ## A concrete case -/

section
attribute [local instance] Toy.in2020

namespace Toy

mutual
/-- Whether two values without numbers are written in the same way. -/
def same : Value → Value → Bool
  | .null, .null => true
  | .bool a, .bool b => decide (a = b)
  | .str a, .str b => decide (a = b)
  | .arr xs, .arr ys => sameList xs ys
  | .obj xs, .obj ys => sameMembers xs ys
  | _, _ => false
def sameList : List Value → List Value → Bool
  | [], [] => true
  | x :: xs, y :: ys => same x y && sameList xs ys
  | _, _ => false
def sameMembers : List (String × Value) → List (String × Value) → Bool
  | [], [] => true
  | (k, x) :: xs, (l, y) :: ys => decide (k = l) && (same x y && sameMembers xs ys)
  | _, _ => false
end

mutual
theorem same_spec : (v w : Value) → same v w = true → v = w
  | .null, w, h => by cases w <;> simp_all [same]
  | .bool a, w, h => by cases w <;> simp_all [same]
  | .num a, w, h => by cases w <;> simp_all [same]
  | .str a, w, h => by cases w <;> simp_all [same]
  | .arr xs, w, h => by
    cases w <;> simp only [same, Bool.false_eq_true] at h
    rw [sameList_spec xs _ h]
  | .obj xs, w, h => by
    cases w <;> simp only [same, Bool.false_eq_true] at h
    rw [sameMembers_spec xs _ h]
theorem sameList_spec : (xs ys : List Value) → sameList xs ys = true → xs = ys
  | [], ys, h => by cases ys <;> simp_all [sameList]
  | x :: xs, [], h => by simp [sameList] at h
  | x :: xs, y :: ys, h => by
    simp only [sameList, Bool.and_eq_true] at h
    rw [same_spec x y h.1, sameList_spec xs ys h.2]
theorem sameMembers_spec : (xs ys : List (String × Value)) → sameMembers xs ys = true → xs = ys
  | [], ys, h => by cases ys <;> simp_all [sameMembers]
  | (k, x) :: xs, [], h => by simp [sameMembers] at h
  | (k, x) :: xs, (l, y) :: ys, h => by
    simp only [sameMembers, Bool.and_eq_true, decide_eq_true_eq] at h
    rw [h.1, same_spec x y h.2.1, sameMembers_spec xs ys h.2.2]
end

def stringsSite : Site := ⟨uuid0, stringsDoc⟩

/-- The document with one more name in `required`, its members in the order in which the keywords are
constructed. -/
def demandDoc : Value := .obj [("type", .str "object"), ("required", .arr [.str "a", .str "b"]),
  ("additionalProperties", .obj [("type", .str "string")])]

def demandSite : Site := ⟨uuid0, demandDoc⟩

theorem required_form {L : Links} {ns : List String} : DocForm Toy.env20 (some meta2020) L
    ⟨uuid0, .obj [("type", .str "object"), ("required", .arr (ns.map .str)),
      ("additionalProperties", .obj [("type", .str "string")])]⟩ := by
  refine .obj (.inl ⟨rfl, rfl⟩) ofDialect_shipped fun kv hkv => ?_
  simp only [List.mem_cons, List.not_mem_nil, or_false] at hkv
  rcases hkv with rfl | rfl | rfl
  · exact .inr (.assert .type (fun re h => by cases h))
  · exact .inr (.assert .required (fun re h => by cases h))
  · refine .inr (.one (.inl (by decide)) (.obj fun kv hkv => ?_))
    simp only [List.mem_cons, List.not_mem_nil, or_false] at hkv
    subst hkv
    exact .assert .type (fun re h => by cases h)

theorem strings_new : NewUri Toy.env20 .empty "" none stringsDoc where
  given u h := by cases h
  same h := of_decide_eq_true h
  unique := uniqueNames_check (n := 9) (by decide +kernel)
  free v ks q _ _ := rfl

/-- `schema['required'].append('b')`. -/
def demand (w : World) : World :=
  match dlookup "required" (w.keywords 0) with
  | some o => w.editJson (.append o.json (.plain (.str "b")))
  | none => w

/-- Whether `required` is a keyword whose value may be edited. -/
def open20 (w : World) : Bool :=
  match dlookup "required" (w.keywords 0) with
  | some o => decide (o.shape = .plain) && decide (o.json < w.heap.next)
  | none => false

theorem demand_edited {w : World} (h : open20 w = true) : PlainEdited w (demand w) := by
  unfold open20 at h
  unfold demand
  split at h
  · rename_i o ho
    simp only [Bool.and_eq_true, decide_eq_true_eq] at h
    exact .call (.append o.json (.plain (.str "b"))) .refl rfl
      ⟨0, "required", o, [], dlookup_mem ho, by decide, .inl h.1, .here⟩ ⟨h.2, .str⟩ trivial
  · cases h

end Toy

/-- The hypotheses of C93 can hold, and the verdict on an object without `b` changes. -/
example : ∃ w' w'' s, newDocument Toy.env20 9 "" none (some ⟨"m20", none⟩) Toy.stringsDoc .empty = some (w', .ok s) ∧
    Toy.stringsSite = docSite Toy.env20.lib .empty none Toy.stringsDoc ∧
    DocForm Toy.env20 (some meta2020) (links Toy.env20.lib [Toy.stringsSite]) Toy.stringsSite ∧
    NewUri Toy.env20 .empty "" none Toy.stringsDoc ∧ PlainEdited w' w'' ∧
    Toy.demandSite = ⟨Toy.stringsSite.base, val w''.heap s⟩ ∧
    DocForm Toy.env20 (some meta2020) (links Toy.env20.lib [Toy.demandSite]) Toy.demandSite ∧
    Toy.verdict20 w' (.obj [("a", .str "x")]) = some true ∧
    Toy.verdict20 w'' (.obj [("a", .str "x")]) = some false := by
  have h : (Toy.build20 Toy.stringsDoc).map (fun p =>
      (match p.2 with | .ok s => decide (s = 0) | .error _ => false) && Toy.open20 p.1 &&
      Toy.same Toy.demandDoc (val (Toy.demand p.1).heap 0) &&
      decide (Toy.verdict20 p.1 (.obj [("a", .str "x")]) = some true ∧
        Toy.verdict20 (Toy.demand p.1) (.obj [("a", .str "x")]) = some false)) = some true := by
    decide +kernel
  obtain ⟨⟨w, r⟩, hb, h⟩ := Option.map_eq_some_iff.1 h
  simp only [Bool.and_eq_true, decide_eq_true_eq] at h
  cases r with
  | error e => cases h.1.1.1
  | ok s =>
    have hs : s = 0 := of_decide_eq_true h.1.1.1
    subst hs
    refine ⟨w, Toy.demand w, 0, hb, rfl, Toy.required_form (ns := ["a"]), Toy.strings_new, Toy.demand_edited h.1.1.2, ?_,
      Toy.required_form (ns := ["a", "b"]), h.2⟩
    rw [← Toy.same_spec _ _ h.1.2]
    rfl

end

end Jschon
