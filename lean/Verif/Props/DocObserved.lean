import Verif.Proof.DocObserved
import Verif.Props.Shelf

/-!
# C83: the verdict on any document

The verdict theorems of C62, C72 and C73 suppose that the points at which evaluation differs from the
specification do not come up.  Here nothing of that kind is supposed, and the meaning of documents is the one of
`Verif/Spec/DocObserved.lean`, in which those points are spelled out.
-/

namespace Jschon
open Spec

section
/- The dialect of the documents. -/
variable [dia : Dialect]

/-- Verdicts after all sufficiently long unrollings. -/
theorem verdict_obs {lib : UriLib} {env : Env} {enabled : String → Bool} {L : Links} {p : Site} {v : Value} {r : RNode}
    {n : Nat} (main : ∀ m, n ≤ m → (r.valid = true ↔ (ounroll lib env enabled L m).valid [] p v)) :
    (r.valid = true ↔ OAccepts lib env enabled L p v) ∧ (r.valid = false ↔ ORejects lib env enabled L p v) := by
  refine ⟨⟨fun hv => ⟨n, fun m hm => (main m hm).1 hv⟩, ?_⟩, ⟨fun hv => ⟨n, fun m hm h' => ?_⟩, ?_⟩⟩
  · rintro ⟨m, hm⟩
    exact (main (max n m) (Nat.le_max_left _ _)).2 (hm _ (Nat.le_max_right _ _))
  · rw [(main m hm).2 h'] at hv
    cases hv
  · rintro ⟨m, hm⟩
    cases hv : r.valid with
    | false => rfl
    | true => exact absurd ((main (max n m) (Nat.le_max_left _ _)).1 hv) (hm _ (Nat.le_max_right _ _))

variable {E : CEnv} (hE : CEnvOk E) (hO : ∀ u m, E.metaschema u = .ok m → Ordered m) (hL : SiteLib E.lib)
include hE hO hL

/-- C83: once a document is constructed, and whatever is constructed afterwards, unless it takes the names of the
document and there are dynamic references, if evaluation of a value ends, then it says what the document means to
jschon. -/
theorem C83_document {w : World} (hw : CHistory w) {mo : Option Meta} {doc : Value} (hd : doc.WF) {cid : String}
    {uri metaUri : Option Uri} {p : Site} (hp : p = docSite E.lib w uri doc) (hf : DocForm E mo (links E.lib [p]) p)
    (hu : NewUri E w cid uri doc) (hm : ∀ m, mo = some m → ∃ u, metaUri = some u ∧ E.metaschema u = .ok m)
    {k : Nat} {w' : World} {s : Nat} (hn : newDocument E k cid uri metaUri doc w = some (w', .ok s))
    {w'' : World} (ha : CAfter w' w'') {cid' : String} (hs : Settled E cid cid' p w' w'')
    {env : Env} {i : Inst} {n : Nat} {r : RNode} (hi : i.value.WF)
    (he : evaluate (w''.store E cid') env n s i = some r) :
    (r.valid = true ↔ OAccepts E.lib env E.fmtEnabled (links E.lib [p]) p i.value) ∧
    (r.valid = false ↔ ORejects E.lib env E.fmtEnabled (links E.lib [p]) p i.value) := by
  have pre : SPre w cid uri none := .doc hw.ok fun u h => (hu.given u h).2.2
  have post := newDocument_spec hE hd pre hn
  obtain ⟨rfl, h2, -, -, -, h6, -⟩ := post.ret _ rfl
  refine verdict_obs (n := n) fun m hnm => ?_
  cases doc with
  | bool b =>
    have hb := bool_later (E := E) post.ok h2 h6 ha cid'
    cases n with
    | zero => cases he
    | succ n =>
      obtain ⟨r', h1, h2⟩ := evaluate_bool (env := env) hb n i
      rw [he] at h1; cases h1
      obtain ⟨k, rfl⟩ : ∃ k, m = k + 1 := ⟨m - 1, by omega⟩
      rw [h2, hp]; exact Iff.rfl
  | obj kvs =>
    obtain ⟨N, w1, w2, h, -, D⟩ := newDocument_local hE hO hL hd hp hf pre hm
      (fun u h => ⟨(hu.given u h).1, (hu.given u h).2.1⟩) (hp ▸ hu.same) ⟨hp ▸ hu.unique, hp ▸ hu.free⟩
    cases newDocument_det hn (h N (Nat.le_refl _))
    rw [D.later (by rw [hp]; rfl) ⟨hp ▸ hu.unique, hp ▸ hu.free⟩ post.ok ha hs] at he
    subst hp
    refine (D.storeReads ⟨hu.unique, hu.free⟩ rfl).observed ?_ ⟨_, _, [], D.mem, D.made.corr⟩ hi he hnm
    rintro s q kws ⟨root', p, ks, h1, c⟩ he
    cases List.mem_singleton.1 h1
    rcases D.read.objs c with ⟨b, -, h⟩ | ⟨kvs, kws, -, h, -, h'⟩
    · rw [h] at he; cases he
    · rw [h] at he; cases he; exact h'
  | _ => subst hp; cases hf

/-- C83: so it does for documents that refer to each other. -/
theorem C83_suite {cid : String} {docs : List (Nat × Site)} {w : World} (hS : Suite E cid docs w) {s : Nat} {p : Site}
    (hp : (s, p) ∈ docs) {env : Env} {i : Inst} {n : Nat} {r : RNode} (hi : i.value.WF)
    (he : evaluate (w.store E cid) env n s i = some r) :
    (r.valid = true ↔ OAccepts E.lib env E.fmtEnabled (links E.lib (docs.map (·.2))) p i.value) ∧
    (r.valid = false ↔ ORejects E.lib env E.fmtEnabled (links E.lib (docs.map (·.2))) p i.value) := by
  have S := hS.stock hE hO hL
  refine verdict_obs (n := n) fun m hm => S.storeReads.observed (fun s q kws hc he => ?_) (S.made hp) hi he hm
  rcases S.objs hc with ⟨b, -, h⟩ | ⟨kvs, kws, -, h, -, h'⟩
  · rw [show w.schemaObj E s = _ from he] at h; cases h
  · rw [show w.schemaObj E s = _ from he] at h; cases h; exact h'

omit hE hO hL in
theorem Depot.observed {cid : String} {all : List Site} {made : List (Nat × Site)} {todo : List Nat} {w : World}
    (S : Depot E cid all made todo w) {s : Nat} {p : Site}
    (hp : MadeFrom E (links E.lib all) made w s p) {env : Env} {i : Inst} (hw : i.value.WF) {n : Nat} {r : RNode}
    (h : evaluate (w.store E cid) env n s i = some r) :
    (r.valid = true ↔ OAccepts E.lib env E.fmtEnabled (links E.lib all) p i.value) ∧
    (r.valid = false ↔ ORejects E.lib env E.fmtEnabled (links E.lib all) p i.value) := by
  refine verdict_obs (n := n) fun m hm => S.storeReads.observed (fun s q kws hc he => ?_) hp hw h hm
  rcases S.objs hc with ⟨b, -, h⟩ | ⟨kvs, kws, -, h, -, h'⟩
  · rw [show w.schemaObj E s = _ from he] at h; cases h
  · rw [show w.schemaObj E s = _ from he] at h; cases h; exact h'

section
variable {cid : String} {shelf : List Site} {docs : List (Nat × Site)} {w : World} (hS : Stocked E cid shelf docs w)
include hS

/-- C83: so it does for documents that refer to documents that are loaded then. -/
theorem C83_shelf {s : Nat} {p : Site} (hp : (s, p) ∈ docs) {env : Env} {i : Inst} {n : Nat} {r : RNode}
    (hi : i.value.WF) (he : evaluate (w.store E cid) env n s i = some r) :
    (r.valid = true ↔ OAccepts E.lib env E.fmtEnabled (links E.lib (shelf ++ docs.map (·.2))) p i.value) ∧
    (r.valid = false ↔ ORejects E.lib env E.fmtEnabled (links E.lib (shelf ++ docs.map (·.2))) p i.value) := by
  obtain ⟨made, todo, S, hin⟩ := hS.depot hE hO hL
  exact S.observed (S.from_ (hin _ hp)) hi he

/-- C83: so it does for schemas that `get_schema` returns. -/
theorem C83_obtained {metaUri : Option Uri} {u : Uri} {q : Site}
    (hA : Obtainable E shelf (docs.map (·.2)) metaUri u q) {n : Nat} {w' : World} {s : Nat}
    (hn : getSchema E n u metaUri cid w = some (w', .ok s)) {env : Env} {i : Inst} {k : Nat} {r : RNode}
    (hi : i.value.WF) (he : evaluate (w'.store E cid) env k s i = some r) :
    (r.valid = true ↔ OAccepts E.lib env E.fmtEnabled (links E.lib (shelf ++ docs.map (·.2))) q i.value) ∧
    (r.valid = false ↔ ORejects E.lib env E.fmtEnabled (links E.lib (shelf ++ docs.map (·.2))) q i.value) := by
  obtain ⟨made, todo, S, hin⟩ := hS.depot hE hO hL
  obtain ⟨N, w1, y, h, new, todo', S', hm⟩ := S.get hE hO hL hA.denotes (hA.avail hin) hA.form
  cases getSchema_det hn (h N (Nat.le_refl _))
  exact S'.observed hm hi he

end
end

attribute [local instance] Toy.in2020

/-! ## A concrete case: `unevaluatedProperties` beside `not` -/

namespace Toy

/-- Under `not`: a schema with a member `properties` that holds, and a member `required` that does not. -/
def underNot : Value :=
  .obj [("properties", .obj [("a", .bool true)]), ("required", .arr [.str "z"])]

/-- No member may be unevaluated, and `not` evaluates nothing. -/
def notDoc : Value := .obj [("not", underNot), ("unevaluatedProperties", .bool false)]

def notSite : Site := ⟨uuid0, notDoc⟩
def notLinks : Links := links Toy.lib [notSite]
def notInst : Value := .obj [("a", .null)]

theorem not_site : notSite = docSite Toy.lib .empty none notDoc := rfl

theorem not_at {ks : List String} {q : Site} (h : Stands Toy.lib notSite ks q) :
    q = notSite ∨ q = ⟨uuid0, underNot⟩ ∨ ∃ b, q = ⟨uuid0, .bool b⟩ := by
  have := subsites_all h (n := 9) (l := [([], notSite), (["not"], ⟨uuid0, underNot⟩),
    (["not", "properties", "a"], ⟨uuid0, .bool true⟩), (["unevaluatedProperties"], ⟨uuid0, .bool false⟩)]) rfl
  simp only [List.mem_cons, List.not_mem_nil, or_false, Prod.mk.injEq] at this
  rcases this with ⟨-, h⟩ | ⟨-, h⟩ | ⟨-, h⟩ | ⟨-, h⟩
  · exact .inl h
  · exact .inr (.inl h)
  · exact .inr (.inr ⟨_, h⟩)
  · exact .inr (.inr ⟨_, h⟩)

theorem not_refs (ks : List String) (q : Site) (v : Value) (h : Stands Toy.lib notSite ks q) :
    ¬ q.Has "$ref" v ∧ ¬ q.Has "$dynamicRef" v ∧ ¬ q.Has "$recursiveRef" v := by
  have key : ∀ k, k = "$ref" ∨ k = "$dynamicRef" ∨ k = "$recursiveRef" → ¬ q.Has k v := by
    rintro k hk ⟨kvs, e, hm⟩
    rcases not_at h with rfl | rfl | ⟨b, rfl⟩ <;> cases e <;>
      simp only [List.mem_cons, List.not_mem_nil, or_false, Prod.mk.injEq] at hm <;>
      rcases hm with ⟨rfl, -⟩ | ⟨rfl, -⟩ <;> revert hk <;> decide
  exact ⟨key _ (.inl rfl), key _ (.inr (.inl rfl)), key _ (.inr (.inr rfl))⟩

theorem not_doc : DocForm Toy.env (some meta2020) notLinks notSite := by
  refine .obj (.inl ⟨rfl, rfl⟩) ofDialect_shipped fun kv hkv => ?_
  simp only [List.mem_cons, List.not_mem_nil, or_false] at hkv
  rcases hkv with rfl | rfl
  · refine .inr (.one (.inl (by decide)) (.obj fun kv hkv => ?_))
    simp only [List.mem_cons, List.not_mem_nil, or_false] at hkv
    rcases hkv with rfl | rfl
    · refine .named (by decide) fun kv hkv => ?_
      simp only [List.mem_cons, List.not_mem_nil, or_false] at hkv
      subst hkv
      exact .bool
    · exact .assert (.required (ns := ["z"])) (fun re h => by cases h)
  · exact .inr (.one (.inl (by decide)) .bool)

theorem not_new : NewUri Toy.env .empty "" none notDoc where
  given u h := by cases h
  same h := of_decide_eq_true h
  unique := uniqueNames_check (n := 9) (by decide +kernel)
  free v ks q _ _ := rfl

/-- The specification rejects the value: the member `a` is not evaluated. -/
theorem not_rejects (env : Env) : DRejects Toy.lib env Toy.env.fmtEnabled notLinks notSite notInst := by
  refine ⟨0, fun m _ h => ?_⟩
  cases m with
  | zero => exact h
  | succ m =>
    have := h.unevaluatedProperties (.bool false) (by simp) "a" .null (by simp [members, notInst]) ?_
    · cases m with
      | zero => exact this
      | succ m => cases this
    · intro hev
      cases hev <;> simp_all [underNot]

/-- What stands under `not` is not met, but its member `properties` is, and so `a` counts as evaluated. -/
theorem not_accepts (env : Env) : OAccepts Toy.lib env Toy.env.fmtEnabled notLinks notSite notInst := by
  refine ⟨3, fun m hm => ?_⟩
  obtain ⟨m, rfl⟩ : ∃ k, m = k + 3 := ⟨m - 3, by omega⟩
  let M := fun k => ounroll Toy.lib env Toy.env.fmtEnabled notLinks k
  have hn : ∀ k sc, ¬ (M (k + 1)).valid sc ⟨uuid0, underNot⟩ notInst := by
    intro k sc h
    obtain ⟨x, h⟩ := (h "required" (.arr [.str "z"]) (by simp)).assert _ (.required (ns := ["z"])) _ rfl "z" (by simp)
    simp [members, notInst] at h
  have he : (M (m + 2)).ev [notSite] ⟨uuid0, underNot⟩ notInst (.name "a") := by
    refine .inl (.properties (ps := [("a", .bool true)]) (t := .bool true) (by simp) ?_ (by simp))
    constructor
    case properties =>
      rintro - _ ⟨⟩ n t x ht hx
      simp only [List.mem_cons, List.not_mem_nil, or_false, Prod.mk.injEq] at ht
      obtain ⟨-, rfl⟩ := ht
      rfl
    all_goals first
      | (intro e; exact absurd e (by decide))
      | (intro a h; exact absurd (written_name h) (by decide))
      | (intro s u _ h; exact absurd (Spec.OTarget.name h) (by decide))
  intro k w hw
  simp only [List.mem_cons, List.not_mem_nil, or_false, Prod.mk.injEq] at hw
  rcases hw with ⟨rfl, rfl⟩ | ⟨rfl, rfl⟩
  · constructor
    case unevaluatedProperties => exact fun e => absurd e (by decide)
    case unevaluatedItems => exact fun e => absurd e (by decide)
    constructor
    case not_ => exact fun _ => hn (m + 1) _
    all_goals first
      | (intro e; exact absurd e (by decide))
      | (intro a h; exact absurd (written_name h) (by decide))
      | (intro s u _ h; exact absurd (Spec.OTarget.name h) (by decide))
  · constructor
    case unevaluatedProperties =>
      intro _ n x hx hu
      simp only [members, notInst, List.mem_cons, List.not_mem_nil, or_false, Prod.mk.injEq] at hx
      obtain ⟨rfl, -⟩ := hx
      exact absurd (.not_ (t := underNot) (by simp) (hn (m + 1) _) he) hu
    case unevaluatedItems => exact fun e => absurd e (by decide)
    constructor
    all_goals first
      | (intro e; exact absurd e (by decide))
      | (intro a h; exact absurd (written_name h) (by decide))
      | (intro s u _ h; exact absurd (Spec.OTarget.name h) (by decide))

end Toy

/-- C83: the exclusions of C62 are needed.  There is a document, with no references at all, and a value that is
invalid against it, which jschon finds valid. -/
theorem C83_differs (env : Env) : ∃ n w' s r,
    newDocument Toy.env n "" none (some ⟨"m20", none⟩) Toy.notDoc .empty = some (w', .ok s) ∧
    (∃ k, evaluate (w'.store Toy.env "") env k s ⟨[], Toy.notInst⟩ = some r) ∧ r.valid = true ∧
    DRejects Toy.lib env Toy.env.fmtEnabled Toy.notLinks Toy.notSite Toy.notInst := by
  have hwf : Toy.notDoc.WF := Toy.wf_spec _ (by decide +kernel)
  have hm : ∀ m, some meta2020 = some m → ∃ u, some (Uri.mk "m20" none) = some u ∧ Toy.env.metaschema u = .ok m :=
    fun m h => ⟨_, rfl, by cases h; rfl⟩
  obtain ⟨N, w', s, h⟩ := C59_local Toy.env_ok (fun _ _ h => Toy.ordered h) Toy.site_lib .start hwf Toy.not_site
    Toy.not_doc Toy.not_new hm
  obtain ⟨k, r, he⟩ := C63_no_references Toy.env_ok (fun _ _ h => Toy.ordered h) Toy.site_lib .start hwf Toy.not_site
    Toy.not_doc Toy.not_new hm Toy.not_refs (h N (Nat.le_refl _)) .refl "" env ⟨[], Toy.notInst⟩
  refine ⟨N, w', s, r, h N (Nat.le_refl _), ⟨k, he⟩, ?_, Toy.not_rejects env⟩
  exact (C83_document Toy.env_ok (fun _ _ h => Toy.ordered h) Toy.site_lib .start hwf Toy.not_site Toy.not_doc
    Toy.not_new hm (h N (Nat.le_refl _)) .refl (.inl fun ks q v h => (Toy.not_refs ks q v h).2.1)
    (Toy.wf_spec _ (by decide +kernel)) he).1.2 (Toy.not_accepts env)

end Jschon
