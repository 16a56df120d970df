import Verif.Proof.TwinForm
import Verif.Props.DocObserved
import Verif.Props.Keywords

/-!
# C84: equal documents judge equal values equally

Equality is that of the JSON data model (`Spec.Same`, C18 and C19): `1` is `1.0`, and the order of members does not
matter, neither in schemas nor in instances.  Equal numbers must be written alike (`Spec.Twin`), which is so unless
an integer is compared with a float whose decimal text is not its exact value (`C84_written`).
-/

namespace Jschon
open Spec

/-- C84: values that are equal as JSON are twins if the floats in them that are whole numbers are written exactly. -/
theorem C84_equal {dec : Rat → Rat} {v w : Value} (h : Same v w) (hv : ExactFloats dec v) (hw : ExactFloats dec w) :
    Twin dec v w := h.twin hv hw

section
/- The dialect of the documents. -/
variable [dia : Dialect]

/-- Verdicts that are told by the meaning of twins are the same. -/
theorem verdict_twin {lib : UriLib} {env : Env} {enabled : String → Bool} (hf : FormatsAlike env enabled)
    {roots roots' : List Site} (h : TwinSites env.dec roots roots') {p p' : Site} (hp : TwinSite env.dec p p')
    {v v' : Value} (hv : Twins env.dec v v') {r r' : RNode}
    (hr : (r.valid = true ↔ OAccepts lib env enabled (links lib roots) p v) ∧
      (r.valid = false ↔ ORejects lib env enabled (links lib roots) p v))
    (hr' : (r'.valid = true ↔ OAccepts lib env enabled (links lib roots') p' v') ∧
      (r'.valid = false ↔ ORejects lib env enabled (links lib roots') p' v')) : r.valid = r'.valid := by
  cases e : r.valid with
  | true => exact (hr'.1.2 (accepts_twin hf h hp hv (hr.1.1 e))).symm
  | false => exact (hr'.2.2 (rejects_twin hf h hp hv (hr.2.1 e))).symm

variable {E : CEnv} (hE : CEnvOk E) (hO : ∀ u m, E.metaschema u = .ok m → Ordered m) (hL : SiteLib E.lib)
include hE hO hL

section
variable {w : World} (hw : CHistory w) {mo : Option Meta} {doc : Value} (hd : doc.WF) {cid : String}
    {uri metaUri : Option Uri} {p : Site} (hp : p = docSite E.lib w uri doc) (hf : DocForm E mo (links E.lib [p]) p)
    (hu : NewUri E w cid uri doc) (hm : ∀ m, mo = some m → ∃ u, metaUri = some u ∧ E.metaschema u = .ok m)
    {env : Env} {doc' : Value} (hd' : doc'.WF) (ht : Twin env.dec doc doc')
include hw hd hp hf hu hm hd' ht

/-- C84: a document that is equal to a well-formed one constructs like that one. -/
theorem C84_constructs : ∃ (N : Nat) (w' : World) (s : Nat), ∀ n, N ≤ n →
    newDocument E n cid uri metaUri doc' w = some (w', .ok s) := by
  have tw : Twins env.dec doc doc' := ⟨ht, hd, hd'⟩
  have hs : TwinSite env.dec p (docSite E.lib w uri doc') := hp ▸ site_twin tw _
  exact C59_local hE hO hL hw hd' rfl (docForm_twin (links_twin (.cons hs .nil)) hs hf) (newUri_twin tw hu) hm

/-- C84: equal documents, constructed with the same URI and after the same history, judge equal values equally,
whatever is constructed afterwards. -/
theorem C84_document (ha : FormatsAlike env E.fmtEnabled)
    {k k' : Nat} {w1 w1' : World} {s s' : Nat} (hn : newDocument E k cid uri metaUri doc w = some (w1, .ok s))
    (hn' : newDocument E k' cid uri metaUri doc' w = some (w1', .ok s'))
    {w2 w2' : World} (h2 : CAfter w1 w2) (h2' : CAfter w1' w2') {cid2 cid2' : String}
    (hs : Settled E cid cid2 p w1 w2) (hs' : Settled E cid cid2' (docSite E.lib w uri doc') w1' w2')
    {i i' : Inst} (hi : i.value.WF) (hi' : i'.value.WF) (hii : Twin env.dec i.value i'.value)
    {n n' : Nat} {r r' : RNode} (he : evaluate (w2.store E cid2) env n s i = some r)
    (he' : evaluate (w2'.store E cid2') env n' s' i' = some r') : r.valid = r'.valid := by
  have tw : Twins env.dec doc doc' := ⟨ht, hd, hd'⟩
  have hsite : TwinSite env.dec p (docSite E.lib w uri doc') := hp ▸ site_twin tw _
  have hroots : TwinSites env.dec [p] [docSite E.lib w uri doc'] := .cons hsite .nil
  exact verdict_twin ha hroots hsite ⟨hii, hi, hi'⟩
    (C83_document hE hO hL hw hd hp hf hu hm hn h2 hs hi he)
    (C83_document hE hO hL hw hd' rfl (docForm_twin (links_twin hroots) hsite hf) (newUri_twin tw hu) hm hn' h2' hs' hi' he')

end

/-- C84: so do documents among several that refer to each other, if these are equal one by one and have the same
URIs. -/
theorem C84_suite {cid cid' : String} {docs docs' : List (Nat × Site)} {w w' : World} (hS : Suite E cid docs w)
    (hS' : Suite E cid' docs' w') {env : Env} (ha : FormatsAlike env E.fmtEnabled)
    (ht : TwinSites env.dec (docs.map (·.2)) (docs'.map (·.2))) {j : Nat} {s s' : Nat} {p p' : Site}
    (hj : docs[j]? = some (s, p)) (hj' : docs'[j]? = some (s', p')) {i i' : Inst} (hi : i.value.WF) (hi' : i'.value.WF)
    (hii : Twin env.dec i.value i'.value) {n n' : Nat} {r r' : RNode}
    (he : evaluate (w.store E cid) env n s i = some r) (he' : evaluate (w'.store E cid') env n' s' i' = some r') :
    r.valid = r'.valid := by
  have hp : TwinSite env.dec p p' := by
    obtain ⟨q, hq, h⟩ := ht.get (i := j) (p := p) (by rw [List.getElem?_map, hj]; rfl)
    rw [List.getElem?_map, hj'] at hq
    cases hq
    exact h
  exact verdict_twin ha ht hp ⟨hii, hi, hi'⟩ (C83_suite hE hO hL hS (List.mem_of_getElem? hj) hi he)
    (C83_suite hE hO hL hS' (List.mem_of_getElem? hj') hi' he')

/-- C84: so do documents some of which are loaded when they are referred to. -/
theorem C84_shelf {cid cid' : String} {shelf shelf' : List Site} {docs docs' : List (Nat × Site)} {w w' : World}
    (hS : Stocked E cid shelf docs w) (hS' : Stocked E cid' shelf' docs' w') {env : Env}
    (ha : FormatsAlike env E.fmtEnabled)
    (ht : TwinSites env.dec (shelf ++ docs.map (·.2)) (shelf' ++ docs'.map (·.2))) {s s' : Nat} {p p' : Site}
    (hj : (s, p) ∈ docs) (hj' : (s', p') ∈ docs') (hp : TwinSite env.dec p p') {i i' : Inst} (hi : i.value.WF)
    (hi' : i'.value.WF) (hii : Twin env.dec i.value i'.value) {n n' : Nat} {r r' : RNode}
    (he : evaluate (w.store E cid) env n s i = some r) (he' : evaluate (w'.store E cid') env n' s' i' = some r') :
    r.valid = r'.valid :=
  verdict_twin ha ht hp ⟨hii, hi, hi'⟩ (C83_shelf hE hO hL hS hj hi he) (C83_shelf hE hO hL hS' hj' hi' he')

end

/-- The float that `1e23` is read as. -/
def float1e23 : Int := 99999999999999991611392

/-- C84: equality in the data model alone is not enough.  The float `1e23` equals the integer
`99999999999999991611392`; jschon finds the first to be a multiple of `100000000000000000000000`, and the second not to be. -/
theorem C84_written :
    let env := { demoEnv with dec := fun q => if q = float1e23 then 10 ^ 23 else q }
    let st := listStore [.obj [.assert (.multipleOf (.int (10 ^ 23)))]]
    Same (.num (.flt float1e23)) (.num (.int float1e23)) ∧
    verdictOf .d2020 env st 1 0 (.num (.flt float1e23)) = some true ∧
    verdictOf .d2020 env st 1 0 (.num (.int float1e23)) = some false :=
  ⟨.num rfl, by decide +kernel, by decide +kernel⟩

attribute [local instance] Toy.in2020

/-! ## A concrete case -/

namespace Toy

/-- `notDoc` in another order. -/
def notDoc' : Value := .obj [("unevaluatedProperties", .bool false),
  ("not", .obj [("required", .arr [.str "z"]), ("properties", .obj [("a", .bool true)])])]

def pairInst : Value := .obj [("a", .null), ("b", .num (.int 1))]
def pairInst' : Value := .obj [("b", .num (.flt 1)), ("a", .null)]

end Toy

/-- Both documents construct, both evaluations end, and the verdicts are the same. -/
example (env : Env) (h1 : env.dec 1 = 1) : ∃ n n' w1 w1' s s' k k' r r',
    newDocument Toy.env n "" none (some ⟨"m20", none⟩) Toy.notDoc .empty = some (w1, .ok s) ∧
    newDocument Toy.env n' "" none (some ⟨"m20", none⟩) Toy.notDoc' .empty = some (w1', .ok s') ∧
    evaluate (w1.store Toy.env "") env k s ⟨[], Toy.pairInst⟩ = some r ∧
    evaluate (w1'.store Toy.env "") env k' s' ⟨[], Toy.pairInst'⟩ = some r' ∧ r.valid = r'.valid := by
  have hwf : Toy.notDoc.WF := Toy.wf_spec _ (by decide +kernel)
  have hwf' : Toy.notDoc'.WF := Toy.wf_spec _ (by decide +kernel)
  have wi : Toy.pairInst.WF := Toy.wf_spec _ (by decide +kernel)
  have wi' : Toy.pairInst'.WF := Toy.wf_spec _ (by decide +kernel)
  have ht : Twin env.dec Toy.notDoc Toy.notDoc' := by
    refine C84_equal ((jsonEq_iff_same _ _ hwf hwf').1 (by decide +kernel)) ?_ ?_ <;>
      repeat' first
        | exact .bool
        | exact .str
        | (refine .arr fun x hx => ?_; simp only [List.mem_cons, List.not_mem_nil, or_false] at hx; subst hx)
        | (refine .obj fun kv hkv => ?_
           simp only [List.mem_cons, List.not_mem_nil, or_false] at hkv
           rcases hkv with rfl | rfl)
        | (refine .obj fun kv hkv => ?_
           simp only [List.mem_cons, List.not_mem_nil, or_false] at hkv
           subst hkv)
  have hti : Twin env.dec Toy.pairInst Toy.pairInst' := by
    refine C84_equal ((jsonEq_iff_same _ _ wi wi').1 (by decide +kernel)) ?_ ?_ <;>
      (refine .obj fun kv hkv => ?_
       simp only [List.mem_cons, List.not_mem_nil, or_false] at hkv
       rcases hkv with rfl | rfl)
    · exact .null
    · exact .int
    · exact .flt fun _ _ => h1
    · exact .null
  have hm : ∀ m, some meta2020 = some m → ∃ u, some (Uri.mk "m20" none) = some u ∧ Toy.env.metaschema u = .ok m :=
    fun m h => ⟨_, rfl, by cases h; rfl⟩
  have tw : Twins env.dec Toy.notDoc Toy.notDoc' := ⟨ht, hwf, hwf'⟩
  have hp : TwinSite env.dec Toy.notSite (docSite Toy.lib .empty none Toy.notDoc') := Toy.not_site ▸ site_twin tw _
  have hroots : TwinSites env.dec [Toy.notSite] [docSite Toy.lib .empty none Toy.notDoc'] := .cons hp .nil
  have refs' : ∀ ks q v, Stands Toy.lib (docSite Toy.lib .empty none Toy.notDoc') ks q →
      ¬ q.Has "$ref" v ∧ ¬ q.Has "$dynamicRef" v ∧ ¬ q.Has "$recursiveRef" v := by
    intro ks q v hs
    obtain ⟨q', hs', hq⟩ := stands_twin hs hp.symm
    have key : ∀ k, (∀ v, ¬ q'.Has k v) → ¬ q.Has k v := fun k h h' => by
      obtain ⟨w, hw, -⟩ := hq.has h'
      exact h w hw
    exact ⟨key _ fun v => (Toy.not_refs ks q' v hs').1, key _ fun v => (Toy.not_refs ks q' v hs').2.1,
      key _ fun v => (Toy.not_refs ks q' v hs').2.2⟩
  obtain ⟨N, w1, s, h⟩ := C59_local Toy.env_ok (fun _ _ h => Toy.ordered h) Toy.site_lib .start hwf Toy.not_site
    Toy.not_doc Toy.not_new hm
  obtain ⟨N', w1', s', h'⟩ := C84_constructs Toy.env_ok (fun _ _ h => Toy.ordered h) Toy.site_lib .start hwf Toy.not_site
    Toy.not_doc Toy.not_new hm hwf' ht
  obtain ⟨k, r, he⟩ := C63_no_references Toy.env_ok (fun _ _ h => Toy.ordered h) Toy.site_lib .start hwf Toy.not_site
    Toy.not_doc Toy.not_new hm Toy.not_refs (h N (Nat.le_refl _)) .refl "" env ⟨[], Toy.pairInst⟩
  obtain ⟨k', r', he'⟩ := C63_no_references Toy.env_ok (fun _ _ h => Toy.ordered h) Toy.site_lib .start hwf' rfl
    (docForm_twin (links_twin hroots) hp Toy.not_doc) (newUri_twin tw Toy.not_new) hm refs' (h' N' (Nat.le_refl _)) .refl
    "" env ⟨[], Toy.pairInst'⟩
  refine ⟨N, N', w1, w1', s, s', k, k', r, r', h N (Nat.le_refl _), h' N' (Nat.le_refl _), he, he', ?_⟩
  exact C84_document Toy.env_ok (fun _ _ h => Toy.ordered h) Toy.site_lib .start hwf Toy.not_site
    Toy.not_doc Toy.not_new hm hwf' ht (fun a v w h => by cases h) (h N (Nat.le_refl _)) (h' N' (Nat.le_refl _)) .refl .refl
    (.inl fun ks q v h => (Toy.not_refs ks q v h).2.1) (.inl fun ks q v h => (refs' ks q v h).2.1) wi wi' hti he he'

end Jschon
