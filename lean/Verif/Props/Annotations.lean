import Verif.Proof.Annotate
import Verif.Props.Document

/-!
# C54 and C64: what annotation keywords and unknown keywords leave behind
-/

namespace Jschon
open Spec

/-- The keyword only annotates, with value `v`; if `only` is set, only strings. -/
inductive Spec.Notes : Kw → String → Bool → Value → Prop
  | annot {k only v} : Notes (.annot k only v) k only v
  | unknown {k v} : Notes (.unknown k v) k false v

/-- The result `c` is the annotation `v` of keyword `k` of schema `s` on instance `i`, and asserts nothing. -/
structure Spec.Noted (s : SRef) (i : Inst) (k : String) (v : Value) (c : RNode) : Prop where
  annotation : c.info.annotation = v
  valid : c.info.valid = true
  asrt : c.info.asrt = false
  kept : c.info.discard = false
  key : c.info.key = some k
  inst : c.info.inst = i
  schema : c.info.schema = s
  children : c.children = []

/-- C64: an annotation keyword or unknown keyword annotates every instance of its type with its value,
whatever the other keywords say, and asserts nothing; if the instance is valid then the annotation is
collected. -/
theorem C64_annotates {d : Dialect} {st : Store} {env : Env} {n : Nat} {s : SRef} {i : Inst} {r : RNode}
    {kws : List Kw} (hs : st.obj s = .obj kws) (hk : KwsOk d kws) {kw : Kw} (hm : kw ∈ kws) {k : String}
    {only : Bool} {v : Value} (hn : Notes kw k only v) (ht : only = true → i.value.type = .string)
    (he : evaluate st env n s i = some r) :
    (∃ c, sibling r i k = some c ∧ Noted s i k v c) ∧
    (r.valid = true → v ≠ .null → v ∈ r.annotations (some i.path) (some k)) := by
  cases n with
  | zero => cases he
  | succ n =>
    obtain ⟨r1, h1, h2⟩ := evalBody_children (rec := evalSchema st env n) hs he
    have hok := hk.ok kw hm
    have hkey : kw.key = k := by cases hn <;> rfl
    have hres : k ∉ reserved d := by cases hn <;> exact hok
    have hc : kw.key ≠ "contains" := by
      rw [hkey]; rintro rfl; cases d <;> exact hres (by decide)
    have hty : kw.types.contains i.value.type = true := by
      cases hn with
      | @annot _ only _ =>
        cases only with
        | true => rw [ht rfl]; rfl
        | false => cases i.value.type <;> rfl
      | unknown => cases i.value.type <;> rfl
    obtain ⟨r0, h0, h3⟩ := kwLoop_of_mem (f := fun c => (c.annotate v).noassert) hc hty
      (by intro parent c; cases hn <;> rfl) (fun c h => h) hk.nodup hm h1
    rw [hkey] at h3
    have hsib : sibling r i k = some (((r0.fresh i k s).annotate v).noassert) := by
      rw [sibling, h2, h3]
    have hnoted : Noted s i k v (((r0.fresh i k s).annotate v).noassert) :=
      ⟨rfl, rfl, rfl, rfl, rfl, rfl, rfl, rfl⟩
    refine ⟨⟨_, hsib, hnoted⟩, fun hv hv0 => ?_⟩
    have hd : r.info.discard = false := by
      have := (evalBody_frame (r := RNode.root s i) he).1
      rw [this]; rfl
    have hmem := mem_of_clookup hsib
    have hin : v ∈ RNode.annotations (some i.path) (some k) (((r0.fresh i k s).annotate v).noassert) := by
      generalize ((r0.fresh i k s).annotate v).noassert = c at hnoted
      obtain ⟨info, cs⟩ := c
      obtain ⟨a1, a2, -, a4, a5, a6, -, a8⟩ := hnoted
      simp only [RNode.info_mk] at a1 a2 a4 a5 a6
      simp only [RNode.annotations, a2, a4, a5, a6, Bool.not_false, Bool.and_self, if_true]
      apply List.mem_append_left
      rw [a1]
      cases v <;> simp_all
    obtain ⟨info, cs⟩ := r
    have hv' : info.valid = true := hv
    simp only [RNode.info_mk] at hd
    simp only [RNode.annotations, hv', hd, Bool.not_false, Bool.and_self, if_true]
    exact List.mem_append_right _ (annotations_child hin hmem)

/-- C64 is false of the value `null`: `{"default": null}` accepts every instance, and nothing is collected. -/
theorem C64_null {st : Store} {env : Env} {n : Nat} {s : SRef} {i : Inst} {r : RNode}
    (hs : st.obj s = .obj [.annot "default" false .null]) (he : evaluate st env n s i = some r) :
    r.valid = true ∧ r.annotations (some i.path) (some "default") = [] := by
  cases n with
  | zero => cases he
  | succ n =>
    have ht : i.value.type ∈ (Kw.annot "default" false .null).types := by cases i.value.type <;> decide
    simp [evaluate, evalSchema, evalBody, hs, kwLoop, ht, withSub, evalKw, RNode.root, RNode.annotate, RNode.noassert,
      RNode.fresh, RNode.setChild, cset, RNode.passed] at he
    rw [← he]
    simp [RNode.valid, RNode.annotations, childAnnotations]

/-! ## From the document -/

section
/- The dialect of the documents. -/
variable [dia : Dialect]

/-- The names of keywords that annotate all instances with their value. -/
def Spec.annotNames : List String :=
  ["title", "description", "default", "deprecated", "readOnly", "writeOnly", "examples"]

theorem annotForms : ∀ k ∈ annotNames, dlookup k kwForms = some (annotForm k false) ∧ k ∈ noteKeys := by
  simp only [annotNames, List.mem_cons, List.not_mem_nil, or_false, forall_eq_or_imp, forall_eq]
  refine ⟨⟨kwForms_common rfl, ?_⟩, ⟨kwForms_common rfl, ?_⟩, ⟨kwForms_common rfl, ?_⟩, ⟨kwForms_common rfl, ?_⟩,
    ⟨kwForms_common rfl, ?_⟩, ⟨kwForms_common rfl, ?_⟩, kwForms_common rfl, ?_⟩ <;> decide

theorem kwForms_unknown {k : String} (h : k ∉ definedNames) : dlookup k kwForms = none := by
  rw [dlookup_eq_none]
  intro hm
  obtain ⟨f, hf⟩ := mem_dkeys.1 hm
  exact h (kwForms_names _ hf)

theorem common_names {k : String} (h : k ∈ (["type", "enum", "const", "multipleOf", "maximum", "exclusiveMaximum",
    "minimum", "exclusiveMinimum", "maxLength", "minLength", "pattern", "maxItems", "minItems", "uniqueItems",
    "maxProperties", "minProperties", "required", "dependentRequired", "maxContains", "minContains", "format", "$ref",
    "$schema", "$vocabulary", "$id", "$anchor"] : List String)) : k ∈ definedNames :=
  List.mem_append_left _ (List.mem_append_right _ h)

theorem names20 (hd : dia = .d2020) {k : String} (h : k ∈ (["$dynamicRef", "$dynamicAnchor"] : List String)) :
    k ∈ definedNames := by
  cases dia with
  | d2019 => cases hd
  | d2020 => exact List.mem_append_right _ h

theorem names19 (hd : dia = .d2019) {k : String} (h : k ∈ (["$recursiveRef", "$recursiveAnchor"] : List String)) :
    k ∈ definedNames := by
  cases dia with
  | d2019 => exact List.mem_append_right _ h
  | d2020 => cases hd

theorem note_names : ∀ k ∈ noteKeys, k ∈ definedNames := by cases dia <;> decide +kernel

theorem Spec.MemberForm.unknown_name {E : CEnv} {L : Links} {b : Uri} {k : String} {v : Value}
    (h : MemberForm E L b k v) (hk : k ∉ definedNames) : k ≠ "" ∧ '\x00' ∉ k.toList := by
  cases h with
  | unknown _ h1 h2 => exact ⟨h1, h2⟩
  | assert h => cases h <;> exact absurd (common_names (by decide)) hk
  | one h => exact absurd h.part.names hk
  | many h => exact absurd h.part.names hk
  | named h => exact absurd (namedKeys_names k h) hk
  | count h => rcases h with rfl | rfl <;> exact absurd (common_names (by decide)) hk
  | format | ref | id => exact absurd (common_names (by decide)) hk
  | dynamicRef h => exact absurd (names20 h (by decide)) hk
  | recursiveAnchor h | recursiveRef h => exact absurd (names19 h (by decide)) hk
  | anchor h =>
    rcases h with rfl | ⟨h, rfl⟩
    · exact absurd (common_names (by decide)) hk
    · exact absurd (names20 h (by decide)) hk
  | note h => exact absurd (note_names k h) hk

/-- C54 and C64 for documents (`_partial`: documents are as `DocForm` says): an unknown keyword or annotation
keyword anywhere in a constructed document is kept with its value.  If the keyword is unknown, then its
class is the class of unknown keywords.  Every evaluation of the subschema that has the keyword, at any
later time, leaves the value as annotation, and reports it if the instance is valid. -/
theorem C64_written_partial {E : CEnv} (hE : CEnvOk E) (hO : ∀ u m, E.metaschema u = .ok m → Ordered m)
    (hL : SiteLib E.lib) {w : World} (hw : CHistory w) {mo : Option Meta} {doc : Value} (hd : doc.WF)
    {cid : String} {uri metaUri : Option Uri} {p : Site} (hp : p = docSite E.lib w uri doc)
    (hf : DocForm E mo (links E.lib [p]) p) (hu : NewUri E w cid uri doc)
    (hm : ∀ m, mo = some m → ∃ u, metaUri = some u ∧ E.metaschema u = .ok m)
    {fuel : Nat} {w' : World} {s : Nat} (hn : newDocument E fuel cid uri metaUri doc w = some (w', .ok s))
    {ks : List String} {q : Site} (hat : Stands E.lib p ks q) {k : String} {v : Value} (hk : q.Has k v) (hkk : k ∉ definedNames ∨ k ∈ annotNames) :
    ∃ x o, Jschon.Reach w'.heap s ks x ∧ w'.isSchema x = true ∧ (k, o) ∈ w'.keywords x ∧
      (k ∉ definedNames → o.shape = .unknown) ∧ Rearranged (val w'.heap o.json) v ∧
      ∀ w'', CAfter w' w'' → ∀ cid' env n i r, evaluate (w''.store E cid') env n x i = some r →
        (∃ c, sibling r i k = some c ∧ Noted x i k (val w'.heap o.json) c) ∧
        (r.valid = true → v ≠ .null → val w'.heap o.json ∈ r.annotations (some i.path) (some k)) := by
  have pre : SPre w cid uri none := .doc hw.ok fun u h => (hu.given u h).2.2
  have post := newDocument_spec hE hd pre hn
  obtain ⟨rfl, -⟩ := post.ret _ rfl
  obtain ⟨b, sch⟩ := q
  obtain ⟨kvs, e, hk⟩ := hk
  cases e
  cases doc with
  | obj kvs0 =>
    obtain ⟨N, w1, w2, h, -, D⟩ := newDocument_local hE hO hL hd hp hf pre hm
      (fun u h => ⟨(hu.given u h).1, (hu.given u h).2.1⟩) (hp ▸ hu.same) ⟨hp ▸ hu.unique, hp ▸ hu.free⟩
    cases newDocument_det hn (h N (Nat.le_refl _))
    subst hp
    obtain ⟨x, c⟩ := D.made.find hat
    have hx := D.made.ok.dom x c.isSchema
    obtain ⟨o, f⟩ := c.kw_exists D.made hk
    obtain ⟨g, e1, e2⟩ := D.mid.grown.keywords hx
    have ho' : (k, g k o) ∈ w'.keywords x := by
      rw [e1]; exact List.mem_map.2 ⟨_, f.mem, rfl⟩
    obtain ⟨e3, e4, -⟩ := e2 k o
    have hval : val w'.heap (g k o).json = val w1.heap o.json := by rw [e4, D.mid.heap]
    have hre : Rearranged (val w'.heap (g k o).json) v := by rw [hval]; exact f.rearr
    have hw : w'.kwOf E (k, g k o) = some (.unknown k (val w'.heap (g k o).json)) ∨
        w'.kwOf E (k, g k o) = some (.annot k false (val w'.heap (g k o).json)) := by
      rcases hkk with hkk | hkk
      · left; simp only [World.kwOf, kwForms_unknown hkk, World.kwOfForm]
      · right; simp only [World.kwOf, (annotForms k hkk).1, World.kwOfForm, annotForm]
    obtain ⟨kw, hkw, hnotes⟩ : ∃ kw, w'.kwOf E (k, g k o) = some kw ∧
        Notes kw k false (val w'.heap (g k o).json) := by
      rcases hw with hw | hw
      · exact ⟨_, hw, .unknown⟩
      · exact ⟨_, hw, .annot⟩
    refine ⟨x, g k o, D.mid.heap.symm ▸ c.reach, (D.mid.grown.isSchema hx).trans c.isSchema, ho', fun hkk => ?_, hre,
      fun w'' ha cid' env n i r he => ?_⟩
    · rw [e3]
      obtain ⟨h1, h2⟩ : k ≠ "" ∧ '\x00' ∉ k.toList := by
        rcases c.good with ⟨b, hb⟩ | ⟨kvs', hb, hg⟩
        · cases hb
        · cases hb
          rcases hg _ hk with hb | hb
          · refine absurd ?_ hkk
            replace hb : k = "$schema" := hb
            rw [hb]; exact common_names (by decide)
          · exact hb.unknown_name hkk
      refine f.shape (fun hb => hkk ?_) (cls_unknown hkk h1 h2)
      simp only [bootNames, List.mem_cons, List.not_mem_nil, or_false] at hb
      rcases hb with rfl | rfl | rfl <;> exact common_names (by decide)
    · obtain ⟨ok', gr, bf⟩ := ha.spec post.ok
      have hx' : x < w'.heap.next := by rw [D.mid.heap]; exact hx
      obtain ⟨ms, hms, -⟩ := rearr_obj D.made.ok.ord c.rearr
      have hobj : (w''.store E cid').obj x = .obj ((w'.keywords x).filterMap (w'.kwOf E)) := by
        show w''.schemaObj E x = _
        rw [schemaObj_later post.ok ok' gr bf hx']
        simp only [World.schemaObj, D.mid.heap, hms]
      have hres := C64_annotates hobj (D.read.kwsOk c) (List.mem_filterMap.2 ⟨_, ho', hkw⟩) hnotes
        (fun h => by cases h) he
      refine ⟨hres.1, fun hv hv0 => hres.2 hv fun h0 => hv0 ?_⟩
      rw [h0] at hre
      cases hre
      rfl
  | _ => subst hp; cases hat

/-- C54 for documents (`_partial`: documents are as `DocForm` says): an unknown keyword anywhere in a
constructed document is kept as an instance of the class of unknown keywords, and annotates. -/
theorem C54_kept_partial {E : CEnv} (hE : CEnvOk E) (hO : ∀ u m, E.metaschema u = .ok m → Ordered m)
    (hL : SiteLib E.lib) {w : World} (hw : CHistory w) {mo : Option Meta} {doc : Value} (hd : doc.WF)
    {cid : String} {uri metaUri : Option Uri} {p : Site} (hp : p = docSite E.lib w uri doc)
    (hf : DocForm E mo (links E.lib [p]) p) (hu : NewUri E w cid uri doc)
    (hm : ∀ m, mo = some m → ∃ u, metaUri = some u ∧ E.metaschema u = .ok m)
    {fuel : Nat} {w' : World} {s : Nat} (hn : newDocument E fuel cid uri metaUri doc w = some (w', .ok s))
    {ks : List String} {q : Site} (hat : Stands E.lib p ks q) {k : String} {v : Value} (hk : q.Has k v) (hkk : k ∉ definedNames) :
    ∃ x o, Jschon.Reach w'.heap s ks x ∧ w'.isSchema x = true ∧ (k, o) ∈ w'.keywords x ∧ o.shape = .unknown ∧
      Rearranged (val w'.heap o.json) v ∧
      ∀ w'', CAfter w' w'' → ∀ cid' env n i r, evaluate (w''.store E cid') env n x i = some r →
        ∃ c, sibling r i k = some c ∧ Noted x i k (val w'.heap o.json) c := by
  obtain ⟨x, o, h1, h2, h3, h4, h5, h6⟩ := C64_written_partial hE hO hL hw hd hp hf hu hm hn hat hk (.inl hkk)
  exact ⟨x, o, h1, h2, h3, h4 hkk, h5, fun w'' ha cid' env n i r he => (h6 w'' ha cid' env n i r he).1⟩

end

attribute [local instance] Toy.in2020

def Toy.noteDoc : Value := .obj [("properties", .obj [("p", .obj [("x-y", .bool true)])])]

/-- A case of C54 and C64: an unknown keyword two levels below the root. -/
example : ∃ fuel w' s x, newDocument Toy.env fuel "" none (some ⟨"m20", none⟩) Toy.noteDoc .empty = some (w', .ok s) ∧
    Jschon.Reach w'.heap s ["properties", "p"] x ∧
    ∀ env n i r, evaluate (w'.store Toy.env "") env n x i = some r → r.valid = true →
      .bool true ∈ r.annotations (some i.path) (some "x-y") := by
  have hu : NewUri Toy.env .empty "" none Toy.noteDoc :=
    ⟨(fun u h => by cases h), (fun h => of_decide_eq_true h), uniqueNames_check (n := 9) (by decide +kernel), fun _ _ _ _ _ => rfl⟩
  have hwf : Toy.noteDoc.WF := Toy.wf_spec _ (by decide +kernel)
  have hm : ∀ m, some meta2020 = some m → ∃ u, some (Uri.mk "m20" none) = some u ∧ Toy.env.metaschema u = .ok m :=
    fun m h => ⟨_, rfl, by cases h; rfl⟩
  have hd : DocForm Toy.env (some meta2020) (links Toy.lib [⟨Toy.uuid0, Toy.noteDoc⟩]) ⟨Toy.uuid0, Toy.noteDoc⟩ := by
    refine .obj (.inl ⟨rfl, rfl⟩) ofDialect_shipped fun kv hkv => ?_
    simp only [List.mem_cons, List.not_mem_nil, or_false] at hkv
    subst hkv
    refine .inr (.named (by decide) fun kv hkv => ?_)
    simp only [List.mem_cons, List.not_mem_nil, or_false] at hkv
    subst hkv
    refine .obj fun kv hkv => ?_
    simp only [List.mem_cons, List.not_mem_nil, or_false] at hkv
    subst hkv
    exact .unknown (by decide) (by decide) (by decide)
  obtain ⟨N, w', s, h⟩ := C59_local Toy.env_ok (fun _ _ h => Toy.ordered h) Toy.site_lib .start hwf
    (p := ⟨Toy.uuid0, Toy.noteDoc⟩) rfl hd hu hm
  obtain ⟨x, o, h1, -, -, -, h5, h6⟩ := C64_written_partial Toy.env_ok (fun _ _ h => Toy.ordered h) Toy.site_lib
    .start hwf (p := ⟨Toy.uuid0, Toy.noteDoc⟩) rfl hd hu hm (h N (Nat.le_refl _)) (ks := ["properties", "p"])
    (q := ⟨Toy.uuid0, .obj [("x-y", .bool true)]⟩) (k := "x-y") (v := .bool true)
    (.named (ms := [("p", .obj [("x-y", .bool true)])]) (by decide) List.mem_cons_self List.mem_cons_self .here)
    ⟨_, rfl, List.mem_cons_self⟩ (.inl (by decide))
  refine ⟨N, w', s, x, h N (Nat.le_refl _), h1, fun env n i r he hv => ?_⟩
  have := (h6 w' .refl "" env n i r he).2 hv (fun e => by cases e)
  cases hval : val w'.heap o.json with
  | bool b => rw [hval] at h5 this; cases h5; exact this
  | _ => rw [hval] at h5; cases h5

end Jschon
