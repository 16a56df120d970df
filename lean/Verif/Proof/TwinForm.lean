import Verif.Proof.TwinDoc
import Verif.Props.Document

/-!
# Documents that are equal as JSON are well-formed alike
-/

namespace Jschon
open Spec

variable [dia : Dialect] {env : Env} {lib : UriLib}

omit dia in
theorem metaFor_twin {E : CEnv} {mo mo' : Option Meta} {kvs kvs' : List (String × Value)}
    (h : Twins env.dec (.obj kvs) (.obj kvs')) (hm : MetaFor E mo kvs mo') : MetaFor E mo kvs' mo' := by
  rcases h.dlookup "$schema" with ⟨e, e'⟩ | ⟨v, w, e, e', ht⟩
  · rcases hm with ⟨-, h⟩ | ⟨t, m, h, -⟩
    · exact .inl ⟨e', h⟩
    · rw [h] at e; cases e
  · rcases hm with ⟨h, -⟩ | ⟨t, m, h, hs⟩
    · rw [h] at e; cases e
    · rw [h] at e
      cases e
      rw [ht.str] at e'
      exact .inr ⟨t, m, e', hs⟩

omit dia in
theorem writtenAs_twin {E : CEnv} {k : String} {w w' : Value} {a : Assertion} (hw : Twins env.dec w w')
    (h : WrittenAs k w a) (hr : ∀ re, a = .pattern re → E.reOk re = true) :
    ∃ a', WrittenAs k w' a' ∧ ∀ re, a' = .pattern re → E.reOk re = true := by
  obtain ⟨a', ha', -⟩ := written_twin hw.symm h (v := .null) (v' := .null) ⟨.null, .null, .null⟩
  refine ⟨a', ha', fun re e => hr re ?_⟩
  subst e
  have hk : k = "pattern" ∧ w' = .str re := by cases ha'; exact ⟨rfl, rfl⟩
  obtain ⟨rfl, rfl⟩ := hk
  cases hw.symm.str
  generalize e : "pattern" = k at h
  generalize e' : Value.str re = x at h
  cases h <;> first | (exact absurd e (by decide)) | skip
  cases e'
  rfl

/-- The well-formedness of schemas and of members carries over. -/
theorem form_twin {E : CEnv} {L L' : Links} (hL : TwinLinks env.dec L L') :
    (∀ {b u}, SchemaForm E L b u → ∀ u', Twins env.dec u u' → SchemaForm E L' b u') ∧
    (∀ {b k w}, MemberForm E L b k w → ∀ w', Twins env.dec w w' → MemberForm E L' b k w') := by
  have objCase : ∀ {b kvs}, (∀ kv ∈ kvs, ∀ w', Twins env.dec kv.2 w' →
      MemberForm E L' (ownBase E.lib b (.obj kvs)) kv.1 w') → ∀ u', Twins env.dec (.obj kvs) u' →
      SchemaForm E L' b u' := by
    intro b kvs h u' hu
    obtain ⟨kvs', rfl, -, -⟩ := hu.obj
    refine .obj fun kv hkv => ?_
    obtain ⟨k, w'⟩ := kv
    obtain ⟨w, hw, ht⟩ := hu.symm.mem hkv
    rw [← ownBase_twin hu]
    exact h (k, w) hw _ ht.symm
  have oneCase : ∀ {b k v}, OneKey k v → (∀ u', Twins env.dec v u' → SchemaForm E L' b u') → ∀ w',
      Twins env.dec v w' → MemberForm E L' b k w' := by
    intro b k v hk h w' hw
    refine .one (hk.imp_right fun ⟨h1, h2⟩ => ⟨h1, fun us e => ?_⟩) (h _ hw)
    subst e
    obtain ⟨ys, e, -⟩ := hw.symm.arr
    exact h2 ys e
  have manyCase : ∀ {b k vs}, ManyKey k → (∀ v ∈ vs, ∀ u', Twins env.dec v u' → SchemaForm E L' b u') → ∀ w',
      Twins env.dec (.arr vs) w' → MemberForm E L' b k w' := by
    intro b k vs hk h w' hw
    obtain ⟨ys, rfl, -, -, -⟩ := hw.arr
    obtain ⟨zs, e, -, -, hm⟩ := hw.symm.arr
    cases e
    refine .many hk fun y hy => ?_
    obtain ⟨x, hx, ht⟩ := hm y hy
    exact h x hx _ ht.symm
  have namedCase : ∀ {b k} {ms : List (String × Value)}, k ∈ namedKeys →
      (∀ kv ∈ ms, ∀ u', Twins env.dec kv.2 u' → SchemaForm E L' b u') → ∀ w',
      Twins env.dec (.obj ms) w' → MemberForm E L' b k w' := by
    intro b k ms hk h w' hw
    obtain ⟨ys, rfl, -, -⟩ := hw.obj
    refine .named hk fun kv hkv => ?_
    obtain ⟨n, y⟩ := kv
    obtain ⟨x, hx, ht⟩ := hw.symm.mem hkv
    exact h (n, x) hx _ ht.symm
  have assertCase : ∀ {b k v a}, WrittenAs k v a → (∀ re, a = .pattern re → E.reOk re = true) → ∀ w',
      Twins env.dec v w' → MemberForm E L' b k w' := by
    intro b k v a h hr w' hw
    obtain ⟨a', ha', hr'⟩ := writtenAs_twin hw h hr
    exact .assert ha' hr'
  have countCase : ∀ {b k m}, k = "minContains" ∨ k = "maxContains" → ∀ w', Twins env.dec (.num m) w' →
      MemberForm E L' b k w' := by
    intro b k m hk w' hw
    obtain ⟨m, rfl, -⟩ := hw.num
    exact .count hk
  have refCase : ∀ {b t q}, L.refer b t q → ∀ w', Twins env.dec (.str t) w' → MemberForm E L' b "$ref" w' := by
    intro b t q h w' hw
    cases hw.str
    obtain ⟨q', h', -⟩ := hL.refer h
    exact .ref h'
  have dynCase : ∀ {b t q kvs}, dia = .d2020 → L.refer b t q → q.schema = .obj kvs → ∀ w',
      Twins env.dec (.str t) w' → MemberForm E L' b "$dynamicRef" w' := by
    intro b t q kvs hd h e w' hw
    cases hw.str
    obtain ⟨q', h', ht⟩ := hL.refer h
    have t := ht.twins
    rw [e] at t
    obtain ⟨kvs', e', -⟩ := t.obj
    exact .dynamicRef hd h' e'
  have recCase : ∀ {b q}, dia = .d2019 → L.refer b "#" q → ∀ w', Twins env.dec (.str "#") w' →
      MemberForm E L' b "$recursiveRef" w' := by
    intro b q hd h w' hw
    cases hw.str
    obtain ⟨q', h', ht⟩ := hL.refer h
    exact .recursiveRef hd h'
  constructor
  · intro b u h
    exact SchemaForm.rec (motive_1 := fun b u _ => ∀ u', Twins env.dec u u' → SchemaForm E L' b u')
      (motive_2 := fun b k w _ => ∀ w', Twins env.dec w w' → MemberForm E L' b k w')
      (fun u' hu => by cases hu.bool; exact .bool) (fun _ ih => objCase ih) assertCase (fun hk _ ih => oneCase hk ih)
      (fun hk _ ih => manyCase hk ih) (fun hk _ ih => namedCase hk ih) countCase
      (fun h w' hw => by cases hw.str; exact .format h) (fun h w' hw => by cases hw.str; exact .id h)
      (fun hk h w' hw => by cases hw.str; exact .anchor hk h) refCase dynCase
      (fun hd w' hw => by cases hw.bool; exact .recursiveAnchor hd) recCase (fun h _ _ => .note h)
      (fun h h' h'' _ _ => .unknown h h' h'') h
  · intro b k w h
    exact MemberForm.rec (motive_1 := fun b u _ => ∀ u', Twins env.dec u u' → SchemaForm E L' b u')
      (motive_2 := fun b k w _ => ∀ w', Twins env.dec w w' → MemberForm E L' b k w')
      (fun u' hu => by cases hu.bool; exact .bool) (fun _ ih => objCase ih) assertCase (fun hk _ ih => oneCase hk ih)
      (fun hk _ ih => manyCase hk ih) (fun hk _ ih => namedCase hk ih) countCase
      (fun h w' hw => by cases hw.str; exact .format h) (fun h w' hw => by cases hw.str; exact .id h)
      (fun hk h w' hw => by cases hw.str; exact .anchor hk h) refCase dynCase
      (fun hd w' hw => by cases hw.bool; exact .recursiveAnchor hd) recCase (fun h _ _ => .note h)
      (fun h h' h'' _ _ => .unknown h h' h'') h

theorem docForm_twin {E : CEnv} {mo : Option Meta} {L L' : Links} (hL : TwinLinks env.dec L L') {p p' : Site}
    (hp : TwinSite env.dec p p') (h : DocForm E mo L p) : DocForm E mo L' p' := by
  obtain ⟨b', s'⟩ := p'
  have t := hp.twins
  cases h with
  | bool => cases t.bool; exact .bool
  | obj hm hd h =>
    cases hp.base
    obtain ⟨kvs', e, -, -⟩ := t.obj
    cases e
    refine .obj (metaFor_twin t hm) hd fun kv hkv => ?_
    obtain ⟨k, w'⟩ := kv
    obtain ⟨w, hw, ht⟩ := t.symm.mem hkv
    exact (h (k, w) hw).imp_right (fun h => (form_twin hL).2 h _ ht.symm)

theorem uniqueNames_twin {roots roots' : List Site} (h : TwinSites env.dec roots roots') (hu : UniqueNames lib roots) :
    UniqueNames lib roots' := by
  have back : ∀ {i ks p}, Located lib roots' i ks p → ∃ p', Located lib roots i ks p' ∧ TwinSite env.dec p p' :=
    fun hl => located_twin h.symm hl
  have res : ∀ {i ks p}, Resource lib roots' i ks p → ∃ p', Resource lib roots i ks p' ∧ TwinSite env.dec p p' := by
    rintro i ks p ⟨hl, hr⟩
    obtain ⟨p', hl', ht⟩ := back hl
    exact ⟨p', ⟨hl', hr.imp_right fun ⟨t, h⟩ => ⟨t, ht.hasStr h⟩⟩, ht⟩
  constructor
  · intro i ks p j ls q hp hq e
    obtain ⟨p', hp', tp⟩ := res hp
    obtain ⟨q', hq', tq⟩ := res hq
    exact hu.resource i ks p' j ls q' hp' hq' (tp.base.symm.trans (e.trans tq.base))
  · intro i ks p j ls q f hp hq e ha hb
    obtain ⟨p', hp', tp⟩ := back hp
    obtain ⟨q', hq', tq⟩ := back hq
    exact hu.anchor i ks p' j ls q' f hp' hq' (tp.base.symm.trans (e.trans tq.base)) (anchored_twin tp ha)
      (anchored_twin tq hb)

theorem newUri_twin {E : CEnv} {w : World} {cid : String} {uri : Option Uri} {doc doc' : Value}
    (ht : Twins env.dec doc doc') (h : NewUri E w cid uri doc) : NewUri E w cid uri doc' := by
  have hp : TwinSite env.dec (docSite E.lib w uri doc) (docSite E.lib w uri doc') := site_twin ht _
  refine ⟨h.given, ?_, uniqueNames_twin (env := env) (.cons hp .nil) h.unique, fun v ks q hs hb => ?_⟩
  · rw [← hp.base]; exact h.same
  · obtain ⟨q', hs', ht'⟩ := stands_twin hs hp.symm
    exact h.free v ks q' hs' (ht'.base.symm.trans hb)

end Jschon
