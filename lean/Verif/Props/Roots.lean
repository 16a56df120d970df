import Verif.Model.Roots
import Verif.Spec.Roots
import Verif.Props.Names

/-!
# C82: the roots of schemas

`parentschema`, `document_rootschema` and `resource_rootschema` of the schemas in a document, and that
the base URI and the canonical URI of a schema are those of its resource.
-/

namespace Jschon
open Spec

section
variable {w : World}

theorem within_refl {h : JHeap} (x : Nat) : Within h x x := ⟨[], .here⟩

theorem within_trans {h : JHeap} {a b c : Nat} (h1 : Within h a b) (h2 : Within h b c) : Within h a c := by
  obtain ⟨k1, r1⟩ := h1
  obtain ⟨k2, r2⟩ := h2
  exact ⟨_, reach_append r1 r2⟩

theorem reach_older {h : JHeap} (ho : Ord h) {a b : Nat} {ks : List String} (hr : Reach h a ks b) :
    a ≤ b ∧ (ks ≠ [] → a < b) := by
  induction hr with
  | here => exact ⟨Nat.le_refl _, fun h => absurd rfl h⟩
  | step hc _ ih => have := (ho.kid _ _ (childD_kid hc)).1; exact ⟨by omega, fun _ => by omega⟩

theorem within_antisymm {h : JHeap} (ho : Ord h) {a b : Nat} (h1 : Within h a b) (h2 : Within h b a) : a = b := by
  obtain ⟨_, r1⟩ := h1
  obtain ⟨_, r2⟩ := h2
  have := (reach_older ho r1).1
  have := (reach_older ho r2).1
  omega

/-- What contains an instance is the instance or contains its parent. -/
theorem within_up {h : JHeap} (ho : Ord h) {a x : Nat} (hr : Within h a x) :
    a = x ∨ ∃ p k, h.parent x = some p ∧ Child h p k x ∧ Within h a p := by
  obtain ⟨ks, hr⟩ := hr
  rcases List.eq_nil_or_concat ks with rfl | ⟨ks', k, rfl⟩
  · cases hr; exact .inl rfl
  · rw [List.concat_eq_append] at hr
    obtain ⟨b, h1, h2⟩ := reach_split hr
    have hc := reach_one.1 h2
    exact .inr ⟨b, k, (ho.kid b x (childD_kid hc)).2.2, hc, ks', h1⟩

/-- Of two instances that contain a third, one contains the other. -/
theorem within_linear {h : JHeap} (ho : Ord h) {x q : Nat} : ∀ (z : Nat), Within h x z → Within h q z →
    Within h q x ∨ Within h x q := by
  intro z
  induction z using Nat.strongRecOn with
  | _ z ih =>
    intro h1 h2
    rcases within_up ho h1 with rfl | ⟨p, _, e1, -, e2⟩
    · exact .inl h2
    · rcases within_up ho h2 with rfl | ⟨p', _, e1', -, e2'⟩
      · exact .inr h1
      · rw [e1] at e1'; cases e1'
        exact ih p (ho.par z p e1) e2 e2'

theorem child_true {h : JHeap} {p c : Nat} {k : String} (hc : Child h p k c) : boolJson h p = true := by
  unfold Child at hc
  unfold boolJson
  cases hd : h.data p with
  | arr cs =>
    rw [hd] at hc
    obtain ⟨i, -, hi⟩ := hc
    cases cs with
    | nil => simp at hi
    | cons => simp
  | obj ms =>
    rw [hd] at hc
    cases ms with
    | nil => cases hc
    | cons => simp
  | _ => rw [hd] at hc; exact hc.elim

theorem within_true {h : JHeap} {p s : Nat} (hr : Within h p s) (hne : p ≠ s) : boolJson h p = true := by
  obtain ⟨ks, hr⟩ := hr
  cases hr with
  | here => exact absurd rfl hne
  | step hc _ => exact child_true hc

/-- The root of a document with a schema in it is a schema, or there is a schema next to it. -/
theorem parent_step (ok : WOk w) {root s : Nat} (hs : SchemaIn w root s) :
    (s = root ∧ w.parentschema s = none) ∨
    ∃ q, w.parentschema s = some q ∧ ParentSchema w s q ∧ SchemaIn w root q := by
  obtain ⟨hroot, hr, hsc⟩ := hs
  rcases within_up ok.ord hr with rfl | ⟨p, k, hp, hc, hrp⟩
  · refine .inl ⟨rfl, ?_⟩
    unfold World.parentschema
    rw [hroot]
    cases root <;> rfl
  · have hps := ok.ord.par s p hp
    have up : ∀ x, Within w.heap x s → x = s ∨ Within w.heap x p := fun x hx => by
      rcases within_up ok.ord hx with e | ⟨p', _, hp', -, h⟩
      · exact .inl e
      · rw [hp] at hp'; cases hp'; exact .inr h
    obtain ⟨n, rfl⟩ : ∃ n, s = n + 1 := ⟨s - 1, by omega⟩
    refine .inr ?_
    unfold World.parentschema
    rw [hp]
    simp only [World.schemaAbove]
    rcases ok.near _ p hsc hp with ⟨h1, -⟩ | ⟨h1, g, h2, h3, -⟩
    · rw [if_pos h1]
      refine ⟨p, rfl, ⟨⟨[k], reach_one.2 hc⟩, h1, by omega, fun x hx _ => ?_⟩, hroot, hrp, h1⟩
      rcases up x hx.2 with e | h
      · exact .inr e
      · exact .inl (within_antisymm ok.ord h hx.1)
    · have hgp := ok.ord.par p g h2
      obtain ⟨m, rfl⟩ : ∃ m, n = m + 1 := ⟨n - 1, by omega⟩
      rw [if_neg (by rw [h1]; decide), h2]
      simp only [World.schemaAbove]
      rw [if_pos h3]
      rcases within_up ok.ord hrp with rfl | ⟨g', k', hg', hc', hrg⟩
      · rw [hroot] at h2; cases h2
      · rw [h2] at hg'; cases hg'
        refine ⟨g, rfl, ⟨⟨[k', k], .step hc' (.step hc .here)⟩, h3, by omega, fun x hx hxs => ?_⟩, hroot, hrg, h3⟩
        rcases up x hx.2 with e | h
        · exact .inr e
        · rcases within_up ok.ord h with rfl | ⟨g', _, hg', -, h⟩
          · rw [h1] at hxs; cases hxs
          · rw [h2] at hg'; cases hg'
            exact .inl (within_antisymm ok.ord h hx.1)

theorem parent_older (ok : WOk w) {s q : Nat} (h : ParentSchema w s q) : q < s := by
  obtain ⟨ks, hr⟩ := h.way
  have := (reach_older ok.ord hr).1
  have := h.ne
  omega

theorem true_parent {s q : Nat} (h : ParentSchema w s q) (hq : w.parentschema s = some q) : w.trueParent s = some q := by
  unfold World.trueParent
  rw [hq]
  simp only
  rw [if_pos (within_true h.way h.ne)]

theorem hasId_iff (ok : WOk w) {s : Nat} (hs : w.isSchema s = true) : w.hasIdKw s = true ↔ HasId w s := by
  unfold World.hasIdKw
  rw [decide_eq_true_eq]
  constructor
  · intro h
    obtain ⟨ms, h1, h2⟩ := ok.keyword h (by decide)
    obtain ⟨kv, h3, h4⟩ := List.mem_map.1 h2
    exact ⟨ms, kv.2, h1, by rw [← h4]; exact h3⟩
  · rintro ⟨ms, j, h1, h2⟩
    obtain ⟨o, h3, -⟩ := ok.member hs h1 h2
    exact List.mem_map.2 ⟨_, h3, rfl⟩

theorem documentUp_spec (ok : WOk w) {root : Nat} : ∀ (n s : Nat), s < n → SchemaIn w root s →
    w.documentUp n s = root ∧ w.isSchema root = true := by
  intro n
  induction n with
  | zero => intro s h; omega
  | succ n ih =>
    intro s hn hs
    simp only [World.documentUp]
    rcases parent_step ok hs with ⟨rfl, h⟩ | ⟨q, h1, h2, h3⟩
    · have : w.trueParent s = none := by unfold World.trueParent; rw [h]
      rw [this]; exact ⟨rfl, hs.2.2⟩
    · rw [true_parent h2 h1]
      exact ih q (by have := parent_older ok h2; omega) h3

/-- One step further down from the root of the resource. -/
theorem ResourceRoot.down (ok : WOk w) {root s q r : Nat} (hp : ParentSchema w s q) (hr : ResourceRoot w root q r)
    (hs : ¬ HasId w s) : ResourceRoot w root s r := by
  refine ⟨⟨hr.way.1, within_trans hr.way.2 hp.way⟩, hr.schema, hr.top, fun x hx hxs hne => ?_⟩
  by_cases hxq : Within w.heap x q
  · exact hr.nearest x ⟨hx.1, hxq⟩ hxs hne
  · by_cases e : x = s
    · rw [e]; exact hs
    · -- `x` and `q` both contain `s`, so one contains the other
      rcases within_linear ok.ord s hx.2 hp.way with h | h
      · rcases hp.nearest x ⟨h, hx.2⟩ hxs with rfl | h'
        · exact absurd (within_refl x) hxq
        · exact absurd h' e
      · exact absurd h hxq

theorem resource_own (ok : WOk w) {root s : Nat} (hs : SchemaIn w root s) (h : HasId w s ∨ s = root) :
    ResourceRoot w root s s :=
  ⟨⟨hs.2.1, within_refl s⟩, hs.2.2, h, fun _ hx _ hne => absurd (within_antisymm ok.ord hx.2 hx.1) hne⟩

theorem resourceUp_spec (ok : WOk w) {root : Nat} : ∀ (n s : Nat), s < n → SchemaIn w root s → ¬ HasId w s →
    ResourceRoot w root s (w.resourceUp n s) := by
  intro n
  induction n with
  | zero => intro s h; omega
  | succ n ih =>
    intro s hn hs hi
    simp only [World.resourceUp]
    rcases parent_step ok hs with ⟨rfl, h⟩ | ⟨q, h1, h2, h3⟩
    · have : w.trueParent s = none := by unfold World.trueParent; rw [h]
      rw [this]
      exact resource_own ok hs (.inr rfl)
    · rw [true_parent h2 h1]
      simp only
      by_cases hq : HasId w q
      · rw [if_pos ((hasId_iff ok h2.schema).2 hq)]
        exact ResourceRoot.down ok h2 (resource_own ok h3 (.inl hq)) hi
      · rw [if_neg (fun h => hq ((hasId_iff ok h2.schema).1 h))]
        exact ResourceRoot.down ok h2 (ih q (by have := parent_older ok h2; omega) h3 hq) hi

/-! ## C82: the schemas that contain a schema -/

/-- C82: `parentschema` of a schema that is not the root of its document is the nearest schema that contains
it, and the root has none. -/
theorem C82_parent (hw : CHistory w) {root s : Nat} (hs : SchemaIn w root s) :
    (s = root ∧ w.parentschema s = none) ∨ ∃ q, w.parentschema s = some q ∧ ParentSchema w s q := by
  rcases parent_step hw.ok hs with h | ⟨q, h1, h2, -⟩
  · exact .inl h
  · exact .inr ⟨q, h1, h2⟩

/-- C82: `document_rootschema` of every schema in a document is the root of the document, which is a
schema. -/
theorem C82_document (hw : CHistory w) {root s : Nat} (hs : SchemaIn w root s) :
    w.documentRoot s = root ∧ w.isSchema root = true :=
  documentUp_spec hw.ok _ s (Nat.lt_succ_self s) hs

/-- C82: `resource_rootschema` is the nearest schema with `$id`, going up, or the root of the document. -/
theorem C82_resource (hw : CHistory w) {root s : Nat} (hs : SchemaIn w root s) :
    ResourceRoot w root s (w.resourceRoot s) := by
  have ok := hw.ok
  unfold World.resourceRoot
  by_cases h : HasId w s
  · rw [if_pos ((hasId_iff ok hs.2.2).2 h)]
    exact resource_own ok hs (.inl h)
  · rw [if_neg (fun e => h ((hasId_iff ok hs.2.2).1 e))]
    exact resourceUp_spec ok _ s (Nat.lt_succ_self s) hs h

/-- C82: there is only one such schema. -/
theorem C82_resource_unique (hw : CHistory w) {root s q q' : Nat} (hr : w.heap.parent root = none)
    (h : ResourceRoot w root s q) (h' : ResourceRoot w root s q') : q = q' := by
  have ok := hw.ok
  have lower : ∀ {a b : Nat}, ResourceRoot w root s a → ResourceRoot w root s b → Within w.heap a b → a = b := by
    intro a b ha hb hab
    by_cases e : b = a
    · exact e.symm
    · have := ha.nearest b ⟨hab, hb.way.2⟩ hb.schema e
      rcases hb.top with h | rfl
      · exact absurd h this
      · rcases within_up ok.ord hab with e' | ⟨p, _, hp, -⟩
        · exact e'
        · rw [hr] at hp; cases hp
  rcases within_linear ok.ord s h.way.2 h'.way.2 with e | e
  · exact (lower h' h e).symm
  · exact lower h h' e

/-! ## C82: the URIs of resources -/

theorem noUri_between {lib : UriLib} (hU : ∀ l, (lib.uuid l).fragment = none) (hw : NamedHistory lib w)
    {q x : Nat} (hq : Within w.heap q x) (hne : x ≠ q) (hid : w.isSchema x = true → ¬ HasId w x) : w.uri x = none := by
  cases hu : w.uri x with
  | none => rfl
  | some u =>
    have hs := isSchema_of_uri hu
    rcases within_up hw.ok.ok.ord hq with e | ⟨p, _, hp, -⟩
    · exact absurd e.symm hne
    · rw [← hu]
      refine C70_no_id hU hw hs hp fun ms hd hk => hid hs ?_
      obtain ⟨kv, h3, h4⟩ := List.mem_map.1 hk
      exact ⟨ms, kv.2, hd, by rw [← h4]; exact h3⟩

/-- C82: the base URI of a schema is the URI, without its fragment, of its `resource_rootschema`.  (A
resource of which this is the root has a URI, unless it is a document whose root is `true` or `false`.) -/
theorem C82_base {lib : UriLib} (hU : ∀ l, (lib.uuid l).fragment = none) (hw : NamedHistory lib w)
    {root s : Nat} (hs : SchemaIn w root s) (hid : IdTexts w root) :
    w.baseUri s = (w.uri (w.resourceRoot s)).map Uri.noFragment := by
  have ok := hw.ok.ok
  have hr := C82_resource hw.ok hs
  revert hr
  generalize w.resourceRoot s = q
  intro hr
  have hq : w.baseUri q = (w.uri q).map Uri.noFragment := by
    cases hu : w.uri q with
    | some u => rw [base_own hu]; rfl
    | none =>
      cases hp : w.heap.parent q with
      | none =>
        have hu' : (w.info q).bind SInfo.uri = none := hu
        simp [World.baseUri, World.nearest, hu', hp]
      | some p =>
        rcases hr.top with ⟨ms, j, h1, h2⟩ | e
        · obtain ⟨t, ht⟩ := hid q ms j ⟨hs.1, hr.way.1, hr.schema⟩ h1 h2
          obtain ⟨r, h3, -⟩ := C70_id hU hw hr.schema hp h1 h2 ht
          rw [hu] at h3; cases h3
        · rw [e, hs.1] at hp; cases hp
  rw [← hq]
  have : ∀ (x : Nat), OnWay w q x s → w.baseUri x = w.baseUri q := by
    intro x
    induction x using Nat.strongRecOn with
    | _ x ih =>
      intro hx
      rcases within_up ok.ord hx.1 with rfl | ⟨p, k, hp, hc, hqp⟩
      · rfl
      · have hlt := ok.ord.par x p hp
        obtain ⟨_, hr'⟩ := hqp
        have := (reach_older ok.ord hr').1
        rw [base_up ok.ord hp (noUri_between hU hw hx.1 (by omega) fun hxs => hr.nearest x hx hxs (by omega))]
        exact ih p hlt ⟨⟨_, hr'⟩, within_trans ⟨[k], reach_one.2 hc⟩ hx.2⟩
  exact this s ⟨hr.way.2, within_refl s⟩

theorem canonicalUp_exact (ok : WOk w) {q : Nat} {u : Uri} (hu : w.uri q = some u) (hf : u.fragment = none) :
    ∀ (n x : Nat) (ks keys : List String), x < n → Reach w.heap q ks x → ks ≠ [] →
      (∀ y, Within w.heap q y → Within w.heap y x → y ≠ q → w.uri y = none) →
      w.canonicalUp n x keys = .ok (some (u.withFragment (Ptr.uriFragment ⟨ks ++ keys⟩))) := by
  intro n
  induction n with
  | zero => intro x _ _ h; omega
  | succ n ih =>
    intro x ks keys hn hr hne hno
    rcases List.eq_nil_or_concat ks with rfl | ⟨ks', k, rfl⟩
    · exact absurd rfl hne
    · rw [List.concat_eq_append] at hr ⊢
      obtain ⟨b, h1, h2⟩ := reach_split hr
      have hc := reach_one.1 h2
      have hp := (ok.ord.kid b x (childD_kid hc)).2.2
      have hlt := ok.ord.par x b hp
      simp only [World.canonicalUp, hp, ok.keys.key _ _ _ hc, Option.getD_some]
      cases ks' with
      | nil =>
        cases h1
        simp only [hu, fragmentKeys_none hf]
        rfl
      | cons k' ks' =>
        have hqb := (reach_older ok.ord h1).2 (by simp)
        have hb := hno b ⟨_, h1⟩ ⟨_, h2⟩ (by omega)
        simp only [hb]
        rw [ih b (k' :: ks') (k :: keys) (by omega) h1 (by simp)
          fun y e1 e2 e3 => hno y e1 (within_trans e2 ⟨_, h2⟩) e3]
        simp

/-- C82: if the root of the resource of a schema has the URI `u`, then the canonical URI of the schema is
`u`, or `u` with the fragment that leads from that root to the schema. -/
theorem C82_canonical {lib : UriLib} (hU : ∀ l, (lib.uuid l).fragment = none) (hw : NamedHistory lib w)
    {root s : Nat} (hs : SchemaIn w root s) {u : Uri} (hu : w.uri (w.resourceRoot s) = some u)
    (hf : u.fragment = none) {ks : List String} (hk : Reach w.heap (w.resourceRoot s) ks s) :
    w.canonicalUri s = .ok (some (if ks = [] then u else u.withFragment (Ptr.uriFragment ⟨ks⟩))) := by
  have ok := hw.ok.ok
  have hr := C82_resource hw.ok hs
  revert hr hu hk
  generalize w.resourceRoot s = q
  intro hu hk hr
  unfold World.canonicalUri
  by_cases e : ks = []
  · subst e
    cases hk
    rw [hu, if_pos rfl]
  · rw [if_neg e]
    have hlt := (reach_older ok.ord hk).2 e
    rw [noUri_between hU hw ⟨_, hk⟩ (by omega) fun hxs => hr.nearest s ⟨⟨_, hk⟩, within_refl s⟩ hxs (by omega)]
    simp only
    rw [canonicalUp_exact ok hu hf (s + 1) s ks [] (Nat.lt_succ_self s) hk e
      fun y h1 h2 h3 => noUri_between hU hw h1 h3 fun hys => hr.nearest y ⟨h1, h2⟩ hys h3, List.append_nil]

end

/-- A document with schemas in a resource inside it. -/
def Toy.nested : Value :=
  .obj [("$id", .str "h/r"), ("$defs", .obj [("a", .obj [("$id", .str "e"), ("not", .obj [("not", .bool true)])]),
    ("b", .bool true)])]

/-- The values of `$id` in a world are strings. -/
def Toy.idTexts (w : World) : Bool :=
  (List.range w.heap.next).all fun x =>
    match w.heap.data x with
    | .obj ms => ms.all fun kv => kv.1 != "$id" || (match w.heap.data kv.2 with | .str _ => true | _ => false)
    | _ => true

theorem Toy.idTexts_spec {w : World} (ok : WOk w) (h : Toy.idTexts w = true) (root : Nat) : IdTexts w root := by
  intro x ms j hx hd hm
  have := List.all_eq_true.1 h x (List.mem_range.2 (ok.dom x hx.2.2))
  rw [hd] at this
  have := List.all_eq_true.1 this _ hm
  simp only [bne_self_eq_false, Bool.false_or] at this
  split at this
  · rename_i t e; exact ⟨t, e⟩
  · cases this

/-- The hypotheses of C82 can hold: in the document, instances 6 and 7 are schemas of the resources whose
roots are 3 and 0. -/
example : ∃ (w : World), NamedHistory Toy.lib w ∧ SchemaIn w 0 6 ∧ SchemaIn w 0 7 ∧ IdTexts w 0 ∧
    w.resourceRoot 6 = 3 ∧ w.resourceRoot 7 = 0 ∧ w.documentRoot 6 = 0 ∧ w.parentschema 6 = some 5 ∧
    w.parentschema 7 = some 0 ∧ w.uri 3 = some ⟨"h/e", none⟩ ∧ Reach w.heap 3 ["not", "not"] 6 := by
  have h : (Toy.build Toy.nested).map (fun p => (p.1.isSchema 6 && p.1.isSchema 7 && (p.1.heap.parent 0).isNone) &&
      (Toy.gives (resolveJson p.1.heap ["$defs", "a", "not", "not"] 0) 6 &&
        Toy.gives (resolveJson p.1.heap ["$defs", "b"] 0) 7) && Toy.idTexts p.1 &&
      (decide (p.1.resourceRoot 6 = 3) && decide (p.1.resourceRoot 7 = 0) && decide (p.1.documentRoot 6 = 0) &&
        decide (p.1.parentschema 6 = some 5) && decide (p.1.parentschema 7 = some 0) &&
        decide (p.1.uri 3 = some ⟨"h/e", none⟩)) &&
      (match p.1.heap.data 3 with | .obj ms => decide (ms = [("$id", 4), ("not", 5)]) | _ => false) &&
      (match p.1.heap.data 5 with | .obj ms => decide (ms = [("not", 6)]) | _ => false)) = some true := by
    decide +kernel
  obtain ⟨⟨w, r⟩, hb, hp⟩ := Option.map_eq_some_iff.1 h
  simp only [Bool.and_eq_true, Option.isNone_iff_eq_none, Toy.gives_iff, decide_eq_true_eq] at hp
  obtain ⟨⟨⟨⟨⟨⟨⟨h1, h2⟩, h3⟩, h4, h5⟩, h6⟩, ⟨⟨⟨⟨h7, h8⟩, h9⟩, h10⟩, h11⟩, h12⟩, h13⟩, h14⟩ := hp
  have hw := Toy.named (Toy.wf_spec _ (by decide +kernel)) hb
  obtain ⟨k1, -, e1⟩ := resolve_reach h4
  obtain ⟨k2, -, e2⟩ := resolve_reach h5
  refine ⟨w, hw, ⟨h3, ⟨k1, e1⟩, h1⟩, ⟨h3, ⟨k2, e2⟩, h2⟩, Toy.idTexts_spec hw.ok.ok h6 0, h7, h8, h9, h10, h11, h12,
    .step (c := 5) ?_ (.step (c := 6) ?_ .here)⟩
  · split at h13
    · rename_i e
      unfold Child; rw [e, of_decide_eq_true h13]; exact List.mem_cons_of_mem _ List.mem_cons_self
    · cases h13
  · split at h14
    · rename_i e
      unfold Child; rw [e, of_decide_eq_true h14]; exact List.mem_cons_self
    · cases h14

end Jschon
