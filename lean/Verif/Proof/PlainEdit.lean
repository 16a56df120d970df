import Verif.Spec.PlainEdit
import Verif.Proof.NoCache
import Verif.Proof.JsonDoc
import Verif.Proof.DocDone

/-!
# What edits inside the values of plain keywords leave as it is
-/

namespace Jschon
open Spec

theorem inPlain_desc {w : World} {x : Nat} : InPlain w x ↔ ∃ s k o, (k, o) ∈ w.keywords s ∧ k ≠ "$id" ∧
    PlainShape o.shape ∧ Desc w.heap o.json x := by
  constructor
  · rintro ⟨s, k, o, ks, h1, h2, h3, h4⟩
    exact ⟨s, k, o, h1, h2, h3, reach_desc h4⟩
  · rintro ⟨s, k, o, h1, h2, h3, h4⟩
    obtain ⟨ks, h4⟩ := desc_reach h4
    exact ⟨s, k, o, ks, h1, h2, h3, h4⟩

/-- `w'` is `w` but for what is in the values of plain keywords. -/
structure Amended (w w' : World) : Prop where
  info : w'.info = w.info
  caches : w'.caches = w.caches
  le : w.heap.next ≤ w'.heap.next
  parent : ∀ x, x < w.heap.next → w'.heap.parent x = w.heap.parent x
  data : ∀ x, x < w.heap.next → ¬ InPlain w x → w'.heap.data x = w.heap.data x
  inv : JInv w'.heap
  old : ∀ {a b : Nat}, Desc w'.heap a b → b < w.heap.next → Desc w.heap a b

theorem Amended.refl {w : World} (hi : JInv w.heap) : Amended w w :=
  ⟨rfl, rfl, Nat.le_refl _, fun _ _ => rfl, fun _ _ _ => rfl, hi, fun h _ => h⟩

theorem Amended.keywords {w w' : World} (a : Amended w w') (x : Nat) : w'.keywords x = w.keywords x := by
  simp only [World.keywords, a.info]

theorem Amended.isSchema {w w' : World} (a : Amended w w') (x : Nat) : w'.isSchema x = w.isSchema x := by
  simp only [World.isSchema, a.info]

theorem Amended.uri {w w' : World} (a : Amended w w') (x : Nat) : w'.uri x = w.uri x := by
  simp only [World.uri, a.info]

theorem Amended.cacheid {w w' : World} (a : Amended w w') (x : Nat) : w'.cacheid x = w.cacheid x := by
  simp only [World.cacheid, a.info]

theorem Amended.plain {w w' : World} (a : Amended w w') {x : Nat} (hx : x < w.heap.next) (h : InPlain w' x) :
    InPlain w x := by
  obtain ⟨s, k, o, h1, h2, h3, h4⟩ := inPlain_desc.1 h
  rw [a.keywords] at h1
  exact inPlain_desc.2 ⟨s, k, o, h1, h2, h3, a.old h4 hx⟩

/-- One more call. -/
theorem Amended.call {w w' : World} (a : Amended w w') {op : JOp} {r : Nat} (h1 : op.receiver = some r)
    (h2 : InPlain w' r) (h3 : op.ArgsOk w'.heap) (h4 : op.InRange w'.heap) : Amended w (w'.editJson op) := by
  have hi := a.inv.weak
  have hs := step_receiver hi op h3 h1
  have hp : ∀ x, x < w'.heap.next → (op.step w'.heap).parent x = w'.heap.parent x := by
    intro x hx
    cases hs with
    | noop n => exact n.quiet.parent x hx
    | did g _ _ d => exact d.parent hx
  refine ⟨a.info, a.caches, Nat.le_trans a.le hs.le, fun x hx => ?_, fun x hx hn => ?_, step_inv a.inv op h3 h4, fun hd hb => ?_⟩
  · exact (hp x (Nat.lt_of_lt_of_le hx a.le)).trans (a.parent x hx)
  · rw [← a.data x hx hn]
    have hx' := Nat.lt_of_lt_of_le hx a.le
    show (op.step w'.heap).data x = _
    cases hs with
    | noop n => exact n.quiet.data x hx'
    | @did m v g hm _ d =>
      refine d.data_other hx' ?_
      rintro rfl
      obtain ⟨s, k, o, b1, b2, b3, b4⟩ := inPlain_desc.1 h2
      exact hn (a.plain hx (inPlain_desc.2 ⟨s, k, o, b1, b2, b3, desc_trans b4 hm⟩))
  · exact a.old (step_desc hi op h3 hd (Nat.lt_of_lt_of_le hb a.le)) hb

/-- Reading `path` or `value`. -/
theorem Amended.read {w w' : World} (a : Amended w w') {op : JOp} {r : Nat} (h1 : op = .path r ∨ op = .value r)
    (h2 : r < w'.heap.next) : Amended w (w'.editJson op) := by
  have hi := a.inv.weak
  have h3 : op.ArgsOk w'.heap := by rcases h1 with rfl | rfl <;> exact h2
  have h4 : op.InRange w'.heap := by rcases h1 with rfl | rfl <;> trivial
  have n : Noop w'.heap (op.step w'.heap) := by
    rcases h1 with rfl | rfl
    · exact noop_readPath hi h2
    · exact noop_readValue hi r
  have hl : w'.heap.next ≤ (op.step w'.heap).next := by
    have hr : op.receiver = some r := by rcases h1 with rfl | rfl <;> rfl
    exact (step_receiver hi op h3 hr).le
  refine ⟨a.info, a.caches, Nat.le_trans a.le hl, fun x hx => ?_, fun x hx hn => ?_, step_inv a.inv op h3 h4,
    fun hd hb => ?_⟩
  · exact (n.quiet.parent x (Nat.lt_of_lt_of_le hx a.le)).trans (a.parent x hx)
  · rw [← a.data x hx hn]
    exact n.quiet.data x (Nat.lt_of_lt_of_le hx a.le)
  · exact a.old (step_desc hi op h3 hd (Nat.lt_of_lt_of_le hb a.le)) hb

theorem Spec.PlainEdited.amended {w w' : World} (h : PlainEdited w w') (hi : JInv w.heap) : Amended w w' := by
  induction h with
  | refl => exact .refl hi
  | call op _ h1 h2 h3 h4 ih => exact ih.call h1 h2 h3 h4
  | read _ h1 h2 ih => exact ih.read h1 h2

/-! ## Schemas and keywords -/

section
variable {w w' : World} (ok : WOk w)
include ok

theorem Spec.InPlain.lt {x : Nat} (h : InPlain w x) : x < w.heap.next := by
  obtain ⟨s, k, o, h1, -, -, h4⟩ := inPlain_desc.1 h
  cases hi : w.info s with
  | none => simp [World.keywords, hi] at h1
  | some i =>
    have hk : (k, o) ∈ i.keywords := by simpa [World.keywords, hi] using h1
    exact desc_has ok.ord h4 (ok.ord.kid _ _ (ok.kid hi hk)).2.1

theorem Spec.InPlain.below {x y : Nat} (h : InPlain w x) (hd : Desc w.heap x y) : InPlain w y := by
  obtain ⟨s, k, o, h1, h2, h3, h4⟩ := inPlain_desc.1 h
  exact inPlain_desc.2 ⟨s, k, o, h1, h2, h3, desc_trans h4 hd⟩

theorem Spec.InPlain.noSchema {x : Nat} (h : InPlain w x) : w.isSchema x = false := by
  obtain ⟨s, k, o, h1, -, h3, h4⟩ := inPlain_desc.1 h
  cases hi : w.info s with
  | none => simp [World.keywords, hi] at h1
  | some i =>
    have hk : (k, o) ∈ i.keywords := by simpa [World.keywords, hi] using h1
    have h5 := (ok.shapes s i _ hi hk).1
    have h6 : NoSchema w o.json := by
      rcases h3 with h | h <;> (simp only [h] at h5; exact h5)
    exact h6 x h4

theorem schema_notPlain {x : Nat} (h : w.isSchema x = true) : ¬ InPlain w x := by
  intro hp
  rw [hp.noSchema ok] at h
  cases h

omit ok in
theorem mem_of_map_nodup {α β : Type} {f : α → β} : ∀ {l : List α}, (l.map f).Nodup → ∀ {a b : α}, a ∈ l → b ∈ l →
    f a = f b → a = b
  | [], _, a, _, h, _, _ => by cases h
  | c :: l, hn, a, b, ha, hb, e => by
    rw [List.map_cons, List.nodup_cons] at hn
    rcases List.mem_cons.1 ha with rfl | ha' <;> rcases List.mem_cons.1 hb with rfl | hb'
    · rfl
    · exact absurd (e ▸ List.mem_map_of_mem hb') hn.1
    · exact absurd (e ▸ List.mem_map_of_mem ha') hn.1
    · exact mem_of_map_nodup hn.2 ha' hb' e

/-- The instances of the keywords of a schema are different. -/
theorem WOk.jsons_nodup {s : Nat} {i : SInfo} (hi : w.info s = some i) : (i.keywords.map (·.2.json)).Nodup := by
  have h1 := ok.kws s i hi
  have hs : w.isSchema s = true := by simp [World.isSchema, hi]
  have h2 : i.keywords.map (·.2.json) = (kwMembers i.keywords).map Prod.snd := by
    simp [kwMembers, List.map_map, Function.comp_def]
  rw [h2, h1]
  cases hd : w.heap.data s with
  | obj ms => have := ok.ord.nodup s; rw [hd] at this; exact this
  | arr cs => exact absurd hd (ok.whole s cs hs)
  | _ => simp [JData.members]

/-- The instance of a keyword is in that of a plain keyword only if it is that. -/
theorem plain_kw {s : Nat} {k : String} {o : KwObj} (h : (k, o) ∈ w.keywords s) (hp : InPlain w o.json) :
    k ≠ "$id" ∧ PlainShape o.shape := by
  obtain ⟨s2, k2, o2, h1, h2, h3, h4⟩ := inPlain_desc.1 hp
  cases hi : w.info s with
  | none => simp [World.keywords, hi] at h
  | some i =>
  cases hi2 : w.info s2 with
  | none => simp [World.keywords, hi2] at h1
  | some i2 =>
  have hk : (k, o) ∈ i.keywords := by simpa [World.keywords, hi] using h
  have hk2 : (k2, o2) ∈ i2.keywords := by simpa [World.keywords, hi2] using h1
  have p1 := (ok.ord.kid _ _ (ok.kid hi hk)).2.2
  have p2 := (ok.ord.kid _ _ (ok.kid hi2 hk2)).2.2
  rcases desc_tail h4 with he | ⟨p, h5, h6⟩
  · simp only [he] at p2
    simp only [p2, Option.some.injEq] at p1
    subst p1
    rw [hi] at hi2
    cases hi2
    have := mem_of_map_nodup (f := fun kv : String × KwObj => kv.2.json) (ok.jsons_nodup hi) hk hk2 he.symm
    cases this
    exact ⟨h2, h3⟩
  · have p3 := (ok.ord.kid _ _ h6).2.2
    simp only [p3, Option.some.injEq] at p1
    subst p1
    exact absurd (inPlain_desc.2 ⟨s2, k2, o2, h1, h2, h3, h5⟩) (schema_notPlain ok (by simp [World.isSchema, hi]))

variable (a : Amended w w')
include a

theorem Amended.schemaData {x : Nat} (h : w.isSchema x = true) : w'.heap.data x = w.heap.data x :=
  a.data x (ok.dom x h) (schema_notPlain ok h)

theorem Amended.noSchema {j : Nat} (h : NoSchema w j) : NoSchema w' j := by
  intro x hx
  rw [a.isSchema]
  by_cases hl : x < w.heap.next
  · exact h x (a.old hx hl)
  · cases hs : w.isSchema x with
    | false => rfl
    | true => exact absurd (ok.dom x hs) hl

theorem Amended.kwData {s : Nat} {k : String} {o : KwObj} (h : (k, o) ∈ w.keywords s)
    (hn : k = "$id" ∨ ¬ PlainShape o.shape) : w'.heap.data o.json = w.heap.data o.json := by
  cases hi : w.info s with
  | none => simp [World.keywords, hi] at h
  | some i =>
    have hk : (k, o) ∈ i.keywords := by simpa [World.keywords, hi] using h
    refine a.data _ (ok.ord.kid _ _ (ok.kid hi hk)).2.1 fun hp => ?_
    have := plain_kw ok h hp
    rcases hn with h | h
    · exact this.1 h
    · exact h this.2

/-- The invariant of the world is kept. -/
theorem Amended.wok : WOk w' where
  ord := a.inv.ord
  keys := a.inv.keys
  dom s hs := Nat.lt_of_lt_of_le (ok.dom s (by rw [← a.isSchema]; exact hs)) a.le
  kws s i hi := by
    rw [a.info] at hi
    rw [a.schemaData ok (by simp [World.isSchema, hi])]
    exact ok.kws s i hi
  caches := by rw [a.caches]; exact ok.caches
  cached id u s h := by rw [a.isSchema]; rw [a.caches] at h; exact ok.cached id u s h
  uris s u h hf := by
    simp only [a.uri, a.cacheid, a.caches] at h ⊢
    exact ok.uris s u h hf
  near s p hs hp := by
    rw [a.isSchema] at hs
    have hl := ok.dom s hs
    rw [a.parent s hl] at hp
    rw [a.cacheid]
    have := ok.ord.par s p hp
    exact (ok.near s p hs hp).mono ok.ord (by omega) (fun x _ => a.isSchema x) (fun x _ => a.cacheid x) a.parent
  shapes s i kv hi hk := by
    rw [a.info] at hi
    obtain ⟨h1, h2⟩ := ok.shapes s i kv hi hk
    refine ⟨?_, fun t ht => by rw [a.isSchema]; exact h2 t ht⟩
    obtain ⟨k, o⟩ := kv
    have hm : (k, o) ∈ w.keywords s := by simpa [World.keywords, hi] using hk
    have hd := fun h => a.kwData ok hm (.inr h)
    revert h1 hd
    simp only []
    generalize o.json = j
    generalize o.shape = sh
    intro h1 hd
    have arr : w'.heap.data j = w.heap.data j →
        (w.isSchema j = false ∧ ∃ cs, w.heap.data j = .arr cs ∧ ∀ c ∈ cs, w.isSchema c = true) →
        (w'.isSchema j = false ∧ ∃ cs, w'.heap.data j = .arr cs ∧ ∀ c ∈ cs, w'.isSchema c = true) := by
      intro e h
      rw [e, a.isSchema]
      simpa only [a.isSchema] using h
    have str : w'.heap.data j = w.heap.data j → (NoSchema w j ∧ ∃ t, w.heap.data j = .str t) →
        (NoSchema w' j ∧ ∃ t, w'.heap.data j = .str t) := by
      intro e h
      rw [e]
      exact ⟨a.noSchema ok h.1, h.2⟩
    cases sh with
    | subschema => exact (a.isSchema j).trans h1
    | arrayOfSubschemas =>
      have e := hd (by rintro (h | h) <;> cases h)
      exact h1.imp (arr e) (str e)
    | objectOfSubschemas =>
      have e := hd (by rintro (h | h) <;> cases h)
      show w'.isSchema j = false ∧ ∃ ms, w'.heap.data j = .obj ms ∧ ∀ kc ∈ ms, w'.isSchema kc.2 = true
      rw [e, a.isSchema]
      simp only [a.isSchema]
      exact h1
    | subschemaOrArray =>
      have e := hd (by rintro (h | h) <;> cases h)
      exact h1.imp (a.isSchema j).trans fun h1 => h1.imp (arr e) (str e)
    | _ => exact a.noSchema ok h1
  whole s cs hs := by
    rw [a.isSchema] at hs
    rw [a.schemaData ok hs]
    exact ok.whole s cs hs

theorem Amended.hasMeta {E : CEnv} {m : Meta} {x : Nat} (h : HasMeta E w m x) (hx : x < w.heap.next) :
    HasMeta E w' m x := by
  induction h with
  | here h1 h2 => exact .here (by rw [a.info]; exact h1) h2
  | up h1 h2 h3 _ ih => exact .up (by rw [a.info]; exact h1) (by rw [a.parent _ hx]; exact h2) h3 (ih (by omega))

theorem Amended.sameNames : SameNames w w' where
  isSchema := a.isSchema
  uri := a.uri
  cacheid := a.cacheid
  parent := a.parent
  anchors x k sh t hs := by
    unfold Says
    rw [a.keywords]
    constructor <;> rintro ⟨o, h1, rfl, h3⟩ <;> refine ⟨o, h1, rfl, ?_⟩
    · rw [← a.kwData ok h1 (.inr ?_)]
      · exact h3
      · rcases hs with h | h <;> rw [h] <;> rintro (h | h) <;> cases h
    · rw [a.kwData ok h1 (.inr ?_)]
      · exact h3
      · rcases hs with h | h <;> rw [h] <;> rintro (h | h) <;> cases h
  idKey x p _ := by rw [a.keywords]
  idSays x p sh t _ := by
    unfold Says
    rw [a.keywords]
    constructor <;> rintro ⟨o, h1, rfl, h3⟩ <;> refine ⟨o, h1, rfl, ?_⟩
    · rw [← a.kwData ok h1 (.inl rfl)]; exact h3
    · rw [a.kwData ok h1 (.inl rfl)]; exact h3

theorem Amended.baseUri {x : Nat} (hx : x < w.heap.next) : w'.baseUri x = w.baseUri x :=
  (a.sameNames ok).base ok hx

theorem Amended.hung {root : Nat} (hr : w.heap.parent root = none) (h : Hung root w) : Hung root w' := by
  intro x h1 h2 h3
  have hx : x < w.heap.next ∧ (w.isSchema x = true ∨ ∃ y, w.isSchema y = true ∧ w.heap.parent y = some x) := by
    rcases h3 with h3 | ⟨y, h3, h4⟩
    · rw [a.isSchema] at h3
      exact ⟨ok.dom x h3, .inl h3⟩
    · rw [a.isSchema] at h3
      have hy := ok.dom y h3
      rw [a.parent y hy] at h4
      have := ok.ord.par y x h4
      exact ⟨by omega, .inr ⟨y, h3, h4⟩⟩
  refine (h x h1 hx.1 hx.2).imp id ?_
  rintro ⟨p, g1, g2, g3⟩
  refine ⟨p, g1, Nat.lt_of_lt_of_le g2 a.le, ?_⟩
  rw [a.data p g2 fun hp => ?_]
  · exact g3
  · have hpx := hp.below ok (.step g3 .refl)
    rcases hx.2 with h5 | ⟨y, h5, h6⟩
    · exact schema_notPlain ok h5 hpx
    · have := ok.ord.par y x h6
      rcases h y (by omega) (ok.dom y h5) (.inl h5) with h7 | ⟨q, -, -, h7⟩
      · subst h7; rw [hr] at h6; cases h6
      · have h8 := (ok.ord.kid _ _ h7).2.2
        rw [h6] at h8
        cases h8
        exact schema_notPlain ok h5 (hpx.below ok (.step h7 .refl))

end
end Jschon
