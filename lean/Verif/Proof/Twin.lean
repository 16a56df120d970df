import Verif.Spec.Twin
import Verif.Proof.Equality

/-!
# Documents that are equal as JSON have the same meaning
-/

namespace Jschon
open Spec

variable {dec : Rat → Rat}

theorem Spec.Twin.refl (a : Value) : Twin dec a a := by
  induction a using Value.induct with
  | null => exact .null
  | bool b => exact .bool
  | num n => exact .num rfl rfl
  | str s => exact .str
  | arr xs ih =>
    refine .arr rfl (fun i x y hx hy => ?_)
    rw [hx] at hy; cases hy
    exact ih x (List.mem_of_getElem? hx)
  | obj as ih =>
    refine .obj (fun _ => Iff.rfl) (fun k v w hv hw => ?_)
    rw [hv] at hw; cases hw
    exact ih _ (dlookup_mem hv)

theorem Spec.Twin.symm {a b : Value} (h : Twin dec a b) : Twin dec b a := by
  induction h with
  | null => exact .null
  | bool => exact .bool
  | num h h' => exact .num h.symm h'.symm
  | str => exact .str
  | arr hl _ ih => exact .arr hl.symm (fun i x y hx hy => ih i y x hy hx)
  | obj hk _ ih => exact .obj (fun k => (hk k).symm) (fun k v w hv hw => ih k w v hw hv)

theorem Spec.Twin.same {a b : Value} (h : Twin dec a b) : Same a b := by
  induction h with
  | null => exact .null
  | bool => exact .bool
  | num h h' => exact .num h
  | str => exact .str
  | arr hl _ ih => exact .arr hl ih
  | obj hk _ ih => exact .obj hk ih

/-- Equal values are twins if whole floats are written exactly. -/
theorem Spec.Same.twin {a b : Value} (h : Same a b) (ha : ExactFloats dec a) (hb : ExactFloats dec b) :
    Twin dec a b := by
  induction h with
  | null => exact .null
  | bool => exact .bool
  | @num m n h =>
    refine .num h ?_
    cases m with
    | int z =>
      cases n with
      | int z' => exact h
      | flt q =>
        cases hb with
        | flt hb =>
          have e : q = (z : Rat) := h.symm
          exact (e.symm.trans (hb z e).symm : (z : Rat) = dec q)
    | flt q =>
      cases n with
      | int z =>
        cases ha with
        | flt ha => exact ((ha z h).trans h : dec q = (z : Rat))
      | flt q' => exact congrArg dec h
  | str => exact .str
  | arr hl _ ih =>
    cases ha with
    | arr ha =>
      cases hb with
      | arr hb =>
        exact .arr hl fun i x y hx hy => ih i x y hx hy (ha _ (List.mem_of_getElem? hx)) (hb _ (List.mem_of_getElem? hy))
  | obj hk _ ih =>
    cases ha with
    | obj ha =>
      cases hb with
      | obj hb => exact .obj hk fun k v w hv hw => ih k v w hv hw (ha _ (dlookup_mem hv)) (hb _ (dlookup_mem hw))

/-- Twins without duplicate names. -/
structure Twins (dec : Rat → Rat) (v w : Value) : Prop where
  twin : Twin dec v w
  wf : v.WF
  wf' : w.WF

theorem Twins.symm {v w : Value} (h : Twins dec v w) : Twins dec w v := ⟨h.twin.symm, h.wf', h.wf⟩

theorem Twins.type {v w : Value} (h : Twins dec v w) : v.type = w.type := by
  cases h.twin <;> rfl

theorem Twins.str {s : String} {w : Value} (h : Twins dec (.str s) w) : w = .str s := by
  cases h.twin; rfl

theorem Twins.bool {b : Bool} {w : Value} (h : Twins dec (.bool b) w) : w = .bool b := by
  cases h.twin; rfl

theorem Twins.num {n : Num} {w : Value} (h : Twins dec (.num n) w) :
    ∃ m, w = .num m ∧ n.val = m.val ∧ asWritten dec n = asWritten dec m := by
  cases h.twin with
  | num e e' => exact ⟨_, rfl, e, e'⟩

theorem Twins.arr {xs : List Value} {w : Value} (h : Twins dec (.arr xs) w) :
    ∃ ys, w = .arr ys ∧ xs.length = ys.length ∧
      (∀ (i : Nat) x, xs[i]? = some x → ∃ y, ys[i]? = some y ∧ Twins dec x y) ∧
      (∀ x ∈ xs, ∃ y ∈ ys, Twins dec x y) := by
  obtain ⟨h, hw, hw'⟩ := h
  cases h with
  | @arr _ ys hl h =>
    cases hw with
    | arr hw =>
      cases hw' with
      | arr hw' =>
        have key : ∀ (i : Nat) x, xs[i]? = some x → ∃ y, ys[i]? = some y ∧ Twins dec x y := by
          intro i x hx
          have hi : i < ys.length := by rw [← hl]; exact (List.getElem?_eq_some_iff.1 hx).1
          have hy : ys[i]? = some ys[i] := List.getElem?_eq_getElem hi
          exact ⟨_, hy, h i x _ hx hy, hw _ (List.mem_of_getElem? hx), hw' _ (List.mem_of_getElem? hy)⟩
        refine ⟨ys, rfl, hl, key, fun x hx => ?_⟩
        obtain ⟨i, hi⟩ := List.getElem?_of_mem hx
        obtain ⟨y, hy, ht⟩ := key i x hi
        exact ⟨y, List.mem_of_getElem? hy, ht⟩

theorem Twins.obj {as : List (String × Value)} {w : Value} (h : Twins dec (.obj as) w) :
    ∃ bs, w = .obj bs ∧ as.length = bs.length ∧ (∀ k v, (k, v) ∈ as → ∃ u, (k, u) ∈ bs ∧ Twins dec v u) := by
  obtain ⟨h, hw, hw'⟩ := h
  cases h with
  | @obj _ bs hk h =>
    cases hw with
    | obj hn hw =>
      cases hw' with
      | obj hn' hw' =>
        refine ⟨bs, rfl, ?_, fun k v hm => ?_⟩
        · have h1 : ∀ x ∈ dkeys as, x ∈ dkeys bs := fun x hx => by
            by_cases hb : x ∈ dkeys bs
            · exact hb
            · exact absurd hx (dlookup_eq_none.1 ((hk x).2 (dlookup_eq_none.2 hb)))
          have h2 : ∀ x ∈ dkeys bs, x ∈ dkeys as := fun x hx => by
            by_cases hb : x ∈ dkeys as
            · exact hb
            · exact absurd hx (dlookup_eq_none.1 ((hk x).1 (dlookup_eq_none.2 hb)))
          have e1 := nodup_subset_length hn h1
          have e2 := nodup_subset_length hn' h2
          simp only [dkeys, List.length_map] at e1 e2
          omega
        · have hv := dlookup_of_mem hn hm
          cases hb : dlookup k bs with
          | none => rw [(hk k).2 hb] at hv; cases hv
          | some u =>
            exact ⟨u, dlookup_mem hb, h k v u hv hb, hw _ hm, hw' _ (dlookup_mem hb)⟩

theorem Twins.dlookup {as bs : List (String × Value)} (h : Twins dec (.obj as) (.obj bs)) (k : String) :
    (dlookup k as = none ∧ dlookup k bs = none) ∨
      ∃ v w, dlookup k as = some v ∧ dlookup k bs = some w ∧ Twins dec v w := by
  obtain ⟨h, hw, hw'⟩ := h
  cases h with
  | obj hk h =>
    cases hw with
    | obj hn hw =>
      cases hw' with
      | obj hn' hw' =>
        cases ha : Jschon.dlookup k as with
        | none => exact .inl ⟨rfl, (hk k).1 ha⟩
        | some v =>
          cases hb : Jschon.dlookup k bs with
          | none => rw [(hk k).2 hb] at ha; cases ha
          | some w =>
            exact .inr ⟨v, w, rfl, rfl, h k v w ha hb, hw _ (dlookup_mem ha), hw' _ (dlookup_mem hb)⟩

theorem Twins.member {v w : Value} (h : Twins dec v w) {n : String} {x : Value} (hx : (n, x) ∈ members v) :
    ∃ y, (n, y) ∈ members w ∧ Twins dec x y := by
  cases v with
  | obj as =>
    obtain ⟨bs, rfl, -, h⟩ := h.obj
    exact h n x hx
  | _ => cases hx

theorem Twins.hasMember {v w : Value} (h : Twins dec v w) {n : String} (hx : HasMember v n) : HasMember w n := by
  obtain ⟨x, hx⟩ := hx
  obtain ⟨y, hy, -⟩ := h.member hx
  exact ⟨y, hy⟩

theorem Twins.item {v w : Value} (h : Twins dec v w) {i : Nat} {x : Value} (hx : (elems v)[i]? = some x) :
    ∃ y, (elems w)[i]? = some y ∧ Twins dec x y := by
  cases v with
  | arr as =>
    obtain ⟨bs, rfl, -, h, -⟩ := h.arr
    exact h i x hx
  | _ => cases hx

theorem Twins.elems_length {v w : Value} (h : Twins dec v w) : (elems v).length = (elems w).length := by
  obtain ⟨h, -, -⟩ := h
  cases h with
  | arr hl => exact hl
  | _ => rfl

theorem Twins.elem {v w : Value} (h : Twins dec v w) {x : Value} (hx : x ∈ elems v) :
    ∃ y ∈ elems w, Twins dec x y := by
  obtain ⟨i, hi⟩ := List.getElem?_of_mem hx
  obtain ⟨y, hy, ht⟩ := h.item hi
  exact ⟨y, List.mem_of_getElem? hy, ht⟩

theorem Twins.isArr {v w : Value} (h : Twins dec v w) (ha : ∃ xs, v = .arr xs) : ∃ xs, w = .arr xs := by
  obtain ⟨xs, rfl⟩ := ha
  obtain ⟨ys, rfl, -⟩ := h.arr
  exact ⟨ys, rfl⟩

/-! ## Assertions -/

theorem hasType_twin {v w : Value} (h : Twins dec v w) {t : String} (ht : HasType v t) : HasType w t := by
  obtain ⟨h, -, -⟩ := h
  have none : v = .null → w = .null := by rintro rfl; cases h; rfl
  have bool : (∃ b, v = .bool b) → ∃ b, w = .bool b := by rintro ⟨b, rfl⟩; cases h; exact ⟨_, rfl⟩
  have num : (∃ b, v = .num b) → ∃ b, w = .num b := by rintro ⟨b, rfl⟩; cases h; exact ⟨_, rfl⟩
  have int : (∃ n, v = .num n ∧ ∃ z : Int, n.val = z) → ∃ n, w = .num n ∧ ∃ z : Int, n.val = z := by
    rintro ⟨b, rfl, z, hz⟩
    cases h with
    | num h => exact ⟨_, rfl, z, h ▸ hz⟩
  have str : (∃ b, v = .str b) → ∃ b, w = .str b := by rintro ⟨b, rfl⟩; cases h; exact ⟨_, rfl⟩
  have arr : (∃ b, v = .arr b) → ∃ b, w = .arr b := by rintro ⟨b, rfl⟩; cases h; exact ⟨_, rfl⟩
  have obj : (∃ b, v = .obj b) → ∃ b, w = .obj b := by rintro ⟨b, rfl⟩; cases h; exact ⟨_, rfl⟩
  revert ht
  unfold HasType
  split
  · exact none
  · exact bool
  · exact num
  · exact int
  · exact str
  · exact arr
  · exact obj
  · exact id

theorem strs_twin {ss : List String} {ys : List Value} (hl : (ss.map Value.str).length = ys.length)
    (h : ∀ (i : Nat) x, (ss.map Value.str)[i]? = some x → ∃ y, ys[i]? = some y ∧ Twins dec x y) :
    ys = ss.map .str := by
  refine List.ext_getElem? fun i => ?_
  cases hx : (ss.map Value.str)[i]? with
  | none =>
    rw [List.getElem?_eq_none_iff] at hx ⊢
    omega
  | some x =>
    obtain ⟨y, hy, ht⟩ := h i x hx
    rw [hy]
    rw [List.getElem?_map] at hx
    cases hs : ss[i]? with
    | none => rw [hs] at hx; cases hx
    | some s =>
      rw [hs] at hx
      cases hx
      rw [ht.str]

theorem arr_strs_twin {ss : List String} {w : Value} (h : Twins dec (.arr (ss.map Value.str)) w) :
    w = .arr (ss.map .str) := by
  obtain ⟨ys, rfl, hl, h, -⟩ := h.arr
  rw [strs_twin hl h]

variable {env : Env}

/-- An assertion written alike says the same of equal values. -/
theorem written_twin {k : String} {w w' : Value} {a' : Assertion} (hw : Twins env.dec w w') (h : WrittenAs k w' a')
    {v v' : Value} (hv : Twins env.dec v v') :
    ∃ a, WrittenAs k w a ∧ (AssertHolds env (ObsMultiple env.dec) a v → AssertHolds env (ObsMultiple env.dec) a' v') := by
  have sw := hw.symm
  have sv := hv.symm
  cases h
  case type t =>
    cases sw.str
    exact ⟨_, .type, fun ⟨t, h, h'⟩ => ⟨t, h, hasType_twin hv h'⟩⟩
  case types ts =>
    cases arr_strs_twin sw
    exact ⟨_, .types, fun ⟨t, h, h'⟩ => ⟨t, h, hasType_twin hv h'⟩⟩
  case enum vs =>
    obtain ⟨ys, rfl, hl, -, h⟩ := sw.arr
    refine ⟨_, .enum, fun ⟨x, hx, hs⟩ => ?_⟩
    obtain ⟨zs, e, -, -, h'⟩ := hw.arr
    cases e
    obtain ⟨y, hy, ht⟩ := h' x hx
    exact ⟨y, hy, same_trans hv.twin.symm.same (same_trans hs ht.twin.same)⟩
  case const =>
    exact ⟨_, .const, fun hs => same_trans hv.twin.symm.same (same_trans hs hw.twin.same)⟩
  case multipleOf m =>
    obtain ⟨n, rfl, e, e'⟩ := sw.num
    refine ⟨_, .multipleOf, fun h x hx => ?_⟩
    subst hx
    obtain ⟨y, rfl, f, f'⟩ := sv.num
    have := h y rfl
    unfold ObsMultiple IsMultiple at this ⊢
    rwa [e', f']
  case maximum m =>
    obtain ⟨n, rfl, e, e'⟩ := sw.num
    refine ⟨_, .maximum, fun h x hx => ?_⟩
    subst hx
    obtain ⟨y, rfl, f, f'⟩ := sv.num
    rw [e, f]; exact h y rfl
  case exclusiveMaximum m =>
    obtain ⟨n, rfl, e, e'⟩ := sw.num
    refine ⟨_, .exclusiveMaximum, fun h x hx => ?_⟩
    subst hx
    obtain ⟨y, rfl, f, f'⟩ := sv.num
    rw [e, f]; exact h y rfl
  case minimum m =>
    obtain ⟨n, rfl, e, e'⟩ := sw.num
    refine ⟨_, .minimum, fun h x hx => ?_⟩
    subst hx
    obtain ⟨y, rfl, f, f'⟩ := sv.num
    rw [e, f]; exact h y rfl
  case exclusiveMinimum m =>
    obtain ⟨n, rfl, e, e'⟩ := sw.num
    refine ⟨_, .exclusiveMinimum, fun h x hx => ?_⟩
    subst hx
    obtain ⟨y, rfl, f, f'⟩ := sv.num
    rw [e, f]; exact h y rfl
  case maxLength m =>
    obtain ⟨n, rfl, e, e'⟩ := sw.num
    refine ⟨_, .maxLength, fun h s hs => ?_⟩
    subst hs
    cases sv.str
    rw [e]; exact h s rfl
  case minLength m =>
    obtain ⟨n, rfl, e, e'⟩ := sw.num
    refine ⟨_, .minLength, fun h s hs => ?_⟩
    subst hs
    cases sv.str
    rw [e]; exact h s rfl
  case pattern re =>
    cases sw.str
    refine ⟨_, .pattern, fun h s hs => ?_⟩
    subst hs
    cases sv.str
    exact h s rfl
  case maxItems m =>
    obtain ⟨n, rfl, e, e'⟩ := sw.num
    refine ⟨_, .maxItems, fun h xs hs => ?_⟩
    subst hs
    obtain ⟨ys, rfl, hl, -⟩ := sv.arr
    rw [e, hl]; exact h ys rfl
  case minItems m =>
    obtain ⟨n, rfl, e, e'⟩ := sw.num
    refine ⟨_, .minItems, fun h xs hs => ?_⟩
    subst hs
    obtain ⟨ys, rfl, hl, -⟩ := sv.arr
    rw [e, hl]; exact h ys rfl
  case uniqueItems b =>
    cases sw.bool
    refine ⟨_, .uniqueItems, fun h hb xs hs i j x y hij hx hy hs' => ?_⟩
    subst hs
    obtain ⟨ys, rfl, hl, h1, -⟩ := sv.arr
    obtain ⟨x', hx', hxx⟩ := h1 i x hx
    obtain ⟨y', hy', hyy⟩ := h1 j y hy
    exact h hb ys rfl i j x' y' hij hx' hy' (same_trans hxx.twin.symm.same (same_trans hs' hyy.twin.same))
  case maxProperties m =>
    obtain ⟨n, rfl, e, e'⟩ := sw.num
    refine ⟨_, .maxProperties, fun h xs hs => ?_⟩
    subst hs
    obtain ⟨ys, rfl, hl, -⟩ := sv.obj
    rw [e, hl]; exact h ys rfl
  case minProperties m =>
    obtain ⟨n, rfl, e, e'⟩ := sw.num
    refine ⟨_, .minProperties, fun h xs hs => ?_⟩
    subst hs
    obtain ⟨ys, rfl, hl, -⟩ := sv.obj
    rw [e, hl]; exact h ys rfl
  case required ns =>
    cases arr_strs_twin sw
    refine ⟨_, .required, fun h xs hs n hn => ?_⟩
    subst hs
    obtain ⟨ys, rfl, hl, -⟩ := sv.obj
    exact hv.hasMember (h ys rfl n hn)
  case dependentRequired ps =>
    obtain ⟨bs, rfl, hl, h1⟩ := sw.obj
    obtain ⟨cs, e, -, h2⟩ := hw.obj
    cases e
    have : ∃ qs : List (String × List String), bs = qs.map fun p => (p.1, Value.arr (p.2.map .str)) := by
      have : ∀ l : List (String × Value), (∀ kv ∈ l, ∃ ss : List String, kv.2 = .arr (ss.map .str)) →
          ∃ qs : List (String × List String), l = qs.map fun p => (p.1, Value.arr (p.2.map .str)) := by
        intro l
        induction l with
        | nil => intro _; exact ⟨[], rfl⟩
        | cons kv l ih =>
          intro hl
          obtain ⟨qs, rfl⟩ := ih fun kv h => hl kv (List.mem_cons_of_mem _ h)
          obtain ⟨ss, hs⟩ := hl kv (.head _)
          exact ⟨(kv.1, ss) :: qs, by simp [← hs]⟩
      refine this bs fun kv hkv => ?_
      obtain ⟨u, hu, ht⟩ := h2 kv.1 kv.2 hkv
      obtain ⟨p, -, hp⟩ := List.mem_map.1 hu
      rw [← (Prod.mk.inj hp).2] at ht
      exact ⟨p.2, arr_strs_twin ht.symm⟩
    obtain ⟨qs, rfl⟩ := this
    refine ⟨_, .dependentRequired, fun h xs hs p hp hm n hn => ?_⟩
    subst hs
    obtain ⟨ys, rfl, -, -⟩ := sv.obj
    obtain ⟨u, hu, ht⟩ := h1 p.1 _ (List.mem_map.2 ⟨p, hp, rfl⟩)
    obtain ⟨q, hq, e⟩ := List.mem_map.1 hu
    obtain ⟨e1, e2⟩ := Prod.mk.inj e
    have := e2.trans (arr_strs_twin ht)
    have e2 : q.2 = p.2 := by
      have := (Value.arr.inj this)
      exact List.map_inj_right (fun _ _ h => Value.str.inj h) |>.1 this
    refine hv.hasMember (h ys rfl q hq ?_ n (e2 ▸ hn))
    rw [e1]
    exact sv.hasMember hm

end Jschon
