import Verif.Proof.JsonParse
import Verif.Proof.RelPointer
import Verif.Proof.JsonHeap

/-!
# What is written is JSON text
-/

namespace Jschon
open Spec

variable {lib : FloatLib}

/-! ## Values as Python values -/

mutual
/-- A value as `json.loads` makes it. -/
def ofValue : Value → Loaded
  | .null => .null
  | .bool b => .bool b
  | .num (.int z) => .int z
  | .num (.flt q) => .flt q
  | .str s => .str (points s)
  | .arr xs => .arr (ofValues xs)
  | .obj kvs => .obj (ofMembers kvs)
/-- Items. -/
def ofValues : List Value → List Loaded
  | [] => []
  | x :: xs => ofValue x :: ofValues xs
/-- Members. -/
def ofMembers : List (String × Value) → List (List Nat × Loaded)
  | [] => []
  | (k, x) :: kvs => (points k, ofValue x) :: ofMembers kvs
end

theorem ofValues_map (xs : List Value) : ofValues xs = xs.map ofValue := by
  induction xs with
  | nil => rfl
  | cons x xs ih => simp [ofValues, ih]

theorem ofMembers_map (kvs : List (String × Value)) :
    ofMembers kvs = kvs.map (fun kv => (points kv.1, ofValue kv.2)) := by
  induction kvs with
  | nil => rfl
  | cons x xs ih => simp [ofMembers, ih]

theorem points_inj {s t : String} (h : points s = points t) : s = t := by
  unfold points at h
  have : s.toList = t.toList := by
    generalize s.toList = a at h
    generalize t.toList = b at h
    induction a generalizing b with
    | nil => cases b with
      | nil => rfl
      | cons => simp at h
    | cons c a ih => cases b with
      | nil => simp at h
      | cons d b =>
        simp only [List.map_cons, List.cons.injEq] at h
        rw [char_of_nat h.1, ih b h.2]
  exact String.toList_inj.1 this

mutual
theorem is_ofValue : ∀ v, Is (ofValue v) v
  | .null => .null
  | .bool _ => .bool
  | .num (.int _) => .int
  | .num (.flt _) => .flt
  | .str _ => .str
  | .arr xs => by
    rw [ofValue, ofValues_map]
    refine .arr (by simp) (fun i x v hx hv => ?_)
    rw [List.getElem?_map, hv] at hx
    cases hx
    exact is_ofValues xs v (List.mem_of_getElem? hv)
  | .obj kvs => by
    rw [ofValue, ofMembers_map]
    refine .obj (by simp) (fun i k x l v hx hv => ?_) (fun i k x l v hx hv => ?_)
    · rw [List.getElem?_map, hv] at hx
      cases hx; rfl
    · rw [List.getElem?_map, hv] at hx
      cases hx
      exact is_ofMembers kvs (l, v) (List.mem_of_getElem? hv)
theorem is_ofValues : ∀ xs : List Value, ∀ v ∈ xs, Is (ofValue v) v
  | x :: xs, v, h => by
    rcases List.mem_cons.1 h with e | h
    · exact e ▸ is_ofValue x
    · exact is_ofValues xs v h
theorem is_ofMembers : ∀ kvs : List (String × Value), ∀ kv ∈ kvs, Is (ofValue kv.2) kv.2
  | (k, x) :: kvs, kv, h => by
    rcases List.mem_cons.1 h with rfl | h
    · exact is_ofValue x
    · exact is_ofMembers kvs kv h
end

theorem is_eq {x : Loaded} {v : Value} (h : Is x v) : x = ofValue v := by
  induction h with
  | null | bool | int | flt | str => rfl
  | @arr xs vs hl _ ih =>
    rw [ofValue, ofValues_map]
    congr 1
    apply List.ext_getElem (by simp [hl])
    intro i h1 h2
    have hv : i < vs.length := by omega
    rw [List.getElem_map]
    exact ih i _ _ (List.getElem?_eq_getElem h1) (List.getElem?_eq_getElem hv)
  | @obj ms kvs hl hk _ ih =>
    rw [ofValue, ofMembers_map]
    congr 1
    apply List.ext_getElem (by simp [hl])
    intro i h1 h2
    have hv : i < kvs.length := by omega
    rw [List.getElem_map]
    have a := hk i ms[i].1 ms[i].2 kvs[i].1 kvs[i].2 (List.getElem?_eq_getElem h1) (List.getElem?_eq_getElem hv)
    have b := ih i ms[i].1 ms[i].2 kvs[i].1 kvs[i].2 (List.getElem?_eq_getElem h1) (List.getElem?_eq_getElem hv)
    rw [← a, ← b]

theorem is_iff {x : Loaded} {v : Value} : Is x v ↔ x = ofValue v :=
  ⟨is_eq, fun h => h ▸ is_ofValue v⟩

theorem pointChar_toNat (c : Char) : pointChar c.toNat = some c := by
  have : c.toNat.isValidChar := c.valid
  unfold pointChar
  rw [dif_pos this]
  rfl

theorem pointChar_inv {n : Nat} {c : Char} (h : pointChar n = some c) : n = c.toNat := by
  unfold pointChar at h
  split at h
  · rename_i hv
    cases h
    show n = (UInt32.ofNatLT n _).toNat
    rw [UInt32.toNat_ofNatLT]
  · cases h

theorem pointsStr_points (s : String) : pointsStr (points s) = some s := by
  have : ∀ cs : List Char, (cs.map Char.toNat).mapM pointChar = some cs := by
    intro cs
    induction cs with
    | nil => rfl
    | cons c cs ih => simp [List.mapM_cons, pointChar_toNat, ih]
  simp [pointsStr, points, this]

theorem pointsStr_inv {cs : List Nat} {s : String} (h : pointsStr cs = some s) : cs = points s := by
  simp only [pointsStr, Option.map_eq_some_iff] at h
  obtain ⟨l, hl, rfl⟩ := h
  rw [points, String.toList_ofList]
  induction cs generalizing l with
  | nil => simp at hl; subst hl; rfl
  | cons n cs ih =>
    simp only [List.mapM_cons, Option.pure_def, Option.bind_eq_bind, Option.bind_eq_some_iff, Option.some.injEq] at hl
    obtain ⟨c, hc, l', hl', rfl⟩ := hl
    rw [ih l' hl', pointChar_inv hc]
    rfl

mutual
theorem value_ofValue : ∀ v, (ofValue v).value = some v
  | .null => rfl
  | .bool _ => rfl
  | .num (.int _) => rfl
  | .num (.flt _) => rfl
  | .str s => by simp [ofValue, Loaded.value, pointsStr_points]
  | .arr xs => by simp [ofValue, Loaded.value, values_ofValues xs]
  | .obj kvs => by simp [ofValue, Loaded.value, members_ofMembers kvs]
theorem values_ofValues : ∀ xs, Loaded.values (ofValues xs) = some xs
  | [] => rfl
  | x :: xs => by simp [ofValues, Loaded.values, value_ofValue x, values_ofValues xs]
theorem members_ofMembers : ∀ kvs, Loaded.members (ofMembers kvs) = some kvs
  | [] => rfl
  | (k, x) :: kvs => by
    simp [ofMembers, Loaded.members, value_ofValue x, members_ofMembers kvs, pointsStr_points]
end

mutual
theorem value_inv : ∀ {x : Loaded} {v : Value}, x.value = some v → x = ofValue v
  | .null, _, h => by cases h; rfl
  | .bool _, _, h => by cases h; rfl
  | .int _, _, h => by cases h; rfl
  | .flt _, _, h => by cases h; rfl
  | .inf _, _, h => by cases h
  | .str cs, _, h => by
    simp only [Loaded.value, Option.map_eq_some_iff] at h
    obtain ⟨s, hs, rfl⟩ := h
    rw [ofValue, pointsStr_inv hs]
  | .arr xs, _, h => by
    simp only [Loaded.value, Option.map_eq_some_iff] at h
    obtain ⟨vs, hs, rfl⟩ := h
    rw [ofValue, values_inv hs]
  | .obj kvs, _, h => by
    simp only [Loaded.value, Option.map_eq_some_iff] at h
    obtain ⟨vs, hs, rfl⟩ := h
    rw [ofValue, members_inv hs]
theorem values_inv : ∀ {xs : List Loaded} {vs : List Value}, Loaded.values xs = some vs → xs = ofValues vs
  | [], _, h => by cases h; rfl
  | x :: xs, _, h => by
    rw [Loaded.values] at h
    split at h
    · rename_i v vs' hv hvs
      cases h
      rw [ofValues, value_inv hv, values_inv hvs]
    · cases h
theorem members_inv : ∀ {ms : List (List Nat × Loaded)} {kvs : List (String × Value)},
    Loaded.members ms = some kvs → ms = ofMembers kvs
  | [], _, h => by cases h; rfl
  | (k, x) :: ms, _, h => by
    rw [Loaded.members] at h
    split at h
    · rename_i k' v vs' hk hv hvs
      cases h
      rw [ofMembers, pointsStr_inv hk, value_inv hv, members_inv hvs]
    · cases h
end

theorem value_iff {x : Loaded} {v : Value} : x.value = some v ↔ Is x v :=
  ⟨fun h => is_iff.2 (value_inv h), fun h => by rw [is_iff.1 h, value_ofValue]⟩

/-! ## Strings -/

theorem lowHex_hex : ∀ n : Fin 16, hexDigitVal (lowHex n.val) = some n.val := by decide

theorem escape_units (c : Char) {s : List Char} {us : List StrUnit} {ns : List Nat} (hu : Units s us)
    (hp : Points us ns) : ∃ vs, Units (escapeChar c ++ s) vs ∧ Points vs (c.toNat :: ns) := by
  unfold escapeChar
  split
  · rename_i h; subst h; exact ⟨_, .short .quote hu, .short hp⟩
  split
  · rename_i h; subst h; exact ⟨_, .short .backslash hu, .short hp⟩
  split
  · rename_i h; rw [h]; exact ⟨_, .short .b hu, .short hp⟩
  split
  · rename_i h; rw [h]; exact ⟨_, .short .f hu, .short hp⟩
  split
  · rename_i h; rw [h]; exact ⟨_, .short .n hu, .short hp⟩
  split
  · rename_i h; rw [h]; exact ⟨_, .short .r hu, .short hp⟩
  split
  · rename_i h; rw [h]; exact ⟨_, .short .t hu, .short hp⟩
  split
  · rename_i h
    have h1 := hex_of (lowHex_hex ⟨c.toNat / 16, by omega⟩)
    have h2 := hex_of (lowHex_hex ⟨c.toNat % 16, by omega⟩)
    have h4 := Hex4.mk (.dec .d0) (.dec .d0) h1 h2
    have e : 4096 * 0 + 256 * 0 + 16 * (c.toNat / 16) + c.toNat % 16 = c.toNat := by omega
    rw [e] at h4
    exact ⟨_, .unit h4 hu, .unit (fun ⟨h, _⟩ => by omega) hp⟩
  · rename_i hq hb _ _ _ _ _ hc
    exact ⟨_, .char hq hb (by omega) hu, .char hp⟩

theorem dumpStr_text (s : String) : StringText (dumpStr s) (points s) := by
  have : ∀ cs : List Char, ∃ us, Units (cs.flatMap escapeChar) us ∧ Points us (cs.map Char.toNat) := by
    intro cs
    induction cs with
    | nil => exact ⟨[], .nil, .nil⟩
    | cons c cs ih =>
      obtain ⟨us, hu, hp⟩ := ih
      rw [List.flatMap_cons]
      exact escape_units c hu hp
  obtain ⟨us, hu, hp⟩ := this s.toList
  exact .mk hu hp

/-! ## Numbers -/

theorem digitChar_digit : ∀ n : Fin 10, Digit n.val.digitChar n.val
  | 0 => .d0
  | 1 => .d1
  | 2 => .d2
  | 3 => .d3
  | 4 => .d4
  | 5 => .d5
  | 6 => .d6
  | 7 => .d7
  | 8 => .d8
  | 9 => .d9

theorem intPart_snoc {s : List Char} {ns : List Nat} {c : Char} {n : Nat} (h : IntPart s ns) (hn : whole ns ≠ 0)
    (hc : Digit c n) : IntPart (s ++ [c]) (ns ++ [n]) := by
  cases h with
  | zero => exact absurd rfl hn
  | pos hd h0 hs => exact .pos hd h0 (digits_append hs (.cons hc .nil))

theorem natStr_int (n : Nat) : ∃ ns, IntPart (natStr n).toList ns ∧ whole ns = n := by
  rw [natStr_toList]
  induction n using Nat.strongRecOn with
  | _ n ih =>
    by_cases hn : n < 10
    · rw [toDigits_small hn]
      have hd := digitChar_digit ⟨n, hn⟩
      by_cases h0 : n = 0
      · subst h0; exact ⟨[0], .zero, rfl⟩
      · exact ⟨[n], .pos hd h0 .nil, by simp [whole]⟩
    · rw [toDigits_step (by omega)]
      obtain ⟨ns, hs, hw⟩ := ih (n / 10) (by omega)
      have hd := digitChar_digit ⟨n % 10, by omega⟩
      refine ⟨ns ++ [n % 10], intPart_snoc hs (by omega) hd, ?_⟩
      rw [whole_append, hw]
      simp [whole]
      omega

theorem dumpNum_denoted (hl : FloatOk lib) {n : Num} (hn : Floats lib (.num n)) :
    Denoted lib (dumpNum lib n) (ofValue (.num n)) := by
  cases n with
  | int z =>
    obtain ⟨ns, hs, hw⟩ := natStr_int z.natAbs
    simp only [dumpNum, ofValue]
    split
    · have := IntText.mk .some hs
      rw [hw] at this
      have e : (-1 : Int) * (z.natAbs : Int) = z := by omega
      rw [e] at this
      exact .int this
    · have := IntText.mk .none hs
      rw [hw] at this
      have e : (1 : Int) * (z.natAbs : Int) = z := by omega
      rw [e] at this
      exact .int this
  | flt q =>
    cases hn with
    | flt h =>
      obtain ⟨d, hd, hr⟩ := hl.repr q h
      exact .flt hd hr

/-! ## Values -/

mutual
/-- The text of a value. -/
def dumpVal (lib : FloatLib) : Value → List Char
  | .null => "null".toList
  | .bool b => if b then "true".toList else "false".toList
  | .num n => dumpNum lib n
  | .str s => dumpStr s
  | .arr xs => '[' :: joinComma (dumpVals lib xs) ++ [']']
  | .obj kvs => '{' :: joinComma (dumpMems lib kvs) ++ ['}']
/-- Items. -/
def dumpVals (lib : FloatLib) : List Value → List (List Char)
  | [] => []
  | x :: xs => dumpVal lib x :: dumpVals lib xs
/-- Members. -/
def dumpMems (lib : FloatLib) : List (String × Value) → List (List Char)
  | [] => []
  | (k, x) :: kvs => (dumpStr k ++ ':' :: ' ' :: dumpVal lib x) :: dumpMems lib kvs
end

theorem dumpVals_map (xs : List Value) : dumpVals lib xs = xs.map (dumpVal lib) := by
  induction xs with
  | nil => rfl
  | cons x xs ih => simp [dumpVals, ih]

theorem dumpMems_map (kvs : List (String × Value)) :
    dumpMems lib kvs = kvs.map (fun kv => dumpStr kv.1 ++ ':' :: ' ' :: dumpVal lib kv.2) := by
  induction kvs with
  | nil => rfl
  | cons x xs ih => simp [dumpMems, ih]

theorem dumpF_val (f : Nat) (h : JHeap) (r : Ref) : dumpF lib f h r = dumpVal lib (content f h r) := by
  induction f generalizing r with
  | zero => rfl
  | succ f ih =>
    rw [dumpF, content]
    cases h.data r with
    | null | num | str => rfl
    | bool b => rfl
    | arr cs =>
      simp only [dumpData, dataVal, dumpVal, dumpVals_map, List.map_map]
      congr 3
      exact List.map_congr_left (fun c _ => ih c)
    | obj ms =>
      simp only [dumpData, dataVal, dumpVal, dumpMems_map, List.map_map]
      congr 3
      exact List.map_congr_left (fun m _ => by simp [ih])

theorem dumpsJson_val (h : JHeap) (r : Ref) : dumpsJson lib h r = dumpVal lib (val h r) := dumpF_val ..

theorem elements_join : ∀ (xs : List Value), xs ≠ [] → (∀ x ∈ xs, Denoted lib (dumpVal lib x) (ofValue x)) →
    Elements lib (joinComma (dumpVals lib xs)) (ofValues xs)
  | [x], _, h => by
    have := Elements.one .nil (h x (by simp)) .nil
    simpa [joinComma, dumpVals, ofValues] using this
  | x :: y :: xs, _, h => by
    have ih := elements_join (y :: xs) (by simp) (fun z hz => h z (by simp [List.mem_cons.1 hz]))
    have := Elements.more .nil (h x (by simp)) .nil (elements_ws ih (.space .nil))
    simpa [joinComma, dumpVals, ofValues] using this

theorem members_join : ∀ (kvs : List (String × Value)), kvs ≠ [] →
    (∀ kv ∈ kvs, Denoted lib (dumpVal lib kv.2) (ofValue kv.2)) →
    Members lib (joinComma (dumpMems lib kvs)) (ofMembers kvs)
  | [(k, x)], _, h => by
    have := Members.one .nil (dumpStr_text k) .nil (.space .nil) (h (k, x) (by simp)) .nil
    simpa [joinComma, dumpMems, ofMembers] using this
  | (k, x) :: y :: kvs, _, h => by
    have ih := members_join (y :: kvs) (by simp) (fun z hz => h z (by simp [List.mem_cons.1 hz]))
    have := Members.more .nil (dumpStr_text k) .nil (.space .nil) (h (k, x) (by simp)) .nil
      (members_ws ih (.space .nil))
    simpa [joinComma, dumpMems, ofMembers] using this

theorem nodup_map_inj {α β : Type} {f : α → β} (hf : ∀ a b, f a = f b → a = b) {l : List α} (h : l.Nodup) :
    (l.map f).Nodup := by
  induction l with
  | nil => exact .nil
  | cons a l ih =>
    simp only [List.map_cons, List.nodup_cons] at h ⊢
    refine ⟨fun hm => ?_, ih h.2⟩
    obtain ⟨b, hb, e⟩ := List.mem_map.1 hm
    exact h.1 (hf _ _ e ▸ hb)

theorem merged_nodup {ms : List (List Nat × Loaded)} (h : (ms.map Prod.fst).Nodup) : Merged ms ms := by
  induction ms with
  | nil => exact .nil
  | cons m ms ih =>
    obtain ⟨k, v⟩ := m
    simp only [List.map_cons, List.nodup_cons] at h
    refine .cons ⟨[], ms, rfl, fun w hw => h.1 (List.mem_map.2 ⟨_, hw, rfl⟩)⟩ ?_
    rw [List.filter_eq_self.2]
    · exact ih h.2
    · intro m hm
      simp only [ne_eq, decide_eq_true_eq]
      rintro rfl
      exact h.1 (List.mem_map.2 ⟨_, hm, rfl⟩)

theorem dumpVal_denoted (hl : FloatOk lib) {v : Value} (hv : v.WF) (hf : Floats lib v) :
    Denoted lib (dumpVal lib v) (ofValue v) := by
  induction hv with
  | null => exact .null
  | @bool b => cases b <;> simp only [dumpVal, ofValue] <;> first | exact .true | exact .false
  | num => exact dumpNum_denoted hl hf
  | str => exact .str (dumpStr_text _)
  | @arr xs _ ih =>
    cases hf with
    | arr hf =>
      rw [dumpVal, ofValue]
      by_cases hx : xs = []
      · subst hx; exact .arr0 .nil
      · exact .arr (elements_join xs hx (fun x hm => ih x hm (hf x hm)))
  | @obj kvs hk _ ih =>
    cases hf with
    | obj hf =>
      rw [dumpVal, ofValue]
      by_cases hx : kvs = []
      · subst hx; exact .obj0 .nil
      · refine .obj (members_join kvs hx (fun x hm => ih x hm (hf x hm))) (merged_nodup ?_)
        rw [ofMembers_map, List.map_map]
        have : (Prod.fst ∘ fun kv : String × Value => (points kv.1, ofValue kv.2)) = points ∘ Prod.fst := rfl
        rw [this, ← List.map_map]
        exact nodup_map_inj (fun _ _ h => points_inj h) hk

end Jschon

namespace Jschon
open Spec

variable {lib : FloatLib}

/-! ## What reading makes is a value -/

/-- Distinct names, and floats. -/
inductive Proper (lib : FloatLib) : Loaded → Prop
  | null : Proper lib .null
  | bool {b} : Proper lib (.bool b)
  | int {z} : Proper lib (.int z)
  | flt {q} : lib.round q = some q → Proper lib (.flt q)
  | inf {b} : Proper lib (.inf b)
  | str {cs} : Proper lib (.str cs)
  | arr {xs} : (∀ x ∈ xs, Proper lib x) → Proper lib (.arr xs)
  | obj {ms : List (List Nat × Loaded)} : (ms.map Prod.fst).Nodup → (∀ m ∈ ms, Proper lib m.2) → Proper lib (.obj ms)

theorem merged_sub {ms d : List (List Nat × Loaded)} (h : Merged ms d) : ∀ m ∈ d, m ∈ ms := by
  induction h with
  | nil => simp
  | cons hl _ ih =>
    intro m hm
    rcases List.mem_cons.1 hm with rfl | hm
    · obtain ⟨pre, post, e, _⟩ := hl
      rw [e]; simp
    · exact List.mem_cons_of_mem _ (List.mem_filter.1 (ih m hm)).1

theorem merged_keys {ms d : List (List Nat × Loaded)} (h : Merged ms d) : (d.map Prod.fst).Nodup := by
  induction h with
  | nil => exact .nil
  | cons _ hd ih =>
    simp only [List.map_cons, List.nodup_cons]
    refine ⟨fun hm => ?_, ih⟩
    obtain ⟨m, hm, e⟩ := List.mem_map.1 hm
    have := (List.mem_filter.1 (merged_sub hd m hm)).2
    simp [e] at this

mutual
theorem denoted_proper (hl : FloatOk lib) : ∀ {s : List Char} {x : Loaded}, Denoted lib s x → Proper lib x
  | _, _, .null => .null
  | _, _, .true => .bool
  | _, _, .false => .bool
  | _, _, .int _ => .int
  | _, _, .flt _ h => .flt (hl.round _ _ h)
  | _, _, .inf _ _ => .inf
  | _, _, .str _ => .str
  | _, _, .arr0 _ => .arr (by simp)
  | _, _, .arr h => .arr (elements_proper hl h)
  | _, _, .obj0 _ => .obj .nil (by simp)
  | _, _, .obj h hm => .obj (merged_keys hm) (fun m hd => members_proper hl h m (merged_sub hm m hd))
theorem elements_proper (hl : FloatOk lib) : ∀ {s : List Char} {xs : List Loaded}, Elements lib s xs →
    ∀ x ∈ xs, Proper lib x
  | _, _, .one _ h _ => fun x hx => by
    rw [List.mem_singleton.1 hx]; exact denoted_proper hl h
  | _, _, .more _ h _ t => fun x hx => by
    rcases List.mem_cons.1 hx with e | hx
    · rw [e]; exact denoted_proper hl h
    · exact elements_proper hl t x hx
theorem members_proper (hl : FloatOk lib) : ∀ {s : List Char} {ms : List (List Nat × Loaded)}, Members lib s ms →
    ∀ m ∈ ms, Proper lib m.2
  | _, _, .one _ _ _ _ h _ => fun x hx => by
    rw [List.mem_singleton.1 hx]; exact denoted_proper hl h
  | _, _, .more _ _ _ _ h _ t => fun x hx => by
    rcases List.mem_cons.1 hx with e | hx
    · rw [e]; exact denoted_proper hl h
    · exact members_proper hl t x hx
end

theorem nodup_of_map {α β : Type} {f : α → β} {l : List α} (h : (l.map f).Nodup) : l.Nodup := by
  induction l with
  | nil => exact .nil
  | cons a l ih =>
    simp only [List.map_cons, List.nodup_cons] at h ⊢
    exact ⟨fun hm => h.1 (List.mem_map.2 ⟨a, hm, rfl⟩), ih h.2⟩

mutual
theorem proper_value : ∀ (v : Value), Proper lib (ofValue v) → v.WF ∧ Floats lib v
  | .null, _ => ⟨.null, .null⟩
  | .bool _, _ => ⟨.bool, .bool⟩
  | .num (.int _), _ => ⟨.num, .int⟩
  | .num (.flt _), h => ⟨.num, by rw [ofValue] at h; cases h with | flt h => exact .flt h⟩
  | .str _, _ => ⟨.str, .str⟩
  | .arr xs, h => by
    rw [ofValue] at h
    cases h with
    | arr h =>
      exact ⟨.arr (fun x hx => (proper_values xs h x hx).1), .arr (fun x hx => (proper_values xs h x hx).2)⟩
  | .obj kvs, h => by
    rw [ofValue] at h
    cases h with
    | obj hk h =>
      refine ⟨.obj ?_ (fun x hx => (proper_mems kvs h x hx).1), .obj (fun x hx => (proper_mems kvs h x hx).2)⟩
      rw [ofMembers_map, List.map_map] at hk
      have : (Prod.fst ∘ fun kv : String × Value => (points kv.1, ofValue kv.2)) = points ∘ Prod.fst := rfl
      rw [this, ← List.map_map] at hk
      exact nodup_of_map hk
theorem proper_values : ∀ (xs : List Value), (∀ x ∈ ofValues xs, Proper lib x) → ∀ x ∈ xs, x.WF ∧ Floats lib x
  | y :: xs, h, x, hx => by
    rw [ofValues] at h
    rcases List.mem_cons.1 hx with e | hx
    · rw [e]; exact proper_value y (h _ (by simp))
    · exact proper_values xs (fun z hz => h z (List.mem_cons_of_mem _ hz)) x hx
theorem proper_mems : ∀ (kvs : List (String × Value)), (∀ m ∈ ofMembers kvs, Proper lib m.2) →
    ∀ kv ∈ kvs, kv.2.WF ∧ Floats lib kv.2
  | (k, y) :: kvs, h, x, hx => by
    rw [ofMembers] at h
    rcases List.mem_cons.1 hx with e | hx
    · rw [e]; exact proper_value y (h (points k, ofValue y) (by simp))
    · exact proper_mems kvs (fun z hz => h z (List.mem_cons_of_mem _ hz)) x hx
end

/-! ## Errors of the scanner -/

theorem scanString_error {s : List Char} {e : Exc} (h : scanString s = .error e) : e = .valueError := by
  unfold scanString at h
  split at h
  · cases h
  · cases h; rfl

theorem scanNumber_error {s : List Char} {e : Exc} (h : scanNumber lib s = .error e) : e = .valueError := by
  have key : ∀ {neg : Bool} {s : List Char}, scanUnsigned lib neg s = .error e → e = .valueError := by
    intro neg s h
    cases s with
    | nil => cases h; rfl
    | cons c r =>
      rw [scanUnsigned] at h
      split at h
      · cases h
      · split at h
        · cases h
        · cases h; rfl
  unfold scanNumber at h
  split at h
  · exact key h
  · exact key h

/-- The scanner raises nothing but `ValueError`. -/
def ScanErr (lib : FloatLib) (f : Nat) : Prop :=
  (∀ s e, scanOnce lib f s = .error e → e = .valueError) ∧
  (∀ s e, scanItems lib f s = .error e → e = .valueError) ∧
  (∀ d s e, scanMembers lib f d s = .error e → e = .valueError)

theorem scan_error (lib : FloatLib) : ∀ f, ScanErr lib f
  | 0 => ⟨(fun s e h => by rw [scanOnce] at h; cases h; rfl), (fun s e h => by rw [scanItems] at h; cases h; rfl),
      (fun d s e h => by rw [scanMembers] at h; cases h; rfl)⟩
  | f + 1 => by
    obtain ⟨ih1, ih2, ih3⟩ := scan_error lib f
    refine ⟨fun s e h => ?_, fun s e h => ?_, fun d s e h => ?_⟩
    · unfold scanOnce at h
      split at h
      · split at h
        · cases h
        · rename_i e'; cases h; exact scanString_error (by assumption)
      · split at h
        · cases h
        · exact ih3 _ _ _ h
      · split at h
        · cases h
        · exact ih2 _ _ h
      · cases h
      · cases h
      · cases h
      · cases h; rfl
      · cases h; rfl
      · cases h; rfl
      · exact scanNumber_error h
    · rw [scanItems] at h
      split at h
      · cases h; exact ih1 _ _ (by assumption)
      · split at h
        · cases h
        · split at h
          · cases h
          · cases h; rfl
          · cases h; exact ih2 _ _ (by assumption)
        · cases h; rfl
    · unfold scanMembers at h
      split at h
      · split at h
        · cases h; exact scanString_error (by assumption)
        · split at h
          · split at h
            · cases h; exact ih1 _ _ (by assumption)
            · split at h
              · cases h
              · exact ih3 _ _ _ h
              · cases h; rfl
          · cases h; rfl
      · cases h; rfl

theorem jsonLoads_error {s : List Char} {e : Exc} (h : jsonLoads lib s = .error e) : e = .valueError := by
  unfold jsonLoads at h
  split at h
  · cases h; rfl
  · split at h
    · cases h; exact (scan_error lib _).1 _ _ (by assumption)
    · split at h
      · cases h
      · cases h; rfl

end Jschon
