import Verif.Spec.JsonWritten
import Verif.Proof.JsonDump

/-!
# Lemmas on the text that `dumps` gives
-/

namespace Jschon
open Spec

variable {lib : FloatLib}

theorem control_written : ∀ n : Fin 32, ['0', '1'][n.val / 16]? = some (lowHex (n.val / 16)) ∧
    "0123456789abcdef".toList[n.val % 16]? = some (lowHex (n.val % 16)) := by decide

theorem escape_written (c : Char) : WrittenChar c (escapeChar c) := by
  have num : ∀ d : Char, c.toNat = d.toNat → c = d := fun d h => Char.toNat_inj.1 h
  unfold escapeChar
  split
  · rename_i h; subst h; exact .short (by decide)
  split
  · rename_i h; subst h; exact .short (by decide)
  split
  · rename_i h; rw [num '\x08' h]; exact .short (by decide)
  split
  · rename_i h; rw [num '\x0c' h]; exact .short (by decide)
  split
  · rename_i h; rw [num '\n' h]; exact .short (by decide)
  split
  · rename_i h; rw [num '\r' h]; exact .short (by decide)
  split
  · rename_i h; rw [num '\t' h]; exact .short (by decide)
  rename_i h1 h2 h3 h4 h5 h6 h7
  have hno : c ∉ shortEscapes.map Prod.fst := by
    intro h
    simp only [shortEscapes, List.map_cons, List.map_nil, List.mem_cons, List.not_mem_nil, or_false] at h
    rcases h with rfl | rfl | rfl | rfl | rfl | rfl | rfl
    · exact h1 rfl
    · exact h2 rfl
    · exact h3 rfl
    · exact h4 rfl
    · exact h5 rfl
    · exact h6 rfl
    · exact h7 rfl
  split
  · have := control_written ⟨c.toNat, by omega⟩
    exact .control hno (by omega) this.1 this.2
  · exact .plain hno (by omega)

theorem writtenChar_unique {c : Char} {s t : List Char} (h : WrittenChar c s) (h' : WrittenChar c t) : s = t := by
  have inj : ∀ p ∈ shortEscapes, ∀ q ∈ shortEscapes, p.1 = q.1 → p.2 = q.2 := by decide
  cases h with
  | short a =>
    cases h' with
    | short b => exact congrArg (['\\', ·]) (inj _ a _ b rfl)
    | control b => exact absurd (List.mem_map_of_mem (f := Prod.fst) a) b
    | plain b => exact absurd (List.mem_map_of_mem (f := Prod.fst) a) b
  | control a b c d =>
    cases h' with
    | short b => exact absurd (List.mem_map_of_mem (f := Prod.fst) b) a
    | control a' b' c' d' => rw [c] at c'; rw [d] at d'; cases c'; cases d'; rfl
    | plain _ b' => omega
  | plain a b =>
    cases h' with
    | short b => exact absurd (List.mem_map_of_mem (f := Prod.fst) b) a
    | control _ b' => omega
    | plain => rfl

theorem writtenChars_iff : ∀ {cs t : List Char}, WrittenChars cs t ↔ t = cs.flatMap escapeChar
  | [], t => ⟨fun h => by cases h; rfl, fun h => by rw [h]; exact .nil⟩
  | c :: cs, t => by
    rw [List.flatMap_cons]
    constructor
    · intro h
      cases h with
      | cons a b => rw [writtenChar_unique a (escape_written c), writtenChars_iff.1 b]
    · rintro rfl
      exact .cons (escape_written c) (writtenChars_iff.2 rfl)

theorem writtenStr_iff {s : String} {t : List Char} : WrittenStr s t ↔ t = dumpStr s := by
  unfold WrittenStr dumpStr
  constructor
  · rintro ⟨u, h, rfl⟩; rw [writtenChars_iff.1 h]
  · intro h; exact ⟨_, writtenChars_iff.2 rfl, h⟩

theorem separated_iff : ∀ {ts : List (List Char)} {t : List Char}, Separated ts t ↔ t = joinComma ts
  | [], t => ⟨fun h => by cases h; rfl, fun h => by rw [h]; exact .none⟩
  | [s], t => ⟨fun h => by cases h; rfl, fun h => by rw [h]; exact .one⟩
  | s :: r :: rs, t => by
    constructor
    · intro h
      cases h with
      | more h => rw [separated_iff.1 h]; simp [joinComma]
    · rintro rfl
      have := Separated.more (s := s) (separated_iff.2 (rfl : joinComma (r :: rs) = _))
      simpa [joinComma] using this

mutual
theorem written_dump : ∀ v : Value, Written lib v (dumpVal lib v)
  | .null => .null
  | .bool true => .true
  | .bool false => .false
  | .num (.int z) => by
    simp only [dumpVal, dumpNum]
    split
    · have : z = -(z.natAbs : Int) := by omega
      have h := Written.neg (lib := lib) (n := z.natAbs) (by omega)
      rw [← this] at h
      exact h
    · have : z = (z.natAbs : Int) := by omega
      have h := Written.nat (lib := lib) (n := z.natAbs)
      rw [← this] at h
      exact h
  | .num (.flt q) => .flt
  | .str s => .str (writtenStr_iff.2 rfl)
  | .arr xs => .arr (written_dumps xs) (separated_iff.2 rfl)
  | .obj kvs => .obj (written_members kvs) (separated_iff.2 rfl)
theorem written_dumps : ∀ xs : List Value, WrittenItems lib xs (dumpVals lib xs)
  | [] => .nil
  | x :: xs => .cons (written_dump x) (written_dumps xs)
theorem written_members : ∀ kvs : List (String × Value), WrittenMembers lib kvs (dumpMems lib kvs)
  | [] => .nil
  | (k, x) :: kvs => by
    have := WrittenMembers.cons (writtenStr_iff.2 rfl : WrittenStr k (dumpStr k)) (written_dump x)
      (written_members kvs)
    simpa [dumpMems] using this
end

mutual
theorem written_only : ∀ (v : Value) (t : List Char), Written lib v t → t = dumpVal lib v
  | .null, _, h => by cases h; rfl
  | .bool _, _, h => by cases h <;> rfl
  | .num (.int z), t, h => by
    cases h with
    | nat => simp only [dumpVal, dumpNum]; rw [if_neg (by omega)]; simp
    | neg hn => simp only [dumpVal, dumpNum]; rw [if_pos (by omega)]; simp
  | .num (.flt q), _, h => by cases h; rfl
  | .str s, _, h => by cases h with | str h => exact writtenStr_iff.1 h
  | .arr xs, _, h => by
    cases h with
    | arr a b => rw [separated_iff.1 b, written_onlys xs _ a]; rfl
  | .obj kvs, _, h => by
    cases h with
    | obj a b => rw [separated_iff.1 b, written_onlym kvs _ a]; rfl
theorem written_onlys : ∀ (xs : List Value) (ts : List (List Char)), WrittenItems lib xs ts → ts = dumpVals lib xs
  | [], _, h => by cases h; rfl
  | x :: xs, _, h => by
    cases h with
    | cons a b => rw [written_only x _ a, written_onlys xs _ b]; rfl
theorem written_onlym : ∀ (kvs : List (String × Value)) (ts : List (List Char)), WrittenMembers lib kvs ts →
    ts = dumpMems lib kvs
  | [], _, h => by cases h; rfl
  | (k, x) :: kvs, _, h => by
    cases h with
    | cons a b c => rw [writtenStr_iff.1 a, written_only x _ b, written_onlym kvs _ c]; simp [dumpMems]
end

/-! ## One line -/

/-- No control character. -/
def Printable (t : List Char) : Prop := ∀ c ∈ t, 32 ≤ c.toNat

theorem Printable.append {s t : List Char} (hs : Printable s) (ht : Printable t) : Printable (s ++ t) := fun c hc =>
  (List.mem_append.1 hc).elim (hs c) (ht c)

theorem Printable.cons {c : Char} {t : List Char} (hc : 32 ≤ c.toNat) (ht : Printable t) : Printable (c :: t) :=
  fun d hd => (List.mem_cons.1 hd).elim (fun e => e ▸ hc) (ht d)

theorem Printable.nil : Printable [] := fun _ h => by cases h

theorem digits_printable {s : List Char} {ns : List Nat} (h : Digits s ns) : Printable s := by
  induction h with
  | nil => exact .nil
  | cons hd _ ih => exact .cons (by cases hd <;> decide) ih

theorem intPart_printable {s : List Char} {ns : List Nat} (h : IntPart s ns) : Printable s := by
  cases h with
  | zero => exact .cons (by decide) .nil
  | pos hd _ h => exact .cons (by cases hd <;> decide) (digits_printable h)

theorem decText_printable {s : List Char} {q : Rat} (h : DecText s q) : Printable s := by
  cases h with
  | mk hm hi hf he =>
    refine .append (.append (.append ?_ (intPart_printable hi)) ?_) ?_
    · cases hm
      · exact .nil
      · exact .cons (by decide) .nil
    · cases hf with
      | none => exact .nil
      | some h => exact .cons (by decide) (digits_printable h)
    · have e : ∀ {c : Char}, c = 'e' ∨ c = 'E' → 32 ≤ c.toNat := by rintro c (rfl | rfl) <;> decide
      cases he with
      | none => exact .nil
      | plain hc h => exact .cons (e hc) (digits_printable h)
      | plus hc h => exact .cons (e hc) (.cons (by decide) (digits_printable h))
      | minus hc h => exact .cons (e hc) (.cons (by decide) (digits_printable h))

theorem dumpStr_printable (s : String) : Printable (dumpStr s) := by
  have hex : ∀ n : Fin 16, 32 ≤ (lowHex n.val).toNat := by decide
  have esc : ∀ c, Printable (escapeChar c) := fun c => by
    unfold escapeChar
    repeat' split
    all_goals first
      | exact .cons (by decide) (.cons (by decide) .nil)
      | skip
    · exact .cons (by decide) (.cons (by decide) (.cons (by decide) (.cons (by decide)
        (.cons (hex ⟨c.toNat / 16, by omega⟩) (.cons (hex ⟨c.toNat % 16, by omega⟩) .nil)))))
    · exact .cons (by omega) .nil
  refine .append (.cons (by decide) fun c hc => ?_) (.cons (by decide) .nil)
  obtain ⟨d, -, hd⟩ := List.mem_flatMap.1 hc
  exact esc d c hd

theorem joinComma_printable : ∀ {ts : List (List Char)}, (∀ t ∈ ts, Printable t) → Printable (joinComma ts)
  | [], _ => .nil
  | [s], h => h s (by simp)
  | s :: r :: rs, h => by
    have ih := joinComma_printable (ts := r :: rs) fun t ht => h t (List.mem_cons_of_mem _ ht)
    exact .append (h s (by simp)) (.cons (by decide) (.cons (by decide) ih))

theorem dumpVal_printable (hl : FloatOk lib) {v : Value} (hf : Floats lib v) : Printable (dumpVal lib v) := by
  induction hf with
  | null => exact (by decide : ∀ c ∈ "null".toList, 32 ≤ c.toNat)
  | @bool b =>
    cases b
    · exact (by decide : ∀ c ∈ "false".toList, 32 ≤ c.toNat)
    · exact (by decide : ∀ c ∈ "true".toList, 32 ≤ c.toNat)
  | @int z =>
    obtain ⟨ns, hs, -⟩ := natStr_int z.natAbs
    simp only [dumpVal, dumpNum]
    split
    · exact .cons (by decide) (intPart_printable hs)
    · exact intPart_printable hs
  | flt hq =>
    obtain ⟨d, hd, -⟩ := hl.repr _ hq
    exact decText_printable hd
  | str => exact dumpStr_printable _
  | @arr xs _ ih =>
    simp only [dumpVal, dumpVals_map]
    refine .append (.cons (by decide) (joinComma_printable fun t ht => ?_)) (.cons (by decide) .nil)
    obtain ⟨x, hx, rfl⟩ := List.mem_map.1 ht
    exact ih x hx
  | @obj kvs _ ih =>
    simp only [dumpVal, dumpMems_map]
    refine .append (.cons (by decide) (joinComma_printable fun t ht => ?_)) (.cons (by decide) .nil)
    obtain ⟨x, hx, rfl⟩ := List.mem_map.1 ht
    exact .append (dumpStr_printable _) (.cons (by decide) (.cons (by decide) (ih x hx)))

end Jschon
