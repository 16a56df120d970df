import Verif.Proof.JsonDump
import Verif.Props.JsonHeap

/-!
# JSON text: C74, C75, C76
-/

namespace Jschon
open Spec

variable {lib : FloatLib}

/-! ## An example of float conversion

The floats are the integers of at most three digits, written with the fraction `.0`. -/

/-- Rounds down. -/
def Toy.floats : FloatLib where
  round q := if q.floor.natAbs < 1000 then some (q.floor : Rat) else none
  repr q := dumpNum ⟨fun _ => none, fun _ => []⟩ (.int q.floor) ++ ".0".toList

theorem Toy.floats_ok : FloatOk Toy.floats where
  round d q h := by
    simp only [Toy.floats] at h ⊢
    split at h
    · rename_i hd; cases h; rw [Rat.floor_intCast, if_pos hd]
    · cases h
  repr q h := by
    have hq : ((q.floor : Int) : Rat) = q := by
      simp only [Toy.floats] at h
      split at h
      · exact Option.some.inj h
      · cases h
    obtain ⟨ns, hs, hw⟩ := natStr_int q.floor.natAbs
    refine ⟨q, ?_, h⟩
    have hf : FracPart ".0".toList [0] := .some (.cons .d0 .nil) (by simp)
    have hz : fraction [0] = 0 := by simp only [fraction]; grind
    show DecText (dumpNum _ (.int q.floor) ++ _) q
    simp only [dumpNum]
    split
    · have := DecText.mk .some hs hf .none (by simp)
      rw [hw, hz] at this
      have e : ((-1 : Int) : Rat) * (((q.floor.natAbs : Nat) : Rat) + 0) * 1 = q := by
        have e1 : ((-1 : Int) : Rat) * ((q.floor.natAbs : Nat) : Rat) = ((-1 * (q.floor.natAbs : Int) : Int) : Rat) := by
          rw [Rat.intCast_mul]; rfl
        have e2 : -1 * (q.floor.natAbs : Int) = q.floor := by omega
        rw [Rat.add_zero, e1, e2, Rat.mul_one, hq]
      rw [← Rat.mul_assoc, e] at this
      simpa using this
    · have := DecText.mk .none hs hf .none (by simp)
      rw [hw, hz] at this
      have e : ((1 : Int) : Rat) * (((q.floor.natAbs : Nat) : Rat) + 0) * 1 = q := by
        have e1 : ((1 : Int) : Rat) * ((q.floor.natAbs : Nat) : Rat) = ((1 * (q.floor.natAbs : Int) : Int) : Rat) := by
          rw [Rat.intCast_mul]; rfl
        have e2 : 1 * (q.floor.natAbs : Int) = q.floor := by omega
        rw [Rat.add_zero, e1, e2, Rat.mul_one, hq]
      rw [← Rat.mul_assoc, e] at this
      simpa using this

/-! ## C74: writing -/

/-- C74: at all times, `dumps()` of an instance is a JSON text by RFC 8259, and denotes the content of the
instance. -/
theorem C74_text (hl : FloatOk lib) (h : JHeap) (hh : History h) (r : Ref) (hf : Floats lib (val h r)) :
    ∃ x, JsonText lib (dumpsJson lib h r) x ∧ Is x (val h r) := by
  refine ⟨ofValue (val h r), ?_, is_ofValue _⟩
  rw [dumpsJson_val]
  have := JsonText.mk .nil (dumpVal_denoted hl (val_wf hh.winv r) hf) .nil
  simpa using this

/-- C74: the text depends on the content only: not on cached values, on the position of the instance or
on other instances. -/
theorem C74_content (lib : FloatLib) (h h' : JHeap) (r r' : Ref) (e : val h r = val h' r') :
    dumpsJson lib h r = dumpsJson lib h' r' := by
  rw [dumpsJson_val, dumpsJson_val, e]

/-- C74: the text denotes nothing else, so instances with the same text have the same content. -/
theorem C74_injective (hl : FloatOk lib) (h h' : JHeap) (hh : History h) (hh' : History h') (r r' : Ref)
    (hf : Floats lib (val h r)) (hf' : Floats lib (val h' r')) (e : dumpsJson lib h r = dumpsJson lib h' r') :
    val h r = val h' r' := by
  obtain ⟨x, hx, hi⟩ := C74_text hl h hh r hf
  obtain ⟨y, hy, hj⟩ := C74_text hl h' hh' r' hf'
  have e1 := jsonLoads_of hx
  rw [e, jsonLoads_of hy] at e1
  cases e1
  have := value_iff.2 hi
  rw [value_iff.2 hj] at this
  exact (Option.some.inj this).symm

/-! ## C75: reading -/

/-- C75: `json_loads` returns `x` exactly if the text is a JSON text by RFC 8259 that denotes `x`. -/
theorem C75_reads (lib : FloatLib) (s : List Char) (x : Loaded) :
    jsonLoads lib s = .ok x ↔ JsonText lib s x := ⟨jsonLoads_sound, jsonLoads_of⟩

/-- C75: every other text raises `ValueError`. -/
theorem C75_refuses (lib : FloatLib) (s : List Char) (h : ¬ ∃ x, JsonText lib s x) :
    jsonLoads lib s = .error .valueError := by
  cases e : jsonLoads lib s with
  | ok x => exact absurd ⟨x, jsonLoads_sound e⟩ h
  | error e' => rw [jsonLoads_error e]

/-- C75: a text denotes at most one value. -/
theorem C75_unique (lib : FloatLib) (s : List Char) (x y : Loaded) (hx : JsonText lib s x) (hy : JsonText lib s y) :
    x = y := by
  have := jsonLoads_of hx
  rw [jsonLoads_of hy] at this
  cases this; rfl

/-- C75: `JSON.loads` of a text that denotes the value `v` makes a new document with the content `v`;
existing instances keep theirs. -/
theorem C75_json (hl : FloatOk lib) (h : JHeap) (hh : History h) (s : List Char) (x : Loaded) (v : Value)
    (hx : JsonText lib s x) (hv : Is x v) :
    ∃ h' r, loadsJson lib h s = .ok (some (h', r)) ∧ History h' ∧ val h' r = v ∧ h'.parent r = none ∧
      h.next ≤ r ∧ ∀ y, y < h.next → val h' y = val h y := by
  obtain ⟨hw, hs, hw'⟩ := hx
  have hp := denoted_proper hl hs
  rw [is_iff.1 hv] at hp
  have hwf := (proper_value v hp).1
  refine ⟨_, (newJson h v none none).2, ?_, .call (.new v) hh hwf, ?_⟩
  · simp only [loadsJson, jsonLoads_of (.mk hw hs hw'), value_iff.2 hv]
    rfl
  · obtain ⟨b0, b1, b2, b3, b4, b5, b6, b7⟩ := newJson_spec hh.winv.ord v hwf none none (by simp)
    refine ⟨b7, b5, Nat.le_refl _, fun y hy => (C12_new h hh v hwf).2 y hy |>.1⟩

/-- C75: `JSON.loads` of any text that is not JSON raises `ValueError`. -/
theorem C75_json_refuses (lib : FloatLib) (h : JHeap) (s : List Char) (hx : ¬ ∃ x, JsonText lib s x) :
    loadsJson lib h s = .error .valueError := by
  rw [loadsJson, C75_refuses lib s hx]

/-- C75: the constants that `parse_constant` is for are refused. -/
theorem C75_constants (lib : FloatLib) :
    jsonLoads lib "NaN".toList = .error .valueError ∧ jsonLoads lib "[Infinity]".toList = .error .valueError ∧
    jsonLoads lib "-Infinity".toList = .error .valueError := by
  refine ⟨?_, ?_, ?_⟩ <;>
    simp [jsonLoads, skipSpace, isJsonSpace, scanOnce, parseInvalidConst, Except.map, scanItems]

/-- But an infinity can be read: a number that is too large for a float is not refused. -/
theorem C75_infinity (lib : FloatLib) (s : List Char) (d : Rat) (hs : DecText s d) (h : lib.round d = none) :
    jsonLoads lib s = .ok (.inf (decide (d < 0))) := by
  refine jsonLoads_of ?_
  have := JsonText.mk .nil (Denoted.inf hs h) .nil
  simpa using this

example : (match jsonLoads Toy.floats "-1e4".toList with | .ok (.inf b) => b | _ => false) = true := by
  decide +kernel

/-- A text with repeated names, escapes, a surrogate pair, and numbers of both kinds. -/
example : (match jsonLoads Toy.floats
      "{\"a\": 1, \"\\u0062\":[-12.5E+1,\n null], \"a\" :\"\\ud83d\\ude00\\n\"} ".toList with
    | .ok (.obj [(k, .str s), (l, .arr [.flt q, .null])]) => some (k, s, l, q)
    | _ => none) = some ([97], [0x1f600, 10], [98], -125) := by decide +kernel

/-! ## C76: round trip -/

/-- C76: reading what was written gives a document with the same content. -/
theorem C76_roundtrip (hl : FloatOk lib) (h : JHeap) (hh : History h) (r : Ref) (hf : Floats lib (val h r)) :
    ∃ h' r', loadsJson lib h (dumpsJson lib h r) = .ok (some (h', r')) ∧ History h' ∧ val h' r' = val h r ∧
      h'.parent r' = none ∧ ∀ y, y < h.next → val h' y = val h y := by
  obtain ⟨x, hx, hi⟩ := C74_text hl h hh r hf
  obtain ⟨h', r', a, b, c, d, _, e⟩ := C75_json hl h hh _ x _ hx hi
  exact ⟨h', r', a, b, c, d, e⟩

/-- C76: writing what was read gives a text that denotes the same. -/
theorem C76_rewrite (hl : FloatOk lib) (h : JHeap) (hh : History h) (s : List Char) (h' : JHeap) (r : Ref)
    (e : loadsJson lib h s = .ok (some (h', r))) :
    ∃ x, JsonText lib s x ∧ JsonText lib (dumpsJson lib h' r) x := by
  unfold loadsJson at e
  split at e
  · cases e
  · rename_i x hx
    have ht := jsonLoads_sound hx
    cases hv : x.value with
    | none => rw [hv] at e; cases e
    | some v =>
      have hi := value_iff.1 hv
      obtain ⟨h2, r2, a, b, c, _⟩ := C75_json hl h hh s x v ht hi
      have : h2 = h' ∧ r2 = r := by
        simp only [loadsJson, hx, hv, Option.map_some, Except.ok.injEq, Option.some.injEq] at a e
        rw [a] at e
        cases e; exact ⟨rfl, rfl⟩
      obtain ⟨rfl, rfl⟩ := this
      obtain ⟨hw, hs, hw'⟩ := ht
      have hp := denoted_proper hl hs
      rw [is_iff.1 hi] at hp
      obtain ⟨y, hy, hj⟩ := C74_text hl h2 b r2 (c ▸ (proper_value v hp).2)
      rw [c] at hj
      have : x = y := by rw [is_iff.1 hi, is_iff.1 hj]
      exact ⟨x, .mk hw hs hw', this ▸ hy⟩

/-- An instance with floats, strings that need escapes and nested arrays meets the hypotheses. -/
example : FloatOk Toy.floats ∧
    History (newJson JHeap.empty (.obj [("k\n", .arr [.num (.flt 7), .str "\"", .num (.int (-3))])]) none none).1 ∧
    Floats Toy.floats (.obj [("k\n", .arr [.num (.flt 7), .str "\"", .num (.int (-3))])]) ∧
    dumpsJson Toy.floats (newJson JHeap.empty (.obj [("k\n", .arr [.num (.flt 7), .str "\"", .num (.int (-3))])])
      none none).1 0 = "{\"k\\n\": [7.0, \"\\\"\", -3]}".toList := by
  refine ⟨Toy.floats_ok, .call (.new _) .start ?_, ?_, by decide +kernel⟩
  · refine .obj (by decide) (fun kv h => ?_)
    rw [List.mem_singleton.1 h]
    refine .arr (fun x hx => ?_)
    simp at hx
    rcases hx with rfl | rfl | rfl <;> constructor
  · refine .obj (fun kv h => ?_)
    rw [List.mem_singleton.1 h]
    refine .arr (fun x hx => ?_)
    simp at hx
    rcases hx with rfl | rfl | rfl
    · exact .flt (by decide +kernel)
    · exact .str
    · exact .int

end Jschon
