import Verif.Proof.Files
import Verif.Props.JsonText

/-!
# Files: C91
-/

namespace Jschon
open Spec

variable {lib : FloatLib}

/-! ## Reading -/

/-- C91: the translation of line ends does not change what is read. -/
theorem C91_newlines (lib : FloatLib) (t : List Char) : jsonLoads lib (universal t) = jsonLoads lib t := by
  cases e : jsonLoads lib t with
  | ok x => exact jsonLoads_of (jsonText_nl (nl_universal t) (jsonLoads_sound e))
  | error x =>
    cases e' : jsonLoads lib (universal t) with
    | error y => rw [jsonLoads_error e, jsonLoads_error e']
    | ok y =>
      have := jsonLoads_of (jsonText_nl (nl_universal t).symm (jsonLoads_sound e'))
      rw [e] at this; cases this

/-- C91: `json_loadf` returns `x` exactly if the text in the file, with the line ends that it has there, is a JSON
text by RFC 8259 that denotes `x`; it raises ValueError if it is none. -/
theorem C91_loadf (m : Machine) (lib : FloatLib) (d : Disk) (path : String) (b : List Nat) (t : List Char)
    (hr : m.mayRead path = true) (hd : dlookup path d = some b) (ht : m.codec.decode b = some t) :
    (∀ x, jsonLoadf m lib d path = .ok x ↔ JsonText lib t x) ∧
    ((¬ ∃ x, JsonText lib t x) → jsonLoadf m lib d path = .error (.py .valueError)) := by
  have e : jsonLoadf m lib d path = match jsonLoads lib t with | .ok x => .ok x | .error e => .error (.py e) := by
    simp only [jsonLoadf, hr, if_true, hd, ht, C91_newlines]
    rfl
  constructor
  · intro x
    rw [← C75_reads, e]
    cases jsonLoads lib t <;> simp
  · intro h
    rw [e, C75_refuses lib t h]

/-- C91: a file that is not there or may not be read raises OSError, and one that is no text raises ValueError. -/
theorem C91_unreadable (m : Machine) (lib : FloatLib) (d : Disk) (path : String) :
    (m.mayRead path = false ∨ dlookup path d = none → jsonLoadf m lib d path = .error .os) ∧
    (∀ b, m.mayRead path = true → dlookup path d = some b → m.codec.decode b = none →
      jsonLoadf m lib d path = .error (.py .valueError)) := by
  constructor
  · rintro (h | h)
    · simp [jsonLoadf, h]
    · simp only [jsonLoadf, h]; split <;> rfl
  · intro b h1 h2 h3
    simp only [jsonLoadf, h1, if_true, h2, h3]

/-! ## Writing -/

/-- What `dumpf` writes. -/
theorem dumpf_run (m : Machine) (hl : FloatOk lib) (d : Disk) (h : JHeap) (r : Ref)
    (hf : Floats lib (val h r)) (path : String) (hw : m.mayWrite path = true) :
    (∃ b, dumpfJson m lib d h r path = (dset path b d, .ok ()) ∧ m.codec.bytes (dumpsJson lib h r) = some b) ∨
    (∃ b pre post, dumpfJson m lib d h r path = (dset path b d, .error (.py .valueError)) ∧
      dumpsJson lib h r = pre ++ post ∧ post ≠ [] ∧ m.codec.bytes pre = some b ∧ m.codec.bytes post = none ∧
      (pre = [] ∨ ∃ c r, pre = c :: r ∧ (c = '[' ∨ c = '{'))) := by
  have hn : NoNl (chunkF lib h.next h r).flatten := by
    rw [chunkF_flatten]
    show NoNl (dumpsJson lib h r)
    rw [dumpsJson_val]; exact dumpVal_noNl hl hf
  rcases writeChunks_spec m (chunkF lib h.next h r) [] with ⟨b, e, hb⟩ | ⟨b, pre, c, post, e, hs, hb, hc⟩
  · left
    refine ⟨b, ?_, ?_⟩
    · simp only [dumpfJson, hw, if_true, e, List.nil_append]
    · rw [newlinesOut_id m hn, chunkF_flatten] at hb
      exact hb
  · right
    have n1 : NoNl pre.flatten := by
      intro x hx; exact hn x (by rw [hs]; simp only [List.flatten_append]; exact List.mem_append_left _ hx)
    have n2 : NoNl c := by
      intro x hx; refine hn x (by rw [hs]; simp only [List.flatten_append, List.flatten_cons]; simp [hx])
    rw [newlinesOut_id m n1] at hb
    rw [newlinesOut_id m n2] at hc
    refine ⟨b, pre.flatten, (c :: post).flatten, ?_, ?_, ?_, hb, ?_, chunks_head hs⟩
    · simp only [dumpfJson, hw, if_true, e, List.nil_append]
    · rw [← List.flatten_append, ← hs, chunkF_flatten]; rfl
    · intro h0
      simp only [List.flatten_cons, List.append_eq_nil_iff] at h0
      rw [h0.1] at hc; cases hc
    · rw [List.flatten_cons, bytes_append, hc]; rfl

/-- C91: if the encoding has the characters, `dumpf` writes the text that `dumps` returns, whatever the line ends of
the platform are, and no other file. -/
theorem C91_dumpf (m : Machine) (hc : FaithfulCodec m.codec) (hl : FloatOk lib) (d : Disk) (h : JHeap) (r : Ref)
    (hf : Floats lib (val h r)) (path : String) (hw : m.mayWrite path = true)
    (hv : Covers m.codec (dumpsJson lib h r)) :
    ∃ d', dumpfJson m lib d h r path = (d', .ok ()) ∧
      (∃ b, dlookup path d' = some b ∧ m.codec.decode b = some (dumpsJson lib h r)) ∧
      ∀ p, p ≠ path → dlookup p d' = dlookup p d := by
  rcases dumpf_run m hl d h r hf path hw with ⟨b, e, hb⟩ | ⟨b, pre, post, e, hs, _, hb, hn, _⟩
  · exact ⟨_, e, ⟨b, by simp [dlookup_dset], decode_bytes hc hb⟩, fun p hp => by simp [dlookup_dset, hp]⟩
  · obtain ⟨x, hx⟩ := bytes_covers.2 hv
    rw [hs, bytes_append, hb, hn] at hx
    cases hx

/-- C91: `loadf` after `dumpf` makes a document with the same content; existing instances keep theirs. -/
theorem C91_roundtrip (m : Machine) (hc : FaithfulCodec m.codec) (hl : FloatOk lib) (d : Disk) (h : JHeap)
    (hh : History h) (r : Ref) (hf : Floats lib (val h r)) (path : String) (hw : m.mayWrite path = true)
    (hr : m.mayRead path = true) (hv : Covers m.codec (dumpsJson lib h r)) :
    ∃ d' h' r', dumpfJson m lib d h r path = (d', .ok ()) ∧
      loadfJson m lib d' h path = .ok (some (h', r')) ∧ History h' ∧ val h' r' = val h r ∧ h'.parent r' = none ∧
      ∀ y, y < h.next → val h' y = val h y := by
  obtain ⟨d', e, ⟨b, hb, ht⟩, _⟩ := C91_dumpf m hc hl d h r hf path hw hv
  obtain ⟨h', r', e1, hist, h2, h3, h4⟩ := C76_roundtrip hl h hh r hf
  refine ⟨d', h', r', e, ?_, hist, h2, h3, h4⟩
  simp only [loadfJson, jsonLoadf, hr, if_true, hb, ht, C91_newlines]
  simp only [loadsJson] at e1
  cases e2 : jsonLoads lib (dumpsJson lib h r) with
  | error e => rw [e2] at e1; cases e1
  | ok x => rw [e2] at e1; simpa using e1

/-- C91: if the encoding lacks a character, `dumpf` raises ValueError.  The content that the file had is lost then, and
`loadf` raises ValueError, too: a file that was not written completely is never read as something else. -/
theorem C91_failed (m : Machine) (hc : FaithfulCodec m.codec) (hl : FloatOk lib) (d : Disk) (h : JHeap)
    (hh : History h) (r : Ref) (hf : Floats lib (val h r)) (path : String) (hw : m.mayWrite path = true)
    (hr : m.mayRead path = true) (hv : ¬ Covers m.codec (dumpsJson lib h r)) :
    ∃ d', dumpfJson m lib d h r path = (d', .error (.py .valueError)) ∧
      jsonLoadf m lib d' path = .error (.py .valueError) ∧
      (∃ b pre post, dlookup path d' = some b ∧ m.codec.decode b = some pre ∧ post ≠ [] ∧
        dumpsJson lib h r = pre ++ post) ∧
      ∀ p, p ≠ path → dlookup p d' = dlookup p d := by
  rcases dumpf_run m hl d h r hf path hw with ⟨b, e, hb⟩ | ⟨b, pre, post, e, hs, hp, hb, hn, hd⟩
  · exact absurd (bytes_covers.1 ⟨b, hb⟩) hv
  · have ht := decode_bytes hc hb
    have hq : dlookup path (dset path b d) = some b := by simp [dlookup_dset]
    refine ⟨_, e, ?_, ⟨b, pre, post, hq, ht, hp, hs⟩, fun p hp => by simp [dlookup_dset, hp]⟩
    refine (C91_loadf m lib _ path b pre hr hq ht).2 (part_not_json (y := ofValue (val h r)) (post := post) ?_ hp hd)
    rw [← hs, dumpsJson_val]
    exact dumpVal_denoted hl (val_wf hh.winv r) hf

/-- C91: a file that may not be written is left as it is. -/
theorem C91_denied (m : Machine) (lib : FloatLib) (d : Disk) (h : JHeap) (r : Ref) (path : String)
    (hw : m.mayWrite path = false) : dumpfJson m lib d h r path = (d, .error .os) := by
  simp [dumpfJson, hw]

/-! ## A concrete case -/

/-- Latin-1, with the line ends of Windows. -/
def Toy.windows : Machine where
  codec := ⟨fun c => if c.toNat < 256 then some [c.toNat] else none,
    fun b => if b.all (· < 256) then some (b.map Char.ofNat) else none⟩
  linesep := ['\r', '\n']
  mayRead _ := true
  mayWrite p := p != "r"

theorem Toy.windows_faithful : FaithfulCodec Toy.windows.codec := by
  intro t bs hl he
  have : bs.flatten = t.map Char.toNat ∧ ∀ c ∈ t, c.toNat < 256 := by
    induction t generalizing bs with
    | nil =>
      have : bs = [] := by simpa using hl
      subst this; exact ⟨rfl, fun _ h => (by cases h)⟩
    | cons a t ih =>
      cases bs with
      | nil => simp at hl
      | cons x bs =>
        have h0 := he 0 a x rfl rfl
        obtain ⟨i1, i2⟩ := ih bs (by simpa using hl) (fun i a b ha hb => he (i + 1) a b (by simpa using ha) (by simpa using hb))
        simp only [Toy.windows] at h0
        split at h0
        · rename_i hlt
          cases h0
          refine ⟨by simp [i1], fun c hc => ?_⟩
          rcases List.mem_cons.1 hc with rfl | hc
          · exact hlt
          · exact i2 c hc
        · cases h0
  simp only [Toy.windows, this.1]
  have e : (t.map Char.toNat).all (· < 256) = true := by simpa using this.2
  rw [if_pos e, List.map_map, Option.some.injEq]
  conv => rhs; rw [← List.map_id t]
  refine List.map_congr_left fun c _ => ?_
  simp [Char.ofNat_toNat]

/-- A document with an accent is written and read; one with a snowman is not written, and empties the file. -/
example :
    (match dumpfJson Toy.windows Toy.floats [("a", [1])] (newJson JHeap.empty (.arr [.str "\u00e9\n", .null]) none none).1 0 "a" with
      | (d, .ok ()) => some (d, match jsonLoadf Toy.windows Toy.floats d "a" with | .ok (.arr [.str s, .null]) => s | _ => [])
      | _ => none) = some ([("a", [91, 34, 233, 92, 110, 34, 44, 32, 110, 117, 108, 108, 93])], [0xe9, 10]) ∧
    (match dumpfJson Toy.windows Toy.floats [("a", [91, 93])] (newJson JHeap.empty (.arr [.null, .str "\u2603"]) none none).1 0 "a" with
      | (d, .error (.py .valueError)) => d
      | _ => []) = [("a", [91, 110, 117, 108, 108, 44, 32])] := by
  decide +kernel

/-- A file with line ends of all kinds. -/
example : (match jsonLoadf Toy.windows Toy.floats [("a", [91, 13, 10, 49, 13, 44, 10, 50, 93, 13])] "a" with
    | .ok (.arr [.int a, .int b]) => some (a, b) | _ => none) = some (1, 2) := by decide +kernel

end Jschon
