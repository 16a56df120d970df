import Verif.Proof.JsonWritten
import Verif.Props.JsonText

/-!
# The very text that `dumps` gives: C74
-/

namespace Jschon
open Spec

variable {lib : FloatLib}

/-- C74: which text it is: the one that `json.dumps(value, ensure_ascii=False)` gives, character by character. -/
theorem C74_written (lib : FloatLib) (h : JHeap) (r : Ref) (t : List Char) :
    Written lib (val h r) t ↔ t = dumpsJson lib h r := by
  rw [dumpsJson_val]
  exact ⟨written_only _ _, fun e => e ▸ written_dump _⟩

/-- An object with a control character that has no short escape, a character outside ASCII, and one that looks like a
control character but is none. -/
example : dumpsJson Toy.floats (newJson JHeap.empty (.obj [("\x1f\t", .arr [.str "é\x7f/", .num (.int (-3))]), ("", .arr [])])
      none none).1 0 = "{\"\\u001f\\t\": [\"é\x7f/\", -3], \"\": []}".toList := by decide +kernel

/-- C74: the text has no control characters, so it is a line. -/
theorem C74_line (hl : FloatOk lib) (h : JHeap) (r : Ref) (hf : Floats lib (val h r)) :
    ∀ c ∈ dumpsJson lib h r, 32 ≤ c.toNat := by
  rw [dumpsJson_val]; exact dumpVal_printable hl hf

example : FloatOk Toy.floats ∧ Floats Toy.floats (.arr [.str "a\n", .num (.int 12)]) :=
  ⟨Toy.floats_ok, .arr fun v h => by
    simp only [List.mem_cons, List.not_mem_nil, or_false] at h
    rcases h with rfl | rfl
    · exact .str
    · exact .int⟩

end Jschon
