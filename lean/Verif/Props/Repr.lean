import Verif.Proof.PyLiteral
import Verif.Model.Rfc3986
import Verif.Props.JsonText
import Verif.Props.Pointer
import Verif.Props.RelPointer

/-!
# What `repr` writes: C95
-/

namespace Jschon
open Spec

variable {lib : FloatLib} (printable : Nat → Bool)

theorem callOn_text (name : String) (t : String) :
    CallOn name t (name.toList ++ '(' :: reprText printable t ++ [')']) := .mk (reprText_string t)

/-- C95: `repr` of a pointer is a call of `JSONPointer` with a string literal; run as Python, it makes the
pointer again. -/
theorem C95_pointer (p : Ptr) : (∃ t, CallOn "JSONPointer" t (p.repr printable)) ∧
    ∀ t, CallOn "JSONPointer" t (p.repr printable) → Ptr.parse t = .ok p := by
  have h := callOn_text printable "JSONPointer" p.str
  have e : "JSONPointer".toList ++ '(' :: reprText printable p.str ++ [')'] = p.repr printable := by
    unfold Ptr.repr; simp
  rw [e] at h
  refine ⟨⟨_, h⟩, fun t ht => ?_⟩
  rw [(callOn_unique (r := []) ht h rfl).1]
  exact C01_roundtrip p

/-- C95: the same of a relative pointer; the pointer that is made equals the one written. -/
theorem C95_relative (up over : Int) (ref : RelRef) (hu : 0 ≤ up) :
    (∃ t, CallOn "RelativeJSONPointer" t ((RelPtr.make up over ref).repr printable)) ∧
    ∀ t, CallOn "RelativeJSONPointer" t ((RelPtr.make up over ref).repr printable) →
      ∃ q, RelPtr.parse t = .ok q ∧ (RelPtr.make up over ref).eq q = true := by
  have h := callOn_text printable "RelativeJSONPointer" (RelPtr.make up over ref).str
  have e : "RelativeJSONPointer".toList ++ '(' :: reprText printable (RelPtr.make up over ref).str ++ [')'] =
      (RelPtr.make up over ref).repr printable := by unfold RelPtr.repr; simp
  rw [e] at h
  refine ⟨⟨_, h⟩, fun t ht => ?_⟩
  rw [(callOn_unique (r := []) ht h rfl).1]
  exact C10_roundtrip up over ref hu

theorem Rfc.ofText_str (t : String) : (Rfc.ofText t).str = t := by
  have h := List.takeWhile_append_dropWhile (p := (· ≠ '#')) (l := t.toList)
  have hd : ∀ (l : List Char) c r, l.dropWhile (· ≠ '#') = c :: r → c = '#' := by
    intro l c r e
    induction l with
    | nil => simp at e
    | cons a l ih =>
      rw [List.dropWhile_cons] at e
      split at e
      · exact ih e
      · rename_i ha; cases e; simpa using ha
  rw [← String.toList_inj]
  unfold Rfc.ofText Uri.str
  cases e : t.toList.dropWhile (· ≠ '#') with
  | nil => rw [e] at h; simpa using h
  | cons c r =>
    cases hd _ _ _ e
    rw [e] at h
    simpa using h

/-- C95: the same of a URI made from a text. -/
theorem C95_uri (s : String) : (∃ t, CallOn "URI" t ((Rfc.ofText s).reprCall printable)) ∧
    ∀ t, CallOn "URI" t ((Rfc.ofText s).reprCall printable) → t = s := by
  have h := callOn_text printable "URI" (Rfc.ofText s).str
  have e : "URI".toList ++ '(' :: reprText printable (Rfc.ofText s).str ++ [')'] =
      (Rfc.ofText s).reprCall printable := by unfold Uri.reprCall; simp
  rw [e] at h
  refine ⟨⟨_, h⟩, fun t ht => ?_⟩
  rw [(callOn_unique (r := []) ht h rfl).1, Rfc.ofText_str]

/-- C95: at all times `repr` of an instance succeeds and is a call of the class with a literal that has the
content of the instance, and no other value. -/
theorem C95_instance (hl : FloatOk lib) (cls : String) (h : JHeap) (hh : History h) (r : Ref)
    (hf : Floats lib (val h r)) : ∃ s, reprJson lib printable cls h r = .ok s ∧
      (∃ x, LitCall lib cls x s) ∧ ∀ x, LitCall lib cls x s → Is x (val h r) := by
  obtain ⟨x, hx, hi⟩ := C74_text hl h hh r hf
  have e := is_eq hi
  subst e
  have hp := reprLoaded_lit (printable := printable) hl (val_wf hh.winv r) hf
  refine ⟨_, by simp only [reprJson, jsonLoads_of hx], ⟨_, .mk hp⟩, fun y hy => ?_⟩
  generalize hs : cls.toList ++ '(' :: reprLoaded lib printable (ofValue (val h r)) ++ [')'] = s at hy
  obtain ⟨hy⟩ := hy
  simp only [List.append_assoc, List.append_cancel_left_eq, List.cons_append, List.cons.injEq, true_and] at hs
  obtain ⟨_, rfl, _⟩ := pyLit_one hp _ _ _ _ hy hs (numStop_cons (by decide)) (numStop_cons (by decide))
  exact hi

/-- C95: so instances of a class with the same `repr` have the same content. -/
theorem C95_injective (hl : FloatOk lib) (cls : String) (h h' : JHeap) (hh : History h) (hh' : History h')
    (r r' : Ref) (hf : Floats lib (val h r)) (hf' : Floats lib (val h' r'))
    (e : reprJson lib printable cls h r = reprJson lib printable cls h' r') : val h r = val h' r' := by
  obtain ⟨s, h1, ⟨x, hx⟩, h2⟩ := C95_instance printable hl cls h hh r hf
  obtain ⟨s', h1', _, h2'⟩ := C95_instance printable hl cls h' hh' r' hf'
  rw [e, h1'] at h1
  cases h1
  have := value_iff.2 (h2 x hx)
  rw [value_iff.2 (h2' x hx)] at this
  exact (Option.some.inj this).symm

/-- The arguments describe the operation. -/
structure Describes (a : OpArgs) (o : PatchOp) : Prop where
  op : a.op = o.op
  path : Ptr.parse a.path = .ok o.path
  none : a.from_ = none ↔ o.from_ = none
  some : ∀ t p, a.from_ = some t → o.from_ = some p → Ptr.parse t = .ok p
  value : Is a.value o.value

/-- The arguments that are written. -/
def opArgs (o : PatchOp) : OpArgs := ⟨o.op, o.path.str, o.from_.map Ptr.str, ofValue o.value⟩

theorem opArgs_describes (o : PatchOp) : Describes (opArgs o) o := by
  refine ⟨rfl, C01_roundtrip _, by simp [opArgs], fun t p h h' => ?_, is_ofValue _⟩
  simp only [opArgs, h', Option.map_some, Option.some.injEq] at h
  rw [← h]
  exact C01_roundtrip p

theorem opCall_repr (hl : FloatOk lib) (o : PatchOp) (hv : o.value.WF) (hf : Floats lib o.value) :
    OpCall lib (opArgs o) (o.repr lib printable) := by
  have hptr : ∀ p : Ptr, CallOn "JSONPointer" p.str (p.repr printable) := by
    intro p
    have h := callOn_text printable "JSONPointer" p.str
    have e : "JSONPointer".toList ++ '(' :: reprText printable p.str ++ [')'] = p.repr printable := by
      unfold Ptr.repr; simp
    rwa [e] at h
  have ho : OpConst o.op o.op.repr := by
    cases o.op
    · exact .add
    · exact .remove
    · exact .replace
    · exact .move
    · exact .copy
    · exact .test
  have hfr : FromArg (o.from_.map Ptr.str)
      (match o.from_ with | some p => p.repr printable | none => "None".toList) := by
    cases o.from_ with
    | none => exact .none
    | some p => exact .some (hptr p)
  unfold PatchOp.repr
  rw [toLoaded_eq]
  exact .mk ho (hptr o.path) hfr (reprLoaded_lit hl hv hf)

/-- C95: `repr` of a patch operation is a call of `JSONPatchOperation` whose arguments describe the
operation, and no other. -/
theorem C95_operation (hl : FloatOk lib) (o : PatchOp) (hv : o.value.WF) (hf : Floats lib o.value) :
    (∃ a, OpCall lib a (o.repr lib printable)) ∧
    ∀ a, OpCall lib a (o.repr lib printable) → Describes a o := by
  have h := opCall_repr printable hl o hv hf
  refine ⟨⟨_, h⟩, fun a ha => ?_⟩
  rw [(opCall_unique (r := []) ha h rfl).1]
  exact opArgs_describes o

theorem opCalls_repr (hl : FloatOk lib) : ∀ (ops : List PatchOp), (∀ o ∈ ops, o.value.WF ∧ Floats lib o.value) →
    OpCalls lib (ops.map opArgs) (joinComma (ops.map (PatchOp.repr lib printable)))
  | [], _ => .nil
  | [o], h => .one (opCall_repr printable hl o (h o (by simp)).1 (h o (by simp)).2)
  | o :: p :: ops, h => by
    have := OpCalls.more (opCall_repr printable hl o (h o (by simp)).1 (h o (by simp)).2)
      (opCalls_repr hl (p :: ops) (fun q hq => h q (List.mem_cons_of_mem _ hq)))
    simpa [joinComma] using this

/-- C95: `repr` of a patch is a call of `JSONPatch` with a call for each of its operations, in order. -/
theorem C95_patch (hl : FloatOk lib) (ops : List PatchOp) (h : ∀ o ∈ ops, o.value.WF ∧ Floats lib o.value) :
    (∃ as, PatchCall lib as (reprPatch lib printable ops)) ∧
    ∀ as, PatchCall lib as (reprPatch lib printable ops) → as.length = ops.length ∧
      ∀ (i : Nat) a o, as[i]? = some a → ops[i]? = some o → Describes a o := by
  have hc : PatchCall lib (ops.map opArgs) (reprPatch lib printable ops) := .mk (opCalls_repr printable hl ops h)
  refine ⟨⟨_, hc⟩, fun as ha => ?_⟩
  have : as = ops.map opArgs := by
    unfold reprPatch at ha
    generalize hs : "JSONPatch(*[".toList ++ joinComma (ops.map (PatchOp.repr lib printable)) ++ [']', ')'] = s at ha
    obtain ⟨h2⟩ := ha
    simp only [List.append_assoc, List.append_cancel_left_eq] at hs
    exact ((opCalls_unique (opCalls_repr printable hl ops h) h2 (r := [')']) (r' := [')']) hs).1).symm
  subst this
  refine ⟨by simp, fun i a o h1 h2 => ?_⟩
  simp only [List.getElem?_map, h2, Option.map_some, Option.some.injEq] at h1
  subst h1
  exact opArgs_describes o

/-- C95: a string literal stands for one string, so nothing is lost in it: whatever is printable, the
literal of `repr` stands for the string. -/
theorem C95_string (s : String) : PyString (reprText printable s) (points s) ∧
    ∀ ns, PyString (reprText printable s) ns → ns = points s :=
  ⟨reprText_string s, fun _ h => (pyString_unique (t := []) h (reprText_string s) rfl).2.1⟩

/-- C95: a literal has one value. -/
theorem C95_unique (lib : FloatLib) (s : List Char) (x y : Loaded) (hx : PyLit lib s x) (hy : PyLit lib s y) : x = y :=
  (pyLit_one hx s [] [] y hy rfl numStop_nil numStop_nil).2.1

/-- The hypotheses can be met: quotes, an escape and a character that is not printable. -/
example : reprText (fun _ => false) "it's é\n" = "\"it's \\xe9\\n\"".toList ∧
    reprText (fun _ => true) "it's \"é\"" = "'it\\'s \"é\"'".toList := by decide +kernel

example : Ptr.repr (fun _ => true) ⟨["a/b", "'"]⟩ = "JSONPointer(\"/a~1b/'\")".toList := by decide +kernel

example : ∃ o : PatchOp, o.value.WF ∧ Floats Toy.floats o.value ∧
    PatchOp.repr Toy.floats (fun _ => true) o =
      "JSONPatchOperation(op=PatchOp.ADD, path=JSONPointer('/a'), from_=None, value=[None, True, 'x', {'k': -5}])".toList := by
  refine ⟨⟨.add, ⟨["a"]⟩, .arr [.null, .bool true, .str "x", .obj [("k", .num (.int (-5)))]], none⟩, ?_, ?_, by decide +kernel⟩
  · exact .arr (by
      intro x hx
      simp only [List.mem_cons, List.not_mem_nil, or_false] at hx
      rcases hx with rfl | rfl | rfl | rfl
      · exact .null
      · exact .bool
      · exact .str
      · exact .obj (by simp [dkeys]) (by intro kv hkv; simp at hkv; subst hkv; exact .num))
  · exact .arr (by
      intro x hx
      simp only [List.mem_cons, List.not_mem_nil, or_false] at hx
      rcases hx with rfl | rfl | rfl | rfl
      · exact .null
      · exact .bool
      · exact .str
      · exact .obj (by intro kv hkv; simp at hkv; subst hkv; exact .int))

/-- C95: the quotes are single, unless there is a single quote in the text and no double quote. -/
theorem C95_quotes (s : String) :
    ((reprText printable s).head? = some '"' ∨ (reprText printable s).head? = some '\'') ∧
      ((reprText printable s).head? = some '"' ↔ '\'' ∈ s.toList ∧ '"' ∉ s.toList) := by
  have mem : ∀ c : Char, (s.toList.map Char.toNat).contains c.toNat = true ↔ c ∈ s.toList := fun c => by
    rw [List.contains_iff_mem, List.mem_map]
    exact ⟨fun ⟨d, h, e⟩ => Char.toNat_inj.1 e ▸ h, fun h => ⟨c, h, rfl⟩⟩
  have m1 := mem '\''
  have m2 := mem '"'
  have e : (reprText printable s).head? = some (reprQuote (s.toList.map Char.toNat)) := rfl
  rw [e]
  unfold reprQuote
  rw [← m1, ← m2]
  rw [show '\''.toNat = 0x27 from rfl, show '"'.toNat = 0x22 from rfl]
  cases (s.toList.map Char.toNat).contains 0x27 <;> cases (s.toList.map Char.toNat).contains 0x22 <;> decide

example : reprText (fun _ => true) "it's" = "\"it's\"".toList ∧ reprText (fun _ => true) "'\"" = "'\\'\"'".toList := by
  decide +kernel

end Jschon
