import Verif.Proof.Pointer

/-!
# Properties of `JSONPointer` (C01, C02, C03, C05, C06, C07)
-/

namespace Jschon
open Spec

/-! ## C01: text round-trip -/

/-- C01: for every pointer `p`, `JSONPointer(str(p))` succeeds and equals `p`. -/
theorem C01_roundtrip (p : Ptr) : Ptr.parse p.str = .ok p :=
  (ptrParse_iff _ _).2 (ptrStr_toList p)

/-- C01: two pointers with the same text are equal. -/
theorem C01_str_injective (p q : Ptr) (h : p.str = q.str) : p = q := by
  have h1 := C01_roundtrip p
  rw [h, C01_roundtrip q] at h1
  injection h1 with h1
  exact h1.symm

-- Non-trivial keys: tildes, slashes, digits after tildes, the empty key.
example : (Ptr.mk ["~01", "a/b", "", "~"]).str = "/~001/a~1b//~0" := by decide
example : Ptr.parse "/~001/a~1b//~0" = .ok ⟨["~01", "a/b", "", "~"]⟩ := by
  rw [show "/~001/a~1b//~0" = (Ptr.mk ["~01", "a/b", "", "~"]).str by decide]
  exact C01_roundtrip _
example : (Ptr.mk ["~01"]).str = (Ptr.mk ["~01"]).str := rfl

/-! ## C02: the RFC 6901 grammar -/

/-- C02: `JSONPointer(s)` succeeds iff `s` is in the RFC 6901 grammar. -/
theorem C02_accepts_iff_grammar (s : String) :
    (∃ p, Ptr.parse s = .ok p) ↔ PointerText s.toList := by
  rw [pointerText_iff]
  constructor
  · rintro ⟨p, hp⟩; exact ⟨p.keys, (ptrParse_iff _ _).1 hp⟩
  · rintro ⟨keys, hk⟩; exact ⟨⟨keys⟩, (ptrParse_iff _ _).2 hk⟩

/-- C02: a string outside the grammar raises `JSONPointerMalformedError`. -/
theorem C02_rejects_malformed (s : String) (h : ¬ PointerText s.toList) :
    Ptr.parse s = .error .ptrMalformed := by
  cases hp : Ptr.parse s with
  | ok p => exact absurd ((C02_accepts_iff_grammar s).1 ⟨p, hp⟩) h
  | error e => rw [ptrParse_error s e hp]

/-- C02: on success the text is kept. -/
theorem C02_text_kept (s : String) (p : Ptr) (h : Ptr.parse s = .ok p) : p.str = s := by
  rw [← String.toList_inj, ptrStr_toList, (ptrParse_iff _ _).1 h]

/-- C02: on success the keys are the decoded reference tokens. -/
theorem C02_keys_decoded (s : String) (p : Ptr) :
    Ptr.parse s = .ok p ↔ s.toList = textOf p.keys := ptrParse_iff s p

example : PointerText "/a~1b/~0".toList :=
  .cons (tok := "a~1b".toList) (rest := "/~0".toList)
    (.unescaped (by decide) (by decide) (.slash (.unescaped (by decide) (by decide) .nil)))
    (.cons (tok := "~0".toList) (.tilde .nil) .nil)
example : ¬ PointerText "a".toList := by
  intro h
  have h2 : "a".toList = ['a'] := rfl
  rw [h2] at h
  cases h

/-! ## C03: key escaping -/

/-- C03: `unescape(escape(k)) == k`. -/
theorem C03_unescape_escape (k : String) : ptrUnescape (ptrEscape k) = k := ptrUnescape_ptrEscape k

/-- C03: `escape(k)` is a reference token of the grammar: it has no `/` and each `~` in it is
followed by `0` or `1`. -/
theorem C03_escape_is_token (k : String) : RefToken (ptrEscape k).toList := by
  simp only [ptrEscape, String.toList_ofList, escapeL_eq]
  exact refToken_flatMap _

/-- C03: `escape(k)` contains no `/`. -/
theorem C03_escape_no_slash (k : String) : '/' ∉ (ptrEscape k).toList := by
  simp only [ptrEscape, String.toList_ofList]
  exact escapeL_no_slash _

/-- C03: in a reference token every `~` is followed by `0` or `1`. -/
theorem C03_token_tilde (k : String) (u v : List Char) (h : (ptrEscape k).toList = u ++ '~' :: v) :
    ∃ w, v = '0' :: w ∨ v = '1' :: w := by
  have ht := C03_escape_is_token k
  rw [h] at ht
  clear h
  generalize hs : u ++ '~' :: v = s at ht
  induction ht generalizing u with
  | nil => simp at hs
  | @unescaped c t h1 h2 _ ih =>
    cases u with
    | nil => simp at hs; exact absurd hs.1.symm h2
    | cons a u => simp at hs; exact ih u hs.2
  | @tilde t _ ih =>
    match u, hs with
    | [], hs => simp at hs; exact ⟨t, .inl hs⟩
    | [a], hs => simp at hs
    | a :: b :: u, hs => simp at hs; exact ih u hs.2.2
  | @slash t _ ih =>
    match u, hs with
    | [], hs => simp at hs; exact ⟨t, .inr hs⟩
    | [a], hs => simp at hs
    | a :: b :: u, hs => simp at hs; exact ih u hs.2.2

/-- C03: escaping is injective. -/
theorem C03_escape_injective (k k' : String) (h : ptrEscape k = ptrEscape k') : k = k' := by
  rw [← ptrUnescape_ptrEscape k, h, ptrUnescape_ptrEscape]

example : (ptrEscape "~1/").toList = ['~', '0', '1'] ++ '~' :: ['1'] := by decide

/-! ## C05: composition and slicing -/

/-- The keys one constructor argument stands for: those of its RFC 6901 text, or the given ones. -/
inductive ArgKeys : PtrArg → List String → Prop
  | text {s ks} : s.toList = textOf ks → ArgKeys (.text s) ks
  | keys {ks} : ArgKeys (.keys ks) ks

/-- Argument by argument. -/
inductive ArgsKeys : List PtrArg → List (List String) → Prop
  | nil : ArgsKeys [] []
  | cons {a ks as kss} : ArgKeys a ks → ArgsKeys as kss → ArgsKeys (a :: as) (ks :: kss)

/-- C05: the constructor succeeds with exactly the concatenation of its arguments. -/
theorem C05_new_concat (args : List PtrArg) (p : Ptr) :
    Ptr.new args = .ok p ↔
      ∃ kss : List (List String), ArgsKeys args kss ∧ p.keys = kss.flatten := by
  have key : ∀ (args : List PtrArg) (acc ks : List String),
      ptrNewGo acc args = .ok ks ↔
        ∃ kss : List (List String), ArgsKeys args kss ∧ ks = acc ++ kss.flatten := by
    intro args
    induction args with
    | nil =>
      intro acc ks
      simp only [ptrNewGo]
      constructor
      · intro h; cases h; exact ⟨[], .nil, by simp⟩
      · rintro ⟨kss, h, rfl⟩; cases h; simp
    | cons a as ih =>
      intro acc ks
      have harg : ∀ ks', ptrArgKeys a = .ok ks' ↔ ArgKeys a ks' := by
        intro ks'
        cases a with
        | text s =>
          rw [ptrArgKeys_text_iff]
          exact ⟨fun h => .text h, fun h => by cases h; assumption⟩
        | keys l =>
          simp only [ptrArgKeys]
          exact ⟨fun h => by cases h; exact .keys, fun h => by cases h; rfl⟩
      simp only [ptrNewGo]
      cases h : ptrArgKeys a with
      | error e =>
        simp only [reduceCtorEq, false_iff, not_exists, not_and]
        intro kss hf
        cases hf with
        | cons h1 _ => rw [(harg _).2 h1] at h; cases h
      | ok ks' =>
        simp only [ih]
        constructor
        · rintro ⟨kss, hf, rfl⟩
          exact ⟨ks' :: kss, .cons ((harg _).1 h) hf, by simp⟩
        · rintro ⟨kss, hf, rfl⟩
          cases hf with
          | cons h1 h2 =>
            rw [(harg _).2 h1] at h
            cases h
            exact ⟨_, h2, by simp⟩
  unfold Ptr.new
  have := key args []
  cases h : ptrNewGo [] args with
  | error e =>
    simp only [reduceCtorEq, false_iff]
    intro hx
    have h2 := (this p.keys).2 (by simpa using hx)
    rw [h] at h2; cases h2
  | ok ks =>
    have h1 := (this ks).1 h
    constructor
    · intro hp; cases hp; simpa using h1
    · intro hx
      have h2 := (this p.keys).2 (by simpa using hx)
      rw [h] at h2
      cases p; cases h2; rfl

/-- C05: `p / k` never fails and appends exactly one unescaped key. -/
theorem C05_div_key (p : Ptr) (k : String) : p.divKey k = .ok ⟨p.keys ++ [k]⟩ := by
  simp [Ptr.divKey, Ptr.new, ptrNewGo, ptrArgKeys]

/-- C05: `p / q` never fails and concatenates. -/
theorem C05_div_keys (p : Ptr) (ks : List String) : p.divKeys ks = .ok ⟨p.keys ++ ks⟩ := by
  simp [Ptr.divKeys, Ptr.new, ptrNewGo, ptrArgKeys]

/-- C05: `(p / q) / r == p / (q / r)`. -/
theorem C05_div_assoc (p q r pq qr : Ptr) (h1 : p.divKeys q.keys = .ok pq)
    (h2 : q.divKeys r.keys = .ok qr) : pq.divKeys r.keys = p.divKeys qr.keys := by
  rw [C05_div_keys] at h1 h2
  cases h1; cases h2
  simp [C05_div_keys]

example : (Ptr.mk ["a"]).divKeys ["b~"] = .ok ⟨["a", "b~"]⟩ ∧
    (Ptr.mk ["b~"]).divKeys ["/"] = .ok ⟨["b~", "/"]⟩ :=
  ⟨C05_div_keys _ _, C05_div_keys _ _⟩

/-- C05: `p[:i] / p[i:] == p`, for every index, negative and out of range ones included. -/
theorem C05_slice_join (p : Ptr) (i : Int) :
    (p.slice none (some i)).divKeys (p.slice (some i) none).keys = .ok p := by
  rw [C05_div_keys]
  simp [Ptr.slice, List.take_append_drop]

/-- C05: `len(p / q) == len(p) + len(q)`. -/
theorem C05_len_div (p q pq : Ptr) (h : p.divKeys q.keys = .ok pq) : pq.len = p.len + q.len := by
  rw [C05_div_keys] at h
  cases h
  simp [Ptr.len]

/-- C05: a slice is the contiguous run of keys between the two positions: item `n` of `p[i:j]`
is item `i + n` of `p`, for in-range non-negative bounds. -/
theorem C05_slice_items (p : Ptr) (i j n : Nat) (h : i ≤ j) (hj : j ≤ p.len) :
    (p.slice (some i) (some j)).keys[n]? = if i + n < j then p.keys[i + n]? else none := by
  have hj' : j ≤ p.keys.length := hj
  have h1 : ¬ ((i : Int) < 0) := by omega
  have h2 : ¬ ((j : Int) < 0) := by omega
  simp only [Ptr.slice, sliceBound, Option.map_some, Option.getD_some, h1, h2, if_false,
    Int.toNat_natCast, List.getElem?_drop]
  rw [Nat.min_eq_left (Nat.le_trans h hj'), Nat.min_eq_left hj', List.getElem?_take]

/-- C05: the same for bounds of any sign, and for omitted ones: a negative bound counts from the end,
and bounds beyond the ends are cut off. -/
theorem C05_slice_bounds (p : Ptr) (i j : Option Int) (lo hi n : Nat)
    (hi1 : Spec.SliceBound p.len 0 i lo) (hj1 : Spec.SliceBound p.len p.len j hi) :
    (p.slice i j).keys[n]? = if lo + n < hi then p.keys[lo + n]? else none := by
  have key : ∀ (d : Nat) (b : Option Int) (x : Nat), Spec.SliceBound p.len d b x →
      (b.map (sliceBound p.keys.length)).getD d = x := by
    intro d b x h
    have hl : p.len = p.keys.length := rfl
    cases h with
    | omitted => rfl
    | fromStart k =>
      have h1 : ¬ ((k : Int) < 0) := by omega
      simp only [Option.map_some, Option.getD_some, sliceBound, if_neg h1, Int.toNat_natCast, hl]
    | fromEnd k h0 =>
      have h1 : -(k : Int) < 0 := by omega
      simp only [Option.map_some, Option.getD_some, sliceBound, if_pos h1, hl]
      omega
  simp only [Ptr.slice, key _ _ _ hi1, List.getElem?_drop, List.getElem?_take]
  have := key _ _ _ hj1
  rw [show p.len = p.keys.length from rfl] at this
  rw [this]

example : Spec.SliceBound 3 0 (some (-2)) 1 ∧ Spec.SliceBound 3 3 (some 7) 3 ∧
    Spec.SliceBound 3 0 (some (-7)) 0 :=
  ⟨.fromEnd 2 (by decide), .fromStart 7, .fromEnd 7 (by decide)⟩

/-- C05: `p[i]` for an in-range non-negative index is that key; `p[-k]` counts from the end. -/
theorem C05_item (p : Ptr) (n : Nat) :
    p.item n = p.keys[n]? ∧ (0 < n → n ≤ p.len → p.item (-n) = p.keys[p.len - n]?) := by
  refine ⟨pyIndex_natCast _ _, ?_⟩
  intro h0 hn
  have hn' : n ≤ p.keys.length := hn
  have h1 : ¬ (0 ≤ -(n : Int)) := by omega
  have h2 : (0 : Int) ≤ (p.keys.length : Int) + -(n : Int) := by omega
  have h3 : ((p.keys.length : Int) + -(n : Int)).toNat = p.len - n := by
    have : p.len = p.keys.length := rfl
    omega
  simp only [Ptr.item, pyIndex, h1, h2, if_true, if_false, h3]

example : (1 : Nat) ≤ 2 ∧ 2 ≤ (Ptr.mk ["a", "b", "c"]).len := by decide
example : (Ptr.mk ["a", "b", "c"]).slice (some (-2)) none = ⟨["b", "c"]⟩ := by decide
example : (Ptr.mk ["a", "b"]).item (-1) = some "b" := by decide

/-! ## C06: the prefix order -/

/-- C06: `p <= q` iff `q` extends `p`. -/
theorem C06_le_iff (p q : Ptr) : p.le q = true ↔ ∃ r : Ptr, p.divKeys r.keys = .ok q := by
  simp only [Ptr.le, beq_iff_eq, C05_div_keys]
  constructor
  · intro h
    refine ⟨⟨q.keys.drop p.keys.length⟩, ?_⟩
    simp only
    congr 1
    cases q with
    | mk qk =>
      simp only at h ⊢
      congr 1
      conv => lhs; lhs; rw [h]
      exact List.take_append_drop _ _
  · rintro ⟨r, hr⟩
    cases hr
    simp

/-- C06: `==` on pointers is equality of the key sequences. -/
theorem C06_eq_iff (p q : Ptr) : p.eq q = true ↔ p = q := by
  cases p; cases q; simp [Ptr.eq]

theorem C06_le_refl (p : Ptr) : p.le p = true := by simp [Ptr.le]

theorem C06_le_trans (p q r : Ptr) (h1 : p.le q = true) (h2 : q.le r = true) : p.le r = true := by
  rw [C06_le_iff] at *
  obtain ⟨a, ha⟩ := h1
  obtain ⟨b, hb⟩ := h2
  rw [C05_div_keys] at ha hb
  cases ha; cases hb
  exact ⟨⟨a.keys ++ b.keys⟩, by simp [C05_div_keys]⟩

theorem C06_le_antisymm (p q : Ptr) (h1 : p.le q = true) (h2 : q.le p = true) :
    p.eq q = true := by
  rw [C06_le_iff] at *
  obtain ⟨a, ha⟩ := h1
  obtain ⟨b, hb⟩ := h2
  rw [C05_div_keys] at ha hb
  cases p with
  | mk pk =>
    cases ha
    simp at hb
    simp [Ptr.eq, hb.1]

/-- C06: `p < q` iff `p <= q` and `p != q`. -/
theorem C06_lt_iff (p q : Ptr) : p.lt q = true ↔ p.le q = true ∧ p.eq q = false := by
  simp only [Ptr.lt, Ptr.le, Ptr.eq, Bool.and_eq_true, decide_eq_true_eq, beq_iff_eq,
    beq_eq_false_iff_ne, ne_eq]
  constructor
  · rintro ⟨h1, h2⟩
    exact ⟨h2, fun h => by rw [h] at h1; omega⟩
  · rintro ⟨h1, h2⟩
    refine ⟨?_, h1⟩
    apply Nat.lt_of_not_le
    intro hle
    rw [List.take_of_length_le hle] at h1
    exact h2 h1

/-- C06: equal pointers have equal hashes, whatever the hash function of tuples. -/
theorem C06_hash (h : List String → Int) (p q : Ptr) (he : p.eq q = true) :
    p.hash h = q.hash h := by
  rw [(C06_eq_iff p q).1 he]

example : (Ptr.mk ["a"]).le ⟨["a", "b"]⟩ = true ∧ (Ptr.mk ["a", "b"]).le ⟨["a", "b", "c"]⟩ = true ∧
    (Ptr.mk ["a"]).lt ⟨["a", "b"]⟩ = true ∧ (Ptr.mk ["a"]).le ⟨["ab"]⟩ = false := by decide

/-! ## C07: evaluation on plain Python documents -/

/-- C07: evaluation succeeds with `v` iff RFC 6901 designates `v`. -/
theorem C07_evaluate_iff (p : Ptr) (doc v : Value) :
    p.evaluate doc = .ok v ↔ Designates doc p.keys v :=
  ⟨resolvePlain_sound, resolvePlain_complete⟩

/-- C07: every failure is `JSONPointerReferenceError`. -/
theorem C07_only_reference_error (p : Ptr) (doc : Value) (e : Exc)
    (h : p.evaluate doc = .error e) : e = .ptrReference := resolvePlain_error h

/-- C07: if nothing is designated, evaluation raises `JSONPointerReferenceError`. -/
theorem C07_undesignated (p : Ptr) (doc : Value) (h : ¬ ∃ v, Designates doc p.keys v) :
    p.evaluate doc = .error .ptrReference := by
  cases he : p.evaluate doc with
  | ok v => exact absurd ⟨v, (C07_evaluate_iff p doc v).1 he⟩ h
  | error e => rw [C07_only_reference_error p doc e he]

/-- C07: a pointer designates at most one value. -/
theorem C07_designates_unique (doc v w : Value) (ks : List String) (h1 : Designates doc ks v)
    (h2 : Designates doc ks w) : v = w := by
  have h1 := resolvePlain_complete h1
  rw [resolvePlain_complete h2] at h1
  cases h1; rfl

/-- C07: `(p / q).evaluate(doc) == q.evaluate(p.evaluate(doc))`, failures included. -/
theorem C07_evaluate_div (p q pq : Ptr) (doc : Value) (h : p.divKeys q.keys = .ok pq) :
    pq.evaluate doc = (match p.evaluate doc with
      | .ok v => q.evaluate v
      | .error e => .error e) := by
  rw [C05_div_keys] at h
  cases h
  exact resolvePlain_append _ _ _

-- {"a": [null, "x"]} at /a/1; and the non-canonical index /a/01 is refused.
example : Designates (.obj [("a", .arr [.null, .str "x"])]) ["a", "1"] (.str "x") :=
  .member (w := .arr [.null, .str "x"]) rfl (.item (i := 1) (w := .str "x") rfl .here)
example : ¬ ∃ v, Designates (.obj [("a", .arr [.null, .str "x"])]) ["a", "01"] v := by
  rintro ⟨v, h⟩
  have := resolvePlain_complete h
  have h2 : resolvePlain ["a", "01"] (.obj [("a", .arr [.null, .str "x"])]) =
    .error .ptrReference := rfl
  rw [h2] at this
  cases this

end Jschon
