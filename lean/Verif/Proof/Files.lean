import Verif.Spec.Files
import Verif.Proof.JsonDump

/-!
# Line ends and parts of JSON text
-/

namespace Jschon
open Spec

variable {lib : FloatLib}

/-! ## Texts that differ in line ends -/

/-- A character of a line end. -/
def isNl (c : Char) : Bool := c = '\n' || c = '\r'

/-- The texts differ in runs of line ends only. -/
inductive Nl : List Char → List Char → Prop
  | nil : Nl [] []
  | same {c s t} : Nl s t → Nl (c :: s) (c :: t)
  | run {w w' s t} : w ≠ [] → w' ≠ [] → (∀ c ∈ w, isNl c = true) → (∀ c ∈ w', isNl c = true) → Nl s t →
      Nl (w ++ s) (w' ++ t)

theorem Nl.symm {s t : List Char} (h : Nl s t) : Nl t s := by
  induction h with
  | nil => exact .nil
  | same _ ih => exact .same ih
  | run a b c d _ ih => exact .run b a d c ih

theorem nl_universal (s : List Char) : Nl s (universal s) := by
  induction s using universal.induct with
  | case1 => exact .nil
  | case2 r ih =>
    have := Nl.run (w := ['\r', '\n']) (w' := ['\n']) (by simp) (by simp) (by simp [isNl]) (by simp [isNl]) ih
    simpa [universal] using this
  | case3 r hr ih =>
    have := Nl.run (w := ['\r']) (w' := ['\n']) (by simp) (by simp) (by simp [isNl]) (by simp [isNl]) ih
    rw [universal.eq_3 _ hr]
    simpa using this
  | case4 c r h1 h2 ih =>
    rw [universal.eq_4 _ _ h1 h2]
    exact .same ih

/-- A part without line ends stays. -/
theorem Nl.token : ∀ (a : List Char) {b t : List Char}, (∀ c ∈ a, isNl c = false) → Nl (a ++ b) t →
    ∃ b', t = a ++ b' ∧ Nl b b'
  | [], b, t, _, h => ⟨t, rfl, h⟩
  | c :: a, b, t, ha, h => by
    generalize e : c :: a ++ b = s at h
    cases h with
    | nil => simp at e
    | @same c' s t h =>
      simp only [List.cons_append, List.cons.injEq] at e
      obtain ⟨rfl, rfl⟩ := e
      obtain ⟨b', rfl, hb⟩ := Nl.token a (fun x hx => ha x (List.mem_cons_of_mem _ hx)) h
      exact ⟨b', rfl, hb⟩
    | @run w w' s t hw _ hn _ h =>
      cases w with
      | nil => exact absurd rfl hw
      | cons d w =>
        simp only [List.cons_append, List.cons.injEq] at e
        have h1 := ha c (by simp)
        have h2 := hn d (by simp)
        rw [← e.1, h1] at h2
        cases h2

/-- It does not begin with a line end. -/
def NoNlHead (b : List Char) : Prop := ∀ c r, b = c :: r → isNl c = false

theorem ws_of_nl {w : List Char} (h : ∀ c ∈ w, isNl c = true) : ∀ {v}, Ws v → Ws (w ++ v) := by
  induction w with
  | nil => exact fun h => h
  | cons c w ih =>
    intro v hv
    have := ih (fun x hx => h x (List.mem_cons_of_mem _ hx)) hv
    have hc := h c (by simp)
    simp only [isNl, Bool.or_eq_true, decide_eq_true_eq] at hc
    rcases hc with rfl | rfl
    · exact .lf this
    · exact .cr this

theorem ws_tail {c : Char} {w : List Char} (h : Ws (c :: w)) : Ws w := by
  cases h <;> assumption

theorem ws_cons {c : Char} {w : List Char} (h : Ws (c :: w)) {v : List Char} (hv : Ws v) : Ws (c :: v) := by
  cases h
  · exact .space hv
  · exact .tab hv
  · exact .lf hv
  · exact .cr hv

theorem ws_drop : ∀ {v w : List Char}, Ws (v ++ w) → Ws w
  | [], _, h => h
  | _ :: v, _, h => ws_drop (v := v) (ws_tail h)

/-- White space stays white space. -/
theorem Nl.space {s t : List Char} (h : Nl s t) : ∀ {w b : List Char}, s = w ++ b → Ws w → NoNlHead b →
    ∃ w' b', t = w' ++ b' ∧ Ws w' ∧ Nl b b' := by
  induction h with
  | nil =>
    intro w b e hw hb
    have : w = [] ∧ b = [] := by simpa using e.symm
    obtain ⟨rfl, rfl⟩ := this
    exact ⟨[], [], rfl, .nil, .nil⟩
  | @same c s t h ih =>
    intro w b e hw hb
    cases w with
    | nil => exact ⟨[], c :: t, rfl, .nil, by rw [List.nil_append] at e; rw [← e]; exact .same h⟩
    | cons d w =>
      simp only [List.cons_append, List.cons.injEq] at e
      obtain ⟨rfl, e⟩ := e
      obtain ⟨w', b', rfl, hw', hb'⟩ := ih e (ws_tail hw) hb
      exact ⟨c :: w', b', rfl, ws_cons hw hw', hb'⟩
  | @run v v' s t hv hv' hn hn' h ih =>
    intro w b e hw hb
    rcases List.append_eq_append_iff.1 e with ⟨x, e1, e2⟩ | ⟨x, e1, e2⟩
    · rw [e1] at hw
      obtain ⟨w', b', rfl, hw', hb'⟩ := ih e2 (ws_drop hw) hb
      exact ⟨v' ++ w', b', by simp, ws_of_nl hn' hw', hb'⟩
    · cases x with
      | nil =>
        simp only [List.append_nil] at e1
        simp only [List.nil_append] at e2
        subst e1 e2
        refine ⟨v', t, rfl, ?_, h⟩
        simpa using ws_of_nl hn' .nil
      | cons c x =>
        have := hb c _ e2
        rw [hn c (by rw [e1]; simp)] at this
        cases this

/-! ## Parts without line ends -/

/-- No line ends. -/
def NoNl (a : List Char) : Prop := ∀ c ∈ a, isNl c = false

theorem NoNl.append {a b : List Char} (ha : NoNl a) (hb : NoNl b) : NoNl (a ++ b) := by
  intro c hc
  rcases List.mem_append.1 hc with h | h
  · exact ha c h
  · exact hb c h

theorem NoNl.cons {c : Char} {b : List Char} (ha : isNl c = false) (hb : NoNl b) : NoNl (c :: b) := by
  intro d hc
  rcases List.mem_cons.1 hc with rfl | h
  · exact ha
  · exact hb d h

theorem NoNl.nil : NoNl [] := fun _ h => (by cases h)

theorem digit_noNl {c : Char} {n : Nat} (h : Digit c n) : isNl c = false := by cases h <;> decide

theorem digits_noNl {s : List Char} {ns : List Nat} (h : Digits s ns) : NoNl s := by
  induction h with
  | nil => exact .nil
  | cons hd _ ih => exact .cons (digit_noNl hd) ih

theorem intPart_noNl {s : List Char} {ns : List Nat} (h : IntPart s ns) : NoNl s ∧ s ≠ [] := by
  cases h with
  | zero => exact ⟨.cons (by decide) .nil, by simp⟩
  | pos hd _ h => exact ⟨.cons (digit_noNl hd) (digits_noNl h), by simp⟩

theorem minus_noNl {s : List Char} {z : Int} (h : Minus s z) : NoNl s := by
  cases h with
  | none => exact .nil
  | some => exact .cons (by decide) .nil

theorem fracPart_noNl {s : List Char} {ns : List Nat} (h : FracPart s ns) : NoNl s := by
  cases h with
  | none => exact .nil
  | some h _ => exact .cons (by decide) (digits_noNl h)

theorem expPart_noNl {s : List Char} {x : Rat} (h : ExpPart s x) : NoNl s := by
  have he : ∀ {c : Char}, c = 'e' ∨ c = 'E' → isNl c = false := by rintro c (rfl | rfl) <;> decide
  cases h with
  | none => exact .nil
  | plain hc h _ => exact .cons (he hc) (digits_noNl h)
  | plus hc h _ => exact .cons (he hc) (.cons (by decide) (digits_noNl h))
  | minus hc h _ => exact .cons (he hc) (.cons (by decide) (digits_noNl h))

theorem intText_noNl {s : List Char} {z : Int} (h : IntText s z) : NoNl s ∧ s ≠ [] := by
  cases h with
  | mk hm hi =>
    have := intPart_noNl hi
    exact ⟨(minus_noNl hm).append this.1, by simp [this.2]⟩

theorem decText_noNl {s : List Char} {d : Rat} (h : DecText s d) : NoNl s ∧ s ≠ [] := by
  cases h with
  | mk hm hi hf he _ =>
    have := intPart_noNl hi
    exact ⟨(((minus_noNl hm).append this.1).append (fracPart_noNl hf)).append (expPart_noNl he), by simp [this.2]⟩

theorem hex_noNl {c : Char} {n : Nat} (h : Hex c n) : isNl c = false := by
  cases h with
  | dec h => exact digit_noNl h
  | _ => decide

theorem hex4_noNl {s : List Char} {n : Nat} (h : Hex4 s n) : NoNl s := by
  cases h with
  | mk a b c d => exact .cons (hex_noNl a) (.cons (hex_noNl b) (.cons (hex_noNl c) (.cons (hex_noNl d) .nil)))

theorem units_noNl {s : List Char} {us : List StrUnit} (h : Units s us) : NoNl s := by
  induction h with
  | nil => exact .nil
  | @char c s us _ _ h1 _ ih =>
    refine .cons ?_ ih
    cases e : isNl c with
    | false => rfl
    | true =>
      simp only [isNl, Bool.or_eq_true, decide_eq_true_eq] at e
      rcases e with rfl | rfl <;> exact absurd h1 (by decide)
  | short he _ ih => exact .cons (by decide) (.cons (by cases he <;> decide) ih)
  | unit hh _ ih => exact .cons (by decide) (.cons (by decide) ((hex4_noNl hh).append ih))

theorem stringText_noNl {s : List Char} {ns : List Nat} (h : StringText s ns) : NoNl s ∧ s ≠ [] := by
  cases h with
  | mk hu _ => exact ⟨.cons (by decide) ((units_noNl hu).append (.cons (by decide) .nil)), by simp⟩

theorem NoNl.head {a : List Char} (h : NoNl a) (hn : a ≠ []) (b : List Char) : NoNlHead (a ++ b) := by
  cases a with
  | nil => exact absurd rfl hn
  | cons c a => rintro d r e; cases e; exact h c (by simp)

theorem noNlHead_cons {c : Char} {r : List Char} (h : isNl c = false) : NoNlHead (c :: r) := by
  rintro d s e; cases e; exact h

theorem denoted_noNlHead {s : List Char} {x : Loaded} (h : Denoted lib s x) (b : List Char) : NoNlHead (s ++ b) := by
  cases h with
  | null => exact noNlHead_cons (by decide)
  | true => exact noNlHead_cons (by decide)
  | false => exact noNlHead_cons (by decide)
  | int h => exact (intText_noNl h).1.head (intText_noNl h).2 b
  | flt h _ => exact (decText_noNl h).1.head (decText_noNl h).2 b
  | inf h _ => exact (decText_noNl h).1.head (decText_noNl h).2 b
  | str h => exact (stringText_noNl h).1.head (stringText_noNl h).2 b
  | arr0 _ => exact noNlHead_cons (by decide)
  | arr _ => exact noNlHead_cons (by decide)
  | obj0 _ => exact noNlHead_cons (by decide)
  | obj _ _ => exact noNlHead_cons (by decide)

/-- What a part of a text is after line ends have changed. -/
def Carried (P : List Char → Prop) (s : List Char) : Prop :=
  ∀ u r, Nl (s ++ u) r → ∃ s' u', r = s' ++ u' ∧ P s' ∧ Nl u u'

/-- The same for a part that may end with white space. -/
def CarriedWs (P : List Char → Prop) (s : List Char) : Prop :=
  ∀ u r, NoNlHead u → Nl (s ++ u) r → ∃ s' u', r = s' ++ u' ∧ P s' ∧ Nl u u'

theorem carried_token {P : List Char → Prop} {s : List Char} (hs : NoNl s) (hp : P s) : Carried P s := by
  intro u r h
  obtain ⟨b', e, hb⟩ := h.token s hs
  exact ⟨s, b', e, hp, hb⟩

theorem carriedWs_ws {w : List Char} (hw : Ws w) : CarriedWs Ws w := fun _ _ hu h => h.space rfl hw hu

theorem noNlHead_nil : NoNlHead [] := fun _ _ e => (by cases e)

theorem carried_bracket {P Q : List Char → Prop} {s : List Char} {a b : Char} (ha : isNl a = false)
    (hb : isNl b = false) (h : CarriedWs P s) (hq : ∀ s', P s' → Q (a :: s' ++ [b])) : Carried Q (a :: s ++ [b]) := by
  intro u r hn
  have hn : Nl ([a] ++ (s ++ ([b] ++ u))) r := by simpa using hn
  obtain ⟨r1, rfl, h1⟩ := hn.token [a] (NoNl.cons ha .nil)
  obtain ⟨s', r2, rfl, hs', h2⟩ := h _ _ (noNlHead_cons hb) h1
  obtain ⟨r3, rfl, h3⟩ := h2.token [b] (NoNl.cons hb .nil)
  exact ⟨a :: s' ++ [b], r3, by simp, hq _ hs', h3⟩

mutual
theorem denoted_carried {s : List Char} {x : Loaded} (h : Denoted lib s x) : Carried (Denoted lib · x) s :=
  match h with
  | .null => carried_token (.cons (by decide) (.cons (by decide) (.cons (by decide) (.cons (by decide) .nil)))) .null
  | .true => carried_token (.cons (by decide) (.cons (by decide) (.cons (by decide) (.cons (by decide) .nil)))) .true
  | .false => carried_token (.cons (by decide) (.cons (by decide) (.cons (by decide) (.cons (by decide)
      (.cons (by decide) .nil))))) .false
  | .int h => carried_token (intText_noNl h).1 (.int h)
  | .flt h h' => carried_token (decText_noNl h).1 (.flt h h')
  | .inf h h' => carried_token (decText_noNl h).1 (.inf h h')
  | .str h => carried_token (stringText_noNl h).1 (.str h)
  | .arr0 hw => carried_bracket (by decide) (by decide) (carriedWs_ws hw) fun _ h => .arr0 h
  | .arr h => carried_bracket (by decide) (by decide) (elements_carried h) fun _ h => .arr h
  | .obj0 hw => carried_bracket (by decide) (by decide) (carriedWs_ws hw) fun _ h => .obj0 h
  | .obj h hm => carried_bracket (by decide) (by decide) (members_carried h) fun _ h => .obj h hm

theorem elements_carried {s : List Char} {xs : List Loaded} (h : Elements lib s xs) :
    CarriedWs (Elements lib · xs) s :=
  match h with
  | .one (w := w) (s := s) (w' := w') hw hs hw' => by
    intro u r hu h
    have h : Nl (w ++ (s ++ (w' ++ u))) r := by simpa using h
    obtain ⟨v, r1, rfl, hv, h1⟩ := carriedWs_ws hw _ _ (denoted_noNlHead hs _) h
    obtain ⟨s', r2, rfl, hs', h2⟩ := denoted_carried hs _ _ h1
    obtain ⟨v', r3, rfl, hv', h3⟩ := carriedWs_ws hw' _ _ hu h2
    exact ⟨v ++ s' ++ v', r3, by simp, .one hv hs' hv', h3⟩
  | .more (w := w) (s := s) (w' := w') (t := t) hw hs hw' ht => by
    intro u r hu h
    have h : Nl (w ++ (s ++ (w' ++ ([','] ++ (t ++ u))))) r := by simpa using h
    obtain ⟨v, r1, rfl, hv, h1⟩ := carriedWs_ws hw _ _ (denoted_noNlHead hs _) h
    obtain ⟨s', r2, rfl, hs', h2⟩ := denoted_carried hs _ _ h1
    obtain ⟨v', r3, rfl, hv', h3⟩ := carriedWs_ws hw' _ _ (noNlHead_cons (by decide)) h2
    obtain ⟨r4, rfl, h4⟩ := h3.token [','] (NoNl.cons (by decide) .nil)
    obtain ⟨t', r5, rfl, ht', h5⟩ := elements_carried ht _ _ hu h4
    exact ⟨v ++ s' ++ v' ++ ',' :: t', r5, by simp, .more hv hs' hv' ht', h5⟩

theorem members_carried {s : List Char} {ms : List (List Nat × Loaded)} (h : Members lib s ms) :
    CarriedWs (Members lib · ms) s :=
  match h with
  | .one (w := w) (n := n) (w' := w') (v := v) (s := s) (w'' := w'') hw hn hw' hv hs hw'' => by
    intro u r hu h
    have h : Nl (w ++ (n ++ (w' ++ ([':'] ++ (v ++ (s ++ (w'' ++ u))))))) r := by simpa using h
    obtain ⟨a, r1, rfl, ha, h1⟩ := carriedWs_ws hw _ _ ((stringText_noNl hn).1.head (stringText_noNl hn).2 _) h
    obtain ⟨r2, rfl, h2⟩ := h1.token n (stringText_noNl hn).1
    obtain ⟨b, r3, rfl, hb, h3⟩ := carriedWs_ws hw' _ _ (noNlHead_cons (by decide)) h2
    obtain ⟨r4, rfl, h4⟩ := h3.token [':'] (NoNl.cons (by decide) .nil)
    obtain ⟨c, r5, rfl, hc, h5⟩ := carriedWs_ws hv _ _ (denoted_noNlHead hs _) h4
    obtain ⟨s', r6, rfl, hs', h6⟩ := denoted_carried hs _ _ h5
    obtain ⟨d, r7, rfl, hd, h7⟩ := carriedWs_ws hw'' _ _ hu h6
    exact ⟨a ++ n ++ b ++ ':' :: c ++ s' ++ d, r7, by simp, .one ha hn hb hc hs' hd, h7⟩
  | .more (w := w) (n := n) (w' := w') (v := v) (s := s) (w'' := w'') (t := t) hw hn hw' hv hs hw'' ht => by
    intro u r hu h
    have h : Nl (w ++ (n ++ (w' ++ ([':'] ++ (v ++ (s ++ (w'' ++ ([','] ++ (t ++ u))))))))) r := by simpa using h
    obtain ⟨a, r1, rfl, ha, h1⟩ := carriedWs_ws hw _ _ ((stringText_noNl hn).1.head (stringText_noNl hn).2 _) h
    obtain ⟨r2, rfl, h2⟩ := h1.token n (stringText_noNl hn).1
    obtain ⟨b, r3, rfl, hb, h3⟩ := carriedWs_ws hw' _ _ (noNlHead_cons (by decide)) h2
    obtain ⟨r4, rfl, h4⟩ := h3.token [':'] (NoNl.cons (by decide) .nil)
    obtain ⟨c, r5, rfl, hc, h5⟩ := carriedWs_ws hv _ _ (denoted_noNlHead hs _) h4
    obtain ⟨s', r6, rfl, hs', h6⟩ := denoted_carried hs _ _ h5
    obtain ⟨d, r7, rfl, hd, h7⟩ := carriedWs_ws hw'' _ _ (noNlHead_cons (by decide)) h6
    obtain ⟨r8, rfl, h8⟩ := h7.token [','] (NoNl.cons (by decide) .nil)
    obtain ⟨t', r9, rfl, ht', h9⟩ := members_carried ht _ _ hu h8
    exact ⟨a ++ n ++ b ++ ':' :: c ++ s' ++ d ++ ',' :: t', r9, by simp, .more ha hn hb hc hs' hd ht', h9⟩
end

theorem nl_nil {r : List Char} (h : Nl [] r) : r = [] := by
  generalize e : ([] : List Char) = s at h
  cases h with
  | nil => rfl
  | same _ => cases e
  | run hw _ _ _ _ => exact absurd (List.append_eq_nil_iff.1 e.symm).1 hw

theorem jsonText_nl {s t : List Char} {x : Loaded} (hn : Nl s t) (h : JsonText lib s x) : JsonText lib t x := by
  obtain ⟨hw, hs, hw'⟩ := h
  rename_i w s w'
  have h : Nl (w ++ (s ++ (w' ++ []))) t := by simpa using hn
  obtain ⟨v, r1, rfl, hv, h1⟩ := carriedWs_ws hw _ _ (denoted_noNlHead hs _) h
  obtain ⟨s', r2, rfl, hs', h2⟩ := denoted_carried hs _ _ h1
  obtain ⟨v', r3, rfl, hv', h3⟩ := carriedWs_ws hw' _ _ noNlHead_nil h2
  rw [nl_nil h3]
  have := JsonText.mk hv hs' hv'
  simpa using this

/-! ## The parts that are written -/

theorem chunkItems_flatten (g : Ref → List (List Char)) (cs : List Ref) :
    (chunkItems g cs).flatten = cs.flatMap fun c => ',' :: ' ' :: (g c).flatten := by
  induction cs with
  | nil => rfl
  | cons c cs ih => simp [chunkItems, ih]

theorem chunkMembers_flatten (g : Ref → List (List Char)) (ms : List (String × Ref)) :
    (chunkMembers g ms).flatten = ms.flatMap fun m => ',' :: ' ' :: (chunkMember g m).flatten := by
  induction ms with
  | nil => rfl
  | cons c cs ih => simp [chunkMembers, ih]

theorem joinComma_cons (x : List Char) (xs : List (List Char)) :
    joinComma (x :: xs) = x ++ xs.flatMap fun y => ',' :: ' ' :: y := by
  induction xs generalizing x with
  | nil => simp [joinComma]
  | cons y ys ih =>
    rw [joinComma, ih]
    · simp
    · simp

theorem chunkF_flatten (f : Nat) (h : JHeap) (r : Ref) : (chunkF lib f h r).flatten = dumpF lib f h r := by
  induction f generalizing r with
  | zero => rfl
  | succ f ih =>
    simp only [chunkF, dumpF]
    cases h.data r with
    | null => rfl
    | bool b => simp [chunkData, dumpData]
    | num n => simp [chunkData, dumpData]
    | str s => simp [chunkData, dumpData]
    | arr cs =>
      cases cs with
      | nil => rfl
      | cons c cs =>
        simp only [chunkData, dumpData, List.map_cons, joinComma_cons, List.flatten_append, List.flatten_cons,
          chunkItems_flatten, ih, List.flatMap_map]
        simp
    | obj ms =>
      cases ms with
      | nil => rfl
      | cons m ms =>
        simp only [chunkData, dumpData, List.map_cons, joinComma_cons, List.flatten_append, List.flatten_cons,
          chunkMembers_flatten, chunkMember, ih, List.flatMap_map]
        simp

/-! ## Encoding -/

theorem bytes_append (c : Codec) (s t : List Char) :
    c.bytes (s ++ t) = (c.bytes s).bind fun a => (c.bytes t).map fun b => a ++ b := by
  induction s with
  | nil => cases h : c.bytes t <;> simp [Codec.bytes, h]
  | cons a s ih =>
    simp only [List.cons_append, Codec.bytes, ih]
    cases c.encode a with
    | none => simp
    | some x =>
      cases c.bytes s with
      | none => simp
      | some y =>
        cases c.bytes t with
        | none => simp
        | some z => simp

theorem newlinesOut_append (m : Machine) (s t : List Char) :
    m.newlinesOut (s ++ t) = m.newlinesOut s ++ m.newlinesOut t := by simp [Machine.newlinesOut]

theorem writeChunks_spec (m : Machine) : ∀ (cs : List (List Char)) (old : List Nat),
    (∃ b, m.writeChunks old cs = (old ++ b, .ok ()) ∧ m.codec.bytes (m.newlinesOut cs.flatten) = some b) ∨
    (∃ b pre c post, m.writeChunks old cs = (old ++ b, .error (.py .valueError)) ∧ cs = pre ++ c :: post ∧
      m.codec.bytes (m.newlinesOut pre.flatten) = some b ∧ m.codec.bytes (m.newlinesOut c) = none)
  | [], old => .inl ⟨[], by simp [Machine.writeChunks], rfl⟩
  | c :: cs, old => by
    simp only [Machine.writeChunks]
    cases hc : m.codec.bytes (m.newlinesOut c) with
    | none => exact .inr ⟨[], [], c, cs, by simp, rfl, rfl, hc⟩
    | some b =>
      simp only
      rcases writeChunks_spec m cs (old ++ b) with ⟨b', e, hb⟩ | ⟨b', pre, d, post, e, hs, hb, hd⟩
      · refine .inl ⟨b ++ b', by rw [e, List.append_assoc], ?_⟩
        rw [List.flatten_cons, newlinesOut_append, bytes_append, hc, hb]; rfl
      · refine .inr ⟨b ++ b', c :: pre, d, post, by rw [e, List.append_assoc], by rw [hs]; rfl, ?_, hd⟩
        rw [List.flatten_cons, newlinesOut_append, bytes_append, hc, hb]; rfl

theorem bytes_covers {c : Codec} {t : List Char} : (∃ b, c.bytes t = some b) ↔ Covers c t := by
  induction t with
  | nil => exact ⟨fun _ _ h => (by cases h), fun _ => ⟨[], rfl⟩⟩
  | cons a t ih =>
    constructor
    · rintro ⟨b, e⟩
      simp only [Codec.bytes] at e
      split at e
      · rename_i x y hx hy
        intro d hd
        rcases List.mem_cons.1 hd with rfl | hd
        · exact ⟨x, hx⟩
        · exact ih.1 ⟨y, hy⟩ d hd
      · cases e
    · intro h
      obtain ⟨x, hx⟩ := h a (by simp)
      obtain ⟨y, hy⟩ := ih.2 (fun d hd => h d (List.mem_cons_of_mem _ hd))
      exact ⟨x ++ y, by simp [Codec.bytes, hx, hy]⟩

theorem bytes_parts {c : Codec} : ∀ {t : List Char} {b : List Nat}, c.bytes t = some b →
    ∃ bs : List (List Nat), bs.flatten = b ∧ bs.length = t.length ∧
      ∀ (i : Nat) a x, t[i]? = some a → bs[i]? = some x → c.encode a = some x
  | [], b, e => by cases e; exact ⟨[], rfl, rfl, fun i a x h => by simp at h⟩
  | a :: t, b, e => by
    simp only [Codec.bytes] at e
    split at e
    · rename_i x y hx hy
      cases e
      obtain ⟨bs, e1, e2, e3⟩ := bytes_parts hy
      refine ⟨x :: bs, by simp [e1], by simp [e2], ?_⟩
      intro i d z hd hz
      cases i with
      | zero => simp at hd hz; subst hd hz; exact hx
      | succ i => simp at hd hz; exact e3 i d z hd hz
    · cases e

theorem decode_bytes {c : Codec} (hc : FaithfulCodec c) {t : List Char} {b : List Nat} (e : c.bytes t = some b) :
    c.decode b = some t := by
  obtain ⟨bs, rfl, e2, e3⟩ := bytes_parts e
  exact hc t bs e2 e3

/-! ## What is written has no line ends -/

theorem newlinesOut_id (m : Machine) {t : List Char} (h : NoNl t) : m.newlinesOut t = t := by
  induction t with
  | nil => rfl
  | cons c t ih =>
    have hc := h c (by simp)
    simp only [isNl, Bool.or_eq_false_iff, decide_eq_false_iff_not] at hc
    have := ih (fun d hd => h d (List.mem_cons_of_mem _ hd))
    simp only [Machine.newlinesOut, List.flatMap_cons, if_neg hc.1] at this ⊢
    rw [this]; rfl

theorem dumpStr_noNl (s : String) : NoNl (dumpStr s) := by
  simp only [dumpStr, List.cons_append]
  refine .cons (by decide) (.append ?_ (.cons (by decide) .nil))
  intro c hc
  obtain ⟨d, _, hd⟩ := List.mem_flatMap.1 hc
  have hlow : ∀ n, n < 16 → isNl (lowHex n) = false := by
    intro n hn
    have : ∀ m : Fin 16, isNl (lowHex m.1) = false := by decide
    exact this ⟨n, hn⟩
  simp only [escapeChar] at hd
  split at hd
  · simp at hd; rcases hd with rfl | rfl <;> decide
  split at hd
  · simp at hd; subst hd; decide
  split at hd
  · simp at hd; rcases hd with rfl | rfl <;> decide
  split at hd
  · simp at hd; rcases hd with rfl | rfl <;> decide
  split at hd
  · simp at hd; rcases hd with rfl | rfl <;> decide
  split at hd
  · simp at hd; rcases hd with rfl | rfl <;> decide
  split at hd
  · simp at hd; rcases hd with rfl | rfl <;> decide
  split at hd
  · rename_i h
    simp at hd
    rcases hd with rfl | rfl | rfl | rfl | rfl
    · decide
    · decide
    · decide
    · exact hlow _ (by omega)
    · exact hlow _ (by omega)
  · rename_i h
    simp at hd; subst hd
    cases e : isNl c with
    | false => rfl
    | true =>
      simp only [isNl, Bool.or_eq_true, decide_eq_true_eq] at e
      rcases e with rfl | rfl <;> exact absurd (by decide) h

theorem dumpNum_noNl (hl : FloatOk lib) {n : Num} (h : Floats lib (.num n)) : NoNl (dumpNum lib n) := by
  cases n with
  | int z =>
    obtain ⟨ns, hs, _⟩ := natStr_int z.natAbs
    have := (intPart_noNl hs).1
    simp only [dumpNum]
    split
    · exact .cons (by decide) this
    · exact this
  | flt q =>
    cases h with
    | flt h =>
      obtain ⟨d, hd, _⟩ := hl.repr q h
      exact (decText_noNl hd).1

theorem joinComma_noNl {xs : List (List Char)} (h : ∀ x ∈ xs, NoNl x) : NoNl (joinComma xs) := by
  cases xs with
  | nil => exact .nil
  | cons x xs =>
    rw [joinComma_cons]
    refine .append (h x (by simp)) ?_
    intro c hc
    obtain ⟨y, hy, hc⟩ := List.mem_flatMap.1 hc
    exact NoNl.cons (by decide) (.cons (by decide) (h y (List.mem_cons_of_mem _ hy))) c hc

theorem dumpVal_noNl (hl : FloatOk lib) {v : Value} (hf : Floats lib v) : NoNl (dumpVal lib v) := by
  induction hf with
  | null => show NoNl "null".toList; unfold NoNl; decide
  | @bool b =>
    cases b
    · show NoNl "false".toList; unfold NoNl; decide
    · show NoNl "true".toList; unfold NoNl; decide
  | int => exact dumpNum_noNl hl .int
  | flt h => exact dumpNum_noNl hl (.flt h)
  | str => exact dumpStr_noNl _
  | @arr xs _ ih =>
    simp only [dumpVal]
    refine .cons (by decide) (.append (joinComma_noNl ?_) (.cons (by decide) .nil))
    rw [dumpVals_map]
    intro x hx
    obtain ⟨v, hv, rfl⟩ := List.mem_map.1 hx
    exact ih v hv
  | @obj kvs _ ih =>
    simp only [dumpVal]
    refine .cons (by decide) (.append (joinComma_noNl ?_) (.cons (by decide) .nil))
    rw [dumpMems_map]
    intro x hx
    obtain ⟨v, hv, rfl⟩ := List.mem_map.1 hx
    exact (dumpStr_noNl _).append (.cons (by decide) (.cons (by decide) (ih v hv)))

/-! ## A part of a text is no text -/

/-- An array or object is read up to its end, whatever follows. -/
theorem scanOnce_container {s : List Char} {x : Loaded} (h : Denoted lib s x) {c : Char} {r : List Char}
    (e : s = c :: r) (hc : c = '[' ∨ c = '{') (f : Nat) (t : List Char) (hf : 2 * s.length ≤ f) :
    scanOnce lib f (s ++ t) = .ok (x, t) := by
  have num : ∀ {v}, NumText lib s v → False := by
    intro v hn
    obtain ⟨c', r', e', h' | ⟨rfl, _⟩⟩ := num_head hn
    · rw [e] at e'; cases e'
      rcases hc with rfl | rfl <;> exact absurd h' (by decide)
    · rw [e] at e'; cases e'
      rcases hc with h | h <;> exact absurd h (by decide)
  cases h with
  | null => cases e; rcases hc with h | h <;> exact absurd h (by decide)
  | true => cases e; rcases hc with h | h <;> exact absurd h (by decide)
  | false => cases e; rcases hc with h | h <;> exact absurd h (by decide)
  | int h => exact (num (.int h)).elim
  | flt h _ => exact (num (.dec h)).elim
  | inf h _ => exact (num (.dec h)).elim
  | str h =>
    obtain ⟨r', e'⟩ := string_head h
    rw [e] at e'; cases e'
    rcases hc with h | h <;> exact absurd h (by decide)
  | arr0 hw =>
    obtain ⟨f, rfl⟩ : ∃ g, f = g + 1 := ⟨f - 1, by simp at hf; omega⟩
    simp only [List.cons_append, List.append_assoc, List.nil_append]
    rw [scanOnce_bracket]
    simp only [skip_tail hw (show isJsonSpace ']' = false by decide)]
  | arr h =>
    obtain ⟨f, rfl⟩ : ∃ g, f = g + 1 := ⟨f - 1, by simp at hf; omega⟩
    simp only [List.cons_append, List.append_assoc, List.nil_append]
    rw [scanOnce_bracket]
    have := scanItems_of h f t (by simp at hf; omega)
    obtain ⟨c, r, e, hc⟩ := elements_head h (']' :: t)
    split
    · rename_i r' e'; rw [e] at e'; cases e'; exact absurd rfl hc
    · exact this
  | obj0 hw =>
    obtain ⟨f, rfl⟩ : ∃ g, f = g + 1 := ⟨f - 1, by simp at hf; omega⟩
    simp only [List.cons_append, List.append_assoc, List.nil_append]
    rw [scanOnce_brace]
    simp only [skip_tail hw (show isJsonSpace '}' = false by decide)]
  | obj h hm =>
    obtain ⟨f, rfl⟩ : ∃ g, f = g + 1 := ⟨f - 1, by simp at hf; omega⟩
    simp only [List.cons_append, List.append_assoc, List.nil_append]
    rw [scanOnce_brace]
    have := scanMembers_of h f [] t (by simp at hf; omega)
    obtain ⟨r, e⟩ := members_head h ('}' :: t)
    rw [merged_iff.1 hm]
    split
    · rename_i r' e'; rw [e] at e'; cases e'
    · exact this

theorem part_not_json {pre post : List Char} {y : Loaded} (h : Denoted lib (pre ++ post) y) (hp : post ≠ [])
    (hc : pre = [] ∨ ∃ c r, pre = c :: r ∧ (c = '[' ∨ c = '{')) : ¬ ∃ x, JsonText lib pre x := by
  rintro ⟨x, hx⟩
  obtain ⟨hw, hs, hw'⟩ := hx
  rename_i w s w'
  obtain ⟨d, t, rfl, _⟩ := denoted_head hs
  rcases hc with e | ⟨c, r, e, hc⟩
  · simp at e
  · cases w with
    | cons a w =>
      simp only [List.cons_append, List.cons.injEq] at e
      have := e.1
      subst this
      rcases hc with rfl | rfl <;> cases hw
    | nil =>
      simp only [List.nil_append, List.cons_append, List.cons.injEq] at e
      obtain ⟨rfl, _⟩ := e
      have h1 := scanOnce_container hs rfl hc (2 * (d :: t ++ w' ++ post).length) (w' ++ post)
        (by simp; omega)
      have h2 := scanOnce_of h (2 * (d :: t ++ w' ++ post).length) [] (by simp) valStop_nil
      have e : ([] ++ d :: t ++ w' ++ post) ++ [] = d :: t ++ (w' ++ post) := by simp
      rw [e, h1] at h2
      simp only [Except.ok.injEq, Prod.mk.injEq] at h2
      exact hp (List.append_eq_nil_iff.1 h2.2).2

theorem chunks_head {f : Nat} {h : JHeap} {r : Ref} {pre : List (List Char)} {c : List Char}
    {post : List (List Char)} (e : chunkF lib f h r = pre ++ c :: post) :
    pre.flatten = [] ∨ ∃ c r, pre.flatten = c :: r ∧ (c = '[' ∨ c = '{') := by
  cases pre with
  | nil => exact .inl rfl
  | cons p pre =>
    have one : ∀ {x : List Char}, [x] = p :: pre ++ c :: post → False := by
      intro x h; simp at h
    right
    cases f with
    | zero => exact (one e).elim
    | succ f =>
      simp only [chunkF] at e
      cases hd : h.data r with
      | null => rw [hd] at e; exact (one e).elim
      | bool b => rw [hd] at e; exact (one e).elim
      | num n => rw [hd] at e; exact (one e).elim
      | str s => rw [hd] at e; exact (one e).elim
      | arr cs =>
        rw [hd] at e
        cases cs with
        | nil => exact (one e).elim
        | cons x cs =>
          simp only [chunkData, List.cons_append, List.cons.injEq] at e
          exact ⟨'[', _, by rw [List.flatten_cons, ← e.1]; rfl, .inl rfl⟩
      | obj ms =>
        rw [hd] at e
        cases ms with
        | nil => exact (one e).elim
        | cons x cs =>
          simp only [chunkData, List.cons_append, List.cons.injEq] at e
          exact ⟨'{', _, by rw [List.flatten_cons, ← e.1]; rfl, .inr rfl⟩

end Jschon
