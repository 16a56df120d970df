import Verif.Model.Rfc3986
import Verif.Spec.Document
import Verif.Proof.ToyEnv

/-!
# URIs by RFC 3986: components and text, dot segments, resolution
-/

namespace Jschon.Rfc
open Spec

/-! ## Components and text -/

theorem splitScheme_text (t : List Char) : mark [] [':'] (splitScheme t).1 ++ (splitScheme t).2 = t := by
  unfold splitScheme
  split
  · split
    · rename_i r h
      have := List.takeWhile_append_dropWhile (p := schemeChar) (l := t)
      rw [h] at this
      simp [mark, this]
    · rfl
  · rfl

theorem splitAuthority_text (t : List Char) : mark ['/', '/'] [] (splitAuthority t).1 ++ (splitAuthority t).2 = t := by
  unfold splitAuthority
  split
  · simp [mark, List.takeWhile_append_dropWhile]
  · rfl

theorem splitQuery_text (t : List Char) : mark ['?'] [] (splitQuery t).1 ++ (splitQuery t).2 = t := by
  unfold splitQuery
  split
  · simp [mark, List.takeWhile_append_dropWhile]
  · rfl

theorem dropWhile_head {p : Char → Bool} (l : List Char) : l.dropWhile p = [] ∨ ∃ c r, l.dropWhile p = c :: r ∧ p c = false := by
  induction l with
  | nil => exact .inl rfl
  | cons c l ih =>
    rw [List.dropWhile_cons]
    split
    · exact ih
    · rename_i h; exact .inr ⟨c, l, rfl, by simpa using h⟩

theorem splitQuery_rest (t : List Char) (h : t = [] ∨ ∃ c r, t = c :: r ∧ (c = '?' ∨ c = '#')) :
    (splitQuery t).2 = [] ∨ ∃ r, (splitQuery t).2 = '#' :: r := by
  unfold splitQuery
  split
  · rename_i r
    rcases dropWhile_head (p := fun c => c ∉ ['#']) r with h | ⟨c, l, h, hc⟩
    · exact .inl h
    · simp at hc; subst hc; exact .inr ⟨l, h⟩
  · rename_i hq
    rcases h with rfl | ⟨c, r, rfl, rfl | rfl⟩
    · exact .inl rfl
    · exact absurd rfl (hq r)
    · exact .inr ⟨r, rfl⟩

/-- The components have the text that they were taken from. -/
theorem split_text (t : List Char) : (split t).text = t := by
  have h1 := splitScheme_text t
  have h2 := splitAuthority_text (splitScheme t).2
  have hh : (splitAuthority (splitScheme t).2).2.dropWhile (fun c => c ∉ ['?', '#']) = [] ∨
      ∃ c r, (splitAuthority (splitScheme t).2).2.dropWhile (fun c => c ∉ ['?', '#']) = c :: r ∧ (c = '?' ∨ c = '#') := by
    rcases dropWhile_head (p := fun c => c ∉ ['?', '#']) (splitAuthority (splitScheme t).2).2 with h | ⟨c, r, h, hc⟩
    · exact .inl h
    · exact .inr ⟨c, r, h, by simp at hc; exact Classical.or_iff_not_imp_left.2 hc⟩
  have h3 := splitQuery_text ((splitAuthority (splitScheme t).2).2.dropWhile (fun c => c ∉ ['?', '#']))
  have h4 := splitQuery_rest _ hh
  have h5 : mark ['#'] [] (splitFragment (splitQuery ((splitAuthority (splitScheme t).2).2.dropWhile (fun c => c ∉ ['?', '#']))).2) =
      (splitQuery ((splitAuthority (splitScheme t).2).2.dropWhile (fun c => c ∉ ['?', '#']))).2 := by
    rcases h4 with h | ⟨r, h⟩ <;> rw [h] <;> simp [splitFragment, mark]
  simp only [split, Parts.text]
  rw [h5, h3, List.takeWhile_append_dropWhile, h2, h1]

theorem takeWhile_all {p : Char → Bool} {l : List Char} (h : ∀ c ∈ l, p c = true) (r : List Char)
    (hr : ∀ c t, r = c :: t → p c = false) :
    (l ++ r).takeWhile p = l ∧ (l ++ r).dropWhile p = r := by
  induction l with
  | nil =>
    cases r with
    | nil => exact ⟨rfl, rfl⟩
    | cons c t => simp [List.takeWhile_cons, List.dropWhile_cons, hr c t rfl]
  | cons c l ih =>
    obtain ⟨h1, h2⟩ := ih fun d hd => h d (List.mem_cons_of_mem _ hd)
    simp only [List.cons_append, List.takeWhile_cons, List.dropWhile_cons, h c List.mem_cons_self, if_true, h1, h2,
      and_self]

/-- Components that their text leads back to. -/
structure Fits (r : Parts) : Prop where
  scheme : ∀ s, r.scheme = some s → (∃ c t, s = c :: t ∧ isAlpha c = true) ∧ ∀ c ∈ s, schemeChar c = true
  /-- without a scheme, the rest is not taken for one -/
  noScheme : r.scheme = none → ({ r with scheme := none } : Parts).noColon = true
  authority : ∀ a, r.authority = some a → (∀ c ∈ a, c ∉ ['/', '?', '#']) ∧ (r.path = [] ∨ ∃ p, r.path = '/' :: p)
  path : (∀ c ∈ r.path, c ∉ ['?', '#']) ∧ (r.authority = none → ∀ p, r.path ≠ '/' :: '/' :: p)
  query : ∀ q, r.query = some q → ∀ c ∈ q, c ≠ '#'

theorem not_alpha_slash {c : Char} (h : isAlpha c = true) : c ≠ '/' ∧ c ≠ ':' := by
  refine ⟨?_, ?_⟩ <;> rintro rfl <;> exact absurd h (by decide)

theorem mark_query (q X : List Char) : mark ['?'] [] (some q) ++ X = '?' :: (q ++ X) := by simp [mark]

theorem mark_authority (a X : List Char) : mark ['/', '/'] [] (some a) ++ X = '/' :: '/' :: (a ++ X) := by simp [mark]

theorem mark_scheme (s X : List Char) : mark [] [':'] (some s) ++ X = s ++ ':' :: X := by simp [mark]

theorem mark_tail (q f : Option (List Char)) {c : Char} {t : List Char}
    (h : mark ['?'] [] q ++ mark ['#'] [] f = c :: t) : c = '?' ∨ c = '#' := by
  cases q with
  | some q => rw [mark_query] at h; cases h; exact .inl rfl
  | none =>
    cases f with
    | none => cases h
    | some f => cases h; exact .inr rfl

theorem text_split {r : Parts} (h : Fits r) : split r.text = r := by
  obtain ⟨s, a, p, q, f⟩ := r
  have hf : splitFragment (mark ['#'] [] f) = f := by cases f <;> simp [mark, splitFragment]
  have hq : splitQuery (mark ['?'] [] q ++ mark ['#'] [] f) = (q, mark ['#'] [] f) := by
    cases q with
    | none => cases f <;> simp [mark, splitQuery]
    | some q =>
      have := takeWhile_all (p := fun c => c ∉ ['#']) (l := q) (fun c hc => by simpa using h.query q rfl c hc)
        (mark ['#'] [] f) (by cases f <;> simp [mark])
      rw [mark_query, splitQuery, this.1, this.2]
  have hp := takeWhile_all (p := fun c => c ∉ ['?', '#']) (l := p) (fun c hc => by simpa using h.path.1 c hc)
    (mark ['?'] [] q ++ mark ['#'] [] f) (fun c t e => by rcases mark_tail q f e with rfl | rfl <;> rfl)
  have ha : splitAuthority (mark ['/', '/'] [] a ++ (p ++ (mark ['?'] [] q ++ mark ['#'] [] f))) =
      (a, p ++ (mark ['?'] [] q ++ mark ['#'] [] f)) := by
    cases a with
    | none =>
      simp only [mark, List.nil_append]
      unfold splitAuthority
      split
      · rename_i r e
        exfalso
        have := h.path.2 rfl
        match p, this, e with
        | [], _, e => cases q <;> cases f <;> simp [mark] at e
        | [c], _, e => cases q <;> cases f <;> simp [mark] at e
        | c :: d :: p, this, e => simp at e; exact this p (by simp [e])
      · rfl
    | some a =>
      obtain ⟨h1, h2⟩ := h.authority a rfl
      have := takeWhile_all (p := fun c => c ∉ ['/', '?', '#']) (l := a) (fun c hc => by simpa using h1 c hc)
        (p ++ (mark ['?'] [] q ++ mark ['#'] [] f)) (by
          intro c t e
          rcases h2 with h2 | ⟨p', h2⟩
          · simp only at h2; subst h2
            rcases mark_tail q f e with rfl | rfl <;> rfl
          · simp only at h2; subst h2
            simp at e; simp [← e.1])
      rw [mark_authority, splitAuthority, this.1, this.2]
  have hs : splitScheme (mark [] [':'] s ++ (mark ['/', '/'] [] a ++ (p ++ (mark ['?'] [] q ++ mark ['#'] [] f)))) =
      (s, mark ['/', '/'] [] a ++ (p ++ (mark ['?'] [] q ++ mark ['#'] [] f))) := by
    cases s with
    | some s =>
      obtain ⟨⟨c, t, rfl, hc⟩, hall⟩ := h.scheme s rfl
      have := takeWhile_all (p := schemeChar) (l := c :: t) hall
        (':' :: (mark ['/', '/'] [] a ++ (p ++ (mark ['?'] [] q ++ mark ['#'] [] f)))) (by
          intro d u e; simp at e; rw [← e.1]; decide)
      rw [mark_scheme]
      unfold splitScheme
      rw [this.2, this.1]
      simp [hc]
    | none =>
      show splitScheme (mark ['/', '/'] [] a ++ (p ++ (mark ['?'] [] q ++ mark ['#'] [] f))) = _
      unfold splitScheme
      split
      · rename_i hh
        split
        · rename_i r e
          exfalso
          have hn := h.noScheme rfl
          cases a with
          | some a => rw [mark_authority] at hh; exact absurd (show isAlpha '/' = true from hh) (by decide)
          | none =>
            replace e : (p ++ (mark ['?'] [] q ++ mark ['#'] [] f)).dropWhile schemeChar = ':' :: r := e
            simp only [Parts.noColon, Option.isSome_none, Bool.false_or, Bool.not_eq_true'] at hn
            -- the first colon comes before any slash
            have key : ∀ (l m : List Char), (∀ c t, m = c :: t → c = '?' ∨ c = '#') →
                (l ++ m).dropWhile schemeChar = ':' :: r → (l.takeWhile (· ≠ '/')).contains ':' = true := by
              intro l
              induction l with
              | nil =>
                intro m hm e
                exfalso
                cases m with
                | nil => simp at e
                | cons c t =>
                  have hc := hm c t rfl
                  have : schemeChar c = false := by rcases hc with rfl | rfl <;> decide
                  simp only [List.nil_append, List.dropWhile_cons, this] at e
                  simp at e
                  rcases hc with rfl | rfl <;> simp at e
              | cons c l ih =>
                intro m hm e
                rw [List.cons_append, List.dropWhile_cons] at e
                split at e
                · rename_i hc
                  have : c ≠ '/' := by rintro rfl; exact absurd hc (by decide)
                  have := ih m hm e
                  simp_all [List.takeWhile_cons]
                · simp at e
                  simp [List.takeWhile_cons, e.1]
            have := key p (mark ['?'] [] q ++ mark ['#'] [] f) (fun c t e => mark_tail q f e) e
            rw [this] at hn; cases hn
        · rfl
      · rfl
  simp only [split, Parts.text]
  rw [hs, ha]
  simp only [hp.1, hp.2, hq, hf]

/-! ## Segments -/

/-- A segment with the slash before it. -/
def Rooted (p : List Char) : Prop := ∃ t, p = '/' :: t

/-- Segments, each of which but the first has a slash before it. -/
structure Segs (ps : List (List Char)) : Prop where
  each : ∀ p ∈ ps, p ≠ [] ∧ '/' ∉ p.tail
  rooted : ∀ p ∈ ps.tail, Rooted p

theorem pieces_flatten (l : List Char) : (pieces l).flatten = l := by
  induction l with
  | nil => rfl
  | cons c l ih =>
    unfold pieces
    split <;> rename_i h <;> rw [h] at ih <;> rw [← ih] <;> simp

theorem pieces_segs (l : List Char) : Segs (pieces l) := by
  induction l with
  | nil => exact ⟨fun p h => (by cases h), fun p h => (by cases h)⟩
  | cons c l ih =>
    unfold pieces
    split
    · rename_i p ps h
      rw [h] at ih
      refine ⟨fun q hq => ?_, fun q hq => ?_⟩
      · rcases List.mem_cons.1 hq with rfl | hq
        · simp
        · exact ih.each q hq
      · rcases List.mem_cons.1 hq with rfl | hq
        · exact ⟨p, rfl⟩
        · exact ih.rooted q hq
    · rename_i p ps hn h
      rw [h] at ih
      refine ⟨fun q hq => ?_, fun q hq => ih.rooted q hq⟩
      rcases List.mem_cons.1 hq with rfl | hq
      · refine ⟨by simp, ?_⟩
        obtain ⟨h1, h2⟩ := ih.each p List.mem_cons_self
        cases p with
        | nil => exact absurd rfl h1
        | cons d p =>
          simp only [List.tail_cons, List.mem_cons, not_or] at h2 ⊢
          exact ⟨fun e => hn p (by rw [e]), h2⟩
      · exact ih.each q (List.mem_cons_of_mem _ hq)
    · exact ⟨fun q hq => (by simp at hq; subst hq; simp), fun q hq => (by cases hq)⟩

theorem pieces_append (a : List Char) (h0 : a ≠ []) (h1 : '/' ∉ a.tail) (r : List Char) (hr : r = [] ∨ Rooted r) :
    pieces (a ++ r) = a :: pieces r := by
  induction a with
  | nil => exact absurd rfl h0
  | cons c a ih =>
    cases a with
    | nil =>
      show pieces (c :: r) = [c] :: pieces r
      have hp : r = [] ∨ ∃ p ps, pieces r = ('/' :: p) :: ps := by
        rcases hr with rfl | ⟨t, rfl⟩
        · exact .inl rfl
        · right
          have h := pieces_flatten ('/' :: t)
          have h' := pieces_segs ('/' :: t)
          cases hc : pieces ('/' :: t) with
          | nil => rw [hc] at h; cases h
          | cons p ps =>
            rw [hc] at h h'
            obtain ⟨h2, -⟩ := h'.each p List.mem_cons_self
            cases p with
            | nil => exact absurd rfl h2
            | cons d p => simp at h; exact ⟨p, ps, by rw [h.1]⟩
      rcases hp with rfl | ⟨p, ps, hp⟩
      · rfl
      · simp only [pieces, hp]
    | cons d a =>
      have := ih (by simp) (by simp at h1 ⊢; exact h1.2)
      have hd : d ≠ '/' := by rintro rfl; simp at h1
      simp only [List.cons_append] at this ⊢
      rw [pieces, this]
      split
      · rename_i h; simp at h; exact absurd h.1.1 hd
      · rename_i h; simp at h; rw [← h.1, ← h.2]
      · rename_i h; cases h

theorem pieces_of_flatten {ps : List (List Char)} (h : Segs ps) : pieces ps.flatten = ps := by
  induction ps with
  | nil => rfl
  | cons p ps ih =>
    have hs : Segs ps := ⟨fun q hq => h.each q (List.mem_cons_of_mem _ hq), fun q hq => h.rooted q (List.mem_of_mem_tail hq)⟩
    obtain ⟨h1, h2⟩ := h.each p List.mem_cons_self
    rw [List.flatten_cons, pieces_append p h1 h2, ih hs]
    cases ps with
    | nil => exact .inl rfl
    | cons q ps =>
      obtain ⟨t, rfl⟩ := h.rooted q List.mem_cons_self
      exact .inr ⟨t ++ ps.flatten, by simp⟩

/-! ## Dot segments -/

/-- Segments among which there is none to remove. -/
structure NoDots (ps : List (List Char)) : Prop extends Segs ps where
  dots : ∀ p ∈ ps, p ≠ ['/', '.'] ∧ p ≠ ['/', '.', '.']
  first : ps.head? ≠ some ['.'] ∧ ps.head? ≠ some ['.', '.']

theorem dotLoop_id {ps : List (List Char)} (h : ∀ p ∈ ps, p ≠ ['/', '.'] ∧ p ≠ ['/', '.', '.']) (out : List (List Char)) :
    dotLoop out ps = out.reverse ++ ps := by
  induction ps generalizing out with
  | nil => simp [dotLoop]
  | cons p ps ih =>
    obtain ⟨h1, h2⟩ := h p List.mem_cons_self
    rw [dotLoop, if_neg h1, if_neg h2, ih fun q hq => h q (List.mem_cons_of_mem _ hq)]
    simp

theorem strip_id {l : List Char} (h1 : (pieces l).head? ≠ some ['.']) (h2 : (pieces l).head? ≠ some ['.', '.']) :
    strip l = l := by
  unfold strip
  split
  · exact absurd rfl h1
  · exact absurd rfl h2
  · rename_i r
    rw [show '.' :: '/' :: r = ['.'] ++ '/' :: r from rfl, pieces_append _ (by simp) (by simp) _ (.inr ⟨r, rfl⟩)] at h1
    exact absurd rfl h1
  · rename_i r
    rw [show '.' :: '.' :: '/' :: r = ['.', '.'] ++ '/' :: r from rfl,
      pieces_append _ (by simp) (by simp) _ (.inr ⟨r, rfl⟩)] at h2
    exact absurd rfl h2
  · rfl

theorem strip_first (l : List Char) : (pieces (strip l)).head? ≠ some ['.'] ∧ (pieces (strip l)).head? ≠ some ['.', '.'] := by
  induction l using strip.induct with
  | case1 | case2 => simp [strip, pieces]
  | case3 r ih => rw [strip]; exact ih
  | case4 r ih => rw [strip]; exact ih
  | case5 p n1 n2 n3 n4 =>
    have e : strip p = p := by
      unfold strip; split
      · exact absurd rfl n1
      · exact absurd rfl n2
      · rename_i r; exact absurd rfl (n3 r)
      · rename_i r; exact absurd rfl (n4 r)
      · rfl
    rw [e]
    have hf := pieces_flatten p
    have hs := pieces_segs p
    cases hp : pieces p with
    | nil => simp
    | cons q ps =>
      rw [hp] at hf hs
      simp only [List.head?_cons, ne_eq, Option.some.injEq]
      refine ⟨?_, ?_⟩ <;> rintro rfl
      · cases ps with
        | nil => exact n1 (by simpa using hf.symm)
        | cons u ps =>
          obtain ⟨t, rfl⟩ := hs.rooted u List.mem_cons_self
          exact n3 (t ++ ps.flatten) (by simpa using hf.symm)
      · cases ps with
        | nil => exact n2 (by simpa using hf.symm)
        | cons u ps =>
          obtain ⟨t, rfl⟩ := hs.rooted u List.mem_cons_self
          exact n4 (t ++ ps.flatten) (by simpa using hf.symm)

/-- A list of segments without its last one. -/
theorem NoDots.init {ps : List (List Char)} {p : List Char} (h : NoDots (ps ++ [p])) : NoDots ps := by
  refine ⟨⟨fun q hq => h.each q (List.mem_append_left _ hq), fun q hq => ?_⟩,
    fun q hq => h.dots q (List.mem_append_left _ hq), ?_⟩
  · cases ps with
    | nil => cases hq
    | cons a ps => exact h.rooted q (by simp at hq ⊢; exact .inl hq)
  · cases ps with
    | nil => simp
    | cons a ps => simpa using h.first

theorem NoDots.nil : NoDots [] := ⟨⟨fun q hq => (by cases hq), fun q hq => (by cases hq)⟩, fun q hq => (by cases hq), by simp⟩

theorem NoDots.snoc {ps : List (List Char)} (h : NoDots ps) {p : List Char} (h1 : p ≠ [] ∧ '/' ∉ p.tail)
    (h2 : p ≠ ['/', '.'] ∧ p ≠ ['/', '.', '.']) (h3 : p ≠ ['.'] ∧ p ≠ ['.', '.']) (h4 : ps = [] ∨ Rooted p) : NoDots (ps ++ [p]) := by
  refine ⟨⟨fun q hq => ?_, fun q hq => ?_⟩, fun q hq => ?_, ?_⟩
  · rcases List.mem_append.1 hq with hq | hq
    · exact h.each q hq
    · simp at hq; subst hq; exact h1
  · cases ps with
    | nil => cases hq
    | cons a ps =>
      rcases List.mem_append.1 (show q ∈ ps ++ [p] from hq) with hq | hq
      · exact h.rooted q hq
      · simp at hq; subst hq; exact h4.resolve_left (by simp)
  · rcases List.mem_append.1 hq with hq | hq
    · exact h.dots q hq
    · simp at hq; subst hq; exact h2
  · cases ps with
    | nil => simpa using h3
    | cons a ps => simpa using h.first

theorem NoDots.pop {out : List (List Char)} (h : NoDots out.reverse) : NoDots out.tail.reverse := by
  cases out with
  | nil => exact h
  | cons a out => rw [List.reverse_cons] at h; exact h.init

/-- The loop yields segments without dots. -/
theorem dotLoop_noDots {ps : List (List Char)} (out : List (List Char)) (h : NoDots out.reverse) (hs : Segs ps)
    (h1 : ∀ p ∈ ps, out = [] ∨ Rooted p) (h2 : out = [] → ps.head? ≠ some ['.'] ∧ ps.head? ≠ some ['.', '.']) :
    NoDots (dotLoop out ps) := by
  induction ps generalizing out with
  | nil => exact h
  | cons p ps ih =>
    have hs' : Segs ps := ⟨fun q hq => hs.each q (List.mem_cons_of_mem _ hq), fun q hq => hs.rooted q (List.mem_of_mem_tail hq)⟩
    have hr : ∀ q ∈ ps, Rooted q := hs.rooted
    have hroot : ∀ o : List (List Char), ∀ q ∈ ps, o = [] ∨ Rooted q := fun o q hq => .inr (hr q hq)
    have hh : ps.head? ≠ some ['.'] ∧ ps.head? ≠ some ['.', '.'] := by
      cases ps with
      | nil => simp
      | cons q ps => obtain ⟨t, rfl⟩ := hr q List.mem_cons_self; simp
    have slash : ∀ o : List (List Char), NoDots o.reverse → NoDots (['/'] :: o).reverse := by
      intro o ho
      rw [List.reverse_cons]
      exact ho.snoc (by simp) (by simp) (by simp) (.inr ⟨[], rfl⟩)
    rw [dotLoop]
    split
    · split
      · exact ih _ (slash _ h) hs' (hroot _) fun _ => hh
      · exact ih _ h hs' (hroot _) fun _ => hh
    · split
      · split
        · exact ih _ (slash _ h.pop) hs' (hroot _) fun _ => hh
        · exact ih _ h.pop hs' (hroot _) fun _ => hh
      · rename_i e1 e2
        refine ih _ ?_ hs' (hroot _) fun _ => hh
        rw [List.reverse_cons]
        refine h.snoc (hs.each p List.mem_cons_self) ⟨e1, e2⟩ ?_ ?_
        · rcases h1 p List.mem_cons_self with e | ⟨t, rfl⟩
          · simpa using h2 e
          · simp
        · rcases h1 p List.mem_cons_self with rfl | e
          · exact .inl rfl
          · exact .inr e

theorem dots_noDots (p : List Char) : NoDots (dotLoop [] (pieces (strip p))) :=
  dotLoop_noDots [] NoDots.nil (pieces_segs _) (fun _ _ => .inl rfl) fun _ => strip_first p

theorem pieces_dots (p : List Char) : pieces (dots p) = dotLoop [] (pieces (strip p)) :=
  pieces_of_flatten (dots_noDots p).toSegs

/-- Nothing is left to remove. -/
theorem dots_dots (p : List Char) : dots (dots p) = dots p := by
  have h := dots_noDots p
  rw [← pieces_dots] at h
  have e : strip (dots p) = dots p := strip_id h.first.1 h.first.2
  rw [dots, e, dotLoop_id h.dots]
  simp [pieces_flatten]

/-! ## Characters -/

theorem isHex_up {c : Char} (h : isHex c = true) : isHex (upHex c) = true := by
  unfold upHex; split <;> first | rfl | assumption

theorem upHex_up (c : Char) : upHex (upHex c) = upHex c := by
  unfold upHex; split <;> first | rfl | (split <;> simp_all)

theorem upHex_pct {c : Char} (h : c ≠ '%') : upHex c ≠ '%' := by
  unfold upHex; split <;> first | decide | exact h

theorem upperFrom_idem (n : Nat) (l : List Char) : upperFrom n (upperFrom n l) = upperFrom n l := by
  induction l generalizing n with
  | nil => rfl
  | cons c l ih =>
    by_cases h1 : c = '%'
    · subst h1; simp [upperFrom, ih]
    · by_cases h2 : n ≠ 0 ∧ isHex c = true
      · have e : upperFrom n (c :: l) = upHex c :: upperFrom (n - 1) l := by rw [upperFrom, if_neg h1, if_pos h2]
        rw [e, upperFrom, if_neg (upHex_pct h1), if_pos ⟨h2.1, isHex_up h2.2⟩, upHex_up, ih]
      · simp only [upperFrom, if_neg h1, if_neg h2, ih]

theorem upperFrom_append (n : Nat) (a : List Char) {r : List Char} (hr : r = [] ∨ Rooted r) :
    upperFrom n (a ++ r) = upperFrom n a ++ upperFrom 0 r := by
  induction a generalizing n with
  | nil =>
    rcases hr with rfl | ⟨t, rfl⟩
    · rfl
    · have h : ¬ (n ≠ 0 ∧ isHex '/' = true) := fun h => absurd h.2 (by decide)
      simp only [List.nil_append, upperFrom, if_neg h]
      simp
  | cons c a ih =>
    simp only [List.cons_append, upperFrom, ih]
    split
    · rfl
    · split <;> rfl

theorem upperFrom_length (n : Nat) (l : List Char) : (upperFrom n l).length = l.length := by
  induction l generalizing n with
  | nil => rfl
  | cons c l ih => simp only [upperFrom]; split <;> (try split) <;> simp [ih]

theorem formedFrom_append (other : List Char) (n : Nat) (a : List Char) {r : List Char} (hr : r = [] ∨ Rooted r) :
    formedFrom other n (a ++ r) = (formedFrom other n a && formedFrom other 0 r) := by
  induction a generalizing n with
  | nil =>
    rcases hr with rfl | ⟨t, rfl⟩
    · cases n <;> simp [formedFrom]
    · cases n with
      | zero => simp [formedFrom]
      | succ n => simp [formedFrom, isHex, isDecimal]
  | cons c a ih =>
    cases n with
    | zero =>
      simp only [List.cons_append, formedFrom, ih]
      split
      · rfl
      · simp [Bool.and_assoc]
    | succ n => simp only [List.cons_append, formedFrom, ih, Bool.and_assoc]

/-- Text of the given characters, in normal form. -/
def Neat (other l : List Char) : Prop := wellFormed other l = true ∧ pctUpper l = l

theorem Neat.nil (other : List Char) : Neat other [] := ⟨rfl, rfl⟩

theorem neat_append {other a r : List Char} (hr : r = [] ∨ Rooted r) : Neat other (a ++ r) ↔ Neat other a ∧ Neat other r := by
  unfold Neat wellFormed pctUpper
  rw [formedFrom_append _ _ _ hr, upperFrom_append _ _ hr, Bool.and_eq_true]
  constructor
  · rintro ⟨⟨h1, h2⟩, h3⟩
    have := List.append_inj h3 (upperFrom_length _ _)
    exact ⟨⟨h1, this.1⟩, h2, this.2⟩
  · rintro ⟨⟨h1, h2⟩, h3, h4⟩
    exact ⟨⟨h1, h3⟩, by rw [h2, h4]⟩

theorem neat_cons {other l : List Char} {c : Char} (h : plain c = true ∨ other.contains c = true) (hp : c ≠ '%') :
    Neat other (c :: l) ↔ Neat other l := by
  unfold Neat wellFormed pctUpper
  have h1 : (plain c || other.contains c) = true := by simpa using h
  simp only [formedFrom, if_neg hp, h1, Bool.true_and, upperFrom, ne_eq, not_true_eq_false, false_and, if_false,
    List.cons.injEq, true_and]

theorem neat_slash {other l : List Char} (h : '/' ∈ other) : Neat other ('/' :: l) ↔ Neat other l :=
  neat_cons (.inr (by simpa using h)) (by decide)

theorem Segs.tail {p : List Char} {ps : List (List Char)} (h : Segs (p :: ps)) : Segs ps :=
  ⟨fun q hq => h.each q (List.mem_cons_of_mem _ hq), fun q hq => h.rooted q (List.mem_of_mem_tail hq)⟩

theorem Segs.rest {p : List Char} {ps : List (List Char)} (h : Segs (p :: ps)) : ps.flatten = [] ∨ Rooted ps.flatten := by
  cases ps with
  | nil => exact .inl rfl
  | cons q ps =>
    obtain ⟨t, rfl⟩ := h.rooted q List.mem_cons_self
    exact .inr ⟨t ++ ps.flatten, by simp⟩

theorem neat_flatten {other : List Char} {ps : List (List Char)} (h : Segs ps) :
    Neat other ps.flatten ↔ ∀ p ∈ ps, Neat other p := by
  induction ps with
  | nil => simp [Neat.nil]
  | cons p ps ih => rw [List.flatten_cons, neat_append h.rest, ih h.tail, List.forall_mem_cons]

theorem neat_strip {other l : List Char} (hs : '/' ∈ other) (h : Neat other l) : Neat other (strip l) := by
  have dot : ∀ l, Neat other ('.' :: l) ↔ Neat other l := fun l => neat_cons (.inl (by decide)) (by decide)
  induction l using strip.induct with
  | case1 | case2 => exact Neat.nil _
  | case3 r ih => rw [strip]; exact ih ((neat_slash hs).1 ((dot _).1 h))
  | case4 r ih => rw [strip]; exact ih ((neat_slash hs).1 ((dot _).1 ((dot _).1 h)))
  | case5 p n1 n2 n3 n4 =>
    unfold strip; split
    · exact absurd rfl n1
    · exact absurd rfl n2
    · rename_i r; exact absurd rfl (n3 r)
    · rename_i r; exact absurd rfl (n4 r)
    · exact h

theorem dotLoop_all {P : List Char → Prop} (hs : P ['/']) {ps : List (List Char)} (out : List (List Char))
    (h1 : ∀ p ∈ out, P p) (h2 : ∀ p ∈ ps, P p) : ∀ p ∈ dotLoop out ps, P p := by
  induction ps generalizing out with
  | nil => simpa [dotLoop] using h1
  | cons p ps ih =>
    have h3 : ∀ q ∈ ps, P q := fun q hq => h2 q (List.mem_cons_of_mem _ hq)
    have h4 : ∀ q ∈ out.tail, P q := fun q hq => h1 q (List.mem_of_mem_tail hq)
    have h5 : ∀ (o : List (List Char)) x, P x → (∀ q ∈ o, P q) → ∀ q ∈ x :: o, P q :=
      fun o x hx ho => List.forall_mem_cons.2 ⟨hx, ho⟩
    rw [dotLoop]
    split
    · split
      · exact ih _ (h5 _ _ hs h1) h3
      · exact ih _ h1 h3
    · split
      · split
        · exact ih _ (h5 _ _ hs h4) h3
        · exact ih _ h4 h3
      · exact ih _ (h5 _ _ (h2 p List.mem_cons_self) h1) h3

theorem neat_dots {other l : List Char} (hs : '/' ∈ other) (h : Neat other l) : Neat other (dots l) := by
  refine (neat_flatten (dots_noDots l).toSegs).2 (dotLoop_all ((neat_slash hs).2 (Neat.nil _)) _ (fun p hp => by cases hp) ?_)
  refine (neat_flatten (pieces_segs _)).1 ?_
  rw [pieces_flatten]
  exact neat_strip hs h

/-- A rooted path stays rooted, or becomes empty. -/
theorem dots_rooted {l : List Char} (h : l = [] ∨ Rooted l) : dots l = [] ∨ Rooted (dots l) := by
  have e : strip l = l := by
    rcases h with rfl | ⟨t, rfl⟩
    · rfl
    · unfold strip; split <;> simp_all
  have h1 : ∀ p ∈ pieces l, Rooted p := by
    rcases h with rfl | ⟨t, rfl⟩
    · intro p hp; cases hp
    · have h := pieces_flatten ('/' :: t)
      have h' := pieces_segs ('/' :: t)
      cases hc : pieces ('/' :: t) with
      | nil => intro p hp; cases hp
      | cons p ps =>
        rw [hc] at h h'
        refine List.forall_mem_cons.2 ⟨?_, h'.rooted⟩
        obtain ⟨h2, -⟩ := h'.each p List.mem_cons_self
        cases p with
        | nil => exact absurd rfl h2
        | cons d p => simp at h; exact ⟨p, by rw [h.1]⟩
  have h2 := dotLoop_all (P := Rooted) ⟨[], rfl⟩ [] (fun p hp => by cases hp) h1
  unfold dots
  rw [e]
  generalize dotLoop [] (pieces l) = ps at h2
  cases ps with
  | nil => exact .inl rfl
  | cons p ps =>
    obtain ⟨t, rfl⟩ := h2 p List.mem_cons_self
    exact .inr ⟨t ++ ps.flatten, by simp⟩

/-! ## Paths that do not begin with two slashes -/

/-- The first segment is empty only if it is the only one. -/
def Blunt (ps : List (List Char)) : Prop := ∀ p q rs, ps = p :: q :: rs → p ≠ ['/']

theorem blunt_of {l : List Char} (h : ∀ t, l ≠ '/' :: '/' :: t) : Blunt (pieces l) := by
  rintro p q rs e rfl
  have hf := pieces_flatten l
  have hs := pieces_segs l
  rw [e] at hf hs
  obtain ⟨t, rfl⟩ := hs.rooted q List.mem_cons_self
  exact h (t ++ rs.flatten) (by simpa using hf.symm)

theorem not_blunt {ps : List (List Char)} (hs : Segs ps) (h : Blunt ps) (t : List Char) : ps.flatten ≠ '/' :: '/' :: t := by
  intro e
  match ps, hs, h, e with
  | [], _, _, e => cases e
  | [p], hs, _, e =>
    simp at e; subst e
    exact absurd (hs.each _ List.mem_cons_self).2 (by simp)
  | p :: q :: rs, hs, h, e =>
    obtain ⟨h1, h2⟩ := hs.each p List.mem_cons_self
    cases p with
    | nil => exact h1 rfl
    | cons c p =>
      cases p with
      | nil => simp at e; exact h _ _ _ rfl (by rw [e.1])
      | cons d p => simp at e; simp [e.2.1] at h2

/-- No empty segment but the last. -/
def Inner (ps : List (List Char)) : Prop := ∀ a q b, ps = a ++ ['/'] :: q :: b → False

theorem inner_of {l : List Char} (h : ∀ a b, l ≠ a ++ '/' :: '/' :: b) : Inner (pieces l) := by
  intro a q b e
  have hf := pieces_flatten l
  have hs := pieces_segs l
  rw [e] at hf hs
  have : Rooted q := by
    cases a with
    | nil => exact hs.rooted q List.mem_cons_self
    | cons x a => exact hs.rooted q (by simp)
  obtain ⟨t, rfl⟩ := this
  exact h a.flatten (t ++ b.flatten) (by rw [← hf]; simp)

theorem dotLoop_blunt {ps : List (List Char)} (out : List (List Char)) (h1 : out.reverse.head? ≠ some ['/'])
    (h2 : Inner ps) : Blunt (dotLoop out ps) := by
  have last : ∀ o : List (List Char), o.reverse.head? ≠ some ['/'] → Blunt (o.reverse ++ [['/']]) := by
    intro o ho p q rs e hp
    cases hr : o.reverse with
    | nil => rw [hr] at e; simp at e
    | cons x xs => rw [hr] at e ho; simp at e; exact ho (by simp [e.1, hp])
  have pop : ∀ o : List (List Char), o.reverse.head? ≠ some ['/'] → o.tail.reverse.head? ≠ some ['/'] := by
    intro o ho
    cases o with
    | nil => exact ho
    | cons x xs =>
      rw [List.reverse_cons] at ho
      show xs.reverse.head? ≠ _
      cases hx : xs.reverse with
      | nil => simp
      | cons y ys => rw [hx] at ho; simpa using ho
  induction ps generalizing out with
  | nil =>
    intro p q rs e hp
    rw [dotLoop] at e
    rw [e] at h1; exact h1 (by simp [hp])
  | cons p ps ih =>
    have h3 : Inner ps := fun a q b e => h2 (p :: a) q b (by rw [e]; rfl)
    rw [dotLoop]
    split
    · split
      · rename_i e; subst e; rw [dotLoop, List.reverse_cons]; exact last _ h1
      · exact ih _ h1 h3
    · split
      · split
        · rename_i e; subst e; rw [dotLoop, List.reverse_cons]; exact last _ (pop _ h1)
        · exact ih _ (pop _ h1) h3
      · cases ps with
        | nil =>
          rw [dotLoop, List.reverse_cons]
          intro x q rs e hx
          cases hr : out.reverse with
          | nil => rw [hr] at e; simp at e
          | cons y ys => rw [hr] at e h1; simp at e; exact h1 (by simp [e.1, hx])
        | cons q qs =>
          refine ih _ ?_ h3
          rw [List.reverse_cons]
          cases hr : out.reverse with
          | nil =>
            intro e
            simp at e
            exact h2 [] q qs (by rw [e]; rfl)
          | cons y ys => rw [hr] at h1; simpa using h1

theorem pieces_append' (a : List Char) {r : List Char} (hr : r = [] ∨ Rooted r) : pieces (a ++ r) = pieces a ++ pieces r := by
  have h := pieces_flatten a
  have hs := pieces_segs a
  generalize pieces a = ps at h hs
  subst h
  induction ps with
  | nil => rfl
  | cons p ps ih =>
    obtain ⟨h1, h2⟩ := hs.each p List.mem_cons_self
    rw [List.flatten_cons, List.append_assoc, pieces_append p h1 h2, ih hs.tail]
    · rfl
    · rcases hs.rest with h | ⟨t, h⟩
      · rw [h]; exact hr
      · exact .inr ⟨t ++ r, by rw [h]; rfl⟩

theorem dotLoop_append {a : List (List Char)} (h : ∀ p ∈ a, p ≠ ['/', '.'] ∧ p ≠ ['/', '.', '.']) (out b : List (List Char)) :
    dotLoop out (a ++ b) = dotLoop (a.reverse ++ out) b := by
  induction a generalizing out with
  | nil => rfl
  | cons p a ih =>
    obtain ⟨h1, h2⟩ := h p List.mem_cons_self
    rw [List.cons_append, dotLoop, if_neg h1, if_neg h2, ih fun q hq => h q (List.mem_cons_of_mem _ hq)]
    simp

/-! ## Components of a text -/

theorem splitScheme_some {t s : List Char} (h : (splitScheme t).1 = some s) :
    (∃ c r, s = c :: r ∧ isAlpha c = true) ∧ ∀ c ∈ s, schemeChar c = true := by
  unfold splitScheme at h
  split at h
  · rename_i ha
    split at h
    · rename_i r hd
      cases h
      cases t with
      | nil => cases ha
      | cons c t =>
        have hc : isAlpha c = true := ha
        have hs : schemeChar c = true := by simp [schemeChar, hc]
        refine ⟨⟨c, t.takeWhile schemeChar, by simp [List.takeWhile_cons, hs], hc⟩, fun d hd => ?_⟩
        have : ∀ (l : List Char), ∀ d ∈ l.takeWhile schemeChar, schemeChar d = true := by
          intro l
          induction l with
          | nil => intro d hd; cases hd
          | cons x l ih =>
            intro d hd
            rw [List.takeWhile_cons] at hd
            split at hd
            · rcases List.mem_cons.1 hd with rfl | hd
              · assumption
              · exact ih d hd
            · cases hd
        exact this _ d hd
    · cases h
  · cases h

theorem split_authority_path {t a : List Char} (h : (split t).authority = some a) :
    (split t).path = [] ∨ Rooted (split t).path := by
  simp only [split] at h ⊢
  generalize (splitScheme t).2 = u at h ⊢
  unfold splitAuthority at h ⊢
  split at h
  · rename_i r
    simp only
    rcases dropWhile_head (p := fun c => c ∉ ['/', '?', '#']) r with e | ⟨c, l, e, hc⟩
    · rw [e]; exact .inl rfl
    · rw [e]
      have : c = '/' ∨ c = '?' ∨ c = '#' := by simp at hc; exact Classical.byContradiction fun h => by simp_all
      rcases this with rfl | rfl | rfl
      · exact .inr ⟨_, by rw [List.takeWhile_cons]; rfl⟩
      · exact .inl rfl
      · exact .inl rfl
  · cases h

theorem split_path_blunt {t : List Char} (h : (split t).authority = none) (p : List Char) :
    (split t).path ≠ '/' :: '/' :: p := by
  simp only [split] at h ⊢
  generalize (splitScheme t).2 = u at h ⊢
  unfold splitAuthority at h ⊢
  split at h
  · cases h
  · rename_i hn
    intro e
    simp only at e
    match u, hn, e with
    | [], _, e => cases e
    | [c], _, e =>
      rw [List.takeWhile_cons] at e
      split at e <;> cases e
    | c :: d :: u, hn, e =>
      rw [List.takeWhile_cons] at e
      split at e
      · rw [List.takeWhile_cons] at e
        split at e
        · simp at e; exact hn u (by rw [e.1, e.2.1])
        · simp at e
      · cases e

theorem formed_not {other : List Char} {c : Char} (h1 : plain c = false) (h2 : c ∉ other) (h3 : c ≠ '%') (h4 : isHex c = false)
    (n : Nat) {l : List Char} (h : formedFrom other n l = true) : c ∉ l := by
  induction l generalizing n with
  | nil => simp
  | cons d l ih =>
    rw [List.mem_cons, not_or]
    cases n with
    | zero =>
      rw [formedFrom] at h
      split at h
      · rename_i e; subst e; exact ⟨h3, ih _ h⟩
      · simp only [Bool.and_eq_true, Bool.or_eq_true, List.contains_eq_mem, decide_eq_true_eq] at h
        refine ⟨?_, ih _ h.2⟩
        rintro rfl
        rcases h.1 with h | h
        · rw [h1] at h; cases h
        · exact h2 h
    | succ n =>
      rw [formedFrom, Bool.and_eq_true] at h
      refine ⟨?_, ih _ h.2⟩
      rintro rfl
      rw [h4] at h; cases h.1

/-! ## Normal references resolve to normal URIs -/

/-- A reference with well-formed components in normal form, but for the dot segments in its path. -/
structure Tidy (r : Parts) : Prop where
  authority : ∀ a, r.authority = some a → wellFormed [':', '@', '[', ']'] a = true ∧ normalAuthority a = a
  path : Neat [':', '@', '/'] r.path
  query : ∀ q, r.query = some q → Neat [':', '@', '/', '?'] q
  fragment : r.fragment = none
  rooted : ∀ a, r.authority = some a → r.path = [] ∨ Rooted r.path

/-- A normal base. -/
structure Base (b : Parts) : Prop extends Tidy b where
  scheme : ∃ s, b.scheme = some s ∧ (∃ c t, s = c :: t ∧ isAlpha c = true) ∧ (∀ c ∈ s, schemeChar c = true) ∧
    s.map Char.toLower = s
  dots : dots b.path = b.path
  blunt : b.authority = none → ∀ p, b.path ≠ '/' :: '/' :: p

theorem Base.fits {b : Parts} (h : Base b) : Fits b := by
  obtain ⟨s, hs, h1, h2, -⟩ := h.scheme
  refine ⟨fun s' e => ?_, fun e => ?_, fun a e => ⟨fun c hc => ?_, h.rooted a e⟩, ⟨fun c hc => ?_, h.blunt⟩, fun q e c hc => ?_⟩
  · rw [hs] at e; cases e; exact ⟨h1, h2⟩
  · rw [hs] at e; cases e
  · have := (h.authority a e).1
    have k : ∀ d : Char, plain d = false → d ∉ [':', '@', '[', ']'] → d ≠ '%' → isHex d = false → d ≠ c :=
      fun d k1 k2 k3 k4 e => formed_not k1 k2 k3 k4 0 this (e ▸ hc)
    have a1 := k '/' (by decide) (by decide) (by decide) (by decide)
    have a2 := k '?' (by decide) (by decide) (by decide) (by decide)
    have a3 := k '#' (by decide) (by decide) (by decide) (by decide)
    simp [Ne.symm a1, Ne.symm a2, Ne.symm a3]
  · have := h.path.1
    have k : ∀ d : Char, plain d = false → d ∉ [':', '@', '/'] → d ≠ '%' → isHex d = false → d ≠ c :=
      fun d k1 k2 k3 k4 e => formed_not k1 k2 k3 k4 0 this (e ▸ hc)
    have a2 := k '?' (by decide) (by decide) (by decide) (by decide)
    have a3 := k '#' (by decide) (by decide) (by decide) (by decide)
    simp [Ne.symm a2, Ne.symm a3]
  · rintro rfl
    exact formed_not (by decide) (by decide) (by decide) (by decide) 0 (h.query q e).1 hc

theorem Base.normal {b : Parts} (h : Base b) : b.normalize = b := by
  obtain ⟨s, hs, -, -, hl⟩ := h.scheme
  obtain ⟨sc, a, p, q, f⟩ := b
  have e1 : sc.map (·.map Char.toLower) = sc := by simp only at hs; rw [hs]; simp [hl]
  have e2 : a.map normalAuthority = a := by
    cases a with
    | none => rfl
    | some a => simp [(h.authority a rfl).2]
  have e3 : Rfc.dots (pctUpper p) = p := by rw [h.path.2]; exact h.dots
  have e4 : q.map pctUpper = q := by
    cases q with
    | none => rfl
    | some q => simp [(h.query q rfl).2]
  have e5 : f = none := h.fragment
  subst e5
  simp only [Parts.normalize, e1, e2, e3, e4, Option.map_none]

theorem Base.formed {b : Parts} (h : Base b) : b.wellFormed = true := by
  obtain ⟨sc, a, p, q, f⟩ := b
  have e5 : f = none := h.fragment
  subst e5
  have e1 : (a.map (Rfc.wellFormed [':', '@', '[', ']'])).getD true = true := by
    cases a with
    | none => rfl
    | some a => simp [(h.authority a rfl).1]
  have e4 : (q.map (Rfc.wellFormed [':', '@', '/', '?'])).getD true = true := by
    cases q with
    | none => rfl
    | some q => simp [(h.query q rfl).1]
  have e3 : Rfc.wellFormed [':', '@', '/'] p = true := h.path.1
  simp [Parts.wellFormed, e1, e3, e4]

theorem merge_split (p : List Char) : (∃ q z, p = q ++ '/' :: z ∧ '/' ∉ z ∧ (p.reverse.dropWhile (· ≠ '/')).reverse = q ++ ['/']) ∨
    ('/' ∉ p ∧ (p.reverse.dropWhile (· ≠ '/')).reverse = []) := by
  have h := List.takeWhile_append_dropWhile (p := fun c => decide (c ≠ '/')) (l := p.reverse)
  have hz : ∀ (l : List Char), '/' ∉ l.takeWhile (fun c => decide (c ≠ '/')) := by
    intro l
    induction l with
    | nil => simp
    | cons c l ih =>
      rw [List.takeWhile_cons]
      split
      · rename_i hc
        simp only [decide_eq_true_eq] at hc
        rw [List.mem_cons, not_or]; exact ⟨Ne.symm hc, ih⟩
      · simp
  rcases dropWhile_head (p := fun c => decide (c ≠ '/')) p.reverse with e | ⟨c, r, e, hc⟩
  · right
    rw [e] at h ⊢
    refine ⟨fun hm => hz p.reverse ?_, rfl⟩
    rw [List.append_nil] at h; rw [h]; simpa using hm
  · left
    have hc : c = '/' := by simpa using hc
    subst hc
    refine ⟨r.reverse, (p.reverse.takeWhile fun c => decide (c ≠ '/')).reverse, ?_, ?_, ?_⟩
    · rw [e] at h
      have := congrArg List.reverse h
      simpa using this.symm
    · rw [List.mem_reverse]; exact hz _
    · rw [e]; simp

/-- A relative reference that is tidy, resolved against a normal base, is a normal URI. -/
theorem resolve_base {r b : Parts} (hb : Base b) (hr : Tidy r) (h0 : r.scheme = none)
    (h1 : r.authority = none → ∀ x y, r.path ≠ x ++ '/' :: '/' :: y) : Base (r.resolve b) := by
  obtain ⟨rs, ra, rp, rq, rf⟩ := r
  have e1 : rs = none := h0
  have e2 : rf = none := hr.fragment
  subst e1; subst e2
  have hslash : '/' ∈ [':', '@', '/'] := by decide
  cases ra with
  | some a =>
    simp only [Parts.resolve]
    exact ⟨⟨hr.authority, neat_dots hslash hr.path, hr.query, rfl, fun _ _ => dots_rooted (hr.rooted a rfl)⟩, hb.scheme,
      dots_dots _, fun e => by cases e⟩
  | none =>
    simp only [Parts.resolve]
    have hp : Neat [':', '@', '/'] rp := hr.path
    have hn : ∀ x y, rp ≠ x ++ '/' :: '/' :: y := h1 rfl
    split
    · refine ⟨⟨hb.authority, hb.path, ?_, rfl, hb.rooted⟩, hb.scheme, hb.dots, hb.blunt⟩
      intro q e
      cases rq with
      | none => exact hb.query q e
      | some q' => exact hr.query q e
    · rename_i hne
      have simple : ∀ l : List Char, (∀ x y, l ≠ x ++ '/' :: '/' :: y) → ∀ p, dots l ≠ '/' :: '/' :: p := by
        intro l hl p
        have hs : ∀ x y, strip l ≠ x ++ '/' :: '/' :: y := by
          have : ∃ w, l = w ++ strip l ∨ strip l = [] := by
            clear hl
            induction l using strip.induct with
            | case1 | case2 => exact ⟨[], .inr rfl⟩
            | case3 r ih =>
              obtain ⟨w, h | h⟩ := ih
              · exact ⟨'.' :: '/' :: w, .inl (by rw [strip]; simp [← h])⟩
              · exact ⟨[], .inr (by rw [strip]; exact h)⟩
            | case4 r ih =>
              obtain ⟨w, h | h⟩ := ih
              · exact ⟨'.' :: '.' :: '/' :: w, .inl (by rw [strip]; simp [← h])⟩
              · exact ⟨[], .inr (by rw [strip]; exact h)⟩
            | case5 p n1 n2 n3 n4 =>
              refine ⟨[], .inl ?_⟩
              unfold strip; split
              · exact absurd rfl n1
              · exact absurd rfl n2
              · rename_i r; exact absurd rfl (n3 r)
              · rename_i r; exact absurd rfl (n4 r)
              · rfl
          obtain ⟨w, h | h⟩ := this
          · intro x y e; exact hl (w ++ x) y (by rw [h, e, List.append_assoc])
          · intro x y e; rw [h] at e; simp at e
        exact not_blunt (dots_noDots l).toSegs (dotLoop_blunt [] (by simp) (inner_of hs)) p
      split
      · rename_i hh
        have hroot : Rooted rp := by
          cases rp with
          | nil => exact absurd rfl hne
          | cons c t => simp at hh; exact ⟨t, by rw [hh]⟩
        exact ⟨⟨hb.authority, neat_dots hslash hp, hr.query, rfl, fun _ _ => dots_rooted (.inr hroot)⟩, hb.scheme,
          dots_dots _, fun _ => simple _ hn⟩
      · rename_i hh
        -- the path of the reference comes after a slash
        have hn' : ∀ x y, '/' :: rp ≠ x ++ '/' :: '/' :: y := by
          intro x y e
          cases x with
          | nil => simp at e; rw [e] at hh; exact hh rfl
          | cons c x => simp at e; exact hn x y e.2
        unfold merge
        split
        · refine ⟨⟨hb.authority, neat_dots hslash ((neat_slash hslash).2 hp), hr.query, rfl, fun _ _ => dots_rooted (.inr ⟨_, rfl⟩)⟩,
            hb.scheme, dots_dots _, fun _ => simple _ hn'⟩
        · rename_i hc
          rcases merge_split b.path with ⟨q, z, e, hz, e'⟩ | ⟨hz, e'⟩
          · rw [e']
            have hm : q ++ ['/'] ++ rp = q ++ '/' :: rp := by simp
            rw [hm]
            have hq : Neat [':', '@', '/'] q := by
              have := hb.path
              rw [e, neat_append (.inr ⟨z, rfl⟩)] at this
              exact this.1
            refine ⟨⟨hb.authority, neat_dots hslash ((neat_append (.inr ⟨rp, rfl⟩)).2 ⟨hq, (neat_slash hslash).2 hp⟩), hr.query, rfl,
              fun a ha => dots_rooted (.inr ?_)⟩, hb.scheme, dots_dots _, fun ha p => ?_⟩
            · rcases hb.rooted a ha with h | ⟨t, h⟩
              · rw [e] at h; simp at h
              · cases q with
                | nil => exact ⟨rp, rfl⟩
                | cons c q => rw [e] at h; simp at h; exact ⟨q ++ '/' :: rp, by rw [h.1]; rfl⟩
            · -- the segments of the base come first
              have hd : NoDots (pieces b.path) := by
                have := dots_noDots b.path
                rw [← pieces_dots, hb.dots] at this; exact this
              rw [e, pieces_append' q (.inr ⟨z, rfl⟩)] at hd
              have hs : strip (q ++ '/' :: rp) = q ++ '/' :: rp := by
                have : (pieces (q ++ '/' :: rp)).head? ≠ some ['.'] ∧ (pieces (q ++ '/' :: rp)).head? ≠ some ['.', '.'] := by
                  rw [pieces_append' q (.inr ⟨rp, rfl⟩)]
                  cases hq : pieces q with
                  | cons x xs =>
                    have := hd.first
                    rw [hq] at this
                    simpa using this
                  | nil =>
                    have h := pieces_segs ('/' :: rp)
                    have hf := pieces_flatten ('/' :: rp)
                    cases hp : pieces ('/' :: rp) with
                    | nil => simp
                    | cons x xs =>
                      rw [hp] at h hf
                      obtain ⟨k, -⟩ := h.each x List.mem_cons_self
                      cases x with
                      | nil => exact absurd rfl k
                      | cons c x => simp at hf; simp [hf.1]
                exact strip_id this.1 this.2
              unfold dots
              rw [hs, pieces_append' q (.inr ⟨rp, rfl⟩), dotLoop_append fun p hp => hd.dots p (List.mem_append_left _ hp)]
              refine not_blunt ?_ (dotLoop_blunt _ ?_ (inner_of hn')) p
              · rw [← dotLoop_append fun p hp => hd.dots p (List.mem_append_left _ hp), ← pieces_append' q (.inr ⟨rp, rfl⟩), ← hs]
                exact (dots_noDots _).toSegs
              · rw [List.append_nil, List.reverse_reverse]
                cases hq : pieces q with
                | nil => simp
                | cons x xs =>
                  have := blunt_of (hb.blunt ha)
                  rw [e, pieces_append' q (.inr ⟨z, rfl⟩), hq] at this
                  cases hz' : xs ++ pieces ('/' :: z) with
                  | nil =>
                    have hf := pieces_flatten ('/' :: z)
                    rw [List.append_eq_nil_iff] at hz'
                    rw [hz'.2] at hf; cases hf
                  | cons y ys =>
                    have := this x y ys (by simp [hz'])
                    simpa using this
          · rw [e', List.nil_append]
            refine ⟨⟨hb.authority, neat_dots hslash hp, hr.query, rfl, fun a ha => ?_⟩, hb.scheme, dots_dots _, fun _ => simple _ hn⟩
            exfalso
            rcases hb.rooted a ha with h | ⟨t, h⟩
            · exact hc (by simp [show b.authority = some a from ha, h])
            · exact hz (by rw [h]; exact List.mem_cons_self)

end Jschon.Rfc
