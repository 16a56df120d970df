import Verif.Proof.Sources
import Verif.Props.Catalog
import Verif.Props.Rfc3986

/-!
# Sources stay within their base: C86

The file that `load_json` reads from a `LocalSource` should be below its directory, and the URL that it fetches from a
`RemoteSource` should begin with its base URL.
-/

namespace Jschon
open Spec Rfc

/-! ## Names without dots -/

theorem names_within {p : List Char} {ns : List (List Char)} (h : PathNames p ns) {n : List Char} (hn : n ∈ ns) :
    ∃ x y, p = x ++ (n ++ y) ∧ (x = [] ∨ ∃ z, x = z ++ ['/']) ∧ (y = [] ∨ ∃ z, y = '/' :: z) := by
  induction h with
  | nil => cases hn
  | @slash p ns _ ih =>
    obtain ⟨x, y, e, hx, hy⟩ := ih hn
    refine ⟨'/' :: x, y, by rw [e]; rfl, .inr ?_, hy⟩
    rcases hx with rfl | ⟨z, rfl⟩
    · exact ⟨[], rfl⟩
    · exact ⟨'/' :: z, rfl⟩
  | @name s p ns h0 h1 h2 h3 ih =>
    rcases List.mem_cons.1 hn with rfl | hn
    · exact ⟨[], p, rfl, .inl rfl, h2⟩
    · obtain ⟨x, y, e, hx, hy⟩ := ih hn
      refine ⟨s ++ x, y, by rw [e]; simp, .inr ?_, hy⟩
      rcases hx with rfl | ⟨z, rfl⟩
      · exfalso
        have hm := partsNames_mem (t := p) (pathNames_eq h3 ▸ hn)
        rcases h2 with rfl | ⟨t, rfl⟩
        · have := (List.append_eq_nil_iff.1 (e.symm.trans rfl : ([] : List Char) ++ (n ++ y) = [])).2
          exact hm.1 (List.append_eq_nil_iff.1 this).1
        · cases n with
          | nil => exact hm.1 rfl
          | cons c n =>
            simp at e
            exact hm.2 (by simp [← e.1])
      · exact ⟨s ++ z, by simp⟩

theorem names_noDots {p : List Char} (h : NoDotSegment p) {n : List Char} (hn : n ∈ partsNames p) :
    n ≠ ['.'] ∧ n ≠ ['.', '.'] := by
  obtain ⟨x, y, e, hx, hy⟩ := names_within (pathNames_exists p) hn
  exact h x n y e hx hy

theorem pathNames_ne {p : List Char} {ns : List (List Char)} (h : PathNames p ns) (h0 : p ≠ []) (h1 : p.head? ≠ some '/') :
    ns ≠ [] := by
  cases h with
  | nil => exact absurd rfl h0
  | slash _ => exact absurd rfl h1
  | name _ _ _ _ => simp

/-- What follows a path that ends with a slash has no dot segments if the whole has none. -/
theorem noDots_rest {q r : List Char} (h : NoDotSegment (q ++ '/' :: r)) : NoDotSegment r := by
  intro x s y e hx hy
  refine h (q ++ '/' :: x) s y (by rw [e]; simp) (.inr ?_) hy
  rcases hx with rfl | ⟨z, rfl⟩
  · exact ⟨q, rfl⟩
  · exact ⟨q ++ '/' :: z, by simp⟩

theorem names_head (q : List Char) (h0 : q ≠ []) (h1 : '/' ∉ q) (p : List Char) {n : List Char}
    (hn : n ∈ partsNames (q ++ p)) : (∃ z, n = q ++ z) ∨ n ∈ partsNames p := by
  have e : p = p.takeWhile (· ≠ '/') ++ p.dropWhile (· ≠ '/') := (List.takeWhile_append_dropWhile).symm
  have hz : '/' ∉ p.takeWhile (· ≠ '/') := by
    intro hm
    have : ∀ (l : List Char), '/' ∉ l.takeWhile (· ≠ '/') := by
      intro l
      induction l with
      | nil => simp
      | cons d l ih =>
        rw [List.takeWhile_cons]
        split
        · rename_i hd
          rw [List.mem_cons, not_or]
          simp only [ne_eq, decide_not, Bool.not_eq_true', decide_eq_false_iff_not] at hd
          exact ⟨fun e => hd e.symm, ih⟩
        · simp
    exact this _ hm
  have hd : p.dropWhile (· ≠ '/') = [] ∨ ∃ t, p.dropWhile (· ≠ '/') = '/' :: t := by
    rcases dropWhile_head (p := fun c => decide (c ≠ '/')) p with k | ⟨c, r, k, hc⟩
    · exact .inl k
    · simp at hc
      exact .inr ⟨r, by rw [k, hc]⟩
  generalize p.takeWhile (· ≠ '/') = z at e hz
  generalize p.dropWhile (· ≠ '/') = r at e hd
  subst e
  rw [← List.append_assoc, partsNames_name (by simp [h0]) (by simp [h1, hz]) hd, List.mem_cons] at hn
  rcases hn with hn | hn
  · exact .inl ⟨z, hn⟩
  · right
    cases z with
    | nil => exact hn
    | cons c z =>
      rw [partsNames_name (by simp) hz hd]
      exact List.mem_cons_of_mem _ hn

/-! ## What follows a prefix -/

theorem Rfc.split_query {t : List Char} (h : '?' ∉ t) : (split t).query = none := by
  have ht := split_text t
  cases hf : (split t).query with
  | none => rfl
  | some f =>
    exfalso
    apply h
    rw [← ht]
    simp [Parts.text, hf, mark]

theorem Rfc.path_mem {t : List Char} {c : Char} (h : c ∈ (split t).path) : c ∈ t := by
  have ht := split_text t
  rw [← ht]
  simp [Parts.text, h]

theorem Rfc.authority_mem {t a : List Char} (ha : (split t).authority = some a) {c : Char} (h : c ∈ a) : c ∈ t := by
  have ht := split_text t
  rw [← ht]
  simp [Parts.text, ha, mark, h]

theorem Rfc.authority_slash {t a : List Char} (ha : (split t).authority = some a) : '/' ∉ a := by
  simp only [split] at ha
  generalize (splitScheme t).2 = u at ha
  unfold splitAuthority at ha
  split at ha
  · rename_i r
    simp only [Option.some.injEq] at ha
    subst ha
    intro hm
    have : ∀ (l : List Char), '/' ∉ l.takeWhile (fun c => decide (c ∉ ['/', '?', '#'])) := by
      intro l
      induction l with
      | nil => simp
      | cons d l ih =>
        rw [List.takeWhile_cons]
        split
        · rename_i hd
          rw [List.mem_cons, not_or]
          refine ⟨fun e => ?_, ih⟩
          subst e
          simp at hd
        · simp
    exact this _ hm
  · cases ha

/-- More of a path whose end is a slash. -/
theorem Rfc.split_more {p q rest : List Char} {s : List Char} (hs : (split p).scheme = some s) (hp : (split p).path = q ++ ['/'])
    (h1 : '?' ∉ p ∧ '#' ∉ p) (h2 : '?' ∉ rest ∧ '#' ∉ rest) (h3 : rest.head? ≠ some '/') :
    split (p ++ rest) = ⟨some s, (split p).authority, q ++ '/' :: rest, none, none⟩ := by
  have hq := split_query h1.1
  have hf := split_fragment h1.2
  have ht : (⟨some s, (split p).authority, q ++ '/' :: rest, none, none⟩ : Parts).text = p ++ rest := by
    conv => rhs; rw [← split_text p]
    simp only [Parts.text, hq, hf, hs, hp, mark]
    simp
  rw [← ht]
  refine text_split ⟨?_, ?_, ?_, ?_, ?_⟩
  · intro s' e
    cases e
    simp only [split] at hs
    exact splitScheme_some hs
  · intro e; cases e
  · intro a ha
    refine ⟨fun c hc => ?_, .inr ?_⟩
    · simp only [List.mem_cons, List.not_mem_nil, or_false, not_or]
      refine ⟨?_, ?_, ?_⟩ <;> rintro rfl
      · exact authority_slash ha hc
      · exact h1.1 (authority_mem ha hc)
      · exact h1.2 (authority_mem ha hc)
    · have := split_authority_path ha
      rw [hp] at this
      rcases this with e | ⟨t, e⟩
      · simp at e
      · cases q with
        | nil => exact ⟨rest, rfl⟩
        | cons c q =>
          simp at e
          exact ⟨q ++ '/' :: rest, by rw [e.1]; rfl⟩
  · refine ⟨fun c hc => ?_, fun ha r e => ?_⟩
    · have : c ∈ p ∨ c ∈ rest := by
        simp only [List.mem_append, List.mem_cons] at hc
        rcases hc with hc | hc | hc
        · exact .inl (path_mem (by rw [hp]; simp [hc]))
        · exact .inl (path_mem (by rw [hp]; simp [hc]))
        · exact .inr hc
      simp only [List.mem_cons, List.not_mem_nil, or_false, not_or]
      refine ⟨?_, ?_⟩ <;> rintro rfl
      · exact this.elim h1.1 h2.1
      · exact this.elim h1.2 h2.2
    · have hb := split_path_blunt ha
      rw [hp] at hb
      match q, e, hb with
      | [], e, _ =>
        simp at e
        exact h3 (by rw [e]; rfl)
      | [c], e, hb =>
        simp at e
        exact hb [] (by rw [e.1]; rfl)
      | c :: d :: q, e, hb =>
        simp at e
        exact hb (q ++ ['/']) (by rw [e.1, e.2.1]; rfl)
  · intro q e; cases e

variable {uuid : List Uri → Uri}

theorem Rfc.normal_noDots {r : Parts} (h : r.normalize = r) : NoDotSegment r.path := by
  have : dots (pctUpper r.path) = r.path := congrArg Parts.path h
  rw [← noDots_iff, ← this, dots_dots]

/-- The prefix of a registered base URI and what follows it. -/
theorem registered_prefix {b : Uri} (hb : Registrable (Rfc.lib uuid) (some b)) :
    ∃ s q, (split b.base.toList).scheme = some s ∧ (split b.base.toList).path = q ++ ['/'] ∧ b.str = b.base := by
  obtain ⟨_, h1, _, h2, h3⟩ := hb
  obtain ⟨s, hs⟩ := Option.isSome_iff_exists.1 h1
  have h3 : (split b.base.toList).path.getLast? = some '/' := of_decide_eq_true h3
  obtain ⟨q, hq⟩ := List.getLast?_eq_some_iff.1 h3
  exact ⟨s, q, hs, hq, by simp [Uri.str, h2]⟩

/-- The names in the remainder are not dots. -/
theorem remainder_noDots {calls : List (Option Uri × Source)} {t p rest : String} {src : Source}
    (ht : '?' ∉ t.toList ∧ '#' ∉ t.toList) (hu : (Rfc.lib uuid).hasScheme (Rfc.ofText t) = true ∧ (Rfc.lib uuid).normal (Rfc.ofText t) = true)
    (hc : Chosen (Rfc.lib uuid) calls t p src) (hr : Remainder p t rest) (hs : rest.toList.head? ≠ some '/')
    (ha : p = "" → (partsOf (Rfc.ofText t)).authority ∉ [some ['.'], some ['.', '.']]) :
    ∀ n ∈ partsNames rest.toList, n ≠ ['.'] ∧ n ≠ ['.', '.'] := by
  have hnd : NoDotSegment (split t.toList).path := by
    have : (partsOf (Rfc.ofText t)).normalize = partsOf (Rfc.ofText t) := of_decide_eq_true hu.2
    rw [parts_of_text] at this
    exact normal_noDots this
  have htr : t.toList = p.toList ++ rest.toList := hr
  by_cases hp : p = ""
  · subst hp
    have ha := ha rfl
    have e : rest.toList = t.toList := by rw [htr]; rfl
    rw [e]
    rw [parts_of_text] at ha
    have hsc : ∃ s, (split t.toList).scheme = some s := by
      have := hu.1
      simp only [Rfc.lib, parts_of_text] at this
      exact Option.isSome_iff_exists.1 this
    obtain ⟨s, hsc⟩ := hsc
    have hsl : '/' ∉ s ++ [':'] := by
      have := (splitScheme_some (t := t.toList) (s := s) (by simpa [split] using hsc)).2
      intro hm
      simp only [List.mem_append, List.mem_cons, List.not_mem_nil, or_false] at hm
      rcases hm with hm | hm
      · exact absurd (this _ hm) (by decide)
      · exact absurd hm (by decide)
    have htext : t.toList = (s ++ [':']) ++ (mark ['/', '/'] [] (split t.toList).authority ++ (split t.toList).path) := by
      conv => lhs; rw [← split_text t.toList]
      simp [Parts.text, hsc, split_query ht.1, split_fragment ht.2, mark]
    intro n hn
    rw [htext] at hn
    rcases names_head _ (by simp) hsl _ hn with ⟨z, rfl⟩ | hn
    · have : ':' ∈ s ++ [':'] ++ z := by simp
      refine ⟨?_, ?_⟩ <;> intro e <;> rw [e] at this <;> exact absurd this (by decide)
    · cases hau : (split t.toList).authority with
      | none => rw [hau] at hn; exact names_noDots hnd hn
      | some a =>
        rw [hau, mark_authority, partsNames_slash, partsNames_slash] at hn
        rw [hau] at ha
        by_cases ha0 : a = []
        · subst ha0; exact names_noDots hnd hn
        · rw [partsNames_name ha0 (authority_slash hau) (split_authority_path hau), List.mem_cons] at hn
          rcases hn with rfl | hn
          · simpa using ha
          · exact names_noDots hnd hn
  · obtain ⟨⟨_, b, _, _, hb, rfl, _⟩, _, _⟩ := hc
    cases b with
    | none => exact absurd rfl hp
    | some b =>
      obtain ⟨s, q, h1, h2, h3⟩ := registered_prefix hb
      rw [prefixOf, h3] at htr
      have hm : ∀ c : Char, c ∉ t.toList → c ∉ b.base.toList ∧ c ∉ rest.toList := by
        intro c hc
        rw [htr] at hc
        simpa using hc
      have e := split_more h1 h2 ⟨(hm _ ht.1).1, (hm _ ht.2).1⟩ ⟨(hm _ ht.1).2, (hm _ ht.2).2⟩ hs
      rw [← htr] at e
      rw [e] at hnd
      intro n hn
      exact names_noDots (noDots_rest hnd) hn

/-- The outcome of loading from what was found: errors are reported as `CatalogError`. -/
def Spec.Outcome (found r : Except Exc Value) : Prop :=
  (∃ v, found = .ok v ∧ r = .ok v) ∨ (∃ e, found = .error e ∧ r = .error .catalogError)

theorem load_chosen {calls : List (Option Uri × Source)} {u : Uri} {p rest : String} {src : Source}
    (hu : (Rfc.lib uuid).valid u = true ∧ (Rfc.lib uuid).hasScheme u = true ∧ (Rfc.lib uuid).normal u = true ∧ u.fragment = none)
    (hc : Chosen (Rfc.lib uuid) calls u.str p src) (hr : Remainder p u.str rest) :
    Outcome (src rest) (loadJson (Rfc.lib uuid) (runSources (Rfc.lib uuid) [] calls) u) := by
  rcases C47_longest_prefix (Rfc.lib uuid) calls u hu with ⟨p', s', rest', hc', hr', h⟩ | ⟨hno, _⟩
  · obtain ⟨rfl, rfl⟩ := C47_chosen_unique hc hc'
    cases remainder_unique hr hr'
    exact h
  · exact absurd hc (hno _ _)

/-! ## C86: local sources -/

/-- C86: for a URI without query, what `load_json` reads from a `LocalSource` is the file below its directory that the
names in the remainder of the URI lead to, with the suffix at the last of them.  The remainder must not begin with a slash
and, if there is a suffix, must not be empty. -/
theorem C86_local_partial {loadf : String → Except Exc Value} {calls : List (Option Uri × Source)} {t p rest dir suffix : String}
    {cwd d : List (List Char)} (ht : '?' ∉ t.toList ∧ '#' ∉ t.toList)
    (hu : (Rfc.lib uuid).valid (Rfc.ofText t) = true ∧ (Rfc.lib uuid).hasScheme (Rfc.ofText t) = true ∧
      (Rfc.lib uuid).normal (Rfc.ofText t) = true)
    (hc : Chosen (Rfc.lib uuid) calls t p (localSource loadf dir suffix)) (hr : Remainder p t rest)
    (hs : rest.toList.head? ≠ some '/') (h0 : suffix = "" ∨ rest ≠ "")
    (ha : p = "" → (partsOf (Rfc.ofText t)).authority ∉ [some ['.'], some ['.', '.']])
    (hsuf : '/' ∉ suffix.toList) (hdir : LeadsTo cwd dir d) :
    ∃ f ns, PathNames rest.toList ns ∧ LeadsTo cwd f (d ++ addLast suffix.toList ns) ∧
      Outcome (loadf f) (loadJson (Rfc.lib uuid) (runSources (Rfc.lib uuid) [] calls) (Rfc.ofText t)) := by
  have hnd := remainder_noDots ht ⟨hu.2.1, hu.2.2⟩ hc hr hs ha
  have hpn := pathNames_exists rest.toList
  refine ⟨localFile dir suffix rest, _, hpn, ?_, ?_⟩
  · have h0' : suffix = "" ∨ partsNames rest.toList ≠ [] := h0.imp id fun h => by
      exact pathNames_ne hpn (fun e => h (String.toList_inj.1 e)) hs
    have := localFile_leads hsuf h0' hpn (fun n hn => (hnd n hn).1) hdir
    rw [if_neg hs] at this
    rwa [walk_plain] at this
    intro n hn
    rcases addLast_mem hn with hn | ⟨m, hm, rfl⟩
    · exact hnd n hn
    · have h1 := hnd m hm
      have h2 := partsNames_mem hm
      refine ⟨?_, ?_⟩
      · intro e
        cases m with
        | nil => exact h2.1 rfl
        | cons c m =>
          simp at e
          exact h1.1 (by simp [e])
      · intro e
        match m, h1, h2, e with
        | [], _, h2, _ => exact h2.1 rfl
        | [c], h1, _, e =>
          simp at e
          exact h1.1 (by simp [e])
        | [c, c'], h1, _, e =>
          simp at e
          exact h1.2 (by simp [e])
        | _ :: _ :: _ :: _, _, _, e => simp at e
  · have e := ofText_plain ht.2
    have hstr : (Rfc.ofText t).str = t := by rw [e]; rfl
    exact load_chosen (p := p) (src := localSource loadf dir suffix) (u := Rfc.ofText t)
      ⟨hu.1, hu.2.1, hu.2.2, by rw [e]⟩ (by rwa [hstr]) (by rwa [hstr])

/-- C86: exactly which file `load_json` reads from a `LocalSource`, for every URI, remainder and suffix without a
slash.  A remainder that begins with a slash leads from the root, and names `..` lead upwards.  A remainder without
names, apart from `.`, leaves the suffix to the directory: to its last name, to `.`, or to the root. -/
theorem C86_local_exact {loadf : String → Except Exc Value} {calls : List (Option Uri × Source)} {t p rest dir suffix : String}
    {cwd d : List (List Char)} (hf : '#' ∉ t.toList)
    (hu : (Rfc.lib uuid).valid (Rfc.ofText t) = true ∧ (Rfc.lib uuid).hasScheme (Rfc.ofText t) = true ∧
      (Rfc.lib uuid).normal (Rfc.ofText t) = true)
    (hc : Chosen (Rfc.lib uuid) calls t p (localSource loadf dir suffix)) (hr : Remainder p t rest)
    (hsuf : '/' ∉ suffix.toList) (hdir : LeadsTo cwd dir d) :
    ∃ f ns ds, PathNames rest.toList ns ∧ PathNames dir.toList ds ∧
      Outcome (loadf f) (loadJson (Rfc.lib uuid) (runSources (Rfc.lib uuid) [] calls) (Rfc.ofText t)) ∧
      ((suffix = "" ∨ ∃ n ∈ ns, n ≠ ['.']) → LeadsTo cwd f
        (walk (if rest.toList.head? = some '/' then [] else d) (addLast suffix.toList (ns.filter (· ≠ ['.']))))) ∧
      (suffix ≠ "" → (∀ n ∈ ns, n = ['.']) →
        (rest.toList.head? = some '/' → LeadsTo cwd f [suffix.toList] ∨ suffix.toList = ['.'] ∨ suffix.toList = ['.', '.']) ∧
        (rest.toList.head? ≠ some '/' → LeadsTo cwd f (walk (if dir.toList.head? = some '/' then [] else cwd)
          (if (∀ n ∈ ds, n = ['.']) then
            [if dir.toList.head? = some '/' then suffix.toList else '.' :: suffix.toList]
          else addLast suffix.toList (ds.filter (· ≠ ['.'])))))) := by
  have hpn := pathNames_exists rest.toList
  have hdn := pathNames_exists dir.toList
  refine ⟨localFile dir suffix rest, _, _, hpn, hdn, ?_, fun h => ?_, fun h0 hall => ?_⟩
  · have e := ofText_plain hf
    have hstr : (Rfc.ofText t).str = t := by rw [e]; rfl
    exact load_chosen (p := p) (src := localSource loadf dir suffix) (u := Rfc.ofText t)
      ⟨hu.1, hu.2.1, hu.2.2, by rw [e]⟩ (by rwa [hstr]) (by rwa [hstr])
  · refine localFile_leads_dots hsuf hpn rfl (h.imp id ?_) hdir
    rintro ⟨n, hn, hd⟩ e
    have : n ∈ (partsNames rest.toList).filter (· ≠ ['.']) := List.mem_filter.2 ⟨hn, by simpa using hd⟩
    rw [e] at this
    cases this
  · have hs0 : suffix.toList ≠ [] := fun e => h0 (String.toList_inj.1 e)
    have hz : (posixPath rest.toList).parts = [] := by
      rw [posixPath_parts]
      exact List.filter_eq_nil_iff.2 fun n hn => by simpa using hall n hn
    unfold localFile PosixPath.join
    refine ⟨fun hh => ?_, fun hh => ?_⟩
    · rcases posixRoot_eq rest.toList with ⟨-, h⟩ | ⟨hroot, -⟩
      · exact absurd hh h
      · have hne : (posixPath rest.toList).root ≠ [] := by
          show posixRoot rest.toList ≠ []
          rcases hroot with e | e <;> simp [e]
        rw [if_neg hne]
        have := path_suffix (cwd := cwd) (root := posixRoot rest.toList) (.inr hroot) (ps := []) (by simp) hs0 hsuf
        rw [if_neg (by exact hne), if_pos rfl, if_neg (by exact hne)] at this
        have e3 : posixPath rest.toList = ⟨posixRoot rest.toList, []⟩ := by rw [← hz]; rfl
        rw [e3]
        by_cases h1 : suffix.toList = ['.']
        · exact .inr (.inl h1)
        by_cases h2 : suffix.toList = ['.', '.']
        · exact .inr (.inr h2)
        refine .inl ?_
        simpa [walk, h1, h2] using this
    · rcases posixRoot_eq rest.toList with ⟨hroot, -⟩ | ⟨-, h⟩
      · rw [if_pos (by exact hroot), hz, List.append_nil]
        have hds : ∀ n ∈ (partsNames dir.toList).filter (· ≠ ['.']), n ≠ [] ∧ '/' ∉ n := fun n hm =>
          partsNames_mem (t := dir.toList) (List.mem_filter.1 hm).1
        have hd : (∀ n ∈ partsNames dir.toList, n = ['.']) ↔ (partsNames dir.toList).filter (· ≠ ['.']) = [] := by
          rw [List.filter_eq_nil_iff]; simp
        rw [posixPath_parts]
        simp only [hd]
        rcases posixRoot_eq dir.toList with ⟨hr1, h1⟩ | ⟨hr1, h1⟩
        · have := path_suffix (cwd := cwd) (root := posixRoot dir.toList) (.inl hr1) hds hs0 hsuf
          rw [if_pos hr1, if_pos hr1] at this
          rw [if_neg h1, if_neg h1]
          exact this
        · have hne : posixRoot dir.toList ≠ [] := by rcases hr1 with e | e <;> simp [e]
          have := path_suffix (cwd := cwd) (root := posixRoot dir.toList) (.inr hr1) hds hs0 hsuf
          rw [if_neg hne, if_neg hne] at this
          rw [if_pos h1, if_pos h1]
          exact this
      · exact absurd h hh

theorem chosen_single {b : Uri} (hb : Registrable (Rfc.lib uuid) (some b)) {t : String} (h : b.str.toList <+: t.toList)
    (src : Source) : Chosen (Rfc.lib uuid) [(some b, src)] t b.str src := by
  refine ⟨⟨[], some b, [], rfl, hb, rfl, fun c hc => by cases hc⟩, h, ?_⟩
  rintro p' s' ⟨x, u, y, e, _, rfl, _⟩ _
  have : (u, s') ∈ [(some b, src)] := by rw [e]; simp
  simp only [List.mem_singleton, Prod.mk.injEq] at this
  rw [this.1]
  exact Nat.le_refl _

/-- What is loaded when one source is registered. -/
theorem load_single {src : Source} {b t rest : String} (hb : Registrable (Rfc.lib uuid) (some ⟨b, none⟩))
    (hu : (Rfc.lib uuid).valid (Rfc.ofText t) = true ∧ (Rfc.lib uuid).hasScheme (Rfc.ofText t) = true ∧
      (Rfc.lib uuid).normal (Rfc.ofText t) = true) (hf : '#' ∉ t.toList) (h : t.toList = b.toList ++ rest.toList) :
    Outcome (src rest) (loadJson (Rfc.lib uuid) (runSources (Rfc.lib uuid) [] [(some ⟨b, none⟩, src)]) (Rfc.ofText t)) := by
  have e := ofText_plain hf
  have hstr : (Rfc.ofText t).str = t := by rw [e]; rfl
  refine load_chosen (p := b) (u := Rfc.ofText t) ⟨hu.1, hu.2.1, hu.2.2, by rw [e]⟩ ?_ ?_
  · rw [hstr]; exact chosen_single hb ⟨_, h.symm⟩ src
  · rw [hstr]; exact h

/-- The base URI `https://x/` can be registered. -/
theorem registrable_x : Registrable (Rfc.lib uuid) (some ⟨"https://x/", none⟩) := by
  show Registrable (Rfc.lib fun _ => ⟨"", none⟩) (some ⟨"https://x/", none⟩)
  refine ⟨?_, ?_, ?_, rfl, ?_⟩ <;> decide +kernel

/-- C86 is false of a remainder that begins with a slash: `https://x//etc/passwd` is read from `/etc/passwd`, whatever the
directory of the source. -/
theorem C86_absolute (loadf : String → Except Exc Value) :
    Outcome (loadf "/etc/passwd")
      (loadJson (Rfc.lib uuid) (runSources (Rfc.lib uuid) [] [(some ⟨"https://x/", none⟩, localSource loadf "/srv/schemas" "")])
        (Rfc.ofText "https://x//etc/passwd")) := by
  have h := load_single (uuid := uuid) (src := localSource loadf "/srv/schemas" "") (b := "https://x/")
    (t := "https://x//etc/passwd") (rest := "/etc/passwd") registrable_x (by
      show (Rfc.lib fun _ => ⟨"", none⟩).valid _ = true ∧ (Rfc.lib fun _ => ⟨"", none⟩).hasScheme _ = true ∧
        (Rfc.lib fun _ => ⟨"", none⟩).normal _ = true
      decide +kernel) (by decide) (by decide)
  have e : localFile "/srv/schemas" "" "/etc/passwd" = "/etc/passwd" := by decide +kernel
  rwa [localSource, e] at h

/-- C86 is false of a URI with a query, where dot segments are not removed: the file name for
`https://x/a?/../../../etc/passwd` leads to `/etc/passwd`. -/
theorem C86_query (loadf : String → Except Exc Value) :
    Outcome (loadf "/srv/schemas/a?/../../../etc/passwd")
      (loadJson (Rfc.lib uuid) (runSources (Rfc.lib uuid) [] [(some ⟨"https://x/", none⟩, localSource loadf "/srv/schemas" "")])
        (Rfc.ofText "https://x/a?/../../../etc/passwd")) ∧
    LeadsTo [] "/srv/schemas/a?/../../../etc/passwd" ["etc".toList, "passwd".toList] := by
  constructor
  · have h := load_single (uuid := uuid) (src := localSource loadf "/srv/schemas" "") (b := "https://x/")
      (t := "https://x/a?/../../../etc/passwd") (rest := "a?/../../../etc/passwd") registrable_x (by
        show (Rfc.lib fun _ => ⟨"", none⟩).valid _ = true ∧ (Rfc.lib fun _ => ⟨"", none⟩).hasScheme _ = true ∧
          (Rfc.lib fun _ => ⟨"", none⟩).normal _ = true
        decide +kernel) (by decide) (by decide)
    have e : localFile "/srv/schemas" "" "a?/../../../etc/passwd" = "/srv/schemas/a?/../../../etc/passwd" := by decide +kernel
    rwa [localSource, e] at h
  · exact ⟨_, pathNames_exists _, by decide +kernel⟩

/-- C86 is false of the base URI itself if there is a suffix: the file is beside the directory. -/
theorem C86_beside (loadf : String → Except Exc Value) :
    Outcome (loadf "/srv/schemas.json")
      (loadJson (Rfc.lib uuid) (runSources (Rfc.lib uuid) [] [(some ⟨"https://x/", none⟩, localSource loadf "/srv/schemas" ".json")])
        (Rfc.ofText "https://x/")) := by
  have h := load_single (uuid := uuid) (src := localSource loadf "/srv/schemas" ".json") (b := "https://x/")
    (t := "https://x/") (rest := "") registrable_x (by
      show (Rfc.lib fun _ => ⟨"", none⟩).valid _ = true ∧ (Rfc.lib fun _ => ⟨"", none⟩).hasScheme _ = true ∧
        (Rfc.lib fun _ => ⟨"", none⟩).normal _ = true
      decide +kernel) (by decide) (by decide)
  have e : localFile "/srv/schemas" ".json" "" = "/srv/schemas.json" := by decide +kernel
  rwa [localSource, e] at h

/-! ## C86: remote sources -/

/-- No dot segments in a path that ends with a slash, nor in what follows it. -/
theorem noDots_append {q r : List Char} (h1 : NoDotSegment (q ++ ['/'])) (h2 : NoDotSegment r) :
    NoDotSegment (q ++ '/' :: r) := by
  intro x s y e hx hy
  have hsl : (s = ['.'] ∨ s = ['.', '.']) → False := by
    intro hs
    have hns : '/' ∉ s := by rcases hs with rfl | rfl <;> decide
    have e' : (q ++ ['/']) ++ r = x ++ (s ++ y) := by rw [← e]; simp
    rcases List.append_eq_append_iff.1 e' with ⟨x', hx', hr⟩ | ⟨z, hz, hy'⟩
    · have := h2 x' s y hr (by
        rcases hx with hx | ⟨w, hx⟩
        · rw [hx] at hx'; simp at hx'
        · rw [hx] at hx'
          rcases List.eq_nil_or_concat x' with rfl | ⟨w', c, rfl⟩
          · exact .inl rfl
          · right
            have : w ++ ['/'] = (q ++ ['/'] ++ w') ++ [c] := by rw [hx', List.concat_eq_append]; simp
            have := (List.append_inj' this rfl).2
            simp at this
            exact ⟨w', by rw [List.concat_eq_append, ← this]⟩) hy
      rcases hs with rfl | rfl
      · exact this.1 rfl
      · exact this.2 rfl
    · by_cases hz0 : z = []
      · subst hz0
        simp at hz hy'
        have := h2 [] s y (by simpa using hy'.symm) (.inl rfl) hy
        rcases hs with rfl | rfl
        · exact this.1 rfl
        · exact this.2 rfl
      · obtain ⟨z', c, rfl⟩ := (List.eq_nil_or_concat z).resolve_left hz0
        rw [List.concat_eq_append] at hz hy' hz0
        have hc : c = '/' := by
          have : q ++ ['/'] = (x ++ z') ++ [c] := by rw [hz]; simp
          have := (List.append_inj' this rfl).2
          simpa using this.symm
        subst hc
        rcases List.append_eq_append_iff.1 hy' with ⟨y', h3, h4⟩ | ⟨y', h3, h4⟩
        · by_cases hy0 : y' = []
          · subst hy0
            simp at h3
            exact hns (by rw [← h3]; simp)
          · have := h1 x s y' (by rw [hz, h3]) hx (by
              rcases hy with hy | ⟨w, hy⟩
              · rw [hy] at h4
                have := (List.append_eq_nil_iff.1 h4.symm).1
                exact .inl this
              · cases y' with
                | nil => exact .inl rfl
                | cons c y' =>
                  rw [hy] at h4
                  simp at h4
                  exact .inr ⟨y', by rw [← h4.1]⟩)
            rcases hs with rfl | rfl
            · exact this.1 rfl
            · exact this.2 rfl
        · exact hns (by rw [h3]; simp)
  exact ⟨fun e => hsl (.inl e), fun e => hsl (.inr e)⟩

/-- C86: for a URI without query, the URL that `load_json` fetches from a `RemoteSource` is its base URL (normal, without
query, ending with a slash) followed by the remainder of the URI and the suffix.  The remainder must not begin with a slash
and must not have a colon in its first segment. -/
theorem C86_remote_partial {loadr : String → Except Exc Value} {calls : List (Option Uri × Source)}
    {t p rest base suffix q : String} (ht : '?' ∉ t.toList ∧ '#' ∉ t.toList)
    (hu : (Rfc.lib uuid).valid (Rfc.ofText t) = true ∧ (Rfc.lib uuid).hasScheme (Rfc.ofText t) = true ∧
      (Rfc.lib uuid).normal (Rfc.ofText t) = true)
    (hb : (Rfc.lib uuid).hasScheme (Rfc.ofText base) = true ∧ (Rfc.lib uuid).normal (Rfc.ofText base) = true)
    (hbt : '?' ∉ base.toList ∧ '#' ∉ base.toList) (hbd : (partsOf (Rfc.ofText base)).path = q.toList ++ ['/'])
    (hc : Chosen (Rfc.lib uuid) calls t p (remoteSource (Rfc.lib uuid) loadr (Rfc.ofText base) suffix)) (hr : Remainder p t rest)
    (hp : p ≠ "") (hs : rest.toList.head? ≠ some '/') (hcol : ∀ x y, rest.toList = x ++ ':' :: y → '/' ∈ x) :
    Outcome (loadr (base ++ rest ++ suffix))
      (loadJson (Rfc.lib uuid) (runSources (Rfc.lib uuid) [] calls) (Rfc.ofText t)) := by
  have htr : t.toList = p.toList ++ rest.toList := hr
  have hm : ∀ c : Char, c ∉ t.toList → c ∉ rest.toList := by
    intro c hc
    rw [htr] at hc
    simp at hc
    exact hc.2
  have hrest : NoDotSegment rest.toList := by
    obtain ⟨⟨_, b, _, _, hb, rfl, _⟩, _, _⟩ := hc
    cases b with
    | none => exact absurd rfl hp
    | some b =>
      obtain ⟨s, q, h1, h2, h3⟩ := registered_prefix hb
      rw [prefixOf, h3] at htr
      have hm' : ∀ c : Char, c ∉ t.toList → c ∉ b.base.toList := by
        intro c hc
        rw [htr] at hc
        simp at hc
        exact hc.1
      have e := split_more h1 h2 ⟨hm' _ ht.1, hm' _ ht.2⟩ ⟨hm _ ht.1, hm _ ht.2⟩ hs
      rw [← htr] at e
      have hnd : (partsOf (Rfc.ofText t)).normalize = partsOf (Rfc.ofText t) := of_decide_eq_true hu.2.2
      have hnd := normal_noDots hnd
      rw [parts_of_text, e] at hnd
      exact noDots_rest hnd
  have hsplit : split rest.toList = ⟨none, none, rest.toList, none, none⟩ := by
    have : (⟨none, none, rest.toList, none, none⟩ : Parts).text = rest.toList := by simp [Parts.text, mark]
    conv => lhs; rw [← this]
    refine text_split ⟨fun s e => (by cases e), fun _ => ?_, fun a e => (by cases e), ⟨fun c h => ?_, fun _ r e => ?_⟩,
      fun q e => (by cases e)⟩
    · have := noColon_of hcol
      simp only [Parts.noColon, Option.isSome_none, Bool.false_or, Bool.not_eq_true', List.contains_eq_mem,
        decide_eq_false_iff_not]
      simpa using this
    · simp only [List.mem_cons, List.not_mem_nil, or_false, not_or]
      refine ⟨?_, ?_⟩ <;> rintro rfl
      · exact hm _ ht.1 h
      · exact hm _ ht.2 h
    · simp only at e
      rw [e] at hs
      exact hs rfl
  have hbs : ∃ s, (split base.toList).scheme = some s := by
    have := hb.1
    simp only [Rfc.lib, parts_of_text] at this
    exact Option.isSome_iff_exists.1 this
  obtain ⟨s, hbs⟩ := hbs
  rw [parts_of_text] at hbd
  have hbn : (split base.toList).normalize = split base.toList := by
    have : (partsOf (Rfc.ofText base)).normalize = partsOf (Rfc.ofText base) := of_decide_eq_true hb.2
    rwa [parts_of_text] at this
  have hres : (Rfc.lib uuid).resolve (Rfc.ofText rest) (Rfc.ofText base) = some ⟨base ++ rest, none⟩ := by
    simp only [Rfc.lib, parts_of_text, hbs, Option.isSome_some, if_true, Option.some.injEq]
    rw [hbn, hsplit]
    have hnb := normal_noDots hbn
    rw [hbd] at hnb
    have htext : base.toList = s ++ ':' :: (mark ['/', '/'] [] (split base.toList).authority ++ (q.toList ++ ['/'])) := by
      conv => lhs; rw [← split_text base.toList]
      simp [Parts.text, hbs, hbd, split_query hbt.1, split_fragment hbt.2, mark]
    have hmerge : merge (split base.toList) rest.toList = q.toList ++ '/' :: rest.toList := by
      rw [merge, if_neg]
      · rw [hbd]; simp
      · rw [hbd]; simp
    have key : (⟨none, none, rest.toList, none, none⟩ : Parts).resolve (split base.toList) =
        ⟨some s, (split base.toList).authority, q.toList ++ '/' :: rest.toList, none, none⟩ := by
      unfold Parts.resolve
      simp only
      by_cases h0 : rest.toList = []
      · rw [if_pos h0, hbs, hbd, h0]
        simp [split_query hbt.1]
      · rw [if_neg h0, if_neg hs, hmerge, hbs, noDots_of (noDots_append hnb hrest)]
    rw [key]
    have : String.ofList (⟨some s, (split base.toList).authority, q.toList ++ '/' :: rest.toList, none, none⟩ : Parts).text = base ++ rest := by
      apply String.toList_inj.1
      rw [String.toList_ofList, String.toList_append]
      conv => rhs; rw [htext]
      simp [Parts.text, mark]
    simp only [ofParts, Option.map_none]
    rw [this]
  have e := ofText_plain ht.2
  have hstr : (Rfc.ofText t).str = t := by rw [e]; rfl
  have h := load_chosen (p := p) (rest := rest) (u := Rfc.ofText t) ⟨hu.1, hu.2.1, hu.2.2, by rw [e]⟩ (by rw [hstr]; exact hc)
    (by rwa [hstr])
  have h2 : remoteSource (Rfc.lib uuid) loadr (Rfc.ofText base) suffix rest = loadr (base ++ rest ++ suffix) := by
    have hot : (Rfc.lib uuid).ofText rest = Rfc.ofText rest := rfl
    simp only [remoteSource, hot, hres]
    rfl
  rwa [h2] at h

/-- C86: the URL that `load_json` fetches from a `RemoteSource` is, for every URI, the reference made of the remainder,
resolved against the base URL, with the suffix after it.  (How references are resolved is C80.) -/
theorem C86_remote_exact {loadr : String → Except Exc Value} {calls : List (Option Uri × Source)}
    {t p rest base suffix : String} (hf : '#' ∉ t.toList)
    (hu : (Rfc.lib uuid).valid (Rfc.ofText t) = true ∧ (Rfc.lib uuid).hasScheme (Rfc.ofText t) = true ∧
      (Rfc.lib uuid).normal (Rfc.ofText t) = true)
    (hc : Chosen (Rfc.lib uuid) calls t p (remoteSource (Rfc.lib uuid) loadr (Rfc.ofText base) suffix))
    (hr : Remainder p t rest) :
    (∀ u, (Rfc.lib uuid).resolve (Rfc.ofText rest) (Rfc.ofText base) = some u →
      Outcome (loadr (u.str ++ suffix)) (loadJson (Rfc.lib uuid) (runSources (Rfc.lib uuid) [] calls) (Rfc.ofText t))) ∧
    ((Rfc.lib uuid).resolve (Rfc.ofText rest) (Rfc.ofText base) = none →
      loadJson (Rfc.lib uuid) (runSources (Rfc.lib uuid) [] calls) (Rfc.ofText t) = .error .catalogError) := by
  have e := ofText_plain hf
  have hstr : (Rfc.ofText t).str = t := by rw [e]; rfl
  have h := load_chosen (p := p) (rest := rest) (u := Rfc.ofText t) ⟨hu.1, hu.2.1, hu.2.2, by rw [e]⟩
    (by rw [hstr]; exact hc) (by rwa [hstr])
  have hot : (Rfc.lib uuid).ofText rest = Rfc.ofText rest := rfl
  refine ⟨fun u h1 => ?_, fun h1 => ?_⟩
  · simpa only [remoteSource, hot, h1] using h
  · simp only [remoteSource, hot, h1] at h
    rcases h with ⟨v, h, -⟩ | ⟨x, -, h⟩
    · cases h
    · exact h

/-- C86 is false of a remainder with a colon in its first segment, or with two slashes at its beginning: it decides where
the document is fetched from. -/
theorem C86_elsewhere (loadr : String → Except Exc Value) :
    let srcs := runSources (Rfc.lib uuid) [] [(some ⟨"https://x/", none⟩, remoteSource (Rfc.lib uuid) loadr (Rfc.ofText "https://mirror/x/") "")]
    Outcome (loadr "http://other/a") (loadJson (Rfc.lib uuid) srcs (Rfc.ofText "https://x/http://other/a")) ∧
    Outcome (loadr "https://other/a") (loadJson (Rfc.lib uuid) srcs (Rfc.ofText "https://x///other/a")) := by
  constructor
  · have h := load_single (uuid := uuid) (src := remoteSource (Rfc.lib uuid) loadr (Rfc.ofText "https://mirror/x/") "") (b := "https://x/")
      (t := "https://x/http://other/a") (rest := "http://other/a") registrable_x (by
        show (Rfc.lib fun _ => ⟨"", none⟩).valid _ = true ∧ (Rfc.lib fun _ => ⟨"", none⟩).hasScheme _ = true ∧
          (Rfc.lib fun _ => ⟨"", none⟩).normal _ = true
        decide +kernel) (by decide) (by decide)
    have e : (Rfc.lib uuid).resolve ((Rfc.lib uuid).ofText "http://other/a") (Rfc.ofText "https://mirror/x/") = some ⟨"http://other/a", none⟩ := by
      show (Rfc.lib fun _ => ⟨"", none⟩).resolve (Rfc.ofText "http://other/a") (Rfc.ofText "https://mirror/x/") = _
      decide +kernel
    simp only [remoteSource, e] at h
    exact h
  · have h := load_single (uuid := uuid) (src := remoteSource (Rfc.lib uuid) loadr (Rfc.ofText "https://mirror/x/") "") (b := "https://x/")
      (t := "https://x///other/a") (rest := "//other/a") registrable_x (by
        show (Rfc.lib fun _ => ⟨"", none⟩).valid _ = true ∧ (Rfc.lib fun _ => ⟨"", none⟩).hasScheme _ = true ∧
          (Rfc.lib fun _ => ⟨"", none⟩).normal _ = true
        decide +kernel) (by decide) (by decide)
    have e : (Rfc.lib uuid).resolve ((Rfc.lib uuid).ofText "//other/a") (Rfc.ofText "https://mirror/x/") = some ⟨"https://other/a", none⟩ := by
      show (Rfc.lib fun _ => ⟨"", none⟩).resolve (Rfc.ofText "//other/a") (Rfc.ofText "https://mirror/x/") = _
      decide +kernel
    simp only [remoteSource, e] at h
    exact h

/-! ## Examples -/

/-- The conditions on the URI, in a case with two directories. -/
example (loadf : String → Except Exc Value) : ∃ f ns, PathNames "draft/b.c".toList ns ∧
    LeadsTo ["home".toList] f (["home".toList, "data".toList] ++ addLast ".json".toList ns) ∧
    Outcome (loadf f) (loadJson (Rfc.lib Rfc.freshUuid) (runSources (Rfc.lib Rfc.freshUuid) []
      [(some ⟨"https://x/", none⟩, localSource loadf "./data/" ".json")]) (Rfc.ofText "https://x/draft/b.c")) :=
  C86_local_partial (p := "https://x/") (dir := "./data/") (by decide) (by decide +kernel)
    (chosen_single (b := ⟨"https://x/", none⟩) registrable_x (by decide) _)
    (by simp only [Remainder]; decide) (by decide) (.inr (by decide)) (by decide) (by decide)
    ⟨_, pathNames_exists _, by decide +kernel⟩

example : addLast ".json".toList (partsNames "draft/b.c".toList) = ["draft".toList, "b.c.json".toList] := by decide +kernel

/-- A source for all URIs. -/
example (loadf : String → Except Exc Value) : ∃ f ns, PathNames "https://x/a".toList ns ∧
    LeadsTo [] f (["srv".toList] ++ addLast [] ns) ∧
    Outcome (loadf f) (loadJson (Rfc.lib Rfc.freshUuid) (runSources (Rfc.lib Rfc.freshUuid) []
      [(none, localSource loadf "/srv" "")]) (Rfc.ofText "https://x/a")) :=
  C86_local_partial (p := "") (dir := "/srv") (suffix := "") (by decide) (by decide +kernel)
    ⟨⟨[], none, [], rfl, trivial, rfl, fun c hc => by cases hc⟩, by decide, by
      rintro p' s' ⟨x, u, y, e, _, rfl, _⟩ _
      have : (u, s') ∈ [(none, localSource loadf "/srv" "")] := by rw [e]; simp
      simp only [List.mem_singleton, Prod.mk.injEq] at this
      rw [this.1]
      decide⟩
    (by simp only [Remainder]; decide) (by decide) (.inl rfl) (fun _ => by decide +kernel) (by decide)
    ⟨_, pathNames_exists _, by decide +kernel⟩

/-- A mirror. -/
example (loadr : String → Except Exc Value) :
    Outcome (loadr ("https://mirror/x/" ++ "draft/b:c" ++ ".json")) (loadJson (Rfc.lib Rfc.freshUuid) (runSources (Rfc.lib Rfc.freshUuid) []
      [(some ⟨"https://x/", none⟩, remoteSource (Rfc.lib Rfc.freshUuid) loadr (Rfc.ofText "https://mirror/x/") ".json")])
      (Rfc.ofText "https://x/draft/b:c")) :=
  C86_remote_partial (p := "https://x/") (q := "/x") (by decide) (by decide +kernel) (by decide +kernel) (by decide) (by decide +kernel)
    (chosen_single (b := ⟨"https://x/", none⟩) registrable_x (by decide) _)
    (by simp only [Remainder]; decide) (by decide) (by decide) (by
      intro x y e
      have e : ['d', 'r', 'a', 'f', 't', '/', 'b', ':', 'c'] = x ++ ':' :: y := e
      match x, e with
      | [], e => simp at e
      | [_], e => simp at e
      | [_, _], e => simp at e
      | [_, _, _], e => simp at e
      | [_, _, _, _], e => simp at e
      | [_, _, _, _, _], e => simp at e
      | _ :: _ :: _ :: _ :: _ :: c :: _, e =>
        simp at e
        simp [← e.2.2.2.2.2.1])

end Jschon
