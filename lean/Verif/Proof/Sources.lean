import Verif.Model.Sources
import Verif.Spec.Sources

/-!
# Joined paths lead where their parts lead
-/

namespace Jschon
open Spec

/-- The names in a pathname. -/
def partsNames (t : List Char) : List (List Char) := (splitSlash t).filter (· ≠ [])

theorem splitSlash_slash (t : List Char) : splitSlash ('/' :: t) = [] :: splitSlash t := by
  rw [splitSlash, if_pos rfl]

theorem splitSlash_ne (t : List Char) : splitSlash t ≠ [] := by
  cases t with
  | nil => simp [splitSlash]
  | cons c t =>
    rw [splitSlash]
    split
    · simp
    · split <;> simp

theorem splitSlash_name {s : List Char} (h : '/' ∉ s) : splitSlash s = [s] := by
  induction s with
  | nil => rfl
  | cons c s ih =>
    rw [splitSlash, if_neg (fun e => h (by simp [e])), ih (fun m => h (by simp [m]))]

theorem splitSlash_append {s : List Char} (h : '/' ∉ s) (p : List Char) :
    splitSlash (s ++ '/' :: p) = s :: splitSlash p := by
  induction s with
  | nil => exact splitSlash_slash p
  | cons c s ih =>
    rw [List.cons_append, splitSlash, if_neg (fun e => h (by simp [e])), ih (fun m => h (by simp [m]))]

theorem splitSlash_noSlash (t : List Char) : ∀ s ∈ splitSlash t, '/' ∉ s := by
  induction t with
  | nil => simp [splitSlash]
  | cons c t ih =>
    rw [splitSlash]
    split
    · intro s hs
      rcases List.mem_cons.1 hs with rfl | hs
      · simp
      · exact ih s hs
    · rename_i hc
      split
      · rename_i x xs e
        rw [e] at ih
        intro s hs
        rcases List.mem_cons.1 hs with rfl | hs
        · rw [List.mem_cons, not_or]
          exact ⟨fun e => hc e.symm, ih x (by simp)⟩
        · exact ih s (by simp [hs])
      · intro s hs
        simp at hs
        subst hs
        simp only [List.mem_cons, List.not_mem_nil, or_false]
        exact fun e => hc e.symm

theorem partsNames_slash (t : List Char) : partsNames ('/' :: t) = partsNames t := by
  simp [partsNames, splitSlash_slash]

theorem partsNames_name {s : List Char} (h0 : s ≠ []) (h : '/' ∉ s) {p : List Char} (hp : p = [] ∨ ∃ t, p = '/' :: t) :
    partsNames (s ++ p) = s :: partsNames p := by
  rcases hp with rfl | ⟨t, rfl⟩
  · simp [partsNames, splitSlash_name h, splitSlash, h0]
  · rw [partsNames_slash]
    simp [partsNames, splitSlash_append h, h0]

theorem partsNames_mem {t n : List Char} (h : n ∈ partsNames t) : n ≠ [] ∧ '/' ∉ n := by
  simp only [partsNames, List.mem_filter, decide_eq_true_eq] at h
  exact ⟨h.2, splitSlash_noSlash t n h.1⟩

theorem pathNames_eq {p : List Char} {ns : List (List Char)} (h : PathNames p ns) : ns = partsNames p := by
  induction h with
  | nil => rfl
  | slash _ ih => rw [partsNames_slash]; exact ih
  | name h0 h1 h2 _ ih => rw [partsNames_name h0 h1 h2, ih]

theorem pathNames_exists (p : List Char) : PathNames p (partsNames p) := by
  suffices ∀ n, ∀ p : List Char, p.length ≤ n → ∃ ns, PathNames p ns by
    obtain ⟨ns, h⟩ := this _ p (Nat.le_refl _)
    rw [← pathNames_eq h]; exact h
  intro n
  induction n with
  | zero => intro p h; cases p with
    | nil => exact ⟨_, .nil⟩
    | cons _ _ => simp at h
  | succ n ih =>
    intro p h
    cases p with
    | nil => exact ⟨_, .nil⟩
    | cons c p =>
      simp only [List.length_cons] at h
      by_cases hc : c = '/'
      · subst hc
        obtain ⟨ns, hn⟩ := ih p (by omega)
        exact ⟨ns, .slash hn⟩
      · have e : p = p.takeWhile (· ≠ '/') ++ p.dropWhile (· ≠ '/') := (List.takeWhile_append_dropWhile).symm
        obtain ⟨ns, hn⟩ := ih (p.dropWhile (· ≠ '/')) (by
          have := congrArg List.length e
          simp only [List.length_append] at this
          omega)
        have h1 : '/' ∉ c :: p.takeWhile (· ≠ '/') := by
          rw [List.mem_cons, not_or]
          refine ⟨fun e => hc e.symm, fun hm => ?_⟩
          have : ∀ (l : List Char), '/' ∉ l.takeWhile (· ≠ '/') := by
            intro l
            induction l with
            | nil => simp
            | cons d l ih =>
              rw [List.takeWhile_cons]
              split
              · rename_i hd
                rw [List.mem_cons, not_or]
                simp only [ne_eq, decide_not, Bool.not_eq_true', decide_eq_false_iff_not] at hd
                exact ⟨fun e => hd e.symm, ih⟩
              · simp
          exact this _ hm
        have h2 : p.dropWhile (· ≠ '/') = [] ∨ ∃ t, p.dropWhile (· ≠ '/') = '/' :: t := by
          have : ∀ (l : List Char), l.dropWhile (· ≠ '/') = [] ∨ ∃ t, l.dropWhile (· ≠ '/') = '/' :: t := by
            intro l
            induction l with
            | nil => simp
            | cons d l ih =>
              rw [List.dropWhile_cons]
              split
              · exact ih
              · rename_i hd
                simp at hd
                exact .inr ⟨l, by rw [hd]⟩
          exact this p
        have h3 := PathNames.name (by simp) h1 h2 hn
        rw [List.cons_append, ← e] at h3
        exact ⟨_, h3⟩

theorem walk_append (d a b : List (List Char)) : walk d (a ++ b) = walk (walk d a) b := by
  induction a generalizing d with
  | nil => rfl
  | cons n a ih => simp only [List.cons_append, walk, ih]

theorem walk_filter (d ns : List (List Char)) : walk d (ns.filter (· ≠ ['.'])) = walk d ns := by
  induction ns generalizing d with
  | nil => rfl
  | cons n ns ih =>
    by_cases h : n = ['.']
    · simp [h, walk]; simpa using ih d
    · simp only [List.filter_cons, ne_eq, h, not_false_eq_true, decide_true, if_true, walk, if_false]
      exact ih _

theorem walk_plain {d ns : List (List Char)} (h : ∀ n ∈ ns, n ≠ ['.'] ∧ n ≠ ['.', '.']) : walk d ns = d ++ ns := by
  induction ns generalizing d with
  | nil => simp [walk]
  | cons n ns ih =>
    have := h n (by simp)
    rw [walk, if_neg this.1, if_neg this.2, ih (fun m hm => h m (by simp [hm]))]
    simp

theorem addLast_nil (ns : List (List Char)) : addLast [] ns = ns := by
  induction ns with
  | nil => rfl
  | cons n ns ih =>
    cases ns with
    | nil => simp [addLast]
    | cons m ns => rw [addLast, ih]

theorem addLast_append {s : List Char} (a : List (List Char)) {b : List (List Char)} (h : b ≠ []) :
    addLast s (a ++ b) = a ++ addLast s b := by
  induction a with
  | nil => rfl
  | cons n a ih =>
    cases hab : a ++ b with
    | nil => exact absurd (List.append_eq_nil_iff.1 hab).2 h
    | cons m r => rw [List.cons_append, hab, addLast, ← hab, ih, List.cons_append]

theorem addLast_mem {s : List Char} {ns : List (List Char)} {n : List Char} (h : n ∈ addLast s ns) :
    n ∈ ns ∨ ∃ m ∈ ns, n = m ++ s := by
  induction ns with
  | nil => cases h
  | cons m ns ih =>
    cases ns with
    | nil =>
      simp only [addLast, List.mem_cons, List.not_mem_nil, or_false] at h
      exact .inr ⟨m, by simp, h⟩
    | cons k ns =>
      rw [addLast, List.mem_cons] at h
      rcases h with rfl | h
      · exact .inl (by simp)
      · rcases ih h with h | ⟨x, hx, e⟩
        · exact .inl (List.mem_cons_of_mem _ h)
        · exact .inr ⟨x, List.mem_cons_of_mem _ hx, e⟩

theorem addLast_ne {s : List Char} {ns : List (List Char)} (h : ns ≠ []) : addLast s ns ≠ [] := by
  cases ns with
  | nil => exact absurd rfl h
  | cons m ns => cases ns <;> simp [addLast]

theorem joinSlash_addLast {ps : List (List Char)} (h : ps ≠ []) (s : List Char) :
    joinSlash ps ++ s = joinSlash (addLast s ps) := by
  induction ps with
  | nil => exact absurd rfl h
  | cons p ps ih =>
    cases ps with
    | nil => rfl
    | cons q ps =>
      rw [joinSlash, addLast]
      cases e : addLast s (q :: ps) with
      | nil => exact absurd e (addLast_ne (by simp))
      | cons a r =>
        rw [joinSlash, ← e, ← ih (by simp)]
        simp

theorem partsNames_join {ps : List (List Char)} (h : ∀ n ∈ ps, n ≠ [] ∧ '/' ∉ n) : partsNames (joinSlash ps) = ps := by
  induction ps with
  | nil => rfl
  | cons p ps ih =>
    have hp := h p (by simp)
    have ih := ih fun n hn => h n (by simp [hn])
    cases ps with
    | nil =>
      have := partsNames_name hp.1 hp.2 (p := []) (.inl rfl)
      simpa [joinSlash, partsNames, splitSlash] using this
    | cons q ps => rw [joinSlash, partsNames_name hp.1 hp.2 (.inr ⟨_, rfl⟩), partsNames_slash, ih]

theorem posixRoot_eq (t : List Char) : (posixRoot t = [] ∧ t.head? ≠ some '/') ∨
    ((posixRoot t = ['/'] ∨ posixRoot t = ['/', '/']) ∧ t.head? = some '/') := by
  unfold posixRoot
  split
  · exact .inr ⟨.inl rfl, rfl⟩
  · exact .inr ⟨.inr rfl, rfl⟩
  · exact .inr ⟨.inl rfl, rfl⟩
  · rename_i h
    refine .inl ⟨rfl, ?_⟩
    cases t with
    | nil => simp
    | cons c t =>
      simp only [List.head?_cons, ne_eq, Option.some.injEq]
      rintro rfl
      exact h t rfl

theorem posixPath_parts (t : List Char) : (posixPath t).parts = (partsNames t).filter (· ≠ ['.']) := by
  simp only [posixPath, partsNames, List.filter_filter]
  congr 1
  funext s
  simp [Bool.and_comm]

theorem joinSlash_head {ps : List (List Char)} (h : ∀ n ∈ ps, n ≠ [] ∧ '/' ∉ n) : (joinSlash ps).head? ≠ some '/' := by
  cases ps with
  | nil => simp [joinSlash]
  | cons p ps =>
    obtain ⟨h0, h1⟩ := h p (by simp)
    cases p with
    | nil => exact absurd rfl h0
    | cons c p =>
      have : c ≠ '/' := fun e => h1 (by simp [e])
      cases ps <;> simpa [joinSlash] using this

theorem leads_rooted {cwd : List (List Char)} {root : List Char} (hr : root = [] ∨ root = ['/'] ∨ root = ['/', '/'])
    {ps : List (List Char)} (h : ∀ n ∈ ps, n ≠ [] ∧ '/' ∉ n) :
    LeadsTo cwd (String.ofList (root ++ joinSlash ps)) (walk (if root = [] then cwd else []) ps) := by
  refine ⟨ps, ?_, ?_⟩
  · rw [String.toList_ofList]
    have : partsNames (root ++ joinSlash ps) = ps := by
      rcases hr with rfl | rfl | rfl
      · simpa using partsNames_join h
      · rw [List.singleton_append, partsNames_slash, partsNames_join h]
      · rw [List.cons_append, partsNames_slash, List.singleton_append, partsNames_slash, partsNames_join h]
    have h := pathNames_exists (root ++ joinSlash ps)
    rwa [this] at h
  · rw [String.toList_ofList]
    rcases hr with rfl | rfl | rfl
    · rw [if_pos rfl, if_neg]
      simpa using joinSlash_head h
    · simp
    · simp

/-- The file of a `LocalSource` is where the relative path leads from the directory, with the suffix at its name. -/
theorem localFile_leads_dots {cwd d : List (List Char)} {dir suffix rel : String} {ns0 ns : List (List Char)}
    (hsuf : '/' ∉ suffix.toList) (hn0 : PathNames rel.toList ns0) (hf : ns = ns0.filter (· ≠ ['.']))
    (hs : suffix = "" ∨ ns ≠ []) (hdir : LeadsTo cwd dir d) :
    LeadsTo cwd (localFile dir suffix rel)
      (walk (if rel.toList.head? = some '/' then [] else d) (addLast suffix.toList ns)) := by
  obtain ⟨ds, hds, rfl⟩ := hdir
  have e1 := pathNames_eq hn0
  have e2 := pathNames_eq hds
  have hrel : (posixPath rel.toList).parts = ns := by
    rw [posixPath_parts, ← e1, hf]
  have hdirp : (posixPath dir.toList).parts = ds.filter (· ≠ ['.']) := by rw [posixPath_parts, ← e2]
  have hns : ∀ n ∈ ns, n ≠ [] ∧ '/' ∉ n := fun n hm =>
    partsNames_mem (t := rel.toList) (e1 ▸ (List.mem_filter.1 (hf ▸ hm)).1)
  have hdsn : ∀ n ∈ ds.filter (· ≠ ['.']), n ≠ [] ∧ '/' ∉ n := fun n hm =>
    partsNames_mem (t := dir.toList) (e2 ▸ (List.mem_filter.1 hm).1)
  have hadd : ∀ n ∈ addLast suffix.toList ns, n ≠ [] ∧ '/' ∉ n := by
    intro n hm
    rcases addLast_mem hm with hm | ⟨m, hm', rfl⟩
    · exact hns n hm
    · exact ⟨by simp [(hns m hm').1], by simp [(hns m hm').2, hsuf]⟩
  have hsn : suffix.toList = [] ∨ ns ≠ [] := hs.imp (fun e => by rw [e]; rfl) id
  have hjoin : ∀ root (ps : List (List Char)), (root = [] ∨ root = ['/'] ∨ root = ['/', '/']) →
      (∀ n ∈ ps, n ≠ [] ∧ '/' ∉ n) →
      LeadsTo cwd (String.ofList ((PosixPath.mk root (ps ++ ns)).str ++ suffix.toList))
        (walk (if root = [] then cwd else []) (ps ++ addLast suffix.toList ns)) := by
    intro root ps hr hps
    have e : addLast suffix.toList (ps ++ ns) = ps ++ addLast suffix.toList ns := by
      rcases hsn with e | e
      · simp [e, addLast_nil]
      · exact addLast_append ps e
    by_cases h0 : root = [] ∧ ps ++ ns = []
    · have hp := List.append_eq_nil_iff.1 h0.2
      have hsu : suffix.toList = [] := hsn.resolve_right (fun k => k hp.2)
      simp only [PosixPath.str, h0, and_self, if_true, hsu, hp.1, hp.2, addLast, List.append_nil]
      refine ⟨[['.']], ?_, ?_⟩
      · rw [String.toList_ofList]
        exact pathNames_exists ['.']
      · rw [String.toList_ofList]
        simp [walk]
    · have e3 : (PosixPath.mk root (ps ++ ns)).str ++ suffix.toList = root ++ joinSlash (ps ++ addLast suffix.toList ns) := by
        simp only [PosixPath.str, h0, if_false, List.append_assoc]
        congr 1
        by_cases hz : ps ++ ns = []
        · have hp := List.append_eq_nil_iff.1 hz
          have hsu : suffix.toList = [] := hsn.resolve_right (fun k => k hp.2)
          simp [hp.1, hp.2, hsu, addLast]
        · rw [joinSlash_addLast hz, e]
      rw [e3]
      refine leads_rooted hr fun n hm => ?_
      rcases List.mem_append.1 hm with hm | hm
      · exact hps n hm
      · exact hadd n hm
  have hroot : ∀ t, posixRoot t = [] ∨ posixRoot t = ['/'] ∨ posixRoot t = ['/', '/'] := fun t => by
    rcases posixRoot_eq t with h | h
    · exact .inl h.1
    · exact .inr h.1
  unfold localFile PosixPath.join
  rcases posixRoot_eq rel.toList with ⟨hr, hh⟩ | ⟨hr, hh⟩
  · rw [if_pos (by exact hr), if_neg hh, hrel, hdirp]
    have := hjoin (posixRoot dir.toList) _ (hroot _) hdsn
    have e3 : (if posixRoot dir.toList = [] then cwd else []) = (if dir.toList.head? = some '/' then [] else cwd) := by
      rcases posixRoot_eq dir.toList with ⟨hr, hh⟩ | ⟨hr, hh⟩
      · rw [if_pos hr, if_neg hh]
      · rw [if_neg (by rcases hr with e | e <;> simp [e]), if_pos hh]
    rw [e3, walk_append, walk_filter] at this
    exact this
  · have hne : (posixPath rel.toList).root ≠ [] := by
      show posixRoot rel.toList ≠ []
      rcases hr with e | e <;> simp [e]
    rw [if_neg hne, if_pos hh]
    have := hjoin (posixRoot rel.toList) [] (hroot _) (fun n hn => by cases hn)
    rw [if_neg (by exact hne)] at this
    simp only [List.nil_append] at this
    have e3 : posixPath rel.toList = ⟨posixRoot rel.toList, ns⟩ := by
      rw [← hrel]; rfl
    rw [e3]
    exact this

theorem localFile_leads {cwd d : List (List Char)} {dir suffix rel : String} {ns : List (List Char)}
    (hsuf : '/' ∉ suffix.toList) (hs : suffix = "" ∨ ns ≠ []) (hn : PathNames rel.toList ns) (hdot : ∀ n ∈ ns, n ≠ ['.'])
    (hdir : LeadsTo cwd dir d) :
    LeadsTo cwd (localFile dir suffix rel)
      (walk (if rel.toList.head? = some '/' then [] else d) (addLast suffix.toList ns)) :=
  localFile_leads_dots hsuf hn (List.filter_eq_self.2 fun n hm => by simpa using hdot n hm).symm hs hdir

/-- A path with something added to it. -/
theorem path_suffix {cwd : List (List Char)} {root : List Char} (hr : root = [] ∨ root = ['/'] ∨ root = ['/', '/'])
    {ps : List (List Char)} (h : ∀ n ∈ ps, n ≠ [] ∧ '/' ∉ n) {suffix : List Char} (h0 : suffix ≠ []) (h1 : '/' ∉ suffix) :
    LeadsTo cwd (String.ofList ((PosixPath.mk root ps).str ++ suffix)) (walk (if root = [] then cwd else [])
      (if ps = [] then [if root = [] then '.' :: suffix else suffix] else addLast suffix ps)) := by
  by_cases hp : ps = []
  · subst hp
    rw [if_pos rfl]
    by_cases hr0 : root = []
    · subst hr0
      have := leads_rooted (cwd := cwd) (root := []) (.inl rfl) (ps := ['.' :: suffix]) (by simpa using h1)
      simpa [PosixPath.str, joinSlash] using this
    · have := leads_rooted (cwd := cwd) hr (ps := [suffix]) (by simpa using ⟨h0, h1⟩)
      simpa [PosixPath.str, joinSlash, hr0] using this
  · rw [if_neg hp]
    have := leads_rooted (cwd := cwd) hr (ps := addLast suffix ps) fun n hm => by
      rcases addLast_mem hm with hm | ⟨m, hm', rfl⟩
      · exact h n hm
      · exact ⟨by simp [(h m hm').1], by simp [(h m hm').2, h1]⟩
    simpa [PosixPath.str, hp, joinSlash_addLast hp] using this

end Jschon
