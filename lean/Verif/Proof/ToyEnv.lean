import Verif.Model.Vocabulary
import Verif.Spec.Construct
import Verif.Spec.Document

/-!
# A small environment for concrete cases

URIs beginning with `h` have a scheme; a reference without a scheme is either a mere fragment or
relative to `h/`.
-/

namespace Jschon.Toy

/-- Split at the first `#`. -/
def ofText (t : String) : Uri :=
  ⟨String.ofList (t.toList.takeWhile (· ≠ '#')),
    match t.toList.dropWhile (· ≠ '#') with
    | [] => none
    | _ :: f => some (String.ofList f)⟩

def hasScheme (u : Uri) : Bool := u.base.toList.head? = some 'h'

def plainChar (c : Char) : Char := if c = '#' then 'x' else c

def lib : UriLib where
  ofText := ofText
  valid _ := true
  hasScheme := hasScheme
  normal _ := true
  dirPath u := u.base.toList.getLast? = some '/'
  isAbsolute u := hasScheme u && u.base.toList.all (· ≠ '#') && u.fragment.isNone
  same u v := u = v
  resolve u b :=
    if hasScheme u then some u
    else if u.base = "" then some ⟨b.base, u.fragment⟩
    else some ⟨"h/" ++ u.base, u.fragment⟩
  uuid l := ⟨String.ofList (("h:" ++ l.foldr (fun u acc => u.base ++ acc) "urn:uuid:").toList.map plainChar), none⟩

theorem lib_ok : LibOk lib where
  hash a b := by
    have : ∀ (l r : List Char), (l ++ '#' :: r).dropWhile (· ≠ '#') ≠ [] := by
      intro l r
      induction l with
      | nil => simp
      | cons c l ih =>
        simp only [List.cons_append, List.dropWhile_cons]
        split
        · exact ih
        · simp
    show (ofText _).fragment ≠ none
    simp only [ofText, String.toList_append]
    have h := this a.toList b.toList
    have e : ("#" : String).toList = ['#'] := rfl
    rw [e, List.append_assoc, List.cons_append, List.nil_append]
    split
    · rename_i h'; exact absurd h' h
    · simp
  uuid l := by
    have h : ∀ (l : List Uri), 9 ≤ (l.foldr (fun u acc => u.base ++ acc) "urn:uuid:").length ∧
        ∀ u ∈ l, u.base.length < (l.foldr (fun u acc => u.base ++ acc) "urn:uuid:").length := by
      intro l
      induction l with
      | nil => exact ⟨by decide, by simp⟩
      | cons u l ih =>
        simp only [List.foldr_cons, String.length_append, List.mem_cons]
        refine ⟨by omega, ?_⟩
        rintro v (rfl | hv)
        · omega
        · have := ih.2 v hv; omega
    intro hl
    have := (h l).2 _ hl
    have e : (lib.uuid l).base.length = ("h:" ++ l.foldr (fun u acc => u.base ++ acc) "urn:uuid:").length := by
      simp only [lib, String.length_ofList, List.length_map, String.length_toList]
    rw [e, String.length_append] at this
    omega

theorem takeWhile_hash {l : List Char} (h : ∀ c ∈ l, c ≠ '#') (r : List Char) :
    (l ++ r).takeWhile (· ≠ '#') = l ++ r.takeWhile (· ≠ '#') ∧ (l ++ r).dropWhile (· ≠ '#') = r.dropWhile (· ≠ '#') := by
  induction l with
  | nil => exact ⟨rfl, rfl⟩
  | cons c l ih =>
    obtain ⟨h1, h2⟩ := ih fun d hd => h d (List.mem_cons_of_mem _ hd)
    simp only [List.cons_append, List.takeWhile_cons, List.dropWhile_cons, h c List.mem_cons_self, ne_eq,
      not_false_eq_true, decide_true, if_true]
    exact ⟨congrArg _ h1, h2⟩

theorem absolute_iff {b : Uri} : lib.isAbsolute b = true ↔
    hasScheme b = true ∧ (∀ c ∈ b.base.toList, c ≠ '#') ∧ b.fragment = none := by
  simp only [lib, Bool.and_eq_true, List.all_eq_true, decide_eq_true_eq, Option.isNone_iff_eq_none, and_assoc]

theorem ofText_base (t : String) : ∀ c ∈ (ofText t).base.toList, c ≠ '#' := by
  simp only [ofText, String.toList_ofList]
  intro c hc
  generalize t.toList = l at hc
  induction l with
  | nil => cases hc
  | cons d l ih =>
    simp only [List.takeWhile_cons] at hc
    split at hc
    · rename_i hd
      rcases List.mem_cons.1 hc with rfl | hc
      · exact of_decide_eq_true hd
      · exact ih hc
    · cases hc

theorem resolves (t : String) {b : Uri} (hb : lib.isAbsolute b = true) : ∃ r, lib.resolve (lib.ofText t) b = some r ∧
    lib.isAbsolute r.noFragment = true ∧ r.fragment = (lib.ofText t).fragment := by
  obtain ⟨h1, h2, -⟩ := absolute_iff.1 hb
  have ht := ofText_base t
  show ∃ r, (if hasScheme (ofText t) = true then some (ofText t) else
    if (ofText t).base = "" then some ⟨b.base, (ofText t).fragment⟩ else
    some ⟨"h/" ++ (ofText t).base, (ofText t).fragment⟩) = some r ∧ _ ∧ r.fragment = (ofText t).fragment
  split
  · rename_i h
    exact ⟨_, rfl, absolute_iff.2 ⟨h, ht, rfl⟩, rfl⟩
  · split
    · exact ⟨_, rfl, absolute_iff.2 ⟨h1, h2, rfl⟩, rfl⟩
    · refine ⟨_, rfl, absolute_iff.2 ⟨?_, ?_, rfl⟩, rfl⟩
      · simp [hasScheme, Uri.noFragment, String.toList_append]
      · intro c hc
        simp only [Uri.noFragment, String.toList_append, List.mem_append] at hc
        rcases hc with hc | hc
        · revert c; decide
        · exact ht c hc

theorem idText {t : String} (h : (lib.ofText t).fragment = none) : Spec.IdText lib t := by
  refine ⟨rfl, h, fun h => ⟨h, rfl⟩, fun _ b hb hf => ?_⟩
  obtain ⟨r, h1, h2, h3⟩ := resolves t hb.1
  exact ⟨r, h1, ⟨h2, rfl⟩, h3.trans h⟩

theorem site_lib : Spec.SiteLib lib where
  relative f _ := by
    simp [lib, ofText, hasScheme, Uri.noFragment, String.toList_append]
  resolve f b _ _ _ := by
    simp [lib, ofText, hasScheme, Uri.withFragment, String.toList_append]
  text b hb hf := by
    obtain ⟨h1, h2, h3⟩ := absolute_iff.1 hb.1
    obtain ⟨s, f⟩ := b
    cases h3
    have := takeWhile_hash h2 []
    simp only [List.append_nil, List.takeWhile_nil, List.dropWhile_nil] at this
    simp only [lib, ofText, Uri.str, this.1, this.2, String.ofList_toList]
  anchor b f hb hf _ := by
    obtain ⟨h1, h2, h3⟩ := absolute_iff.1 hb.1
    obtain ⟨s, g⟩ := b
    cases h3
    have := takeWhile_hash h2 ('#' :: f.toList)
    have e : ("#" : String).toList = ['#'] := rfl
    simp only [lib, ofText, Uri.str, String.toList_append, e, List.append_assoc, List.cons_append, List.nil_append,
      this.1, this.2, Uri.withFragment]
    simp [String.ofList_toList]
  uuid l := by
    refine ⟨rfl, absolute_iff.2 ⟨?_, ?_, rfl⟩, rfl⟩
    · simp [lib, hasScheme, String.toList_append, plainChar]
    · simp only [lib, String.toList_ofList, List.mem_map]
      rintro c ⟨d, -, rfl⟩
      unfold plainChar
      split
      · decide
      · assumption

/-- Metaschemas `m20`, `m19` (also known as `hm19`) and `mnext`, no sources, no formats. -/
def env : CEnv where
  lib := lib
  sources := []
  metaschema u :=
    if u.base = "m20" then .ok meta2020 else if u.base = "m19" ∨ u.base = "hm19" then .ok meta2019
    else if u.base = "mnext" then .ok metaNext else .error .catalogError
  reOk _ := true
  fmtEnabled _ := false
  fmtKnown _ := false

theorem ids2020 : IdOnly meta2020 := by
  have h : ∀ c ∈ meta2020.classes, (c.shape ≠ .id ∧ c.shape ≠ .idNext) ∨ c.key = "$id" := by decide +kernel
  intro c hc hs
  rcases h c hc with ⟨h1, h2⟩ | h
  · rcases hs with hs | hs
    · exact absurd hs h1
    · exact absurd hs h2
  · exact h

theorem ids2019 : IdOnly meta2019 := by
  have h : ∀ c ∈ meta2019.classes, (c.shape ≠ .id ∧ c.shape ≠ .idNext) ∨ c.key = "$id" := by decide +kernel
  intro c hc hs
  rcases h c hc with ⟨h1, h2⟩ | h
  · rcases hs with hs | hs
    · exact absurd hs h1
    · exact absurd hs h2
  · exact h

theorem idsNext : IdOnly metaNext := by
  have h : ∀ c ∈ metaNext.classes, (c.shape ≠ .id ∧ c.shape ≠ .idNext) ∨ c.key = "$id" := by decide +kernel
  intro c hc hs
  rcases h c hc with ⟨h1, h2⟩ | h
  · rcases hs with hs | hs
    · exact absurd hs h1
    · exact absurd hs h2
  · exact h

theorem ids {u : Uri} {m : Meta} (h : env.metaschema u = .ok m) : IdOnly m := by
  simp only [env] at h
  split at h
  · cases h; exact ids2020
  · split at h
    · cases h; exact ids2019
    · split at h
      · cases h; exact idsNext
      · cases h

theorem env_ok : CEnvOk env where
  lib := lib_ok
  ids _ _ h := ids h
  docs u v h := by
    simp only [env, loadJson, sourceCandidates, List.filter_nil, List.mergeSort_nil] at h
    split at h <;> cases h

/-- The same with one source, for URIs beginning with `h/`. -/
def envWith (src : Source) : CEnv := { env with sources := [("h/", src)] }

theorem envWith_load (src : Source) (t : String) :
    loadJson (envWith src).lib (envWith src).sources ⟨"h/" ++ t, none⟩ =
      match src t with
      | .ok v => .ok v
      | .error _ => .error .catalogError := by
  have hv : (Uri.mk ("h/" ++ t) none).validate lib true true false true = .ok () := by
    have : hasScheme ⟨"h/" ++ t, none⟩ = true := by
      simp only [hasScheme, String.toList_append]; rfl
    simp [Uri.validate, lib, this]
  have hs : (Uri.mk ("h/" ++ t) none).str = "h/" ++ t := rfl
  have hp : (("h/" : String).toList.isPrefixOf ("h/" ++ t).toList) = true := by
    rw [String.toList_append]; simp
  have hd : String.ofList (("h/" ++ t).toList.drop ("h/" : String).length) = t := by
    rw [String.toList_append, show ("h/" : String).length = ("h/" : String).toList.length from rfl,
      List.drop_left, String.ofList_toList]
  simp only [loadJson, envWith, env, hv, sourceCandidates, hs, List.filter_cons, hp, if_true, List.filter_nil,
    List.mergeSort_singleton, hd]
  rfl

theorem envWith_ok (src : Source) (h : ∀ t v, src t = .ok v → v.WF) : CEnvOk (envWith src) where
  lib := lib_ok
  ids _ _ h := ids h
  docs u v hl := by
    simp only [loadJson] at hl
    split at hl
    · cases hl
    · split at hl
      · cases hl
      · rename_i p s r hc
        have hm : (p, s) ∈ sourceCandidates (envWith src).sources u.str := by rw [hc]; simp
        simp only [sourceCandidates, List.mem_mergeSort, List.mem_filter] at hm
        have : s = src := by
          have := hm.1
          simp only [envWith, List.mem_cons, List.not_mem_nil, or_false, Prod.mk.injEq] at this
          exact this.2
        subst this
        split at hl
        · rename_i v' hv; cases hl; exact h _ _ hv
        · cases hl

mutual
/-- Whether a value is well-formed. -/
def wf : Value → Bool
  | .arr xs => wfList xs
  | .obj kvs => decide (dkeys kvs).Nodup && wfMembers kvs
  | _ => true
def wfList : List Value → Bool
  | [] => true
  | x :: xs => wf x && wfList xs
def wfMembers : List (String × Value) → Bool
  | [] => true
  | (_, x) :: xs => wf x && wfMembers xs
end

mutual
theorem wf_spec : (v : Value) → wf v = true → v.WF
  | .null, _ => .null
  | .bool _, _ => .bool
  | .num _, _ => .num
  | .str _, _ => .str
  | .arr xs, h => .arr (wfList_spec xs (by simpa [wf] using h))
  | .obj kvs, h => by
    simp only [wf, Bool.and_eq_true, decide_eq_true_eq] at h
    exact .obj h.1 (wfMembers_spec kvs h.2)
theorem wfList_spec : (xs : List Value) → wfList xs = true → ∀ v ∈ xs, v.WF
  | [], _ => fun _ h => nomatch h
  | x :: xs, h => by
    simp only [wfList, Bool.and_eq_true] at h
    have h1 := wf_spec x h.1
    have h2 := wfList_spec xs h.2
    intro v hv
    rcases List.mem_cons.1 hv with rfl | hv
    · exact h1
    · exact h2 v hv
theorem wfMembers_spec : (xs : List (String × Value)) → wfMembers xs = true → ∀ kv ∈ xs, kv.2.WF
  | [], _ => fun _ h => nomatch h
  | (_, x) :: xs, h => by
    simp only [wfMembers, Bool.and_eq_true] at h
    have h1 := wf_spec x h.1
    have h2 := wfMembers_spec xs h.2
    intro v hv
    rcases List.mem_cons.1 hv with rfl | hv
    · exact h1
    · exact h2 v hv
end

end Jschon.Toy
