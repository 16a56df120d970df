import Verif.Spec.OutputUnits
import Verif.Model.OutputFormats
import Verif.Props.Outputs

/-!
# C87: what is collected and what is output
-/

namespace Jschon

open Spec

section
variable {st : Store} {env : Env} {n : Nat} {s : SRef} {i : Inst} {r : RNode} {uri : RInfo → String}

/-! ### The results that are reached -/

theorem spec_along_child {P : RNode → Prop} {r m : RNode} {e : (String × List String) × RNode} (hr : P r)
    (he : e ∈ r.children) (h : Along P e.2 m) : Along P r m := by
  induction h with
  | self h => exact .child (.self hr) he h
  | child _ h1 h2 ih => exact .child ih h1 h2

mutual
theorem reached_mem {v : Bool} : ∀ {r m : RNode}, m ∈ reached v r → Along (fun x => x.info.valid = v) r m
  | .mk info cs, m, h => by
    rw [reached] at h
    split at h
    · rename_i hv
      rcases List.mem_cons.1 h with rfl | h
      · exact .self hv
      · obtain ⟨e, he, h⟩ := reachedOf_mem h
        exact spec_along_child hv he h
    · cases h
theorem reachedOf_mem {v : Bool} : ∀ {cs : List ((String × List String) × RNode)} {m : RNode}, m ∈ reachedOf v cs →
    ∃ e ∈ cs, Along (fun x => x.info.valid = v) e.2 m
  | [], m, h => by cases h
  | (k, c) :: r, m, h => by
    rw [reachedOf, List.mem_append] at h
    rcases h with h | h
    · exact ⟨_, List.mem_cons_self, reached_mem h⟩
    · obtain ⟨e, he, h⟩ := reachedOf_mem h
      exact ⟨e, List.mem_cons_of_mem _ he, h⟩
end

theorem mem_reachedOf {v : Bool} {m : RNode} : ∀ {cs : List ((String × List String) × RNode)}
    {e : (String × List String) × RNode}, e ∈ cs → m ∈ reached v e.2 → m ∈ reachedOf v cs
  | c :: cs, e, he, h => by
    rw [reachedOf, List.mem_append]
    rcases List.mem_cons.1 he with rfl | he
    · exact .inl h
    · exact .inr (mem_reachedOf he h)

mutual
theorem reached_trans {v : Bool} : ∀ {r m c : RNode} {k : String × List String}, m ∈ reached v r → (k, c) ∈ m.children →
    c.info.valid = v → c ∈ reached v r
  | .mk info cs, m, c, k, h, hc, hv => by
    rw [reached] at h ⊢
    split at h
    · rename_i h0
      rw [if_pos h0]
      rcases List.mem_cons.1 h with rfl | h
      · refine List.mem_cons_of_mem _ (mem_reachedOf hc ?_)
        cases c
        rw [RNode.info_mk] at hv
        rw [reached, if_pos hv]
        exact List.mem_cons_self
      · exact List.mem_cons_of_mem _ (reachedOf_trans h hc hv)
    · cases h
theorem reachedOf_trans {v : Bool} : ∀ {cs : List ((String × List String) × RNode)} {m c : RNode}
    {k : String × List String}, m ∈ reachedOf v cs → (k, c) ∈ m.children → c.info.valid = v → c ∈ reachedOf v cs
  | [], m, c, k, h, _, _ => by cases h
  | (k', x) :: r, m, c, k, h, hc, hv => by
    rw [reachedOf, List.mem_append] at h ⊢
    rcases h with h | h
    · exact .inl (reached_trans h hc hv)
    · exact .inr (reachedOf_trans h hc hv)
end

/-- `reached` lists the results that have the verdict, as do all results on the way to them. -/
theorem C87_reached {v : Bool} {m : RNode} : m ∈ reached v r ↔ Along (fun x => x.info.valid = v) r m := by
  refine ⟨reached_mem, fun h => ?_⟩
  induction h with
  | self h =>
    cases r
    rw [RNode.info_mk] at h
    rw [reached, if_pos h]
    exact List.mem_cons_self
  | @child m e _ h1 h2 ih => exact reached_trans (k := e.1) (c := e.2) ih h1 h2

/-! ### `collect_annotations` and `collect_errors` -/

theorem asked_iff {path : Option (List String)} {key : Option String} {info : RInfo} :
    ((key = none ∨ key = info.key) ∧ (path = none ∨ path = some info.inst.path)) ↔ Asked path key info := by
  unfold Asked
  cases key <;> cases path <;> simp [eq_comm]

mutual
theorem annotations_reached {path : Option (List String)} {key : Option String} : ∀ {r : RNode}, Kept r.info → Below Kept r →
    r.annotations path key =
      (reached true r).filterMap fun m => if Asked path key m.info then told true m.info else none
  | .mk info cs, hk, hb => by
    simp only [Kept, RNode.info_mk] at hk
    rw [RNode.annotations, reached, hk, childAnnotations_reached (cs := cs) hb.kids]
    cases hv : info.valid with
    | false => simp
    | true =>
      simp only [Bool.not_false, Bool.and_self, if_true, List.filterMap_cons, RNode.info_mk, told, saying]
      generalize List.filterMap _ (reachedOf true cs) = tl
      by_cases ha : Asked path key info
      · have := (asked_iff (info := info)).2 ha
        cases info.annotation <;> simp [ha, this]
      · have : ¬ _ := fun h => ha ((asked_iff (info := info)).1 h)
        cases info.annotation <;> simp [ha, this]
theorem childAnnotations_reached {path : Option (List String)} {key : Option String} :
    ∀ {cs : List ((String × List String) × RNode)}, (∀ e ∈ cs, Kept e.2.info ∧ Below Kept e.2) →
    childAnnotations path key cs =
      (reachedOf true cs).filterMap fun m => if Asked path key m.info then told true m.info else none
  | [], _ => rfl
  | (_, c) :: r, h => by
    have h0 := h _ List.mem_cons_self
    rw [childAnnotations, reachedOf, List.filterMap_append, annotations_reached h0.1 h0.2,
      childAnnotations_reached (fun e he => h e (List.mem_cons_of_mem _ he))]
end

mutual
theorem errors_reached {path : Option (List String)} {key : Option String} : ∀ {r : RNode}, Kept r.info → Below Kept r →
    r.errors path key =
      (reached false r).filterMap fun m => if Asked path key m.info then told false m.info else none
  | .mk info cs, hk, hb => by
    simp only [Kept, RNode.info_mk] at hk
    rw [RNode.errors, reached, hk, childErrors_reached (cs := cs) hb.kids]
    cases hv : info.valid with
    | true => simp
    | false =>
      simp only [Bool.not_false, Bool.and_self, if_true, List.filterMap_cons, RNode.info_mk, told, saying,
        Bool.false_eq_true, if_false]
      generalize List.filterMap _ (reachedOf false cs) = tl
      by_cases ha : Asked path key info
      · have := (asked_iff (info := info)).2 ha
        cases info.error <;> simp [ha, this]
      · have : ¬ _ := fun h => ha ((asked_iff (info := info)).1 h)
        cases info.error <;> simp [ha, this]
theorem childErrors_reached {path : Option (List String)} {key : Option String} :
    ∀ {cs : List ((String × List String) × RNode)}, (∀ e ∈ cs, Kept e.2.info ∧ Below Kept e.2) →
    childErrors path key cs =
      (reachedOf false cs).filterMap fun m => if Asked path key m.info then told false m.info else none
  | [], _ => rfl
  | (_, c) :: r, h => by
    have h0 := h _ List.mem_cons_self
    rw [childErrors, reachedOf, List.filterMap_append, errors_reached h0.1 h0.2,
      childErrors_reached (fun e he => h e (List.mem_cons_of_mem _ he))]
end

/-- `collect_annotations(instance, key)` yields the annotations of the valid results that are reached through
valid results, those that are asked for, parents first. -/
theorem C87_annotations (h : evaluate st env n s i = some r) (path : Option (List String)) (key : Option String) :
    r.annotations path key =
      (reached true r).filterMap fun m => if Asked path key m.info then told true m.info else none :=
  annotations_reached (evaluate_kept h).1 (evaluate_kept h).2

/-- `collect_errors(instance, key)` yields the errors of the invalid results that are reached through
invalid results, those that are asked for, parents first. -/
theorem C87_errors (h : evaluate st env n s i = some r) (path : Option (List String)) (key : Option String) :
    r.errors path key =
      (reached false r).filterMap fun m => if Asked path key m.info then told false m.info else none :=
  errors_reached (evaluate_kept h).1 (evaluate_kept h).2

/-! ### Basic -/

theorem wanted_iff {keys : Option (List String)} {info : RInfo} : info.wanted keys = true ↔ AskedFor keys info := by
  unfold AskedFor RInfo.wanted
  cases keys with
  | none => simp
  | some ks => cases info.key <;> simp [eq_comm]

mutual
theorem basicVisit_reached {keys : Option (List String)} {v : Bool} : ∀ (r : RNode),
    basicVisit uri keys v r =
      (reached v r).filterMap fun m => if AskedFor keys m.info then (told v m.info).map (basicUnit uri v m.info) else none
  | .mk info cs => by
    rw [basicVisit, reached, basicVisits_reached cs]
    by_cases hv : info.valid = v
    · rw [if_pos hv, if_pos hv, List.filterMap_cons]
      generalize List.filterMap _ (reachedOf v cs) = tl
      simp only [RNode.info_mk, told, saying]
      by_cases ha : AskedFor keys info
      · simp only [wanted_iff.2 ha, if_true, RInfo.msg]
        generalize (if v = true then info.annotation else info.error) = m
        cases m <;> simp [ha] <;> rfl
      · have : ¬ info.wanted keys = true := fun h => ha (wanted_iff.1 h)
        simp [ha, this]
    · rw [if_neg hv, if_neg hv]; rfl
theorem basicVisits_reached {keys : Option (List String)} {v : Bool} : ∀ (cs : List ((String × List String) × RNode)),
    basicVisits uri keys v cs =
      (reachedOf v cs).filterMap fun m => if AskedFor keys m.info then (told v m.info).map (basicUnit uri v m.info) else none
  | [] => rfl
  | (_, c) :: r => by
    rw [basicVisits, reachedOf, List.filterMap_append, basicVisit_reached c, basicVisits_reached r]
end

/-- The basic output is the verdict, and a unit for each result that has this verdict, is reached through such
results, is for one of the keywords that are asked for, and says something; in order, with its locations and what
it says. -/
theorem C87_basic (keys : Option (List String)) (r : RNode) :
    outBasic uri keys r = .obj [("valid", .bool r.info.valid),
      (if r.info.valid then "annotations" else "errors", .arr ((reached r.info.valid r).filterMap fun m =>
        if AskedFor keys m.info then (told r.info.valid m.info).map (basicUnit uri r.info.valid m.info) else none))] := by
  rw [outBasic, basicVisit_reached]
  rfl

/-! ### Verbose -/

theorem verbose_members (info : RInfo) (us : List Value) (k : String) :
    dlookup k (("valid", Value.bool info.valid) :: locations uri info ++ info.msgMember info.valid ++
      (match us with | [] => [] | os => [(childKey info.valid, Value.arr os)])) = verboseMember uri info us k := by
  have hm : info.msgMember info.valid = match told info.valid info with
      | none => [] | some a => [(msgKey info.valid, a)] := by
    simp only [RInfo.msgMember, told, saying, RInfo.msg]
    generalize (if info.valid = true then info.annotation else info.error) = m
    cases m <;> rfl
  rw [hm, verboseMember]
  generalize told info.valid info = t
  by_cases h0 : k = "valid"
  · subst h0; cases info.valid <;> cases t <;> cases us <;> rfl
  by_cases h1 : k = "instanceLocation"
  · subst h1; cases info.valid <;> cases t <;> cases us <;> rfl
  by_cases h2 : k = "keywordLocation"
  · subst h2; cases info.valid <;> cases t <;> cases us <;> rfl
  by_cases h3 : k = "absoluteKeywordLocation"
  · subst h3; cases info.valid <;> cases t <;> cases us <;> rfl
  by_cases h4 : k = "annotation"
  · subst h4; cases info.valid <;> cases t <;> cases us <;> rfl
  by_cases h5 : k = "error"
  · subst h5; cases info.valid <;> cases t <;> cases us <;> rfl
  by_cases h6 : k = "annotations"
  · subst h6; cases info.valid <;> cases t <;> cases us <;> rfl
  by_cases h7 : k = "errors"
  · subst h7; cases info.valid <;> cases t <;> cases us <;> rfl
  cases info.valid <;> cases t <;> cases us <;>
    simp [locations, dlookup, msgKey, childKey, h0, Ne.symm h0, h1, Ne.symm h1, h2, Ne.symm h2, h3, Ne.symm h3, h4, Ne.symm h4, h5, Ne.symm h5, h6, Ne.symm h6, h7, Ne.symm h7]

mutual
theorem outVerbose_unit : ∀ (r : RNode), VerboseUnit uri r (outVerbose uri r)
  | .mk info cs => by
    refine .mk (us := verboseVisits uri cs) (fun k => ?_) (verboseVisits_units cs)
    rw [outVerbose, member]
    exact verbose_members info _ k
theorem verboseVisits_units : ∀ (cs : List ((String × List String) × RNode)), VerboseUnits uri cs (verboseVisits uri cs)
  | [] => .nil
  | (_, c) :: r => .cons (outVerbose_unit c) (verboseVisits_units r)
end

/-- The verbose output has the form of the result tree: a unit for each result with its verdict, its locations and
what it says, the units of its children in it, and nothing else. -/
theorem C87_verbose (r : RNode) : VerboseUnit uri r (outVerbose uri r) := outVerbose_unit r

end

/-- `str(result)` of an evaluation is its verdict. -/
theorem C87_text {st : Store} {env : Env} {n : Nat} {s : SRef} {i : Inst} {r : RNode}
    (h : evaluate st env n s i = some r) : r.str = if r.info.valid then "valid" else "invalid" := by
  have hk : r.info.key = none := by
    have := (evalSchema_frame h).eq
    rw [this]; rfl
  rw [RNode.str, hk]

/-- The errors of an invalid instance of `{"not": {"if": {"type": "string"}}}`: those of the results that are reached
through invalid results, and those at one keyword. -/
example : ∃ r, evaluate notIf demoEnv 5 0 ⟨[], .num (.int 5)⟩ = some r ∧
    (reached false r).map (fun m => m.info.path) = [[], ["not"], ["not", "if"], ["not", "if", "type"]] ∧
    (r.errors none (some "type")).length = 1 ∧ (r.errors none none).length = 2 := by
  have h : (evaluate notIf demoEnv 5 0 ⟨[], .num (.int 5)⟩).map (fun r =>
      ((reached false r).map (fun m => m.info.path), (r.errors none (some "type")).length, (r.errors none none).length)) =
        some ([[], ["not"], ["not", "if"], ["not", "if", "type"]], 1, 2) := by decide +kernel
  obtain ⟨r, hr, h⟩ := Option.map_eq_some_iff.1 h
  simp only [Prod.mk.injEq] at h
  exact ⟨r, hr, h⟩

/-! ### The table of formats -/

theorem registerAll_look {format : String} : ∀ (calls : List (String × OutFn)) (t : OutTable),
    (∀ c ∈ calls, c.1 ≠ format) → dlookup format (registerAll t calls) = dlookup format t
  | [], _, _ => rfl
  | c :: calls, t, h => by
    rw [registerAll, List.foldl_cons]
    refine (registerAll_look calls _ (fun x hx => h x (List.mem_cons_of_mem _ hx))).trans ?_
    rw [registerOutput, dlookup_dset, if_neg (fun e => h c List.mem_cons_self e.symm)]

/-- A format means what the last function that was registered for it returns. -/
theorem C87_registered {t : OutTable} {pre post : List (String × OutFn)} {format : String} {f : OutFn}
    (h : ∀ c ∈ post, c.1 ≠ format) (r : RNode) (args : OutArgs) :
    createOutput (registerAll t (pre ++ (format, f) :: post)) r format args = f args r := by
  have : dlookup format (registerAll t (pre ++ (format, f) :: post)) = some f := by
    have e : registerAll t (pre ++ (format, f) :: post) =
        registerAll (registerOutput (registerAll t pre) format f) post := by
      simp [registerAll]
    rw [e, registerAll_look _ _ h, registerOutput, dlookup_dset, if_pos rfl]
  rw [createOutput, this]

/-- The formats that come with jschon, as long as no others are registered with their names. -/
theorem C87_shipped {uri : RInfo → String} {isSchema : RInfo → Bool} {calls : List (String × OutFn)} {format : String}
    (h : ∀ c ∈ calls, c.1 ≠ format) (r : RNode) :
    let out := fun args => createOutput (registerAll (shippedOutputs uri isSchema) calls) r format args
    (format = "flag" → out none = .ok (outFlag r)) ∧
    (format = "basic" → out none = .ok (outBasic uri none r) ∧ ∀ ks, out (some ks) = .ok (outBasic uri ks r)) ∧
    (format = "detailed" → out none = .ok (outDetailed uri r)) ∧
    (format = "verbose" → out none = .ok (outVerbose uri r)) ∧
    (format = "hierarchical" → ∀ o, outHierarchical uri isSchema r = some o → out none = .ok o) ∧
    (format ∈ ["flag", "detailed", "verbose", "hierarchical"] → ∀ ks, out (some ks) = .error .typeError) ∧
    (format ∉ ["flag", "basic", "detailed", "verbose", "hierarchical"] → ∀ args, out args = .error .keyError) := by
  intro out
  have e : ∀ args, out args = createOutput (shippedOutputs uri isSchema) r format args := by
    intro args
    show createOutput _ r format args = _
    rw [createOutput, createOutput, registerAll_look _ _ h]
  simp only [e]
  refine ⟨?_, ?_, ?_, ?_, ?_, ?_, ?_⟩
  · rintro rfl; rfl
  · rintro rfl; exact ⟨rfl, fun _ => rfl⟩
  · rintro rfl; rfl
  · rintro rfl; rfl
  · rintro rfl o ho
    show (match outHierarchical uri isSchema r with | some o => _ | none => _) = _
    rw [ho]
  · intro hf ks
    simp only [List.mem_cons, List.not_mem_nil, or_false] at hf
    rcases hf with rfl | rfl | rfl | rfl <;> rfl
  · intro hf args
    simp only [List.mem_cons, List.not_mem_nil, or_false, not_or] at hf
    have : dlookup format (shippedOutputs uri isSchema) = none := by
      simp only [shippedOutputs, registerOutput, dlookup_dset]
      simp [hf.1, hf.2.1, hf.2.2.1, hf.2.2.2.1, hf.2.2.2.2, dlookup]
    rw [createOutput, this]

/-- Someone's own format, and one that replaces `flag`. -/
example (uri : RInfo → String) (isSchema : RInfo → Bool) (r : RNode) :
    let t := registerAll (shippedOutputs uri isSchema)
      [("mine", noArgs fun _ => .ok .null), ("flag", noArgs fun r => .ok (.bool r.info.valid))]
    createOutput t r "mine" none = .ok .null ∧ createOutput t r "flag" none = .ok (.bool r.info.valid) ∧
    createOutput t r "verbose" none = .ok (outVerbose uri r) ∧ createOutput t r "terse" none = .error .keyError :=
  ⟨C87_registered (pre := []) (post := [_]) (by simp) r none, C87_registered (pre := [_]) (post := []) (by simp) r none,
    (C87_shipped (format := "verbose") (by simp) r).2.2.2.1 rfl,
    (C87_shipped (format := "terse") (by simp) r).2.2.2.2.2.2 (by decide) none⟩

end Jschon
