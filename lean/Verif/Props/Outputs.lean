import Verif.Spec.Outputs
import Verif.Props.Results

/-!
# C60: the detailed and the hierarchical output
-/

namespace Jschon

open Spec

section
variable {uri : RInfo → String} {isSchema : RInfo → Bool}

/-! ### Detailed -/

/-- The unit that `detailed` makes of a result without children to show. -/
def tipUnit (uri : RInfo → String) (valid : Bool) (info : RInfo) : Value :=
  .obj (locations uri info ++ info.msgMember valid)

theorem tipUnit_about (valid : Bool) (info : RInfo) :
    About uri (if valid then "annotation" else "error")
      (if valid then info.annotation else info.error) info (tipUnit uri valid info) := by
  refine ⟨rfl, rfl, rfl, ?_, ?_⟩
  · intro h
    have : info.msgMember valid = [] := by
      simp only [RInfo.msgMember, RInfo.msg, h]
    cases valid <;> simp [tipUnit, this, locations, member, dlookup]
  · intro h
    have : info.msgMember valid = [(msgKey valid, info.msg valid)] := by
      simp only [RInfo.msgMember]
      split
      · rename_i h'; exact absurd h' h
      · rfl
    cases valid <;> simp [tipUnit, this, locations, member, dlookup, msgKey, RInfo.msg]

theorem tipUnit_leaf (valid : Bool) (info : RInfo) :
    member (childKey valid) (tipUnit uri valid info) = none := by
  simp only [tipUnit, RInfo.msgMember]
  split <;> cases valid <;> simp [locations, member, dlookup, childKey, msgKey]

theorem Spec.LeavesAll.cast {key : String} {us ls ls' : List Value} (h : LeavesAll key us ls)
    (e : ls = ls') : LeavesAll key us ls' := e ▸ h

mutual
theorem detailedVisit_leaves (v : Bool) : ∀ (r : RNode),
    Leaves (childKey v) (detailedVisit uri v r) ((tips v r).map (fun m => tipUnit uri v m.info))
  | .mk info cs => by
    have ih := detailedVisits_leaves v cs
    have hany := detailedVisits_any v cs
    rw [tips, detailedVisit]
    cases hl : detailedVisits uri v cs with
    | nil =>
      have : (cs.any fun e => e.2.info.valid == v) = false := by
        rw [hany, hl]; rfl
      rw [if_neg (by rw [this]; simp)]
      exact .leaf (tipUnit_leaf v info)
    | cons o os =>
      have : (cs.any fun e => e.2.info.valid == v) = true := by
        rw [hany, hl]; rfl
      rw [if_pos this]
      rw [hl] at ih
      cases os with
      | nil =>
        generalize hg : (tipsOf v cs).map (fun m => tipUnit uri v m.info) = g at ih ⊢
        cases ih with
        | cons h1 h2 => cases h2; simpa using h1
      | cons o' os =>
        refine .node (us := o :: o' :: os) ?_ (by simp) ih
        cases v <;> simp [locations, member, dlookup, childKey]
theorem detailedVisits_leaves (v : Bool) : ∀ (cs : List ((String × List String) × RNode)),
    LeavesAll (childKey v) (detailedVisits uri v cs)
      ((tipsOf v cs).map (fun m => tipUnit uri v m.info))
  | [] => .nil
  | (_, c) :: r => by
    have ih := detailedVisits_leaves v r
    rw [detailedVisits, tipsOf]
    split
    · rw [List.map_append]
      exact .cons (detailedVisit_leaves v c) ih
    · exact ih
theorem detailedVisits_any (v : Bool) : ∀ (cs : List ((String × List String) × RNode)),
    (cs.any fun e => e.2.info.valid == v) = !(detailedVisits uri v cs).isEmpty
  | [] => rfl
  | (_, c) :: r => by
    have ih := detailedVisits_any v r
    rw [detailedVisits, List.any_cons]
    split
    · rename_i h; simp [h]
    · rename_i h; rw [ih]; simp [h]
end

/-- The innermost units of the detailed output are about the results that have the verdict of the root,
as do all results between, and have no child with that verdict; one for each, in order, with its
locations and its message.  They are under "annotations" if the instance is valid and under "errors" if
not, nothing is under the other, and every unit between has at least two units in it. -/
theorem C60_detailed_units (r : RNode) : ∃ (us : List Value) (f : RInfo → Value),
    (∀ info, About uri (if r.info.valid then "annotation" else "error")
      (if r.info.valid then info.annotation else info.error) info (f info)) ∧
    member (if r.info.valid then "annotations" else "errors") (outDetailed uri r) = some (.arr us) ∧
    member (if r.info.valid then "errors" else "annotations") (outDetailed uri r) = none ∧
    LeavesAll (if r.info.valid then "annotations" else "errors") us
      ((tipsOf r.info.valid r.children).map (fun m => f m.info)) := by
  refine ⟨detailedVisits uri r.info.valid r.children, tipUnit uri r.info.valid,
    tipUnit_about r.info.valid, ?_, ?_, detailedVisits_leaves _ _⟩
  · simp only [outDetailed]
    cases r.info.valid <;> simp [locations, member, dlookup, childKey]
  · simp only [outDetailed]
    cases r.info.valid <;> simp [locations, member, dlookup, childKey]

theorem childErrors_invalid {path : Option (List String)} {key : Option String} :
    ∀ {cs : List ((String × List String) × RNode)}, ¬ childErrors path key cs = [] →
      ∃ e ∈ cs, e.2.info.valid = false
  | [], h => absurd rfl h
  | (k, c) :: r, h => by
    cases hv : c.info.valid with
    | false => exact ⟨(k, c), List.mem_cons_self, hv⟩
    | true =>
      have h0 : c.errors path key = [] := C43_no_errors hv
      simp only [childErrors, h0, List.nil_append] at h
      obtain ⟨e, he, h⟩ := childErrors_invalid h
      exact ⟨e, List.mem_cons_of_mem _ he, h⟩

/-- If the instance is invalid and the schema is not a boolean, the detailed output lists something
under "errors".

Missing: the schema `false`, of which the detailed output has nothing under "errors"
(`C60_false_schema`). -/
theorem C60_nonempty_partial {st : Store} {env : Env} {n : Nat} {s : SRef} {i : Inst} {r : RNode}
    (h : evaluate st env n s i = some r) (hv : r.info.valid = false) (hb : ∀ b, st.obj s ≠ .bool b) :
    ∃ u us, member "errors" (outDetailed uri r) = some (.arr (u :: us)) := by
  have hm : member "errors" (outDetailed uri r) = some (.arr (detailedVisits uri false r.children)) := by
    simp [outDetailed, hv, locations, member, dlookup, childKey]
  have he := evaluate_err h hv
  have hnull : r.info.error = .null := by
    cases n with
    | zero => simp [evaluate, evalSchema] at h
    | succ n =>
      simp only [evaluate, evalSchema, evalBody] at h
      split at h
      · rename_i hs; exact absurd hs (hb _)
      · rename_i hs; exact absurd hs (hb _)
      · split at h
        · contradiction
        · rename_i r1 hk
          have hi := (kwLoop_good closed_true (evalSchema_good closed_true n) trivial
            (.mk trivial (by simp) (by simp)) hk).2
          rw [← Option.some.inj h]
          split
          · rfl
          · rw [hi]; rfl
  have hc : ∃ e ∈ r.children, e.2.info.valid = false := by
    cases r with
    | mk info cs =>
      simp only [RNode.info_mk] at hnull
      simp only [Err, RNode.errors, hnull] at he
      split at he
      · simp only [List.nil_append, ne_eq] at he
        exact childErrors_invalid he
      · exact absurd rfl he
  obtain ⟨e, he, hf⟩ := hc
  have hany := detailedVisits_any (uri := uri) false r.children
  have : (r.children.any fun e => e.2.info.valid == false) = true :=
    List.any_eq_true.2 ⟨e, he, by rw [hf]; rfl⟩
  rw [this] at hany
  cases hl : detailedVisits uri false r.children with
  | nil => rw [hl] at hany; cases hany
  | cons u us => exact ⟨u, us, by rw [hm, hl]⟩

/-- The detailed output of the schema `false` lists no error. -/
theorem C60_false_schema (env : Env) (i : Inst) : ∃ r,
    evaluate (listStore [.bool false]) env 1 0 i = some r ∧ r.info.valid = false ∧
    member "errors" (outDetailed uri r) = some (.arr []) :=
  ⟨_, rfl, rfl, rfl⟩

/-! ### Hierarchical -/

theorem Spec.HierUnits.append {rs rs' : List RNode} {os os' : List Value}
    (h' : HierUnits uri isSchema rs' os') : HierUnits uri isSchema rs os →
    HierUnits uri isSchema (rs ++ rs') (os ++ os') := by
  induction rs generalizing os with
  | nil => intro h; cases h; exact h'
  | cons r rs ih =>
    intro h
    cases h with
    | cons h1 h2 => exact .cons h1 (ih h2)

theorem keyedMsgs_sound {v : Bool} {k : String} {a : Value} :
    ∀ {cs : List ((String × List String) × RNode)} {d}, dlookup k (keyedMsgs v cs d) = some a →
      dlookup k d = some a ∨
      (a ≠ .null ∧ ∃ e ∈ cs, e.2.info.key.getD "" = k ∧ saying v e.2.info = a)
  | [], d, h => .inl h
  | (k', c) :: r, d, h => by
    simp only [keyedMsgs] at h
    split at h
    · rcases keyedMsgs_sound h with h | ⟨h, e, he, h'⟩
      · exact .inl h
      · exact .inr ⟨h, e, List.mem_cons_of_mem _ he, h'⟩
    · rename_i hn
      rcases keyedMsgs_sound h with h | ⟨h, e, he, h'⟩
      · by_cases hk : k = c.info.key.getD ""
        · subst hk
          rw [dlookup_dset, if_pos rfl] at h
          have h := Option.some.inj h
          refine .inr ⟨fun h0 => hn (by rw [h, h0]), (k', c), List.mem_cons_self, rfl, h⟩
        · rw [dlookup_dset, if_neg hk] at h
          exact .inl h
      · exact .inr ⟨h, e, List.mem_cons_of_mem _ he, h'⟩

theorem keyedMsgs_keeps {v : Bool} {k : String} :
    ∀ {cs : List ((String × List String) × RNode)} {d}, (∃ a, dlookup k d = some a) →
      ∃ a, dlookup k (keyedMsgs v cs d) = some a
  | [], _, h => h
  | (k', c) :: r, d, h => by
    simp only [keyedMsgs]
    split
    · exact keyedMsgs_keeps h
    · refine keyedMsgs_keeps ?_
      by_cases hk : k = c.info.key.getD ""
      · subst hk; exact ⟨_, by rw [dlookup_dset, if_pos rfl]⟩
      · rw [dlookup_dset, if_neg hk]; exact h

theorem keyedMsgs_complete {v : Bool} :
    ∀ {cs : List ((String × List String) × RNode)} {d} {e}, e ∈ cs → saying v e.2.info ≠ .null →
      ∃ a, dlookup (e.2.info.key.getD "") (keyedMsgs v cs d) = some a
  | (k', c) :: r, d, e, he, hn => by
    simp only [keyedMsgs]
    rcases List.mem_cons.1 he with rfl | he
    · split
      · rename_i h; exact absurd h hn
      · exact keyedMsgs_keeps ⟨_, by rw [dlookup_dset, if_pos rfl]⟩
    · split
      · exact keyedMsgs_complete he hn
      · exact keyedMsgs_complete he hn

theorem hierObj (v : Bool) (a b c : Value) (ds : List Value) (ms : List (String × Value)) :
    (∀ k, (member (if v then "annotations" else "errors")
      (.obj ([("valid", .bool v), ("evaluationPath", a), ("schemaLocation", b),
          ("instanceLocation", c)] ++
        (match ds with | [] => [] | ds => [("details", .arr ds)]) ++
        (match ms with | [] => [] | ms => [(childKey v, .obj ms)])))).bind (member k) =
      dlookup k ms) ∧
    member "details" (.obj ([("valid", .bool v), ("evaluationPath", a), ("schemaLocation", b),
          ("instanceLocation", c)] ++
        (match ds with | [] => [] | ds => [("details", .arr ds)]) ++
        (match ms with | [] => [] | ms => [(childKey v, .obj ms)]))) =
      (if ds.isEmpty then none else some (.arr ds)) ∧
    member (if v then "errors" else "annotations")
      (.obj ([("valid", .bool v), ("evaluationPath", a), ("schemaLocation", b),
          ("instanceLocation", c)] ++
        (match ds with | [] => [] | ds => [("details", .arr ds)]) ++
        (match ms with | [] => [] | ms => [(childKey v, .obj ms)]))) = none := by
  cases v <;> cases ds <;> cases ms <;> simp [member, dlookup, childKey]

mutual
theorem hierVisit_units : ∀ (r : RNode),
    HierUnits uri isSchema (firsts isSchema r) (hierVisit uri isSchema r)
  | .mk info cs => by
    have ih := hierDetails_units info.valid cs
    have ih' := hierVisits_units cs
    rw [firsts, hierVisit]
    split
    · refine .cons ?_ .nil
      obtain ⟨h1, h2, h3⟩ := hierObj info.valid info.kwLoc (.str (uri info)) info.instLoc
        (hierDetails uri isSchema info.valid cs) (keyedMsgs info.valid cs [])
      refine .mk (us := hierDetails uri isSchema info.valid cs) rfl rfl rfl rfl h2 ih ?_ ?_ h3
      · intro k a h
        have h := (h1 k).symm.trans h
        rcases keyedMsgs_sound h with h | h
        · simp [dlookup] at h
        · exact h
      · intro e he hn
        obtain ⟨a, ha⟩ := keyedMsgs_complete (d := []) he hn
        exact ⟨a, (h1 _).trans ha⟩
    · exact ih'
theorem hierDetails_units (v : Bool) : ∀ (cs : List ((String × List String) × RNode)),
    HierUnits uri isSchema
      (cs.flatMap fun e => if e.2.info.valid = v then firsts isSchema e.2 else [])
      (hierDetails uri isSchema v cs)
  | [] => .nil
  | (_, c) :: r => by
    rw [hierDetails, List.flatMap_cons]
    refine .append (hierDetails_units v r) ?_
    split
    · exact hierVisit_units c
    · exact .nil
theorem hierVisits_units : ∀ (cs : List ((String × List String) × RNode)),
    HierUnits uri isSchema (firstsOf isSchema cs) (hierVisits uri isSchema cs)
  | [] => .nil
  | (_, c) :: r => by
    rw [hierVisits, firstsOf]
    exact .append (hierVisits_units r) (hierVisit_units c)
end

/-- The hierarchical output of a result is a unit for the topmost result of a schema in it: its verdict
and locations are those of the result, its details are such units for the results of schemas just below
it under the children with its verdict, in order, and its annotations (if it is valid) or errors (if
not) are those of its children, by key. -/
theorem C60_hierarchical (r : RNode) :
    (∀ o, outHierarchical uri isSchema r = some o →
      ∃ m, (firsts isSchema r).head? = some m ∧ HierUnit uri isSchema m o) ∧
    (∀ m, (firsts isSchema r).head? = some m → ∃ o, outHierarchical uri isSchema r = some o) := by
  have h := hierVisit_units (uri := uri) (isSchema := isSchema) r
  simp only [outHierarchical]
  generalize firsts isSchema r = rs at h
  generalize hierVisit uri isSchema r = os at h
  cases h with
  | nil => exact ⟨fun o h => by simp at h, fun m h => by simp at h⟩
  | cons h1 _ =>
    refine ⟨fun o h => ?_, fun m _ => ⟨_, rfl⟩⟩
    cases h
    exact ⟨_, rfl, h1⟩

end

/-- `{"not": {"if": {"type": "string"}}}` -/
def notIf : Store := listStore
  [.obj [.not_ 1], .obj [.if_ 2], .obj [.assert (.type_ ["string"])]]

/-- The only innermost unit of the detailed output for 5 is about the condition, which is no reason for
5 to be invalid: 5 is invalid because it is valid against the subschema of `not`, and there is no unit
with the error of `not`. -/
theorem C60_condition : ∃ r, evaluate notIf demoEnv 5 0 ⟨[], .num (.int 5)⟩ = some r ∧
    r.info.valid = false ∧
    (tipsOf false r.children).map (fun m => m.info.path) = [["not", "if", "type"]] ∧
    (r.errors none none).length = 2 := by
  have h : (evaluate notIf demoEnv 5 0 ⟨[], .num (.int 5)⟩).map (fun r =>
      (r.info.valid, (tipsOf false r.children).map (fun m => m.info.path),
        (r.errors none none).length)) = some (false, [["not", "if", "type"]], 2) := by decide +kernel
  obtain ⟨r, hr, h⟩ := Option.map_eq_some_iff.1 h
  simp only [Prod.mk.injEq] at h
  exact ⟨r, hr, h.1, h.2.1, h.2.2⟩

/-! ### Examples -/

/-- Innermost units three and four levels down, of an invalid and a valid result. -/
example : (evaluate treeStore demoEnv 9 0 badObj).map (fun r =>
      (tipsOf r.info.valid r.children).map (fun m => (Ptr.mk m.info.path).str)) =
    some ["/allOf/0/$ref/properties/a/type"] := by decide +kernel

example : (evaluate treeStore demoEnv 9 0 goodObj).map (fun r =>
      (tipsOf r.info.valid r.children).map (fun m => (Ptr.mk m.info.path).str)) =
    some ["/title", "/allOf/0/$ref/properties/a/type", "/allOf/1", "/propertyNames/type"] := by
  decide +kernel

/-- Units of the hierarchical output, taking results at an even depth as those of schemas. -/
example : (evaluate treeStore demoEnv 9 0 badObj).map (fun r =>
      (inner (fun info => info.path.length % 2 == 0) r).map (fun m => (Ptr.mk m.info.path).str)) =
    some ["/allOf/0", "/allOf/1"] := by decide +kernel

end Jschon
