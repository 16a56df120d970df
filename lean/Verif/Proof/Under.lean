import Verif.Spec.Under
import Verif.Model.Output

/-!
# Evaluation does not depend on the place of the instance
-/

namespace Jschon
open Spec

section
variable {p : List String}

theorem under_info (r : RNode) : (resultUnder p r).info = { r.info with inst := instUnder p r.info.inst } := by
  cases r; simp only [resultUnder, RNode.info]
theorem under_children (r : RNode) : (resultUnder p r).children = resultsUnder p r.children := by
  cases r; simp only [resultUnder, RNode.children]
theorem under_valid (r : RNode) : (resultUnder p r).valid = r.valid := by
  simp only [RNode.valid, under_info]
theorem under_schema (r : RNode) : (resultUnder p r).schema = r.schema := by
  simp only [RNode.schema, under_info]
theorem under_passed (r : RNode) : (resultUnder p r).passed = r.passed := by
  simp only [RNode.passed, under_info]
theorem under_annotation (r : RNode) : (resultUnder p r).info.annotation = r.info.annotation := by
  simp only [under_info]
theorem under_discard (r : RNode) : (resultUnder p r).info.discard = r.info.discard := by
  simp only [under_info]

theorem under_key {k k' : String × List String} : ((k.1, p ++ k.2) = (k'.1, p ++ k'.2)) ↔ k = k' := by
  obtain ⟨a, b⟩ := k; obtain ⟨a', b'⟩ := k'
  simp

theorem under_clookup (k : String) (q : List String) : ∀ cs, clookup (k, p ++ q) (resultsUnder p cs) =
    (clookup (k, q) cs).map (resultUnder p)
  | [] => by simp only [resultsUnder, clookup, Option.map_none]
  | (k', c) :: r => by
    simp only [resultsUnder, clookup, under_clookup k q r, under_key (k := (k, q)) (k' := k')]
    split <;> rfl
theorem under_cset (k : String) (q : List String) (c : RNode) : ∀ cs,
    cset (k, p ++ q) (resultUnder p c) (resultsUnder p cs) = resultsUnder p (cset (k, q) c cs)
  | [] => by simp only [resultsUnder, cset]
  | (k', c') :: r => by
    simp only [resultsUnder, cset, under_cset k q c r, under_key (k := (k, q)) (k' := k')]
    split <;> simp only [resultsUnder]
theorem under_cerase (k : String) (q : List String) : ∀ cs,
    cerase (k, p ++ q) (resultsUnder p cs) = resultsUnder p (cerase (k, q) cs)
  | [] => by simp only [resultsUnder, cerase]
  | (k', c') :: r => by
    simp only [resultsUnder, cerase, under_cerase k q r, under_key (k := (k, q)) (k' := k')]
    split <;> simp only [resultsUnder]

theorem under_setChild (r : RNode) (k : String) (i : Inst) (c : RNode) :
    (resultUnder p r).setChild (k, (instUnder p i).path) (resultUnder p c) = resultUnder p (r.setChild (k, i.path) c) := by
  cases r; simp only [RNode.setChild, resultUnder, RNode.info, RNode.children, instUnder, under_cset]
theorem under_delChild (r : RNode) (k : String) (i : Inst) :
    (resultUnder p r).delChild (k, (instUnder p i).path) = resultUnder p (r.delChild (k, i.path)) := by
  cases r; simp only [RNode.delChild, resultUnder, RNode.info, RNode.children, instUnder, under_cerase]
theorem under_annotate (r : RNode) (v : Value) : (resultUnder p r).annotate v = resultUnder p (r.annotate v) := by
  cases r; simp only [RNode.annotate, resultUnder, RNode.info, RNode.children]
theorem under_fail (r : RNode) (v : Value) : (resultUnder p r).fail v = resultUnder p (r.fail v) := by
  cases r; simp only [RNode.fail, resultUnder, RNode.info, RNode.children]
theorem under_pass (r : RNode) : (resultUnder p r).pass_ = resultUnder p r.pass_ := by
  cases r; simp only [RNode.pass_, resultUnder, RNode.info, RNode.children]
theorem under_noassert (r : RNode) : (resultUnder p r).noassert = resultUnder p r.noassert := by
  cases r; simp only [RNode.noassert, resultUnder, RNode.info, RNode.children]
theorem under_setDiscard (r : RNode) : (resultUnder p r).setDiscard = resultUnder p r.setDiscard := by
  cases r; simp only [RNode.setDiscard, resultUnder, RNode.info, RNode.children]
theorem under_setRef (r : RNode) (s : SRef) : (resultUnder p r).setRef s = resultUnder p (r.setRef s) := by
  cases r; simp only [RNode.setRef, resultUnder, RNode.info, RNode.children]
theorem under_fresh (r : RNode) (i : Inst) (key : String) (s : SRef) :
    (resultUnder p r).fresh (instUnder p i) key s = resultUnder p (r.fresh i key s) := by
  cases r; simp only [RNode.fresh, resultUnder, resultsUnder, RNode.info]; rfl
theorem under_ite (b : Prop) [Decidable b] (r r' : RNode) :
    (if b then resultUnder p r else resultUnder p r') = resultUnder p (if b then r else r') := by
  split <;> rfl

theorem under_sibling (r : RNode) (i : Inst) (key : String) :
    sibling (resultUnder p r) (instUnder p i) key = (sibling r i key).map (resultUnder p) := by
  simp only [sibling, under_children, instUnder, under_clookup]

mutual
theorem under_annotations (q : List String) (key : Option String) : ∀ r : RNode,
    (resultUnder p r).annotations (some (p ++ q)) key = r.annotations (some q) key
  | .mk info cs => by
    simp only [resultUnder, RNode.annotations, under_childAnnotations q key cs, instUnder, Option.some.injEq,
      List.append_cancel_left_eq, reduceCtorEq, false_or]
theorem under_childAnnotations (q : List String) (key : Option String) : ∀ cs,
    childAnnotations (some (p ++ q)) key (resultsUnder p cs) = childAnnotations (some q) key cs
  | [] => by simp only [resultsUnder, childAnnotations]
  | (k, c) :: r => by
    simp only [resultsUnder, childAnnotations, under_annotations q key c, under_childAnnotations q key r]
end

mutual
theorem under_annotations' (key : Option String) : ∀ r : RNode,
    (resultUnder p r).annotations none key = r.annotations none key
  | .mk info cs => by
    simp only [resultUnder, RNode.annotations, under_childAnnotations' key cs, true_or]
theorem under_childAnnotations' (key : Option String) : ∀ cs,
    childAnnotations none key (resultsUnder p cs) = childAnnotations none key cs
  | [] => by simp only [resultsUnder]
  | (k, c) :: r => by
    simp only [resultsUnder, childAnnotations, under_annotations' key c, under_childAnnotations' key r]
end

mutual
theorem under_errors (q : List String) (key : Option String) : ∀ r : RNode,
    (resultUnder p r).errors (some (p ++ q)) key = r.errors (some q) key
  | .mk info cs => by
    simp only [resultUnder, RNode.errors, under_childErrors q key cs, instUnder, Option.some.injEq,
      List.append_cancel_left_eq, reduceCtorEq, false_or]
theorem under_childErrors (q : List String) (key : Option String) : ∀ cs,
    childErrors (some (p ++ q)) key (resultsUnder p cs) = childErrors (some q) key cs
  | [] => by simp only [resultsUnder, childErrors]
  | (k, c) :: r => by
    simp only [resultsUnder, childErrors, under_errors q key c, under_childErrors q key r]
end

mutual
theorem under_errors' (key : Option String) : ∀ r : RNode,
    (resultUnder p r).errors none key = r.errors none key
  | .mk info cs => by
    simp only [resultUnder, RNode.errors, under_childErrors' key cs, true_or]
theorem under_childErrors' (key : Option String) : ∀ cs,
    childErrors none key (resultsUnder p cs) = childErrors none key cs
  | [] => by simp only [resultsUnder]
  | (k, c) :: r => by
    simp only [resultsUnder, childErrors, under_errors' key c, under_childErrors' key r]
end

/-! ## Instances -/

/-- Tagged instances at places below `p`. -/
def tagUnder {α : Type} (p : List String) (x : α × Inst) : α × Inst := (x.1, instUnder p x.2)

theorem under_itemsFrom (q : List String) : ∀ n xs,
    Inst.itemsFrom (p ++ q) n xs = (Inst.itemsFrom q n xs).map (tagUnder p)
  | _, [] => rfl
  | n, x :: xs => by
    simp only [Inst.itemsFrom, under_itemsFrom q (n + 1) xs, List.map_cons, tagUnder, instUnder, List.append_assoc]
theorem under_items (i : Inst) : (instUnder p i).items = i.items.map (tagUnder p) := by
  obtain ⟨q, v⟩ := i
  cases v <;> simp only [instUnder, Inst.items, List.map_nil, under_itemsFrom]
theorem under_members (i : Inst) : (instUnder p i).members = i.members.map (tagUnder p) := by
  obtain ⟨q, v⟩ := i
  cases v <;> simp [instUnder, Inst.members, tagUnder]
theorem under_names (i : Inst) : (instUnder p i).names = i.names.map (tagUnder p) := by
  obtain ⟨q, v⟩ := i
  cases v <;> simp [instUnder, Inst.names, tagUnder]
theorem under_insts {α : Type} (l : List (α × Inst)) : insts (l.map (tagUnder p)) = (insts l).map (instUnder p) := by
  simp [insts, tagUnder, Function.comp_def]
theorem under_tags {α : Type} (l : List (α × Inst)) : tags (l.map (tagUnder p)) = tags l := by
  simp [tags, tagUnder, Function.comp_def]
theorem under_filter {α : Type} (f : α → Bool) (l : List (α × Inst)) :
    (l.map (tagUnder p)).filter (fun x => f x.1) = (l.filter fun x => f x.1).map (tagUnder p) := by
  rw [List.filter_map]; rfl

/-- Jobs at places below `p`. -/
def jobUnder (p : List String) (j : String × SRef × Inst) : String × SRef × Inst := (j.1, j.2.1, instUnder p j.2.2)

theorem under_indexJobs (i : Inst) : ∀ n ss, indexJobs (instUnder p i) n ss = (indexJobs i n ss).map (jobUnder p)
  | _, [] => rfl
  | n, t :: ts => by simp only [indexJobs, under_indexJobs i (n + 1) ts, List.map_cons, jobUnder]
theorem under_itemJobs : ∀ (ss : List SRef) (l : List (Nat × Inst)),
    itemJobs ss (l.map (tagUnder p)) = (itemJobs ss l).map (jobUnder p)
  | [], _ => by cases ‹List (Nat × Inst)› <;> rfl
  | _ :: _, [] => rfl
  | t :: ts, (n, i) :: is => by
    simp only [List.map_cons, tagUnder, itemJobs, jobUnder, List.cons.injEq, true_and]
    exact under_itemJobs ts is
theorem under_propJobs (ps : List (String × SRef)) (ms : List (String × Inst)) :
    propJobs ps (ms.map (tagUnder p)) = (propJobs ps ms).map (jobUnder p) := by
  simp only [propJobs, List.filterMap_map, List.map_filterMap]
  congr 1
  funext m
  simp [tagUnder, jobUnder, Function.comp_def]
theorem under_patternJobs (env : Env) (ps : List (String × SRef)) (ms : List (String × Inst)) :
    patternJobs env ps (ms.map (tagUnder p)) = (patternJobs env ps ms).map fun j => (j.1, jobUnder p j.2) := by
  induction ms with
  | nil => rfl
  | cons m ms ih =>
    simp only [patternJobs, List.map_cons, List.flatMap_cons, List.map_append] at ih ⊢
    rw [ih]
    simp [tagUnder, jobUnder, Function.comp_def]

/-! ## Keywords -/

/-- The evaluator does the same below `p`. -/
def RecUnder (p : List String) (rec : Rec) : Prop :=
  ∀ sc s i r, rec sc s (instUnder p i) (resultUnder p r) = (rec sc s i r).map (resultUnder p)

variable {rec : Rec} (hrec : RecUnder p rec)
include hrec

theorem under_subLoop (sc : List SRef) : ∀ (jobs : List (String × SRef × Inst)) (c : RNode),
    subLoop rec sc (jobs.map (jobUnder p)) (resultUnder p c) =
      (subLoop rec sc jobs c).map fun x => (resultUnder p x.1, x.2)
  | [], c => rfl
  | (key, t, i) :: jobs, c => by
    simp only [List.map_cons, jobUnder, subLoop, under_schema, under_fresh, hrec _ t i]
    cases rec (c.schema :: sc) t i (c.fresh i key c.schema) with
    | none => rfl
    | some sub =>
      simp only [Option.map_some, under_discard, under_setChild, under_delChild, under_ite, under_passed]
      rw [under_subLoop sc jobs]
      cases subLoop rec sc jobs _ <;> rfl

theorem under_sharedLoop (sc : List SRef) (t : SRef) : ∀ (is : List Inst) (c : RNode),
    sharedLoop rec sc t (is.map (instUnder p)) (resultUnder p c) =
      (sharedLoop rec sc t is c).map fun x => (resultUnder p x.1, x.2)
  | [], c => rfl
  | i :: is, c => by
    simp only [List.map_cons, sharedLoop, hrec _ t i]
    cases rec sc t i c with
    | none => rfl
    | some c1 =>
      simp only [Option.map_some, under_passed, under_pass, under_ite]
      rw [under_sharedLoop sc t is]
      cases sharedLoop rec sc t is _ <;> rfl

theorem under_plainLoop (sc : List SRef) (t : SRef) : ∀ (is : List Inst) (c : RNode),
    plainLoop rec sc t (is.map (instUnder p)) (resultUnder p c) = (plainLoop rec sc t is c).map (resultUnder p)
  | [], c => rfl
  | i :: is, c => by
    simp only [List.map_cons, plainLoop, hrec _ t i]
    cases rec sc t i c with
    | none => rfl
    | some c1 => simp only [Option.map_some]; exact under_plainLoop sc t is c1

omit hrec in
theorem under_finishItems (c : RNode) (ts : List Nat) (flags : List Bool) :
    finishItems (resultUnder p c) ts flags = resultUnder p (finishItems c ts flags) := by
  simp only [finishItems, under_annotate, under_fail, under_ite]
omit hrec in
theorem under_finishProps (c : RNode) (ts : List String) (flags : List Bool) :
    finishProps (resultUnder p c) ts flags = resultUnder p (finishProps c ts flags) := by
  simp only [finishProps, under_annotate, under_fail, under_ite]

omit hrec in
theorem under_loop_items (sc : List SRef) (t : SRef) (todo : List (Nat × Inst)) (c : RNode) (hrec : RecUnder p rec) :
    (match sharedLoop rec sc t (insts (todo.map (tagUnder p))) (resultUnder p c) with
      | none => none
      | some (c1, flags) => some (finishItems c1 (tags (todo.map (tagUnder p))) flags)) =
    (match sharedLoop rec sc t (insts todo) c with
      | none => none
      | some (c1, flags) => some (finishItems c1 (tags todo) flags)).map (resultUnder p) := by
  rw [under_insts, under_sharedLoop hrec, under_tags]
  cases sharedLoop rec sc t (insts todo) c with
  | none => rfl
  | some x => simp only [Option.map_some, under_finishItems]

theorem under_loop_props (sc : List SRef) (t : SRef) (todo : List (String × Inst)) (c : RNode) :
    (match sharedLoop rec sc t (insts (todo.map (tagUnder p))) (resultUnder p c) with
      | none => none
      | some (c1, flags) => some (finishProps c1 (tags (todo.map (tagUnder p))) flags)) =
    (match sharedLoop rec sc t (insts todo) c with
      | none => none
      | some (c1, flags) => some (finishProps c1 (tags todo) flags)).map (resultUnder p) := by
  rw [under_insts, under_sharedLoop hrec, under_tags]
  cases sharedLoop rec sc t (insts todo) c with
  | none => rfl
  | some x => simp only [Option.map_some, under_finishProps]

theorem under_uneval (sc : List SRef) (t : SRef) (i : Inst) (parent c : RNode) :
    evalUnevaluatedItems rec sc t (instUnder p i) (resultUnder p parent) (resultUnder p c) =
      (evalUnevaluatedItems rec sc t i parent c).map (resultUnder p) := by
  have hp : (instUnder p i).path = p ++ i.path := rfl
  simp only [evalUnevaluatedItems, hp, under_annotations, under_items]
  split
  · rw [under_setDiscard]; rfl
  split
  · rw [under_setDiscard]; rfl
  split
  · rw [under_setDiscard]; rfl
  rw [under_filter (fun n : Nat => decide (maxInt (-1) (parent.annotations (some i.path) (some "prefixItems")) < (n : Int)) &&
    !((parent.annotations (some i.path) (some "contains")).flatMap indicesOf).contains n)]
  exact under_loop_items sc t _ c hrec

theorem under_uneval9 (sc : List SRef) (t : SRef) (i : Inst) (parent c : RNode) :
    evalUnevaluatedItems9 rec sc t (instUnder p i) (resultUnder p parent) (resultUnder p c) =
      (evalUnevaluatedItems9 rec sc t i parent c).map (resultUnder p) := by
  have hp : (instUnder p i).path = p ++ i.path := rfl
  simp only [evalUnevaluatedItems9, hp, under_annotations, under_items]
  split
  · rw [under_setDiscard]; rfl
  split
  · rw [under_setDiscard]; rfl
  split
  · rw [under_setDiscard]; rfl
  rw [under_filter (fun n : Nat => decide (maxInt (-1) (parent.annotations (some i.path) (some "items")) < (n : Int)))]
  exact under_loop_items sc t _ c hrec

theorem under_unevalProps (sc : List SRef) (t : SRef) (i : Inst) (parent c : RNode) :
    evalUnevaluatedProperties rec sc t (instUnder p i) (resultUnder p parent) (resultUnder p c) =
      (evalUnevaluatedProperties rec sc t i parent c).map (resultUnder p) := by
  have hp : (instUnder p i).path = p ++ i.path := rfl
  simp only [evalUnevaluatedProperties, hp, under_annotations, under_members]
  rw [under_filter (fun n => !(["properties", "patternProperties", "additionalProperties",
      "unevaluatedProperties"].flatMap (fun k =>
        (parent.annotations (some i.path) (some k)).flatMap namesOf)).contains n)]
  exact under_loop_props hrec sc t _ c

omit hrec in
theorem under_siblingKeys (st : Store) (parent : RNode) (i : Inst) (key : String) :
    siblingKeys st (resultUnder p parent) (instUnder p i) key = siblingKeys st parent i key := by
  simp only [siblingKeys, under_sibling]
  cases sibling parent i key with
  | none => rfl
  | some c => simp only [Option.map_some, schemaKeys, under_schema]

theorem under_additional (st : Store) (env : Env) (sc : List SRef) (t : SRef) (i : Inst) (parent c : RNode) :
    evalAdditionalProperties st env rec sc t (instUnder p i) (resultUnder p parent) (resultUnder p c) =
      (evalAdditionalProperties st env rec sc t i parent c).map (resultUnder p) := by
  simp only [evalAdditionalProperties, under_siblingKeys, under_members]
  rw [under_filter (fun n => !(siblingKeys st parent i "properties").contains n &&
    !(siblingKeys st parent i "patternProperties").any (fun re => env.search re n))]
  exact under_loop_props hrec sc t _ c

/-- Both results below `p`. -/
def bothUnder (p : List String) (x : RNode × RNode) : RNode × RNode := (resultUnder p x.1, resultUnder p x.2)

omit hrec in
theorem under_minContains (m : Num) (i : Inst) (parent c : RNode) :
    evalMinContains m (instUnder p i) (resultUnder p parent) (resultUnder p c) =
      bothUnder p (evalMinContains m i parent c) := by
  have hm : maxContainsOk (resultUnder p parent) (instUnder p i) = maxContainsOk parent i := by
    simp only [maxContainsOk, under_sibling]
    cases sibling parent i "maxContains" with
    | none => rfl
    | some x => simp only [Option.map_some, under_valid]
  simp only [evalMinContains, under_sibling, hm]
  cases sibling parent i "contains" with
  | none => rfl
  | some con =>
    simp only [Option.map_some, under_annotation, under_valid, under_pass, under_setChild, under_fail, under_ite, bothUnder]

omit hrec in
theorem under_prefixStart (st : Store) (parent : RNode) (i : Inst) :
    prefixStart st (resultUnder p parent) (instUnder p i) = prefixStart st parent i := by
  simp only [prefixStart, under_sibling]
  cases sibling parent i "prefixItems" with
  | none => rfl
  | some x => simp only [Option.map_some, schemaLen, under_schema]

/-- A loop over subschemas, and what is made of its outcome. -/
theorem under_sub {jobs jobs' : List (String × SRef × Inst)} (hj : jobs' = jobs.map (jobUnder p)) (sc : List SRef)
    (parent c : RNode) {f f' : RNode → List Bool → RNode}
    (hf : ∀ c l, f' (resultUnder p c) l = resultUnder p (f c l)) :
    (match subLoop rec sc jobs' (resultUnder p c) with
      | none => none
      | some (c, flags) => some (resultUnder p parent, f' c flags)) =
    (match subLoop rec sc jobs c with
      | none => none
      | some (c, flags) => some (parent, f c flags)).map (bothUnder p) := by
  subst hj
  rw [under_subLoop hrec]
  cases subLoop rec sc jobs c with
  | none => rfl
  | some x => simp only [Option.map_some, hf, bothUnder]

theorem under_shared {is is' : List Inst} (hj : is' = is.map (instUnder p)) (sc : List SRef) (t : SRef)
    (parent c : RNode) {f f' : RNode → List Bool → RNode}
    (hf : ∀ c l, f' (resultUnder p c) l = resultUnder p (f c l)) :
    (match sharedLoop rec sc t is' (resultUnder p c) with
      | none => none
      | some (c, flags) => some (resultUnder p parent, f' c flags)) =
    (match sharedLoop rec sc t is c with
      | none => none
      | some (c, flags) => some (parent, f c flags)).map (bothUnder p) := by
  subst hj
  rw [under_sharedLoop hrec]
  cases sharedLoop rec sc t is c with
  | none => rfl
  | some x => simp only [Option.map_some, hf, bothUnder]

theorem under_one (sc : List SRef) (t : SRef) (i : Inst) (parent c : RNode) {f : RNode → RNode}
    {f' : RNode → RNode} (hf : ∀ c, f' (resultUnder p c) = resultUnder p (f c)) :
    (match rec sc t (instUnder p i) (resultUnder p c) with
      | none => none
      | some c => some (resultUnder p parent, f' c)) =
    (match rec sc t i c with
      | none => none
      | some c => some (parent, f c)).map (bothUnder p) := by
  rw [hrec]
  cases rec sc t i c with
  | none => rfl
  | some x => simp only [Option.map_some, hf, bothUnder]

theorem under_evalKw (st : Store) (env : Env) (sc : List SRef) (kw : Kw) (i : Inst) (parent c : RNode) :
    evalKw st env rec sc kw (instUnder p i) (resultUnder p parent) (resultUnder p c) =
      (evalKw st env rec sc kw i parent c).map (bothUnder p) := by
  have hv : (instUnder p i).value = i.value := rfl
  have hnil : ((instUnder p i).items = []) = (i.items = []) := by rw [under_items]; simp
  have hjobs : ∀ l : List (String × SRef × Inst), (l.map (jobUnder p) = []) = (l = []) := by intro l; simp
  have hhas : ∀ n, (instUnder p i).has n = i.has n := fun _ => rfl
  cases kw
  case assert a => simp only [evalKw, hv, under_fail, under_ite, Option.map_some, bothUnder]
  case maxContains m =>
    simp only [evalKw, under_sibling, Option.map_some, bothUnder]
    cases sibling parent i "contains" with
    | none => rfl
    | some con => simp only [Option.map_some, under_annotation, under_fail, under_ite]
  case minContains m => simp only [evalKw, under_minContains, Option.map_some]
  case allOf ss =>
    exact under_sub hrec (under_indexJobs i 0 ss) sc parent c fun c l => by
      simp only [under_fail, under_ite]
  case anyOf ss =>
    exact under_sub hrec (under_indexJobs i 0 ss) sc parent c fun c l => by
      simp only [under_fail, under_ite]
  case oneOf ss =>
    exact under_sub hrec (under_indexJobs i 0 ss) sc parent c fun c l => by
      simp only [under_fail, under_ite]
  case not_ t =>
    exact under_one hrec sc t i parent c fun c => by
      simp only [under_passed, under_fail, under_pass, under_ite]
  case if_ t => exact under_one hrec sc t i parent c fun c => under_noassert c
  case then_ t =>
    simp only [evalKw, under_sibling]
    cases sibling parent i "if" with
    | none => simp [under_setDiscard, bothUnder]
    | some x =>
      simp only [Option.map_some, under_valid]
      split
      · exact under_one hrec sc t i parent c (f := id) (f' := id) fun c => rfl
      · simp only [under_setDiscard, Option.map_some, bothUnder]
  case else_ t =>
    simp only [evalKw, under_sibling]
    cases sibling parent i "if" with
    | none => simp [under_setDiscard, bothUnder]
    | some x =>
      simp only [Option.map_some, under_valid]
      split
      · exact under_one hrec sc t i parent c (f := id) (f' := id) fun c => rfl
      · simp only [under_setDiscard, Option.map_some, bothUnder]
  case dependentSchemas ps =>
    simp only [evalKw, hhas]
    refine under_sub hrec ?_ sc parent c fun c l => by simp only [under_fail, under_annotate, under_ite]
    simp [jobUnder, Function.comp_def]
  case prefixItems ss =>
    simp only [evalKw, under_items, under_itemJobs, hjobs, List.length_map]
    exact under_sub hrec rfl sc parent c fun c l => by simp only [under_fail, under_annotate, under_ite]
  case items t =>
    simp only [evalKw, under_items, under_prefixStart, ← List.map_drop, under_tags]
    exact under_shared hrec (under_insts _) sc t parent c fun c l => under_finishItems c _ l
  case unevaluatedItems t =>
    simp only [evalKw, under_uneval hrec, Option.map_map]; rfl
  case contains t =>
    simp only [evalKw, under_items, under_tags]
    exact under_shared hrec (under_insts _) sc t parent c
      (f := fun c l => if passedOf (tags i.items) l = [] then (c.annotate (nats (passedOf (tags i.items) l))).fail _ else _)
      fun c l => by simp only [under_fail, under_annotate, under_ite]
  case properties ps =>
    simp only [evalKw, under_members, under_propJobs, List.map_map]
    exact under_sub hrec rfl sc parent c fun c l => by simp only [under_fail, under_annotate, under_ite]; rfl
  case patternProperties ps =>
    simp only [evalKw, under_members, under_patternJobs, List.map_map]
    refine under_sub hrec (by rw [List.map_map]; rfl) sc parent c fun c l => by
      simp only [under_fail, under_annotate, under_ite]; rfl
  case additionalProperties t =>
    simp only [evalKw, under_additional hrec, Option.map_map]; rfl
  case unevaluatedProperties t =>
    simp only [evalKw, under_unevalProps hrec, Option.map_map]; rfl
  case propertyNames t =>
    simp only [evalKw, under_names, under_tags]
    exact under_shared hrec (under_insts _) sc t parent c fun c l => by simp only [under_fail, under_ite]
  case items9 t =>
    simp only [evalKw, hnil]
    split
    · rfl
    · split
      · exact under_one hrec sc t i parent c (f := id) (f' := id) fun c => rfl
      · rw [under_items, under_insts, under_plainLoop hrec]
        cases plainLoop rec sc t (insts i.items) c with
        | none => rfl
        | some x => simp only [Option.map_some, under_passed, under_annotate, under_ite, bothUnder]
  case items9Array ss =>
    simp only [evalKw, hnil]
    split
    · rfl
    · simp only [under_items, under_itemJobs, hjobs, List.length_map]
      exact under_sub hrec rfl sc parent c fun c l => by simp only [under_fail, under_annotate, under_ite]
  case additionalItems t =>
    have : ((sibling parent i "items").map (resultUnder p)).bind (fun r => intOf r.info.annotation) =
        (sibling parent i "items").bind (fun r => intOf r.info.annotation) := by
      cases sibling parent i "items" with
      | none => rfl
      | some x => simp only [Option.map_some, Option.bind_some, under_annotation]
    simp only [evalKw, under_sibling, this]
    split
    · rename_i last _
      rw [under_items, under_filter (fun n : Nat => decide (last < (n : Int))), under_tags]
      exact under_shared hrec (under_insts _) sc t parent c fun c l => under_finishItems c _ l
    · simp only [under_setDiscard, Option.map_some, bothUnder]
  case unevaluatedItems9 t =>
    simp only [evalKw, under_uneval9 hrec, Option.map_map]; rfl
  case recursiveRef t => exact under_one hrec sc _ i parent c fun c => under_setRef c _
  case ref t => exact under_one hrec sc t i parent c fun c => under_setRef c _
  case dynamicRef t f d => exact under_one hrec sc _ i parent c fun c => under_setRef c _
  case static => rfl
  case format attr enabled =>
    simp only [evalKw, hv, under_annotate, under_fail, under_noassert, under_ite, Option.map_some, bothUnder]
  case annot => simp only [evalKw, under_annotate, under_noassert, Option.map_some, bothUnder]
  case contentSchema v =>
    simp only [evalKw, under_sibling, Option.map_some, bothUnder]
    cases sibling parent i "contentMediaType" with
    | none => simp only [Option.map_none, under_setDiscard]
    | some x => simp only [Option.map_some, under_annotate, under_noassert]
  case unknown => simp only [evalKw, under_annotate, under_noassert, Option.map_some, bothUnder]

theorem under_kwLoop (st : Store) (env : Env) (sc : List SRef) (s : SRef) (i : Inst) : ∀ (kws : List Kw) (r : RNode),
    kwLoop st env rec sc s (instUnder p i) kws (resultUnder p r) =
      (kwLoop st env rec sc s i kws r).map (resultUnder p)
  | [], r => rfl
  | kw :: kws, r => by
    have hv : (instUnder p i).value = i.value := rfl
    simp only [kwLoop, hv]
    split
    · have : withSub (resultUnder p r) (instUnder p i) kw.key s
          (fun parent c => evalKw st env rec (s :: sc) kw (instUnder p i) parent c) =
          (withSub r i kw.key s fun parent c => evalKw st env rec (s :: sc) kw i parent c).map (resultUnder p) := by
        simp only [withSub, under_fresh, under_setChild, under_evalKw hrec]
        cases evalKw st env rec (s :: sc) kw i (r.setChild (kw.key, i.path) (r.fresh i kw.key s)) (r.fresh i kw.key s) with
        | none => rfl
        | some x =>
          simp only [Option.map_some, bothUnder, under_discard, under_setChild, under_delChild, under_ite]
      rw [this]
      cases withSub r i kw.key s fun parent c => evalKw st env rec (s :: sc) kw i parent c with
      | none => rfl
      | some r' => simp only [Option.map_some]; exact under_kwLoop st env sc s i kws r'
    · exact under_kwLoop st env sc s i kws r

omit hrec in
theorem under_any (q : List String) : ∀ cs : List ((String × List String) × RNode),
    (resultsUnder p cs).any (fun e => decide (e.2.info.inst.path = p ++ q) && !e.2.passed) =
      cs.any (fun e => decide (e.2.info.inst.path = q) && !e.2.passed)
  | [] => by simp only [resultsUnder, List.any_nil]
  | (k, c) :: r => by
    simp only [resultsUnder, List.any_cons, under_any q r, under_info, under_passed, instUnder,
      List.append_cancel_left_eq]

theorem under_evalBody (st : Store) (env : Env) : RecUnder p (evalBody st env rec) := by
  intro sc s i r
  unfold evalBody
  cases st.obj s with
  | bool b => cases b <;> simp only [under_fail, Option.map_some]
  | obj kws =>
    simp only [under_kwLoop hrec]
    cases kwLoop st env rec sc s i kws r with
    | none => rfl
    | some r' =>
      simp only [Option.map_some, under_children, under_fail]
      rw [show (instUnder p i).path = p ++ i.path from rfl, under_any, under_ite]

omit hrec in
theorem under_evalSchema (st : Store) (env : Env) : ∀ n, RecUnder p (evalSchema st env n)
  | 0 => fun _ _ _ _ => rfl
  | n + 1 => under_evalBody (under_evalSchema st env n) st env

end

/-! ## Other places -/

mutual
theorem annotations_not_under {p q : List String} (hq : ¬ p <+: q) (key : Option String) : ∀ r : RNode,
    (resultUnder p r).annotations (some q) key = []
  | .mk info cs => by
    have : (some q = none ∨ some q = some (p ++ info.inst.path)) = False := by
      simp only [reduceCtorEq, false_or, Option.some.injEq, eq_iff_iff, iff_false]
      rintro rfl
      exact hq (List.prefix_append _ _)
    simp only [resultUnder, RNode.annotations, childAnnotations_not_under hq key cs, instUnder, this, and_false, if_false,
      List.append_nil]
    split
    · split <;> rfl
    · rfl
theorem childAnnotations_not_under {p q : List String} (hq : ¬ p <+: q) (key : Option String) : ∀ cs,
    childAnnotations (some q) key (resultsUnder p cs) = []
  | [] => by simp only [resultsUnder, childAnnotations]
  | (k, c) :: r => by
    simp only [resultsUnder, childAnnotations, annotations_not_under hq key c, childAnnotations_not_under hq key r,
      List.append_nil]
end

mutual
theorem errors_not_under {p q : List String} (hq : ¬ p <+: q) (key : Option String) : ∀ r : RNode,
    (resultUnder p r).errors (some q) key = []
  | .mk info cs => by
    have : (some q = none ∨ some q = some (p ++ info.inst.path)) = False := by
      simp only [reduceCtorEq, false_or, Option.some.injEq, eq_iff_iff, iff_false]
      rintro rfl
      exact hq (List.prefix_append _ _)
    simp only [resultUnder, RNode.errors, childErrors_not_under hq key cs, instUnder, this, and_false, if_false,
      List.append_nil]
    split
    · split <;> rfl
    · rfl
theorem childErrors_not_under {p q : List String} (hq : ¬ p <+: q) (key : Option String) : ∀ cs,
    childErrors (some q) key (resultsUnder p cs) = []
  | [] => by simp only [resultsUnder, childErrors]
  | (k, c) :: r => by
    simp only [resultsUnder, childErrors, errors_not_under hq key c, childErrors_not_under hq key r,
      List.append_nil]
end

/-! ## Output -/

theorem ptr_str_append (p q : List String) : (Ptr.mk (p ++ q)).str = (Ptr.mk p).str ++ (Ptr.mk q).str := by
  simp only [Ptr.str, List.map_append, List.flatten_append, String.ofList_append]

mutual
theorem under_basicVisit {p : List String} {uri : RInfo → String} (hu : ∀ info i, uri { info with inst := i } = uri info)
    (keys : Option (List String)) (valid : Bool) : ∀ r : RNode,
    basicVisit uri keys valid (resultUnder p r) = (basicVisit uri keys valid r).map (unitUnder p)
  | .mk info cs => by
    have hw : RInfo.wanted { info with inst := instUnder p info.inst } keys = info.wanted keys := by
      cases keys <;> rfl
    have hm : RInfo.msg { info with inst := instUnder p info.inst } valid = info.msg valid := rfl
    simp only [resultUnder, basicVisit, under_basicVisits hu keys valid cs, hw, hm]
    split
    · rw [List.map_append]
      congr 1
      split
      · split
        · rfl
        · simp only [locations, hu, RInfo.instLoc, RInfo.kwLoc, instUnder, ptr_str_append, List.map_cons, List.map_nil,
            List.cons_append, unitUnder]
      · rfl
    · rfl
theorem under_basicVisits {p : List String} {uri : RInfo → String} (hu : ∀ info i, uri { info with inst := i } = uri info)
    (keys : Option (List String)) (valid : Bool) : ∀ cs,
    basicVisits uri keys valid (resultsUnder p cs) = (basicVisits uri keys valid cs).map (unitUnder p)
  | [] => by simp only [resultsUnder, basicVisits, List.map_nil]
  | (k, c) :: r => by
    simp only [resultsUnder, basicVisits, under_basicVisit hu keys valid c, under_basicVisits hu keys valid r,
      List.map_append]
end

end Jschon
