import Verif.Proof.Output
import Verif.Proof.Demo

/-!
# C43 to C46: results and outputs
-/

namespace Jschon

open Spec

section
variable {st : Store} {env : Env} {n : Nat} {s : SRef} {i : Inst} {r : RNode} {uri : RInfo → String}

/-! ### C43 -/

/-- If the instance is invalid, `collect_errors()` yields an error. -/
theorem C43_errors (h : evaluate st env n s i = some r) (hv : r.info.valid = false) :
    r.errors none none ≠ [] := evaluate_err h hv

/-- If the instance is valid, `collect_errors()` yields nothing. -/
theorem C43_no_errors {path : Option (List String)} {key : Option String} (hv : r.info.valid = true) :
    r.errors path key = [] := by
  cases r
  simp only [RNode.info_mk] at hv
  simp [RNode.errors, hv]

/-- If the instance is invalid, the basic output has a unit under "errors", and it reports an error. -/
theorem C43_basic (h : evaluate st env n s i = some r) (hv : r.info.valid = false) :
    ∃ u us, member "errors" (outBasic uri none r) = some (.arr (u :: us)) ∧ ErrorUnit u := by
  obtain ⟨hk, hb⟩ := evaluate_kept h
  have he := basicVisit_errors (uri := uri) hk hb
  have hm : member "errors" (outBasic uri none r) = some (.arr (basicVisit uri none false r)) := by
    simp [outBasic, hv, childKey, member, dlookup]
  cases hl : basicVisit uri none false r with
  | nil => rw [hl] at he; exact absurd he.symm (evaluate_err h hv)
  | cons u us =>
    refine ⟨u, us, by rw [hm, hl], ?_⟩
    obtain ⟨m, _, hm, rfl⟩ := mem_basicVisit (r := r) (keys := none) (by rw [hl]; exact List.mem_cons_self)
    exact (unitOf_kind hm).2 rfl

/-! ### C44 -/

/-- The "valid" member of every output format is the verdict of the result. -/
theorem C44_flag : member "valid" (outFlag r) = some (.bool r.info.valid) := rfl
theorem C44_basic_valid (keys : Option (List String)) :
    member "valid" (outBasic uri keys r) = some (.bool r.info.valid) := rfl
theorem C44_detailed : member "valid" (outDetailed uri r) = some (.bool r.info.valid) := rfl
theorem C44_verbose_valid : member "valid" (outVerbose uri r) = some (.bool r.info.valid) := by
  cases r; rfl
theorem C44_hierarchical {isSchema : RInfo → Bool} (h : isSchema r.info = true) :
    ∃ o, outHierarchical uri isSchema r = some o ∧ member "valid" o = some (.bool r.info.valid) := by
  cases r
  simp only [RNode.info_mk] at h
  simp only [outHierarchical, hierVisit, h, if_true, List.head?_cons]
  exact ⟨_, rfl, rfl⟩

/-- The units of the basic output are error units if the instance is invalid, and annotation units if
it is valid; they are under "errors" and "annotations" respectively, and nothing is under the other. -/
theorem C44_basic_units (keys : Option (List String)) :
    (r.info.valid = true → ∃ us, member "annotations" (outBasic uri keys r) = some (.arr us) ∧
      member "errors" (outBasic uri keys r) = none ∧ ∀ u ∈ us, AnnotationUnit u) ∧
    (r.info.valid = false → ∃ us, member "errors" (outBasic uri keys r) = some (.arr us) ∧
      member "annotations" (outBasic uri keys r) = none ∧ ∀ u ∈ us, ErrorUnit u) := by
  constructor
  · intro hv
    refine ⟨basicVisit uri keys true r, ?_, ?_, ?_⟩
    · simp [outBasic, hv, childKey, member, dlookup]
    · simp [outBasic, hv, childKey, member, dlookup]
    · intro u hu
      obtain ⟨m, _, hm, rfl⟩ := mem_basicVisit hu
      exact (unitOf_kind hm).1 rfl
  · intro hv
    refine ⟨basicVisit uri keys false r, ?_, ?_, ?_⟩
    · simp [outBasic, hv, childKey, member, dlookup]
    · simp [outBasic, hv, childKey, member, dlookup]
    · intro u hu
      obtain ⟨m, _, hm, rfl⟩ := mem_basicVisit hu
      exact (unitOf_kind hm).2 rfl

/-- The basic output of an evaluation reports what `collect_errors()` or `collect_annotations()` yield,
in the same order. -/
theorem C44_basic_collects (h : evaluate st env n s i = some r) :
    (r.info.valid = false → ∃ us, member "errors" (outBasic uri none r) = some (.arr us) ∧
      us.map (fun u => member "error" u) = (r.errors none none).map some) ∧
    (r.info.valid = true → ∃ us, member "annotations" (outBasic uri none r) = some (.arr us) ∧
      us.map (fun u => member "annotation" u) = (r.annotations none none).map some) := by
  obtain ⟨hk, hb⟩ := evaluate_kept h
  constructor
  · intro hv
    refine ⟨basicVisit uri none false r, by simp [outBasic, hv, childKey, member, dlookup], ?_⟩
    rw [← basicVisit_errors (uri := uri) hk hb, List.map_map]
    refine List.map_congr_left fun u hu => ?_
    obtain ⟨m, _, hm, rfl⟩ := mem_basicVisit hu
    rfl
  · intro hv
    refine ⟨basicVisit uri none true r, by simp [outBasic, hv, childKey, member, dlookup], ?_⟩
    rw [← basicVisit_annotations (uri := uri) hk hb, List.map_map]
    refine List.map_congr_left fun u hu => ?_
    obtain ⟨m, _, hm, rfl⟩ := mem_basicVisit hu
    rfl

/-- The verbose output has one unit for every result of the tree, in order, with its verdict. -/
theorem C44_verbose_units :
    unitVerdicts (outVerbose uri r) = (preorder r).map (fun n => .bool n.info.valid) :=
  verbose_verdicts r

/-! ### C46 -/

/-- Every result below an evaluation of a node of a document is about a location of that document. -/
theorem C46_instance_location {doc : Value} (hd : Designates doc i.path i.value) (hw : i.value.WF)
    (h : evaluate st env n s i = some r) {m : RNode} (hm : InTree r m) :
    Locates doc m.info.inst.path m.info.inst.value := by
  have hq : LocIn doc i := ⟨.inl hd, hw⟩
  have := (evalSchema_good (closed_locIn doc) n _ _ _ _ _ hq (.mk hq (by simp) (by simp)) h).1
  exact (this.within hm).inst.1

/-- The keyword location of a result is that of its parent followed by its own key, and its parent
indexes it by its key and instance location; the root has the empty keyword location and no key. -/
theorem C46_keyword_location (h : evaluate st env n s i = some r) :
    (r.info.path = [] ∧ r.info.key = none) ∧
    ∀ {m : RNode}, InTree r m → ∀ e ∈ m.children, ∃ k, e.2.info.key = some k ∧
      e.2.info.path = m.info.path ++ [k] ∧ e.1 = (k, e.2.info.inst.path) := by
  refine ⟨?_, ?_⟩
  · have := (evalSchema_frame h).imm
    exact ⟨this.path, this.key⟩
  · intro m hm e he
    have hg := (evalSchema_good closed_true n _ _ _ _ _ trivial (.mk trivial (by simp) (by simp)) h).1
    obtain ⟨h1, h2, h3⟩ := (hg.within hm).edges e he
    exact ⟨e.1.1, h1, h3, by rw [h2]⟩

/-! ### C45 -/

mutual
theorem annotations_along {path : Option (List String)} {key : Option String} {a : Value} :
    ∀ {r : RNode}, a ∈ r.annotations path key →
      ∃ m, Along (fun m => m.info.valid = true) r m ∧ m.info.annotation = a ∧ a ≠ .null
  | .mk info cs, h => by
    simp only [RNode.annotations] at h
    split at h
    · rename_i hv
      simp only [Bool.and_eq_true] at hv
      rcases List.mem_append.1 h with h | h
      · refine ⟨.mk info cs, .self hv.1, ?_⟩
        split at h
        · cases h
        · rename_i hn
          split at h
          · rw [List.mem_singleton] at h
            exact ⟨h.symm, fun h' => hn (by rw [← h, h'])⟩
          · cases h
      · obtain ⟨e, he, m, hm, h⟩ := childAnnotations_along h
        refine ⟨m, ?_, h⟩
        clear h
        induction hm with
        | self h => exact .child (.self hv.1) he h
        | child _ he' h ih => exact .child ih he' h
    · cases h
theorem childAnnotations_along {path : Option (List String)} {key : Option String} {a : Value} :
    ∀ {cs : List ((String × List String) × RNode)}, a ∈ childAnnotations path key cs →
      ∃ e ∈ cs, ∃ m, Along (fun m => m.info.valid = true) e.2 m ∧ m.info.annotation = a ∧ a ≠ .null
  | [], h => by simp [childAnnotations] at h
  | (k, c) :: r, h => by
    simp only [childAnnotations] at h
    rcases List.mem_append.1 h with h | h
    · exact ⟨(k, c), List.mem_cons_self, annotations_along h⟩
    · obtain ⟨e, he, h⟩ := childAnnotations_along h
      exact ⟨e, List.mem_cons_of_mem _ he, h⟩
end

/-- What `collect_annotations` yields is the annotation of a valid result all of whose ancestors are
valid.

Missing: that the schemas evaluated by these ancestors hold.  It is false of `not` and `contains`,
which set a result to valid after a subschema has failed on it (`C45_not_leak`, `C45_contains_leak`). -/
theorem C45_annotations_partial {path : Option (List String)} {key : Option String} {a : Value}
    (h : a ∈ r.annotations path key) :
    ∃ m, Along (fun m => m.info.valid = true) r m ∧ m.info.annotation = a ∧ a ≠ .null :=
  annotations_along h

/-- In particular an invalid instance has no annotations. -/
theorem C45_invalid {path : Option (List String)} {key : Option String} (hv : r.info.valid = false) :
    r.annotations path key = [] := by
  cases r
  simp only [RNode.info_mk] at hv
  simp [RNode.annotations, hv]

end

/-- `{"not": {"title": "x", "type": "string"}}` -/
def notTitle : Store := listStore
  [.obj [.not_ 1], .obj [.annot "title" false (.str "x"), .assert (.type_ ["string"])]]

/-- The text of a string. -/
def textOfStr : Value → Option String
  | .str s => some s
  | _ => none

/-- The title of the subschema that 5 fails to match is yielded. -/
theorem C45_not_leak : ∃ r r', evaluate notTitle demoEnv 5 0 ⟨[], .num (.int 5)⟩ = some r ∧
    evaluate notTitle demoEnv 5 1 ⟨[], .num (.int 5)⟩ = some r' ∧ r'.info.valid = false ∧
    (r.annotations none (some "title")).map textOfStr = [some "x"] := by
  have h1 : (evaluate notTitle demoEnv 5 0 ⟨[], .num (.int 5)⟩).map
      (fun r => (r.annotations none (some "title")).map textOfStr) = some [some "x"] := by decide +kernel
  have h2 : (evaluate notTitle demoEnv 5 1 ⟨[], .num (.int 5)⟩).map
      (fun r => r.info.valid) = some false := by decide +kernel
  obtain ⟨r, hr, h1⟩ := Option.map_eq_some_iff.1 h1
  obtain ⟨r', hr', h2⟩ := Option.map_eq_some_iff.1 h2
  exact ⟨r, r', hr, hr', h2, h1⟩

/-- `{"contains": {"title": "x", "type": "string"}}` -/
def containsTitle : Store := listStore
  [.obj [.contains 1], .obj [.annot "title" false (.str "x"), .assert (.type_ ["string"])]]

/-- The title of the subschema is yielded for the first item of `[5, "a"]`, which fails to match. -/
theorem C45_contains_leak : ∃ r r',
    evaluate containsTitle demoEnv 5 0 ⟨[], .arr [.num (.int 5), .str "a"]⟩ = some r ∧
    evaluate containsTitle demoEnv 5 1 ⟨["0"], .num (.int 5)⟩ = some r' ∧ r'.info.valid = false ∧
    (r.annotations (some ["0"]) (some "title")).map textOfStr = [some "x"] := by
  have h1 : (evaluate containsTitle demoEnv 5 0 ⟨[], .arr [.num (.int 5), .str "a"]⟩).map
      (fun r => (r.annotations (some ["0"]) (some "title")).map textOfStr) = some [some "x"] := by
    decide +kernel
  have h2 : (evaluate containsTitle demoEnv 5 1 ⟨["0"], .num (.int 5)⟩).map
      (fun r => r.info.valid) = some false := by decide +kernel
  obtain ⟨r, hr, h1⟩ := Option.map_eq_some_iff.1 h1
  obtain ⟨r', hr', h2⟩ := Option.map_eq_some_iff.1 h2
  exact ⟨r, r', hr, hr', h2, h1⟩

/-! ### Examples -/

/-- `{"title": "t", "allOf": [{"$ref": …}, {"minimum": 3}], "propertyNames": {"type": "string"}}`, where
the reference is to `{"properties": {"a": {"type": "string"}}}`. -/
def treeStore : Store := listStore
  [.obj [.annot "title" false (.str "t"), .allOf [1, 2], .propertyNames 4],
   .obj [.ref 3], .obj [.assert (.minimum (.int 3))],
   .obj [.properties [("a", 4)]], .obj [.assert (.type_ ["string"])]]

def badObj : Inst := ⟨[], .obj [("a", .num (.int 1))]⟩
def goodObj : Inst := ⟨[], .obj [("a", .str "x")]⟩

/-- An invalid result whose error is three levels down. -/
example : (evaluate treeStore demoEnv 9 0 badObj).map
    (fun r => (r.info.valid, (r.errors none none).length)) = some (false, 3) := by decide +kernel

/-- A valid result with annotations. -/
example : (evaluate treeStore demoEnv 9 0 goodObj).map
    (fun r => (r.info.valid, (r.annotations none none).length)) = some (true, 2) := by decide +kernel

example : Designates goodObj.value goodObj.path goodObj.value ∧ goodObj.value.WF :=
  ⟨.here, .obj (by decide) (by simp; exact .str)⟩

/-- A result about a member name. -/
example : (evaluate treeStore demoEnv 9 0 goodObj).map (fun r => (preorder r).map (fun m =>
      ((Ptr.mk m.info.path).str, (Ptr.mk m.info.inst.path).str))) =
    some [("", ""), ("/title", ""), ("/allOf", ""), ("/allOf/0", ""), ("/allOf/0/$ref", ""),
      ("/allOf/0/$ref/properties", ""), ("/allOf/0/$ref/properties/a", "/a"),
      ("/allOf/0/$ref/properties/a/type", "/a"), ("/allOf/1", ""), ("/propertyNames", ""),
      ("/propertyNames/type", "/a")] := by decide +kernel

end Jschon
