import Verif.Model.Eval
import Verif.Model.Pointer

/-!
# Output formats (`jschon/output.py`)

The two facts about a result that depend on URIs and on the documents of schemas are parameters:
`uri` is `str(node.absolute_uri)` (`jschon/jsonschema.py:502-513`) and `isSchema` is
`isinstance(node.schema_node, JSONSchema)` (`:439-442`).  `Verif/Model/Locations.lean` has both.
-/

namespace Jschon

/-- `"annotation" if valid else "error"` -/
def msgKey (valid : Bool) : String := if valid then "annotation" else "error"
/-- `"annotations" if valid else "errors"` -/
def childKey (valid : Bool) : String := if valid then "annotations" else "errors"
/-- `getattr(node, msgkey)` -/
def RInfo.msg (info : RInfo) (valid : Bool) : Value := if valid then info.annotation else info.error

/-- The member with the message, if there is one. -/
def RInfo.msgMember (info : RInfo) (valid : Bool) : List (String × Value) :=
  match info.msg valid with
  | .null => []
  | m => [(msgKey valid, m)]

/-- `annotations is None or node.key in annotations` -/
def RInfo.wanted (info : RInfo) : Option (List String) → Bool
  | none => true
  | some ks => match info.key with | none => false | some k => ks.contains k

/-- `str(node.instance.path)` -/
def RInfo.instLoc (info : RInfo) : Value := .str (Ptr.mk info.inst.path).str
/-- `str(node.path)` -/
def RInfo.kwLoc (info : RInfo) : Value := .str (Ptr.mk info.path).str

/-- `flag` (`jschon/output.py:39-43`) -/
def outFlag (r : RNode) : Value := .obj [("valid", .bool r.info.valid)]

section
variable (uri : RInfo → String)

/-- The three location members. -/
def locations (info : RInfo) : List (String × Value) :=
  [("instanceLocation", info.instLoc), ("keywordLocation", info.kwLoc),
   ("absoluteKeywordLocation", .str (uri info))]

mutual
/-- `visit` of `basic` (`:48-61`).  `keys` is the argument `annotations`. -/
def basicVisit (keys : Option (List String)) (valid : Bool) : RNode → List Value
  | .mk info cs =>
    if info.valid = valid then
      (if info.wanted keys then
         match info.msg valid with
         | .null => []
         | m => [.obj (locations uri info ++ [(msgKey valid, m)])]
       else [])
      ++ basicVisits keys valid cs
    else []
/-- The loop over the children. -/
def basicVisits (keys : Option (List String)) (valid : Bool) :
    List ((String × List String) × RNode) → List Value
  | [] => []
  | (_, c) :: r => basicVisit keys valid c ++ basicVisits keys valid r
end

/-- `basic` (`:46-70`) -/
def outBasic (keys : Option (List String)) (r : RNode) : Value :=
  .obj [("valid", .bool r.info.valid),
        (childKey r.info.valid, .arr (basicVisit uri keys r.info.valid r))]

mutual
/-- `visit` of `detailed` (`:75-90`). -/
def detailedVisit (valid : Bool) : RNode → Value
  | .mk info cs =>
    match detailedVisits valid cs with
    | [] => .obj (locations uri info ++ info.msgMember valid)
    | [o] => o
    | os => .obj (locations uri info ++ [(childKey valid, .arr os)])
/-- `[visit(child) for child in node.children.values() if child.valid is valid]` -/
def detailedVisits (valid : Bool) : List ((String × List String) × RNode) → List Value
  | [] => []
  | (_, c) :: r =>
    if c.info.valid = valid then detailedVisit valid c :: detailedVisits valid r
    else detailedVisits valid r
end

/-- `detailed` (`:73-103`) -/
def outDetailed (r : RNode) : Value :=
  .obj (("valid", .bool r.info.valid) :: locations uri r.info ++
    [(childKey r.info.valid, .arr (detailedVisits uri r.info.valid r.children))])

mutual
/-- `visit` of `verbose` (`:108-124`). -/
def outVerbose : RNode → Value
  | .mk info cs =>
    .obj (("valid", .bool info.valid) :: locations uri info ++
      info.msgMember info.valid ++
      (match verboseVisits cs with | [] => [] | os => [(childKey info.valid, .arr os)]))
/-- `[visit(child) for child in node.children.values()]` -/
def verboseVisits : List ((String × List String) × RNode) → List Value
  | [] => []
  | (_, c) :: r => outVerbose c :: verboseVisits r
end

variable (isSchema : RInfo → Bool)

/-- `annotations[child.key] = child.annotation` (or the errors) for the children. -/
def keyedMsgs (valid : Bool) : List ((String × List String) × RNode) → List (String × Value) →
    List (String × Value)
  | [], d => d
  | (_, c) :: r, d =>
    match c.info.msg valid with
    | .null => keyedMsgs valid r d
    | m => keyedMsgs valid r (dset (c.info.key.getD "") m d)

mutual
/-- `visit` of `hierarchical` (`:131-163`). -/
def hierVisit : RNode → List Value
  | .mk info cs =>
    if isSchema info then
      let details := hierDetails info.valid cs
      let msgs := keyedMsgs info.valid cs []
      [.obj ([("valid", .bool info.valid), ("evaluationPath", info.kwLoc),
              ("schemaLocation", .str (uri info)), ("instanceLocation", info.instLoc)] ++
        (match details with | [] => [] | ds => [("details", .arr ds)]) ++
        (match msgs with | [] => [] | ms => [(childKey info.valid, .obj ms)]))]
    else hierVisits cs
/-- `details` -/
def hierDetails (valid : Bool) : List ((String × List String) × RNode) → List Value
  | [] => []
  | (_, c) :: r => (if c.info.valid = valid then hierVisit c else []) ++ hierDetails valid r
/-- `for child in node.children.values(): yield from visit(child)` -/
def hierVisits : List ((String × List String) × RNode) → List Value
  | [] => []
  | (_, c) :: r => hierVisit c ++ hierVisits r
end

/-- `hierarchical` (`:129-165`); `none` is `IndexError`. -/
def outHierarchical (r : RNode) : Option Value := (hierVisit uri isSchema r).head?

end

end Jschon
