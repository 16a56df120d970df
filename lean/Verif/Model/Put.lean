import Verif.Model.Construct

/-!
# Additions to the arrays and objects of subschemas of a keyword
-/

namespace Jschon

/-- What is added to an array or object of subschemas: an item at the end (`x.append(obj)`, which is
`x.insert(len(x), obj)`, `jschon/json.py:261-275`), an item in the place of another (`x[i] = obj`,
`jschon/json.py:236-247`), an item before another (`x.insert(i, obj)`), or a member (`x[k] = obj`). -/
inductive SubPut where
  | item
  | index (i : Nat)
  | insert (i : Nat)
  | member (k : String)

/-- `schema['allOf'].append(v)`, `schema['allOf'][i] = v`, `schema['allOf'].insert(i, v)` and
`schema['properties'][k] = v`.  The instance `j` that has the subschemas of a keyword was made with `itemclass=JSONSchema` and the `cacheid` of the schema it is in
(`jschon/vocabulary/__init__.py:183-191`, `:201-209`), so the new child is a JSONSchema.  It has a parent, so its
references are not resolved (`jschon/jsonschema.py:121-122`).  Simplifications: `v` is no JSON instance; `append`
to what is not an array, assignment to and insertion at an index that is negative or beyond the end or is one of what
is not an array, and assignment of a member to what is not an object are not modelled. -/
def putSubschema (E : CEnv) (j : Nat) (a : SubPut) (v : Value) : M Nat := fun w =>
  let cid := ((w.heap.parent j).map w.cacheid).getD ""
  match a, w.heap.data j with
  | .item, .arr cs =>
    M.andThen (newSchema E cid none none (some j) (some (natStr cs.length)) v) (fun c w1 =>
      some ({ w1 with heap := invalValue (w1.heap.setData j (.arr (cs ++ [c]))) j }, .ok c)) w
  | .index i, .arr cs =>
    if i < cs.length then
      M.andThen (newSchema E cid none none (some j) (some (natStr i)) v) (fun c w1 =>
        some ({ w1 with heap := invalValue (w1.heap.setData j (.arr (cs.set i c))) j }, .ok c)) w
    else none
  | .insert i, .arr cs =>
    if i ≤ cs.length then
      M.andThen (newSchema E cid none none (some j) (some (natStr i)) v) (fun c w1 =>
        let cs' := cs.insertIdx i c
        let p := shiftKeys 1 (invalValue (w1.heap.setData j (.arr cs')) j) (cs'.drop (i + 1))
        some ({ w1 with heap := p.1 }, p.2.map fun _ => c)) w
    else none
  | .member k, .obj ms =>
    M.andThen (newSchema E cid none none (some j) (some k) v) (fun c w1 =>
      some ({ w1 with heap := invalValue (w1.heap.setData j (.obj (dset k c ms))) j }, .ok c)) w
  | _, _ => none

end Jschon
