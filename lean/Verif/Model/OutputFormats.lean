import Verif.Model.Output

/-!
# The table of output formats (`jschon/output.py:11-36`)
-/

namespace Jschon

/-- The keyword argument `annotations` of a call: `none` if it is not given, `some none` for `None`. -/
abbrev OutArgs := Option (Option (List String))

/-- An `OutputFormatter` (`jschon/output.py:12-17`).  It may raise. -/
abbrev OutFn := OutArgs → RNode → Except Exc Value

/-- `_formatters` (`jschon/output.py:19`). -/
abbrev OutTable := List (String × OutFn)

/-- `@output_formatter(format)` on `f` (`jschon/output.py:22-32`). -/
def registerOutput (t : OutTable) (format : String) (f : OutFn) : OutTable := dset format f t

/-- A function without a parameter `annotations` raises TypeError if it is given. -/
def noArgs (f : RNode → Except Exc Value) : OutFn
  | none, r => f r
  | some _, _ => .error .typeError

/-- `_formatters` once the module has been executed (`jschon/output.py:39-165`). -/
def shippedOutputs (uri : RInfo → String) (isSchema : RInfo → Bool) : OutTable :=
  let t := registerOutput [] "flag" (noArgs fun r => .ok (outFlag r))
  let t := registerOutput t "basic" (fun args r => .ok (outBasic uri (args.getD none) r))
  let t := registerOutput t "detailed" (noArgs fun r => .ok (outDetailed uri r))
  let t := registerOutput t "verbose" (noArgs fun r => .ok (outVerbose uri r))
  registerOutput t "hierarchical" (noArgs fun r =>
    match outHierarchical uri isSchema r with
    | some o => .ok o
    | none => .error .indexError)

/-- `create_output(result, format, **kwargs)` (`jschon/output.py:35-36`), and `result.output(format, **kwargs)`
(`jschon/jsonschema.py:537-547`). -/
def createOutput (t : OutTable) (r : RNode) (format : String) (args : OutArgs) : Except Exc Value :=
  match dlookup format t with
  | some f => f args r
  | none => .error .keyError

/-- Calls of `output_formatter`, in order. -/
def registerAll (t : OutTable) (calls : List (String × OutFn)) : OutTable :=
  calls.foldl (fun t c => registerOutput t c.1 c.2) t

/-- `str(result)` (`jschon/jsonschema.py:549-553`).  A result has a parent exactly if it has a key. -/
def RNode.str (r : RNode) : String :=
  let s := if r.info.valid then "valid" else "invalid"
  match r.info.key with
  | some _ => (Ptr.mk r.info.path).str ++ ": " ++ s
  | none => s

end Jschon
