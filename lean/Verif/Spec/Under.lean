import Verif.Model.Eval
import Verif.Model.Pointer

/-!
# Results for an instance at another place
-/

namespace Jschon.Spec

/-- The instance at a place below `p`. -/
def instUnder (p : List String) (i : Inst) : Inst := ⟨p ++ i.path, i.value⟩

mutual
/-- The result with all instances at places below `p`. -/
def resultUnder (p : List String) : RNode → RNode
  | .mk info cs => .mk { info with inst := instUnder p info.inst } (resultsUnder p cs)
/-- The children of a result, which are indexed by these places. -/
def resultsUnder (p : List String) : List ((String × List String) × RNode) → List ((String × List String) × RNode)
  | [] => []
  | (k, c) :: r => ((k.1, p ++ k.2), resultUnder p c) :: resultsUnder p r
end

/-- A unit of the basic output with `p` before its instance location. -/
def unitUnder (p : List String) : Value → Value
  | .obj (("instanceLocation", .str t) :: ms) => .obj (("instanceLocation", .str ((Ptr.mk p).str ++ t)) :: ms)
  | v => v

end Jschon.Spec
