import Verif.Spec.IntText
import Verif.Spec.JsonHeap

/-!
# The edit that `JSON.remove` and `JSON.replace` perform

Having found an instance, they act on its parent: on an object by the name of the member; on an array by the
integer that the `key` attribute of the instance spells, whatever its place in the array is.
-/

namespace Jschon.Spec

/-- The effect on the content of `n`, for its child `c` at `k`. -/
inductive EditBy (h : JHeap) (n : Ref) (k : String) (c : Ref) (member : String → Value → Value → Prop)
    (item : Int → Value → Value → Prop) : (Value → Value → Prop) → Prop
  | member {kvs} : val h n = .obj kvs → EditBy h n k c member item (member k)
  | item {xs key z} : val h n = .arr xs → h.key c = some key → PyIntText key z →
      EditBy h n k c member item (item z)

end Jschon.Spec
