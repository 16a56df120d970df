import Verif.Model.UriEdit

/-!
# Schemas whose URIs have been changed
-/

namespace Jschon
namespace Spec

/-- `w'` is `w` after such edits of schemas. -/
inductive Renamed (lib : UriLib) (w : World) : World → Prop
  | refl : Renamed lib w w
  | uri {w' s} (u : Option Uri) : Renamed lib w w' → w.isSchema s = true → Renamed lib w ((UriEdit.uri s u).step lib w')
  | add {w' s} (id : String) (u : Uri) : Renamed lib w w' → w.isSchema s = true →
      Renamed lib w ((UriEdit.add id u s).step lib w')
  | del {w'} (id : String) (u : Uri) : Renamed lib w w' → Renamed lib w ((UriEdit.del id u).step lib w')
  | metaUri {w' s} (u : Option Uri) : Renamed lib w w' → w.isSchema s = true →
      Renamed lib w ((UriEdit.metaUri s u).step lib w')

end Spec

end Jschon
