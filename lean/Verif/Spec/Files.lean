import Verif.Model.Files

/-!
# Files: what is assumed of the platform
-/

namespace Jschon.Spec
open Jschon

/-- An encoding is decoded as it was encoded, whatever characters follow each other. -/
def FaithfulCodec (c : Codec) : Prop :=
  ∀ (t : List Char) (bs : List (List Nat)), bs.length = t.length →
    (∀ (i : Nat) a b, t[i]? = some a → bs[i]? = some b → c.encode a = some b) → c.decode bs.flatten = some t

/-- The encoding has all characters of the text. -/
def Covers (c : Codec) (t : List Char) : Prop := ∀ a ∈ t, ∃ b, c.encode a = some b

end Jschon.Spec
