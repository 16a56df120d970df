import Verif.Proof.Percent
import Verif.Props.Pointer

/-!
# URI fragments of pointers (C04)
-/

namespace Jschon
open Spec

/-- C04: `JSONPointer.parse_uri_fragment(p.uri_fragment()) == p`. -/
theorem C04_fragment_roundtrip (p : Ptr) : Ptr.parseUriFragment p.uriFragment = .ok p := by
  unfold Ptr.parseUriFragment Ptr.uriFragment
  rw [String.toList_ofList, pyUnquote_pyQuote, String.ofList_toList]
  exact C01_roundtrip p

/-- C04: `p.uri_fragment()` is a fragment of RFC 3986. -/
theorem C04_fragment_chars (p : Ptr) : Fragment p.uriFragment.toList := by
  unfold Ptr.uriFragment
  rw [String.toList_ofList]
  exact pyQuote_fragment _

/-- C04: different pointers have different fragments. -/
theorem C04_fragment_injective (p q : Ptr) (h : p.uriFragment = q.uriFragment) : p = q := by
  have h1 := C04_fragment_roundtrip p
  rw [h, C04_fragment_roundtrip q] at h1
  cases h1; rfl

/-- C04: parsing any fragment either gives a pointer or raises `JSONPointerMalformedError`. -/
theorem C04_parse_fragment_errors (s : String) (e : Exc) (h : Ptr.parseUriFragment s = .error e) :
    e = .ptrMalformed := ptrParse_error _ _ h

-- A pointer with a percent sign, a 2-byte, a 3-byte and a 4-byte character, and its fragment.
example : (Ptr.mk ["a b", "%", "é€😀"]).uriFragment = "/a%20b/%25/%C3%A9%E2%82%AC%F0%9F%98%80" := by
  decide +kernel
-- The failing case exists: "%41" decodes to "A", which is not a pointer.
example : Ptr.parseUriFragment "%41" = .error .ptrMalformed := by rfl

end Jschon
