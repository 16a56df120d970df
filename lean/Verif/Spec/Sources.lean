/-!
# Where files are

Pathnames by POSIX, without symbolic links.  A place in the file system is the list of names that lead to it from the
root.
-/

namespace Jschon.Spec

/-- The names in a pathname, which slashes separate. -/
inductive PathNames : List Char → List (List Char) → Prop
  | nil : PathNames [] []
  | slash {p ns} : PathNames p ns → PathNames ('/' :: p) ns
  | name {s p ns} : s ≠ [] → '/' ∉ s → (p = [] ∨ ∃ t, p = '/' :: t) → PathNames p ns → PathNames (s ++ p) (s :: ns)

/-- Where names lead from a directory. -/
def walk : List (List Char) → List (List Char) → List (List Char)
  | d, [] => d
  | d, n :: ns => walk (if n = ['.'] then d else if n = ['.', '.'] then d.dropLast else d ++ [n]) ns

/-- The pathname leads from the working directory `cwd` to the place `d`. -/
def LeadsTo (cwd : List (List Char)) (p : String) (d : List (List Char)) : Prop :=
  ∃ ns, PathNames p.toList ns ∧ d = walk (if p.toList.head? = some '/' then [] else cwd) ns

/-- The last name with something added. -/
def addLast (s : List Char) : List (List Char) → List (List Char)
  | [] => []
  | [n] => [n ++ s]
  | n :: m :: ns => n :: addLast s (m :: ns)

end Jschon.Spec
