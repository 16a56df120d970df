import Verif.Model.Decode

/-!
# Edits inside the values of keywords
-/

namespace Jschon

/-- A call of a method of a JSON instance of the world, such as `schema['enum'].append(1)` or
`schema['required'].replace(JSONPointer('/0'), 'b')`: the methods are those of `JSON`
(`jschon/json.py:219-430`), and change nothing but JSON instances.  A keyword keeps the JSON instance of its
value in `self.json` (`jschon/vocabulary/__init__.py:142-151`), the same object as `schema.data[key]`
(`jschon/jsonschema.py:116-119`), and reads it again at each evaluation. -/
def World.editJson (w : World) (op : JOp) : World := { w with heap := op.step w.heap }

end Jschon
