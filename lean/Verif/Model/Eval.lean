import Verif.Model.Schema

/-!
# Evaluation (`jschon/jsonschema.py:191-220`, `:343-535`, and the `evaluate` methods of the keywords)

`Result` objects are trees; the methods that mutate a result become functions that return the new
one.  A keyword is given its own result and its parent result (which it may read, and in one case
modifies) and returns both.

Evaluation takes fuel: `none` means that the fuel ran out, which is different from any verdict.
-/

namespace Jschon

/-- A `JSON` instance under evaluation: its path and its value. -/
structure Inst where
  path : List String
  value : Value

/-- The items of an array instance (`enumerate(instance)`, or of a slice of it). -/
def Inst.itemsFrom (p : List String) : Nat → List Value → List (Nat × Inst)
  | _, [] => []
  | i, x :: xs => (i, ⟨p ++ [natStr i], x⟩) :: Inst.itemsFrom p (i + 1) xs

/-- `enumerate(instance)` -/
def Inst.items (i : Inst) : List (Nat × Inst) :=
  match i.value with
  | .arr xs => Inst.itemsFrom i.path 0 xs
  | _ => []

/-- `instance.items()` -/
def Inst.members (i : Inst) : List (String × Inst) :=
  match i.value with
  | .obj kvs => kvs.map (fun kv => (kv.1, ⟨i.path ++ [kv.1], kv.2⟩))
  | _ => []

/-- `name in instance` for an object instance. -/
def Inst.has (i : Inst) (name : String) : Bool :=
  match i.value with
  | .obj kvs => (dlookup name kvs).isSome
  | _ => false

/-- `[JSON(name, parent=instance, key=name) for name in instance]`
(`jschon/vocabulary/applicator.py:399-400`) -/
def Inst.names (i : Inst) : List (String × Inst) :=
  match i.value with
  | .obj kvs => kvs.map (fun kv => (kv.1, ⟨i.path ++ [kv.1], .str kv.1⟩))
  | _ => []

/-- The attributes of a `Result` (`jschon/jsonschema.py:351-398`).  `annotation` and `error` are
`None` (here `.null`) until set. -/
structure RInfo where
  key : Option String
  path : List String
  relpath : List String
  schema : SRef
  inst : Inst
  annotation : Value := .null
  error : Value := .null
  valid : Bool := true
  asrt : Bool := true
  discard : Bool := false
  refschema : Option SRef := none

/-- A `Result` with its children, indexed by schema key and instance path, in insertion order. -/
inductive RNode where
  | mk (info : RInfo) (children : List ((String × List String) × RNode))

def RNode.info : RNode → RInfo | .mk i _ => i
def RNode.children : RNode → List ((String × List String) × RNode) | .mk _ c => c
def RNode.valid (r : RNode) : Bool := r.info.valid
def RNode.schema (r : RNode) : SRef := r.info.schema

/-- `self.children[k]` -/
def clookup (k : String × List String) : List ((String × List String) × RNode) → Option RNode
  | [] => none
  | (k', c) :: r => if k = k' then some c else clookup k r

/-- `self.children[k] = c` -/
def cset (k : String × List String) (c : RNode) :
    List ((String × List String) × RNode) → List ((String × List String) × RNode)
  | [] => [(k, c)]
  | (k', c') :: r => if k = k' then (k', c) :: r else (k', c') :: cset k c r

/-- `del self.children[k]` -/
def cerase (k : String × List String) :
    List ((String × List String) × RNode) → List ((String × List String) × RNode)
  | [] => []
  | (k', c') :: r => if k = k' then r else (k', c') :: cerase k r

def RNode.setChild (r : RNode) (k : String × List String) (c : RNode) : RNode :=
  .mk r.info (cset k c r.children)
def RNode.delChild (r : RNode) (k : String × List String) : RNode :=
  .mk r.info (cerase k r.children)

/-- `Result.annotate` (`:451-453`) -/
def RNode.annotate (r : RNode) (v : Value) : RNode := .mk { r.info with annotation := v } r.children
/-- `Result.fail` (`:455-458`) -/
def RNode.fail (r : RNode) (e : Value) : RNode :=
  .mk { r.info with valid := false, error := e } r.children
/-- `Result.pass_` (`:460-467`) -/
def RNode.pass_ (r : RNode) : RNode :=
  .mk { r.info with valid := true, error := .null } r.children
/-- `Result.noassert` (`:469-471`) -/
def RNode.noassert (r : RNode) : RNode := .mk { r.info with asrt := false } r.children
/-- `Result.discard` (`:473-475`) -/
def RNode.setDiscard (r : RNode) : RNode := .mk { r.info with discard := true } r.children
/-- `Result.refschema` (`:477-483`) -/
def RNode.setRef (r : RNode) (s : SRef) : RNode := .mk { r.info with refschema := some s } r.children
/-- `Result.passed` (`:490-500`) -/
def RNode.passed (r : RNode) : Bool := r.info.valid || !r.info.asrt

/-- `Result(schema, instance)` without a parent (`:351-398`). -/
def RNode.root (s : SRef) (i : Inst) : RNode :=
  .mk { key := none, path := [], relpath := [], schema := s, inst := i } []

/-- `Result(schema, instance, parent=r, key=key)` (`:351-398`). -/
def RNode.fresh (r : RNode) (i : Inst) (key : String) (s : SRef) : RNode :=
  .mk { key := some key, path := r.info.path ++ [key],
        relpath := if s = r.info.schema then r.info.relpath ++ [key] else [key],
        schema := s, inst := i } []

/-- `Result.__call__` (`:400-430`): insert a fresh child, run the body, and delete the child if it was
discarded.  The body gets the parent with the child inserted and the child, and returns both. -/
def withSub (r : RNode) (i : Inst) (key : String) (s : SRef)
    (body : RNode → RNode → Option (RNode × RNode)) : Option RNode :=
  let child := r.fresh i key s
  match body (r.setChild (key, i.path) child) child with
  | none => none
  | some (r', c) =>
    let r'' := r'.setChild (key, i.path) c
    some (if c.info.discard then r''.delChild (key, i.path) else r'')

/-- `Result.sibling` (`:444-449`), given the parent result. -/
def sibling (parent : RNode) (i : Inst) (key : String) : Option RNode :=
  clookup (key, i.path) parent.children

mutual
/-- `Result.collect_annotations` (`:515-524`); `none` for an argument that is not given. -/
def RNode.annotations (path : Option (List String)) (key : Option String) : RNode → List Value
  | .mk info cs =>
    if info.valid && !info.discard then
      (match info.annotation with
       | .null => []
       | a => if (key = none ∨ key = info.key) ∧ (path = none ∨ path = some info.inst.path)
              then [a] else [])
      ++ childAnnotations path key cs
    else []
/-- The loop over the children. -/
def childAnnotations (path : Option (List String)) (key : Option String) :
    List ((String × List String) × RNode) → List Value
  | [] => []
  | (_, c) :: r => c.annotations path key ++ childAnnotations path key r
end

mutual
/-- `Result.collect_errors` (`:526-535`). -/
def RNode.errors (path : Option (List String)) (key : Option String) : RNode → List Value
  | .mk info cs =>
    if !info.valid && !info.discard then
      (match info.error with
       | .null => []
       | e => if (key = none ∨ key = info.key) ∧ (path = none ∨ path = some info.inst.path)
              then [e] else [])
      ++ childErrors path key cs
    else []
/-- The loop over the children. -/
def childErrors (path : Option (List String)) (key : Option String) :
    List ((String × List String) × RNode) → List Value
  | [] => []
  | (_, c) :: r => c.errors path key ++ childErrors path key r
end

/-! ## Assertion keywords -/

/-- `Decimal(f'{n}')`, as an exact rational: `f'{n}'` of an int is its decimal digits, of a float its
shortest decimal text. -/
def Num.decimal (env : Env) : Num → Rat
  | .int z => z
  | .flt q => env.dec q

/-- Whether `Decimal(a) % Decimal(b)` is 0 without raising `InvalidOperation`
(`jschon/vocabulary/validation.py:70-75`).  `InvalidOperation` is raised for a zero divisor, and when
the integer part of the quotient has more than 28 digits (the default precision). -/
def decimalMultiple (a b : Rat) : Bool :=
  if b = 0 then false
  else if (10 : Int) ^ 28 ≤ (a / b).floor ∨ (10 : Int) ^ 28 ≤ (-(a / b)).floor then false
  else (a / b).den == 1

/-- The name of a type in `"type"` keywords. -/
def JType.name : JType → String
  | .null => "null" | .boolean => "boolean" | .number => "number"
  | .string => "string" | .array => "array" | .object => "object"

/-- `uniquified` of `UniqueItemsKeyword.evaluate` (`:171-174`). -/
def uniquify : List Value → List Value → List Value
  | acc, [] => acc
  | acc, x :: xs => if acc.any (fun y => jsonEq y x) then uniquify acc xs else uniquify (acc ++ [x]) xs

/-- Whether the keyword does not fail, for an instance of a type in `types`
(`jschon/vocabulary/validation.py:33-256`). -/
def Assertion.ok (env : Env) : Assertion → Value → Bool
  | .type_ types, v =>
    if types.contains v.type.name then true
    else match v with
      | .num n => types.contains "integer" && n.val.den == 1   -- instance.data == int(instance.data)
      | _ => false
  | .enum vs, v => vs.any (fun w => jsonEq w v)
  | .const w, v => !jsonNe v w
  | .multipleOf m, .num n => decimalMultiple (n.decimal env) (m.decimal env)
  | .maximum m, .num n => !decide (m.val < n.val)
  | .exclusiveMaximum m, .num n => !decide (m.val ≤ n.val)
  | .minimum m, .num n => !decide (n.val < m.val)
  | .exclusiveMinimum m, .num n => !decide (n.val ≤ m.val)
  | .maxLength m, .str s => !decide (m.val < (s.length : Rat))
  | .minLength m, .str s => !decide ((s.length : Rat) < m.val)
  | .pattern re, .str s => env.search re s
  | .maxItems m, .arr xs => !decide (m.val < (xs.length : Rat))
  | .minItems m, .arr xs => !decide ((xs.length : Rat) < m.val)
  | .uniqueItems b, .arr xs =>
    if b then !decide (xs.length > (uniquify [] xs).length) else true
  | .maxProperties m, .obj kvs => !decide (m.val < (kvs.length : Rat))
  | .minProperties m, .obj kvs => !decide ((kvs.length : Rat) < m.val)
  | .required names, .obj kvs => (names.filter (fun n => (dlookup n kvs).isNone)).isEmpty
  | .dependentRequired ps, .obj kvs =>
    (ps.filter (fun p => (dlookup p.1 kvs).isSome &&
      !(p.2.filter (fun d => (dlookup d kvs).isNone)).isEmpty)).isEmpty
  | _, _ => true     -- not reached: the instance type is not in `types`

/-- The error text, without the interpolated values. -/
def Assertion.message (a : Assertion) : Value := .str ("invalid: " ++ a.key)

/-! ## Applicators -/

/-- The evaluation of a schema on an instance with a result, as the keywords call it.  The first
argument is the chain of `schema` attributes from the result up to the root, innermost first. -/
abbrev Rec := List SRef → SRef → Inst → RNode → Option RNode

/-- `with result(item, key) as subresult: subschema.evaluate(item, subresult)` for each of the given
(key, subschema, instance), and whether each `subresult.passed`. -/
def subLoop (rec : Rec) (sc : List SRef) : List (String × SRef × Inst) → RNode →
    Option (RNode × List Bool)
  | [], c => some (c, [])
  | (key, t, i) :: jobs, c =>
    match rec (c.schema :: sc) t i (c.fresh i key c.schema) with
    | none => none
    | some sub =>
      -- `setChild` twice is the insertion of the fresh result and its mutation
      let c' := (c.setChild (key, i.path) (c.fresh i key c.schema)).setChild (key, i.path) sub
      let c'' := if sub.info.discard then c'.delChild (key, i.path) else c'
      match subLoop rec sc jobs c'' with
      | none => none
      | some (c3, flags) => some (c3, sub.passed :: flags)

/-- `self.json.evaluate(item, result)` for each of the given instances on the same result, resetting
it to passed after a failure; whether each passed. -/
def sharedLoop (rec : Rec) (sc : List SRef) (t : SRef) : List Inst → RNode →
    Option (RNode × List Bool)
  | [], c => some (c, [])
  | i :: is, c =>
    match rec sc t i c with
    | none => none
    | some c1 =>
      match sharedLoop rec sc t is (if c1.passed then c1 else c1.pass_) with
      | none => none
      | some (c2, flags) => some (c2, c1.passed :: flags)

/-- `self.json.evaluate(item, result)` for each of the given instances on the same result, without
reset (`jschon/vocabulary/legacy.py:68-69`). -/
def plainLoop (rec : Rec) (sc : List SRef) (t : SRef) : List Inst → RNode → Option RNode
  | [], c => some c
  | i :: is, c =>
    match rec sc t i c with
    | none => none
    | some c1 => plainLoop rec sc t is c1

/-- The tags whose flag is false. -/
def failedOf {α : Type} (tags : List α) (flags : List Bool) : List α :=
  ((tags.zip flags).filter (fun p => !p.2)).map Prod.fst

/-- The tags whose flag is true. -/
def passedOf {α : Type} (tags : List α) (flags : List Bool) : List α :=
  ((tags.zip flags).filter (fun p => p.2)).map Prod.fst

def strs (l : List String) : Value := .arr (l.map .str)
def nats (l : List Nat) : Value := .arr (l.map (fun (n : Nat) => .num (.int (Int.ofNat n))))

/-- `set(annotation)` for an annotation that is a list of names. -/
def namesOf : Value → List String
  | .arr xs => xs.filterMap (fun | .str s => some s | _ => none)
  | _ => []

/-- `set(annotation)` for an annotation that is a list of indices. -/
def indicesOf : Value → List Nat
  | .arr xs => xs.filterMap (fun | .num (.int (.ofNat n)) => some n | _ => none)
  | _ => []

/-- The annotation that is the `bool` `True`. -/
def isTrue : Value → Bool
  | .bool true => true
  | _ => false

/-- An annotation that is an `int`. -/
def intOf : Value → Option Int
  | .num (.int z) => some z
  | _ => none

/-- `last_evaluated_item` after the loop over annotations (`jschon/vocabulary/applicator.py:209-215`). -/
def maxInt : Int → List Value → Int
  | m, [] => m
  | m, a :: as => match intOf a with
    | some z => maxInt (if m < z then z else m) as
    | none => maxInt m as

/-- `list(matched_names)` of `PatternPropertiesKeyword`, a list made from a set.  Simplification: the
order is that of first insertion (Python leaves it unspecified). -/
def dedup : List String → List String → List String
  | acc, [] => acc
  | acc, x :: xs => if acc.contains x then dedup acc xs else dedup (acc ++ [x]) xs

/-- The keys of the object that `sibling.schema_node` denotes: the value of the named keyword in the
sibling's schema.  `schema_node` evaluates the result's `relpath` on its schema; `relpath` is the
keyword's name unless a schema object is evaluated on a result created by itself, which happens only
when a reference keyword refers to its own schema, an endless recursion.  `C81_keys` and `C81_length` prove
this for the schemas of a document. -/
def Store.keywords (st : Store) (s : SRef) : List Kw :=
  match st.obj s with
  | .bool _ => []
  | .obj kws => kws

def schemaKeys (st : Store) (key : String) (c : RNode) : List String :=
  (st.keywords c.schema).flatMap (fun
    | .properties ps => if key = "properties" then dkeys ps else []
    | .patternProperties ps => if key = "patternProperties" then dkeys ps else []
    | _ => [])

def schemaLen (st : Store) (c : RNode) : Nat :=
  ((st.keywords c.schema).findSome? (fun | .prefixItems ss => some ss.length | _ => none)).getD 0

/-- The loop of `DynamicRefKeyword.evaluate` over the results from `result` up to the root
(`jschon/vocabulary/core.py:148-166`). -/
def dynLoop (st : Store) (frag : String) : List SRef → List String → SRef → SRef
  | [], _, found => found
  | s :: sc, checked, found =>
    match st.base s with
    | none => dynLoop st frag sc checked found
    | some b =>
      if checked.contains b then dynLoop st frag sc checked found
      else
        match st.lookup b frag with
        | none => dynLoop st frag sc (b :: checked) found
        | some t =>
          match (st.obj t).getStatic "$dynamicAnchor" with
          | some (.str a) =>
            -- `(dynamic_anchor := ...) and dynamic_anchor.data == self.fragment`: "" is falsy
            if a ≠ "" ∧ a = frag then dynLoop st frag sc (b :: checked) t
            else dynLoop st frag sc (b :: checked) found
          | _ => dynLoop st frag sc (b :: checked) found

/-- `recursive_anchor.data is True` -/
def isRecursiveAnchor (st : Store) (s : SRef) : Bool :=
  match (st.obj s).getStatic "$recursiveAnchor" with
  | some (.bool true) => true
  | _ => false

/-- The loop of `RecursiveRefKeyword_2019_09.evaluate` (`jschon/vocabulary/legacy.py:39-45`). -/
def recLoop (st : Store) : List SRef → SRef → SRef
  | [], found => found
  | s :: sc, found => recLoop st sc (if isRecursiveAnchor st s then s else found)

/-- Jobs of `allOf`, `anyOf`, `oneOf`: `enumerate(self.json)`, on the same instance. -/
def indexJobs (i : Inst) : Nat → List SRef → List (String × SRef × Inst)
  | _, [] => []
  | n, t :: ts => (natStr n, t, i) :: indexJobs i (n + 1) ts

/-- Jobs of `prefixItems`: `enumerate(instance[:len(self.json)])`. -/
def itemJobs : List SRef → List (Nat × Inst) → List (String × SRef × Inst)
  | t :: ts, (n, i) :: is => (natStr n, t, i) :: itemJobs ts is
  | _, _ => []

/-- Jobs of `properties` (`jschon/vocabulary/applicator.py:273-275`). -/
def propJobs (ps : List (String × SRef)) (ms : List (String × Inst)) : List (String × SRef × Inst) :=
  ms.filterMap (fun m => (dlookup m.1 ps).map (fun t => (m.1, t, m.2)))

/-- Jobs of `patternProperties` (`:295-298`), each with the name of the member. -/
def patternJobs (env : Env) (ps : List (String × SRef)) (ms : List (String × Inst)) :
    List (String × String × SRef × Inst) :=
  ms.flatMap (fun m => (ps.filter (fun p => env.search p.1 m.1)).map (fun p => (m.1, p.1, p.2, m.2)))

/-- `items`, `unevaluatedItems`, `additionalItems`: after the loop (`:178-187`). -/
def finishItems (c : RNode) (tags : List Nat) (flags : List Bool) : RNode :=
  if failedOf tags flags = [] then
    c.annotate (if flags = [] then .null else .bool true)
  else c.fail (nats (failedOf tags flags))

/-- `additionalProperties`, `unevaluatedProperties`: after the loop (`:335-343`). -/
def finishProps (c : RNode) (tags : List String) (flags : List Bool) : RNode :=
  if failedOf tags flags = [] then c.annotate (strs (passedOf tags flags))
  else c.fail (strs (failedOf tags flags))

/-- The instances of a tagged list. -/
def insts {α : Type} (l : List (α × Inst)) : List Inst := l.map Prod.snd
def tags {α : Type} (l : List (α × Inst)) : List α := l.map Prod.fst

/-- `UnevaluatedItemsKeyword.evaluate` (`jschon/vocabulary/applicator.py:208-245`). -/
def evalUnevaluatedItems (rec : Rec) (sc : List SRef) (t : SRef) (i : Inst) (parent c : RNode) :
    Option RNode :=
  let pre := parent.annotations (some i.path) (some "prefixItems")
  if pre.any isTrue then some c.setDiscard
  else if (parent.annotations (some i.path) (some "items")).any isTrue then some c.setDiscard
  else if (parent.annotations (some i.path) (some "unevaluatedItems")).any isTrue then some c.setDiscard
  else
    let contains := (parent.annotations (some i.path) (some "contains")).flatMap indicesOf
    let last := maxInt (-1) pre
    let todo := i.items.filter (fun p => decide (last < (p.1 : Int)) && !contains.contains p.1)
    match sharedLoop rec sc t (insts todo) c with
    | none => none
    | some (c1, flags) => some (finishItems c1 (tags todo) flags)

/-- `UnevaluatedItemsKeyword_2019_09.evaluate` (`jschon/vocabulary/legacy.py:132-164`). -/
def evalUnevaluatedItems9 (rec : Rec) (sc : List SRef) (t : SRef) (i : Inst) (parent c : RNode) :
    Option RNode :=
  let its := parent.annotations (some i.path) (some "items")
  if its.any isTrue then some c.setDiscard
  else if (parent.annotations (some i.path) (some "additionalItems")).any isTrue then some c.setDiscard
  else if (parent.annotations (some i.path) (some "unevaluatedItems")).any isTrue then some c.setDiscard
  else
    let last := maxInt (-1) its
    let todo := i.items.filter (fun p => decide (last < (p.1 : Int)))
    match sharedLoop rec sc t (insts todo) c with
    | none => none
    | some (c1, flags) => some (finishItems c1 (tags todo) flags)

/-- `UnevaluatedPropertiesKeyword.evaluate` (`jschon/vocabulary/applicator.py:365-390`). -/
def evalUnevaluatedProperties (rec : Rec) (sc : List SRef) (t : SRef) (i : Inst) (parent c : RNode) :
    Option RNode :=
  let names := (["properties", "patternProperties", "additionalProperties",
      "unevaluatedProperties"].flatMap (fun k =>
        (parent.annotations (some i.path) (some k)).flatMap namesOf))
  let todo := i.members.filter (fun m => !names.contains m.1)
  match sharedLoop rec sc t (insts todo) c with
  | none => none
  | some (c1, flags) => some (finishProps c1 (tags todo) flags)

/-- The names (regexes) of the sibling `properties` (`patternProperties`)
(`jschon/vocabulary/applicator.py:317-328`). -/
def siblingKeys (st : Store) (parent : RNode) (i : Inst) (key : String) : List String :=
  match sibling parent i key with
  | some p => schemaKeys st key p
  | none => []

/-- `AdditionalPropertiesKeyword.evaluate` (`jschon/vocabulary/applicator.py:316-343`). -/
def evalAdditionalProperties (st : Store) (env : Env) (rec : Rec) (sc : List SRef) (t : SRef) (i : Inst)
    (parent c : RNode) : Option RNode :=
  let known := siblingKeys st parent i "properties"
  let patterns := siblingKeys st parent i "patternProperties"
  let todo := i.members.filter (fun m =>
    !known.contains m.1 && !patterns.any (fun re => env.search re m.1))
  match sharedLoop rec sc t (insts todo) c with
  | none => none
  | some (c1, flags) => some (finishProps c1 (tags todo) flags)

/-- `len(annotation)` of a `contains` result. -/
def annLen : Value → Nat
  | .arr xs => xs.length
  | _ => 0

/-- `not (max_contains := result.sibling(instance, "maxContains")) or max_contains.valid`
(`jschon/vocabulary/validation.py:199-208`) -/
def maxContainsOk (parent : RNode) (i : Inst) : Bool :=
  match sibling parent i "maxContains" with
  | none => true
  | some mx => mx.valid

/-- `MinContainsKeyword.evaluate` (`jschon/vocabulary/validation.py:197-212`).  Returns the parent,
whose `contains` child may have been reset to valid. -/
def evalMinContains (m : Num) (i : Inst) (parent c : RNode) : RNode × RNode :=
  match sibling parent i "contains" with
  | none => (parent, c)
  | some con =>
    let ok := decide (m.val ≤ (annLen con.info.annotation : Rat))
    let parent' :=
      if ok && !con.valid && maxContainsOk parent i
      then parent.setChild ("contains", i.path) con.pass_ else parent
    (parent', if ok then c else c.fail (.str "too few elements matching contains"))

/-- The number of items that the sibling `prefixItems` deals with
(`jschon/vocabulary/applicator.py:169-172`). -/
def prefixStart (st : Store) (parent : RNode) (i : Inst) : Nat :=
  match sibling parent i "prefixItems" with
  | some p => schemaLen st p
  | none => 0

/-- `keyword.evaluate(instance, result)` for each keyword class, given the evaluator of schemas.
`sc` is the chain of schemas of `c`, `parent` and its ancestors. -/
def evalKw (st : Store) (env : Env) (rec : Rec) (sc : List SRef) (kw : Kw) (i : Inst)
    (parent c : RNode) : Option (RNode × RNode) :=
  match kw with
  | .assert a => some (parent, if a.ok env i.value then c else c.fail a.message)
  | .maxContains m =>
    some (parent, match sibling parent i "contains" with
      | none => c
      | some con =>
        if m.val < (annLen con.info.annotation : Rat) then
          c.fail (.str "too many elements matching contains")
        else c)
  | .minContains m => some (evalMinContains m i parent c)
  | .allOf ss =>
    match subLoop rec sc (indexJobs i 0 ss) c with
    | none => none
    | some (c, flags) =>
      some (parent, if flags.all id then c else c.fail (.str "invalid against subschemas"))
  | .anyOf ss =>
    match subLoop rec sc (indexJobs i 0 ss) c with
    | none => none
    | some (c, flags) =>
      some (parent, if flags.any id then c
        else c.fail (.str "must be valid against at least one subschema"))
  | .oneOf ss =>
    match subLoop rec sc (indexJobs i 0 ss) c with
    | none => none
    | some (c, flags) =>
      some (parent, if (flags.filter id).length = 1 then c
        else c.fail (.str "must be valid against exactly one subschema"))
  | .not_ t =>
    match rec sc t i c with
    | none => none
    | some c => some (parent, if c.passed then
        c.fail (.str "must not be valid against the subschema") else c.pass_)
  | .if_ t =>
    match rec sc t i c with
    | none => none
    | some c => some (parent, c.noassert)
  | .then_ t =>
    if (match sibling parent i "if" with | some r => r.valid | none => false) then
      match rec sc t i c with
      | none => none
      | some c => some (parent, c)
    else some (parent, c.setDiscard)
  | .else_ t =>
    if (match sibling parent i "if" with | some r => !r.valid | none => false) then
      match rec sc t i c with
      | none => none
      | some c => some (parent, c)
    else some (parent, c.setDiscard)
  | .dependentSchemas ps =>
    let todo := ps.filter (fun p => i.has p.1)
    match subLoop rec sc (todo.map (fun p => (p.1, p.2, i))) c with
    | none => none
    | some (c, flags) =>
      some (parent, if flags.all id then c.annotate (strs (passedOf (dkeys todo) flags))
        else c.fail (.str "invalid against dependentSchemas"))
  | .prefixItems ss =>
    let jobs := itemJobs ss i.items
    match subLoop rec sc jobs c with
    | none => none
    | some (c, flags) =>
      some (parent,
        if flags.all id then
          if jobs = [] then c
          else c.annotate (if jobs.length = i.items.length then .bool true
                           else .num (.int (jobs.length - 1 : Nat)))
        else c.fail (nats (failedOf (List.range jobs.length) flags)))
  | .items t =>
    let start := prefixStart st parent i
    let todo := i.items.drop start
    match sharedLoop rec sc t (insts todo) c with
    | none => none
    | some (c, flags) => some (parent, finishItems c (tags todo) flags)
  | .unevaluatedItems t => (evalUnevaluatedItems rec sc t i parent c).map (fun c => (parent, c))
  | .contains t =>
    match sharedLoop rec sc t (insts i.items) c with
    | none => none
    | some (c, flags) =>
      let ann := passedOf (tags i.items) flags
      let c := c.annotate (nats ann)
      some (parent, if ann = [] then c.fail (.str "no element is valid against contains") else c)
  | .properties ps =>
    let jobs := propJobs ps i.members
    match subLoop rec sc jobs c with
    | none => none
    | some (c, flags) =>
      some (parent, if flags.all id then c.annotate (strs (passedOf (jobs.map Prod.fst) flags))
        else c.fail (.str "properties are invalid"))
  | .patternProperties ps =>
    let jobs := patternJobs env ps i.members
    match subLoop rec sc (jobs.map Prod.snd) c with
    | none => none
    | some (c, flags) =>
      some (parent,
        if flags.all id then c.annotate (strs (dedup [] (passedOf (jobs.map Prod.fst) flags)))
        else c.fail (.str "properties are invalid"))
  | .additionalProperties t =>
    (evalAdditionalProperties st env rec sc t i parent c).map (fun c => (parent, c))
  | .unevaluatedProperties t =>
    (evalUnevaluatedProperties rec sc t i parent c).map (fun c => (parent, c))
  | .propertyNames t =>
    match sharedLoop rec sc t (insts i.names) c with
    | none => none
    | some (c, flags) =>
      some (parent, if failedOf (tags i.names) flags = [] then c
        else c.fail (strs (failedOf (tags i.names) flags)))
  | .items9 t =>
    if i.items = [] then some (parent, c)
    else match st.obj t with
      | .bool _ =>
        -- the boolean schema is evaluated on the array itself
        match rec sc t i c with
        | none => none
        | some c => some (parent, c)
      | .obj _ =>
        match plainLoop rec sc t (insts i.items) c with
        | none => none
        | some c => some (parent, if c.passed then c.annotate (.bool true) else c)
  | .items9Array ss =>
    if i.items = [] then some (parent, c)
    else
      let jobs := itemJobs ss i.items
      match subLoop rec sc jobs c with
      | none => none
      | some (c, flags) =>
        some (parent,
          if flags.all id then
            c.annotate (if jobs = [] then .null else .num (.int (jobs.length - 1 : Nat)))
          else c.fail (nats (failedOf (List.range jobs.length) flags)))
  | .additionalItems t =>
    match (sibling parent i "items").bind (fun r => intOf r.info.annotation) with
    | some last =>
      let todo := i.items.filter (fun p => decide (last < (p.1 : Int)))
      match sharedLoop rec sc t (insts todo) c with
      | none => none
      | some (c, flags) => some (parent, finishItems c (tags todo) flags)
    | none => some (parent, c.setDiscard)
  | .unevaluatedItems9 t => (evalUnevaluatedItems9 rec sc t i parent c).map (fun c => (parent, c))
  | .recursiveRef t =>
    let target := if isRecursiveAnchor st t then recLoop st sc t else t
    match rec sc target i c with
    | none => none
    | some c => some (parent, c.setRef target)
  | .ref t =>
    match rec sc t i c with
    | none => none
    | some c => some (parent, c.setRef t)
  | .dynamicRef t frag dynamic =>
    let target := if dynamic then dynLoop st frag sc [] t else t
    match rec sc target i c with
    | none => none
    | some c => some (parent, c.setRef target)
  | .static _ _ => some (parent, c)
  | .format attr enabled =>
    let c := c.annotate (.str attr)
    some (parent,
      if enabled && (env.fmtTypes attr).contains i.value.type then
        if env.fmtOk attr i.value then c else c.fail (.str "invalid against the format")
      else c.noassert)
  | .annot _ _ v => some (parent, (c.annotate v).noassert)
  | .contentSchema v =>
    some (parent, match sibling parent i "contentMediaType" with
      | some _ => (c.annotate v).noassert
      | none => c.setDiscard)
  | .unknown _ v => some (parent, (c.annotate v).noassert)

/-- The loop over the keywords in `JSONSchema.evaluate` (`jschon/jsonschema.py:208-211`). -/
def kwLoop (st : Store) (env : Env) (rec : Rec) (sc : List SRef) (s : SRef) (i : Inst) :
    List Kw → RNode → Option RNode
  | [], r => some r
  | kw :: kws, r =>
    if kw.types.contains i.value.type then
      match withSub r i kw.key s (fun parent c => evalKw st env rec (s :: sc) kw i parent c) with
      | none => none
      | some r' => kwLoop st env rec sc s i kws r'
    else kwLoop st env rec sc s i kws r

/-- The body of `JSONSchema.evaluate` (`jschon/jsonschema.py:198-220`).  `sc` is the chain of schemas
of `r` and its ancestors. -/
def evalBody (st : Store) (env : Env) (rec : Rec) (sc : List SRef) (s : SRef) (i : Inst) (r : RNode) :
    Option RNode :=
  match st.obj s with
  | .bool true => some r
  | .bool false => some (r.fail (.str "The instance is disallowed by a boolean false schema"))
  | .obj kws =>
    match kwLoop st env rec sc s i kws r with
    | none => none
    | some r' =>
      some (if r'.children.any (fun e => decide (e.2.info.inst.path = i.path) && !e.2.passed)
        then r'.fail .null else r')

/-- `JSONSchema.evaluate(instance, result)` with fuel. -/
def evalSchema (st : Store) (env : Env) : Nat → Rec
  | 0 => fun _ _ _ _ => none
  | n + 1 => fun sc s i r => evalBody st env (evalSchema st env n) sc s i r

/-- `schema.evaluate(instance)`. -/
def evaluate (st : Store) (env : Env) (fuel : Nat) (s : SRef) (i : Inst) : Option RNode :=
  evalSchema st env fuel [s] s i (RNode.root s i)

end Jschon
