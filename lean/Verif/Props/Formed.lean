import Verif.Proof.Formed
import Verif.Props.Constructible

/-!
# C96: what can be constructed has the form of a schema
-/

namespace Jschon
open Spec

/-- C96: if `JSONSchema(doc)` returns, `doc` has the form of a schema, all the way down: it is a boolean or an
object; each member has a keyword class, and a value that the class accepts; where the class asks for schemas,
there are values of the form of a schema. -/
theorem C96_formed {E : CEnv} (hE : CEnvOk E) {n : Nat} {cid : String} {uri metaUri : Option Uri} {doc : Value}
    {w w' : World} {s : Nat} (hd : doc.WF) (h : newDocument E n cid uri metaUri doc w = some (w', .ok s)) :
    Formed E doc := by
  rcases M.bind_run h with ⟨w1, s', h1, _⟩ | ⟨_, _, h⟩
  · exact newSchema_formed hE doc hd _ _ _ _ _ _ _ _ h1
  · cases h

/-- C96: so does a document that `get_schema` has loaded. -/
theorem C96_loaded {E : CEnv} (hE : CEnvOk E) {n : Nat} {cid : String} {u : Uri} {metaUri : Option Uri}
    {w w' : World} {s : Nat} (h1 : cacheGet w.caches cid u = none) (h2 : cacheGet w.caches cid u.noFragment = none)
    (h : getSchema E n u metaUri cid w = some (w', .ok s)) :
    ∃ doc, loadJson E.lib E.sources u.noFragment = .ok doc ∧ (doc.WF → Formed E doc) := by
  have hb : baseCached w cid u = none := by
    unfold baseCached; split
    · exact h2
    · rfl
  simp only [getSchema, getSchemaWith, bind, M.andThen, M.read, h1, hb] at h
  rcases M.bind_run (m := M.ofExcept (loadJson E.lib E.sources u.noFragment)) h with ⟨w1, doc, h3, h4⟩ | ⟨_, _, h4⟩
  · obtain ⟨e1, h3⟩ := M.ofExcept_run h3
    refine ⟨doc, h3.symm, fun hd => ?_⟩
    rcases M.bind_run (m := newDocument E n cid (some u.noFragment) metaUri doc) h4 with ⟨w2, t, h5, _⟩ | ⟨_, _, h5⟩
    · exact C96_formed hE hd h5
    · cases h5
  · cases h4

/-- C96: in particular, a keyword that takes a schema, in whatever metaschema, is not constructed from anything
but a boolean or an object; one that takes several schemas, from anything but an array or a string; one that
takes named schemas, from anything but an object. -/
theorem C96_kinds {E : CEnv} {kvs : List (String × Value)} (h : Formed E (.obj kvs)) {k : String} {v : Value}
    (hk : (k, v) ∈ kvs) :
    ((∀ shape, ClassOf E k shape → shape = .subschema) → (∃ b, v = .bool b) ∨ ∃ ms, v = .obj ms) ∧
    ((∀ shape, ClassOf E k shape → shape = .arrayOfSubschemas) → (∃ xs, v = .arr xs) ∨ ∃ t, v = .str t) ∧
    ((∀ shape, ClassOf E k shape → shape = .objectOfSubschemas) → ∃ ms, v = .obj ms) ∧
    ((∀ shape, ClassOf E k shape → shape = .subschemaOrArray) →
      (∃ b, v = .bool b) ∨ (∃ ms, v = .obj ms) ∨ (∃ xs, v = .arr xs) ∨ ∃ t, v = .str t) := by
  cases h with
  | obj h =>
    have hm := h _ hk
    cases hm with
    | @mk _ shape _ hc hv =>
      have form : ∀ {v}, Formed E v → (∃ b, v = .bool b) ∨ ∃ ms, v = .obj ms := by
        intro v h
        cases h with
        | bool => exact .inl ⟨_, rfl⟩
        | obj => exact .inr ⟨_, rfl⟩
      refine ⟨fun ha => ?_, fun ha => ?_, fun ha => ?_, fun ha => ?_⟩ <;> have hs := ha _ hc <;> subst hs
      · cases hv <;> simp_all
      · cases hv <;> simp_all
      · cases hv <;> simp_all
      · generalize hv2 : v = v2 at hv
        cases hv <;> simp_all
        rename_i hf
        rcases form hf with hb | hb
        · exact .inl hb
        · exact .inr (.inl hb)

/-- C96: wherever in a constructed document a schema is expected, there is a value of the form of a schema. -/
theorem C96_within {E : CEnv} {v x : Value} (hx : SchemaPlace E v x) : Formed E v → Formed E x := by
  induction hx with
  | self => exact id
  | one hk hs _ ih =>
    intro h
    cases h with
    | obj h =>
      have hm := h _ hk
      cases hm with
      | @mk _ shape _ hc hv =>
        have := hs _ hc; subst this
        cases hv <;> simp_all
  | array hk hs hv' _ ih =>
    intro h
    cases h with
    | obj h =>
      have hm := h _ hk
      cases hm with
      | @mk _ shape _ hc hv =>
        have := hs _ hc; subst this
        cases hv <;> simp_all
  | object hk hs hv' _ ih =>
    intro h
    cases h with
    | obj h =>
      have hm := h _ hk
      cases hm with
      | @mk _ shape _ hc hv =>
        have := hs _ hc; subst this
        cases hv with
        | any h => simp at h
        | schema h => simp at h
        | object h => exact ih (h _ hv')

/-- C54: the names that `C54_unknown_partial` excepts are always refused: no document can be constructed that has,
in a schema at any depth, an empty name or a name with a null character, unless some metaschema defines it. -/
theorem C54_refused {E : CEnv} (hE : CEnvOk E) {doc : Value} (hd : doc.WF) {kvs : List (String × Value)}
    (hx : SchemaPlace E doc (.obj kvs)) {k : String} {v : Value} (hk : (k, v) ∈ kvs) (hb : k = "" ∨ '\x00' ∈ k.toList)
    (hm : ∀ u m, E.metaschema u = .ok m → ∀ c ∈ m.classes, c.key ≠ k) {n : Nat} {cid : String}
    {uri metaUri : Option Uri} {w w' : World} {s : Nat} : newDocument E n cid uri metaUri doc w ≠ some (w', .ok s) := by
  intro h
  have hf := C96_within hx (C96_formed hE hd h)
  cases hf with
  | obj hf =>
    have hmem := hf _ hk
    cases hmem with
    | mk hc _ =>
      have no : ∀ t : String, k = t → t ≠ "" → '\x00' ∉ t.toList → False := by
        rintro _ rfl h1 h2
        rcases hb with hb | hb
        · exact h1 hb
        · exact h2 hb
      generalize hk' : (k, v).1 = k' at hc
      cases hc with
      | schema => exact no _ hk' (by decide) (by decide)
      | vocabulary => exact no _ hk' (by decide) (by decide)
      | id => exact no _ hk' (by decide) (by decide)
      | @kw u m _ c hu hc =>
        subst hk'
        have hn : m.classes.find? (fun c => decide (c.key = k)) = none :=
          List.find?_eq_none.2 (fun c hc => by simpa using hm _ _ hu c hc)
        unfold getKwclass at hc
        simp only [hn] at hc
        split at hc
        · cases hc
        · split at hc
          · cases hc
          · rename_i h1 h2
            rcases hb with hb | hb
            · exact h1 hb
            · exact h2 hb

/-- C96: a number where an array of schemas is expected raises NotImplementedError. -/
theorem C96_not_implemented : ∃ w', Toy.build (.obj [("allOf", .num (.int 5))]) = some (w', .error .notImplementedError) :=
  Toy.raised_iff.1 (by decide +kernel)

/-- C96: a number among schemas raises TypeError. -/
theorem C96_type_error :
    ∃ w', Toy.build (.obj [("properties", .obj [("a", .num (.int 5))])]) = some (w', .error .typeError) :=
  Toy.raised_iff.1 (by decide +kernel)

/-- C96: an identifier with a fragment raises URIError. -/
theorem C96_uri_error : ∃ w', Toy.build (.obj [("$id", .str "h/a#b")]) = some (w', .error .uriError) :=
  Toy.raised_iff.1 (by decide +kernel)

/-- C96: a document of the form of a schema need not construct: a `$dynamicRef` to a boolean schema raises
TypeError, since `get` is called on it. -/
theorem C96_dynamic_boolean :
    ∃ w', Toy.build (.obj [("properties", .obj [("a", .bool true)]), ("$dynamicRef", .str "#/properties/a")]) =
      some (w', .error .typeError) :=
  Toy.raised_iff.1 (by decide +kernel)

/-- C96: a string where an array of schemas is expected is not refused. -/
theorem C96_text_accepted : ∃ w' s, Toy.build (.obj [("allOf", .str "x")]) = some (w', .ok s) ∧
    Formed Toy.env (.obj [("allOf", .str "x")]) := by
  have h : (match Toy.build (.obj [("allOf", .str "x")]) with | some (_, .ok _) => true | _ => false) = true := by
    decide +kernel
  match hb : Toy.build (.obj [("allOf", .str "x")]), h with
  | some (w', .ok s), _ =>
    exact ⟨w', s, rfl, C96_formed Toy.env_ok (Toy.wf_spec _ (by decide +kernel)) hb⟩

/-- C96: a document with nested schemas, in several positions, that is constructed. -/
example : ∃ w' s, Toy.build (.obj [("properties", .obj [("a", .obj [("not", .bool true)])]),
    ("allOf", .arr [.bool false]), ("title", .num (.int 1))]) = some (w', .ok s) := by
  have h : (match Toy.build (.obj [("properties", .obj [("a", .obj [("not", .bool true)])]),
    ("allOf", .arr [.bool false]), ("title", .num (.int 1))]) with | some (_, .ok _) => true | _ => false) = true := by
    decide +kernel
  match hb : Toy.build (.obj [("properties", .obj [("a", .obj [("not", .bool true)])]),
    ("allOf", .arr [.bool false]), ("title", .num (.int 1))]), h with
  | some (w', .ok s), _ => exact ⟨w', s, rfl⟩

/-- C96: a catalog in which `allOf` has one class, and a document that has it. -/
theorem Toy.allOf_class : ∀ shape, ClassOf Toy.env "allOf" shape → shape = .arrayOfSubschemas := by
  intro shape h
  generalize hk : "allOf" = k at h
  cases h with
  | schema => exact absurd hk (by decide)
  | vocabulary => exact absurd hk (by decide)
  | id => exact absurd hk (by decide)
  | @kw u m k c hm hc =>
    subst hk
    simp only [Toy.env] at hm
    split at hm
    · cases hm; cases hc; rfl
    · split at hm
      · cases hm; cases hc; rfl
      · split at hm
        · cases hm; cases hc; rfl
        · cases hm

/-- C54: a document with an empty name in a nested schema. -/
example : SchemaPlace Toy.env (.obj [("allOf", .arr [.obj [("", .null)]])]) (.obj [("", .null)]) :=
  .array (List.mem_singleton.2 rfl) Toy.allOf_class (List.mem_singleton.2 rfl) .self

end Jschon
