# Formal model of jschon (marksparkza/jschon) in Lean 4

The properties are in `properties.jsonl` (C01, C02, ...). `MANIFEST.json` maps each to its theorems and
says which are proved and which hold only in part. The model lives in `lean/Verif/Model/*`, the
specifications in `lean/Verif/Spec/*`, helper lemmas in `lean/Verif/Proof/*`, and the property theorems
in `lean/Verif/Props/*`. A theorem named `Cnn_...` belongs to property Cnn; a theorem named
`Cnn_..._partial` proves part of it and its comment says what is missing; where a part is missing because
the code does not do it, a theorem beside it proves the negation for a concrete case (the list is below).

## Trusted base

* Lean 4.33.0's kernel. `AXIOMS.md` lists the axioms of every theorem in the manifest, as printed by
  `#print axioms` (`tools/axioms.py` writes it): at most `propext`, `Classical.choice`, `Quot.sound`. No
  axiom is declared here; there is no `sorry`, `native_decide` or `bv_decide`. Mathlib is not imported.
* The reading of the Python source by hand: each definition cites the file and lines it models.
* What stands for Python itself:
  * `str` is Lean `String` (sequences of Unicode scalar values; lone surrogates are not modelled);
  * `dict` is an association list in insertion order with distinct keys;
  * numbers are `int` (unbounded) or finite `float` represented by its exact rational value (`nan`/`inf`
    are not JSON and not modelled); comparisons between them are exact, as in CPython;
  * `int(str)` is modelled including white space, sign, underscores and Unicode decimal digits, but not
    the 4300-digit limit of CPython >= 3.11;
  * exceptions are values of an enumeration `Exc`;
  * `re.search`, the shortest decimal rendering of a float, format validators (but see C77), sources (files, HTTP), uuids
    and the `rfc3986` library are parameters. The theorems hold for every value of these parameters, or
    state the law they need as a hypothesis (`CEnvOk` for construction); `Proof/ToyEnv.lean` gives
    parameters that satisfy the laws, and C80 proves the laws about URIs from RFC 3986.
* Recursion depth: Python's recursion limit is not modelled; evaluation and the resolution of references
  are by fuel, with "out of fuel" (`none`) distinguished from every outcome.

## What is modelled, and how each property is proved

| Properties | Model | Method |
|---|---|---|
| C01-C03, C05, C06 | `Model/Regex`, `Model/Py`, `Model/Pointer`: regexes with derivative matching, `str.replace`, `str.split`, constructor, `__str__`, order | regex engine proved equal to the denotation; algebraic laws by induction on key lists |
| C04 | `Model/Percent`: UTF-8, `quote`, `unquote` | byte-level round-trip by induction |
| C07 | `evaluate` on plain values | against an inductive RFC 6901 designation relation |
| C08, C09 | `evaluate` on heap nodes of the JSON class | refinement to the plain evaluator |
| C10, C11 | `Model/RelPointer` | unique factorisation of the text; evaluation against location arithmetic |
| C12-C16 | `Model/JsonHeap`: heap of JSON nodes with parent, key, cached path and cached value | state invariant, induction over operation histories; refinement to list/dict edits |
| C17 | `JSON.add/remove/replace` on the heap | refinement to `jsonpatch` |
| C18, C19 | `Model/Equality` | against an inductively defined data-model equality |
| C20-C22, C24-C28 | `Model/Patch`: the functions of `jsonpatch.py` | against RFC 6902 specification functions |
| C23, C24 | `Model/PatchHeap`: the same functions over a heap of Python lists and dicts with references | frame invariant: cells that existed before the call are never written |
| C29 | `Model/KwOrder` | loop invariant; acyclicity of the shipped tables by kernel computation over the whole finite table |
| C30-C42, C53 | `Model/Schema`, `Model/Eval`: result tree with mutation, siblings, parent annotations | simulation between the evaluator and a declarative specification (`Spec/JsonSchema`) that has no result tree, no order and no state |
| C43-C46, C60 | `Model/Output` and the result tree | invariants of the evaluator; induction on trees |
| C87 | `Model/Output`, `Model/OutputFormats` (the table of formats; of the keyword arguments of a format only `annotations`) | `Spec/OutputUnits`: the results reached through results with one verdict, and what units say; induction on trees |
| C88 | `Model/Eval`, `Model/Output`: all results of an evaluation | `Spec/Traces`: to what each keyword applies which subschema, and the annotations and errors gathered through valid (invalid) results, as an inductive relation; the meaning of subschemas is the observed one, without fuel (`settled`) |
| C89 | `Model/Registry` (catalogs and the registry of names, the three `initialize` functions; files as a function, construction and validation of metaschemas as in C69) | `Spec/Registry`: the last catalog of a name, the versions; induction on histories |
| C90 | `Model/Validate` (`validate` and `metaschema`; that the cached metaschema is the one of the catalog is assumed here, see C103, and which URIs have one is a parameter, as in construction) | `Spec/Validate`: the metaschema that a document names; the meaning of the metaschema document is that of C83 |
| C91 | `Model/Files` (`json_dumpf`, `json_loadf`; the encoding and the line ends of the platform are parameters, stateless; the parts that `json.dump` writes one by one; a file has one name) | `Spec/Files`: decoding undoes encoding; the text is that of C74 and C75 |
| C92 | `Model/SchemaEdit` (the methods that change a `JSON`, called on a schema; `data` against `keywords`) over `Model/Construct`, `Model/Decode`, `Model/Eval` | `Spec/SchemaEdit`: the members that are not deleted; the schemas without the anchors that are deleted |
| C93 | `Model/PlainEdit` (the methods of a `JSON`, called on an instance inside a keyword) over `Model/JsonHeap`, `Model/Construct`, `Model/Decode`, `Model/Eval` | `Spec/PlainEdit` (which instances, which calls), `Spec/DocObserved`, `Spec/Document`: what the edited document means |
| C94 | `Model/Percent` | `Spec/Percent`: percent-encoded text, with UTF-8 as in Lean's library |
| C95 | `Model/Repr` | `Spec/PyLiteral`: Python string, number, list and dict literals and calls, by the language reference |
| C96 | `Model/Construct` | `Spec/Formed`: what the keyword classes ask of values; the class is one that some metaschema of the catalog gives to the name, not necessarily the metaschema in force |
| C97 | `Model/PlainEdit` on the arrays and objects of subschemas, over `Model/Construct`, `Model/Decode`, `Model/Eval` | `Spec/Cut`: the keywords without the subschemas that are deleted |
| C98 | `Model/Put`: `append`, `insert`, `x[i] = v` and `x[k] = v` on the arrays and objects of subschemas, over `Model/Construct`, `Model/Eval` | `Spec/Put`: the keywords with the subschema that is added |
| C99 | `Model/UriEdit`: `schema.uri = u`, `schema.metaschema_uri = u`, `add_schema`, `del_schema`, over `Model/Construct` and `Model/Eval` | `Spec/UriEdit`: sequences of such changes; what is found is said of the caches directly |
| C100 | `Model/Construct`, `Model/Decode`, `Model/Catalog` (`popCache`); no metaschema is loaded, so the cache of metaschemas is not in question | `Spec/Elsewhere`: histories with other cache identifiers; what evaluation looks up (also for `C61_names`) |
| C101 | `Model/Put`, `Model/PlainEdit`, as C97 and C98 | `Spec/Undo`: which deletion is of what was added |
| C102 | `Model/Patch` | `Spec/Apart`: pointers that part; an operation as seen from a place; `Spec/Patch` (`At`) for edits at a place |
| C103 | `Model/Keeping`: the cached property `metaschema` over `Model/Validate` and `Model/UriEdit`; which of the schemas read their metaschemas while they are constructed is arbitrary | `Spec/Keeping`: anything that forgets nothing; histories of constructions and uses |
| C104 | `Model/Eval`, `Model/Output` (basic) | `Spec/Under`: the result with all instance locations below a place, by recursion on the tree |
| C105 | `Model/Eval`, `Model/KwOrder` | `Spec/Split`: which keyword takes which others into account (a table) |
| C106 | `Model/Eval`, `Model/KwOrder` | `Spec/Replace`: keywords with other subschemas; the values that subschemas are evaluated on |
| C47-C49 | `Model/Catalog` | state machine, induction over histories |
| C50, C51, C54-C59 | `Model/Construct`: heap, schema attributes and caches as one world; `JSONSchema.__init__`, `_bootstrap`, the keyword constructors, `_resolve_references`, `get_schema`, `canonical_uri` | invariants over histories of constructions and loads, including those that raise half-way; a total-correctness walk for C59 |
| C61-C64 | `Model/Decode`: the schema objects that evaluation finds in a world of constructed schemas | `Spec/Document` gives the meaning of a JSON document without constructing anything; correspondence between written subschemas and heap nodes, then the simulation of C30; frame theorems over later worlds |
| C65, C66 | `Model/JsonMixins`: the methods that `JSON` inherits from `MutableSequence` and `MutableMapping`, written as CPython 3.8-3.11 `_collections_abc.py` writes them, on the modelled item access | `Spec/JsonMixins`: what `list` and `dict` do to plain values; edits of one instance compose (`Proof/JsonMixins`) |
| C67 | `Model/Compare`: the comparison operators | exact order of numbers, code point order of strings |
| C68 | `Model/Vocabulary`: `create_vocabulary`, the choice of the core vocabulary, `$vocabulary`, and the vocabularies of the three catalogs | `Spec/Vocabulary`: the last class with a key in the list of all classes, in the order of the entries; the shipped vocabularies give the tables `meta2020`, `meta2019` and `metaNext` that construction uses |
| C69 | `Model/Metaschema`: `create_metaschema` and `get_metaschema` on the cache `__meta__`; the keywords after `_bootstrap`, and the validation, are arbitrary functions | `Spec/Metaschema` |
| C70, C71 | `Model/Construct`: `$id`, `$anchor`, `$dynamicAnchor`, the setter of `uri` and the caches, over any history of constructions and lookups | `Spec/Names`: base URIs by going up from an instance, and the names of a schema |
| C72 | as C61-C64, for several documents | `Spec/Suite`: documents added one after the other; the same correspondence for all of them, kept by each addition |
| C73 | as C72, with `loadJson` | `Spec/Shelf`: documents that can be loaded; resolution of references as a procedure that makes documents, by induction on the number of those not yet made |
| C74-C76 | `Model/JsonText`: `json.loads` and `json.dumps` of CPython as `jschon/utils.py` calls them, on code points | `Spec/JsonText`: the grammar of RFC 8259 with what each text denotes; soundness and completeness of the scanner; `Spec/JsonWritten`: the choice of white space and escapes that `dumps` makes |
| C77 | `Model/Formats`: `format_validator`, the import of `jschon/formats.py`, `enable_formats` and the `format` keyword; a validator is a function of the value of the instance | `Spec/Formats`: who registered last; induction on the program |
| C78, C79 | `Model/Patch`, `Model/PatchSeq`: `JSONPatch` as a mutable sequence | congruence of every operation for JSON equality; splitting of lists |
| C80 | `Model/Rfc3986`: the URI library by RFC 3986 (components, 5.2.2, 5.2.4, 6.2.2), the base being normalized before resolution | `Spec/Rfc3986`: the grammar and the rewriting of the two buffers as relations; induction on the segments of a path |
| C81 | `Model/Locations`: `schema_node` and `absolute_uri` of results in a world of constructed schemas | `Spec/Locations`: keys of results followed from the schema; invariant of the evaluator on `schema`, `relpath` and `refschema` |
| C82 | `Model/Roots`: `parentschema`, `resource_rootschema`, `document_rootschema` | `Spec/Roots`: the nearest schema with `$id` on the way up; uses C70 for the URIs |
| C83 | as C62, C72 and C73 | `Spec/DocObserved`: the rules of the code on written documents, without the condition `DFaithful` |
| C84 | as C83 | `Spec/Twin`: equality of JSON, with numbers written alike; the meaning of `Spec/DocObserved` is the same for equal documents |
| C85 | `Model/Eval`: the annotation and the error of the results; keyword names distinct and sorted by dependency (`StoreOk`) | `Spec/Reports`: what the annotation and the error of each keyword are, in terms of the meaning of the subschemas |
| C86 | `Model/Sources`: `LocalSource` and `RemoteSource` with `pathlib` (POSIX, without symbolic links); what a file or URL holds is a parameter | `Spec/Sources`: pathnames as names that lead from a directory to another; URIs as in C80 |
| C52 | dynamic scope in `Model/Eval` | induction on the scope |

Two representations of schemas are used. `Model/Construct` makes `JSONSchema` objects out of documents.
`Model/Schema` starts from objects whose keyword values already have the shape that the metaschema
demands, and `Model/Eval` evaluates those. `Model/Decode` leads from the first to the second: it reads
the keyword objects of a constructed schema with the classes of one dialect, 2019-09 or 2020-12, which it finds by name. A keyword
value that does not have the form that its class expects is left out by `Decode`, where the code would
raise during evaluation; the documents of C59, C62 and C63 (`Spec.DocForm`) have no such values.

`Spec.DocForm` describes documents of 2019-09 or 2020-12 (the class argument `Dialect`; all documents of a theorem are
of the same one) with `$schema` at the root only. The metaschema may be any that has the keyword classes of the
dialect, with either class for `$id` (`Spec.OfDialect`): the shipped one, that of `next`, or one of the user's with the
shipped vocabularies (`C68_of_dialect_2020`, `_2019`, `_next`), and the documents of one theorem may have different ones.
The documents may have embedded schema
resources (`$id`), `$anchor`, `$dynamicAnchor` (2020-12), `$recursiveAnchor` (2019-09), and `$ref`, `$dynamicRef` (2020-12)
and `$recursiveRef` (2019-09) to any schema of the document,
by JSON pointer (percent-encoded or not), by anchor, or by the URI of an embedded resource. `$dynamicRef`
must refer to an object (with a boolean it raises TypeError, see below) and names must be unique (`Spec.UniqueNames`).
`Spec.SiteLib` is what is assumed of the URI library for this, for base URIs that are absolute and in normal form
(`Spec.Solid`): fragment-only references resolve to the base with that fragment, the base with or without an anchor
reads as what was written, and UUIDs are such URIs. The `$id` of an embedded resource must be such a URI or resolve
to one (`Spec.IdText`). C80 proves all of this for RFC 3986, and that normal form is needed: the fragment `#/a` with the
base `HTTP://x/` gives `http://x/#/a`, so a reference within a document with that `$id` is not found in it. The base URI of a subschema is
part of its specification (`Spec.Site`), and so is the dynamic scope (`Spec.DTarget`, `Spec.DOutermost`, `Spec.DOutermostRec`).

`Spec.Suite` (C72) is for several such documents: each one may refer to those before it, the names are unique
among all of them, and `Spec.Addition.free` says that nothing else is cached with the base URIs of a document
when it is added. `Spec.Stocked` (C73) adds documents that a source has: they may refer to each other in cycles,
and are loaded while references are resolved. A loaded document must have no `$id` or the URI that it is loaded
with as its `$id`, and a reference into it must use this URI (`Spec.NearRefs`): an embedded resource of a document
that is not loaded yet cannot be found by its own URI.

The verdict theorems C62, C72 and C73 compare with JSON Schema as specified, and so need `Spec.DFaithful`, which keeps
documents away from the disagreements listed below. C83 needs no such condition: `Spec/DocObserved` is a second
meaning of documents, again without result tree, order or state, in which the deviations are written down as rules.
`C83_differs` is a document and a value on which the two meanings differ.

`Model/Locations` has the two facts about results that `Model/Output` takes as parameters: `schema_node` and
`absolute_uri`. `Spec.FoundAt` (C81) says where a result is by following the keys of the results above it, with a
jump at each reference; `Spec.PointsTo` says what a URI with a JSON pointer fragment leads to. `C81_keys` and
`C81_length` prove what `Model/Eval` assumes of `schema_node` in `properties`, `patternProperties` and `prefixItems`.
The loops of `resource_rootschema` and `document_rootschema` stop when `parentschema` is false, which for a
schema means that its data are empty or `false`; C82 proves that this never happens to a schema that contains
another. (`cached_property` is not modelled: parents and keywords do not change after construction, but a root that is
read during construction would be kept; nothing in the library reads them.)

`Model/JsonText` has the conversion between decimal numbers and floats as a parameter, `FloatLib`: `round` gives
the float nearest to a number, or none if it is infinite, and `repr` is `float.__repr__`. C74 and C76 assume of it
`Spec.FloatOk`: the result of `round` is a float, and `repr` of a float is a JSON number with a fraction or an
exponent that `round` reads as the same float. C75_reads and C75_refuses assume nothing of it. Floats are
rationals, so `-0.0` is `0.0`; the sign would be lost in a round trip of the model where Python keeps it. Infinities
and lone surrogates can be read, but are not in `Value`.

## Where the code disagrees with the property

Each of these is a theorem about a concrete case; the property is then proved under the condition that
excludes it.

| Theorem | What happens |
|---|---|
| `C08_...`, `C11_leaks_value_error` | array tokens of JSON instances go through `int()`: `-1`, `01` or ` 1` are accepted, and a non-number leaks `ValueError`; exactly: `C08_exact`, `C11_exact` |
| `C10_...` | keyword arguments of `RelativeJSONPointer` are not validated |
| `C13_...`, `C17_remove_after_pop` | `pop()`, assignment at a negative index and insertion beyond the end leave wrong keys, and in-place removal then removes something else; `C13_del_in_step`, `C13_insert_in_step` and `C13_set_in_step` say exactly which edits keep the keys right; `C17_remove_exact` and `C17_replace_exact` say what `remove` and `replace` then do |
| `C20_nonRfc_index_accepted`, `C21_...` | patch indices may be any spelling `int()` accepts |
| `C22_move_into_itself_accepted` | an array item may be moved into itself |
| `C24_shared_objects` | patches of Python documents with shared lists differ from patches of their values |
| `C25_move_loses_value` | a `move` whose addition fails has already removed the value; `C25_move_exact` says what is left |
| `C26_other_exceptions` | scalar parents give AttributeError, TypeError or AssertionError; exactly: `C26_apply_exact` |
| `C29_cycle`, `C40_endless` | a cyclic `depends_on` and `{"$ref": "#"}` do not end |
| `C30_not_leak`, `C34_not_leak`, `C45_not_leak`, `C45_contains_leak` | what a failed subschema of `not` or `contains` annotated is kept, and seen by `unevaluatedProperties` |
| `C41_large_quotient` | decimal arithmetic with 28 digits: `multipleOf` is wrong for large quotients |
| `C84_written` | `multipleOf` tells the float `1e23` from the integer that is equal to it, since it works on decimal texts |
| `C49_nested_same_id` | a cache scope inside one of the same identifier is not refused while nothing was added |
| `C50_stale` | a document whose reference cannot be resolved raises, and the next call returns it |
| `C51_duplicate_id`, `C51_slash_anchor`, `C51_empty_fragment` | canonical URIs that do not lead back to their schema |
| `C52_reentry` | a scope that returns to a resource binds `$dynamicRef` differently from the specification |
| `C53_items_true`, `C53_empty_items` | 2019-09 `items: true` and `items: []` with `unevaluatedItems` |
| `C54_empty_name`, `C54_nul_name` | unknown keywords `""` and names with a null character cannot be constructed |
| `C61_usurped` | a resource that is constructed later with the `$id` of an earlier one changes what dynamic references of the earlier one find |
| `C66_clear_raises` | `clear()` on a JSON object always raises KeyError: the inherited method is that of `MutableSequence`, which calls `pop(-1)` |
| `C69_rejected_is_returned`, `C69_invalid_is_returned` | a metaschema whose `$vocabulary` is rejected, or that is not valid, stays in the cache after the exception, and the next `get_metaschema` returns it, in the first case without the keyword classes that were not yet collected |
| `C69_moved_is_created_again` | a metaschema whose `$id` is another URI than the one asked for is created anew by every `get_metaschema` |
| `C71_loaded_again` | a document whose `$id` differs from the URI it was loaded from is loaded again by every `get_schema`, and the new one takes the place of the old one under its `$id` |
| `C75_infinity` | a number that is too large for a float is read as an infinity, although `Infinity` is refused; `dumps` of it raises ValueError |
| `C77_overwritten` | a validator for `json-pointer` that is registered before the first `enable_formats` is overwritten by the one in `jschon/formats.py` |
| `C86_absolute`, `C86_query`, `C86_beside` | a `LocalSource` reads outside its directory: `https://x//etc/passwd` is read from `/etc/passwd`, a query may lead upwards, and the base URI with a suffix is a file beside the directory |
| `C86_elsewhere` | a `RemoteSource` fetches from wherever the remainder of the URI says if that is a URI (`https://x/http://other/a`) or begins with two slashes |
| `C64_null` | `{"default": null}` annotates `None`, which no result treats as an annotation: `collect_annotations` and the outputs omit it |
| `C88_spurious` | with 2019-09, once an item has failed `items`, `unevaluatedProperties` and `unevaluatedItems` in the schema of `items` see nothing evaluated in later items, and report errors for items that satisfy the schema (the verdict of the whole is not affected, being invalid already) |
| `C60_false_schema`, `C60_condition` | the detailed output of the schema `false` lists no error; a failing `if` hides the error that made the instance invalid |

`C92_ignored` shows that deletion of a keyword changes the value of a schema but not what it accepts;
`C92_anchor_noticed` that deletion of an anchor does change it. `C97_noticed` shows that deletion of a member of
`properties` is noticed, unlike that of `properties`; `C98_noticed` shows the same of additions, and
`C98_unresolved` that references in what is added are never resolved. The model leaves a keyword whose reference is
not resolved out, where the code raises AttributeError; `C98_evaluate` is not about evaluations that meet one.
`C92_evaluate`, `C97_evaluate` and `C98_evaluate` assume that the names of dynamic anchors are no JSON pointers (they must not begin with `/`),
and of the schemas involved that each keyword has the class of its dialect (`Kinded`).

`C99_evicts` shows that `schema.uri = u` takes the former URI from the cache even if another schema is found by it,
`C99_anchor_stays` that anchors are still found by the former URI and not by the new one, and `C99_dynamic` that
verdicts may change where dynamic references are involved.

`C102_siblings` shows that operations on items of one array cannot be exchanged although their pointers part.

`C91_failed` shows that a `dumpf` that raises has already destroyed what the file had.

`C96_not_implemented`, `C96_type_error`, `C96_uri_error` and `C96_dynamic_boolean` (a `$dynamicRef` to a boolean
schema) show exceptions other than JSONSchemaError that construction raises; `C96_text_accepted` shows that `{"allOf": "x"}` is constructed (evaluation of it, which
raises AttributeError, is not modelled).

Seen while modelling, without a theorem: `type: integer` with an infinite float raises OverflowError.

## Not modelled

* HTTP access (`json_loadr`; the names of files and the URLs are modelled, C86, and so are files, C91), `bytes` as JSON text, CPython's limit of 4300
  digits for integers, conversion between decimal numbers and floats (`FloatLib`; see below), the package `rfc3986`
  itself, which is not in the repository (`Model/Rfc3986` follows the RFC instead),
  thread interleavings, recursion limits, `repr` of catalogs and vocabularies, subclassing hooks.
* The construction of a metaschema beyond `_bootstrap`, together with that of the schemas that use it:
  `Model/Construct` takes the keyword classes of a metaschema as a parameter, `Model/Metaschema` takes the
  construction of the other keywords as one. The JSON files of the metaschemas are not in the repository.
* A schema whose `$schema`, `$id`, `$ref`, `$dynamicRef`, `$anchor` or `$dynamicAnchor` is not a string.
* Which schemas read `JSONSchema.metaschema` while they are constructed (C103 is for any choice), and metaschemas that
  are read and then lose their URI in their own construction, because of another `$id`.
* Aliasing of the list or dict that the cached property `JSON.value` returns.
* Insertion into and assignment to an index of an array of subschemas that is negative or beyond its end (other
  indices, `append`, assignment to a member and deletions are C97 and C98), and edits of instances in keywords that keep more than their value: `pattern` keeps the compiled expression (`validation.py:136-138`), `format`
  the validator (`format.py:17-20`), references their target (`core.py:82-169`), and `$schema`, `$id` and the
  anchors have had their effect on the catalog. C92 is about edits of schemas themselves, C93 about all other
  keywords. `Model/Decode` reads `pattern` from the value, so it must not be used after an edit of one.
* Documents loaded by `$dynamicRef` during evaluation.
* Decoding of keyword objects with classes other than those of 2019-09 and 2020-12, or of both in one store
  (`Model/Decode`): documents of one dialect that refer to documents of the other are constructed but not evaluated.

## Tests of the theorems

`seeded/LOG.jsonl` records edits of the model that a wrong program would correspond to, made in a copy: the
definition, the edit, the claim it breaks, and the theorems that fail. Where no theorem failed although a
claim was broken, the theorem was tightened and the entry says so.
Edits for C104 to C106 were only checked against the theorems of C31 to C33 and C104 to C106 (`"scope"` in
the log), so others that would fail are not listed there.
