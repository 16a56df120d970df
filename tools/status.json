{
 "C01": {
  "status": "proved",
  "note": ""
 },
 "C02": {
  "status": "proved",
  "note": "regex modelled by derivatives and proved against its denotation"
 },
 "C03": {
  "status": "proved",
  "note": ""
 },
 "C04": {
  "status": "proved",
  "note": "urllib quote/unquote and the UTF-8 codec are modelled concretely; strings are sequences of Unicode scalar values (no lone surrogates)"
 },
 "C05": {
  "status": "proved",
  "note": "arguments of wrong Python types (TypeError) are not modelled"
 },
 "C06": {
  "status": "proved",
  "note": "hash is a parameter function of the key tuple"
 },
 "C07": {
  "status": "proved",
  "note": "plain dict/list/scalar documents"
 },
 "C08": {
  "status": "partial",
  "note": "false as stated: JSON evaluation accepts negative and odd int() spellings and leaks ValueError (witness theorems); success of plain evaluation carries over in full, agreement both ways proved for canonical index tokens; C08_exact says exactly what evaluation does with any tokens (Spec.Walks, with int() specified in Spec/IntText)"
 },
 "C09": {
  "status": "proved",
  "note": "histories with in-range indices as stated"
 },
 "C10": {
  "status": "proved",
  "note": "groups of the regex match are any matching cut, proved unique; up >= 0 is needed because keyword arguments are not validated"
 },
 "C100": {
  "status": "proved",
  "note": "C100_kept (the other caches are as before), C100_found (get_schema), C100_evaluate (every schema, dynamic references included) and C100_block (also after the removal of the temporary cache). The cache of metaschemas is not modelled: the model takes metaschemas from the environment."
 },
 "C101": {
  "status": "proved",
  "note": "C101_restored (data, positions, values, schemas), C101_constructed (evaluation in general, references not by JSON pointer as in C97), C101_evaluate (as before, without dynamic references); C101_noticed is a concrete case that meets the hypotheses."
 },
 "C102": {
  "status": "proved",
  "note": "Full, on documents as values (C24 relates them to Python objects). Replacements: the last key must not be an odd spelling of an index (C21_nonRfc_index_accepted). C102_siblings: parting pointers are not enough for additions to and removals from one array."
 },
 "C103": {
  "status": "proved",
  "note": ""
 },
 "C104": {
  "status": "proved",
  "note": ""
 },
 "C105": {
  "status": "proved",
  "note": "Full. C105_needed, C105_exact: the condition cannot be dropped nor weakened by a line of the table."
 },
 "C106": {
  "status": "proved",
  "note": "Full. C106_needed: not beside unevaluatedProperties."
 },
 "C11": {
  "status": "partial",
  "note": "false as stated: ValueError leaks (witness C11_leaks_value_error); successful evaluation proved in full, impossible steps proved when the remaining pointer has canonical index tokens; C11_exact and C11_no_start say exactly what evaluation does with any tokens"
 },
 "C12": {
  "status": "proved",
  "note": "type, len, bool, keys and children proved at all times, not only after construction"
 },
 "C13": {
  "status": "partial",
  "note": "false as stated: pop(), negative assignment and insertion beyond the end leave wrong keys (witness theorems); proved for in-range histories, parents in full; C13_del_exact, C13_insert_exact and C13_set_exact say what each edit makes of the keys after any calls, and C13_del_in_step, C13_insert_in_step and C13_set_in_step exactly which edits keep them right"
 },
 "C14": {
  "status": "proved",
  "note": "any history, any indices; aliasing of the list object returned by the cached property is not modelled"
 },
 "C15": {
  "status": "proved",
  "note": "all integer indices, including negative and out-of-range ones"
 },
 "C16": {
  "status": "proved",
  "note": "when the copy is not stored inside its own source"
 },
 "C17": {
  "status": "partial",
  "note": "false after edits that break positions (witnesses C17_remove_after_pop, C17_remove_loose); add proved in full, remove and replace for in-range histories, failure without effect in full; C17_remove_exact and C17_replace_exact say what remove and replace do after any edits"
 },
 "C18": {
  "status": "proved",
  "note": "documents with distinct object keys (Value.WF), as Python dicts have"
 },
 "C19": {
  "status": "proved",
  "note": "documents with distinct object keys (Value.WF)"
 },
 "C20": {
  "status": "partial",
  "note": "false as stated: the last token may be any int() spelling such as 01 (witness C20_nonRfc_index_accepted); exact behaviour (with the spellings specified in Spec/IntText), RFC completeness, and soundness for canonical indices proved"
 },
 "C21": {
  "status": "partial",
  "note": "false as stated for the same reason (witness C21_nonRfc_index_accepted); exact behaviour, completeness, soundness for canonical indices and the error cases proved"
 },
 "C22": {
  "status": "partial",
  "note": "false as stated: a move of an array item into itself is accepted (witness C22_move_into_itself_accepted); exact behaviour of move, copy and test proved"
 },
 "C23": {
  "status": "proved",
  "note": "arbitrary heaps with sharing and cycles; deepcopy modelled as copying the whole heap at an offset"
 },
 "C24": {
  "status": "proved",
  "note": "sequencing on values; repeatability and agreement of the two models on the heap, for documents without shared lists or dicts (needed: C24_shared_objects)"
 },
 "C25": {
  "status": "partial",
  "note": "false for move, whose failing addition comes after the removal (witness C25_move_loses_value); proved for the other five operations; C25_move_exact says what a failed move leaves"
 },
 "C26": {
  "status": "partial",
  "note": "false as stated: scalar parents give AttributeError, TypeError or AssertionError (witness C26_other_exceptions); proved when the parent is an object or array; C26_add_exact, C26_remove_exact, C26_replace_exact, C26_copy_exact, C26_move_exact, C26_test_exact and C26_apply_exact say exactly when each operation raises, and what"
 },
 "C27": {
  "status": "proved",
  "note": ""
 },
 "C28": {
  "status": "proved",
  "note": "members of wrong Python types are not modelled"
 },
 "C29": {
  "status": "proved",
  "note": "Shipped vocabularies and any acyclic custom vocabulary; C29_cycle shows that a cyclic depends_on never terminates."
 },
 "C30": {
  "status": "partial",
  "note": "verdict equals the specification's for Faithful schemas; otherwise characterised by the observed meaning"
 },
 "C31": {
  "status": "proved",
  "note": "verdicts of allOf, anyOf, oneOf, not, if/then/else, $ref from the verdicts of the subschemas, whenever evaluation ends"
 },
 "C32": {
  "status": "proved",
  "note": "each object applicator and the three together; dependentSchemas; propertyNames"
 },
 "C33": {
  "status": "proved",
  "note": "prefixItems/items division; contains with each combination of bounds"
 },
 "C34": {
  "status": "partial",
  "note": "holds for Faithful schemas; false in general, witness C34_not_leak"
 },
 "C35": {
  "status": "proved",
  "note": "all assertion keywords except multipleOf, which is C41"
 },
 "C36": {
  "status": "proved",
  "note": "for every pair of stores that differ in keyword order; when both evaluations end"
 },
 "C37": {
  "status": "proved",
  "note": "any difference in Neutral keywords; format asserts iff enabled"
 },
 "C38": {
  "status": "proved",
  "note": "all keywords that constrain one type"
 },
 "C39": {
  "status": "proved",
  "note": ""
 },
 "C40": {
  "status": "proved",
  "note": "termination under a rank condition implied by the absence of references; determinism for all schemas; endless for {$ref: #}"
 },
 "C41": {
  "status": "partial",
  "note": "exact characterisation; false for quotients of more than 28 digits, witness C41_large_quotient"
 },
 "C42": {
  "status": "proved",
  "note": ""
 },
 "C43": {
  "status": "proved",
  "note": "for every schema store, instance and fuel; no hypothesis on the schema"
 },
 "C44": {
  "status": "proved",
  "note": "all formats; basic output also shown equal to collect_errors / collect_annotations; verbose output node by node"
 },
 "C45": {
  "status": "partial",
  "note": "proved for the tree: every ancestor result is valid. The claim about subschemas is false for not and contains, which reset a result to valid after a failure (witnesses)"
 },
 "C46": {
  "status": "proved",
  "note": "instance location designates in the document, or a member name (propertyNames); keyword location extends that of the parent"
 },
 "C47": {
  "status": "proved",
  "note": "Sources are functions; rfc3986 is a parameter (UriLib). A failing source is reported as CatalogError."
 },
 "C48": {
  "status": "proved",
  "note": "For the cache lookups; the loading path of get_schema is in C50/C51."
 },
 "C49": {
  "status": "partial",
  "note": "All but refusal inside a block of the same identifier in which nothing was added yet, which is false (C49_nested_same_id)."
 },
 "C50": {
  "status": "partial",
  "note": "False as stated: C50_stale (a document whose reference cannot be resolved raises, and is returned by the next call). C50_again_partial: a call that raises without having begun to construct raises again. For get_metaschema and create_metaschema see C69."
 },
 "C51": {
  "status": "partial",
  "note": "Proved for all histories when no two schemas of the cache share a URI, no schema above has a URI with a fragment and no anchor begins with a slash. Without each of these the claim is false of the code: C51_duplicate_id, C51_slash_anchor, C51_empty_fragment are witnesses."
 },
 "C52": {
  "status": "partial",
  "note": "$recursiveRef proved; $dynamicRef when the scope does not return to a resource; false otherwise, witness C52_reentry"
 },
 "C53": {
  "status": "partial",
  "note": "proved keyword by keyword; false for items: true with unevaluatedItems and for items: [], witnesses"
 },
 "C54": {
  "status": "partial",
  "note": "False as stated: the empty name raises IndexError (C54_empty_name) and a name with a null character raises ValueError (C54_nul_name). C54_unknown_partial: all other unknown names construct, with any value, and are kept, under every metaschema. C54_kept_partial: in documents of 2019-09 and 2020-12 (DocForm) they are instances of the unknown-keyword class and annotate. The metaschema may be any with the keyword classes of the dialect (OfDialect): the shipped one, next, or a user's with the shipped vocabularies (C68_of_dialect_*). C54_refused: the excepted names are refused in every schema of every document."
 },
 "C55": {
  "status": "proved",
  "note": "For every environment that satisfies CEnvOk and every history; the model of construction leaves out metaschema construction."
 },
 "C56": {
  "status": "proved",
  "note": "For every reference keyword of every schema below the root. Which schema it is, is not part of this claim."
 },
 "C57": {
  "status": "proved",
  "note": "Holds for calls from outside; while a document is being resolved, a document that it loads may refer back to it."
 },
 "C58": {
  "status": "proved",
  "note": ""
 },
 "C59": {
  "status": "proved",
  "note": "C59_constructs: documents without references, any metaschema. C59_local: documents of 2019-09 or 2020-12 with embedded resources, anchors, and references, dynamic and recursive references to their own subschemas. References to other documents are the subject of C72 and C73. The metaschema may be any with the keyword classes of the dialect (OfDialect): the shipped one, next, or a user's with the shipped vocabularies (C68_of_dialect_*)."
 },
 "C60": {
  "status": "partial",
  "note": "C60_detailed_units and C60_hierarchical hold of every result tree. That an invalid instance gives a non-empty list is proved for schemas that are not booleans (C60_nonempty_partial) and false of the schema false (C60_false_schema). C60_condition: a failing if hides the error that made the instance invalid."
 },
 "C61": {
  "status": "partial",
  "note": "C61_later_partial: holds if no dynamic reference with dynamic scope is reachable. C61_names: holds with dynamic references too, if the URIs that they look up are cached for what they were cached for (C100_evaluate: always, for later constructions in other caches). C61_usurped: false otherwise, since a later resource with the same $id is found by dynamic lookup. C61_island: general form over stores."
 },
 "C62": {
  "status": "partial",
  "note": "C62_verdict_partial: documents of 2019-09 or 2020-12 whose references stay within the document (DocForm: embedded resources, anchors, static, dynamic and recursive references), under DFaithful, which excludes the known disagreements (annotations of failed not/contains subschemas, C30; dynamic scopes that return to a resource, C52; items true or empty in 2019-09, C53; quotients beyond 28 digits, C41). C62_not_both: the specified verdicts exclude each other. The verdict without DFaithful is C83. The metaschema may be any with the keyword classes of the dialect (OfDialect): the shipped one, next, or a user's with the shipped vocabularies (C68_of_dialect_*). Boolean documents: C62_boolean."
 },
 "C63": {
  "status": "proved",
  "note": "For documents of 2019-09 or 2020-12 as described by DocForm (embedded resources, anchors, static, dynamic and recursive references within the document). The metaschema may be any with the keyword classes of the dialect (OfDialect): the shipped one, next, or a user's with the shipped vocabularies (C68_of_dialect_*)."
 },
 "C64": {
  "status": "partial",
  "note": "C64_annotates: every schema object. C64_written_partial: starting from the document, for unknown keywords and the annotation keywords of all types in documents of 2019-09 or 2020-12 as described by DocForm. The metaschema may be any with the keyword classes of the dialect (OfDialect): the shipped one, next, or a user's with the shipped vocabularies (C68_of_dialect_*). C64_null: an annotation keyword whose value is null annotates None, which the collectors take for no annotation, so a value that is null is not collected."
 },
 "C65": {
  "status": "proved",
  "note": "Histories of C13-C17. clear uses pop(-1), after which keys of removed items are arbitrary; in/index/count are stated for arrays."
 },
 "C66": {
  "status": "partial",
  "note": "Proved except for clear: C66_clear_raises shows that clear() on an object always raises KeyError, because MutableSequence.clear precedes MutableMapping.clear. popitem removes the first member (dict.popitem the last); pop(k, default) is not supported by the inherited pop."
 },
 "C67": {
  "status": "proved",
  "note": "Arrays and booleans are modelled as CPython compares them; the claim covers what is documented, numbers and strings."
 },
 "C68": {
  "status": "proved",
  "note": "C68_of_dialect_2020, _2019 and _next: the metaschemas created from the shipped vocabularies are those that the theorems about documents are for."
 },
 "C69": {
  "status": "partial",
  "note": "False of the code: C69_rejected_is_returned, C69_invalid_is_returned (a metaschema that could not be created is returned by the next call) and C69_moved_is_created_again (a new one is created by every call if its $id is another URI). C69_created_partial proves the claim for documents that have a $schema and name no other URI, once created."
 },
 "C70": {
  "status": "proved",
  "note": "For any history of constructions and lookups, successful or not."
 },
 "C71": {
  "status": "proved",
  "note": "C71_cached and C71_found are the two directions; C71_unique adds that the schema itself is found if its name is not used twice."
 },
 "C72": {
  "status": "partial",
  "note": "C72_constructs, C72_ends and C72_earlier are full, for 2019-09 and 2020-12; C72_verdict_partial is under DFaithful, as C62, and for documents as in DocForm whose root is an object. Concrete cases: Props/Suite (2020-12), Props/Suite19 (2019-09). The verdict without DFaithful is C83. The metaschema may be any with the keyword classes of the dialect (OfDialect): the shipped one, next, or a user's with the shipped vocabularies (C68_of_dialect_*). Boolean documents: C62_boolean."
 },
 "C73": {
  "status": "partial",
  "note": "C73_constructs, C73_obtains, C73_ends, C73_obtained_ends, C73_kept and C73_kept_get are full, for 2019-09 and 2020-12; C73_verdict_partial and C73_obtained_partial are under DFaithful, as C62, and for documents as in DocForm whose root is an object. The verdict without DFaithful is C83. The metaschema may be any with the keyword classes of the dialect (OfDialect): the shipped one, next, or a user's with the shipped vocabularies (C68_of_dialect_*). Boolean documents: C62_boolean."
 },
 "C74": {
  "status": "proved",
  "note": "C74_text, C74_content, C74_injective, C74_written and C74_line are full, with float conversion as a parameter (FloatOk)."
 },
 "C75": {
  "status": "proved",
  "note": "C75_reads and C75_refuses are full. C75_json is for texts without infinities and lone surrogates, which Value cannot express. C75_infinity: a number too large for a float is read as an infinity."
 },
 "C76": {
  "status": "proved",
  "note": "C76_roundtrip and C76_rewrite are full, with float conversion as a parameter (FloatOk)."
 },
 "C77": {
  "status": "proved",
  "note": "C77_overwritten: a validator for a supplied format that is registered before the first enable_formats is replaced by the supplied one when that imports the module."
 },
 "C78": {
  "status": "proved",
  "note": ""
 },
 "C79": {
  "status": "proved",
  "note": "slices with a step are not modelled"
 },
 "C80": {
  "status": "proved",
  "note": "The URI library is modelled by RFC 3986, as the package rfc3986 is not in the repository; IP literals and ports are not checked in detail by the model's validity test."
 },
 "C81": {
  "status": "partial",
  "note": "schema_node is unconditional; absolute_uri assumes, as C51, that URIs of schemas differ and have no fragments (C51_duplicate_id and C51_empty_fragment show why), and that the node's schema is in a parentless document"
 },
 "C82": {
  "status": "proved",
  "note": "values of $id are strings (others are not modelled); a URI with a fragment is excluded from the statement on canonical URIs"
 },
 "C83": {
  "status": "proved",
  "note": "Documents as in DocForm, of 2019-09 or 2020-12; roots that are objects for C83_suite, C83_shelf and C83_obtained. Spec/DocObserved spells out the deviations; C83_differs is a document without references on which code and specification differ. The metaschema may be any with the keyword classes of the dialect (OfDialect): the shipped one, next, or a user's with the shipped vocabularies (C68_of_dialect_*)."
 },
 "C84": {
  "status": "proved",
  "note": "C84_equal: equal values are twins if whole floats are written exactly; C84_written shows why that is demanded. C84_constructs and C84_document for one document, C84_suite and C84_shelf for several. The metaschema may be any with the keyword classes of the dialect (OfDialect): the shipped one, next, or a user's with the shipped vocabularies (C68_of_dialect_*)."
 },
 "C85": {
  "status": "proved",
  "note": "C85_keyword for keywords that apply, C85_inapplicable for the others, C85_schema for the result of the schema. The texts of messages are not fixed."
 },
 "C86": {
  "status": "partial",
  "note": "False as stated: C86_absolute, C86_query, C86_beside and C86_elsewhere are witnesses. C86_local_partial and C86_remote_partial exclude them: no query, and a remainder that does not begin with a slash, is not empty if there is a suffix, and (remote) has no colon in its first segment; the base URL ends with a slash. C86_local_exact and C86_remote_exact say which file is read and which URL is fetched for every URI."
 },
 "C87": {
  "status": "proved",
  "note": "Spec/OutputUnits. C87_reached ties the list of results to the relation Along. The detailed and hierarchical formats are the subject of C60."
 },
 "C88": {
  "status": "partial",
  "note": "Annotations: proved for both dialects. Errors: proved for 2020-12 (C88_2020), and for 2019-09 if the schema of items is an array or a boolean (PlainItems); false otherwise for 2019-09 (C88_spurious: items evaluates every item on one result, so after a failure unevaluatedProperties in a later item sees nothing evaluated). Validity in the specification is the observed meaning (C30_observed), tied to the verdict by C88_verdict."
 },
 "C89": {
  "status": "proved",
  "note": "For C89_versions the metaschema files are assumed to have a $schema and to name the URI they are created with (SoundPackage), and the construction of metaschemas is modelled as for C69."
 },
 "C90": {
  "status": "proved",
  "note": "The metaschema is any document of the forms of C83, constructed in the cache __meta__; numbers and formats as in C84."
 },
 "C91": {
  "status": "proved",
  "note": "Whatever the encoding (stateless, with decoding that undoes encoding) and the line ends are; C91_failed: what the file had is lost if the encoding lacks a character."
 },
 "C92": {
  "status": "proved",
  "note": "calls on schemas themselves; C93 is about edits inside the values of keywords"
 },
 "C93": {
  "status": "proved",
  "note": "for edits after which the document has the form of DocForm; edits of arrays and objects of subschemas, and of keywords that keep more than their value, are not modelled"
 },
 "C94": {
  "status": "proved",
  "note": "C94_decodes and C94_pointer: parse_uri_fragment against an inductive specification of percent-encoded text; C94_encodes: exactly what uri_fragment writes. Octets that are not UTF-8 (urllib replaces them) are not in the specification."
 },
 "C95": {
  "status": "proved",
  "note": "CPython's repr of strings, numbers, lists and dicts is modelled from its sources; which characters outside ASCII are printable is a parameter. The literals read back (C95_string, C95_unique) are a part of Python's: no prefixes, triple quotes, octal or named escapes. Floats as in C74 (FloatOk). URIs by Model/Rfc3986."
 },
 "C96": {
  "status": "proved",
  "note": "converse of C59; the class of a keyword is that of some metaschema of the catalog; the witnesses are on the toy catalog"
 },
 "C97": {
  "status": "proved",
  "note": "C97_evaluate assumes, like C92, that the names of dynamic anchors that references look up during evaluation are no JSON pointers. Additions and deletions of indices that are not negative may have come before (PutHistory); C98_in_turn is a concrete case."
 },
 "C98": {
  "status": "proved",
  "note": "append to, insertion into and assignment to an item of an array of subschemas, and assignment to a member of an object of subschemas, after any such additions and deletions (of indices that are not negative): C98_evaluate (evaluation with the added subschema), C98_value, C98_keys, C98_refused, C98_unresolved; C98_noticed, C98_noticed_at and C98_in_turn are concrete cases that meet the hypotheses."
 },
 "C99": {
  "status": "proved",
  "note": "C99_uri, C99_caches, C99_found, C99_base, C99_kept, C99_evaluate. Side effects that one might not expect: C99_evicts, C99_anchor_stays, C99_dynamic."
 }
}