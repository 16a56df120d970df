{
 "claims": [
  {
   "property": "C01",
   "status": "proved",
   "theorems": [
    "Jschon.C01_roundtrip",
    "Jschon.C01_str_injective"
   ],
   "note": ""
  },
  {
   "property": "C02",
   "status": "proved",
   "theorems": [
    "Jschon.C02_accepts_iff_grammar",
    "Jschon.C02_rejects_malformed",
    "Jschon.C02_text_kept",
    "Jschon.C02_keys_decoded"
   ],
   "note": "regex modelled by derivatives and proved against its denotation"
  },
  {
   "property": "C03",
   "status": "proved",
   "theorems": [
    "Jschon.C03_unescape_escape",
    "Jschon.C03_escape_is_token",
    "Jschon.C03_escape_no_slash",
    "Jschon.C03_token_tilde",
    "Jschon.C03_escape_injective"
   ],
   "note": ""
  },
  {
   "property": "C04",
   "status": "proved",
   "theorems": [
    "Jschon.C04_fragment_roundtrip",
    "Jschon.C04_fragment_chars",
    "Jschon.C04_fragment_injective",
    "Jschon.C04_parse_fragment_errors"
   ],
   "note": "urllib quote/unquote and the UTF-8 codec are modelled concretely; strings are sequences of Unicode scalar values (no lone surrogates)"
  },
  {
   "property": "C05",
   "status": "proved",
   "theorems": [
    "Jschon.C05_new_concat",
    "Jschon.C05_div_key",
    "Jschon.C05_div_keys",
    "Jschon.C05_div_assoc",
    "Jschon.C05_slice_join",
    "Jschon.C05_len_div",
    "Jschon.C05_slice_items",
    "Jschon.C05_slice_bounds",
    "Jschon.C05_item"
   ],
   "note": "arguments of wrong Python types (TypeError) are not modelled"
  },
  {
   "property": "C06",
   "status": "proved",
   "theorems": [
    "Jschon.C06_le_iff",
    "Jschon.C06_eq_iff",
    "Jschon.C06_le_refl",
    "Jschon.C06_le_trans",
    "Jschon.C06_le_antisymm",
    "Jschon.C06_lt_iff",
    "Jschon.C06_hash"
   ],
   "note": "hash is a parameter function of the key tuple"
  },
  {
   "property": "C07",
   "status": "proved",
   "theorems": [
    "Jschon.C07_evaluate_iff",
    "Jschon.C07_only_reference_error",
    "Jschon.C07_undesignated",
    "Jschon.C07_designates_unique",
    "Jschon.C07_evaluate_div"
   ],
   "note": "plain dict/list/scalar documents"
  },
  {
   "property": "C08",
   "status": "partial",
   "theorems": [
    "Jschon.C08_plain_success",
    "Jschon.C08_agree_partial",
    "Jschon.C08_below",
    "Jschon.C08_negative_index",
    "Jschon.C08_spelled_index",
    "Jschon.C08_leaks_value_error",
    "Jschon.C08_exact"
   ],
   "note": "false as stated: JSON evaluation accepts negative and odd int() spellings and leaks ValueError (witness theorems); success of plain evaluation carries over in full, agreement both ways proved for canonical index tokens; C08_exact says exactly what evaluation does with any tokens (Spec.Walks, with int() specified in Spec/IntText)"
  },
  {
   "property": "C09",
   "status": "proved",
   "theorems": [
    "Jschon.C09_path_finds_node",
    "Jschon.C09_path_finds_value"
   ],
   "note": "histories with in-range indices as stated"
  },
  {
   "property": "C10",
   "status": "proved",
   "theorems": [
    "Jschon.C10_accepts_iff_grammar",
    "Jschon.C10_rejects_malformed",
    "Jschon.C10_text_kept",
    "Jschon.C10_roundtrip",
    "Jschon.C10_fields",
    "Jschon.C10_eq_iff",
    "Jschon.C10_hash"
   ],
   "note": "groups of the regex match are any matching cut, proved unique; up >= 0 is needed because keyword arguments are not validated"
  },
  {
   "property": "C11",
   "status": "partial",
   "theorems": [
    "Jschon.C11_evaluates",
    "Jschon.C11_impossible_partial",
    "Jschon.C11_hash",
    "Jschon.C11_leaks_value_error",
    "Jschon.C11_no_start",
    "Jschon.C11_exact"
   ],
   "note": "false as stated: ValueError leaks (witness C11_leaks_value_error); successful evaluation proved in full, impossible steps proved when the remaining pointer has canonical index tokens; C11_exact and C11_no_start say exactly what evaluation does with any tokens"
  },
  {
   "property": "C12",
   "status": "proved",
   "theorems": [
    "Jschon.C12_value",
    "Jschon.C12_new",
    "Jschon.C12_type",
    "Jschon.C12_len",
    "Jschon.C12_bool",
    "Jschon.C12_keys",
    "Jschon.C12_children"
   ],
   "note": "type, len, bool, keys and children proved at all times, not only after construction"
  },
  {
   "property": "C13",
   "status": "partial",
   "theorems": [
    "Jschon.C13_parent",
    "Jschon.C13_positions_partial",
    "Jschon.C13_pop_breaks_key",
    "Jschon.C13_set_negative",
    "Jschon.C13_insert_beyond",
    "Jschon.C13_pop_breaks_path",
    "Jschon.C13_labelled",
    "Jschon.C13_del_exact",
    "Jschon.C13_insert_exact",
    "Jschon.C13_set_exact",
    "Jschon.C13_del_in_step",
    "Jschon.C13_insert_in_step",
    "Jschon.C13_set_in_step"
   ],
   "note": "false as stated: pop(), negative assignment and insertion beyond the end leave wrong keys (witness theorems); proved for in-range histories, parents in full; C13_del_exact, C13_insert_exact and C13_set_exact say what each edit makes of the keys after any calls, and C13_del_in_step, C13_insert_in_step and C13_set_in_step exactly which edits keep them right"
  },
  {
   "property": "C14",
   "status": "proved",
   "theorems": [
    "Jschon.C14_value_current",
    "Jschon.C14_reads_are_silent"
   ],
   "note": "any history, any indices; aliasing of the list object returned by the cached property is not modelled"
  },
  {
   "property": "C15",
   "status": "proved",
   "theorems": [
    "Jschon.C15_setitem_array",
    "Jschon.C15_delitem_array",
    "Jschon.C15_insert",
    "Jschon.C15_setitem_object",
    "Jschon.C15_delitem_object",
    "Jschon.C15_elsewhere"
   ],
   "note": "all integer indices, including negative and out-of-range ones"
  },
  {
   "property": "C16",
   "status": "proved",
   "theorems": [
    "Jschon.C16_setitem_object",
    "Jschon.C16_setitem_array",
    "Jschon.C16_insert",
    "Jschon.C16_stay_apart",
    "Jschon.C16_independent"
   ],
   "note": "when the copy is not stored inside its own source"
  },
  {
   "property": "C17",
   "status": "partial",
   "theorems": [
    "Jschon.C17_add",
    "Jschon.C17_remove_partial",
    "Jschon.C17_replace_partial",
    "Jschon.C17_remove_after_pop",
    "Jschon.C17_add_fails",
    "Jschon.C17_remove_fails",
    "Jschon.C17_replace_fails",
    "Jschon.C17_remove_exact",
    "Jschon.C17_replace_exact",
    "Jschon.C17_exact_total",
    "Jschon.C17_remove_loose"
   ],
   "note": "false after edits that break positions (witnesses C17_remove_after_pop, C17_remove_loose); add proved in full, remove and replace for in-range histories, failure without effect in full; C17_remove_exact and C17_replace_exact say what remove and replace do after any edits"
  },
  {
   "property": "C18",
   "status": "proved",
   "theorems": [
    "Jschon.C18_refl",
    "Jschon.C18_symm",
    "Jschon.C18_trans",
    "Jschon.C18_ne"
   ],
   "note": "documents with distinct object keys (Value.WF), as Python dicts have"
  },
  {
   "property": "C19",
   "status": "proved",
   "theorems": [
    "Jschon.C19_eq_iff_data_model",
    "Jschon.C19_types_differ",
    "Jschon.C19_member_order"
   ],
   "note": "documents with distinct object keys (Value.WF)"
  },
  {
   "property": "C20",
   "status": "partial",
   "theorems": [
    "Jschon.C20_add_exact",
    "Jschon.C20_add_complete",
    "Jschon.C20_add_sound_partial",
    "Jschon.C20_add_object",
    "Jschon.C20_add_then_evaluate",
    "Jschon.C20_nonRfc_index_accepted"
   ],
   "note": "false as stated: the last token may be any int() spelling such as 01 (witness C20_nonRfc_index_accepted); exact behaviour (with the spellings specified in Spec/IntText), RFC completeness, and soundness for canonical indices proved"
  },
  {
   "property": "C21",
   "status": "partial",
   "theorems": [
    "Jschon.C21_remove_exact",
    "Jschon.C21_replace_exact",
    "Jschon.C21_remove_complete",
    "Jschon.C21_replace_complete",
    "Jschon.C21_remove_sound_partial",
    "Jschon.C21_replace_sound_partial",
    "Jschon.C21_remove_missing",
    "Jschon.C21_replace_missing",
    "Jschon.C21_nonRfc_index_accepted"
   ],
   "note": "false as stated for the same reason (witness C21_nonRfc_index_accepted); exact behaviour, completeness, soundness for canonical indices and the error cases proved"
  },
  {
   "property": "C22",
   "status": "partial",
   "theorems": [
    "Jschon.C22_copy_exact",
    "Jschon.C22_copy_complete",
    "Jschon.C22_move_exact",
    "Jschon.C22_move_complete",
    "Jschon.C22_move_sound_partial",
    "Jschon.C22_move_into_itself_object",
    "Jschon.C22_move_into_itself_accepted",
    "Jschon.C22_test_exact"
   ],
   "note": "false as stated: a move of an array item into itself is accepted (witness C22_move_into_itself_accepted); exact behaviour of move, copy and test proved"
  },
  {
   "property": "C23",
   "status": "proved",
   "theorems": [
    "Jschon.C23_inputs_unchanged",
    "Jschon.C23_result_fresh",
    "Jschon.C23_result_unreachable"
   ],
   "note": "arbitrary heaps with sharing and cycles; deepcopy modelled as copying the whole heap at an offset"
  },
  {
   "property": "C24",
   "status": "proved",
   "theorems": [
    "Jschon.C24_append",
    "Jschon.C24_first_failure",
    "Jschon.C24_values_describe_objects",
    "Jschon.C24_operation_describes_objects",
    "Jschon.C24_shared_objects",
    "Jschon.C24_repeatable"
   ],
   "note": "sequencing on values; repeatability and agreement of the two models on the heap, for documents without shared lists or dicts (needed: C24_shared_objects)"
  },
  {
   "property": "C25",
   "status": "partial",
   "theorems": [
    "Jschon.C25_move_exact",
    "Jschon.C25_add",
    "Jschon.C25_replace",
    "Jschon.C25_remove",
    "Jschon.C25_copy",
    "Jschon.C25_test",
    "Jschon.C25_move_partial",
    "Jschon.C25_move_loses_value"
   ],
   "note": "false for move, whose failing addition comes after the removal (witness C25_move_loses_value); proved for the other five operations; C25_move_exact says what a failed move leaves"
  },
  {
   "property": "C26",
   "status": "partial",
   "theorems": [
    "Jschon.C26_add_partial",
    "Jschon.C26_remove_partial",
    "Jschon.C26_replace_partial",
    "Jschon.C26_copy_partial",
    "Jschon.C26_move_partial",
    "Jschon.C26_test_partial",
    "Jschon.C26_other_exceptions",
    "Jschon.C26_add_exact",
    "Jschon.C26_remove_exact",
    "Jschon.C26_replace_exact",
    "Jschon.C26_copy_exact",
    "Jschon.C26_move_exact",
    "Jschon.C26_test_exact",
    "Jschon.C26_apply_exact"
   ],
   "note": "false as stated: scalar parents give AttributeError, TypeError or AssertionError (witness C26_other_exceptions); proved when the parent is an object or array; C26_add_exact, C26_remove_exact, C26_replace_exact, C26_copy_exact, C26_move_exact, C26_test_exact and C26_apply_exact say exactly when each operation raises, and what"
  },
  {
   "property": "C27",
   "status": "proved",
   "theorems": [
    "Jschon.C27_add_remove",
    "Jschon.C27_replace_same",
    "Jschon.C27_replace_undo"
   ],
   "note": ""
  },
  {
   "property": "C28",
   "status": "proved",
   "theorems": [
    "Jschon.C28_op_roundtrip",
    "Jschon.C28_op_roundtrip_eq",
    "Jschon.C28_op_eq_iff",
    "Jschon.C28_patch_roundtrip",
    "Jschon.C28_extra_value_lost"
   ],
   "note": "members of wrong Python types are not modelled"
  },
  {
   "property": "C29",
   "status": "proved",
   "theorems": [
    "Jschon.C29_order",
    "Jschon.C29_custom",
    "Jschon.C29_cycle"
   ],
   "note": "Shipped vocabularies and any acyclic custom vocabulary; C29_cycle shows that a cyclic depends_on never terminates."
  },
  {
   "property": "C30",
   "status": "partial",
   "theorems": [
    "Jschon.C30_verdict_partial",
    "Jschon.C30_observed",
    "Jschon.C30_not_leak"
   ],
   "note": "verdict equals the specification's for Faithful schemas; otherwise characterised by the observed meaning"
  },
  {
   "property": "C31",
   "status": "proved",
   "theorems": [
    "Jschon.C31_allOf",
    "Jschon.C31_anyOf",
    "Jschon.C31_oneOf",
    "Jschon.C31_not",
    "Jschon.C31_if",
    "Jschon.C31_if_then",
    "Jschon.C31_if_else",
    "Jschon.C31_no_if",
    "Jschon.C31_ref"
   ],
   "note": "verdicts of allOf, anyOf, oneOf, not, if/then/else, $ref from the verdicts of the subschemas, whenever evaluation ends"
  },
  {
   "property": "C32",
   "status": "proved",
   "theorems": [
    "Jschon.C32_properties",
    "Jschon.C32_patternProperties",
    "Jschon.C32_object",
    "Jschon.C32_additionalProperties",
    "Jschon.C32_propertyNames",
    "Jschon.C32_dependentSchemas"
   ],
   "note": "each object applicator and the three together; dependentSchemas; propertyNames"
  },
  {
   "property": "C33",
   "status": "proved",
   "theorems": [
    "Jschon.C33_items",
    "Jschon.C33_prefixItems",
    "Jschon.C33_contains_between",
    "Jschon.C33_contains",
    "Jschon.C33_minContains",
    "Jschon.C33_maxContains",
    "Jschon.C33_no_contains"
   ],
   "note": "prefixItems/items division; contains with each combination of bounds"
  },
  {
   "property": "C34",
   "status": "partial",
   "theorems": [
    "Jschon.C34_unevaluated_partial",
    "Jschon.C34_adjacent",
    "Jschon.C34_not_leak"
   ],
   "note": "holds for Faithful schemas; false in general, witness C34_not_leak"
  },
  {
   "property": "C35",
   "status": "proved",
   "theorems": [
    "Jschon.C35_assertions"
   ],
   "note": "all assertion keywords except multipleOf, which is C41"
  },
  {
   "property": "C36",
   "status": "proved",
   "theorems": [
    "Jschon.C36_order"
   ],
   "note": "for every pair of stores that differ in keyword order; when both evaluations end"
  },
  {
   "property": "C37",
   "status": "proved",
   "theorems": [
    "Jschon.C37_neutral",
    "Jschon.C37_format"
   ],
   "note": "any difference in Neutral keywords; format asserts iff enabled"
  },
  {
   "property": "C38",
   "status": "proved",
   "theorems": [
    "Jschon.C38_other_types"
   ],
   "note": "all keywords that constrain one type"
  },
  {
   "property": "C39",
   "status": "proved",
   "theorems": [
    "Jschon.C39_true",
    "Jschon.C39_empty",
    "Jschon.C39_false"
   ],
   "note": ""
  },
  {
   "property": "C40",
   "status": "proved",
   "theorems": [
    "Jschon.C40_deterministic",
    "Jschon.C40_terminates",
    "Jschon.C40_no_references",
    "Jschon.C40_endless"
   ],
   "note": "termination under a rank condition implied by the absence of references; determinism for all schemas; endless for {$ref: #}"
  },
  {
   "property": "C41",
   "status": "partial",
   "theorems": [
    "Jschon.C41_exact",
    "Jschon.C41_multipleOf_partial",
    "Jschon.C41_large_quotient"
   ],
   "note": "exact characterisation; false for quotients of more than 28 digits, witness C41_large_quotient"
  },
  {
   "property": "C42",
   "status": "proved",
   "theorems": [
    "Jschon.C42_uniqueItems"
   ],
   "note": ""
  },
  {
   "property": "C43",
   "status": "proved",
   "theorems": [
    "Jschon.C43_errors",
    "Jschon.C43_no_errors",
    "Jschon.C43_basic"
   ],
   "note": "for every schema store, instance and fuel; no hypothesis on the schema"
  },
  {
   "property": "C44",
   "status": "proved",
   "theorems": [
    "Jschon.C44_flag",
    "Jschon.C44_basic_valid",
    "Jschon.C44_detailed",
    "Jschon.C44_verbose_valid",
    "Jschon.C44_hierarchical",
    "Jschon.C44_basic_units",
    "Jschon.C44_basic_collects",
    "Jschon.C44_verbose_units"
   ],
   "note": "all formats; basic output also shown equal to collect_errors / collect_annotations; verbose output node by node"
  },
  {
   "property": "C45",
   "status": "partial",
   "theorems": [
    "Jschon.C45_annotations_partial",
    "Jschon.C45_invalid",
    "Jschon.C45_not_leak",
    "Jschon.C45_contains_leak"
   ],
   "note": "proved for the tree: every ancestor result is valid. The claim about subschemas is false for not and contains, which reset a result to valid after a failure (witnesses)"
  },
  {
   "property": "C46",
   "status": "proved",
   "theorems": [
    "Jschon.C46_instance_location",
    "Jschon.C46_keyword_location"
   ],
   "note": "instance location designates in the document, or a member name (propertyNames); keyword location extends that of the parent"
  },
  {
   "property": "C47",
   "status": "proved",
   "theorems": [
    "Jschon.C47_chosen_unique",
    "Jschon.C47_chosen_exists",
    "Jschon.C47_longest_prefix",
    "Jschon.C47_bad_uri",
    "Jschon.C47_loads_unique",
    "Jschon.C47_reregister",
    "Jschon.C47_order_independent"
   ],
   "note": "Sources are functions; rfc3986 is a parameter (UriLib). A failing source is reported as CatalogError."
  },
  {
   "property": "C48",
   "status": "proved",
   "theorems": [
    "Jschon.C48_last_added",
    "Jschon.C48_isolated",
    "Jschon.C48_other_uri"
   ],
   "note": "For the cache lookups; the loading path of get_schema is in C50/C51."
  },
  {
   "property": "C49",
   "status": "partial",
   "theorems": [
    "Jschon.C49_exit",
    "Jschon.C49_refused_partial",
    "Jschon.C49_nested_same_id",
    "Jschon.C49_restores"
   ],
   "note": "All but refusal inside a block of the same identifier in which nothing was added yet, which is false (C49_nested_same_id)."
  },
  {
   "property": "C50",
   "status": "partial",
   "theorems": [
    "Jschon.C50_again_partial",
    "Jschon.C50_no_document",
    "Jschon.C50_stale"
   ],
   "note": "False as stated: C50_stale (a document whose reference cannot be resolved raises, and is returned by the next call). C50_again_partial: a call that raises without having begun to construct raises again. For get_metaschema and create_metaschema see C69."
  },
  {
   "property": "C51",
   "status": "partial",
   "theorems": [
    "Jschon.C51_canonical_partial",
    "Jschon.C51_exists",
    "Jschon.C51_duplicate_id",
    "Jschon.C51_slash_anchor",
    "Jschon.C51_empty_fragment"
   ],
   "note": "Proved for all histories when no two schemas of the cache share a URI, no schema above has a URI with a fragment and no anchor begins with a slash. Without each of these the claim is false of the code: C51_duplicate_id, C51_slash_anchor, C51_empty_fragment are witnesses."
  },
  {
   "property": "C52",
   "status": "partial",
   "theorems": [
    "Jschon.C52_dynamicRef_partial",
    "Jschon.C52_static",
    "Jschon.C52_recursiveRef",
    "Jschon.C52_unique",
    "Jschon.C52_reentry"
   ],
   "note": "$recursiveRef proved; $dynamicRef when the scope does not return to a resource; false otherwise, witness C52_reentry"
  },
  {
   "property": "C53",
   "status": "partial",
   "theorems": [
    "Jschon.C53_items",
    "Jschon.C53_additionalItems_partial",
    "Jschon.C53_additionalItems_ignored",
    "Jschon.C53_unevaluatedItems",
    "Jschon.C53_items_true",
    "Jschon.C53_empty_items"
   ],
   "note": "proved keyword by keyword; false for items: true with unevaluatedItems and for items: [], witnesses"
  },
  {
   "property": "C54",
   "status": "partial",
   "theorems": [
    "Jschon.C54_kept_partial",
    "Jschon.C54_unknown_partial",
    "Jschon.C54_empty_name",
    "Jschon.C54_nul_name",
    "Jschon.C54_refused"
   ],
   "note": "False as stated: the empty name raises IndexError (C54_empty_name) and a name with a null character raises ValueError (C54_nul_name). C54_unknown_partial: all other unknown names construct, with any value, and are kept, under every metaschema. C54_kept_partial: in documents of 2019-09 and 2020-12 (DocForm) they are instances of the unknown-keyword class and annotate. The metaschema may be any with the keyword classes of the dialect (OfDialect): the shipped one, next, or a user's with the shipped vocabularies (C68_of_dialect_*). C54_refused: the excepted names are refused in every schema of every document."
  },
  {
   "property": "C55",
   "status": "proved",
   "theorems": [
    "Jschon.C55_value",
    "Jschon.C55_named"
   ],
   "note": "For every environment that satisfies CEnvOk and every history; the model of construction leaves out metaschema construction."
  },
  {
   "property": "C56",
   "status": "proved",
   "theorems": [
    "Jschon.C56_resolved"
   ],
   "note": "For every reference keyword of every schema below the root. Which schema it is, is not part of this claim."
  },
  {
   "property": "C57",
   "status": "proved",
   "theorems": [
    "Jschon.C57_new",
    "Jschon.C57_get"
   ],
   "note": "Holds for calls from outside; while a document is being resolved, a document that it loads may refer back to it."
  },
  {
   "property": "C58",
   "status": "proved",
   "theorems": [
    "Jschon.C58_schema"
   ],
   "note": ""
  },
  {
   "property": "C59",
   "status": "proved",
   "theorems": [
    "Jschon.C59_constructs",
    "Jschon.C59_ordered_2020",
    "Jschon.C59_ordered_2019",
    "Jschon.C59_ordered_next",
    "Jschon.C59_local"
   ],
   "note": "C59_constructs: documents without references, any metaschema. C59_local: documents of 2019-09 or 2020-12 with embedded resources, anchors, and references, dynamic and recursive references to their own subschemas. References to other documents are the subject of C72 and C73. The metaschema may be any with the keyword classes of the dialect (OfDialect): the shipped one, next, or a user's with the shipped vocabularies (C68_of_dialect_*)."
  },
  {
   "property": "C60",
   "status": "partial",
   "theorems": [
    "Jschon.C60_detailed_units",
    "Jschon.C60_nonempty_partial",
    "Jschon.C60_false_schema",
    "Jschon.C60_hierarchical",
    "Jschon.C60_condition"
   ],
   "note": "C60_detailed_units and C60_hierarchical hold of every result tree. That an invalid instance gives a non-empty list is proved for schemas that are not booleans (C60_nonempty_partial) and false of the schema false (C60_false_schema). C60_condition: a failing if hides the error that made the instance invalid."
  },
  {
   "property": "C61",
   "status": "partial",
   "theorems": [
    "Jschon.C61_island",
    "Jschon.C61_later_partial",
    "Jschon.C61_usurped",
    "Jschon.C61_names"
   ],
   "note": "C61_later_partial: holds if no dynamic reference with dynamic scope is reachable. C61_names: holds with dynamic references too, if the URIs that they look up are cached for what they were cached for (C100_evaluate: always, for later constructions in other caches). C61_usurped: false otherwise, since a later resource with the same $id is found by dynamic lookup. C61_island: general form over stores."
  },
  {
   "property": "C62",
   "status": "partial",
   "theorems": [
    "Jschon.C62_verdict_partial",
    "Jschon.C62_not_both",
    "Jschon.C62_boolean"
   ],
   "note": "C62_verdict_partial: documents of 2019-09 or 2020-12 whose references stay within the document (DocForm: embedded resources, anchors, static, dynamic and recursive references), under DFaithful, which excludes the known disagreements (annotations of failed not/contains subschemas, C30; dynamic scopes that return to a resource, C52; items true or empty in 2019-09, C53; quotients beyond 28 digits, C41). C62_not_both: the specified verdicts exclude each other. The verdict without DFaithful is C83. The metaschema may be any with the keyword classes of the dialect (OfDialect): the shipped one, next, or a user's with the shipped vocabularies (C68_of_dialect_*). Boolean documents: C62_boolean."
  },
  {
   "property": "C63",
   "status": "proved",
   "theorems": [
    "Jschon.C63_ends",
    "Jschon.C63_no_references"
   ],
   "note": "For documents of 2019-09 or 2020-12 as described by DocForm (embedded resources, anchors, static, dynamic and recursive references within the document). The metaschema may be any with the keyword classes of the dialect (OfDialect): the shipped one, next, or a user's with the shipped vocabularies (C68_of_dialect_*)."
  },
  {
   "property": "C64",
   "status": "partial",
   "theorems": [
    "Jschon.C64_annotates",
    "Jschon.C64_null",
    "Jschon.C64_written_partial"
   ],
   "note": "C64_annotates: every schema object. C64_written_partial: starting from the document, for unknown keywords and the annotation keywords of all types in documents of 2019-09 or 2020-12 as described by DocForm. The metaschema may be any with the keyword classes of the dialect (OfDialect): the shipped one, next, or a user's with the shipped vocabularies (C68_of_dialect_*). C64_null: an annotation keyword whose value is null annotates None, which the collectors take for no annotation, so a value that is null is not collected."
  },
  {
   "property": "C65",
   "status": "proved",
   "theorems": [
    "Jschon.C65_extend",
    "Jschon.C65_extend_self",
    "Jschon.C65_extend_other",
    "Jschon.C65_reverse",
    "Jschon.C65_clear",
    "Jschon.C65_contains",
    "Jschon.C65_index",
    "Jschon.C65_count"
   ],
   "note": "Histories of C13-C17. clear uses pop(-1), after which keys of removed items are arbitrary; in/index/count are stated for arrays."
  },
  {
   "property": "C66",
   "status": "partial",
   "theorems": [
    "Jschon.C66_update_partial",
    "Jschon.C66_pop_partial",
    "Jschon.C66_popitem_partial",
    "Jschon.C66_setdefault_partial",
    "Jschon.C66_get_partial",
    "Jschon.C66_contains_partial",
    "Jschon.C66_items_partial",
    "Jschon.C66_clear_raises",
    "Jschon.C66_reverse_raises"
   ],
   "note": "Proved except for clear: C66_clear_raises shows that clear() on an object always raises KeyError, because MutableSequence.clear precedes MutableMapping.clear. popitem removes the first member (dict.popitem the last); pop(k, default) is not supported by the inherited pop."
  },
  {
   "property": "C67",
   "status": "proved",
   "theorems": [
    "Jschon.C67_decides",
    "Jschon.C67_total_order",
    "Jschon.C67_raises"
   ],
   "note": "Arrays and booleans are modelled as CPython compares them; the claim covers what is documented, numbers and strings."
  },
  {
   "property": "C68",
   "status": "proved",
   "theorems": [
    "Jschon.C68_of_dialect_2020",
    "Jschon.C68_of_dialect_2019",
    "Jschon.C68_of_dialect_next",
    "Jschon.C68_get_vocabulary",
    "Jschon.C68_core",
    "Jschon.C68_core_default",
    "Jschon.C68_listed",
    "Jschon.C68_default",
    "Jschon.C68_shipped_2020",
    "Jschon.C68_shipped_2019",
    "Jschon.C68_shipped_next"
   ],
   "note": "C68_of_dialect_2020, _2019 and _next: the metaschemas created from the shipped vocabularies are those that the theorems about documents are for."
  },
  {
   "property": "C69",
   "status": "partial",
   "theorems": [
    "Jschon.C69_cached",
    "Jschon.C69_created_partial",
    "Jschon.C69_early_failure",
    "Jschon.C69_not_object",
    "Jschon.C69_id_refused",
    "Jschon.C69_rejected_is_returned",
    "Jschon.C69_invalid_is_returned",
    "Jschon.C69_moved_is_created_again"
   ],
   "note": "False of the code: C69_rejected_is_returned, C69_invalid_is_returned (a metaschema that could not be created is returned by the next call) and C69_moved_is_created_again (a new one is created by every call if its $id is another URI). C69_created_partial proves the claim for documents that have a $schema and name no other URI, once created."
  },
  {
   "property": "C70",
   "status": "proved",
   "theorems": [
    "Jschon.C70_id",
    "Jschon.C70_no_id"
   ],
   "note": "For any history of constructions and lookups, successful or not."
  },
  {
   "property": "C71",
   "status": "proved",
   "theorems": [
    "Jschon.C71_loaded_again",
    "Jschon.C71_cached",
    "Jschon.C71_found",
    "Jschon.C71_unique"
   ],
   "note": "C71_cached and C71_found are the two directions; C71_unique adds that the schema itself is found if its name is not used twice."
  },
  {
   "property": "C72",
   "status": "partial",
   "theorems": [
    "Jschon.C72_constructs",
    "Jschon.C72_verdict_partial",
    "Jschon.C72_ends",
    "Jschon.C72_earlier"
   ],
   "note": "C72_constructs, C72_ends and C72_earlier are full, for 2019-09 and 2020-12; C72_verdict_partial is under DFaithful, as C62, and for documents as in DocForm whose root is an object. Concrete cases: Props/Suite (2020-12), Props/Suite19 (2019-09). The verdict without DFaithful is C83. The metaschema may be any with the keyword classes of the dialect (OfDialect): the shipped one, next, or a user's with the shipped vocabularies (C68_of_dialect_*). Boolean documents: C62_boolean."
  },
  {
   "property": "C73",
   "status": "partial",
   "theorems": [
    "Jschon.C73_constructs",
    "Jschon.C73_obtains",
    "Jschon.C73_verdict_partial",
    "Jschon.C73_obtained_partial",
    "Jschon.C73_ends",
    "Jschon.C73_obtained_ends",
    "Jschon.C73_kept",
    "Jschon.C73_kept_get"
   ],
   "note": "C73_constructs, C73_obtains, C73_ends, C73_obtained_ends, C73_kept and C73_kept_get are full, for 2019-09 and 2020-12; C73_verdict_partial and C73_obtained_partial are under DFaithful, as C62, and for documents as in DocForm whose root is an object. The verdict without DFaithful is C83. The metaschema may be any with the keyword classes of the dialect (OfDialect): the shipped one, next, or a user's with the shipped vocabularies (C68_of_dialect_*). Boolean documents: C62_boolean."
  },
  {
   "property": "C74",
   "status": "proved",
   "theorems": [
    "Jschon.C74_text",
    "Jschon.C74_content",
    "Jschon.C74_injective",
    "Jschon.C74_written",
    "Jschon.C74_line"
   ],
   "note": "C74_text, C74_content, C74_injective, C74_written and C74_line are full, with float conversion as a parameter (FloatOk)."
  },
  {
   "property": "C75",
   "status": "proved",
   "theorems": [
    "Jschon.C75_reads",
    "Jschon.C75_refuses",
    "Jschon.C75_unique",
    "Jschon.C75_json",
    "Jschon.C75_json_refuses",
    "Jschon.C75_constants",
    "Jschon.C75_infinity"
   ],
   "note": "C75_reads and C75_refuses are full. C75_json is for texts without infinities and lone surrogates, which Value cannot express. C75_infinity: a number too large for a float is read as an infinity."
  },
  {
   "property": "C76",
   "status": "proved",
   "theorems": [
    "Jschon.C76_roundtrip",
    "Jschon.C76_rewrite"
   ],
   "note": "C76_roundtrip and C76_rewrite are full, with float conversion as a parameter (FloatOk)."
  },
  {
   "property": "C77",
   "status": "proved",
   "theorems": [
    "Jschon.C77_constructs",
    "Jschon.C77_unregistered",
    "Jschon.C77_verdict",
    "Jschon.C77_json_pointer",
    "Jschon.C77_catalogs",
    "Jschon.C77_overwritten",
    "Jschon.C77_construct_model",
    "Jschon.C77_verdict_model"
   ],
   "note": "C77_overwritten: a validator for a supplied format that is registered before the first enable_formats is replaced by the supplied one when that imports the module."
  },
  {
   "property": "C78",
   "status": "proved",
   "theorems": [
    "Jschon.C78_congruence",
    "Jschon.C78_wf",
    "Jschon.C78_equivalence",
    "Jschon.C78_equal"
   ],
   "note": ""
  },
  {
   "property": "C79",
   "status": "proved",
   "theorems": [
    "Jschon.C79_split",
    "Jschon.C79_slice",
    "Jschon.C79_item",
    "Jschon.C79_set",
    "Jschon.C79_del",
    "Jschon.C79_insert",
    "Jschon.C79_fails"
   ],
   "note": "slices with a step are not modelled"
  },
  {
   "property": "C80",
   "status": "proved",
   "theorems": [
    "Jschon.C80_dots",
    "Jschon.C80_resolves",
    "Jschon.C80_text",
    "Jschon.C80_components",
    "Jschon.C80_absolute",
    "Jschon.C80_relative",
    "Jschon.C80_id",
    "Jschon.C80_construction",
    "Jschon.C80_documents",
    "Jschon.C80_valid",
    "Jschon.C80_normal",
    "Jschon.C80_resolve",
    "Jschon.C80_unnormalized"
   ],
   "note": "The URI library is modelled by RFC 3986, as the package rfc3986 is not in the repository; IP literals and ports are not checked in detail by the model's validity test."
  },
  {
   "property": "C81",
   "status": "partial",
   "theorems": [
    "Jschon.C81_found",
    "Jschon.C81_only",
    "Jschon.C81_path",
    "Jschon.C81_uri_partial",
    "Jschon.C81_schema_partial",
    "Jschon.C81_reference_partial",
    "Jschon.C81_exists",
    "Jschon.C81_atSchema",
    "Jschon.C81_hierarchical",
    "Jschon.C81_basic",
    "Jschon.C81_keys",
    "Jschon.C81_length"
   ],
   "note": "schema_node is unconditional; absolute_uri assumes, as C51, that URIs of schemas differ and have no fragments (C51_duplicate_id and C51_empty_fragment show why), and that the node's schema is in a parentless document"
  },
  {
   "property": "C82",
   "status": "proved",
   "theorems": [
    "Jschon.C82_parent",
    "Jschon.C82_document",
    "Jschon.C82_resource",
    "Jschon.C82_resource_unique",
    "Jschon.C82_base",
    "Jschon.C82_canonical"
   ],
   "note": "values of $id are strings (others are not modelled); a URI with a fragment is excluded from the statement on canonical URIs"
  },
  {
   "property": "C83",
   "status": "proved",
   "theorems": [
    "Jschon.C83_document",
    "Jschon.C83_suite",
    "Jschon.C83_shelf",
    "Jschon.C83_obtained",
    "Jschon.C83_differs"
   ],
   "note": "Documents as in DocForm, of 2019-09 or 2020-12; roots that are objects for C83_suite, C83_shelf and C83_obtained. Spec/DocObserved spells out the deviations; C83_differs is a document without references on which code and specification differ. The metaschema may be any with the keyword classes of the dialect (OfDialect): the shipped one, next, or a user's with the shipped vocabularies (C68_of_dialect_*)."
  },
  {
   "property": "C84",
   "status": "proved",
   "theorems": [
    "Jschon.C84_equal",
    "Jschon.C84_constructs",
    "Jschon.C84_document",
    "Jschon.C84_suite",
    "Jschon.C84_shelf",
    "Jschon.C84_written"
   ],
   "note": "C84_equal: equal values are twins if whole floats are written exactly; C84_written shows why that is demanded. C84_constructs and C84_document for one document, C84_suite and C84_shelf for several. The metaschema may be any with the keyword classes of the dialect (OfDialect): the shipped one, next, or a user's with the shipped vocabularies (C68_of_dialect_*)."
  },
  {
   "property": "C85",
   "status": "proved",
   "theorems": [
    "Jschon.C85_keyword",
    "Jschon.C85_inapplicable",
    "Jschon.C85_schema"
   ],
   "note": "C85_keyword for keywords that apply, C85_inapplicable for the others, C85_schema for the result of the schema. The texts of messages are not fixed."
  },
  {
   "property": "C86",
   "status": "partial",
   "theorems": [
    "Jschon.C86_local_partial",
    "Jschon.C86_local_exact",
    "Jschon.C86_absolute",
    "Jschon.C86_query",
    "Jschon.C86_beside",
    "Jschon.C86_remote_partial",
    "Jschon.C86_remote_exact",
    "Jschon.C86_elsewhere"
   ],
   "note": "False as stated: C86_absolute, C86_query, C86_beside and C86_elsewhere are witnesses. C86_local_partial and C86_remote_partial exclude them: no query, and a remainder that does not begin with a slash, is not empty if there is a suffix, and (remote) has no colon in its first segment; the base URL ends with a slash. C86_local_exact and C86_remote_exact say which file is read and which URL is fetched for every URI."
  },
  {
   "property": "C87",
   "status": "proved",
   "theorems": [
    "Jschon.C87_reached",
    "Jschon.C87_annotations",
    "Jschon.C87_errors",
    "Jschon.C87_basic",
    "Jschon.C87_verbose",
    "Jschon.C87_text",
    "Jschon.C87_registered",
    "Jschon.C87_shipped"
   ],
   "note": "Spec/OutputUnits. C87_reached ties the list of results to the relation Along. The detailed and hierarchical formats are the subject of C60."
  },
  {
   "property": "C88",
   "status": "partial",
   "theorems": [
    "Jschon.C88_verdict",
    "Jschon.C88_valid_results",
    "Jschon.C88_annotations",
    "Jschon.C88_invalid_results_partial",
    "Jschon.C88_errors_partial",
    "Jschon.C88_2020",
    "Jschon.C88_other",
    "Jschon.C88_spurious"
   ],
   "note": "Annotations: proved for both dialects. Errors: proved for 2020-12 (C88_2020), and for 2019-09 if the schema of items is an array or a boolean (PlainItems); false otherwise for 2019-09 (C88_spurious: items evaluates every item on one result, so after a failure unevaluatedProperties in a later item sees nothing evaluated). Validity in the specification is the observed meaning (C30_observed), tied to the verdict by C88_verdict."
  },
  {
   "property": "C89",
   "status": "proved",
   "theorems": [
    "Jschon.C89_get",
    "Jschon.C89_new",
    "Jschon.C89_create",
    "Jschon.C89_unknown_version",
    "Jschon.C89_no_key_error",
    "Jschon.C89_left_behind",
    "Jschon.C89_versions"
   ],
   "note": "For C89_versions the metaschema files are assumed to have a $schema and to name the URI they are created with (SoundPackage), and the construction of metaschemas is modelled as for C69."
  },
  {
   "property": "C90",
   "status": "proved",
   "theorems": [
    "Jschon.C90_metaschema",
    "Jschon.C90_none",
    "Jschon.C90_verdict",
    "Jschon.C90_document",
    "Jschon.C90_ends"
   ],
   "note": "The metaschema is any document of the forms of C83, constructed in the cache __meta__; numbers and formats as in C84."
  },
  {
   "property": "C91",
   "status": "proved",
   "theorems": [
    "Jschon.C91_newlines",
    "Jschon.C91_loadf",
    "Jschon.C91_unreadable",
    "Jschon.C91_dumpf",
    "Jschon.C91_roundtrip",
    "Jschon.C91_failed",
    "Jschon.C91_denied"
   ],
   "note": "Whatever the encoding (stateless, with decoding that undoes encoding) and the line ends are; C91_failed: what the file had is lost if the encoding lacks a character."
  },
  {
   "property": "C92",
   "status": "proved",
   "theorems": [
    "Jschon.C92_refused",
    "Jschon.C92_members",
    "Jschon.C92_missing",
    "Jschon.C92_keywords",
    "Jschon.C92_evaluate",
    "Jschon.C92_ignored",
    "Jschon.C92_all",
    "Jschon.C92_unedited",
    "Jschon.C92_anchor_noticed"
   ],
   "note": "calls on schemas themselves; C93 is about edits inside the values of keywords"
  },
  {
   "property": "C93",
   "status": "proved",
   "theorems": [
    "Jschon.C93_keywords",
    "Jschon.C93_members",
    "Jschon.C93_value",
    "Jschon.C93_elsewhere",
    "Jschon.C93_all_seen",
    "Jschon.C93_document",
    "Jschon.C93_verdict",
    "Jschon.C93_ends",
    "Jschon.C93_as_new"
   ],
   "note": "for edits after which the document has the form of DocForm; edits of arrays and objects of subschemas, and of keywords that keep more than their value, are not modelled"
  },
  {
   "property": "C94",
   "status": "proved",
   "theorems": [
    "Jschon.C94_decodes",
    "Jschon.C94_pointer",
    "Jschon.C94_encodes"
   ],
   "note": "C94_decodes and C94_pointer: parse_uri_fragment against an inductive specification of percent-encoded text; C94_encodes: exactly what uri_fragment writes. Octets that are not UTF-8 (urllib replaces them) are not in the specification."
  },
  {
   "property": "C95",
   "status": "proved",
   "theorems": [
    "Jschon.C95_pointer",
    "Jschon.C95_relative",
    "Jschon.C95_uri",
    "Jschon.C95_instance",
    "Jschon.C95_injective",
    "Jschon.C95_operation",
    "Jschon.C95_patch",
    "Jschon.C95_string",
    "Jschon.C95_unique",
    "Jschon.C95_quotes"
   ],
   "note": "CPython's repr of strings, numbers, lists and dicts is modelled from its sources; which characters outside ASCII are printable is a parameter. The literals read back (C95_string, C95_unique) are a part of Python's: no prefixes, triple quotes, octal or named escapes. Floats as in C74 (FloatOk). URIs by Model/Rfc3986."
  },
  {
   "property": "C96",
   "status": "proved",
   "theorems": [
    "Jschon.C96_formed",
    "Jschon.C96_loaded",
    "Jschon.C96_kinds",
    "Jschon.C96_within",
    "Jschon.C96_not_implemented",
    "Jschon.C96_type_error",
    "Jschon.C96_uri_error",
    "Jschon.C96_dynamic_boolean",
    "Jschon.C96_text_accepted"
   ],
   "note": "converse of C59; the class of a keyword is that of some metaschema of the catalog; the witnesses are on the toy catalog"
  },
  {
   "property": "C97",
   "status": "proved",
   "theorems": [
    "Jschon.C97_evaluate",
    "Jschon.C97_schemas",
    "Jschon.C97_value",
    "Jschon.C97_noticed"
   ],
   "note": "C97_evaluate assumes, like C92, that the names of dynamic anchors that references look up during evaluation are no JSON pointers. Additions and deletions of indices that are not negative may have come before (PutHistory); C98_in_turn is a concrete case."
  },
  {
   "property": "C98",
   "status": "proved",
   "theorems": [
    "Jschon.C98_evaluate",
    "Jschon.C98_value",
    "Jschon.C98_keys",
    "Jschon.C98_refused",
    "Jschon.C98_unresolved",
    "Jschon.C98_noticed",
    "Jschon.C98_noticed_at",
    "Jschon.C98_in_turn"
   ],
   "note": "append to, insertion into and assignment to an item of an array of subschemas, and assignment to a member of an object of subschemas, after any such additions and deletions (of indices that are not negative): C98_evaluate (evaluation with the added subschema), C98_value, C98_keys, C98_refused, C98_unresolved; C98_noticed, C98_noticed_at and C98_in_turn are concrete cases that meet the hypotheses."
  },
  {
   "property": "C99",
   "status": "proved",
   "theorems": [
    "Jschon.C99_kept",
    "Jschon.C99_evaluate",
    "Jschon.C99_uri",
    "Jschon.C99_caches",
    "Jschon.C99_base",
    "Jschon.C99_found",
    "Jschon.C99_evicts",
    "Jschon.C99_anchor_stays",
    "Jschon.C99_dynamic"
   ],
   "note": "C99_uri, C99_caches, C99_found, C99_base, C99_kept, C99_evaluate. Side effects that one might not expect: C99_evicts, C99_anchor_stays, C99_dynamic."
  },
  {
   "property": "C100",
   "status": "proved",
   "theorems": [
    "Jschon.C100_evaluate",
    "Jschon.C100_block",
    "Jschon.C100_kept",
    "Jschon.C100_found"
   ],
   "note": "C100_kept (the other caches are as before), C100_found (get_schema), C100_evaluate (every schema, dynamic references included) and C100_block (also after the removal of the temporary cache). The cache of metaschemas is not modelled: the model takes metaschemas from the environment."
  },
  {
   "property": "C101",
   "status": "proved",
   "theorems": [
    "Jschon.C101_restored",
    "Jschon.C101_constructed",
    "Jschon.C101_evaluate",
    "Jschon.C101_noticed"
   ],
   "note": "C101_restored (data, positions, values, schemas), C101_constructed (evaluation in general, references not by JSON pointer as in C97), C101_evaluate (as before, without dynamic references); C101_noticed is a concrete case that meets the hypotheses."
  },
  {
   "property": "C102",
   "status": "proved",
   "theorems": [
    "Jschon.C102_inside",
    "Jschon.C102_fails",
    "Jschon.C102_nowhere",
    "Jschon.C102_elsewhere",
    "Jschon.C102_there",
    "Jschon.C102_order",
    "Jschon.C102_both",
    "Jschon.C102_siblings",
    "Jschon.C102_replacements",
    "Jschon.C102_replaced"
   ],
   "note": "Full, on documents as values (C24 relates them to Python objects). Replacements: the last key must not be an odd spelling of an index (C21_nonRfc_index_accepted). C102_siblings: parting pointers are not enough for additions to and removals from one array."
  },
  {
   "property": "C103",
   "status": "proved",
   "theorems": [
    "Jschon.C103_first",
    "Jschon.C103_failed",
    "Jschon.C103_others",
    "Jschon.C103_constructions",
    "Jschon.C103_constructed",
    "Jschon.C103_unread",
    "Jschon.C103_unedited",
    "Jschon.C103_renamed",
    "Jschon.C103_unnoticed"
   ],
   "note": ""
  },
  {
   "property": "C104",
   "status": "proved",
   "theorems": [
    "Jschon.C104_result",
    "Jschon.C104_document",
    "Jschon.C104_verdict",
    "Jschon.C104_collected",
    "Jschon.C104_nowhere_else",
    "Jschon.C104_basic"
   ],
   "note": ""
  },
  {
   "property": "C105",
   "status": "proved",
   "theorems": [
    "Jschon.C105_parts",
    "Jschon.C105_split",
    "Jschon.C105_allOf",
    "Jschon.C105_one",
    "Jschon.C105_stricter",
    "Jschon.C105_needed",
    "Jschon.C105_exact"
   ],
   "note": "Full. C105_needed, C105_exact: the condition cannot be dropped nor weakened by a line of the table."
  },
  {
   "property": "C106",
   "status": "proved",
   "theorems": [
    "Jschon.C106_replaced",
    "Jschon.C106_needed"
   ],
   "note": "Full. C106_needed: not beside unevaluatedProperties."
  }
 ]
}