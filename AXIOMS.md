# Axioms per theorem

Written by `tools/axioms.py` from `#print axioms`.

| Property | Theorem | Axioms |
|---|---|---|
| C01 | `Jschon.C01_roundtrip` | Classical.choice, Quot.sound, propext |
| C01 | `Jschon.C01_str_injective` | Classical.choice, Quot.sound, propext |
| C02 | `Jschon.C02_accepts_iff_grammar` | Classical.choice, Quot.sound, propext |
| C02 | `Jschon.C02_rejects_malformed` | Classical.choice, Quot.sound, propext |
| C02 | `Jschon.C02_text_kept` | Classical.choice, Quot.sound, propext |
| C02 | `Jschon.C02_keys_decoded` | Classical.choice, Quot.sound, propext |
| C03 | `Jschon.C03_unescape_escape` | Classical.choice, Quot.sound, propext |
| C03 | `Jschon.C03_escape_is_token` | Classical.choice, Quot.sound, propext |
| C03 | `Jschon.C03_escape_no_slash` | Classical.choice, Quot.sound, propext |
| C03 | `Jschon.C03_token_tilde` | Classical.choice, Quot.sound, propext |
| C03 | `Jschon.C03_escape_injective` | Classical.choice, Quot.sound, propext |
| C04 | `Jschon.C04_fragment_roundtrip` | Classical.choice, Quot.sound, propext |
| C04 | `Jschon.C04_fragment_chars` | Classical.choice, Quot.sound, propext |
| C04 | `Jschon.C04_fragment_injective` | Classical.choice, Quot.sound, propext |
| C04 | `Jschon.C04_parse_fragment_errors` | Classical.choice, Quot.sound, propext |
| C05 | `Jschon.C05_new_concat` | Classical.choice, Quot.sound, propext |
| C05 | `Jschon.C05_div_key` | Classical.choice, Quot.sound, propext |
| C05 | `Jschon.C05_div_keys` | Classical.choice, Quot.sound, propext |
| C05 | `Jschon.C05_div_assoc` | Classical.choice, Quot.sound, propext |
| C05 | `Jschon.C05_slice_join` | Classical.choice, Quot.sound, propext |
| C05 | `Jschon.C05_len_div` | Classical.choice, Quot.sound, propext |
| C05 | `Jschon.C05_slice_items` | Quot.sound, propext |
| C05 | `Jschon.C05_slice_bounds` | Quot.sound, propext |
| C05 | `Jschon.C05_item` | Quot.sound, propext |
| C06 | `Jschon.C06_le_iff` | Classical.choice, Quot.sound, propext |
| C06 | `Jschon.C06_eq_iff` | propext |
| C06 | `Jschon.C06_le_refl` | Classical.choice, Quot.sound, propext |
| C06 | `Jschon.C06_le_trans` | Classical.choice, Quot.sound, propext |
| C06 | `Jschon.C06_le_antisymm` | Classical.choice, Quot.sound, propext |
| C06 | `Jschon.C06_lt_iff` | Quot.sound, propext |
| C06 | `Jschon.C06_hash` | propext |
| C07 | `Jschon.C07_evaluate_iff` | Classical.choice, Quot.sound, propext |
| C07 | `Jschon.C07_only_reference_error` | Classical.choice, Quot.sound, propext |
| C07 | `Jschon.C07_undesignated` | Classical.choice, Quot.sound, propext |
| C07 | `Jschon.C07_designates_unique` | Classical.choice, Quot.sound, propext |
| C07 | `Jschon.C07_evaluate_div` | Classical.choice, Quot.sound, propext |
| C08 | `Jschon.C08_plain_success` | Classical.choice, Quot.sound, propext |
| C08 | `Jschon.C08_agree_partial` | Classical.choice, Quot.sound, propext |
| C08 | `Jschon.C08_below` | Classical.choice, Quot.sound, propext |
| C08 | `Jschon.C08_negative_index` | Classical.choice, Quot.sound, propext |
| C08 | `Jschon.C08_spelled_index` | Classical.choice, Quot.sound, propext |
| C08 | `Jschon.C08_leaks_value_error` | Classical.choice, Quot.sound, propext |
| C08 | `Jschon.C08_exact` | Classical.choice, Quot.sound, propext |
| C09 | `Jschon.C09_path_finds_node` | Classical.choice, Quot.sound, propext |
| C09 | `Jschon.C09_path_finds_value` | Classical.choice, Quot.sound, propext |
| C10 | `Jschon.C10_accepts_iff_grammar` | Classical.choice, Quot.sound, propext |
| C10 | `Jschon.C10_rejects_malformed` | Classical.choice, Quot.sound, propext |
| C10 | `Jschon.C10_text_kept` | Classical.choice, Quot.sound, propext |
| C10 | `Jschon.C10_roundtrip` | Classical.choice, Quot.sound, propext |
| C10 | `Jschon.C10_fields` | Classical.choice, Quot.sound, propext |
| C10 | `Jschon.C10_eq_iff` | Quot.sound, propext |
| C10 | `Jschon.C10_hash` | Quot.sound, propext |
| C11 | `Jschon.C11_evaluates` | Classical.choice, Quot.sound, propext |
| C11 | `Jschon.C11_impossible_partial` | Classical.choice, Quot.sound, propext |
| C11 | `Jschon.C11_hash` | Classical.choice, Quot.sound, propext |
| C11 | `Jschon.C11_leaks_value_error` | Classical.choice, Quot.sound, propext |
| C11 | `Jschon.C11_no_start` | Classical.choice, Quot.sound, propext |
| C11 | `Jschon.C11_exact` | Classical.choice, Quot.sound, propext |
| C12 | `Jschon.C12_value` | Classical.choice, Quot.sound, propext |
| C12 | `Jschon.C12_new` | Classical.choice, Quot.sound, propext |
| C12 | `Jschon.C12_type` | Classical.choice, Quot.sound, propext |
| C12 | `Jschon.C12_len` | Classical.choice, Quot.sound, propext |
| C12 | `Jschon.C12_bool` | Classical.choice, Quot.sound, propext |
| C12 | `Jschon.C12_keys` | Classical.choice, Quot.sound, propext |
| C12 | `Jschon.C12_children` | Classical.choice, Quot.sound, propext |
| C13 | `Jschon.C13_parent` | Classical.choice, Quot.sound, propext |
| C13 | `Jschon.C13_positions_partial` | Classical.choice, Quot.sound, propext |
| C13 | `Jschon.C13_pop_breaks_key` | Classical.choice, Quot.sound, propext |
| C13 | `Jschon.C13_set_negative` | Classical.choice, Quot.sound, propext |
| C13 | `Jschon.C13_insert_beyond` | Classical.choice, Quot.sound, propext |
| C13 | `Jschon.C13_pop_breaks_path` | Classical.choice, Quot.sound, propext |
| C13 | `Jschon.C13_labelled` | Classical.choice, Quot.sound, propext |
| C13 | `Jschon.C13_del_exact` | Classical.choice, Quot.sound, propext |
| C13 | `Jschon.C13_insert_exact` | Classical.choice, Quot.sound, propext |
| C13 | `Jschon.C13_set_exact` | Classical.choice, Quot.sound, propext |
| C13 | `Jschon.C13_del_in_step` | Classical.choice, Quot.sound, propext |
| C13 | `Jschon.C13_insert_in_step` | Classical.choice, Quot.sound, propext |
| C13 | `Jschon.C13_set_in_step` | Quot.sound, propext |
| C14 | `Jschon.C14_value_current` | Classical.choice, Quot.sound, propext |
| C14 | `Jschon.C14_reads_are_silent` | Classical.choice, Quot.sound, propext |
| C15 | `Jschon.C15_setitem_array` | Classical.choice, Quot.sound, propext |
| C15 | `Jschon.C15_delitem_array` | Classical.choice, Quot.sound, propext |
| C15 | `Jschon.C15_insert` | Classical.choice, Quot.sound, propext |
| C15 | `Jschon.C15_setitem_object` | Classical.choice, Quot.sound, propext |
| C15 | `Jschon.C15_delitem_object` | Classical.choice, Quot.sound, propext |
| C15 | `Jschon.C15_elsewhere` | Classical.choice, Quot.sound, propext |
| C16 | `Jschon.C16_setitem_object` | Classical.choice, Quot.sound, propext |
| C16 | `Jschon.C16_setitem_array` | Classical.choice, Quot.sound, propext |
| C16 | `Jschon.C16_insert` | Classical.choice, Quot.sound, propext |
| C16 | `Jschon.C16_stay_apart` | Classical.choice, Quot.sound, propext |
| C16 | `Jschon.C16_independent` | Classical.choice, Quot.sound, propext |
| C17 | `Jschon.C17_add` | Classical.choice, Quot.sound, propext |
| C17 | `Jschon.C17_remove_partial` | Classical.choice, Quot.sound, propext |
| C17 | `Jschon.C17_replace_partial` | Classical.choice, Quot.sound, propext |
| C17 | `Jschon.C17_remove_after_pop` | Classical.choice, Quot.sound, propext |
| C17 | `Jschon.C17_add_fails` | Classical.choice, Quot.sound, propext |
| C17 | `Jschon.C17_remove_fails` | Classical.choice, Quot.sound, propext |
| C17 | `Jschon.C17_replace_fails` | Classical.choice, Quot.sound, propext |
| C17 | `Jschon.C17_remove_exact` | Classical.choice, Quot.sound, propext |
| C17 | `Jschon.C17_replace_exact` | Classical.choice, Quot.sound, propext |
| C17 | `Jschon.C17_exact_total` | Classical.choice, Quot.sound, propext |
| C17 | `Jschon.C17_remove_loose` | Classical.choice, Quot.sound, propext |
| C18 | `Jschon.C18_refl` | Classical.choice, Quot.sound, propext |
| C18 | `Jschon.C18_symm` | Classical.choice, Quot.sound, propext |
| C18 | `Jschon.C18_trans` | Classical.choice, Quot.sound, propext |
| C18 | `Jschon.C18_ne` | Quot.sound, propext |
| C19 | `Jschon.C19_eq_iff_data_model` | Classical.choice, Quot.sound, propext |
| C19 | `Jschon.C19_types_differ` | Quot.sound, propext |
| C19 | `Jschon.C19_member_order` | Classical.choice, Quot.sound, propext |
| C20 | `Jschon.C20_add_exact` | Classical.choice, Quot.sound, propext |
| C20 | `Jschon.C20_add_complete` | Classical.choice, Quot.sound, propext |
| C20 | `Jschon.C20_add_sound_partial` | Classical.choice, Quot.sound, propext |
| C20 | `Jschon.C20_add_object` | Classical.choice, Quot.sound, propext |
| C20 | `Jschon.C20_add_then_evaluate` | Quot.sound, propext |
| C20 | `Jschon.C20_nonRfc_index_accepted` | Classical.choice, Quot.sound, propext |
| C21 | `Jschon.C21_remove_exact` | Classical.choice, Quot.sound, propext |
| C21 | `Jschon.C21_replace_exact` | Classical.choice, Quot.sound, propext |
| C21 | `Jschon.C21_remove_complete` | Classical.choice, Quot.sound, propext |
| C21 | `Jschon.C21_replace_complete` | Classical.choice, Quot.sound, propext |
| C21 | `Jschon.C21_remove_sound_partial` | Classical.choice, Quot.sound, propext |
| C21 | `Jschon.C21_replace_sound_partial` | Classical.choice, Quot.sound, propext |
| C21 | `Jschon.C21_remove_missing` | Classical.choice, Quot.sound, propext |
| C21 | `Jschon.C21_replace_missing` | Classical.choice, Quot.sound, propext |
| C21 | `Jschon.C21_nonRfc_index_accepted` | Classical.choice, Quot.sound, propext |
| C22 | `Jschon.C22_copy_exact` | Classical.choice, Quot.sound, propext |
| C22 | `Jschon.C22_copy_complete` | Classical.choice, Quot.sound, propext |
| C22 | `Jschon.C22_move_exact` | Classical.choice, Quot.sound, propext |
| C22 | `Jschon.C22_move_complete` | Classical.choice, Quot.sound, propext |
| C22 | `Jschon.C22_move_sound_partial` | Classical.choice, Quot.sound, propext |
| C22 | `Jschon.C22_move_into_itself_object` | Classical.choice, Quot.sound, propext |
| C22 | `Jschon.C22_move_into_itself_accepted` | Classical.choice, Quot.sound, propext |
| C22 | `Jschon.C22_test_exact` | Classical.choice, Quot.sound, propext |
| C23 | `Jschon.C23_inputs_unchanged` | Classical.choice, Quot.sound, propext |
| C23 | `Jschon.C23_result_fresh` | Classical.choice, Quot.sound, propext |
| C23 | `Jschon.C23_result_unreachable` | Classical.choice, Quot.sound, propext |
| C24 | `Jschon.C24_append` | Classical.choice, Quot.sound, propext |
| C24 | `Jschon.C24_first_failure` | Classical.choice, Quot.sound, propext |
| C24 | `Jschon.C24_values_describe_objects` | Classical.choice, Quot.sound, propext |
| C24 | `Jschon.C24_operation_describes_objects` | Classical.choice, Quot.sound, propext |
| C24 | `Jschon.C24_shared_objects` | Classical.choice, Quot.sound, propext |
| C24 | `Jschon.C24_repeatable` | Classical.choice, Quot.sound, propext |
| C25 | `Jschon.C25_move_exact` | Classical.choice, Quot.sound, propext |
| C25 | `Jschon.C25_add` | Classical.choice, Quot.sound, propext |
| C25 | `Jschon.C25_replace` | Classical.choice, Quot.sound, propext |
| C25 | `Jschon.C25_remove` | Classical.choice, Quot.sound, propext |
| C25 | `Jschon.C25_copy` | Classical.choice, Quot.sound, propext |
| C25 | `Jschon.C25_test` | Classical.choice, Quot.sound, propext |
| C25 | `Jschon.C25_move_partial` | Classical.choice, Quot.sound, propext |
| C25 | `Jschon.C25_move_loses_value` | Classical.choice, Quot.sound, propext |
| C26 | `Jschon.C26_add_partial` | Classical.choice, Quot.sound, propext |
| C26 | `Jschon.C26_remove_partial` | Classical.choice, Quot.sound, propext |
| C26 | `Jschon.C26_replace_partial` | Classical.choice, Quot.sound, propext |
| C26 | `Jschon.C26_copy_partial` | Classical.choice, Quot.sound, propext |
| C26 | `Jschon.C26_move_partial` | Classical.choice, Quot.sound, propext |
| C26 | `Jschon.C26_test_partial` | Classical.choice, Quot.sound, propext |
| C26 | `Jschon.C26_other_exceptions` | Classical.choice, Quot.sound, propext |
| C26 | `Jschon.C26_add_exact` | Classical.choice, Quot.sound, propext |
| C26 | `Jschon.C26_remove_exact` | Classical.choice, Quot.sound, propext |
| C26 | `Jschon.C26_replace_exact` | Classical.choice, Quot.sound, propext |
| C26 | `Jschon.C26_copy_exact` | Classical.choice, Quot.sound, propext |
| C26 | `Jschon.C26_move_exact` | Classical.choice, Quot.sound, propext |
| C26 | `Jschon.C26_test_exact` | Classical.choice, Quot.sound, propext |
| C26 | `Jschon.C26_apply_exact` | Classical.choice, Quot.sound, propext |
| C27 | `Jschon.C27_add_remove` | Classical.choice, Quot.sound, propext |
| C27 | `Jschon.C27_replace_same` | Classical.choice, Quot.sound, propext |
| C27 | `Jschon.C27_replace_undo` | Classical.choice, Quot.sound, propext |
| C28 | `Jschon.C28_op_roundtrip` | Classical.choice, Quot.sound, propext |
| C28 | `Jschon.C28_op_roundtrip_eq` | Classical.choice, Quot.sound, propext |
| C28 | `Jschon.C28_op_eq_iff` | Classical.choice, Quot.sound, propext |
| C28 | `Jschon.C28_patch_roundtrip` | Classical.choice, Quot.sound, propext |
| C28 | `Jschon.C28_extra_value_lost` | Classical.choice, Quot.sound, propext |
| C29 | `Jschon.C29_order` | Classical.choice, Quot.sound, propext |
| C29 | `Jschon.C29_custom` | Classical.choice, Quot.sound, propext |
| C29 | `Jschon.C29_cycle` | propext |
| C30 | `Jschon.C30_verdict_partial` | Classical.choice, Quot.sound, propext |
| C30 | `Jschon.C30_observed` | Classical.choice, Quot.sound, propext |
| C30 | `Jschon.C30_not_leak` | Classical.choice, Quot.sound, propext |
| C31 | `Jschon.C31_allOf` | Classical.choice, Quot.sound, propext |
| C31 | `Jschon.C31_anyOf` | Classical.choice, Quot.sound, propext |
| C31 | `Jschon.C31_oneOf` | Classical.choice, Quot.sound, propext |
| C31 | `Jschon.C31_not` | Classical.choice, Quot.sound, propext |
| C31 | `Jschon.C31_if` | Classical.choice, Quot.sound, propext |
| C31 | `Jschon.C31_if_then` | Classical.choice, Quot.sound, propext |
| C31 | `Jschon.C31_if_else` | Classical.choice, Quot.sound, propext |
| C31 | `Jschon.C31_no_if` | Classical.choice, Quot.sound, propext |
| C31 | `Jschon.C31_ref` | Classical.choice, Quot.sound, propext |
| C32 | `Jschon.C32_properties` | Classical.choice, Quot.sound, propext |
| C32 | `Jschon.C32_patternProperties` | Classical.choice, Quot.sound, propext |
| C32 | `Jschon.C32_object` | Classical.choice, Quot.sound, propext |
| C32 | `Jschon.C32_additionalProperties` | Classical.choice, Quot.sound, propext |
| C32 | `Jschon.C32_propertyNames` | Classical.choice, Quot.sound, propext |
| C32 | `Jschon.C32_dependentSchemas` | Classical.choice, Quot.sound, propext |
| C33 | `Jschon.C33_items` | Classical.choice, Quot.sound, propext |
| C33 | `Jschon.C33_prefixItems` | Classical.choice, Quot.sound, propext |
| C33 | `Jschon.C33_contains_between` | Classical.choice, Quot.sound, propext |
| C33 | `Jschon.C33_contains` | Classical.choice, Quot.sound, propext |
| C33 | `Jschon.C33_minContains` | Classical.choice, Quot.sound, propext |
| C33 | `Jschon.C33_maxContains` | Classical.choice, Quot.sound, propext |
| C33 | `Jschon.C33_no_contains` | Classical.choice, Quot.sound, propext |
| C34 | `Jschon.C34_unevaluated_partial` | Classical.choice, Quot.sound, propext |
| C34 | `Jschon.C34_adjacent` | Classical.choice, Quot.sound, propext |
| C34 | `Jschon.C34_not_leak` | Classical.choice, Quot.sound, propext |
| C35 | `Jschon.C35_assertions` | Classical.choice, Quot.sound, propext |
| C36 | `Jschon.C36_order` | Classical.choice, Quot.sound, propext |
| C37 | `Jschon.C37_neutral` | Classical.choice, Quot.sound, propext |
| C37 | `Jschon.C37_format` | Classical.choice, Quot.sound, propext |
| C38 | `Jschon.C38_other_types` | Classical.choice, Quot.sound, propext |
| C39 | `Jschon.C39_true` | Classical.choice, Quot.sound, propext |
| C39 | `Jschon.C39_empty` | Classical.choice, Quot.sound, propext |
| C39 | `Jschon.C39_false` | Classical.choice, Quot.sound, propext |
| C40 | `Jschon.C40_deterministic` | Classical.choice, Quot.sound, propext |
| C40 | `Jschon.C40_terminates` | Classical.choice, Quot.sound, propext |
| C40 | `Jschon.C40_no_references` | Classical.choice, Quot.sound, propext |
| C40 | `Jschon.C40_endless` | Classical.choice, Quot.sound, propext |
| C41 | `Jschon.C41_exact` | Classical.choice, Quot.sound, propext |
| C41 | `Jschon.C41_multipleOf_partial` | Classical.choice, Quot.sound, propext |
| C41 | `Jschon.C41_large_quotient` | Classical.choice, Quot.sound, propext |
| C42 | `Jschon.C42_uniqueItems` | Classical.choice, Quot.sound, propext |
| C43 | `Jschon.C43_errors` | Classical.choice, Quot.sound, propext |
| C43 | `Jschon.C43_no_errors` | propext |
| C43 | `Jschon.C43_basic` | Classical.choice, Quot.sound, propext |
| C44 | `Jschon.C44_flag` | propext |
| C44 | `Jschon.C44_basic_valid` | Classical.choice, Quot.sound, propext |
| C44 | `Jschon.C44_detailed` | Classical.choice, Quot.sound, propext |
| C44 | `Jschon.C44_verbose_valid` | Classical.choice, Quot.sound, propext |
| C44 | `Jschon.C44_hierarchical` | Classical.choice, Quot.sound, propext |
| C44 | `Jschon.C44_basic_units` | Classical.choice, Quot.sound, propext |
| C44 | `Jschon.C44_basic_collects` | Classical.choice, Quot.sound, propext |
| C44 | `Jschon.C44_verbose_units` | Classical.choice, Quot.sound, propext |
| C45 | `Jschon.C45_annotations_partial` | propext |
| C45 | `Jschon.C45_invalid` | propext |
| C45 | `Jschon.C45_not_leak` | Classical.choice, Quot.sound, propext |
| C45 | `Jschon.C45_contains_leak` | Classical.choice, Quot.sound, propext |
| C46 | `Jschon.C46_instance_location` | Classical.choice, Quot.sound, propext |
| C46 | `Jschon.C46_keyword_location` | Classical.choice, Quot.sound, propext |
| C47 | `Jschon.C47_chosen_unique` | Classical.choice, Quot.sound, propext |
| C47 | `Jschon.C47_chosen_exists` | Classical.choice, Quot.sound, propext |
| C47 | `Jschon.C47_longest_prefix` | Classical.choice, Quot.sound, propext |
| C47 | `Jschon.C47_bad_uri` | Classical.choice, Quot.sound, propext |
| C47 | `Jschon.C47_loads_unique` | Classical.choice, Quot.sound, propext |
| C47 | `Jschon.C47_reregister` | Quot.sound, propext |
| C47 | `Jschon.C47_order_independent` | Classical.choice, Quot.sound, propext |
| C48 | `Jschon.C48_last_added` | Quot.sound, propext |
| C48 | `Jschon.C48_isolated` | Quot.sound, propext |
| C48 | `Jschon.C48_other_uri` | Quot.sound, propext |
| C49 | `Jschon.C49_exit` | Quot.sound, propext |
| C49 | `Jschon.C49_refused_partial` | Quot.sound, propext |
| C49 | `Jschon.C49_nested_same_id` | none |
| C49 | `Jschon.C49_restores` | Quot.sound, propext |
| C50 | `Jschon.C50_again_partial` | Classical.choice, Quot.sound, propext |
| C50 | `Jschon.C50_no_document` | Classical.choice, Quot.sound, propext |
| C50 | `Jschon.C50_stale` | Classical.choice, Quot.sound, propext |
| C51 | `Jschon.C51_canonical_partial` | Classical.choice, Quot.sound, propext |
| C51 | `Jschon.C51_exists` | Classical.choice, Quot.sound, propext |
| C51 | `Jschon.C51_duplicate_id` | Classical.choice, Quot.sound, propext |
| C51 | `Jschon.C51_slash_anchor` | Classical.choice, Quot.sound, propext |
| C51 | `Jschon.C51_empty_fragment` | Classical.choice, Quot.sound, propext |
| C52 | `Jschon.C52_dynamicRef_partial` | Classical.choice, Quot.sound, propext |
| C52 | `Jschon.C52_static` | Classical.choice, Quot.sound, propext |
| C52 | `Jschon.C52_recursiveRef` | Classical.choice, Quot.sound, propext |
| C52 | `Jschon.C52_unique` | propext |
| C52 | `Jschon.C52_reentry` | Classical.choice, Quot.sound, propext |
| C53 | `Jschon.C53_items` | Classical.choice, Quot.sound, propext |
| C53 | `Jschon.C53_additionalItems_partial` | Classical.choice, Quot.sound, propext |
| C53 | `Jschon.C53_additionalItems_ignored` | Classical.choice, Quot.sound, propext |
| C53 | `Jschon.C53_unevaluatedItems` | Classical.choice, Quot.sound, propext |
| C53 | `Jschon.C53_items_true` | Classical.choice, Quot.sound, propext |
| C53 | `Jschon.C53_empty_items` | Classical.choice, Quot.sound, propext |
| C54 | `Jschon.C54_kept_partial` | Classical.choice, Quot.sound, propext |
| C54 | `Jschon.C54_unknown_partial` | Classical.choice, Quot.sound, propext |
| C54 | `Jschon.C54_empty_name` | Classical.choice, Quot.sound, propext |
| C54 | `Jschon.C54_nul_name` | Classical.choice, Quot.sound, propext |
| C54 | `Jschon.C54_refused` | Classical.choice, Quot.sound, propext |
| C55 | `Jschon.C55_value` | Classical.choice, Quot.sound, propext |
| C55 | `Jschon.C55_named` | Classical.choice, Quot.sound, propext |
| C56 | `Jschon.C56_resolved` | Classical.choice, Quot.sound, propext |
| C57 | `Jschon.C57_new` | Classical.choice, Quot.sound, propext |
| C57 | `Jschon.C57_get` | Classical.choice, Quot.sound, propext |
| C58 | `Jschon.C58_schema` | Classical.choice, Quot.sound, propext |
| C59 | `Jschon.C59_constructs` | Classical.choice, Quot.sound, propext |
| C59 | `Jschon.C59_ordered_2020` | none |
| C59 | `Jschon.C59_ordered_2019` | none |
| C59 | `Jschon.C59_ordered_next` | none |
| C59 | `Jschon.C59_local` | Classical.choice, Quot.sound, propext |
| C60 | `Jschon.C60_detailed_units` | Classical.choice, Quot.sound, propext |
| C60 | `Jschon.C60_nonempty_partial` | Classical.choice, Quot.sound, propext |
| C60 | `Jschon.C60_false_schema` | Classical.choice, Quot.sound, propext |
| C60 | `Jschon.C60_hierarchical` | Classical.choice, Quot.sound, propext |
| C60 | `Jschon.C60_condition` | Classical.choice, Quot.sound, propext |
| C61 | `Jschon.C61_island` | Classical.choice, Quot.sound, propext |
| C61 | `Jschon.C61_later_partial` | Classical.choice, Quot.sound, propext |
| C61 | `Jschon.C61_usurped` | Classical.choice, Quot.sound, propext |
| C61 | `Jschon.C61_names` | Classical.choice, Quot.sound, propext |
| C62 | `Jschon.C62_verdict_partial` | Classical.choice, Quot.sound, propext |
| C62 | `Jschon.C62_not_both` | Classical.choice, Quot.sound, propext |
| C62 | `Jschon.C62_boolean` | Classical.choice, Quot.sound, propext |
| C63 | `Jschon.C63_ends` | Classical.choice, Quot.sound, propext |
| C63 | `Jschon.C63_no_references` | Classical.choice, Quot.sound, propext |
| C64 | `Jschon.C64_annotates` | Classical.choice, Quot.sound, propext |
| C64 | `Jschon.C64_null` | Classical.choice, Quot.sound, propext |
| C64 | `Jschon.C64_written_partial` | Classical.choice, Quot.sound, propext |
| C65 | `Jschon.C65_extend` | Classical.choice, Quot.sound, propext |
| C65 | `Jschon.C65_extend_self` | Classical.choice, Quot.sound, propext |
| C65 | `Jschon.C65_extend_other` | Classical.choice, Quot.sound, propext |
| C65 | `Jschon.C65_reverse` | Classical.choice, Quot.sound, propext |
| C65 | `Jschon.C65_clear` | Classical.choice, Quot.sound, propext |
| C65 | `Jschon.C65_contains` | Classical.choice, Quot.sound, propext |
| C65 | `Jschon.C65_index` | Classical.choice, Quot.sound, propext |
| C65 | `Jschon.C65_count` | Classical.choice, Quot.sound, propext |
| C66 | `Jschon.C66_update_partial` | Classical.choice, Quot.sound, propext |
| C66 | `Jschon.C66_pop_partial` | Classical.choice, Quot.sound, propext |
| C66 | `Jschon.C66_popitem_partial` | Classical.choice, Quot.sound, propext |
| C66 | `Jschon.C66_setdefault_partial` | Classical.choice, Quot.sound, propext |
| C66 | `Jschon.C66_get_partial` | Classical.choice, Quot.sound, propext |
| C66 | `Jschon.C66_contains_partial` | Classical.choice, Quot.sound, propext |
| C66 | `Jschon.C66_items_partial` | Classical.choice, Quot.sound, propext |
| C66 | `Jschon.C66_clear_raises` | Classical.choice, Quot.sound, propext |
| C66 | `Jschon.C66_reverse_raises` | Classical.choice, Quot.sound, propext |
| C67 | `Jschon.C67_decides` | Classical.choice, Quot.sound, propext |
| C67 | `Jschon.C67_total_order` | Classical.choice, Quot.sound, propext |
| C67 | `Jschon.C67_raises` | Classical.choice, Quot.sound, propext |
| C68 | `Jschon.C68_of_dialect_2020` | Classical.choice, Quot.sound, propext |
| C68 | `Jschon.C68_of_dialect_2019` | Classical.choice, Quot.sound, propext |
| C68 | `Jschon.C68_of_dialect_next` | Classical.choice, Quot.sound, propext |
| C68 | `Jschon.C68_get_vocabulary` | Quot.sound, propext |
| C68 | `Jschon.C68_core` | Classical.choice, Quot.sound, propext |
| C68 | `Jschon.C68_core_default` | Classical.choice, Quot.sound, propext |
| C68 | `Jschon.C68_listed` | Classical.choice, Quot.sound, propext |
| C68 | `Jschon.C68_default` | Classical.choice, Quot.sound, propext |
| C68 | `Jschon.C68_shipped_2020` | Classical.choice, Quot.sound, propext |
| C68 | `Jschon.C68_shipped_2019` | Classical.choice, Quot.sound, propext |
| C68 | `Jschon.C68_shipped_next` | Classical.choice, Quot.sound, propext |
| C69 | `Jschon.C69_cached` | Classical.choice, Quot.sound, propext |
| C69 | `Jschon.C69_created_partial` | Classical.choice, Quot.sound, propext |
| C69 | `Jschon.C69_early_failure` | Classical.choice, Quot.sound, propext |
| C69 | `Jschon.C69_not_object` | Classical.choice, Quot.sound, propext |
| C69 | `Jschon.C69_id_refused` | Quot.sound, propext |
| C69 | `Jschon.C69_rejected_is_returned` | Classical.choice, Quot.sound, propext |
| C69 | `Jschon.C69_invalid_is_returned` | Classical.choice, Quot.sound, propext |
| C69 | `Jschon.C69_moved_is_created_again` | Classical.choice, Quot.sound, propext |
| C70 | `Jschon.C70_id` | Classical.choice, Quot.sound, propext |
| C70 | `Jschon.C70_no_id` | Classical.choice, Quot.sound, propext |
| C71 | `Jschon.C71_loaded_again` | Classical.choice, Quot.sound, propext |
| C71 | `Jschon.C71_cached` | Classical.choice, Quot.sound, propext |
| C71 | `Jschon.C71_found` | Classical.choice, Quot.sound, propext |
| C71 | `Jschon.C71_unique` | Classical.choice, Quot.sound, propext |
| C72 | `Jschon.C72_constructs` | Classical.choice, Quot.sound, propext |
| C72 | `Jschon.C72_verdict_partial` | Classical.choice, Quot.sound, propext |
| C72 | `Jschon.C72_ends` | Classical.choice, Quot.sound, propext |
| C72 | `Jschon.C72_earlier` | Classical.choice, Quot.sound, propext |
| C73 | `Jschon.C73_constructs` | Classical.choice, Quot.sound, propext |
| C73 | `Jschon.C73_obtains` | Classical.choice, Quot.sound, propext |
| C73 | `Jschon.C73_verdict_partial` | Classical.choice, Quot.sound, propext |
| C73 | `Jschon.C73_obtained_partial` | Classical.choice, Quot.sound, propext |
| C73 | `Jschon.C73_ends` | Classical.choice, Quot.sound, propext |
| C73 | `Jschon.C73_obtained_ends` | Classical.choice, Quot.sound, propext |
| C73 | `Jschon.C73_kept` | Classical.choice, Quot.sound, propext |
| C73 | `Jschon.C73_kept_get` | Classical.choice, Quot.sound, propext |
| C74 | `Jschon.C74_text` | Classical.choice, Quot.sound, propext |
| C74 | `Jschon.C74_content` | Classical.choice, Quot.sound, propext |
| C74 | `Jschon.C74_injective` | Classical.choice, Quot.sound, propext |
| C74 | `Jschon.C74_written` | Classical.choice, Quot.sound, propext |
| C74 | `Jschon.C74_line` | Classical.choice, Quot.sound, propext |
| C75 | `Jschon.C75_reads` | Classical.choice, Quot.sound, propext |
| C75 | `Jschon.C75_refuses` | Classical.choice, Quot.sound, propext |
| C75 | `Jschon.C75_unique` | Classical.choice, Quot.sound, propext |
| C75 | `Jschon.C75_json` | Classical.choice, Quot.sound, propext |
| C75 | `Jschon.C75_json_refuses` | Classical.choice, Quot.sound, propext |
| C75 | `Jschon.C75_constants` | Classical.choice, Quot.sound, propext |
| C75 | `Jschon.C75_infinity` | Classical.choice, Quot.sound, propext |
| C76 | `Jschon.C76_roundtrip` | Classical.choice, Quot.sound, propext |
| C76 | `Jschon.C76_rewrite` | Classical.choice, Quot.sound, propext |
| C77 | `Jschon.C77_constructs` | Classical.choice, Quot.sound, propext |
| C77 | `Jschon.C77_unregistered` | Classical.choice, Quot.sound, propext |
| C77 | `Jschon.C77_verdict` | Quot.sound, propext |
| C77 | `Jschon.C77_json_pointer` | Classical.choice, Quot.sound, propext |
| C77 | `Jschon.C77_catalogs` | Classical.choice, Quot.sound, propext |
| C77 | `Jschon.C77_overwritten` | Classical.choice, Quot.sound, propext |
| C77 | `Jschon.C77_construct_model` | propext |
| C77 | `Jschon.C77_verdict_model` | Classical.choice, Quot.sound, propext |
| C78 | `Jschon.C78_congruence` | Classical.choice, Quot.sound, propext |
| C78 | `Jschon.C78_wf` | Classical.choice, Quot.sound, propext |
| C78 | `Jschon.C78_equivalence` | Classical.choice, Quot.sound, propext |
| C78 | `Jschon.C78_equal` | Classical.choice, Quot.sound, propext |
| C79 | `Jschon.C79_split` | Classical.choice, Quot.sound, propext |
| C79 | `Jschon.C79_slice` | Quot.sound, propext |
| C79 | `Jschon.C79_item` | Classical.choice, Quot.sound, propext |
| C79 | `Jschon.C79_set` | Classical.choice, Quot.sound, propext |
| C79 | `Jschon.C79_del` | Classical.choice, Quot.sound, propext |
| C79 | `Jschon.C79_insert` | Classical.choice, Quot.sound, propext |
| C79 | `Jschon.C79_fails` | Classical.choice, Quot.sound, propext |
| C80 | `Jschon.C80_dots` | propext |
| C80 | `Jschon.C80_resolves` | Quot.sound, propext |
| C80 | `Jschon.C80_text` | Classical.choice, Quot.sound, propext |
| C80 | `Jschon.C80_components` | Classical.choice, Quot.sound, propext |
| C80 | `Jschon.C80_absolute` | Classical.choice, Quot.sound, propext |
| C80 | `Jschon.C80_relative` | Classical.choice, Quot.sound, propext |
| C80 | `Jschon.C80_id` | Classical.choice, Quot.sound, propext |
| C80 | `Jschon.C80_construction` | Classical.choice, Quot.sound, propext |
| C80 | `Jschon.C80_documents` | Classical.choice, Quot.sound, propext |
| C80 | `Jschon.C80_valid` | Classical.choice, Quot.sound, propext |
| C80 | `Jschon.C80_normal` | Classical.choice, Quot.sound, propext |
| C80 | `Jschon.C80_resolve` | Classical.choice, Quot.sound, propext |
| C80 | `Jschon.C80_unnormalized` | Classical.choice, Quot.sound, propext |
| C81 | `Jschon.C81_found` | Classical.choice, Quot.sound, propext |
| C81 | `Jschon.C81_only` | Classical.choice, Quot.sound, propext |
| C81 | `Jschon.C81_path` | Classical.choice, Quot.sound, propext |
| C81 | `Jschon.C81_uri_partial` | Classical.choice, Quot.sound, propext |
| C81 | `Jschon.C81_schema_partial` | Classical.choice, Quot.sound, propext |
| C81 | `Jschon.C81_reference_partial` | Classical.choice, Quot.sound, propext |
| C81 | `Jschon.C81_exists` | Classical.choice, Quot.sound, propext |
| C81 | `Jschon.C81_atSchema` | Classical.choice, Quot.sound, propext |
| C81 | `Jschon.C81_hierarchical` | Classical.choice, Quot.sound, propext |
| C81 | `Jschon.C81_basic` | Classical.choice, Quot.sound, propext |
| C81 | `Jschon.C81_keys` | Classical.choice, Quot.sound, propext |
| C81 | `Jschon.C81_length` | Classical.choice, Quot.sound, propext |
| C82 | `Jschon.C82_parent` | Classical.choice, Quot.sound, propext |
| C82 | `Jschon.C82_document` | Classical.choice, Quot.sound, propext |
| C82 | `Jschon.C82_resource` | Classical.choice, Quot.sound, propext |
| C82 | `Jschon.C82_resource_unique` | Classical.choice, Quot.sound, propext |
| C82 | `Jschon.C82_base` | Classical.choice, Quot.sound, propext |
| C82 | `Jschon.C82_canonical` | Classical.choice, Quot.sound, propext |
| C83 | `Jschon.C83_document` | Classical.choice, Quot.sound, propext |
| C83 | `Jschon.C83_suite` | Classical.choice, Quot.sound, propext |
| C83 | `Jschon.C83_shelf` | Classical.choice, Quot.sound, propext |
| C83 | `Jschon.C83_obtained` | Classical.choice, Quot.sound, propext |
| C83 | `Jschon.C83_differs` | Classical.choice, Quot.sound, propext |
| C84 | `Jschon.C84_equal` | Quot.sound, propext |
| C84 | `Jschon.C84_constructs` | Classical.choice, Quot.sound, propext |
| C84 | `Jschon.C84_document` | Classical.choice, Quot.sound, propext |
| C84 | `Jschon.C84_suite` | Classical.choice, Quot.sound, propext |
| C84 | `Jschon.C84_shelf` | Classical.choice, Quot.sound, propext |
| C84 | `Jschon.C84_written` | Classical.choice, Quot.sound, propext |
| C85 | `Jschon.C85_keyword` | Classical.choice, Quot.sound, propext |
| C85 | `Jschon.C85_inapplicable` | Classical.choice, Quot.sound, propext |
| C85 | `Jschon.C85_schema` | Classical.choice, Quot.sound, propext |
| C86 | `Jschon.C86_local_partial` | Classical.choice, Quot.sound, propext |
| C86 | `Jschon.C86_local_exact` | Classical.choice, Quot.sound, propext |
| C86 | `Jschon.C86_absolute` | Classical.choice, Quot.sound, propext |
| C86 | `Jschon.C86_query` | Classical.choice, Quot.sound, propext |
| C86 | `Jschon.C86_beside` | Classical.choice, Quot.sound, propext |
| C86 | `Jschon.C86_remote_partial` | Classical.choice, Quot.sound, propext |
| C86 | `Jschon.C86_remote_exact` | Classical.choice, Quot.sound, propext |
| C86 | `Jschon.C86_elsewhere` | Classical.choice, Quot.sound, propext |
| C87 | `Jschon.C87_reached` | propext |
| C87 | `Jschon.C87_annotations` | Classical.choice, Quot.sound, propext |
| C87 | `Jschon.C87_errors` | Classical.choice, Quot.sound, propext |
| C87 | `Jschon.C87_basic` | Classical.choice, Quot.sound, propext |
| C87 | `Jschon.C87_verbose` | Classical.choice, Quot.sound, propext |
| C87 | `Jschon.C87_text` | Classical.choice, Quot.sound, propext |
| C87 | `Jschon.C87_registered` | Quot.sound, propext |
| C87 | `Jschon.C87_shipped` | Classical.choice, Quot.sound, propext |
| C88 | `Jschon.C88_verdict` | Classical.choice, Quot.sound, propext |
| C88 | `Jschon.C88_valid_results` | Classical.choice, Quot.sound, propext |
| C88 | `Jschon.C88_annotations` | Classical.choice, Quot.sound, propext |
| C88 | `Jschon.C88_invalid_results_partial` | Classical.choice, Quot.sound, propext |
| C88 | `Jschon.C88_errors_partial` | Classical.choice, Quot.sound, propext |
| C88 | `Jschon.C88_2020` | propext |
| C88 | `Jschon.C88_other` | Classical.choice, Quot.sound, propext |
| C88 | `Jschon.C88_spurious` | Classical.choice, Quot.sound, propext |
| C89 | `Jschon.C89_get` | Classical.choice, Quot.sound, propext |
| C89 | `Jschon.C89_new` | Quot.sound, propext |
| C89 | `Jschon.C89_create` | Classical.choice, Quot.sound, propext |
| C89 | `Jschon.C89_unknown_version` | Classical.choice, Quot.sound, propext |
| C89 | `Jschon.C89_no_key_error` | Classical.choice, Quot.sound, propext |
| C89 | `Jschon.C89_left_behind` | Classical.choice, Quot.sound, propext |
| C89 | `Jschon.C89_versions` | Classical.choice, Quot.sound, propext |
| C90 | `Jschon.C90_metaschema` | Classical.choice, Quot.sound, propext |
| C90 | `Jschon.C90_none` | Classical.choice, Quot.sound, propext |
| C90 | `Jschon.C90_verdict` | Classical.choice, Quot.sound, propext |
| C90 | `Jschon.C90_document` | Classical.choice, Quot.sound, propext |
| C90 | `Jschon.C90_ends` | Classical.choice, Quot.sound, propext |
| C91 | `Jschon.C91_newlines` | Classical.choice, Quot.sound, propext |
| C91 | `Jschon.C91_loadf` | Classical.choice, Quot.sound, propext |
| C91 | `Jschon.C91_unreadable` | Classical.choice, Quot.sound, propext |
| C91 | `Jschon.C91_dumpf` | Classical.choice, Quot.sound, propext |
| C91 | `Jschon.C91_roundtrip` | Classical.choice, Quot.sound, propext |
| C91 | `Jschon.C91_failed` | Classical.choice, Quot.sound, propext |
| C91 | `Jschon.C91_denied` | Classical.choice, Quot.sound, propext |
| C92 | `Jschon.C92_refused` | propext |
| C92 | `Jschon.C92_members` | Classical.choice, Quot.sound, propext |
| C92 | `Jschon.C92_missing` | Classical.choice, Quot.sound, propext |
| C92 | `Jschon.C92_keywords` | Classical.choice, Quot.sound, propext |
| C92 | `Jschon.C92_evaluate` | Classical.choice, Quot.sound, propext |
| C92 | `Jschon.C92_ignored` | Classical.choice, Quot.sound, propext |
| C92 | `Jschon.C92_all` | Classical.choice, Quot.sound, propext |
| C92 | `Jschon.C92_unedited` | Classical.choice, Quot.sound, propext |
| C92 | `Jschon.C92_anchor_noticed` | Classical.choice, Quot.sound, propext |
| C93 | `Jschon.C93_keywords` | Classical.choice, Quot.sound, propext |
| C93 | `Jschon.C93_members` | Classical.choice, Quot.sound, propext |
| C93 | `Jschon.C93_value` | Classical.choice, Quot.sound, propext |
| C93 | `Jschon.C93_elsewhere` | Classical.choice, Quot.sound, propext |
| C93 | `Jschon.C93_all_seen` | Classical.choice, Quot.sound, propext |
| C93 | `Jschon.C93_document` | Classical.choice, Quot.sound, propext |
| C93 | `Jschon.C93_verdict` | Classical.choice, Quot.sound, propext |
| C93 | `Jschon.C93_ends` | Classical.choice, Quot.sound, propext |
| C93 | `Jschon.C93_as_new` | Classical.choice, Quot.sound, propext |
| C94 | `Jschon.C94_decodes` | Classical.choice, Quot.sound, propext |
| C94 | `Jschon.C94_pointer` | Classical.choice, Quot.sound, propext |
| C94 | `Jschon.C94_encodes` | Classical.choice, Quot.sound, propext |
| C95 | `Jschon.C95_pointer` | Classical.choice, Quot.sound, propext |
| C95 | `Jschon.C95_relative` | Classical.choice, Quot.sound, propext |
| C95 | `Jschon.C95_uri` | Classical.choice, Quot.sound, propext |
| C95 | `Jschon.C95_instance` | Classical.choice, Quot.sound, propext |
| C95 | `Jschon.C95_injective` | Classical.choice, Quot.sound, propext |
| C95 | `Jschon.C95_operation` | Classical.choice, Quot.sound, propext |
| C95 | `Jschon.C95_patch` | Classical.choice, Quot.sound, propext |
| C95 | `Jschon.C95_string` | Classical.choice, Quot.sound, propext |
| C95 | `Jschon.C95_unique` | Classical.choice, Quot.sound, propext |
| C95 | `Jschon.C95_quotes` | Classical.choice, Quot.sound, propext |
| C96 | `Jschon.C96_formed` | Classical.choice, Quot.sound, propext |
| C96 | `Jschon.C96_loaded` | Classical.choice, Quot.sound, propext |
| C96 | `Jschon.C96_kinds` | Classical.choice, Quot.sound, propext |
| C96 | `Jschon.C96_within` | Classical.choice, Quot.sound, propext |
| C96 | `Jschon.C96_not_implemented` | Classical.choice, Quot.sound, propext |
| C96 | `Jschon.C96_type_error` | Classical.choice, Quot.sound, propext |
| C96 | `Jschon.C96_uri_error` | Classical.choice, Quot.sound, propext |
| C96 | `Jschon.C96_dynamic_boolean` | Classical.choice, Quot.sound, propext |
| C96 | `Jschon.C96_text_accepted` | Classical.choice, Quot.sound, propext |
| C97 | `Jschon.C97_evaluate` | Classical.choice, Quot.sound, propext |
| C97 | `Jschon.C97_schemas` | Classical.choice, Quot.sound, propext |
| C97 | `Jschon.C97_value` | Classical.choice, Quot.sound, propext |
| C97 | `Jschon.C97_noticed` | Classical.choice, Quot.sound, propext |
| C98 | `Jschon.C98_evaluate` | Classical.choice, Quot.sound, propext |
| C98 | `Jschon.C98_value` | Classical.choice, Quot.sound, propext |
| C98 | `Jschon.C98_keys` | Classical.choice, Quot.sound, propext |
| C98 | `Jschon.C98_refused` | Classical.choice, Quot.sound, propext |
| C98 | `Jschon.C98_unresolved` | Classical.choice, Quot.sound, propext |
| C98 | `Jschon.C98_noticed` | Classical.choice, Quot.sound, propext |
| C98 | `Jschon.C98_noticed_at` | Classical.choice, Quot.sound, propext |
| C98 | `Jschon.C98_in_turn` | Classical.choice, Quot.sound, propext |
| C99 | `Jschon.C99_kept` | Classical.choice, Quot.sound, propext |
| C99 | `Jschon.C99_evaluate` | Classical.choice, Quot.sound, propext |
| C99 | `Jschon.C99_uri` | Classical.choice, Quot.sound, propext |
| C99 | `Jschon.C99_caches` | Classical.choice, Quot.sound, propext |
| C99 | `Jschon.C99_base` | Classical.choice, Quot.sound, propext |
| C99 | `Jschon.C99_found` | Classical.choice, Quot.sound, propext |
| C99 | `Jschon.C99_evicts` | Classical.choice, Quot.sound, propext |
| C99 | `Jschon.C99_anchor_stays` | Classical.choice, Quot.sound, propext |
| C99 | `Jschon.C99_dynamic` | Classical.choice, Quot.sound, propext |
| C100 | `Jschon.C100_evaluate` | Classical.choice, Quot.sound, propext |
| C100 | `Jschon.C100_block` | Classical.choice, Quot.sound, propext |
| C100 | `Jschon.C100_kept` | Classical.choice, Quot.sound, propext |
| C100 | `Jschon.C100_found` | Classical.choice, Quot.sound, propext |
| C101 | `Jschon.C101_restored` | Classical.choice, Quot.sound, propext |
| C101 | `Jschon.C101_constructed` | Classical.choice, Quot.sound, propext |
| C101 | `Jschon.C101_evaluate` | Classical.choice, Quot.sound, propext |
| C101 | `Jschon.C101_noticed` | Classical.choice, Quot.sound, propext |
| C102 | `Jschon.C102_inside` | Classical.choice, Quot.sound, propext |
| C102 | `Jschon.C102_fails` | Classical.choice, Quot.sound, propext |
| C102 | `Jschon.C102_nowhere` | Classical.choice, Quot.sound, propext |
| C102 | `Jschon.C102_elsewhere` | Classical.choice, Quot.sound, propext |
| C102 | `Jschon.C102_there` | Classical.choice, Quot.sound, propext |
| C102 | `Jschon.C102_order` | Classical.choice, Quot.sound, propext |
| C102 | `Jschon.C102_both` | Classical.choice, Quot.sound, propext |
| C102 | `Jschon.C102_siblings` | Classical.choice, Quot.sound, propext |
| C102 | `Jschon.C102_replacements` | Classical.choice, Quot.sound, propext |
| C102 | `Jschon.C102_replaced` | Classical.choice, Quot.sound, propext |
| C103 | `Jschon.C103_first` | none |
| C103 | `Jschon.C103_failed` | none |
| C103 | `Jschon.C103_others` | none |
| C103 | `Jschon.C103_constructions` | Classical.choice, Quot.sound, propext |
| C103 | `Jschon.C103_constructed` | propext |
| C103 | `Jschon.C103_unread` | Classical.choice, Quot.sound, propext |
| C103 | `Jschon.C103_unedited` | Classical.choice, Quot.sound, propext |
| C103 | `Jschon.C103_renamed` | Classical.choice, Quot.sound, propext |
| C103 | `Jschon.C103_unnoticed` | Classical.choice, Quot.sound, propext |
| C104 | `Jschon.C104_result` | Classical.choice, Quot.sound, propext |
| C104 | `Jschon.C104_document` | Classical.choice, Quot.sound, propext |
| C104 | `Jschon.C104_verdict` | Classical.choice, Quot.sound, propext |
| C104 | `Jschon.C104_collected` | Quot.sound, propext |
| C104 | `Jschon.C104_nowhere_else` | Quot.sound, propext |
| C104 | `Jschon.C104_basic` | Classical.choice, Quot.sound, propext |
| C105 | `Jschon.C105_parts` | Classical.choice, Quot.sound, propext |
| C105 | `Jschon.C105_split` | Classical.choice, Quot.sound, propext |
| C105 | `Jschon.C105_allOf` | Classical.choice, Quot.sound, propext |
| C105 | `Jschon.C105_one` | Classical.choice, Quot.sound, propext |
| C105 | `Jschon.C105_stricter` | Classical.choice, Quot.sound, propext |
| C105 | `Jschon.C105_needed` | Classical.choice, Quot.sound, propext |
| C105 | `Jschon.C105_exact` | Classical.choice, Quot.sound, propext |
| C106 | `Jschon.C106_replaced` | Classical.choice, Quot.sound, propext |
| C106 | `Jschon.C106_needed` | Classical.choice, Quot.sound, propext |
