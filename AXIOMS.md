# Axioms of the property theorems

Generated by tools/axioms.py from `collectAxioms`.

| theorem | axioms |
|---|---|
| Verif.C01_sequence_is_list | Classical.choice, Quot.sound, propext |
| Verif.C01_no_undefined_behaviour | Classical.choice, Quot.sound, propext |
| Verif.C02_bound_respected | Classical.choice, Quot.sound, propext |
| Verif.C02_push | Classical.choice, Quot.sound, propext |
| Verif.C03_overflow_undefined | Classical.choice, Quot.sound, propext |
| Verif.C03_self_push_undefined | Classical.choice, Quot.sound, propext |
| Verif.C03_storage_partial | Classical.choice, Quot.sound, propext |
| Verif.C03_realloc_preserves | Classical.choice, Quot.sound, propext |
| Verif.C04_growth_amortised | Classical.choice, Quot.sound, propext |
| Verif.C05_map_sorted | Classical.choice, Quot.sound, propext |
| Verif.C06_finite_map | Classical.choice, Quot.sound, propext |
| Verif.C06_no_undefined_behaviour | Classical.choice, Quot.sound, propext |
| Verif.C06_self_insert_undefined | Classical.choice, Quot.sound, propext |
| Verif.C07_hash_injective_8 | Classical.choice, Quot.sound, propext |
| Verif.C07_fails_above_8 | Quot.sound, propext |
| Verif.C08_equal_hash_confused | Quot.sound, propext |
| Verif.C08_confused_concrete | Classical.choice, Quot.sound, propext |
| Verif.C08_distinct_hash_partial | Classical.choice, Quot.sound, propext |
| Verif.C09_order_independent | Classical.choice, Quot.sound, propext |
| Verif.C09_set_order | Classical.choice, Quot.sound, propext |
| Verif.C10_bound_respected | Classical.choice, Quot.sound, propext |
| Verif.C10_refusals | Classical.choice, Quot.sound, propext |
| Verif.C11_insert_loses_value | Classical.choice, Quot.sound, propext |
| Verif.C11_insert_partial | Classical.choice, Quot.sound, propext |
| Verif.Inst.C12_equal_hash_partial | Classical.choice, Quot.sound, propext |
| Verif.Inst.C12_fails_negative_zero | Classical.choice, Quot.sound, propext |
| Verif.Inst.C12_fails_bounded_sequence | Classical.choice, Quot.sound, propext |
| Verif.Inst.C12_fails_sequence_of_strings | Quot.sound, propext |
| Verif.Inst.C12_fails_union | Classical.choice, Quot.sound, propext |
| Verif.Inst.C12_equal_hash_floats_partial | Classical.choice, Quot.sound, propext |
| Verif.Inst.C12_fails_long_double | Classical.choice, Quot.sound, propext |
| Verif.C13_struct_layout | Classical.choice, Quot.sound, propext |
| Verif.C14_inheritance_layout | Classical.choice, Quot.sound, propext |
| Verif.C15_member_names | Classical.choice, Quot.sound, propext |
| Verif.Inst.C16_default_construction_partial | Classical.choice, Quot.sound, propext |
| Verif.Inst.C16_construct_in_place_partial | Classical.choice, Quot.sound, propext |
| Verif.Inst.C16_built_union_partial | Classical.choice, Quot.sound, propext |
| Verif.Inst.C16_default_fails_reserved_label | Classical.choice, Quot.sound, propext |
| Verif.Inst.C16_default_fails_narrow_enum | Classical.choice, Quot.sound, propext |
| Verif.Inst.C17_copy_exact_partial | Classical.choice, Quot.sound, propext |
| Verif.Inst.C17_copy_in_place_partial | Classical.choice, Quot.sound, propext |
| Verif.Inst.C17_copy_independent_partial | Classical.choice, Quot.sound, propext |
| Verif.Inst.C17_unselected_refused | Classical.choice, Quot.sound, propext |
| Verif.Inst.C17_copy_fails_alias_of_union | Classical.choice, Quot.sound, propext |
| Verif.Inst.C17_copy_fails_narrow_enum | Classical.choice, Quot.sound, propext |
| Verif.Inst.C18_write_read_partial | Classical.choice, Quot.sound, propext |
| Verif.Inst.C18_write_number_partial | Classical.choice, Quot.sound, propext |
| Verif.Inst.C18_write_string_partial | Classical.choice, Quot.sound, propext |
| Verif.Inst.C18_write_char_partial | Classical.choice, Quot.sound, propext |
| Verif.Inst.C18_fails_narrow_enum | Quot.sound, propext |
| Verif.Inst.C19_leafwise_partial | Classical.choice, Quot.sound, propext |
| Verif.Inst.C19_defined_partial | Classical.choice, Quot.sound, propext |
| Verif.Inst.C19_symmetric_partial | Classical.choice, Quot.sound, propext |
| Verif.Inst.C19_transitive_partial | Classical.choice, Quot.sound, propext |
| Verif.Inst.C19_reflexive_partial | Classical.choice, Quot.sound, propext |
| Verif.Inst.C19_value_partial | Classical.choice, Quot.sound, propext |
| Verif.Inst.C19_observational_partial | Classical.choice, Quot.sound, propext |
| Verif.Inst.C19_fails_nan | Quot.sound, propext |
| Verif.Inst.C19_fails_negative_zero | Quot.sound, propext |
| Verif.Inst.C19_value_floats_partial | Classical.choice, Quot.sound, propext |
| Verif.C20_compat_refl | Classical.choice, Quot.sound, propext |
| Verif.C20_compatMems_refl | Classical.choice, Quot.sound, propext |
| Verif.C21_symmetry_fails_enum | Classical.choice, Quot.sound, propext |
| Verif.C21_symmetry_fails_struct | Classical.choice, Quot.sound, propext |
| Verif.C21_symmetry_fails_pair | Classical.choice, Quot.sound, propext |
| Verif.C21_compat_symm_partial | Classical.choice, Quot.sound, propext |
| Verif.C21_compatMems_symm_partial | Classical.choice, Quot.sound, propext |
| Verif.C22_equals_same_size | Classical.choice, Quot.sound, propext |
| Verif.C22_equals_mems | Classical.choice, Quot.sound, propext |
| Verif.C23_alias_transparent_fails | Classical.choice, Quot.sound, propext |
| Verif.C23_compat_alias_partial | Classical.choice, Quot.sound, propext |
| Verif.C24_consistency_algebra | Classical.choice, Quot.sound, propext |
| Verif.C24_combination_order | Classical.choice, Quot.sound, propext |
| Verif.C24_intersection | Quot.sound, propext |
| Verif.C25_incompatible_part | Classical.choice, Quot.sound, propext |
| Verif.C25_one_member | Classical.choice, Quot.sound, propext |
| Verif.Inst.C26_convert_safe_partial | Classical.choice, Quot.sound, propext |
| Verif.Inst.C26_convert_in_place_partial | Classical.choice, Quot.sound, propext |
| Verif.Inst.C26_incompatible_refused | Classical.choice, Quot.sound, propext |
| Verif.Inst.C26_fails_two_more_members | Classical.choice, Quot.sound, propext |
| Verif.Inst.C26_fails_longer_array | Classical.choice, Quot.sound, propext |
| Verif.Inst.C26_fails_narrow_enum | Classical.choice, Quot.sound, propext |
| Verif.Inst.C26_fails_alias_of_union | Classical.choice, Quot.sound, propext |
| Verif.Inst.C27_convert_value_partial | Classical.choice, Quot.sound, propext |
| Verif.Inst.C27_conv_keeps | Classical.choice, Quot.sound, propext |
| Verif.Inst.C27_fails_pair_of_other_size | Classical.choice, Quot.sound, propext |
| Verif.Inst.C27_fails_int_to_float_elements | Classical.choice, Quot.sound, propext |
| Verif.Inst.C28_convert | Classical.choice, Quot.sound, propext |
| Verif.Inst.C28_fits_self | Classical.choice, Quot.sound, propext |
| Verif.Inst.C28_convert_round_trip | Classical.choice, Quot.sound, propext |
| Verif.Inst.C29_string_bound_partial | Classical.choice, Quot.sound, propext |
| Verif.Inst.C29_longest_prefix | propext |
| Verif.Inst.C29_convert_clips | Classical.choice, Quot.sound, propext |
| Verif.Inst.C30_no_undefined_behaviour_partial | Classical.choice, Quot.sound, propext |
| Verif.Inst.C30_no_leak_partial | Classical.choice, Quot.sound, propext |
| Verif.Inst.C30_dispose_returns_all_partial | Classical.choice, Quot.sound, propext |
| Verif.Inst.C30_self_assignment_fails | Classical.choice, Quot.sound, propext |
| Verif.Inst.C30_move_leaks | Classical.choice, Quot.sound, propext |
| Verif.Inst.C30_bounded_contents_leak | Classical.choice, Quot.sound, propext |
| Verif.Inst.C30_growth_fails_union_of_sequence | Classical.choice, Quot.sound, propext |
| Verif.Inst.C30_assign_fails_swapped_labels | Classical.choice, Quot.sound, propext |
| Verif.Inst.C31_one_live_member_partial | Classical.choice, Quot.sound, propext |
| Verif.Inst.C31_fails_disc_first | Classical.choice, Quot.sound, propext |
| Verif.C32_labels_unambiguous | Classical.choice, Quot.sound, propext |
| Verif.C32_bad_case_refused | Classical.choice, Quot.sound, propext |
| Verif.C32_accepted_case | Classical.choice, Quot.sound, propext |
| Verif.C32_labels_increasing | Classical.choice, Quot.sound, propext |
| Verif.C32_get_labels | Classical.choice, Quot.sound, propext |
| Verif.C32_refused_default_changes_union | Classical.choice, Quot.sound, propext |
| Verif.C32_refused_unchanged_partial | Classical.choice, Quot.sound, propext |
| Verif.C32_two_defaults | Classical.choice, Quot.sound, propext |
| Verif.C32_single_default_partial | Classical.choice, Quot.sound, propext |
| Verif.Inst.C33_discriminator_partial | Classical.choice, Quot.sound, propext |
| Verif.Inst.C33_fails_negative_label | Classical.choice, Quot.sound, propext |
| Verif.Inst.C34_select_member_partial | Classical.choice, Quot.sound, propext |
| Verif.Inst.C34_first_label | Quot.sound, propext |
| Verif.Inst.C34_fails_no_label | Classical.choice, Quot.sound, propext |
| Verif.C35_names_exact | Classical.choice, Quot.sound, propext |
| Verif.C35_injectivity_fails | Classical.choice, Quot.sound, propext |
| Verif.C35_injective_ordered_partial | Classical.choice, Quot.sound, propext |
| Verif.C35_implicit_follows | Classical.choice, Quot.sound, propext |
| Verif.C36_default_not_enumerator | Classical.choice, Quot.sound, propext |
| Verif.C36_enum_datum_partial | propext |
| Verif.Inst.C37_for_each_partial | Classical.choice, Quot.sound, propext |
| Verif.Inst.C37_for_each_type | propext |
| Verif.Inst.C37_preorder | Quot.sound, propext |
| Verif.Inst.C37_preorder_type | Quot.sound, propext |
| Verif.Inst.C37_stops | propext |
| Verif.Inst.C37_fails_unselected | Classical.choice, Quot.sound, propext |
| Verif.Ops.C38_binary_operator | Classical.choice, Quot.sound, propext |
| Verif.Ops.C38_exact_when_representable | Classical.choice, Quot.sound, propext |
| Verif.Ops.C38_not_uint16_product | Quot.sound, propext |
| Verif.Ops.C38_unsigned_total | Classical.choice, Quot.sound, propext |
| Verif.Ops.C38_floats | Quot.sound, propext |
| Verif.Ops.C38_mismatch_refused | Quot.sound, propext |
| Verif.Ops.C38_comparisons | propext |
| Verif.Ops.C38_trichotomy | Classical.choice, Quot.sound, propext |
| Verif.Ops.C38_compound_assignment | Quot.sound, propext |
| Verif.Ops.C38_unary | Classical.choice, Quot.sound, propext |
| Verif.Ops.C39_prefix | Classical.choice, Quot.sound, propext |
| Verif.Ops.C39_postfix_effect_partial | Classical.choice, Quot.sound, propext |
| Verif.Ops.C39_not_postfix_yields_previous | Classical.choice, Quot.sound, propext |
| Verif.Idl.C40_unqualified | Classical.choice, Quot.sound, propext |
| Verif.Idl.C40_rooted_partial | Quot.sound, propext |
| Verif.Idl.C40_scoped_name | Classical.choice, Quot.sound, propext |
| Verif.Idl.C40_qualified | Classical.choice, Quot.sound, propext |
| Verif.Idl.C40_rooted_exact_fails | Classical.choice, Quot.sound, propext |
| Verif.Idl.C40_empty_component_diverges | Quot.sound, propext |
| Verif.Idl.C40_hidden_by_other_kind | Classical.choice, Quot.sound, propext |
| Verif.Idl.C40_type_found | Quot.sound, propext |
| Verif.Idl.C40_type_not_found | Quot.sound, propext |
| Verif.Idl.C41_redefinition_refused | Quot.sound, propext |
| Verif.Idl.C41_submodules_unaffected | Quot.sound, propext |
| Verif.Idl.C41_first_definition_stays | Quot.sound, propext |
| Verif.Idl.C41_replace | Quot.sound, propext |
| Verif.Idl.C41_registered_is_found | Classical.choice, Quot.sound, propext |
| Verif.Idl.C41_alias_refused_by_outer | Classical.choice, Quot.sound, propext |
| Verif.Idl.C41_scoped_alias_lost | Classical.choice, Quot.sound, propext |
| Verif.Idl.C41_refused_argument_renamed | Quot.sound, propext |
| Verif.Idl.C41_add_alias | Quot.sound, propext |
| Verif.Idl.C41_create_alias | Classical.choice, Quot.sound, propext |
| Verif.Idl.C42_complete_partial | Quot.sound, propext |
| Verif.Idl.C42_sound | Quot.sound, propext |
| Verif.Idl.C42_two_kinds_lost | Classical.choice, Quot.sound, propext |
| Verif.Idl.C42_null_submodule | propext |
| Verif.Idl.C42_increasing | Classical.choice, Quot.sound, propext |
| Verif.Idl.C43_existing_partial | Quot.sound, propext |
| Verif.Idl.C43_lookup_creates | Quot.sound, propext |
| Verif.Idl.C43_create | Quot.sound, propext |
| Verif.Expr.C44_parsed_with_right_grouping | Classical.choice, Quot.sound, propext |
| Verif.Expr.C44_constant_expression_value_partial | Classical.choice, Quot.sound, propext |
| Verif.Expr.C44_not_left_associative | Quot.sound, propext |
| Verif.Expr.C44_not_left_associative_div | Quot.sound, propext |
| Verif.Expr.C44_not_complement | Quot.sound, propext |
| Verif.Expr.C44_not_negated_unsigned | Classical.choice, Quot.sound, propext |
| Verif.Idl.C44_text_exact | Classical.choice, Quot.sound, propext |
| Verif.Idl.C44_text_value_partial | Classical.choice, Quot.sound, propext |
| Verif.Idl.C44_text_not_standard | Classical.choice, Quot.sound, propext |
| Verif.Idl.C44_text_rejected | Classical.choice, Quot.sound, propext |
| Verif.Idl.Dep.C45_returns_iff | Classical.choice, Quot.sound, propext |
| Verif.Idl.Dep.C45_exactly_once_partial | Classical.choice, Quot.sound, propext |
| Verif.Idl.Dep.C46_before_use_partial | Classical.choice, Quot.sound, propext |
| Verif.Idl.Dep.C46_violated_kind | Classical.choice, Quot.sound, propext |
| Verif.Idl.Dep.C46_violated_chain | Classical.choice, Quot.sound, propext |
| Verif.Idl.Dep.C46_violated_collection | Classical.choice, Quot.sound, propext |
| Verif.Idl.Dep.C46_violated_early | Classical.choice, Quot.sound, propext |
| Verif.Idl.Dep.C46_violated_shadow | Classical.choice, Quot.sound, propext |
| Verif.Text.C47_dimensions_partial | Classical.choice, Quot.sound, propext |
| Verif.Text.C47_violated_nested | Classical.choice, Quot.sound, propext |
| Verif.Text.C48_roundtrip_iff_partial | Classical.choice, Quot.sound, propext |
| Verif.Text.C48_violated_negative | Classical.choice, Quot.sound, propext |
| Verif.Text.C48_enum_partial | Classical.choice, Quot.sound, propext |
| Verif.Text.C48_violated_alias | Classical.choice, Quot.sound, propext |
| Verif.Text.C48_list | Classical.choice, Quot.sound, propext |
| Verif.Text.C48_case | Classical.choice, Quot.sound, propext |
| Verif.Text.C48_labels_of_unions | Classical.choice, Quot.sound, propext |
| Verif.Text.C48_member_partial | Classical.choice, Quot.sound, propext |
| Verif.Text.C48_default_once | Classical.choice, Quot.sound, propext |
| Verif.Log.C49_log_holds_exactly_admitted_messages | Quot.sound, propext |
| Verif.Log.C49_printed_exactly_when_enabled | Quot.sound, propext |
| Verif.Log.C49_query_at_least | propext |
| Verif.Log.C49_query_strict | propext |
| Verif.Inst.C50_name_identifies_partial | Classical.choice, Quot.sound, propext |
| Verif.Inst.C50_comparison_partial | Classical.choice, Quot.sound, propext |
| Verif.Inst.C50_fails_multi | Quot.sound, propext |
| Verif.Inst.C50_fails_same_name | Quot.sound, propext |
| Verif.C51_union_layout | Classical.choice, Quot.sound, propext |
| Verif.C52_flags_partial | Classical.choice, Quot.sound, propext |
| Verif.C52_equals_not_same | Classical.choice, Quot.sound, propext |
| Verif.Codec.C53_returns | Classical.choice, Quot.sound, propext |
| Verif.Codec.C53_out_partial | Classical.choice, Quot.sound, propext |
| Verif.Codec.C53_in_partial | Classical.choice, Quot.sound, propext |
| Verif.Codec.C53_deterministic | propext |
| Verif.Codec.C53_in_basic_partial | Classical.choice, Quot.sound, propext |
| Verif.Codec.C53_out_ascii_partial | Classical.choice, Quot.sound, propext |
| Verif.Codec.C53_short_partial | Classical.choice, Quot.sound, propext |
| Verif.Codec.C53_violated | Classical.choice, Quot.sound, propext |
| Verif.Codec.C53_diverges_out | Classical.choice, Quot.sound, propext |
| Verif.Codec.C53_diverges_in | Classical.choice, Quot.sound, propext |
| Verif.Codec.C53_throws_out | Classical.choice, Quot.sound, propext |
| Verif.Codec.C53_throws_in | Classical.choice, Quot.sound, propext |
| Verif.Codec.C53_outcomes_in | Classical.choice, Quot.sound, propext |
| Verif.Codec.C53_outcomes_out | Classical.choice, Quot.sound, propext |
| Verif.Inst.C54_size | Classical.choice, Quot.sound, propext |
| Verif.Inst.C54_iteration | Classical.choice, Quot.sound, propext |
| Verif.Inst.C54_iteration_refused | propext |
| Verif.Inst.C54_index | Classical.choice, Quot.sound, propext |
| Verif.Inst.C54_index_map | propext |
| Verif.Inst.C54_iteration_index | Classical.choice, Quot.sound, propext |
| Verif.Inst.C54_assign_partial | none |
| Verif.Inst.C54_assign_fails | propext |
| Verif.Inst.C54_items | Classical.choice, Quot.sound, propext |
| Verif.Inst.C54_index_parts | Classical.choice, Quot.sound, propext |
| Verif.Inst.C54_items_union_partial | Classical.choice, Quot.sound, propext |
| Verif.Inst.C54_items_fail_union | Classical.choice, Quot.sound, propext |
| Verif.Inst.C55_cast | Classical.choice, Quot.sound, propext |
| Verif.Inst.C55_cast_self | Classical.choice, Quot.sound, propext |
| Verif.Inst.C55_cast_convert | Classical.choice, Quot.sound, propext |
| Verif.Inst.C55_cast_refused | propext |
| Verif.Inst.C55_cast_string_partial | Classical.choice, Quot.sound, propext |
| Verif.Inst.C55_numerals_injective | Classical.choice, Quot.sound, propext |
| Verif.Inst.C55_cast_string_fails_wide | Quot.sound, propext |
| Verif.Inst.C56_as_vector_partial | Classical.choice, Quot.sound, propext |
| Verif.Inst.C56_refused | Quot.sound, propext |
| Verif.Inst.C56_fails_empty_sequence | Classical.choice, Quot.sound, propext |
| Verif.Inst.C56_fails_alias | propext |
| Verif.Inst.C57_to_string_partial | Classical.choice, Quot.sound, propext |
| Verif.Inst.C57_fails_wide_char | Classical.choice, Quot.sound, propext |
| Verif.Inst.C57_fails_unselected | Classical.choice, Quot.sound, propext |
| Verif.Inst.C57_fails_int8 | Classical.choice, Quot.sound, propext |
| Verif.Inst.C57_fails_enum | Classical.choice, Quot.sound, propext |
| Verif.Inst.C58_own_memory_partial | Classical.choice, Quot.sound, propext |
| Verif.Inst.C58_fails_data_of_reference | Quot.sound, propext |
| Verif.Inst.C58_moved_reference | Quot.sound, propext |
| Verif.Inst.C59_hash_of | Classical.choice, Quot.sound, propext |
| Verif.Inst.C59_lookup_partial | Classical.choice, Quot.sound, propext |
| Verif.Inst.C59_write_partial | Classical.choice, Quot.sound, propext |
| Verif.Inst.C59_full_refused_partial | Classical.choice, Quot.sound, propext |
| Verif.Inst.C59_insert_partial | Classical.choice, Quot.sound, propext |
| Verif.Inst.C59_insert_leaks | Classical.choice, Quot.sound, propext |
| Verif.Inst.C59_fails_wrong_key | Classical.choice, Quot.sound, propext |
| Verif.Idl.C60_round_trip | Classical.choice, Quot.sound, propext |
| Verif.Idl.C60_module | Classical.choice, Quot.sound, propext |
| Verif.Idl.C60_struct | Classical.choice, Quot.sound, propext |
| Verif.Idl.C60_keyword_digit_fails | Classical.choice, Quot.sound, propext |
| Verif.Idl.C60_underscore_fails | Classical.choice, Quot.sound, propext |
| Verif.Idl.C60_member_name_fails | Classical.choice, Quot.sound, propext |
| Verif.Idl.C60_inner_array_fails | Classical.choice, Quot.sound, propext |
| Verif.Idl.C60_char16_fails | Classical.choice, Quot.sound, propext |
| Verif.Idl.C60_enum_values_fail | Classical.choice, Quot.sound, propext |
| Verif.Idl.C60_typedef_list_fails | Classical.choice, Quot.sound, propext |
| Verif.Idl.C60_radix_fails | Classical.choice, Quot.sound, propext |
| Verif.Idl.C60_constant_bound_fails | Classical.choice, Quot.sound, propext |
| Verif.Idl.C60_any_diverges | Classical.choice, Quot.sound, propext |
| Verif.Idl.C60_comment_fails | Classical.choice, Quot.sound, propext |
| Verif.Idl.C60_string_bound_ub | Classical.choice, Quot.sound, propext |
| Verif.Idl.C60_boolean_constant | Classical.choice, Quot.sound, propext |
| Verif.Idl.C60_true_constant_fails | Classical.choice, Quot.sound, propext |
| Verif.Idl.C60_char_constant_fails | Classical.choice, Quot.sound, propext |
| Verif.Idl.C60_wide_constant_fails | Classical.choice, Quot.sound, propext |
| Verif.Idl.C60_least_constant_fails | Classical.choice, Quot.sound, propext |
| Verif.Idl.C60_quoted_constant_fails | Classical.choice, Quot.sound, propext |
| Verif.Idl.C60_unknown_constant_fails | Classical.choice, Quot.sound, propext |
| Verif.Idl.C60_same_constant_fails | Classical.choice, Quot.sound, propext |
| Verif.Idl.C60_octet_constant_fails | Classical.choice, Quot.sound, propext |
| Verif.Idl.C60_wrong_literal_fails | Classical.choice, Quot.sound, propext |
| Verif.Idl.C60_bounded_constant_fails | Classical.choice, Quot.sound, propext |
| Verif.Idl.C60_joined_constant | Classical.choice, Quot.sound, propext |
| Verif.Idl.C60_alias_constant | Classical.choice, Quot.sound, propext |
| Verif.Idl.C60_other_type_constant_fails | Classical.choice, Quot.sound, propext |
| Verif.Idl.C60_in_module | Classical.choice, Quot.sound, propext |
| Verif.Idl.C60_empty_module_fails | Classical.choice, Quot.sound, propext |
| Verif.Idl.C60_shadowed_type_fails | Classical.choice, Quot.sound, propext |
| Verif.Idl.C60_hidden_module_fails | Classical.choice, Quot.sound, propext |
| Verif.Idl.C60_enumerator_clash_fails | Classical.choice, Quot.sound, propext |
| Verif.Idl.C60_union | Classical.choice, Quot.sound, propext |
| Verif.Idl.C60_single_case_fails | Classical.choice, Quot.sound, propext |
| Verif.Idl.C60_default_label_fails | Classical.choice, Quot.sound, propext |
| Verif.Idl.C60_negative_label_fails | Classical.choice, Quot.sound, propext |
| Verif.Idl.C60_quote_label_fails | Classical.choice, Quot.sound, propext |
| Verif.Idl.C60_boolean_label_fails | Classical.choice, Quot.sound, propext |
| Verif.Idl.C60_default_blank_fails | Classical.choice, Quot.sound, propext |
| Verif.Idl.C60_label_expression_fails | Classical.choice, Quot.sound, propext |
| Verif.Idl.C60_forward_union_fails | Classical.choice, Quot.sound, propext |
| Verif.Idl.C61_ordered_partial | Classical.choice, Quot.sound, propext |
| Verif.Idl.C61_round_trip_partial | Classical.choice, Quot.sound, propext |
| Verif.Idl.C61_text_iff | Classical.choice, Quot.sound, propext |
| Verif.Idl.C61_order_fails | Classical.choice, Quot.sound, propext |
| Verif.Idl.C61_empty_module_fails | Classical.choice, Quot.sound, propext |
| Verif.Idl.C61_enumerators_fail | Classical.choice, Quot.sound, propext |
| Verif.Idl.C61_member_name_fails | Classical.choice, Quot.sound, propext |
| Verif.Idl.C62_total | Classical.choice, Quot.sound, propext |
| Verif.Idl.C62_ends | Classical.choice, Quot.sound, propext |
| Verif.Idl.C62_no_half | Classical.choice, Quot.sound, propext |
| Verif.Idl.C62_keeps | Classical.choice, Quot.sound, propext |
| Verif.Idl.C62_keeps_all | Classical.choice, Quot.sound, propext |
| Verif.Idl.C62_quad_diverges | Classical.choice, Quot.sound, propext |
| Verif.Idl.C62_half_diverges | Classical.choice, Quot.sound, propext |
| Verif.Idl.C62_inline_diverges | Classical.choice, Quot.sound, propext |
| Verif.Idl.C62_self_member | Classical.choice, Quot.sound, propext |
| Verif.Idl.C62_forward_member | Classical.choice, Quot.sound, propext |
| Verif.Idl.C62_meaning_fails | Classical.choice, Quot.sound, propext |
| Verif.Idl.C62_second_constant | Classical.choice, Quot.sound, propext |
| Verif.Idl.C63_made | Classical.choice, Quot.sound, propext |
| Verif.Idl.C63_made_all | Classical.choice, Quot.sound, propext |
| Verif.Idl.C63_found | Classical.choice, Quot.sound, propext |
| Verif.Idl.C63_usable_partial | Classical.choice, Quot.sound, propext |
| Verif.Idl.C63_reserved_fails | Classical.choice, Quot.sound, propext |
| Verif.Idl.C64_accepted | Classical.choice, Quot.sound, propext |
| Verif.Idl.C64_unambiguous | Classical.choice, Quot.sound, propext |
| Verif.Idl.C64_same | Classical.choice, Quot.sound, propext |
| Verif.Idl.C64_ignored | Classical.choice, Quot.sound, propext |
| Verif.Idl.C64_parts | Classical.choice, Quot.sound, propext |
| Verif.Idl.C64_enumerator_fails | Classical.choice, Quot.sound, propext |
| Verif.Idl.C64_annotation_fails | Classical.choice, Quot.sound, propext |
| Verif.Idl.C64_default_blank_fails | Classical.choice, Quot.sound, propext |
| Verif.Idl.C64_native_fails | Classical.choice, Quot.sound, propext |
| Verif.Idl.C64_typedef_fails | Classical.choice, Quot.sound, propext |
| Verif.Pre.C65_quoted_iff | Classical.choice, Quot.sound, propext |
| Verif.Pre.C65_command_partial | Classical.choice, Quot.sound, propext |
| Verif.Pre.C65_undefined | Classical.choice, Quot.sound, propext |
| Verif.Pre.C65_executes_fails | Classical.choice, Quot.sound, propext |
| Verif.Pre.C65_substitution_fails | Classical.choice, Quot.sound, propext |
| Verif.Pre.C65_backslash_fails | Classical.choice, Quot.sound, propext |
| Verif.Pre.C65_echo | Classical.choice, Quot.sound, propext |
| Verif.Pre.C65_file_partial | Classical.choice, Quot.sound, propext |
| Verif.Pre.C65_file_fails | Classical.choice, Quot.sound, propext |
| Verif.Pre.C65_output_partial | Quot.sound, propext |
| Verif.Pre.C65_output_fails | Classical.choice, Quot.sound, propext |
| Verif.Pre.C65_preprocessed_partial | Classical.choice, Quot.sound, propext |
| Verif.Pre.C65_reads_partial | Classical.choice, Quot.sound, propext |
| Verif.Types.C66_alive | Quot.sound, propext |
| Verif.Types.C66_pointer | Quot.sound, propext |
| Verif.Types.C66_datum | Quot.sound, propext |
| Verif.Types.C66_part | Quot.sound, propext |
| Verif.Types.C66_possible | Quot.sound, propext |
| Verif.Types.C66_data_partial | Quot.sound, propext |
| Verif.Types.C66_pointer_partial | Quot.sound, propext |
| Verif.Types.C66_variable_partial | Quot.sound, propext |
| Verif.Types.C66_data_fails | Quot.sound, propext |
| Verif.Types.C66_primitive_fails | Quot.sound, propext |
| Verif.Types.C66_enumerator_fails | Quot.sound, propext |
| Verif.Contexts.C67_apart | Classical.choice, Quot.sound, propext |
| Verif.Contexts.C67_shares | Classical.choice, Quot.sound, propext |
| Verif.Contexts.C67_alone_partial | Classical.choice, Quot.sound, propext |
| Verif.Contexts.C67_never | Classical.choice, Quot.sound, propext |
| Verif.Contexts.C67_success | Classical.choice, Quot.sound, propext |
| Verif.Contexts.C67_reads | Classical.choice, Quot.sound, propext |
| Verif.Contexts.C67_reads_new | Classical.choice, Quot.sound, propext |
| Verif.Contexts.C67_same | Classical.choice, Quot.sound, propext |
| Verif.Contexts.C67_parser_partial | Classical.choice, Quot.sound, propext |
| Verif.Contexts.C67_parser_fails | Classical.choice, Quot.sound, propext |
| Verif.Contexts.C67_parser_new_fails | Classical.choice, Quot.sound, propext |
| Verif.Contexts.C67_keeps | Classical.choice, Quot.sound, propext |
| Verif.Contexts.C67_clear | Classical.choice, Quot.sound, propext |
| Verif.Contexts.C67_success_fails | Classical.choice, Quot.sound, propext |
| Verif.Contexts.C67_copy_fails | Classical.choice, Quot.sound, propext |
| Verif.Contexts.C67_clear_fails | Classical.choice, Quot.sound, propext |
| Verif.Idl.C68_visits | Classical.choice, Quot.sound, propext |
| Verif.Idl.C68_direct | Classical.choice, Quot.sound, propext |
| Verif.Idl.C68_asked_fails | Classical.choice, Quot.sound, propext |
| Verif.Idl.C69_around | Classical.choice, Quot.sound, propext |
| Verif.Idl.C69_search | Classical.choice, Quot.sound, propext |
| Verif.Idl.C69_sound | Classical.choice, Quot.sound, propext |
| Verif.Idl.C69_complete_partial | Classical.choice, Quot.sound, propext |
| Verif.Idl.C69_first_submodule_fails | Classical.choice, Quot.sound, propext |
| Verif.Idl.C69_asked_fails | Classical.choice, Quot.sound, propext |
| Verif.Idl.C69_rooted | Classical.choice, Quot.sound, propext |
| Verif.Idl.C69_carried | Quot.sound, propext |
| Verif.Idl.C69_resolved | Quot.sound, propext |
| Verif.Idl.C69_rooted_constant_fails | Classical.choice, Quot.sound, propext |
| Verif.Inst.C70_for_each_partial | Classical.choice, Quot.sound, propext |
| Verif.Inst.C70_succeeds | Classical.choice, Quot.sound, propext |
| Verif.Inst.C70_determined | propext |
| Verif.Inst.C70_visited | Classical.choice, Quot.sound, propext |
| Verif.Inst.C70_map | Classical.choice, Quot.sound, propext |
| Verif.Inst.C70_fails_keys | Quot.sound, propext |
| Verif.Inst.C70_fails_switch | Classical.choice, Quot.sound, propext |
| Verif.Pre.C71_file_partial | Classical.choice, Quot.sound, propext |
| Verif.Pre.C71_file_plain | Classical.choice, Quot.sound, propext |
| Verif.Pre.C71_reads_partial | Classical.choice, Quot.sound, propext |
| Verif.Pre.C71_same_partial | Classical.choice, Quot.sound, propext |
| Verif.Pre.C71_strategies_partial | Classical.choice, Quot.sound, propext |
| Verif.Pre.C71_disk | Classical.choice, Quot.sound, propext |
| Verif.Pre.C71_history | Classical.choice, Quot.sound, propext |
| Verif.Pre.C71_clean | Classical.choice, Quot.sound, propext |
| Verif.Pre.C71_refused | Classical.choice, Quot.sound, propext |
| Verif.Pre.C71_throws | Classical.choice, Quot.sound, propext |
| Verif.Pre.C71_missing | Classical.choice, Quot.sound, propext |
| Verif.Pre.C71_status_fails | Classical.choice, Quot.sound, propext |
| Verif.Pre.C71_full_fails | Classical.choice, Quot.sound, propext |
| Verif.Pre.C71_blank_fails | Classical.choice, Quot.sound, propext |
| Verif.Pre.C71_leaves_fails | Classical.choice, Quot.sound, propext |
| Verif.Inst.C72_loop_partial | Classical.choice, Quot.sound, propext |
| Verif.Inst.C72_items_partial | Classical.choice, Quot.sound, propext |
| Verif.Inst.C72_refused | Quot.sound, propext |
| Verif.Inst.C72_looks | Classical.choice, Quot.sound, propext |
| Verif.Inst.C72_looks_items | Classical.choice, Quot.sound, propext |
| Verif.Inst.C72_map | Quot.sound, propext |
| Verif.Inst.C72_map_string | Quot.sound, propext |
| Verif.Inst.C72_numbers | Classical.choice, Quot.sound, propext |
| Verif.Inst.C72_chars | Classical.choice, Quot.sound, propext |
| Verif.Inst.C72_append | Classical.choice, Quot.sound, propext |
| Verif.Inst.C72_shrinks_fails | Quot.sound, propext |
| Verif.Inst.C72_keys_fails | Quot.sound, propext |
| Verif.Inst.C72_items_union_fails | Quot.sound, propext |
| Verif.C73_primitive | Quot.sound, propext |
| Verif.C73_enumerated | Quot.sound, propext |
| Verif.C73_collection | Quot.sound, propext |
| Verif.C73_aggregation | Quot.sound, propext |
| Verif.C73_constructed | Quot.sound, propext |
| Verif.C73_disjoint | Quot.sound, propext |
| Verif.C73_kinds | propext |
| Verif.C73_signs | Classical.choice, Quot.sound, propext |
| Verif.C73_model | Quot.sound, propext |
| Verif.Inst.C74_value_partial | Classical.choice, Quot.sound, propext |
| Verif.Inst.C74_number_partial | Classical.choice, Quot.sound, propext |
| Verif.Inst.C74_last_member_partial | Classical.choice, Quot.sound, propext |
| Verif.Inst.C74_last_element_partial | Classical.choice, Quot.sound, propext |
| Verif.Inst.C74_fails_sequence | Classical.choice, Quot.sound, propext |
| Verif.Inst.C74_fails_union | Classical.choice, Quot.sound, propext |
| Verif.StructM.C75_settings | Quot.sound, propext |
| Verif.StructM.C75_added | Classical.choice, Quot.sound, propext |
| Verif.StructM.C75_history | Classical.choice, Quot.sound, propext |
| Verif.StructM.C75_parent | Classical.choice, Quot.sound, propext |
| Verif.StructM.C75_inherited | Classical.choice, Quot.sound, propext |
| Verif.StructM.C75_layout | Classical.choice, Quot.sound, propext |
| Verif.UnionM.C75_union_added | Classical.choice, Quot.sound, propext |
| Verif.UnionM.C75_union_history | Classical.choice, Quot.sound, propext |
| Verif.UnionM.C75_union_layout | Classical.choice, Quot.sound, propext |
| Verif.UnionM.C75_union_refused_stays | Classical.choice, Quot.sound, propext |
| Verif.Inst.C76_empty | Quot.sound, propext |
| Verif.Inst.C76_read_partial | Classical.choice, Quot.sound, propext |
| Verif.Inst.C76_write_partial | Classical.choice, Quot.sound, propext |
| Verif.Inst.C76_history_partial | Classical.choice, Quot.sound, propext |
| Verif.Text.C77_number_partial | Classical.choice, Quot.sound, propext |
| Verif.Text.C77_fails | Classical.choice, Quot.sound, propext |
