{
 "claims": [
  {
   "property": "C01",
   "status": "proved",
   "theorems": [
    "Verif.C01_sequence_is_list",
    "Verif.C01_no_undefined_behaviour"
   ],
   "note": "Every history of operations; the sequence behaves as the list, no undefined behaviour on the proved domain."
  },
  {
   "property": "C02",
   "status": "proved",
   "theorems": [
    "Verif.C02_bound_respected",
    "Verif.C02_push"
   ],
   "note": "Full statement over every history."
  },
  {
   "property": "C03",
   "status": "partial",
   "theorems": [
    "Verif.C03_overflow_undefined",
    "Verif.C03_self_push_undefined",
    "Verif.C03_storage_partial",
    "Verif.C03_realloc_preserves"
   ],
   "note": "False in general: 32-bit byte counts wrap and self-push reads freed memory (both negations proved with witnesses); the rest is C03_storage_partial."
  },
  {
   "property": "C04",
   "status": "proved",
   "theorems": [
    "Verif.C04_growth_amortised"
   ],
   "note": "Element moves over any number of pushes are fewer than 2n."
  },
  {
   "property": "C05",
   "status": "proved",
   "theorems": [
    "Verif.C05_map_sorted"
   ],
   "note": "Over every history of map operations."
  },
  {
   "property": "C06",
   "status": "proved",
   "theorems": [
    "Verif.C06_finite_map",
    "Verif.C06_no_undefined_behaviour",
    "Verif.C06_self_insert_undefined"
   ],
   "note": "Refinement to a finite map for every history, under the hypothesis that the keys used have pairwise distinct hashes (which C07 gives for keys of at most 8 bytes); C06_self_insert_undefined shows reading a freed block when a map inserts its own element on growth."
  },
  {
   "property": "C07",
   "status": "proved",
   "theorems": [
    "Verif.C07_hash_injective_8",
    "Verif.C07_fails_above_8"
   ],
   "note": "Injective up to 8 bytes; C07_fails_above_8 exhibits a collision at 16 bytes."
  },
  {
   "property": "C08",
   "status": "partial",
   "theorems": [
    "Verif.C08_equal_hash_confused",
    "Verif.C08_confused_concrete",
    "Verif.C08_distinct_hash_partial"
   ],
   "note": "False: keys with equal hash are confused (proved, with concrete colliding keys); holds when hashes are distinct (C08_distinct_hash_partial)."
  },
  {
   "property": "C09",
   "status": "proved",
   "theorems": [
    "Verif.C09_order_independent",
    "Verif.C09_set_order"
   ],
   "note": "Any two insertion orders, for keys whose hashes are pairwise distinct (what happens otherwise is C08)."
  },
  {
   "property": "C10",
   "status": "proved",
   "theorems": [
    "Verif.C10_bound_respected",
    "Verif.C10_refusals"
   ],
   "note": "Every history of a bounded map."
  },
  {
   "property": "C11",
   "status": "partial",
   "theorems": [
    "Verif.C11_insert_loses_value",
    "Verif.C11_insert_partial"
   ],
   "note": "False: insert(pair) stores only the key (C11_insert_loses_value); what does hold is C11_insert_partial."
  },
  {
   "property": "C12",
   "status": "partial",
   "theorems": [
    "Verif.Inst.C12_equal_hash_partial",
    "Verif.Inst.C12_fails_negative_zero",
    "Verif.Inst.C12_fails_bounded_sequence",
    "Verif.Inst.C12_fails_sequence_of_strings",
    "Verif.Inst.C12_fails_union",
    "Verif.Inst.C12_equal_hash_floats_partial",
    "Verif.Inst.C12_fails_long_double"
   ],
   "note": "False in general (floating point zeros, long double padding, bounded sequences, unions: all proved with witnesses); proved for well-formed types with unbounded sequences and no label equal to a discriminator hash, independently of addresses, for all values without a floating point zero or long double outside of collections of numbers."
  },
  {
   "property": "C13",
   "status": "proved",
   "theorems": [
    "Verif.C13_struct_layout"
   ],
   "note": "Every list of members: offsets increasing, aligned, non-overlapping, size."
  },
  {
   "property": "C14",
   "status": "proved",
   "theorems": [
    "Verif.C14_inheritance_layout"
   ],
   "note": "Every parent and every child built through the API."
  },
  {
   "property": "C15",
   "status": "proved",
   "theorems": [
    "Verif.C15_member_names"
   ],
   "note": "Every structure type built through the API."
  },
  {
   "property": "C16",
   "status": "partial",
   "theorems": [
    "Verif.Inst.C16_default_construction_partial",
    "Verif.Inst.C16_construct_in_place_partial",
    "Verif.Inst.C16_built_union_partial",
    "Verif.Inst.C16_default_fails_reserved_label",
    "Verif.Inst.C16_default_fails_narrow_enum"
   ],
   "note": "Proved for all well-formed types (Ty.WF: union types whose labels name members, discriminators of full width). Missing: unions with the reserved default value used as a label, and 8/16-bit enumeration discriminators, where it is false (counterexamples proved)."
  },
  {
   "property": "C17",
   "status": "partial",
   "theorems": [
    "Verif.Inst.C17_copy_exact_partial",
    "Verif.Inst.C17_copy_in_place_partial",
    "Verif.Inst.C17_copy_independent_partial",
    "Verif.Inst.C17_unselected_refused",
    "Verif.Inst.C17_copy_fails_alias_of_union",
    "Verif.Inst.C17_copy_fails_narrow_enum"
   ],
   "note": "Proved for every Copyable type and every value, including every later write to either copy. False for sequences of aliases of unions and for narrow enumerations (counterexamples proved); unselected unions are refused."
  },
  {
   "property": "C18",
   "status": "partial",
   "theorems": [
    "Verif.Inst.C18_write_read_partial",
    "Verif.Inst.C18_write_number_partial",
    "Verif.Inst.C18_write_string_partial",
    "Verif.Inst.C18_write_char_partial",
    "Verif.Inst.C18_fails_narrow_enum"
   ],
   "note": "Proved for every operation through every pair of paths; missing: narrow enumerations as union discriminators (counterexample proved)."
  },
  {
   "property": "C19",
   "status": "partial",
   "theorems": [
    "Verif.Inst.C19_leafwise_partial",
    "Verif.Inst.C19_defined_partial",
    "Verif.Inst.C19_symmetric_partial",
    "Verif.Inst.C19_transitive_partial",
    "Verif.Inst.C19_reflexive_partial",
    "Verif.Inst.C19_value_partial",
    "Verif.Inst.C19_observational_partial",
    "Verif.Inst.C19_fails_nan",
    "Verif.Inst.C19_fails_negative_zero",
    "Verif.Inst.C19_value_floats_partial"
   ],
   "note": "Defined, symmetric, transitive for every well-formed type; reflexive without nan; leafwise unless floats are direct elements of collections (memcmp), for which the failing cases are proved; without floats it is observational equality through all access paths. A value without zeros, nans and long doubles outside of collections of numbers equals exactly the data with the same value."
  },
  {
   "property": "C20",
   "status": "proved",
   "theorems": [
    "Verif.C20_compat_refl",
    "Verif.C20_compatMems_refl"
   ],
   "note": "Reflexivity over every type."
  },
  {
   "property": "C21",
   "status": "partial",
   "theorems": [
    "Verif.C21_symmetry_fails_enum",
    "Verif.C21_symmetry_fails_struct",
    "Verif.C21_symmetry_fails_pair",
    "Verif.C21_compat_symm_partial",
    "Verif.C21_compatMems_symm_partial"
   ],
   "note": "False as stated (three counterexamples proved); proved for the types of Ty.regular."
  },
  {
   "property": "C22",
   "status": "proved",
   "theorems": [
    "Verif.C22_equals_same_size",
    "Verif.C22_equals_mems"
   ],
   "note": "All pairs of types."
  },
  {
   "property": "C23",
   "status": "partial",
   "theorems": [
    "Verif.C23_alias_transparent_fails",
    "Verif.C23_compat_alias_partial"
   ],
   "note": "False as stated for union members/labels, see C23_alias_transparent_fails; proved otherwise."
  },
  {
   "property": "C24",
   "status": "proved",
   "theorems": [
    "Verif.C24_consistency_algebra",
    "Verif.C24_combination_order",
    "Verif.C24_intersection"
   ],
   "note": "All flag combinations, and the use made of them for lists of parts."
  },
  {
   "property": "C25",
   "status": "proved",
   "theorems": [
    "Verif.C25_incompatible_part",
    "Verif.C25_one_member"
   ],
   "note": "All pairs of types; the second theorem says what holds for one-member structures. Meaning of the single flags: C52."
  },
  {
   "property": "C26",
   "status": "partial",
   "theorems": [
    "Verif.Inst.C26_convert_safe_partial",
    "Verif.Inst.C26_convert_in_place_partial",
    "Verif.Inst.C26_incompatible_refused",
    "Verif.Inst.C26_fails_two_more_members",
    "Verif.Inst.C26_fails_longer_array",
    "Verif.Inst.C26_fails_narrow_enum",
    "Verif.Inst.C26_fails_alias_of_union"
   ],
   "note": "Proved for the pairs of types in Convertible; false otherwise: four counterexamples proved."
  },
  {
   "property": "C27",
   "status": "partial",
   "theorems": [
    "Verif.Inst.C27_convert_value_partial",
    "Verif.Inst.C27_conv_keeps",
    "Verif.Inst.C27_fails_pair_of_other_size",
    "Verif.Inst.C27_fails_int_to_float_elements"
   ],
   "note": "Value of the conversion proved for Convertible pairs and what that value keeps for all; false otherwise: counterexamples proved."
  },
  {
   "property": "C28",
   "status": "proved",
   "theorems": [
    "Verif.Inst.C28_convert",
    "Verif.Inst.C28_fits_self",
    "Verif.Inst.C28_convert_round_trip"
   ],
   "note": "All integral kinds and all byte patterns."
  },
  {
   "property": "C29",
   "status": "partial",
   "theorems": [
    "Verif.Inst.C29_string_bound_partial",
    "Verif.Inst.C29_longest_prefix",
    "Verif.Inst.C29_convert_clips"
   ],
   "note": "Invariant of all programs of allowed statements (Reach); the statements that Allowed excludes (moves of owning data, self assignment, ...) are missing."
  },
  {
   "property": "C30",
   "status": "partial",
   "theorems": [
    "Verif.Inst.C30_no_undefined_behaviour_partial",
    "Verif.Inst.C30_no_leak_partial",
    "Verif.Inst.C30_dispose_returns_all_partial",
    "Verif.Inst.C30_self_assignment_fails",
    "Verif.Inst.C30_move_leaks",
    "Verif.Inst.C30_bounded_contents_leak",
    "Verif.Inst.C30_growth_fails_union_of_sequence",
    "Verif.Inst.C30_assign_fails_swapped_labels"
   ],
   "note": "Invariant of all programs of allowed statements; each exclusion is justified by a proved counterexample."
  },
  {
   "property": "C31",
   "status": "partial",
   "theorems": [
    "Verif.Inst.C31_one_live_member_partial",
    "Verif.Inst.C31_fails_disc_first"
   ],
   "note": "Invariant of all programs of allowed statements; setting the discriminator first breaks it (counterexample proved)."
  },
  {
   "property": "C32",
   "status": "partial",
   "theorems": [
    "Verif.C32_labels_unambiguous",
    "Verif.C32_bad_case_refused",
    "Verif.C32_accepted_case",
    "Verif.C32_labels_increasing",
    "Verif.C32_get_labels",
    "Verif.C32_refused_default_changes_union",
    "Verif.C32_refused_unchanged_partial",
    "Verif.C32_two_defaults",
    "Verif.C32_single_default_partial"
   ],
   "note": "'refused add changes nothing' and 'single default' are false (counterexamples proved); the remaining parts are proved."
  },
  {
   "property": "C33",
   "status": "partial",
   "theorems": [
    "Verif.Inst.C33_discriminator_partial",
    "Verif.Inst.C33_fails_negative_label"
   ],
   "note": "Both directions for non-negative labels; false for negative labels (counterexample proved)."
  },
  {
   "property": "C34",
   "status": "partial",
   "theorems": [
    "Verif.Inst.C34_select_member_partial",
    "Verif.Inst.C34_first_label",
    "Verif.Inst.C34_fails_no_label"
   ],
   "note": "For a union datum; false for a default member without labels (counterexample proved)."
  },
  {
   "property": "C35",
   "status": "partial",
   "theorems": [
    "Verif.C35_names_exact",
    "Verif.C35_injectivity_fails",
    "Verif.C35_injective_ordered_partial",
    "Verif.C35_implicit_follows"
   ],
   "note": "Injectivity false: explicit values may collide (counterexample proved); proved for ordered declarations."
  },
  {
   "property": "C36",
   "status": "partial",
   "theorems": [
    "Verif.C36_default_not_enumerator",
    "Verif.C36_enum_datum_partial"
   ],
   "note": "The default value 0 need not be an enumerator (counterexample proved); proved once a value was assigned."
  },
  {
   "property": "C37",
   "status": "partial",
   "theorems": [
    "Verif.Inst.C37_for_each_partial",
    "Verif.Inst.C37_for_each_type",
    "Verif.Inst.C37_preorder",
    "Verif.Inst.C37_preorder_type",
    "Verif.Inst.C37_stops",
    "Verif.Inst.C37_fails_unselected"
   ],
   "note": "Types: full. Data: for all values whose unions all have a selected member, and visitors that do not change the data (those that do: C70); for_each on an unselected union is refused (proved)."
  },
  {
   "property": "C38",
   "status": "proved",
   "theorems": [
    "Verif.Ops.C38_binary_operator",
    "Verif.Ops.C38_exact_when_representable",
    "Verif.Ops.C38_not_uint16_product",
    "Verif.Ops.C38_unsigned_total",
    "Verif.Ops.C38_floats",
    "Verif.Ops.C38_mismatch_refused",
    "Verif.Ops.C38_comparisons",
    "Verif.Ops.C38_trichotomy",
    "Verif.Ops.C38_compound_assignment",
    "Verif.Ops.C38_unary"
   ],
   "note": "All integer kinds and operand values; the points at which C++17 leaves the operation undefined are characterised exactly (among them uint16*uint16, C38_not_uint16_product)."
  },
  {
   "property": "C39",
   "status": "partial",
   "theorems": [
    "Verif.Ops.C39_prefix",
    "Verif.Ops.C39_postfix_effect_partial",
    "Verif.Ops.C39_not_postfix_yields_previous"
   ],
   "note": "Prefix forms proved; the postfix forms have the right effect but yield the new value (C39_not_postfix_yields_previous)."
  },
  {
   "property": "C40",
   "status": "partial",
   "theorems": [
    "Verif.Idl.C40_unqualified",
    "Verif.Idl.C40_rooted_partial",
    "Verif.Idl.C40_scoped_name",
    "Verif.Idl.C40_qualified",
    "Verif.Idl.C40_rooted_exact_fails",
    "Verif.Idl.C40_empty_component_diverges",
    "Verif.Idl.C40_hidden_by_other_kind",
    "Verif.Idl.C40_type_found",
    "Verif.Idl.C40_type_not_found"
   ],
   "note": "Unqualified names and the full account of qualified names are proved; the exactness of rooted names is false (C40_rooted_exact_fails) and names with an empty component recurse for ever."
  },
  {
   "property": "C41",
   "status": "proved",
   "theorems": [
    "Verif.Idl.C41_redefinition_refused",
    "Verif.Idl.C41_submodules_unaffected",
    "Verif.Idl.C41_first_definition_stays",
    "Verif.Idl.C41_replace",
    "Verif.Idl.C41_registered_is_found",
    "Verif.Idl.C41_alias_refused_by_outer",
    "Verif.Idl.C41_scoped_alias_lost",
    "Verif.Idl.C41_refused_argument_renamed",
    "Verif.Idl.C41_add_alias",
    "Verif.Idl.C41_create_alias"
   ],
   "note": "Every history of declarations."
  },
  {
   "property": "C42",
   "status": "partial",
   "theorems": [
    "Verif.Idl.C42_complete_partial",
    "Verif.Idl.C42_sound",
    "Verif.Idl.C42_two_kinds_lost",
    "Verif.Idl.C42_null_submodule",
    "Verif.Idl.C42_increasing"
   ],
   "note": "False when one name is used for two kinds of types in a module or a null submodule entry exists (both proved); complete otherwise."
  },
  {
   "property": "C43",
   "status": "partial",
   "theorems": [
    "Verif.Idl.C43_existing_partial",
    "Verif.Idl.C43_lookup_creates",
    "Verif.Idl.C43_create"
   ],
   "note": "False (C43_lookup_creates); holds for existing submodules."
  },
  {
   "property": "C44",
   "status": "partial",
   "theorems": [
    "Verif.Expr.C44_parsed_with_right_grouping",
    "Verif.Expr.C44_constant_expression_value_partial",
    "Verif.Expr.C44_not_left_associative",
    "Verif.Expr.C44_not_left_associative_div",
    "Verif.Expr.C44_not_complement",
    "Verif.Expr.C44_not_negated_unsigned",
    "Verif.Idl.C44_text_exact",
    "Verif.Idl.C44_text_value_partial",
    "Verif.Idl.C44_text_not_standard",
    "Verif.Idl.C44_text_rejected"
   ],
   "note": "False as stated: operators of one precedence group to the right, ~ and unary + are dropped, minus on unsigned types is refused (negations proved, also on texts). From the text on: C44_text_exact gives the outcome of every text of integer constant declarations in any layout; C44_text_value_partial gives the standard value for the expressions without those cases. Floating point and string constants are not in C44 (C60 covers string literals)."
  },
  {
   "property": "C45",
   "status": "partial",
   "theorems": [
    "Verif.Idl.Dep.C45_returns_iff",
    "Verif.Idl.Dep.C45_exactly_once_partial"
   ],
   "note": "Exactly-once is unconditional on trees for which the generator returns; C45_returns_iff says for exactly which trees that is. The specification of which constants are left out (EnumeratorConst) is separate from the model."
  },
  {
   "property": "C46",
   "status": "partial",
   "theorems": [
    "Verif.Idl.Dep.C46_before_use_partial",
    "Verif.Idl.Dep.C46_violated_kind",
    "Verif.Idl.Dep.C46_violated_chain",
    "Verif.Idl.Dep.C46_violated_collection",
    "Verif.Idl.Dep.C46_violated_early",
    "Verif.Idl.Dep.C46_violated_shadow"
   ],
   "note": "False of this code in five ways, each with a legal module tree as witness (C46_violated_*): fixed order of kinds, structures needed by a third one, typedefs of collections, elements of an outer module needed by a submodule, and a root type shadowed by a local one. Proved for all other uses (C46_before_use_partial)."
  },
  {
   "property": "C47",
   "status": "partial",
   "theorems": [
    "Verif.Text.C47_dimensions_partial",
    "Verif.Text.C47_violated_nested"
   ],
   "note": "Exact for struct/union members (stoul) and for typedefs with dimensions below 2^31 (atoi). False for arrays inside sequences and maps, whose dimensions are never printed (C47_violated_nested). These theorems take the dimensions as already recognised; the grammar itself is modelled in C60-C64."
  },
  {
   "property": "C48",
   "status": "partial",
   "theorems": [
    "Verif.Text.C48_roundtrip_iff_partial",
    "Verif.Text.C48_violated_negative",
    "Verif.Text.C48_enum_partial",
    "Verif.Text.C48_violated_alias",
    "Verif.Text.C48_list",
    "Verif.Text.C48_case",
    "Verif.Text.C48_labels_of_unions",
    "Verif.Text.C48_member_partial",
    "Verif.Text.C48_default_once"
   ],
   "note": "For primitive discriminators an exact characterisation of the labels that come back (C48_roundtrip_iff_partial), over all labels a union can keep (C48_labels_of_unions); for enumerations of 32 bits with identifiers as names all of them. False for negative labels of int64_t, which come back as the reserved value and are refused (C48_violated_negative), for aliases of enumerations (C48_violated_alias), other labels of Booleans, and wide characters beyond 16 bits."
  },
  {
   "property": "C49",
   "status": "proved",
   "theorems": [
    "Verif.Log.C49_log_holds_exactly_admitted_messages",
    "Verif.Log.C49_printed_exactly_when_enabled",
    "Verif.Log.C49_query_at_least",
    "Verif.Log.C49_query_strict"
   ],
   "note": "Over every history of log calls and level changes."
  },
  {
   "property": "C50",
   "status": "partial",
   "theorems": [
    "Verif.Inst.C50_name_identifies_partial",
    "Verif.Inst.C50_comparison_partial",
    "Verif.Inst.C50_fails_multi",
    "Verif.Inst.C50_fails_same_name"
   ],
   "note": "False: inner dimensions are not part of the name, and user-given names may coincide (both proved to lead to out-of-bounds reads in operator==); proved for arrays over library-named content."
  },
  {
   "property": "C51",
   "status": "proved",
   "theorems": [
    "Verif.C51_union_layout"
   ],
   "note": "Layout of every union."
  },
  {
   "property": "C52",
   "status": "partial",
   "theorems": [
    "Verif.C52_flags_partial",
    "Verif.C52_equals_not_same"
   ],
   "note": "Excluded in the _partial theorem: structures with exactly one member (Ty.multi), which the code compares with other types by their member; EQUALS does not mean 'same type' (C52_equals_not_same)."
  },
  {
   "property": "C53",
   "status": "partial",
   "theorems": [
    "Verif.Codec.C53_returns",
    "Verif.Codec.C53_out_partial",
    "Verif.Codec.C53_in_partial",
    "Verif.Codec.C53_deterministic",
    "Verif.Codec.C53_in_basic_partial",
    "Verif.Codec.C53_out_ascii_partial",
    "Verif.Codec.C53_short_partial",
    "Verif.Codec.C53_violated",
    "Verif.Codec.C53_diverges_out",
    "Verif.Codec.C53_diverges_in",
    "Verif.Codec.C53_throws_out",
    "Verif.Codec.C53_throws_in",
    "Verif.Codec.C53_outcomes_in",
    "Verif.Codec.C53_outcomes_out"
   ],
   "note": "False in general (C53_violated: every text of more than 21 three-byte characters; C53_diverges_*: the call does not return). C53_out_partial / C53_in_partial say for exactly which texts the result is right."
  },
  {
   "property": "C54",
   "status": "partial",
   "theorems": [
    "Verif.Inst.C54_size",
    "Verif.Inst.C54_iteration",
    "Verif.Inst.C54_iteration_refused",
    "Verif.Inst.C54_index",
    "Verif.Inst.C54_index_map",
    "Verif.Inst.C54_iteration_index",
    "Verif.Inst.C54_assign_partial",
    "Verif.Inst.C54_assign_fails",
    "Verif.Inst.C54_items",
    "Verif.Inst.C54_index_parts",
    "Verif.Inst.C54_items_union_partial",
    "Verif.Inst.C54_items_fail_union"
   ],
   "note": "Proved for all references to live values. Partial: iterator assignment (right for references of one type, C54_assign_fails otherwise) and items() of unions (unselected members are handed out, C54_items_fail_union)."
  },
  {
   "property": "C55",
   "status": "partial",
   "theorems": [
    "Verif.Inst.C55_cast",
    "Verif.Inst.C55_cast_self",
    "Verif.Inst.C55_cast_convert",
    "Verif.Inst.C55_cast_refused",
    "Verif.Inst.C55_cast_string_partial",
    "Verif.Inst.C55_numerals_injective",
    "Verif.Inst.C55_cast_string_fails_wide"
   ],
   "note": "Integral types; floating point values are opaque. C55_cast_string_fails_wide: wide strings are refused."
  },
  {
   "property": "C56",
   "status": "partial",
   "theorems": [
    "Verif.Inst.C56_as_vector_partial",
    "Verif.Inst.C56_refused",
    "Verif.Inst.C56_fails_empty_sequence",
    "Verif.Inst.C56_fails_alias"
   ],
   "note": "Right for every collection with at least one element or fixed size and content exactly T; C56_fails_empty_sequence and C56_fails_alias are violations."
  },
  {
   "property": "C57",
   "status": "partial",
   "theorems": [
    "Verif.Inst.C57_to_string_partial",
    "Verif.Inst.C57_fails_wide_char",
    "Verif.Inst.C57_fails_unselected",
    "Verif.Inst.C57_fails_int8",
    "Verif.Inst.C57_fails_enum"
   ],
   "note": "Right for every datum all of whose nodes have a line; C57_fails_wide_char, C57_fails_unselected, C57_fails_int8, C57_fails_enum are violations. The text of floats and code conversion are parameters (C53 for the latter)."
  },
  {
   "property": "C58",
   "status": "partial",
   "theorems": [
    "Verif.Inst.C58_own_memory_partial",
    "Verif.Inst.C58_fails_data_of_reference",
    "Verif.Inst.C58_moved_reference"
   ],
   "note": "Violated by DynamicData(const ReadableDynamicDataRef&) and DynamicData(WritableDynamicDataRef&&): C58_fails_data_of_reference holds for every datum and every part of its block."
  },
  {
   "property": "C59",
   "status": "partial",
   "theorems": [
    "Verif.Inst.C59_hash_of",
    "Verif.Inst.C59_lookup_partial",
    "Verif.Inst.C59_write_partial",
    "Verif.Inst.C59_full_refused_partial",
    "Verif.Inst.C59_insert_partial",
    "Verif.Inst.C59_insert_leaks",
    "Verif.Inst.C59_fails_wrong_key"
   ],
   "note": "At the level of memory cells, through any access path. Refuted in part: C59_insert_leaks, C59_fails_wrong_key; insert(pair) stores the default value and asserts on a duplicate key (C59_insert_partial, C11)."
  },
  {
   "property": "C60",
   "status": "proved",
   "theorems": [
    "Verif.Idl.C60_round_trip",
    "Verif.Idl.C60_module",
    "Verif.Idl.C60_struct",
    "Verif.Idl.C60_keyword_digit_fails",
    "Verif.Idl.C60_underscore_fails",
    "Verif.Idl.C60_member_name_fails",
    "Verif.Idl.C60_inner_array_fails",
    "Verif.Idl.C60_char16_fails",
    "Verif.Idl.C60_enum_values_fail",
    "Verif.Idl.C60_typedef_list_fails",
    "Verif.Idl.C60_radix_fails",
    "Verif.Idl.C60_constant_bound_fails",
    "Verif.Idl.C60_any_diverges",
    "Verif.Idl.C60_comment_fails",
    "Verif.Idl.C60_string_bound_ub",
    "Verif.Idl.C60_boolean_constant",
    "Verif.Idl.C60_true_constant_fails",
    "Verif.Idl.C60_char_constant_fails",
    "Verif.Idl.C60_wide_constant_fails",
    "Verif.Idl.C60_least_constant_fails",
    "Verif.Idl.C60_quoted_constant_fails",
    "Verif.Idl.C60_unknown_constant_fails",
    "Verif.Idl.C60_same_constant_fails",
    "Verif.Idl.C60_octet_constant_fails",
    "Verif.Idl.C60_wrong_literal_fails",
    "Verif.Idl.C60_bounded_constant_fails",
    "Verif.Idl.C60_joined_constant",
    "Verif.Idl.C60_alias_constant",
    "Verif.Idl.C60_other_type_constant_fails",
    "Verif.Idl.C60_in_module",
    "Verif.Idl.C60_empty_module_fails",
    "Verif.Idl.C60_shadowed_type_fails",
    "Verif.Idl.C60_hidden_module_fails",
    "Verif.Idl.C60_enumerator_clash_fails",
    "Verif.Idl.C60_union",
    "Verif.Idl.C60_single_case_fails",
    "Verif.Idl.C60_default_label_fails",
    "Verif.Idl.C60_negative_label_fails",
    "Verif.Idl.C60_quote_label_fails",
    "Verif.Idl.C60_boolean_label_fails",
    "Verif.Idl.C60_default_blank_fails",
    "Verif.Idl.C60_label_expression_fails",
    "Verif.Idl.C60_forward_union_fails"
   ],
   "note": "Structures with and without parent, unions, enumerations, aliases and constants of integer, Boolean and string types, in modules nested to any depth, any indentation, white space and comments. Refuted beyond that: C60_*_fails, C60_any_diverges, C60_string_bound_ub."
  },
  {
   "property": "C61",
   "status": "partial",
   "theorems": [
    "Verif.Idl.C61_ordered_partial",
    "Verif.Idl.C61_round_trip_partial",
    "Verif.Idl.C61_text_iff",
    "Verif.Idl.C61_order_fails",
    "Verif.Idl.C61_empty_module_fails",
    "Verif.Idl.C61_enumerators_fail",
    "Verif.Idl.C61_member_name_fails"
   ],
   "note": "Partial: for trees whose declarations the text can express (ExpressibleTree) and in which every use is printed after what it uses - C61_ordered_partial takes that as a hypothesis on the order the generator gives, C61_round_trip_partial has the kinds of uses for which C46 proves it. C61_text_iff: the text exists exactly when the generator's traversal ends. The full claim is false: C61_order_fails, C61_empty_module_fails, C61_enumerators_fail, C61_member_name_fails."
  },
  {
   "property": "C62",
   "status": "proved",
   "theorems": [
    "Verif.Idl.C62_total",
    "Verif.Idl.C62_ends",
    "Verif.Idl.C62_no_half",
    "Verif.Idl.C62_keeps",
    "Verif.Idl.C62_keeps_all",
    "Verif.Idl.C62_quad_diverges",
    "Verif.Idl.C62_half_diverges",
    "Verif.Idl.C62_inline_diverges",
    "Verif.Idl.C62_self_member",
    "Verif.Idl.C62_forward_member",
    "Verif.Idl.C62_meaning_fails",
    "Verif.Idl.C62_second_constant"
   ],
   "note": "Over all byte strings and all module trees; every rule of the grammar is modelled. C62_total and C62_ends need texts without four colons in a row (and, for C62_ends, without the words any and fixed and without types defined inside of a typedef), and modules without half surrogate pairs, which no text makes (C62_no_half); the conditions are needed: C62_quad_diverges, C60_any_diverges, C62_inline_diverges, C62_half_diverges. C62_keeps is unconditional on text and outcome; it asks that types are registered under their names, which every text preserves. Entries stay, but the meaning of a name can change: C62_meaning_fails."
  },
  {
   "property": "C63",
   "status": "partial",
   "theorems": [
    "Verif.Idl.C63_made",
    "Verif.Idl.C63_made_all",
    "Verif.Idl.C63_found",
    "Verif.Idl.C63_usable_partial",
    "Verif.Idl.C63_reserved_fails"
   ],
   "note": "C63_made, C63_made_all and C63_found are unconditional; C63_usable_partial lacks the types with a case for the reserved value, for which it is false (C63_reserved_fails)."
  },
  {
   "property": "C64",
   "status": "proved",
   "theorems": [
    "Verif.Idl.C64_accepted",
    "Verif.Idl.C64_unambiguous",
    "Verif.Idl.C64_same",
    "Verif.Idl.C64_ignored",
    "Verif.Idl.C64_parts",
    "Verif.Idl.C64_enumerator_fails",
    "Verif.Idl.C64_annotation_fails",
    "Verif.Idl.C64_default_blank_fails",
    "Verif.Idl.C64_native_fails",
    "Verif.Idl.C64_typedef_fails"
   ],
   "note": "Over all texts in the relation Writes (Spec/IdlWrite): all declarations of the grammar except constant expressions with operators (C60 reads those), annotated enumerators, annotations with expressions, and types, enumerations and constants inside of declarations of annotations. Layout as in C60 (tabs directly before a comment are excluded: C60_comment_fails). The places where annotations or layout do change what is read are stated as C64_*_fails."
  },
  {
   "property": "C65",
   "status": "partial",
   "theorems": [
    "Verif.Pre.C65_quoted_iff",
    "Verif.Pre.C65_command_partial",
    "Verif.Pre.C65_undefined",
    "Verif.Pre.C65_executes_fails",
    "Verif.Pre.C65_substitution_fails",
    "Verif.Pre.C65_backslash_fails",
    "Verif.Pre.C65_echo",
    "Verif.Pre.C65_file_partial",
    "Verif.Pre.C65_file_fails",
    "Verif.Pre.C65_output_partial",
    "Verif.Pre.C65_output_fails",
    "Verif.Pre.C65_preprocessed_partial",
    "Verif.Pre.C65_reads_partial"
   ],
   "note": "C65_quoted_iff says for exactly which texts the quotation is right, with one assumption on the undefined read (C65_undefined: it happens for every text with a quotation mark). C65_command_partial (the whole command), C65_file_partial, C65_output_partial, C65_preprocessed_partial (what is read is what the preprocessor makes of the text) and C65_reads_partial (with and without preprocessing the same) are the property for the texts, names and outputs for which it holds; the negations with their witnesses are C65_executes_fails (any word is executed), C65_substitution_fails, C65_backslash_fails, C65_file_fails, C65_output_fails, and C65_echo for systems whose echo knows \\n. The shell is Spec/Shell, after POSIX; what cpp does is not modelled (any function, with the assumption that its output writes the same declarations). The strategy with a temporary file is C71."
  },
  {
   "property": "C66",
   "status": "partial",
   "theorems": [
    "Verif.Types.C66_alive",
    "Verif.Types.C66_pointer",
    "Verif.Types.C66_datum",
    "Verif.Types.C66_part",
    "Verif.Types.C66_possible",
    "Verif.Types.C66_data_partial",
    "Verif.Types.C66_pointer_partial",
    "Verif.Types.C66_variable_partial",
    "Verif.Types.C66_data_fails",
    "Verif.Types.C66_primitive_fails",
    "Verif.Types.C66_enumerator_fails"
   ],
   "note": "Over all histories of the operations of Model/TypeHeap, by an invariant. Full: C66_alive (nothing dangles), C66_pointer, C66_datum, C66_part (copies show what they were made from), C66_possible. C66_data_partial excludes changes through the pointer that the datum was made from, which C66_data_fails shows to reach it; it and C66_pointer_partial, C66_variable_partial exclude renamings of primitive types, which C66_primitive_fails shows to be seen by all. C66_enumerator_fails holds for every reachable state. What of a type is not another type (name, bounds, members' names and offsets, labels, enumerators) is a list of names and numbers that changes as a whole; references of the client to types are numbers of living objects."
  },
  {
   "property": "C67",
   "status": "partial",
   "theorems": [
    "Verif.Contexts.C67_apart",
    "Verif.Contexts.C67_shares",
    "Verif.Contexts.C67_alone_partial",
    "Verif.Contexts.C67_never",
    "Verif.Contexts.C67_success",
    "Verif.Contexts.C67_reads",
    "Verif.Contexts.C67_reads_new",
    "Verif.Contexts.C67_same",
    "Verif.Contexts.C67_parser_partial",
    "Verif.Contexts.C67_parser_fails",
    "Verif.Contexts.C67_parser_new_fails",
    "Verif.Contexts.C67_keeps",
    "Verif.Contexts.C67_clear",
    "Verif.Contexts.C67_success_fails",
    "Verif.Contexts.C67_copy_fails",
    "Verif.Contexts.C67_clear_fails"
   ],
   "note": "Over all histories of the calls in Model/Context (any number of contexts and parsers), by invariants of the runs. Full: C67_apart (a call changes only the contexts it is given and those that share their tree), C67_shares (sharing comes from copies only), C67_same (and lasts), C67_reads and C67_reads_new (what a call adds), C67_never, C67_success, C67_keeps, C67_clear. C67_alone_partial (non-interference for whole histories) lacks histories with copies, where it is false (C67_copy_fails); C67_parser_partial lacks destroyed contexts (C67_parser_fails, for every context and text, and C67_parser_new_fails). C67_success_fails, C67_clear_fails: stale flags. A text here is what reaches Parser::parse (C65 has the preprocessor); calls that do not end or are undefined have no next state."
  },
  {
   "property": "C68",
   "status": "proved",
   "theorems": [
    "Verif.Idl.C68_visits",
    "Verif.Idl.C68_direct",
    "Verif.Idl.C68_asked_fails"
   ],
   "note": "Proved for every history that never calls submodule()/operator[]: exact set, each once, dictionary order of paths. False after asking for a submodule that is not there (null entry; C68_asked_fails). The visitor is taken not to change the tree (it gets a const Module&)."
  },
  {
   "property": "C69",
   "status": "partial",
   "theorems": [
    "Verif.Idl.C69_around",
    "Verif.Idl.C69_search",
    "Verif.Idl.C69_sound",
    "Verif.Idl.C69_complete_partial",
    "Verif.Idl.C69_first_submodule_fails",
    "Verif.Idl.C69_asked_fails",
    "Verif.Idl.C69_rooted",
    "Verif.Idl.C69_carried",
    "Verif.Idl.C69_resolved",
    "Verif.Idl.C69_rooted_constant_fails"
   ],
   "note": "Exact for plain names, with and without recursion (C69_search: only the last submodule is searched onward). Finding a type anywhere inside is false (C69_first_submodule_fails) and proved where no module has two submodules. Rooted names: exact for declared types, but the returned type is renamed to the text asked for, and only then (C69_carried); any other name, without recursion, gives the type it resolves to (C69_resolved); a rooted name of a constant and null submodules are undefined behaviour."
  },
  {
   "property": "C70",
   "status": "partial",
   "theorems": [
    "Verif.Inst.C70_for_each_partial",
    "Verif.Inst.C70_succeeds",
    "Verif.Inst.C70_determined",
    "Verif.Inst.C70_visited",
    "Verif.Inst.C70_map",
    "Verif.Inst.C70_fails_keys",
    "Verif.Inst.C70_fails_switch"
   ],
   "note": "For every visitor whose operations go through the node it is given and are not refused; total for visitors that do nothing forbidden (C70_succeeds), result determined (C70_determined). Missing: visitors writing through parent() or other references. False for visitors that select another member at a union's own node (C70_fails_switch: undefined behaviour), and map keys can be overwritten (C70_fails_keys)."
  },
  {
   "property": "C71",
   "status": "partial",
   "theorems": [
    "Verif.Pre.C71_file_partial",
    "Verif.Pre.C71_file_plain",
    "Verif.Pre.C71_reads_partial",
    "Verif.Pre.C71_same_partial",
    "Verif.Pre.C71_strategies_partial",
    "Verif.Pre.C71_disk",
    "Verif.Pre.C71_history",
    "Verif.Pre.C71_clean",
    "Verif.Pre.C71_refused",
    "Verif.Pre.C71_throws",
    "Verif.Pre.C71_missing",
    "Verif.Pre.C71_status_fails",
    "Verif.Pre.C71_full_fails",
    "Verif.Pre.C71_blank_fails",
    "Verif.Pre.C71_leaves_fails"
   ],
   "note": "The theorems ending in _partial assume that the names of the preprocessor, its directories and the file need no quotes (C71_blank_fails: otherwise it is false), that popen does not fail and that the disk takes the text (C71_full_fails). C71_disk, C71_history, C71_clean and C71_refused need only that the names of mkstemp are new. Negations with witnesses: C71_leaves_fails, C71_status_fails, C71_full_fails, C71_blank_fails. The system (mkstemp, disk, popen, cpp) is any functions with the stated assumptions. Not modelled: failure of std::filesystem::remove, and the Windows variant of get_temporary_file."
  },
  {
   "property": "C72",
   "status": "partial",
   "theorems": [
    "Verif.Inst.C72_loop_partial",
    "Verif.Inst.C72_items_partial",
    "Verif.Inst.C72_refused",
    "Verif.Inst.C72_looks",
    "Verif.Inst.C72_looks_items",
    "Verif.Inst.C72_map",
    "Verif.Inst.C72_map_string",
    "Verif.Inst.C72_numbers",
    "Verif.Inst.C72_chars",
    "Verif.Inst.C72_append",
    "Verif.Inst.C72_shrinks_fails",
    "Verif.Inst.C72_keys_fails",
    "Verif.Inst.C72_items_union_fails"
   ],
   "note": "C72_loop_partial and C72_items_partial are for all bodies nothing of which is refused and that leave the parts of the rounds to come in place (C72_shrinks_fails: otherwise it is false), where a round writes first through its own reference and then through d; missing: bodies that use references of earlier rounds, items() of unions (C72_items_union_fails: false), and the writing of keys of maps, which is allowed (C72_keys_fails). C72_map, C72_map_string, C72_numbers, C72_chars, C72_looks, C72_looks_items and C72_append have no such limits."
  },
  {
   "property": "C73",
   "status": "proved",
   "theorems": [
    "Verif.C73_primitive",
    "Verif.C73_enumerated",
    "Verif.C73_collection",
    "Verif.C73_aggregation",
    "Verif.C73_constructed",
    "Verif.C73_disjoint",
    "Verif.C73_kinds",
    "Verif.C73_signs",
    "Verif.C73_model"
   ],
   "note": "By cases on the type, with the arithmetic of the bits done by the kernel; C73_model says that the predicates of the rest of the model are those queries."
  },
  {
   "property": "C74",
   "status": "partial",
   "theorems": [
    "Verif.Inst.C74_value_partial",
    "Verif.Inst.C74_number_partial",
    "Verif.Inst.C74_last_member_partial",
    "Verif.Inst.C74_last_element_partial",
    "Verif.Inst.C74_fails_sequence",
    "Verif.Inst.C74_fails_union"
   ],
   "note": "Exact value of the hash, by induction on the type (hashVal). Missing from C74: bounded sequences and unions (see C12), where the hash is not a function of the value. Negative: the elements of sequences and the selected member of a union do not count. long double is wider than the hash."
  },
  {
   "property": "C75",
   "status": "proved",
   "theorems": [
    "Verif.StructM.C75_settings",
    "Verif.StructM.C75_added",
    "Verif.StructM.C75_history",
    "Verif.StructM.C75_parent",
    "Verif.StructM.C75_inherited",
    "Verif.StructM.C75_layout",
    "Verif.UnionM.C75_union_added",
    "Verif.UnionM.C75_union_history",
    "Verif.UnionM.C75_union_layout",
    "Verif.UnionM.C75_union_refused_stays"
   ],
   "note": "Full for structures, by induction on the history, with the invariant that the index is that of the members. For unions (C75_union_*): what is accepted is kept; that a case is refused because there is a default already does not keep it out (C75_union_refused_stays, a finding; C31, C32 have the labels)."
  },
  {
   "property": "C76",
   "status": "partial",
   "theorems": [
    "Verif.Inst.C76_empty",
    "Verif.Inst.C76_read_partial",
    "Verif.Inst.C76_write_partial",
    "Verif.Inst.C76_history_partial"
   ],
   "note": "From C59 by the injectivity of the hash of numbers of up to 8 bytes (C74). Missing: keys of 16 bytes and of other types (C59 has these up to equal hashes), a bounded map that is full (C59_full_refused_partial), and that no memory is lost when the values own some. C76_empty has no such limits."
  },
  {
   "property": "C77",
   "status": "partial",
   "theorems": [
    "Verif.Text.C77_number_partial",
    "Verif.Text.C77_fails"
   ],
   "note": "Missing: texts that are no numbers and numbers the type does not have, which should be refused and are taken (C77_fails, a finding); other types of discriminators, see C48."
  }
 ]
}