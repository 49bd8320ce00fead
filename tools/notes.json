{
 "C02": {
  "note": "Full statement over every history."
 },
 "C03": {
  "note": "False in general: 32-bit byte counts wrap and self-push reads freed memory (both negations proved with witnesses); the rest is C03_storage_partial."
 },
 "C07": {
  "note": "Injective up to 8 bytes; C07_fails_above_8 exhibits a collision at 16 bytes."
 },
 "C21": {
  "note": "False as stated (three counterexamples proved); proved for the types of Ty.regular."
 },
 "C23": {
  "note": "False as stated for union members/labels, see C23_alias_transparent_fails; proved otherwise."
 },
 "C32": {
  "note": "'refused add changes nothing' and 'single default' are false (counterexamples proved); the remaining parts are proved."
 },
 "C35": {
  "note": "Injectivity false: explicit values may collide (counterexample proved); proved for ordered declarations."
 },
 "C36": {
  "note": "The default value 0 need not be an enumerator (counterexample proved); proved once a value was assigned."
 },
 "C05": {
  "note": "Over every history of map operations."
 },
 "C06": {
  "note": "Refinement to a finite map for every history, under the hypothesis that the keys used have pairwise distinct hashes (which C07 gives for keys of at most 8 bytes); C06_self_insert_undefined shows reading a freed block when a map inserts its own element on growth."
 },
 "C08": {
  "note": "False: keys with equal hash are confused (proved, with concrete colliding keys); holds when hashes are distinct (C08_distinct_hash_partial)."
 },
 "C11": {
  "note": "False: insert(pair) stores only the key (C11_insert_loses_value); what does hold is C11_insert_partial."
 },
 "C40": {
  "note": "Unqualified names and the full account of qualified names are proved; the exactness of rooted names is false (C40_rooted_exact_fails) and names with an empty component recurse for ever."
 },
 "C42": {
  "note": "False when one name is used for two kinds of types in a module or a null submodule entry exists (both proved); complete otherwise."
 },
 "C43": {
  "note": "False (C43_lookup_creates); holds for existing submodules."
 },
 "C38": {
  "note": "All integer kinds and operand values; the points at which C++17 leaves the operation undefined are characterised exactly (among them uint16*uint16, C38_not_uint16_product)."
 },
 "C39": {
  "note": "Prefix forms proved; the postfix forms have the right effect but yield the new value (C39_not_postfix_yields_previous)."
 },
 "C44": {
  "note": "False as stated: operators of one precedence group to the right, ~ and unary + are dropped, minus on unsigned types is refused (negations proved, also on texts). From the text on: C44_text_exact gives the outcome of every text of integer constant declarations in any layout; C44_text_value_partial gives the standard value for the expressions without those cases. Floating point and string constants are not in C44 (C60 covers string literals)."
 },
 "C49": {
  "note": "Over every history of log calls and level changes."
 },
 "C16": {
  "note": "Proved for all well-formed types (Ty.WF: union types whose labels name members, discriminators of full width). Missing: unions with the reserved default value used as a label, and 8/16-bit enumeration discriminators, where it is false (counterexamples proved)."
 },
 "C17": {
  "note": "Proved for every Copyable type and every value, including every later write to either copy. False for sequences of aliases of unions and for narrow enumerations (counterexamples proved); unselected unions are refused."
 },
 "C18": {
  "note": "Proved for every operation through every pair of paths; missing: narrow enumerations as union discriminators (counterexample proved)."
 },
 "C26": {
  "note": "Proved for the pairs of types in Convertible; false otherwise: four counterexamples proved."
 },
 "C27": {
  "note": "Value of the conversion proved for Convertible pairs and what that value keeps for all; false otherwise: counterexamples proved."
 },
 "C28": {
  "note": "All integral kinds and all byte patterns."
 },
 "C29": {
  "note": "Invariant of all programs of allowed statements (Reach); the statements that Allowed excludes (moves of owning data, self assignment, ...) are missing."
 },
 "C30": {
  "note": "Invariant of all programs of allowed statements; each exclusion is justified by a proved counterexample."
 },
 "C31": {
  "note": "Invariant of all programs of allowed statements; setting the discriminator first breaks it (counterexample proved)."
 },
 "C33": {
  "note": "Both directions for non-negative labels; false for negative labels (counterexample proved)."
 },
 "C34": {
  "note": "For a union datum; false for a default member without labels (counterexample proved)."
 },
 "C12": {
  "note": "False in general (floating point zeros, long double padding, bounded sequences, unions: all proved with witnesses); proved for well-formed types with unbounded sequences and no label equal to a discriminator hash, independently of addresses, for all values without a floating point zero or long double outside of collections of numbers."
 },
 "C19": {
  "note": "Defined, symmetric, transitive for every well-formed type; reflexive without nan; leafwise unless floats are direct elements of collections (memcmp), for which the failing cases are proved; without floats it is observational equality through all access paths. A value without zeros, nans and long doubles outside of collections of numbers equals exactly the data with the same value."
 },
 "C50": {
  "note": "False: inner dimensions are not part of the name, and user-given names may coincide (both proved to lead to out-of-bounds reads in operator==); proved for arrays over library-named content."
 },
 "C37": {
  "note": "Types: full. Data: for all values whose unions all have a selected member, and visitors that do not change the data (those that do: C70); for_each on an unselected union is refused (proved)."
 },
 "C46": {
  "note": "False of this code in five ways, each with a legal module tree as witness (C46_violated_*): fixed order of kinds, structures needed by a third one, typedefs of collections, elements of an outer module needed by a submodule, and a root type shadowed by a local one. Proved for all other uses (C46_before_use_partial)."
 },
 "C47": {
  "note": "Exact for struct/union members (stoul) and for typedefs with dimensions below 2^31 (atoi). False for arrays inside sequences and maps, whose dimensions are never printed (C47_violated_nested). These theorems take the dimensions as already recognised; the grammar itself is modelled in C60-C64."
 },
 "C48": {
  "note": "For primitive discriminators an exact characterisation of the labels that come back (C48_roundtrip_iff_partial), over all labels a union can keep (C48_labels_of_unions); for enumerations of 32 bits with identifiers as names all of them. False for negative labels of int64_t, which come back as the reserved value and are refused (C48_violated_negative), for aliases of enumerations (C48_violated_alias), other labels of Booleans, and wide characters beyond 16 bits."
 },
 "C01": {
  "note": "Every history of operations; the sequence behaves as the list, no undefined behaviour on the proved domain."
 },
 "C04": {
  "note": "Element moves over any number of pushes are fewer than 2n."
 },
 "C09": {
  "note": "Any two insertion orders, for keys whose hashes are pairwise distinct (what happens otherwise is C08)."
 },
 "C10": {
  "note": "Every history of a bounded map."
 },
 "C13": {
  "note": "Every list of members: offsets increasing, aligned, non-overlapping, size."
 },
 "C14": {
  "note": "Every parent and every child built through the API."
 },
 "C15": {
  "note": "Every structure type built through the API."
 },
 "C20": {
  "note": "Reflexivity over every type."
 },
 "C22": {
  "note": "All pairs of types."
 },
 "C24": {
  "note": "All flag combinations, and the use made of them for lists of parts."
 },
 "C25": {
  "note": "All pairs of types; the second theorem says what holds for one-member structures. Meaning of the single flags: C52."
 },
 "C41": {
  "note": "Every history of declarations."
 },
 "C45": {
  "note": "Exactly-once is unconditional on trees for which the generator returns; C45_returns_iff says for exactly which trees that is. The specification of which constants are left out (EnumeratorConst) is separate from the model."
 },
 "C51": {
  "note": "Layout of every union."
 },
 "C52": {
  "note": "Excluded in the _partial theorem: structures with exactly one member (Ty.multi), which the code compares with other types by their member; EQUALS does not mean 'same type' (C52_equals_not_same)."
 },
 "C53": {
  "note": "False in general (C53_violated: every text of more than 21 three-byte characters; C53_diverges_*: the call does not return). C53_out_partial / C53_in_partial say for exactly which texts the result is right."
 },
 "C54": {
  "note": "Proved for all references to live values. Partial: iterator assignment (right for references of one type, C54_assign_fails otherwise) and items() of unions (unselected members are handed out, C54_items_fail_union)."
 },
 "C55": {
  "note": "Integral types; floating point values are opaque. C55_cast_string_fails_wide: wide strings are refused."
 },
 "C56": {
  "note": "Right for every collection with at least one element or fixed size and content exactly T; C56_fails_empty_sequence and C56_fails_alias are violations."
 },
 "C57": {
  "note": "Right for every datum all of whose nodes have a line; C57_fails_wide_char, C57_fails_unselected, C57_fails_int8, C57_fails_enum are violations. The text of floats and code conversion are parameters (C53 for the latter)."
 },
 "C58": {
  "note": "Violated by DynamicData(const ReadableDynamicDataRef&) and DynamicData(WritableDynamicDataRef&&): C58_fails_data_of_reference holds for every datum and every part of its block."
 },
 "C59": {
  "note": "At the level of memory cells, through any access path. Refuted in part: C59_insert_leaks, C59_fails_wrong_key; insert(pair) stores the default value and asserts on a duplicate key (C59_insert_partial, C11)."
 },
 "C60": {
  "note": "Structures with and without parent, unions, enumerations, aliases and constants of integer, Boolean and string types, in modules nested to any depth, any indentation, white space and comments. Refuted beyond that: C60_*_fails, C60_any_diverges, C60_string_bound_ub."
 },
 "C61": {
  "note": "Partial: for trees whose declarations the text can express (ExpressibleTree) and in which every use is printed after what it uses - C61_ordered_partial takes that as a hypothesis on the order the generator gives, C61_round_trip_partial has the kinds of uses for which C46 proves it. C61_text_iff: the text exists exactly when the generator's traversal ends. The full claim is false: C61_order_fails, C61_empty_module_fails, C61_enumerators_fail, C61_member_name_fails."
 },
 "C62": {
  "note": "Over all byte strings and all module trees; every rule of the grammar is modelled. C62_total and C62_ends need texts without four colons in a row (and, for C62_ends, without the words any and fixed and without types defined inside of a typedef), and modules without half surrogate pairs, which no text makes (C62_no_half); the conditions are needed: C62_quad_diverges, C60_any_diverges, C62_inline_diverges, C62_half_diverges. C62_keeps is unconditional on text and outcome; it asks that types are registered under their names, which every text preserves. Entries stay, but the meaning of a name can change: C62_meaning_fails."
 },
 "C63": {
  "note": "C63_made, C63_made_all and C63_found are unconditional; C63_usable_partial lacks the types with a case for the reserved value, for which it is false (C63_reserved_fails)."
 },
 "C64": {
  "note": "Over all texts in the relation Writes (Spec/IdlWrite): all declarations of the grammar except constant expressions with operators (C60 reads those), annotated enumerators, annotations with expressions, and types, enumerations and constants inside of declarations of annotations. Layout as in C60 (tabs directly before a comment are excluded: C60_comment_fails). The places where annotations or layout do change what is read are stated as C64_*_fails."
 },
 "C65": {
  "note": "C65_quoted_iff says for exactly which texts the quotation is right, with one assumption on the undefined read (C65_undefined: it happens for every text with a quotation mark). C65_command_partial (the whole command), C65_file_partial, C65_output_partial, C65_preprocessed_partial (what is read is what the preprocessor makes of the text) and C65_reads_partial (with and without preprocessing the same) are the property for the texts, names and outputs for which it holds; the negations with their witnesses are C65_executes_fails (any word is executed), C65_substitution_fails, C65_backslash_fails, C65_file_fails, C65_output_fails, and C65_echo for systems whose echo knows \\n. The shell is Spec/Shell, after POSIX; what cpp does is not modelled (any function, with the assumption that its output writes the same declarations). The strategy with a temporary file is C71."
 },
 "C66": {
  "note": "Over all histories of the operations of Model/TypeHeap, by an invariant. Full: C66_alive (nothing dangles), C66_pointer, C66_datum, C66_part (copies show what they were made from), C66_possible. C66_data_partial excludes changes through the pointer that the datum was made from, which C66_data_fails shows to reach it; it and C66_pointer_partial, C66_variable_partial exclude renamings of primitive types, which C66_primitive_fails shows to be seen by all. C66_enumerator_fails holds for every reachable state. What of a type is not another type (name, bounds, members' names and offsets, labels, enumerators) is a list of names and numbers that changes as a whole; references of the client to types are numbers of living objects."
 },
 "C67": {
  "note": "Over all histories of the calls in Model/Context (any number of contexts and parsers), by invariants of the runs. Full: C67_apart (a call changes only the contexts it is given and those that share their tree), C67_shares (sharing comes from copies only), C67_same (and lasts), C67_reads and C67_reads_new (what a call adds), C67_never, C67_success, C67_keeps, C67_clear. C67_alone_partial (non-interference for whole histories) lacks histories with copies, where it is false (C67_copy_fails); C67_parser_partial lacks destroyed contexts (C67_parser_fails, for every context and text, and C67_parser_new_fails). C67_success_fails, C67_clear_fails: stale flags. A text here is what reaches Parser::parse (C65 has the preprocessor); calls that do not end or are undefined have no next state."
 },
 "C68": {
  "note": "Proved for every history that never calls submodule()/operator[]: exact set, each once, dictionary order of paths. False after asking for a submodule that is not there (null entry; C68_asked_fails). The visitor is taken not to change the tree (it gets a const Module&)."
 },
 "C69": {
  "note": "Exact for plain names, with and without recursion (C69_search: only the last submodule is searched onward). Finding a type anywhere inside is false (C69_first_submodule_fails) and proved where no module has two submodules. Rooted names: exact for declared types, but the returned type is renamed to the text asked for, and only then (C69_carried); any other name, without recursion, gives the type it resolves to (C69_resolved); a rooted name of a constant and null submodules are undefined behaviour."
 },
 "C70": {
  "note": "For every visitor whose operations go through the node it is given and are not refused; total for visitors that do nothing forbidden (C70_succeeds), result determined (C70_determined). Missing: visitors writing through parent() or other references. False for visitors that select another member at a union's own node (C70_fails_switch: undefined behaviour), and map keys can be overwritten (C70_fails_keys)."
 },
 "C71": {
  "note": "The theorems ending in _partial assume that the names of the preprocessor, its directories and the file need no quotes (C71_blank_fails: otherwise it is false), that popen does not fail and that the disk takes the text (C71_full_fails). C71_disk, C71_history, C71_clean and C71_refused need only that the names of mkstemp are new. Negations with witnesses: C71_leaves_fails, C71_status_fails, C71_full_fails, C71_blank_fails. The system (mkstemp, disk, popen, cpp) is any functions with the stated assumptions. Not modelled: failure of std::filesystem::remove, and the Windows variant of get_temporary_file."
 },
 "C72": {
  "note": "C72_loop_partial and C72_items_partial are for all bodies nothing of which is refused and that leave the parts of the rounds to come in place (C72_shrinks_fails: otherwise it is false), where a round writes first through its own reference and then through d; missing: bodies that use references of earlier rounds, items() of unions (C72_items_union_fails: false), and the writing of keys of maps, which is allowed (C72_keys_fails). C72_map, C72_map_string, C72_numbers, C72_chars, C72_looks, C72_looks_items and C72_append have no such limits."
 },
 "C73": {
  "note": "By cases on the type, with the arithmetic of the bits done by the kernel; C73_model says that the predicates of the rest of the model are those queries."
 },
 "C74": {
  "note": "Exact value of the hash, by induction on the type (hashVal). Missing from C74: bounded sequences and unions (see C12), where the hash is not a function of the value. Negative: the elements of sequences and the selected member of a union do not count. long double is wider than the hash."
 },
 "C75": {
  "note": "Full for structures, by induction on the history, with the invariant that the index is that of the members. For unions (C75_union_*): what is accepted is kept; that a case is refused because there is a default already does not keep it out (C75_union_refused_stays, a finding; C31, C32 have the labels)."
 },
 "C76": {
  "note": "From C59 by the injectivity of the hash of numbers of up to 8 bytes (C74). Missing: keys of 16 bytes and of other types (C59 has these up to equal hashes), a bounded map that is full (C59_full_refused_partial), and that no memory is lost when the values own some. C76_empty has no such limits."
 },
 "C77": {
  "note": "Missing: texts that are no numbers and numbers the type does not have, which should be refused and are taken (C77_fails, a finding); other types of discriminators, see C48."
 }
}