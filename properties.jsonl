{"id": "C01", "title": "A sequence behaves like a bounded list", "statement": "After any history of push, resize, element writes, copies and bounded copies, a sequence DynamicData reads back exactly as the abstract list obtained by appending, default-extending, updating and truncating: size() is the length of that list and operator[](i) returns its i-th element.", "quantifier": "every element type, every bound (including unbounded), every finite history of sequence operations", "why_tests_cant": "The observable content depends on reallocation points, which depend on the whole history; tests fix a few histories and sizes.", "anchors": ["include/xtypes/SequenceInstance.hpp: push, resize, realloc, copy_content, operator[], operator==", "include/xtypes/SequenceType.hpp: push_instance, resize_instance", "include/xtypes/DynamicData.hpp: WritableDynamicDataRef::push, resize"]}
{"id": "C02", "title": "Sequence bounds are never exceeded and a refused push changes nothing", "statement": "A sequence with a bound b>0 never holds more than b elements whatever is pushed, resized or copied into it; a push at the bound is reported as refused and leaves the sequence unchanged; an unbounded sequence never refuses a push.", "quantifier": "every bound, every history of sequence operations, including copies from sequences with larger bounds", "why_tests_cant": "Needs an invariant over all histories and all pairs of bounds.", "anchors": ["include/xtypes/SequenceType.hpp: push_instance", "include/xtypes/SequenceInstance.hpp: push, realloc, resize, SequenceInstance(other, content, bounds)"]}
{"id": "C03", "title": "Sequence storage discipline", "statement": "Every element write of a sequence lands inside the buffer it currently owns, the used part of the buffer always consists of constructed elements, and a reallocation preserves all existing elements.", "quantifier": "every bound and every history of sequence operations, with the C++ 32-bit size arithmetic", "why_tests_cant": "Out-of-range heap writes show only at particular (size, capacity, element size) combinations and may not crash.", "anchors": ["include/xtypes/SequenceInstance.hpp: init_memory, realloc, move_content, push"]}
{"id": "C04", "title": "Sequence growth is amortised", "statement": "Pushing n elements one by one onto a fresh unbounded sequence moves at most 2n existing elements in total across all reallocations.", "quantifier": "every n", "why_tests_cant": "A cost bound over all lengths.", "anchors": ["include/xtypes/SequenceInstance.hpp: push, realloc"]}
{"id": "C05", "title": "Map keys stay ordered and unique", "statement": "Whatever sequence of insertions is performed, the stored pairs of a map are strictly ordered by key hash, so no two stored pairs ever have the same key.", "quantifier": "every key/value type, bound and history of map operations", "why_tests_cant": "The ordering depends on the hash of every key inserted so far; a test samples a handful of keys.", "anchors": ["include/xtypes/MapInstance.hpp: insert, create_place, find_place, move_content"]}
{"id": "C06", "title": "Map lookup finds exactly what was stored", "statement": "For key types whose hash has no collisions, a map behaves as a finite map: after any history of operator[] accesses, value writes and insertions, looking a key up returns the last value written under that key (a default value if only created) and reports keys never inserted as absent.", "quantifier": "every history of map operations over every such key type, every bound", "why_tests_cant": "Requires reasoning about binary search over every possible sorted layout.", "anchors": ["include/xtypes/MapInstance.hpp: find_place, operator[], contains_key, insert", "include/xtypes/DynamicData.hpp: WritableDynamicDataRef::operator[](ReadableDynamicDataRef), at, has_key, insert"]}
{"id": "C07", "title": "Primitive keys never collide", "statement": "For every primitive type of at most eight bytes, two values of the type have the same hash only if they are the same value, so maps keyed by such a primitive are exact.", "quantifier": "all pairs of values of each primitive type of 1, 2, 4 or 8 bytes", "why_tests_cant": "2^64 values: no test can enumerate the pairs.", "anchors": ["include/xtypes/Instanceable.hpp: hash64, mix, hash"]}
{"id": "C08", "title": "Unequal map keys are never confused", "statement": "Two keys that do not compare equal are treated as different keys by a map.", "quantifier": "all key types allowed by MapType and all pairs of keys", "why_tests_cant": "A collision has to be searched for; the property needs the hash function of every type.", "anchors": ["include/xtypes/MapInstance.hpp: find_place", "include/xtypes/SequenceType.hpp: hash", "include/xtypes/UnionType.hpp: hash", "include/xtypes/Instanceable.hpp: hash_combine"]}
{"id": "C09", "title": "Map content does not depend on insertion order", "statement": "Two maps built by inserting the same set of key/value entries in any two orders compare equal and iterate in the same order.", "quantifier": "every finite set of entries with distinct key hashes and every permutation of it", "why_tests_cant": "n! orders.", "anchors": ["include/xtypes/MapInstance.hpp: insert, operator==, find_place"]}
{"id": "C10", "title": "Map bounds", "statement": "A map with bound b>0 never holds more than b pairs; inserting a new key at the bound is refused without changing the map; accessing an existing key at the bound still succeeds.", "quantifier": "every bound and history", "why_tests_cant": "Invariant over all histories.", "anchors": ["include/xtypes/MapType.hpp: insert_instance", "include/xtypes/MapInstance.hpp: insert, realloc", "include/xtypes/DynamicData.hpp: WritableDynamicDataRef::operator[](ReadableDynamicDataRef)"]}
{"id": "C11", "title": "Inserting a pair stores its value", "statement": "After a successful insert(pair) the map maps pair[0] to pair[1]; inserting an already present key returns false and changes nothing.", "quantifier": "every map and pair", "why_tests_cant": "The promise is about all maps and pairs; a test with default-valued pairs does not notice a dropped value.", "anchors": ["include/xtypes/DynamicData.hpp: WritableDynamicDataRef::insert", "include/xtypes/MapType.hpp: insert_instance", "include/xtypes/MapInstance.hpp: insert"]}
{"id": "C12", "title": "Equal data hash equally", "statement": "Two data of the same type that compare equal have equal hashes.", "quantifier": "all types and all pairs of equal data", "why_tests_cant": "The hash walks the whole type tree; only an induction over types covers all of them.", "anchors": ["include/xtypes/Instanceable.hpp: hash64", "include/xtypes/StructType.hpp: hash", "include/xtypes/ArrayType.hpp: hash", "include/xtypes/PairType.hpp: hash", "include/xtypes/SequenceType.hpp: hash", "include/xtypes/MapInstance.hpp: map_hash", "include/xtypes/UnionType.hpp: hash"]}
{"id": "C13", "title": "Struct layout: members tile the instance without overlapping", "statement": "In every structure, each member occupies its own byte range, ranges of different members do not overlap, they follow declaration order, and together cover exactly [0, memory_size).", "quantifier": "every structure type built by any sequence of add_member calls, with nested types of any depth", "why_tests_cant": "Infinitely many type trees.", "anchors": ["include/xtypes/StructType.hpp: add_member, memory_size", "include/xtypes/Member.hpp: offset", "include/xtypes/PairType.hpp: memory_size", "include/xtypes/ArrayType.hpp: memory_size"]}
{"id": "C14", "title": "Inheritance keeps the parent's layout", "statement": "A structure created with a parent begins with the parent's members: same names, same order, same offsets, and the child's own members start at the parent's memory size.", "quantifier": "every parent structure and every sequence of added members", "why_tests_cant": "All parents, all depths.", "anchors": ["include/xtypes/AggregationType.hpp: parent, insert_member", "include/xtypes/StructType.hpp: StructType(name, parent), add_member"]}
{"id": "C15", "title": "Member names are unique and lookup is consistent", "statement": "Adding a member whose name exists (in the type or its parent) is rejected and leaves the type unchanged; lookup by name and by index agree; members keep the order in which they were added.", "quantifier": "every history of add_member calls", "why_tests_cant": "All histories and names.", "anchors": ["include/xtypes/AggregationType.hpp: insert_member, has_member, member(name), member(index)"]}
{"id": "C16", "title": "Default construction", "statement": "A freshly constructed DynamicData holds the default value of its type: zero for primitives, empty strings, sequences and maps, and recursively default members and elements, and every part of it is constructed.", "quantifier": "every type", "why_tests_cant": "All type trees.", "anchors": ["include/xtypes/DynamicData.hpp: DynamicData(type)", "include/xtypes/StructType.hpp: construct_instance", "include/xtypes/ArrayType.hpp: construct_instance", "include/xtypes/UnionType.hpp: construct_instance"]}
{"id": "C17", "title": "Copies are exact and deep", "statement": "Copying a datum yields a datum that reads the same everywhere, touches no memory outside the target, leaves the source intact, and stays unaffected by later writes to the source (and conversely).", "quantifier": "every type, every well-formed value, every target and source address", "why_tests_cant": "Requires induction over all type trees and a frame argument over memory.", "anchors": ["include/xtypes/DynamicData.hpp: DynamicData(const DynamicData&)", "include/xtypes/StructType.hpp: copy_instance", "include/xtypes/ArrayType.hpp: copy_instance", "include/xtypes/PairType.hpp: copy_instance", "include/xtypes/UnionType.hpp: copy_instance", "include/xtypes/StringType.hpp: copy_instance", "include/xtypes/SequenceInstance.hpp: copy_content"]}
{"id": "C18", "title": "Access paths do not interfere", "statement": "Writing through a path of member names/indices (data[\"a\"][2][\"b\"] = v) and reading the same path returns v, and reading any path that is not a prefix or extension of it returns what it returned before.", "quantifier": "every type, every pair of diverging paths, every value", "why_tests_cant": "All pairs of paths of all types.", "anchors": ["include/xtypes/DynamicData.hpp: operator[], operator_at_impl, value", "include/xtypes/Member.hpp: offset", "include/xtypes/ArrayType.hpp: get_instance_at"]}
{"id": "C19", "title": "Equality is an equivalence and means observational equality", "statement": "operator== between data of one type is reflexive, symmetric and transitive, and holds exactly when all corresponding leaves agree.", "quantifier": "every type and all triples of data", "why_tests_cant": "All type trees and all values.", "anchors": ["include/xtypes/DynamicData.hpp: operator==", "include/xtypes/StructType.hpp: compare_instance", "include/xtypes/ArrayType.hpp: compare_instance", "include/xtypes/SequenceInstance.hpp: operator==", "include/xtypes/MapInstance.hpp: operator==", "include/xtypes/UnionType.hpp: compare_instance"]}
{"id": "C20", "title": "Every type is compatible with itself", "statement": "is_compatible(T, T) is EQUALS for every type T.", "quantifier": "every type", "why_tests_cant": "Induction over all type trees, including the one-member-struct and alias detours.", "anchors": ["include/xtypes/DynamicType.hpp: is_compatible", "include/xtypes/StructType.hpp: is_compatible", "include/xtypes/UnionType.hpp: is_compatible", "include/xtypes/AliasType.hpp: is_compatible"]}
{"id": "C21", "title": "Compatibility is symmetric", "statement": "is_compatible(A, B) and is_compatible(B, A) give the same answer.", "quantifier": "every pair of types", "why_tests_cant": "All pairs of type trees.", "anchors": ["include/xtypes/PrimitiveType.hpp: is_compatible", "include/xtypes/EnumeratedType.hpp: is_compatible", "include/xtypes/StructType.hpp: is_compatible"]}
{"id": "C22", "title": "Equal types have the same footprint", "statement": "If is_compatible(A, B) is EQUALS then instances of A and B have the same memory size, so an assignment between them never reads or writes outside either object.", "quantifier": "every pair of types", "why_tests_cant": "All pairs of type trees.", "anchors": ["include/xtypes/DynamicData.hpp: DynamicData::operator=", "include/xtypes/DynamicType.hpp: is_compatible", "include/xtypes/StructType.hpp: memory_size"]}
{"id": "C23", "title": "Aliases are transparent", "statement": "Replacing any type by an alias of it (of any depth) changes neither compatibility results nor construction, copying, comparison, size or hash of data.", "quantifier": "every type, every alias chain, on either side", "why_tests_cant": "Unbounded alias chains in arbitrary positions.", "anchors": ["include/xtypes/AliasType.hpp: rget, is_compatible, copy_instance, compare_instance, hash", "include/xtypes/DynamicData.hpp: ReadableDynamicDataRef(type, source)"]}
{"id": "C24", "title": "Consistency algebra", "statement": "Combining consistency results with | is associative, commutative and idempotent, EQUALS is neutral and NONE is absorbing, so the order in which sub-results are combined is irrelevant and an incompatible part makes the whole incompatible.", "quantifier": "all consistency values", "why_tests_cant": "Needed for every combination of flags.", "anchors": ["include/xtypes/TypeConsistency.hpp: operator|, operator&"]}
{"id": "C25", "title": "An incompatible part makes the whole incompatible", "statement": "If two structures agree in the positions before some member and the members at that position are incompatible, the structures are incompatible; likewise for collections with incompatible content and pairs.", "quantifier": "all pairs of types built around an incompatible pair of types", "why_tests_cant": "All contexts.", "anchors": ["include/xtypes/StructType.hpp: is_compatible", "include/xtypes/ArrayType.hpp: is_compatible", "include/xtypes/SequenceType.hpp: is_compatible", "include/xtypes/PairType.hpp: is_compatible"]}
{"id": "C26", "title": "A permitted compatible copy is memory safe", "statement": "Whenever is_compatible(T, S) is not NONE, constructing a DynamicData of type T from a datum of type S reads only memory of the source, writes only memory of the target and leaves every part of the target constructed.", "quantifier": "every pair of compatible types and every well-formed source", "why_tests_cant": "Memory errors depend on combinations of types and need not crash.", "anchors": ["include/xtypes/DynamicData.hpp: DynamicData(other, type)", "include/xtypes/StructType.hpp: copy_instance_from_type", "include/xtypes/ArrayType.hpp: copy_instance_from_type", "include/xtypes/PairType.hpp: copy_instance_from_type", "include/xtypes/PrimitiveType.hpp: copy_instance_from_type"]}
{"id": "C27", "title": "A compatible copy preserves what both types share", "statement": "Converting a datum to a compatible type keeps corresponding members and elements: common struct members (by position), common array/sequence prefixes, string prefixes, and every integer that fits the target.", "quantifier": "every pair of compatible types, every source value", "why_tests_cant": "All pairs of types and values.", "anchors": ["include/xtypes/PrimitiveType.hpp: copy_instance_from_type", "include/xtypes/StructType.hpp: copy_instance_from_type", "include/xtypes/ArrayType.hpp: copy_instance_from_type", "include/xtypes/SequenceInstance.hpp: copy_content", "include/xtypes/StringType.hpp: copy_instance_from_type"]}
{"id": "C28", "title": "Integer conversion", "statement": "Converting between integer types yields the source value modulo 2^width of the target; in particular a conversion to a type that can represent the value is exact and converting there and back is the identity.", "quantifier": "all integer type pairs, all values", "why_tests_cant": "All values of all pairs of types.", "anchors": ["include/xtypes/PrimitiveType.hpp: copy_instance_from_type", "include/xtypes/DynamicData.hpp: _cast"]}
{"id": "C29", "title": "Bounded strings never exceed their bound", "statement": "A string with bound b>0 never holds more than b characters: assignments, copies and conversions store the longest allowed prefix.", "quantifier": "every bound, every history of assignments, copies and conversions", "why_tests_cant": "Invariant over all histories.", "anchors": ["include/xtypes/StringType.hpp: copy_instance, copy_instance_from_type, move_instance"]}
{"id": "C30", "title": "Construct/destroy discipline", "statement": "Over the lifetime of a DynamicData every string, sequence and map object inside it is constructed before it is used, never used or destroyed after destruction, and destroyed exactly once when the DynamicData dies.", "quantifier": "every type and every history of construction, copy, move, assignment and destruction", "why_tests_cant": "Lifetime errors are silent and depend on histories, including self-assignment and moves.", "anchors": ["include/xtypes/DynamicData.hpp: DynamicData constructors, operator=, ~DynamicData", "include/xtypes/StringType.hpp: move_instance", "include/xtypes/SequenceType.hpp: move_instance"]}
{"id": "C31", "title": "A union always has at most one live member, named by its discriminator", "statement": "After any history of member selections and discriminator changes, the discriminator value is a label of the member that is currently constructed, and reading any other member is refused.", "quantifier": "every union type, every history of union operations", "why_tests_cant": "Histories of switches.", "anchors": ["include/xtypes/UnionType.hpp: select_case, select_disc, select_default, activate_member, get_current_selection, construct_instance", "include/xtypes/DynamicData.hpp: operator_at_impl, d"]}
{"id": "C32", "title": "Union labels are unambiguous", "statement": "Each label selects at most one case member; adding a case whose label is already used, or that is reserved, is rejected and leaves the union type unchanged; at most one member is default.", "quantifier": "every history of add_case_member calls, every label width", "why_tests_cant": "All histories and label sets.", "anchors": ["include/xtypes/UnionType.hpp: add_case_member, check_label_value, shrink_label, default_union_label, get_labels, is_default"]}
{"id": "C33", "title": "The discriminator cannot silently change the active member", "statement": "d(value) succeeds when value is a label of the active member, leaving the member's data intact, and is refused otherwise.", "quantifier": "every union type, state and discriminator value (including negative values)", "why_tests_cant": "All values of all discriminator types.", "anchors": ["include/xtypes/UnionType.hpp: select_disc, current_label, shrink_label", "include/xtypes/DynamicData.hpp: d"]}
{"id": "C34", "title": "Selecting a union member makes it readable", "statement": "data[name] for an existing case member activates it: afterwards the discriminator is one of its labels, reading it succeeds, its previous content is kept if it was already active and is the default value otherwise.", "quantifier": "every union type, state and member name", "why_tests_cant": "All union types and states.", "anchors": ["include/xtypes/UnionType.hpp: select_case, activate_member", "include/xtypes/DynamicData.hpp: operator_at_impl"]}
{"id": "C35", "title": "Enumerations are injective and ordered", "statement": "Enumerator names map to pairwise different values, values grow in declaration order, implicit values follow the previous one, and value(name)/enumerator(value) are inverse to each other.", "quantifier": "every history of add_enumerator calls, every underlying width", "why_tests_cant": "All histories, including values at the type's maximum.", "anchors": ["include/xtypes/EnumerationType.hpp: add_enumerator", "include/xtypes/EnumeratedType.hpp: value, enumerator, is_allowed_value, insert_enumerator"]}
{"id": "C36", "title": "An enumeration datum always holds an enumerator", "statement": "The value of a DynamicData of enumeration type is always one of its enumerators; setting any other value is refused and leaves the datum unchanged.", "quantifier": "every enumeration, every history of assignments and conversions", "why_tests_cant": "All enumerations and values.", "anchors": ["include/xtypes/DynamicData.hpp: value(const T&)", "include/xtypes/EnumeratedType.hpp: is_allowed_value", "include/xtypes/PrimitiveType.hpp: construct_instance"]}
{"id": "C37", "title": "Traversal visits every node exactly once in preorder", "statement": "for_each calls the visitor exactly once per node of the data (type) tree, parents before children, children in index order, with the right depth, index and parent; a visitor that throws stops it right there and its value is returned.", "quantifier": "every type, every value, every visitor", "why_tests_cant": "All trees and visitors.", "anchors": ["include/xtypes/DynamicData.hpp: for_each, ReadableNode", "include/xtypes/DynamicType.hpp: for_each, TypeNode", "include/xtypes/StructType.hpp: for_each_instance, for_each_type", "include/xtypes/SequenceType.hpp: for_each_instance"]}
{"id": "C38", "title": "Arithmetic on data", "statement": "Arithmetic, bitwise, shift and comparison operators on integer data of one type agree with machine arithmetic of that type wherever C++17 defines the operation: results are the mathematical result modulo 2^width, comparisons are those of the represented values.", "quantifier": "all integer types and operand values", "why_tests_cant": "All operand pairs.", "anchors": ["include/xtypes/DynamicDataImpl.hpp: operator+, operator-, operator*, operator<, operator=="]}
{"id": "C39", "title": "Increment operators", "statement": "++x changes x by one and yields the new value; x++ changes x by one and yields the previous value.", "quantifier": "all integer data", "why_tests_cant": "All values, both forms.", "anchors": ["include/xtypes/DynamicDataImpl.hpp: operator++, operator++(int), operator--, operator--(int)"]}
{"id": "C40", "title": "Scoped lookup finds the innermost declaration", "statement": "Looking up an unqualified name from a module finds the declaration in the closest enclosing module; looking up a name qualified from the root finds exactly the declaration with that path; a declared symbol is found under its scoped name from the root.", "quantifier": "every module tree, every name", "why_tests_cant": "All module trees and names, any nesting.", "anchors": ["include/xtypes/idl/Module.hpp: resolve_scope, has_symbol, structure, type, scope"]}
{"id": "C41", "title": "Redefinition is refused", "statement": "Registering a structure, union, alias, enumeration or constant under a name already registered in that category of the module reports failure and leaves the earlier definition in place; other names are unaffected.", "quantifier": "every module state and every registration", "why_tests_cant": "All histories.", "anchors": ["include/xtypes/idl/Module.hpp: structure, union_switch, enum_32, create_alias, create_constant"]}
{"id": "C42", "title": "Enumerating a module is complete", "statement": "get_all_types of a module with scopes contains exactly the types declared in it and its submodules, each under its fully scoped name.", "quantifier": "every module tree", "why_tests_cant": "All trees.", "anchors": ["include/xtypes/idl/Module.hpp: get_all_types, fill_all_types, scope"]}
{"id": "C43", "title": "Looking at a submodule does not create it", "statement": "Asking for a submodule never changes which submodules exist.", "quantifier": "every module and name", "why_tests_cant": "All histories mixing lookups and queries.", "anchors": ["include/xtypes/idl/Module.hpp: submodule, operator[], has_submodule"]}
{"id": "C44", "title": "Constant expressions evaluate with the usual arithmetic rules", "statement": "A text of constant declarations of integer types, however it is laid out (white space, comments, decimal, octal or hexadecimal numbers, names of constants declared before, possibly scoped), is accepted by the parser, and afterwards the module has each constant with the value its expression has by the usual precedence and left-to-right associativity of the operators in the declared type.", "quantifier": "every constant expression, every spelling and layout of it, every sequence of such declarations, every module the text is read into", "why_tests_cant": "Infinitely many expressions; tests use short ones.", "anchors": ["include/xtypes/idl/parser.hpp: solve_expr", "include/xtypes/idl/grammar.hpp: CONST_EXPR ... UNARY_EXPR", "include/xtypes/idl/grammar.hpp: CONST_DCL, INTEGER_LITERAL", "include/xtypes/idl/parser.hpp: const_dcl, get_literal_value"]}
{"id": "C45", "title": "Generated IDL declares every element exactly once", "statement": "The IDL generated for a module contains exactly one declaration for every alias, constant, enumeration, structure and union of the module.", "quantifier": "every module", "why_tests_cant": "All module contents and dependency shapes.", "anchors": ["include/xtypes/idl/generator_deptree.hpp: generate_idl_module, generate_idl_sentence, set_ancestor"]}
{"id": "C46", "title": "Generated IDL declares before use", "statement": "In the IDL generated for a module every type is declared before the declarations that use it.", "quantifier": "every module", "why_tests_cant": "All dependency shapes and name orders.", "anchors": ["include/xtypes/idl/generator_deptree.hpp: generate_idl_module, set_dependency, set_dynamic_type_dependency, set_node_dependencies"]}
{"id": "C47", "title": "Array dimensions round-trip through IDL", "statement": "Printing an array type as IDL dimensions and parsing those dimensions again yields an array type with the same dimensions in the same order and the same content type.", "quantifier": "every array type, any number of dimensions", "why_tests_cant": "Unbounded dimension lists.", "anchors": ["include/xtypes/idl/generator.hpp: array_dimensions, type_name", "include/xtypes/idl/parser.hpp: get_array_type", "include/xtypes/ArrayType.hpp: ArrayType(content, dimensions)"]}
{"id": "C48", "title": "Union labels round-trip through their printed form", "statement": "Printing the label of a union case with the generator and parsing that text as a label of the same discriminator type yields the same label value.", "quantifier": "every discriminator type and label value", "why_tests_cant": "All label values.", "anchors": ["include/xtypes/idl/generator.hpp: label_value", "include/xtypes/UnionType.hpp: parse_labels"]}
{"id": "C49", "title": "Log filtering", "statement": "The log kept while parsing contains exactly the messages at or above the configured severity, in order; querying it with a level returns exactly the entries of that level (strict) or of at least that severity (non-strict), in order.", "quantifier": "every sequence of log calls and level changes", "why_tests_cant": "All histories.", "anchors": ["include/xtypes/idl/parser.hpp: LogContext, Context::log"]}
{"id": "C50", "title": "Multi-dimensional array names identify the array type", "statement": "Two array types have equal names only if they have the same dimensions and content, so that the name check in operator== never lets arrays of different shape be compared bytewise.", "quantifier": "all array types", "why_tests_cant": "All shapes.", "anchors": ["include/xtypes/ArrayType.hpp: ArrayType(content, dimensions), name", "include/xtypes/DynamicData.hpp: operator=="]}
{"id": "C51", "title": "Union layout", "statement": "In every union type the discriminator is at offset 0, every case member starts right behind the discriminator and fits, and the size of the union is the discriminator's size plus that of its largest case member.", "quantifier": "every union type built by any sequence of add_case_member calls", "why_tests_cant": "Infinitely many type trees.", "anchors": ["include/xtypes/UnionType.hpp: UnionType, add_case_member, memory_size", "include/xtypes/Member.hpp: offset"]}
{"id": "C52", "title": "Meaning of the consistency result", "statement": "is_compatible returns NONE exactly when the two types have, at some corresponding position, parts of different sorts; otherwise the result contains a flag (sign, width, sequence/array/string/map bounds, member names, members) exactly when a difference of that kind occurs at some corresponding position, and it is EQUALS exactly when no such difference occurs.", "quantifier": "all pairs of types of any depth", "why_tests_cant": "The result is computed recursively over both types; a flag lost at some depth or for some combination of kinds is invisible to samples.", "anchors": ["include/xtypes/DynamicType.hpp: is_compatible", "include/xtypes/PrimitiveType.hpp: is_compatible", "include/xtypes/StructType.hpp: is_compatible", "include/xtypes/UnionType.hpp: is_compatible", "include/xtypes/TypeConsistency.hpp"]}
{"id": "C53", "title": "Conversion between UTF-8 and UTF-16", "statement": "code_conversion_tool turns any well-formed UTF-16 text into the same text in UTF-8 and back; on ill-formed or truncated input it ends with an exception. (As found: exact only for texts that can be cut between characters into pieces of 64 output units; other texts get stale buffer contents inserted, and truncated input makes the call run for ever.)", "quantifier": "all texts of any length, all truncated or ill-formed continuations", "why_tests_cant": "The result depends on where the boundaries of the 64-unit buffer fall between characters; short texts never reach them and a diverging call cannot be observed.", "anchors": ["include/xtypes/StringConversion.hpp: code_conversion_tool"]}
{"id": "C54", "title": "Iteration and indexing through references", "statement": "For a readable reference to a collection, size() is the number of elements, iterating from begin() to end() visits exactly the elements in order (a map gives its pairs), each visited reference has the element type (aliases resolved) and the element's value, and agrees with operator[](i); beyond size() operator[] is refused; on non-collections begin/end are refused. items() of an aggregation visits its members in declaration order with their names and values (for a union the discriminator first). (As found: items() of a union also visits members that are not selected, whose memory need not hold an instance; assigning an iterator over another reference keeps the old type.)", "quantifier": "all types, all values, all lengths, any reference position", "why_tests_cant": "Offsets and counts accumulate over elements; an error for some element type or nesting is not visible on samples.", "anchors": ["include/xtypes/DynamicData.hpp: size, operator[], Iterator, begin, end, MemberPair, MemberIterator, items"]}
{"id": "C55", "title": "cast<T>()", "statement": "cast<T>() of an integral primitive or enumeration datum gives its number when T can represent it, else the number modulo 2^width (bool: nonzero); it is the same as converting the datum to T and reading it; casting to the own type gives the same bytes; non-scalars are refused. cast<std::string>() gives the decimal numeral, from which the number can be recovered, and a string's own text; (as found) wide strings are refused.", "quantifier": "all integral types, all values, all target types", "why_tests_cant": "Correctness at sign and width boundaries for all pairs of types.", "anchors": ["include/xtypes/DynamicData.hpp: cast, _cast", "include/xtypes/DynamicDataImpl.hpp: cast<std::string>"]}
{"id": "C56", "title": "as_vector<T>()", "statement": "as_vector<T>() of a reference to a collection whose content is the C++ type T gives all elements in order as C++ values; for other types it is refused. (As found: for an empty sequence it is refused, and content declared through an alias or an enumeration is refused.)", "quantifier": "all collections, all element types, all lengths", "why_tests_cant": "Pointer arithmetic over raw memory must be right for every element type and length.", "anchors": ["include/xtypes/DynamicData.hpp: as_vector"]}
{"id": "C57", "title": "to_string()", "statement": "to_string() gives one line per node of the datum in preorder, indented by depth and labelled with the member name or index, showing the type and, for scalars and strings, the value; it is defined for every datum. (As found: a wchar_t anywhere or a union without a selected member makes it fail; 8-bit integers are printed as characters; enumeration values are not shown; unions and pairs are called unsupported.)", "quantifier": "all types, all values, any depth", "why_tests_cant": "The text is assembled by a visitor over an unbounded tree.", "anchors": ["include/xtypes/DynamicDataImpl.hpp: ReadableDynamicDataRef::to_string"]}
{"id": "C58", "title": "Ownership of the instance", "statement": "Every DynamicData owns its memory: destroying one never affects another, and all can be destroyed in any order. (As found: true for data constructed from a type, a datum, or a reference with a type; a DynamicData constructed from a reference alone shares the memory of the referenced datum and destroying both is undefined.)", "quantifier": "all types, all values, all ways of construction, all orders of destruction", "why_tests_cant": "Double frees are undefined behaviour that a passing test does not rule out; every type and position must be covered.", "anchors": ["include/xtypes/DynamicData.hpp: DynamicData constructors, ~DynamicData"]}
{"id": "C59", "title": "Access to maps by key, in memory", "statement": "d[key] gives a writable reference to the value of the entry of the key, adding an entry with the default value if there is none and the bound allows it; at(key) and has_key(key) look the key up. After d[key] op, the key gives the new value, every other key and every other part of the datum reads as before, the entries are still in the order of the hashes of their keys, and no memory is lost. A new key is refused by a full map. (As found: true for maps whose entries are in order, keys being told apart by their hash only; keys of a wrong type are not refused by operator[] and at; entering a key before others loses the memory of long strings.)", "quantifier": "all data, all paths to a map, all types and values of keys and entries, all bounds and fillings of the map, all operations on the value", "why_tests_cant": "The place of an entry depends on hashes; each filling level and position leads to other moves of memory.", "anchors": ["include/xtypes/MapInstance.hpp: insert, create_place, find_place, move_content, realloc", "include/xtypes/MapType.hpp: insert_instance, get_instance_at", "include/xtypes/DynamicData.hpp: operator[], at, has_key, insert"]}
{"id": "C60", "title": "What the generator prints, the parser reads", "statement": "The IDL that idl::generate prints for structures (with or without a parent), unions, enumerations, aliases and constants, and for modules of these in each other, is accepted by idl::parse, in any layout, and each name then stands, in its module and by its full name, for a type equal to the one printed; constants keep their type and value and enumerators become constants of theirs; names known before keep their meaning. (As found: true when names are no keywords, do not begin with an underscore or with a keyword followed by a digit, members are not named like visible types or constants, enumerators have the values 0, 1, 2, ..., arrays are not inside collections, and characters are those of the context; unions need at least two cases, labels that survive printing (C48) and are no quotes, backslashes or names that begin with TRUE or FALSE, and default cases added with their least label first; constants must be integers other than the least int32 and int64, FALSE, or strings without quotes and backslashes; modules must not be empty; types must be seen from their module under the name that is printed.)", "quantifier": "all lists of declarations and modules, nested to any depth, all types of members built from primitive types, strings, sequences, maps, arrays and named types, all names, all values of constants, all bounds and dimensions, all indentation, white space and comments, all contexts, all modules to read into", "why_tests_cant": "Types nest without bound and the text of a type can be any string over names; a parsing expression grammar may take a wrong alternative for some of them only.", "anchors": ["include/xtypes/idl/generator.hpp: structure, generate_union, enumeration32, aliase, get_type_name, array_member", "include/xtypes/idl/grammar.hpp: idl_grammar", "include/xtypes/idl/parser.hpp: parse, build_on_ast, struct_def, union_def, switch_case, enum_dcl, alias_dcl, type_spec, resolve_identifier, get_dimension", "include/xtypes/idl/generator_deptree.hpp: generate_idl_sentence", "include/xtypes/idl/parser.hpp: const_dcl, solve_expr, get_literal_value"]}
{"id": "C61", "title": "A whole module, generated and read back", "statement": "The text that idl::generate prints for a module and everything in it is read by idl::parse, into an empty module, as the same tree: the same modules at the same places, with the same structures, unions, enumerations, aliases and constants under the same names. (As found: true when the declarations are such as C60 allows, no two things that can be seen from one place have the same name, modules are not empty, enumerators have their constants, and each declaration stands in the text after those it uses, which the generator arranges for some kinds of uses only (C46); an alias of a structure of the same module, for example, is printed before the structure and the text is refused.)", "quantifier": "all trees of modules of any depth and size, all declarations in them, all contexts of the parser", "why_tests_cant": "The order of the declarations is decided by a traversal of a graph of modules and types; each tree gives another text, and the text must be accepted by a parser that has no forward references.", "anchors": ["include/xtypes/idl/generator_deptree.hpp: generate_idl, generate_idl_module, generate_idl_sentence, all_nodes_iterated, all_inner_iterated, ModuleDependencyTree", "include/xtypes/idl/idl.hpp: generate", "include/xtypes/idl/parser.hpp: parse, build_on_ast", "include/xtypes/idl/Module.hpp: structure, union_switch, enum_32, create_alias, create_constant, submodule"]}
{"id": "C62", "title": "The parser on any text", "statement": "idl::parse ends on every text and whatever the module tree holds: the text does not match the grammar, or it is read, or refused with an error. And whatever the text is and however reading it ends, nothing that the module tree held before is lost or changed: every module, type and constant is found under its name as before, except that a structure or union that had no members may have got some. (As found: a name with four colons in a row makes the lookup go on without end, and the words any and fixed, and a type that is defined inside of a typedef, make the parser call itself without end; constants that are half of a surrogate pair can not be printed in the log.)", "quantifier": "all texts, all module trees, all contexts of the parser, all outcomes including failures half-way, all sequences of texts", "why_tests_cant": "Texts are unbounded, names in them are resolved by a search that moves through the tree of modules and has no measure of progress of its own, and a failure can come after any declaration.", "anchors": ["include/xtypes/idl/parser.hpp: parse, build_on_ast, struct_def, union_def, struct_fw_dcl, const_dcl, alias_dcl, type_spec, solve_expr, resolve_identifier", "include/xtypes/idl/grammar.hpp: idl_grammar", "include/xtypes/idl/Module.hpp: resolve_scope, structure, union_switch, enum_32, create_alias, create_constant, create_submodule, has_symbol"]}
{"id": "C63", "title": "What a text makes can be used", "statement": "Whatever the text and however reading it ends, every type it leaves in the modules, at every depth, has members of different names, unions that constructing and adding cases could have made, and enumerations of 32 bits with enumerators of different names; and of every type that a name stands for afterwards a datum can be made that holds the default value. (As found: except when a union has a case for the value that the library keeps for \"no case\"; such a text is read without an error, and using the datum is undefined behaviour.)", "quantifier": "all sequences of texts, all contexts, all outcomes including failures half-way, all names", "why_tests_cant": "Any text may be read, including texts that fail after any declaration, and types are combined from types that earlier texts made.", "anchors": ["include/xtypes/idl/parser.hpp: parse, struct_def, union_def, enum_dcl, alias_dcl, type_spec, members", "include/xtypes/StructType.hpp: add_member", "include/xtypes/UnionType.hpp: add_case_member", "include/xtypes/DynamicData.hpp: DynamicData(const DynamicType&)"]}
{"id": "C64", "title": "Layout, comments and annotations do not change what is read", "statement": "Two texts that write the same declarations, with other white space, other comments (before, between and after all words), other annotations before structures, unions, enumerations, modules, members and cases, and other words for the same basic types (long, int32), are both accepted by idl::parse and have the same effect, in every context and on every module tree. Lines for the preprocessor, declarations of annotations, bit sets and bit masks, anywhere, have no effect. A text can be understood in one way only, and reading one text after another is reading the two as one. (As found: an annotation before an enumerator takes its name away; annotations before typedef and const, and an annotation without parameters followed by a blank and another annotation, make the text unreadable; a blank between default and its colon makes it the label 0, or 'd'; native and an empty bit set make a structure; a typedef of several names makes an alias without a name.)", "quantifier": "all declarations of any size and depth, all texts that write them, all contexts of the parser, all module trees, all outcomes", "why_tests_cant": "Between any two words of any text there may be any white space and any number of comments of any content, and annotations with any parameters may be put anywhere; tests try a few.", "anchors": ["include/xtypes/idl/grammar.hpp: WS, COMMENT, ANNOTATIONS, ANNOTATION_APPL, DEFINITION, MEMBER, CASE, DIRECTIVE, ANNOTATION_DCL, BITSET_DCL, BITMASK_DCL, ENUMERATOR, TYPE_DECLARATOR", "include/xtypes/idl/parser.hpp: parse, build_on_ast, member_def, switch_case, enum_dcl, alias_dcl, struct_fw_dcl"]}
{"id": "C65", "title": "The text reaches the preprocessor as it is, and nothing in it is executed", "statement": "With preprocessing (the default), idl::parse hands the text to cpp through a command of the shell. The command that the shell executes is echo with exactly the text as its one argument, piped into the preprocessor with its include directories; nothing that is written in the text (in a comment or a string, for example) is executed or expanded; the output is taken whole, whatever the lengths of its lines; and if the preprocessor adds only lines of its own, the text has the effect that it has without preprocessing. (As found: this holds exactly for texts without $ and back quotes, with no backslash at the end, before a backslash or before an end of line, and no \\\" before the first other quotation mark; a word after // \\\"; in a comment is executed; every text with a quotation mark makes the library read outside of the text; blanks and semicolons in file names are not quoted.)", "quantifier": "all texts, all preprocessor commands and include directories that need no quotes, all outputs, all systems that execute the command as POSIX says", "why_tests_cant": "Which characters stand where in a text decides where the quotation of the shell ends; the texts for which it goes wrong are those nobody thinks of, and the read outside of the text usually goes unnoticed.", "anchors": ["include/xtypes/idl/parser.hpp: PreprocessorContext::preprocess_string, preprocess_file, replace_all_string, exec, Parser::parse_string, Parser::parse"]}
{"id": "C66", "title": "Types are values", "statement": "A type that is put into another type (as member, case, content, aliased type or parent), into a DynamicType::Ptr or a module, or given to data, is as good as copied: the copy shows the same type; everything that is later done to the variable it was made from (members added, renamed, end of its life) leaves the copy as it was, and the other way round; and all of the type of every living variable, pointer and datum is alive, in every history. (As found: data made from a pointer or from the entry of a module share it, so that adding a member to Module::structure(\"S\") changes the type of existing data; pointers to primitive types share them, also as members, and a renaming through one is seen by all; the copy of an EnumerationType is none, and add_enumerator on the entry of a module is not defined.)", "quantifier": "all histories of declarations, changes, copies, moves and ends of types, pointers and data of any number and depth, with objects destroyed by shared pointers at any time after their last use", "why_tests_cant": "Sharing shows only in particular orders of changes and ends of life, and a dangling or shared type usually looks right until much later.", "anchors": ["include/xtypes/DynamicType.hpp: Ptr, dont_clone_type, clone", "include/xtypes/DynamicData.hpp: ReadableDynamicDataRef::ReadableDynamicDataRef", "include/xtypes/SequenceInstance.hpp", "include/xtypes/MapInstance.hpp", "include/xtypes/Member.hpp", "include/xtypes/AggregationType.hpp: parent, insert_member", "include/xtypes/EnumeratedType.hpp: clone", "include/xtypes/idl/Module.hpp: structure, union_switch, enum_32, alias"]}
{"id": "C67", "title": "Contexts do not interfere, and say what happened", "statement": "What a Context shows (its settings, success, and the types and constants of its module tree) depends on nothing but the calls it was given to: reading texts with other contexts, with the same or another parser, changing, clearing or destroying them changes nothing of it. What it has shown stays, whatever is read with it and however the readings end, until it is cleared, assigned or destroyed. success is what the last call of parse returned, true exactly if the text matches the grammar. Parser::get_all_types gives the types of the context the parser was last used with. (As found: a copy of a Context shares the module tree of the original, so that what is read with one is seen in the other; after a call that ends with an exception, success is what it was before, possibly true; clear_context leaves success as it was; and once the context is destroyed, Parser::get_all_types follows a pointer to nothing.)", "quantifier": "all histories of creating, configuring, copying, assigning, clearing and destroying contexts, changing their trees, reading any texts with any parsers, and asking parsers for types; any number of contexts and parsers", "why_tests_cant": "Interference needs particular orders of calls on several contexts; a dangling pointer or a stale flag looks right in each test with one context.", "anchors": ["include/xtypes/idl/parser.hpp: Context, Context::module, Context::clear_context, Parser::parse, Parser::get_all_types", "include/xtypes/idl/idl.hpp: parse"]}
{"id": "C68", "title": "Walking the modules visits each one once", "statement": "for_each on a module calls the visitor exactly once for the module and for every module inside it at any depth, and for no other; outer modules come before inner ones and siblings in the order of their names; for_each_submodule without recursion calls it exactly for the direct submodules. No walk has undefined behaviour.", "quantifier": "every history of calls on a module tree and every module in it", "why_tests_cant": "All trees of any shape and depth, built in any order.", "anchors": ["include/xtypes/idl/Module.hpp: for_each, for_each_submodule, create_submodule, submodule, operator[]"]}
{"id": "C69", "title": "Searching a module for a type", "statement": "type(name) returns the type the closest enclosing module declares under a plain name, and nothing otherwise; type(name, true) finds a type if any module inside declares one under the name; a rooted name finds exactly the type with that path from every module; the type returned is the declared one, under its own name.", "quantifier": "every history of calls on a module tree, every module in it and every name", "why_tests_cant": "All trees, histories and names.", "anchors": ["include/xtypes/idl/Module.hpp: type, resolve_scope", "include/xtypes/DynamicType.hpp: Ptr::operator="]}
{"id": "C70", "title": "Traversing while writing", "statement": "for_each on a writable reference calls the visitor on each node and then walks the parts of what the visitor left there; afterwards the datum holds exactly what the visitor wrote, nothing leaks, and the nodes visited are those of the datum as it is afterwards, in preorder. In particular assigning f(x) to every primitive node replaces every number by f of it and changes nothing else.", "quantifier": "every type, every datum of it, every visitor that writes through the node it is given, with any state and exceptions", "why_tests_cant": "All types, values and visitors; the memory changes under the walk.", "anchors": ["include/xtypes/DynamicData.hpp: WritableDynamicDataRef::for_each, WritableDynamicDataNode", "include/xtypes/*Type.hpp: for_each_instance"]}
{"id": "C71", "title": "Files, and texts that go through a temporary file, are read as they are and nothing is left behind", "statement": "idl::parse_file reads exactly what the preprocessor makes of what is in the file (without preprocessing: what is in the file), and idl::parse with the strategy temporary_file reads exactly what the preprocessor makes of the text, whatever characters the text has; both strategies do the same where both work. Afterwards every file that was there before is what it was, and no other file is there, over any number of parsed texts. A file that is not there is not accepted. (As found: when popen fails the temporary file stays, one for each failure; the exit status of the preprocessor is thrown away, so that what it printed before it failed is parsed as if it were everything; whether the disk has taken the text is not asked; a blank in the name of the temporary directory makes two file names of one.)", "quantifier": "all texts, all contents of the disk, all systems with any preprocessor, all sequences of texts, all failures of popen and of mkstemp, all exit statuses", "why_tests_cant": "popen and mkstemp do not fail in tests, disks are not full, and the leftovers are outside of the program; the characters that the other strategy gets wrong are the ones nobody thinks of.", "anchors": ["include/xtypes/idl/parser.hpp: PreprocessorContext::preprocess_file, preprocess_string<temporary_file>, get_temporary_file, exec", "include/xtypes/idl/parser.hpp: Parser::parse_file, Parser::parse_string"]}
{"id": "C72", "title": "Loops that write", "statement": "for (auto e : d) over an array, a sequence, a string or a map, and for (auto m : d.items()) over a structure, with a body that writes through what it is given and to d itself, does in round i what the body does to part i of the value as it is then, for as many rounds as there were parts at the beginning; it ends, also if every round makes the collection longer, with d holding the value that comes of it, nothing besides d changed, and nothing lost. A body that replaces every element by f of it makes every element f of it, once; a body that writes nothing sees the elements in order, each once; pushing every element that is read doubles a sequence. (As found: a body that makes the collection shorter ends in an exception for a sequence and in undefined behaviour for a map; the keys of maps and the discriminators of unions are given out as writable, which leaves double keys and members that are not there.)", "quantifier": "all types and values, all bodies with any variables, writing any operations anywhere below what they are given and below d, and leaving at any time", "why_tests_cant": "tests have a few loops with short bodies that write one number; whether a loop sees what it has written, or ends, depends on all bodies and on where blocks are moved by what they write.", "anchors": ["include/xtypes/DynamicData.hpp: WritableDynamicDataRef::Iterator, begin, end, MemberIterator, MemberPair, items", "include/xtypes/UnionType.hpp: offsets of members and of the discriminator", "include/xtypes/SequenceInstance.hpp, MapInstance.hpp: operator []"]}
{"id": "C73", "title": "A type says what it is", "statement": "For every type, is_primitive_type is true exactly for the primitive types, is_enumerated_type exactly for enumerations, is_collection_type exactly for arrays, sequences, strings and maps, is_aggregation_type exactly for structures and unions; every type is primitive or constructed and not both, and at most one of the first four. Two types have the same kind() exactly if they are the same primitive type, strings of the same characters, or made by the same class. The signedness that conversions compare differs exactly between the unsigned numbers and everything else.", "quantifier": "all types and all pairs of types", "why_tests_cant": "the queries are bits of numbers that are shared by all types; the implementation branches on them in about three hundred places, and a clash of two kinds would only show for the pairs of types that somebody tries.", "anchors": ["include/xtypes/TypeKind.hpp: TypeKind, operator &", "include/xtypes/DynamicType.hpp: is_primitive_type, is_collection_type, is_aggregation_type, is_constructed_type, is_enumerated_type", "include/xtypes/PrimitiveType.hpp: PrimitiveTypeKindTrait, is_compatible"]}
{"id": "C74", "title": "A hash is made of the hashes of the parts", "statement": "The hash of a datum is computed from its value alone, part by part: that of a number is the hash of its bytes, that of a string the hash of its characters, and the hashes of the elements of an array, the entries of a map, the parts of a pair and the members of a structure are combined from the first to the last. So data that differ in their last part only hash differently when those parts do, and different numbers hash differently.", "quantifier": "all types, all values of them, whatever else is in memory", "why_tests_cant": "the hash walks the type and the memory together, to any depth; a part that is left out or taken twice shows only for the types and pairs of values that somebody tries, and equal hashes of different data are no error to a test.", "anchors": ["include/xtypes/Instanceable.hpp: hash, hash64, hash_combine", "include/xtypes/StructType.hpp: hash", "include/xtypes/ArrayType.hpp: hash", "include/xtypes/PairType.hpp: hash", "include/xtypes/MapInstance.hpp: map_hash", "include/xtypes/SequenceType.hpp: hash", "include/xtypes/UnionType.hpp: hash"]}
{"id": "C75", "title": "Members keep what they were declared with", "statement": "A member has the name, type, id, key and optional it was declared with: the last setting of each counts, whatever else is set; without one it has no id, is no key and not optional. A structure gives every accepted member back with all of this, by name and by position, whatever is added later, accepted or refused; so does every structure made with it as parent, and that one says that it has this parent. A union does the same with its cases. Annotations and parents have no influence on the layout.", "quantifier": "all sequences of settings of members and all histories of structures and unions, with parents of any depth", "why_tests_cant": "the statement ranges over every order of settings and additions, with refusals in between; a default that is not initialized or an annotation that is not copied shows only for the fields and histories a test looks at.", "anchors": ["include/xtypes/Member.hpp: Member, id, key, optional, has_id, get_id, is_key, is_optional", "include/xtypes/AggregationType.hpp: insert_member, parent, has_parent, member", "include/xtypes/StructType.hpp: StructType, add_member", "include/xtypes/UnionType.hpp: UnionType, add_case_member"]}
{"id": "C76", "title": "Maps from numbers are dictionaries", "statement": "A map whose keys are numbers of up to 8 bytes behaves as a dictionary: after m[key] = value the key has this value, and every other key has what it had before; at(key) gives the value that was assigned last and is refused for a key that never was entered; has_key says which; the size is the number of different keys; the rest of the datum does not change.", "quantifier": "all data, all maps in them, all keys and values and all sequences of assignments", "why_tests_cant": "the keys lie in the order of their hashes: that two keys never share an entry has to hold for all pairs of keys, and that no entry is lost for all histories of insertions.", "anchors": ["include/xtypes/DynamicData.hpp: operator[], at, has_key", "include/xtypes/MapInstance.hpp: MapInstance", "include/xtypes/PrimitiveType.hpp: hash"]}
{"id": "C77", "title": "Labels given as text", "statement": "A case label of a union that is given as a text has the value that is written there: a decimal number, with a sign and with white space before it or not, an octal number that begins with 0, or a hexadecimal number that begins with 0x or 0X, for every discriminator of an integer type (or an alias of one) that has this value.", "quantifier": "all texts of any length, all integer types and all values of each", "why_tests_cant": "the statement ranges over all numbers, bases and types; the ends of the ranges and the conversion between signed and unsigned go wrong for single values.", "anchors": ["include/xtypes/UnionType.hpp: parse_labels, add_case_member"]}
