# DESIGN

A formal model in Lean 4 of eProsima/xtypes (headers under `/repo/include/xtypes`) and theorems about it.
`properties.jsonl` lists the properties, `MANIFEST.json` says which theorems prove which property, this file says what
the theorems rest on, what is modelled and how, and what was found.

Layout of `lean/Verif`:

| directory | content |
|---|---|
| `Model/` | the code, function by function; every definition cites file and lines |
| `Spec/` | the vocabulary of the statements, independent of the model's helpers |
| `Lemmas/` | proofs |
| `Props/` | the property theorems `Cnn_…` with their non-vacuity examples |

Conventions: a theorem `Cnn_…_partial` proves part of the property; its doc comment says what is missing.
`Cnn_…_fails`, `Cnn_fails_…`, `Cnn_violated_…`, `Cnn_not_…` are proved negations, with a concrete witness, of the part of
the property that this code does not satisfy.

## Trusted base

1. **Lean's kernel** (4.33.0). No `native_decide`, no `bv_decide`, no axioms of our own, no unfinished proofs.
2. **Axioms**: at most `propext`, `Quot.sound` and `Classical.choice`. `AXIOMS.md` (generated by
   `tools/axioms.py`) lists them for each property theorem.
3. **The reading of the code**: the only tie between model and code is the citations; nothing was compiled or run. Where
   the model simplifies, the comment of the definition or the head of the file says so; the list is below.
4. **The platform and the C++ rules the model builds in**: LP64, little endian, libstdc++ object sizes
   (`sizeof(std::string) = 32`, `SequenceInstance`, `MapInstance`: `Model/Ty.lean`), `char` and `wchar_t` signed,
   `wchar_t` of 32 bits, `long double` of 16 bytes, C++17 integer promotions and the points at which it leaves an
   operation undefined (`Model/Ops.lean`); `std::map` iterates in increasing key order (`Model/OMap.lean`);
   `strtoull`, `strtoll`, `stoul`, `atoi`, `std::to_string`, UTF-8/UTF-16 conversion as in `Model/Text.lean`.
5. **`xtypes_assert`** is modelled as *refusal*: the operation has the outcome "refused". In a release build without
   `XTYPES_EXCEPTIONS` the macro is empty (Assert.hpp) and execution goes on; a theorem that says "is refused" is about
   builds in which the check exists.
6. **Memory exhaustion** never happens; allocation returns fresh memory.
7. **The shell**: `popen` executes its command as POSIX.1-2017 (XCU 2.2, 2.3) says, as far as `Spec/Shell` describes it
   (words, quotes, operators, the places of expansions; a number before `>` is a word); only C65 and C71 rest on it.
8. Uninterpreted: conversions between integers and floating point (`floatConv`), `std::hash` of strings, and the bytes of
   heap-owning objects (`HashEnv`); theorems hold for every choice of them.

## What is modelled, file by file

| file | modelled | not modelled |
|---|---|---|
| TypeConsistency.hpp | `\|`, `&`, `\|=`, `&=`, the flag values (`Model/Consistency`) | |
| TypeKind.hpp | the kinds and their bits, `is_primitive_type`, `is_constructed_type`, … (`Model/Kind`) | kinds that no class has |
| PrimitiveType.hpp | size, construct, copy, conversion, move, compare, hash, compat, traversal | floating point conversion |
| StringType.hpp | the same, with bounds and placement new over live objects | `wstring` facets |
| SequenceType/SequenceInstance.hpp | all operations; 32-bit counters in `Model/Seq`, memory in `Model/Inst` | |
| MapType/MapInstance.hpp | `find_place`, `create_place`, insert, lookup (`Model/MapInst`); memory in `Model/Inst`; the two in one model, with the leaks of `create_place`, in `Model/MapMem` | removal (the code has none) |
| PairType, ArrayType.hpp | everything, names of multi-dimensional arrays included | |
| StructType, AggregationType, Member.hpp | `add_member`, layout, inheritance, lookup, instance operations; annotations and parents (`Model/Member`) | |
| UnionType.hpp | building cases and labels, `parse_labels`, selection, discriminator, instance operations | annotations of case members (stored as those of structures, `Model/Member`) |
| EnumerationType, EnumeratedType.hpp | `add_enumerator`, values, assignment from value and name | |
| AliasType.hpp | `rget`, every forwarded operation | |
| DynamicType.hpp | `is_compatible`, `for_each`, names; `Ptr` as a value, and with its sharing in `Model/TypeHeap` | |
| DynamicData.hpp, DynamicDataImpl.hpp | construction, conversion, copy, move, assignment, destruction, paths, `value`, `string`, `push`, `resize`, `d()`, `==`, `for_each`, operators, `size`, iterators, `items`, `as_vector`, `cast`, `to_string`, ownership of the block; who holds which type (`Model/TypeHeap`), writing through iterators (`Model/Iterate`) | iterators and references kept from earlier rounds |
| Assert.hpp | as refusal | the text of messages |
| StringConversion.hpp | `code_conversion_tool` between UTF-8 and UTF-16, the loop with its 64-unit buffer; the facet `std::codecvt<char16_t, …>` by its specification (`Model/Codec`) | `wchar_t` (locale-dependent facet) |
| idl/Module.hpp | tables, scoped lookup, registration, submodules, enumeration of types; walks and the recursive search for a type (`Model/ModuleWalk`) | sharing between `shared_ptr`s, visitors that change the tree |
| idl/generator.hpp | `label_value`, `array_dimensions`, `type_name` with its scopes; the whole text of a declaration and of modules in modules (`Model/IdlText`) | `type_scope`, the map `struct_idl` |
| idl/generator_deptree.hpp | the tree, dependencies, order of emission (`Model/Deps`); the text to the byte (`Model/IdlModule`) | `module_idl` map |
| idl/grammar.hpp | every rule: white space and comments, names, numbers, types, structures, unions with their labels, enumerations, aliases, constants with their expressions and literals, modules, annotations and their declarations, bit sets and masks, `native`, preprocessor lines (`Model/IdlGrammar`), run as a parsing expression grammar | the library that runs the grammar |
| idl/parser.hpp | constant expressions from tokens on, array dimensions, labels, the log; `type_spec`, `struct_def`, `union_def`, `enum_dcl`, `alias_dcl`, `const_dcl`, `solve_expr`, `get_literal_value`, `module_dcl`, `resolve_identifier`, `get_dimension` (`Model/IdlBuild`); `Context` and `Parser` as objects (`Model/Context`) | cpp-peglib itself, what `cpp` does (`Model/Preprocess`, `Model/ParseString` and `Model/TempFile` have the commands, the files and the reading of the output, C65, C71), `get_temporary_file` of Windows, constants of floating point, wide string and constructed types (`Stop.outside`), the rest of the semantic actions |

"Not modelled" also: threads (the library has none and is not thread safe), exceptions thrown by user visitors other than
through `for_each`, and memory exhaustion.

## Properties: what is modelled and how each is proved

- **C01 sequence = bounded list** — `Model/Seq`: `SequenceInstance` as a state machine (capacity, memory, size, 32-bit arithmetic). Refinement to `List α` for each operation, lifted to histories by induction.
- **C02 sequence bounds** — invariant over the same histories; the refused push is a separate outcome.
- **C03 sequence storage** — the same machine with outcome "undefined" for accesses outside the buffer. False for bounds whose byte count exceeds 2^32 and for pushing an element of the full sequence itself: negations, and `C03_storage_partial` for everything else.
- **C04 amortised growth** — cost-counting run, potential argument.
- **C05, C06, C09, C10 maps** — `Model/MapInst`: sorted slots, binary search as written. Sortedness invariant; refinement to a finite map under distinct hashes; canonical form of strictly sorted lists gives order independence.
- **C07 hash64** — `Model/Hash` on `BitVec 64`; injectivity by inverting xorshift and multiplication by odd constants. A collision above 8 bytes is exhibited.
- **C08, C11** — false of this code; negations with witnesses, and what does hold.
- **C12 equal data, equal hash** — structural induction over `hash(instance)`; false for zeros of floats, padding of `long double`, bounded sequences, unions (witnesses); floats that are not zero are covered (`NoZero`, Spec/EqFloat).
- **C13, C14, C15 structures** — builder state machine; prefix sums; induction over `add_member` histories.
- **C16 – C19, C26 – C31, C33, C34, C36 data** — `Model/Inst`: construct/copy/convert/move/destroy/compare on flat memory whose cells know whether an object lives there; outcome `ub` for every access the language leaves undefined; leaks are counted. A decoding function `decode : Ty → cells → Option Val` (Spec) says which value a block holds; each operation is proved to refine the obvious operation on values, in place within any larger block (frame), by induction on types. `Model/Ref` adds paths and union selection, `Model/Data` whole programs over several variables (`World.exec`), about which invariants are proved for all executions.
- **C20 – C25, C52 compatibility** — `Model/Compat`: `is_compatible` as a function on type trees; induction on pairs of types; `Spec/Flags` states independently what each flag means.
- **C32, C35, C51 unions and enumerations as types** — builder state machines, invariants over histories.
- **C37 traversal** — `Model/Walk`: visitor with state and early exit; specification as the preorder of the abstract tree; order and uniqueness via routes.
- **C38, C39 operators** — `Model/Ops`: C++ promotion and conversion rules over `Int`/`BitVec`; undefined points characterised exactly.
- **C40 – C43 modules** — `Model/Module`: tree with places; lookup as written (search for `"::"` in the text); specification by paths.
- **C44 constant expressions** — `Model/Expr`: PEG rules with right recursion on tokens and `solve_expr`. From the text on: `Spec/ExprText` says how tokens, types and declarations are written in any layout, `Spec/ConstText` what a sequence of declarations means; `Lemmas/ExprText` shows that the character-level grammar of `Model/IdlGrammar` reads them, `Lemmas/ConstText` that whole texts of declarations are read; `Props/ExprText` has the theorems.
- **C45, C46 generated IDL** — `Model/Deps`: dependency tree, solving, emission with iteration flags; termination characterised exactly; order lemmas along the run.
- **C47, C48 text** — `Model/Text`, `Model/ArrayText`, `Model/UnionText`: decimal printing and `strto…` reading on bytes, labels per discriminator kind, dimensions.
- **C49 log** — `Model/Log`; histories of log calls.
- **C50 array names** — names computed as in the constructors; false in general, exact on library-named content.

- **C53 code conversion** — `Model/Codec`: the loop of `code_conversion_tool` with its buffer of 64 units, never-written units explicit; the outcome (returns, runs for ever, throws) is characterised for every input, and exactness of the result by where the buffer boundaries fall.

- **C54 iteration** — `Model/Api`: references as block and address; iterators, the loop as an inductive relation; proved against the decoded value (`RRef.Sees`).
- **C55 casts, C56 vectors** — on the same references; `cast` against `number`/`Fits` (shared with C28), `as_vector` element by element.
- **C57 printing** — the visitor of `to_string` on the walk of C37; the text is specified by `lineText`/`textOf` over the preorder of the tree.
- **C58 ownership** — `Model/Own`: blocks with identity; `delete[]` of a deleted block or of an interior pointer is undefined.
- **C59 maps by key, in memory** — `Model/MapMem`: find, grow, shift and insert on cells (the code of `MapInstance`), `operator[]`, `at`, `has_key`, `insert` through any path. Specification `Spec/MapMem`: entries as a list in the order of hashes, `lookup`. Proved by showing that each step edits the decoded value (`EditsTo`) and lifting along paths.
- **C60 IDL round trip** — `Model/IdlText` (what the generator prints for a structure, a union, an enumeration, an alias, a constant, and for modules in each other), `Model/IdlGrammar` (the grammar as functions on texts), `Model/IdlBuild` (the actions of the parser on the module tree of `Model/Module`). Specification `Spec/Idl`, `Spec/IdlDoc`, `Spec/Module`: which names and types can be written, what a declaration adds to a module. Proved by following the grammar over the printed text, character by character, for every indentation and every layout between the words, comments included (`Layout`); the tree obtained is then evaluated. For unions the labels go through C48, and the loop of `add_case_member` is shown to rebuild the union case by case (`Lemmas/UnionRebuild`). Modules nest to any depth: a declaration is printed for the module it is in (`Lemmas/IdlLocal` relates that text to the text with full names), evaluated with lookups from that module, and shown to keep what every name in every module meant (`Lemmas/ModuleTree`: adding one name that is not visible changes no lookup that succeeded). The printed value of a constant is followed down the ladder of the expression grammar to a literal (`Lemmas/IdlLabels`, `Lemmas/IdlDecls`), whose value is computed by `strtoll`/`strtoull` and negated if there is a sign (`Lemmas/IdlConst`). Assumed: cpp-peglib implements ordered choice, an AST node that is no token has an empty token, and `is_token` (a run of one rule of the grammar on an identifier) is true for keywords only; the names admitted (`Usable`) are such that it does not matter whether that run must consume the whole identifier.
- **C61 whole modules** — `Model/IdlModule` repeats the traversal of C45/C46 keeping the text to the byte: sentences, braces, indentation and empty lines, with the declarations of `Model/IdlText`. Specification `Spec/IdlTree`: which trees can be expressed (`ExpressibleTree`), and when two trees are the same (`SameTree`). Proved by showing that the text is that of a well-bracketed list of declarations in some layout (`Lemmas/TextGen`, `TextDocs`), that this list, if every use comes after what it uses, declares in order things that C60 can read (`TreePart`, `TreeStand`, `TreeDecl`, `TreeOk`), and that entering them one by one leads to the tree one started with, since each declaration is printed exactly once (C45) (`TreeMap`, `TreeText`, `TreeRead`). `Model/IdlText` leaves out `type_scope`; for the trees of C61 that is harmless, as nothing is named like something around it (`Distinct.around`).
- **C62 any text** — no new model: the grammar, the parser and the lookup as in C60. Specification `Spec/IdlAny`: `NoQuad`, `Keeps`, `WellNamed`. Ending: every name the grammar hands over is a part of the text (`Lemmas/AnyGrammar`, `AnyDefs`), and a lookup of a name without empty components between two `::` consumes the name (`AnyLook`); the outcome for enough steps is then followed through every action (`AnyEnds`). Nothing lost: the parser's actions as a relation of single changes to the tree (`AnySteps`), each of which keeps (`AnyKeep`).
- **C63 what a text makes** — the same single changes to the tree (`AnySteps`), with the invariant `Ty.Made` (`Spec/IdlSound`) for every entry (`Lemmas/AnyMade`); a type that is made and has no case for the reserved value is well-formed in the sense of C16 (`wf_of_made`).
- **C64 layout, comments, annotations** — no new model: the grammar and the parser of C60. Specification `Spec/IdlWrite`: a declaration is written in pieces (words, signs, annotations, preprocessor lines), `DefPieces` says which, `Spaced` and `Document` which texts the pieces make (any `Layout` between them), `Writes` both together. Proved by following every rule of the grammar over pieces instead of characters (`Lemmas/WriteWords`, `WriteTypes`, `WriteValues`, `WriteRuns`, `WriteDefs`), ending in `document_written`: the grammar reads a text as the declarations it writes. `Without` drops ignored declarations in any module.
- **C65 preprocessing** — `Model/Preprocess` has `replace_all_string` with its loops and its read outside of the text (`past`), the two commands, `fgets` and `exec`; `Model/ParseString` puts them before `parse`. Specification `Spec/Shell`: how POSIX reads a command into words. Proved: the texts for which the quotation is right (iff, by induction over the escaped text), the command, the output, and that preprocessing changes nothing if `cpp` only adds what C64 says is ignored; negations with witnesses, one of them for every word.
- **C66 types are values** — `Model/TypeHeap`: types as objects that hold others by `Ptr`, `clone`, `Ptr`'s constructors and assignments, the type of data (`shared_from_this` or a clone), and the calls of a client; destruction by shared pointers is a step that may come at any time after the last holder is gone. Specification `Spec/TypeHeap`: the tree that an object shows, and which step rebinds or changes what. Proved by an invariant over all histories: parts are alive and held by a shared pointer, every object but primitive types has at most one holder among pointers and parts, and all objects show a finite tree.
- **C67 contexts do not interfere** — `Model/Context`: contexts as objects with settings, flag and a shared pointer to a module tree, parsers with their raw pointer to a context, and the calls of a client; reading is `Idl.Syn.parse` of C60. Invariant (trees are there, pointers lead to contexts); a frame lemma for every call; simulation of a history by its restriction to one context (non-interference); `C62_keeps` for what stays.
- **C68, C69 walking and searching modules** — `Model/ModuleWalk`: `for_each`, `for_each_submodule` and `type(name, recursive)` by recursion on the tree as in the code, on trees that histories of calls produce. Invariants (ordered keys, no null entry without asking) by induction over histories; the walk is exactly the places below in dictionary order; the search is exactly the relation `Finds` (Spec/ModuleWalk).
- **C70 traversing while writing** — `Model/WalkWrite`: the walk on memory with a visitor that answers with operations on its node; specification as a relation on values (`Edited`): visit, then the parts of the new value. Proof by induction on the type with the `Focus` lemmas of C18; totality for polite visitors, determinism, preorder of the final datum, and `C70_map` for the usual use.
- **C71 files** — `Model/TempFile`: `parse_file`, and the strategy with a temporary file, on a disk (names to contents) with a system of any functions for `mkstemp`, `popen` and what the disk takes. Specification `Spec/TempFile`: what such a system does when it has the preprocessor. Proved from `C65_file_partial` (the command) and `collect_ok` (the output); the disk over sequences of texts by induction.
- **C72 loops that write** — `Model/Iterate`: `for (auto e : d)` and `for (auto m : d.items())` with any body that writes through what it is given and through `d`, with variables, and that may leave the loop. Specification `Spec/Iterate`: rounds on values. Proved per round with `EditsW` (C70) on the part and then on the whole; the loop by induction; then that a body that maps elements maps the value, that one that only looks sees the elements in order, and that a loop that pushes ends.
- **C73 kinds** — `Model/Kind`: the numbers of TypeKind.hpp and the queries as tests of bits, for every type. Specification `Spec/Kind`: sorts of types. By cases on the type; C73_model links the bits to the predicates that the rest of the model uses.
- **C74 hashes of values** — no new model: `Model/InstHash` as in C12. Specification `Spec/HashVal`: a function of type and value that combines the hashes of the parts. By induction on the type, on any memory around the datum (`Lemmas/HashVal`).
- **C75 members** — `Model/Member`: `Member` with its annotations, `StructType` with its parent, which `Model/Builder` leaves out. Specification `Spec/Member`: the last setting counts; `Same` is all but the offset. By induction on the history; C75_layout ties it to `Model/Builder`. `UnionM` (same files, `Props/MemberUnion`) puts the annotations of cases beside `UnionB`; C75_union_layout ties the two.
- **C76 dictionaries** — no new model: C59 with the injectivity of the hash of numbers (C74). Specification `Spec/Dict`: a partial function from keys to values; `lastAssigned` for histories.
- **C77 label texts** — `Model/Text` (parseLabel, strtoll, strtoull). Specification `Spec/LabelText`: which texts are numbers, with what value, by digits in their base, and which values each type has. Proved for all of these; what is no number is taken, too (C77_fails).

## Where the code does not satisfy the property

Each item is a theorem of the model with a witness unless marked (read), which means it was seen in the code and is
outside the model.

### Data in memory
- `DynamicData::operator=` between a datum and itself destroys it first (C30_self_assignment_fails).
- Moving out of a `DynamicData` marks the source as not initialised although the move copies owning objects: they leak (C30_move_leaks).
- Elements of bounded collections and of reallocated ones are written by placement new over live objects: leaks (C30_bounded_contents_leak). Growth of a sequence of unions with sequence members destroys memory never constructed (C30_growth_fails_union_of_sequence).
- Copying a sequence of aliases of unions is undefined (C17_copy_fails_alias_of_union); 8 and 16 bit enumerations as discriminators or conversion sources are read and written as 32 bits (C16/C17/C18/C26 `…narrow_enum`).
- Conversion: a structure with at least two members more than the source moves an iterator past the end (C26_fails_two_more_members); array elements beyond the source's dimension stay unconstructed (C26_fails_longer_array); pairs use the target's first size as the source's offset (C27_fails_pair_of_other_size); elements of the same size are copied as bytes, so int32 1 becomes a denormalised float (C27_fails_int_to_float_elements).
- `d(label)` on a union without a selected member sets the label without constructing the member (C31_fails_disc_first); negative labels are never recognised by `d(int64)` (C33_fails_negative_label); a default member without labels can be accessed without being selected (C34_fails_no_label).
- Two array types with equal names are compared without looking at their shape: reads beyond the smaller one (C50_fails_…).
- `==` on floats inside collections is `memcmp`: nan equals itself and 0.0 differs from -0.0 there, and not elsewhere (C19_fails_…).
- `hash` of a bounded sequence reads the object representation (heap addresses); of an unbounded one is 0; equal unions and zeros can hash differently (C12_fails_…). Maps identify keys by hash only (C08_…).
- `insert(pair)` stores only the key and default-constructs the value; on a duplicate it asserts (C11_insert_loses_value).
- Inserting/pushing an element of a full container into itself reads freed memory (C03_self_push_undefined, C06_self_insert_undefined). 32-bit byte counts wrap (C03_overflow_undefined).
- `DynamicData(const ReadableDynamicDataRef&)` and `DynamicData(WritableDynamicDataRef&&)` share the instance pointer of the reference: double free (C58_fails_data_of_reference).
- Entering a key before others in a map copies the entries up with `move_instance`, which copies strings, and overwrites the originals: long strings are lost (C59_insert_leaks). `operator[](key)` and `at(key)` do not check the type of the key (C59_fails_wrong_key).
- `items()` of a union hands out references to members that are not there (C54_items_fail_union); iterator assignment keeps the old type (C54_assign_fails).
- `cast<std::string>` refuses wide strings (C55_cast_string_fails_wide); `as_vector` refuses the empty sequence and aliased content (C56_fails_…); `to_string` refuses `wchar_t` and unselected unions, prints 8-bit integers as characters and no enumeration values (C57_fails_…).
- (read) Value writes to enumerations check only the size of the host type. A refused assignment has already destroyed the target. A throwing constructor leaks its raw block.

### Types
- `is_compatible` is not symmetric (enumerations against integers, one-member structures, pairs: C21_…); int32 and float are EQUALS (C52_equals_not_same).
- A refused default case has already been stored (C32_refused_default_changes_union); two defaults can be reached (C32_two_defaults). Explicit enumerator values can collide by wrap-around (C35_injectivity_fails); the default value 0 of an enumeration need not be an enumerator (C36_default_not_enumerator).
- x++ and x-- yield the new value (C39_not_postfix_yields_previous); uint16 products can overflow `int` (C38_not_uint16_product).

### Modules and IDL
- `submodule(name)` inserts a null entry (C43_lookup_creates), on which enumeration and generation dereference null (C42_null_submodule). A structure and a union of one name coexist and one is lost by `get_all_types` (C42_two_kinds_lost). Rooted names fall back to outer scopes (C40_rooted_exact_fails); a name with an empty component recurses forever (C40_empty_component_diverges). A refused registration has renamed its argument (C41_refused_argument_renamed); (read) `type("::X")` renames the type it finds.
- Constant expressions group to the right (C44_not_left_associative…), `~` and unary `+` are dropped (C44_not_complement).
- `generate_idl` does not return for mutually dependent sibling modules (C45_returns_iff); declaration before use fails in five ways (C46_violated_…).
- Negative labels of `int64_t` discriminators are printed as `size_t` and come back as the reserved value (C48_violated_negative), labels of aliases of enumerations go through a wrong cast (C48_violated_alias), dimensions inside collections are not printed (C47_violated_nested).
- A label given as a text is taken when it is no number (as 0), when something stands behind the number, and when the type does not have it (modulo its size) (C77_fails).
- Reading generated IDL: a type named like a keyword followed by a digit (`float3`) makes any text that uses it unreadable (C60_keyword_digit_fails); a leading underscore is lost (C60_underscore_fails); a member named like any visible type or enumerator is refused and leaves an empty structure behind (C60_member_name_fails); arrays inside collections, `char16_t` in the default context, and gaps between enumerators come back as something else (C60_inner_array_fails, C60_char16_fails, C60_enum_values_fail). Reading other IDL: `typedef long A, B;` creates an alias without a name (C60_typedef_list_fails); octal and hexadecimal bounds are read in base 10 (C60_radix_fails); constants as bounds of `wstring` or dimensions of aliases are read as 0 (C60_constant_bound_fails); `any` and `fixed` recurse without end (C60_any_diverges); string bounds from 2^31 on are undefined (C60_string_bound_ub); comments that follow each other with tabs before them, or with Windows line ends and empty lines between them, are not accepted unless the preprocessor has removed them (C60_comment_fails).
- Reading unions: a union with a single case loses it silently (C60_single_case_fails); a default case with labels added in another order gets another remembered label (C60_default_label_fails); negative labels over 64 bits are printed as unsigned numbers and refused (C60_negative_label_fails); single quotes and backslashes are not escaped as labels (C60_quote_label_fails); enumerators that begin with TRUE or FALSE are no labels (C60_boolean_label_fails); `default :` with a blank is read as the label 0 (C60_default_blank_fails); expressions as labels are not evaluated (C60_label_expression_fails); a union declared in advance is a structure (C60_forward_union_fails).
- Reading modules: an empty module is printed but not accepted, and the whole text is rejected (C60_empty_module_fails); a type of the root module used in a module that has a type of the same name is read as the latter (C60_shadowed_type_fails); `a::A` used in a module that has its own module `a` is not found (C60_hidden_module_fails); with two enumerations that share the names of enumerators, the labels of a union of the second are read with the values of the first, silently exchanging the cases (C60_enumerator_clash_fails).
- Reading constants: TRUE comes back as FALSE (C60_true_constant_fails); every `char` constant is the quotation mark (C60_char_constant_fails); `wchar` constants are refused (C60_wide_constant_fails); the least int32 is undefined behaviour and the least int64 off by one (C60_least_constant_fails); quotation marks in strings are not escaped (C60_quoted_constant_fails). Other IDL: an unknown name as Boolean value is FALSE (C60_unknown_constant_fails); a second constant of the same name is ignored (C60_same_constant_fails); no constants of type `octet` (C60_octet_constant_fails); literals of other types are accepted (C60_wrong_literal_fails); strings are cut to their bound (C60_bounded_constant_fails).
- Whole modules: an alias of a structure or union of its own module is printed before it, and the text is refused (C61_order_fails); an empty module makes the whole text unreadable (C61_empty_module_fails); enumerations entered through the API gain constants (C61_enumerators_fail); a member with the name of an enumerator of the module is printed but refused (C61_member_name_fails).
- Any text: `a::::S` sends the lookup into a loop without end (C62_quad_diverges); a structure may name itself as the type of a member, which then is the structure without members (C62_self_member), and a member whose type was declared in advance never gets the members (C62_forward_member); a constant defined by half of a surrogate pair does not return from the log (C62_half_diverges); `typedef struct S { … } T;`, which the grammar accepts, makes the parser call itself without end (C62_inline_diverges). A union may be given the name of a structure of the same module, and hides it (C62_meaning_fails); a second constant of a name is accepted and forgotten (C62_second_constant); a union with a case for the reserved value is read without complaint, and data of it are broken (C63_reserved_fails).
- Annotations and layout: an annotation before an enumerator replaces its name by the empty one (C64_enumerator_fails); annotations before typedef and const, `@key @id(3)`, and an annotation after a preprocessor line and white space are rejected (C64_annotation_fails); `default :` is the label 0 or 'd' (C64_default_blank_fails); `native X;` and `bitset X {};` make a structure (C64_native_fails); `typedef long A, B;` makes an alias with an empty name (C64_typedef_fails).
- Preprocessing: texts are handed to a shell in double quotes, of which only quotation marks are escaped, and wrongly: any word after `// \"; ` in a comment is executed (C65_executes_fails), `$(…)` is expanded (C65_substitution_fails), a string that ends with `\\` is not closed (C65_backslash_fails), names of files are not quoted (C65_file_fails), and any text with a quotation mark makes `replace_all_string` read `str[npos - 1]` (C65_undefined).
- Sharing of types: data made from a `Ptr` or a module's entry share its type, which can be changed under them (C66_data_fails); a renaming of a primitive type through a pointer is seen by all pointers and members that share it (C66_primitive_fails); the clone of an `EnumerationType` is an `EnumeratedType`, so that `Module::enum_32(n).add_enumerator(…)` reads a `next_value_` that does not exist (C66_enumerator_fails).
- Contexts: a copy of a `Context` shares the tree of the original (C67_copy_fails); `success` is stale after an exception and after `clear_context` (C67_success_fails, C67_clear_fails); the parser keeps a pointer to a destroyed context, which `Parser::get_all_types` follows (C67_parser_fails, C67_parser_new_fails).
- Searching modules: `type(name, true)` searches only the last submodule on each level (C69_first_submodule_fails); it dereferences null after `submodule("missing")` (C69_asked_fails), as do the walks (C68_asked_fails); `type("::K")` of a constant dereferences null (C69_rooted_constant_fails), and `type("::X")` renames the copy it returns (C69_rooted).
- `for_each` on writable data: the selected member of a union is read before the visitor is called on the union (UnionType.hpp 419-435), so a visitor selecting another member sends the walk into the dead one (C70_fails_switch); keys of maps are handed out writable (C70_fails_keys).
- Files: when `popen` fails the temporary file stays (C71_leaves_fails); the exit status of the preprocessor and failures to write the file are not looked at (C71_status_fails, C71_full_fails); the name of the temporary directory is not quoted (C71_blank_fails).
- Loops: `end()` is asked for once; a body that makes the collection shorter ends in an exception for a sequence and in undefined behaviour for a map (C72_shrinks_fails). Loops over maps give out keys as writable (C72_keys_fails), `items()` of a union its discriminator, writing to which leaves the member what it was (C72_items_union_fails).
- Code conversion appends the whole buffer although it may be filled only in part (every text with more than 21 three-byte characters, C53_violated) and runs for ever, appending, on a text that ends inside a character (C53_diverges_out, C53_diverges_in).

## Testing the theorems

`seeded/LOG.jsonl` lists edits of the model (in a scratch copy), the claim each breaks, the theorems that failed and
those that were tightened because they did not.
