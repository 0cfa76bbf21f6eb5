{"id": "C01", "title": "Unsigned integer width is sufficient and minimal", "statement": "For every INTEGER(b..e) with 0 <= b <= e that the tool accepts, the bit width it reports (and prints in COSMOS and C bit-fields) is able to hold every value of the range, and no smaller width is.", "quantifier": "for all integers b, e with 0 <= b <= e", "why_tests_cant": "The range bounds are unbounded integers; tests sample a handful of ranges near powers of two.", "anchors": ["asn1_parser/utils/size.py:get_bit_size", "asn1_parser/asn1/processor.py:asn1_type", "asn1_parser/asn1/grammar_elements/asn1_type.py:Asn1Type.get_size_bits"]}
{"id": "C02", "title": "Signed integer width is the smallest standard width that holds the range", "statement": "For every INTEGER(b..e) with b < 0 the reported width is one of 8, 16, 32, 64, the two's complement range of that width contains the whole range, no smaller standard width does, and the range is refused exactly when it does not fit in 64 bits.", "quantifier": "for all integers b < 0 and e >= b", "why_tests_cant": "Infinitely many ranges, six boundary values per width on two ends.", "anchors": ["asn1_parser/utils/size.py:get_bit_size", "asn1_parser/utils/size.py:ASN1_POSIX_RANGE"]}
{"id": "C03", "title": "Inverted ranges are refused and every accepted range is classified into a representation that contains it", "statement": "A type whose upper bound is below its lower bound is always refused. Every other ranged INTEGER is classified unsigned iff its lower bound is non-negative, else signed; every ranged REAL is classified single precision iff it lies inside the single precision limits, double iff it only lies inside the double limits, and is refused otherwise.", "quantifier": "for all type names and all integer, finite float or infinite bounds", "why_tests_cant": "Unbounded numeric domain with mixed int/float comparisons.", "anchors": ["asn1_parser/asn1/processor.py:asn1_type", "asn1_parser/utils/size.py:FLOAT_MAX", "asn1_parser/utils/size.py:DOUBLE_MAX"]}
{"id": "C04", "title": "Names of standard integer types guarantee the standard range", "statement": "If a bundle is accepted, a definition that bears the name of a standard C type (Int8-t ... Uint64-t, Float, Double) is a number type of that kind whose range is exactly the range of that C type, and any member of such a type has exactly the nominal width in every generated artefact.", "quantifier": "for all definitions in all accepted bundles", "why_tests_cant": "The definition body is arbitrary; tests try two or three wrong ranges.", "anchors": ["asn1_parser/asn1/processor.py:check_posix", "asn1_parser/asn1/processor.py:null_exception_catch", "asn1_parser/utils/size.py:ASN1_POSIX_RANGE"]}
{"id": "C05", "title": "Accepted enumerations are numbered 0..n-1 without gaps or repeats", "statement": "After parsing, the items of every accepted enumeration of n items carry the positions 0, 1, ..., n-1 in list order, and the items are the declared items, none lost, repeated or invented.", "quantifier": "for all enumerations of any length with any (possibly negative or missing) positions", "why_tests_cant": "The positions are arbitrary integers and the check is a sum comparison plus slot filling with Python negative indexing; only a proof excludes an adversarial combination.", "anchors": ["asn1_parser/asn1/processor.py:check_enumerated", "asn1_parser/asn1/grammar_elements/enumerated.py:Enumerated.set_enum"]}
{"id": "C06", "title": "Explicit enumeration values are either honoured or refused", "statement": "If the author writes explicit positions, then the enumeration is accepted exactly when these positions are 0..n-1 in some order, and then every item keeps the position written for it; otherwise it is refused.", "quantifier": "for all enumerations of any length with explicit positions", "why_tests_cant": "All permutations and all invalid multisets of positions would have to be tried for every length.", "anchors": ["asn1_parser/asn1/processor.py:check_enumerated"]}
{"id": "C07", "title": "Enumeration width and state numbers agree between C and COSMOS", "statement": "For every accepted enumeration the width of the C bit-field and the COSMOS item width are equal, hold the highest position and are minimal, and the COSMOS state number of every item equals the value of its C enumerator.", "quantifier": "for all accepted enumerations of any length", "why_tests_cant": "Three independent computations must agree for every n.", "anchors": ["asn1_parser/asn1/grammar_elements/enumerated.py:Enumerated.get_size_bits", "asn1_parser/generators/cosmos/generator.py:_create_telemetry_item_data", "asn1_parser/generators/generator.py:_convert_enumerated_to_c", "asn1_parser/generators/cosmos/templates.py:cosmos_telemetry"]}
{"id": "C08", "title": "The C storage type of an unsigned field is the smallest standard type that holds it", "statement": "For every unsigned range the generated C field uses the smallest of uint8_t, uint16_t, uint32_t, uint64_t whose width is at least the field width, with a bit-field suffix exactly when the field width differs from 8, 16, 32 and 64, and the suffix never exceeds the storage width.", "quantifier": "for all unsigned ranges", "why_tests_cant": "The search loop runs over an unbounded width.", "anchors": ["asn1_parser/generators/generator.py:_map_simple_types_to_c"]}
{"id": "C09", "title": "Sequence size is the sum of the member sizes and always computable for non-recursive types", "statement": "For every accepted bundle in which sequence types do not contain themselves, the size of a sequence is the sum of its members' sizes with type names followed through the whole bundle, and does not depend on the order in which modules or definitions are listed.", "quantifier": "for all accepted bundles without recursive types and CHOICE members", "why_tests_cant": "Arbitrary nesting depth and arbitrary module order.", "anchors": ["asn1_parser/asn1/grammar_elements/sequence.py:Sequence.get_size_bits", "asn1_parser/asn1/grammar_elements/asn1_type.py:Asn1Type.get_size_bits", "asn1_parser/asn1/asn1_bundle_builder.py:_resolve_types"]}
{"id": "C10", "title": "A bundle is free of duplicate type names, and only duplicates are refused by this check", "statement": "The duplicate check accepts a bundle iff no two definitions in it, in the same or in different modules, have the same type name.", "quantifier": "for all bundles", "why_tests_cant": "All placements of a duplicate pair in bundles of any size.", "anchors": ["asn1_parser/asn1/validation/asn1_bundle_validator.py:_check_bundle_for_duplicate_definitions"]}
{"id": "C11", "title": "Module names are unique and the command line names each module once", "statement": "generate-cfs, generate-c and generate-binary get past the module name check iff no module name occurs twice among the input modules and no name occurs twice in --asn1-modules.", "quantifier": "for all lists of modules and all --asn1-modules arguments", "why_tests_cant": "Arbitrary list lengths and positions of the repetition.", "anchors": ["asn1_parser/asn1/asn1_bundle_builder.py:_validate_unique_module_names"]}
{"id": "C12", "title": "--asn1-modules names exactly the modules that were read", "statement": "If generate-cfs, generate-c or generate-binary accepts its input, --asn1-modules is a permutation of the names of the parsed modules.", "quantifier": "for all bundles and --asn1-modules arguments", "why_tests_cant": "Relates two arbitrary lists via two separate checks.", "anchors": ["asn1_parser/asn1/validation/asn1_bundle_validator.py:check_missing_modules", "asn1_parser/asn1/asn1_bundle_builder.py:build_from_cfs_config"]}
{"id": "C13", "title": "Every import of an accepted bundle can be satisfied", "statement": "If a bundle is accepted by generate-cfs, generate-c or generate-binary, or by generate-cosmos and its modules have different names, every IMPORTS clause names a module that is part of the bundle, and every type it lists is defined in that module.", "quantifier": "for all accepted bundles", "why_tests_cant": "Arbitrary import graphs.", "anchors": ["asn1_parser/asn1/asn1_bundle_builder.py:_resolve_dependencies", "asn1_parser/asn1/validation/asn1_bundle_validator.py:_check_imported_types_and_check_components"]}
{"id": "C14", "title": "Every type used by a sequence or choice member is defined exactly once", "statement": "If a bundle is accepted by generate-cfs, generate-c or generate-binary, or by generate-cosmos and its modules have different names, the type of every SEQUENCE and CHOICE member (looking through SEQUENCE OF) is a built-in type or is defined exactly once in the bundle, in the same module or in one the module imports it from.", "quantifier": "for all accepted bundles", "why_tests_cant": "Composition of four checks over arbitrary bundles.", "anchors": ["asn1_parser/asn1/processor.py:model_processor_check_used_types_defined", "asn1_parser/asn1/validation/asn1_bundle_validator.py:ASN1BundleValidator.validate_bundle"]}
{"id": "C15", "title": "Fixed values always address existing members", "statement": "If a bundle is accepted, every key mentioned in a WITH COMPONENTS clause, at any nesting depth, is a member of the sequence type it constrains.", "quantifier": "for all accepted bundles, all WITH COMPONENTS clauses, all nesting depths", "why_tests_cant": "Unbounded nesting depth and bundle size.", "anchors": ["asn1_parser/asn1/processor.py:_check_with_component", "asn1_parser/asn1/processor.py:model_processor_check_used_components_defined"]}
{"id": "C16", "title": "NULL never reaches a generator", "statement": "No accepted bundle contains a member or a simple definition of type NULL, directly or as the element of an array of arrays of any depth.", "quantifier": "for all accepted bundles", "why_tests_cant": "Arbitrary array nesting and placement.", "anchors": ["asn1_parser/asn1/processor.py:null_exception_catch", "asn1_parser/asn1/grammar_elements/asn1_type.py:Asn1Type.__init__"]}
{"id": "C17", "title": "A type name means the same definition everywhere", "statement": "After an accepted build, a member whose type is a user-defined name is bound to the one definition of that name in the bundle, whatever the order of the input files.", "quantifier": "for all accepted bundles and all permutations of the input files", "why_tests_cant": "n! input orders.", "anchors": ["asn1_parser/asn1/asn1_bundle_builder.py:_resolve_types"]}
{"id": "C18", "title": "The record of where simple types are used is exact", "statement": "The tool's use map lists for a type exactly the modules that contain a SEQUENCE or CHOICE member of that type without WITH COMPONENTS, and contains no built-in type.", "quantifier": "for all lists of modules", "why_tests_cant": "Arbitrary bundles.", "anchors": ["asn1_parser/asn1/asn1_bundle_builder.py:_parse_for_simple_defs", "asn1_parser/asn1/asn1_bundle_builder.py:build"]}
{"id": "C19", "title": "C definitions are emitted after everything they use", "statement": "Whenever the definition sorter returns, its result is a rearrangement of the module's definitions in which every sequence and choice comes after each definition of the module that one of its members uses.", "quantifier": "for all modules", "why_tests_cant": "All dependency graphs and all declaration orders.", "anchors": ["asn1_parser/generators/cfs/module_sorter.py:get_definitions_sorted_by_dependency"]}
{"id": "C20", "title": "Sorting definitions returns for every well-formed module", "statement": "The definition sorter returns for every module whose used types are all known and whose definitions do not use themselves directly or indirectly; it never returns on a module with a cyclic or unknown use.", "quantifier": "for all modules", "why_tests_cant": "Termination cannot be established by running.", "anchors": ["asn1_parser/generators/cfs/module_sorter.py:get_definitions_sorted_by_dependency"]}
{"id": "C21", "title": "Module order is total, loss free and respects imports", "statement": "For every bundle whose import graph has no cycle, module ordering returns, and the result contains every module exactly once with every importing module before the modules it imports. If a module is on an import cycle the ordering never returns.", "quantifier": "for all bundles with pairwise different module names", "why_tests_cant": "The loop removes entries from the list it iterates over; every graph and every initial order must be covered, and termination is undecidable by testing.", "anchors": ["asn1_parser/generators/cfs/module_sorter.py:create_ordered_import_list", "asn1_parser/generators/cfs/module_sorter.py:_get_import_names"]}
{"id": "C22", "title": "The cFS message id places each CCSDS field in its bits", "statement": "For every WITH COMPONENTS on a CCSDS primary header that gives version (3 bit), type, secondary header flag and application id (11 bit) in any order, the message id is version*2^13 + type*2^12 + flag*2^11 + apid, is below 2^16, and each field can be read back from it.", "quantifier": "for all in-range field values and all orders of the components", "why_tests_cant": "2^16 values times 24 orders times nestings.", "anchors": ["asn1_parser/generators/cfs/generator.py:_ccsds_primary_header_to_msg_id"]}
{"id": "C23", "title": "Different CCSDS identifications get different message ids", "statement": "Two packets whose CCSDS version, type, flag and application id are not all equal get different message ids.", "quantifier": "for all pairs of primary headers accepted by the tool", "why_tests_cant": "Pairs over 2^16 values.", "anchors": ["asn1_parser/generators/cfs/generator.py:_ccsds_primary_header_to_msg_id"]}
{"id": "C24", "title": "The printed message id denotes the computed message id", "statement": "The text of the _MID macro value is (0xH...H) with at least four upper-case hexadecimal digits and denotes exactly the computed id; ids below 2^16 use exactly four digits.", "quantifier": "for all natural numbers", "why_tests_cant": "Unbounded domain.", "anchors": ["asn1_parser/generators/cfs/generator.py:_process_with_components"]}
{"id": "C25", "title": "Packet numbers are unique in an accepted bundle", "statement": "If generate-cfs succeeds, no two packets of the bundle have the same message id (documentation: 'Verification of uniqueness of packet numbers').", "quantifier": "for all accepted bundles", "why_tests_cant": "Arbitrary bundles.", "anchors": ["asn1_parser/generators/cfs/generator.py:_process_with_components", "docs/source/2-content.rst:53"]}
{"id": "C26", "title": "C names are valid and collision free", "statement": "For names allowed by the grammar, the C identifier generated for a name consists of letters, digits and underscores and starts with a letter, is no reserved word of C, and two different names give two different identifiers.", "quantifier": "for all names matched by the grammar", "why_tests_cant": "Infinitely many names.", "anchors": ["asn1_parser/c_printer.py:asn1_to_c_style_naming", "asn1_parser/asn1/grammar.py:NameLower", "asn1_parser/asn1/grammar.py:NameCapital"]}
{"id": "C27", "title": "No output file is written twice in one run", "statement": "In every successful run of generate-cfs, generate-c or generate-binary, all output file names are pairwise different, so no module or packet overwrites the output of another.", "quantifier": "for all accepted bundles", "why_tests_cant": "Infinitely many name combinations.", "anchors": ["asn1_parser/generators/cfs/generator.py:get_msg_filename", "asn1_parser/generators/cfs/generator.py:get_msgids_filename", "asn1_parser/generators/c/generator.py:get_filename", "asn1_parser/c_printer.py:print_to_file", "asn1_parser/utils/string.py:lowerize"]}
{"id": "C28", "title": "Include guards are consistent and distinct", "statement": "In each generated header, the symbol tested by #ifndef is the one defined and the one named at #endif, and different headers of a run use different symbols.", "quantifier": "for all pairs of module names", "why_tests_cant": "Infinitely many name pairs.", "anchors": ["asn1_parser/c_printer.py:generate_cfs_circular_import_guard"]}
{"id": "C29", "title": "Macro names identify one packet field", "statement": "In the generated msgids headers of a bundle no two #define lines for different packets or different fields define the same symbol.", "quantifier": "for all accepted bundles", "why_tests_cant": "Infinitely many name pairs.", "anchors": ["asn1_parser/generators/cfs/generator.py:_process_with_components"]}
{"id": "C30", "title": "Binary files have the size of the fixed fields", "statement": "A generated .bin file is the concatenation, in the order of the WITH COMPONENTS clause, of one block per fixed leaf value, and each block is as long as the bit width of the member's type divided by eight.", "quantifier": "for all sequences, clauses, nesting depths, byte orders", "why_tests_cant": "Arbitrary nesting and member types.", "anchors": ["asn1_parser/generators/binary/generator.py:_component_to_bytes", "asn1_parser/generators/binary/generator.py:_values_to_bytes_list", "asn1_parser/utils/size.py:bit_to_bytes"]}
{"id": "C31", "title": "Binary files can be read back", "statement": "Reading a generated .bin file with the types of the fixed members and the same byte order gives back exactly the fixed values in order.", "quantifier": "for all integer values and widths, both byte orders, any number of fields", "why_tests_cant": "2^64 values per field.", "anchors": ["asn1_parser/generators/binary/generator.py:_component_to_bytes", "asn1_parser/generators/binary/generator.py:FORMAT"]}
{"id": "C32", "title": "Byte order only reverses each field", "statement": "The big-endian and little-endian files of the same input have the same blocks with the bytes of each block reversed, and generation succeeds for one order iff it succeeds for the other.", "quantifier": "for all inputs", "why_tests_cant": "Arbitrary inputs.", "anchors": ["asn1_parser/generators/binary/generator.py:ENDIANNESS"]}
{"id": "C33", "title": "A fixed value outside the member's range never reaches a binary file", "statement": "If generate-binary succeeds, each fixed integer value lies in the declared range of its member.", "quantifier": "for all members and values", "why_tests_cant": "Unbounded values.", "anchors": ["asn1_parser/generators/binary/generator.py:_component_to_bytes"]}
{"id": "C34", "title": "Each packet with fixed values gets its own complete binary file", "statement": "If generate-binary succeeds, for every sequence with fixed values there is a .bin file holding the bytes of all its fixed values.", "quantifier": "for all accepted bundles", "why_tests_cant": "Arbitrary bundles.", "anchors": ["asn1_parser/c_data.py:CData.add_binary_init", "asn1_parser/c_data.py:CData.extend_with_cdata", "asn1_parser/generators/binary/generator.py:_with_components_handling"]}
{"id": "C35", "title": "COSMOS packets list all leaves in declaration order", "statement": "The items of a generated COSMOS packet are exactly the leaf members of the message, depth first in declaration order, each with the name of the leaf member.", "quantifier": "for all messages of all accepted bundles", "why_tests_cant": "Arbitrary nesting.", "anchors": ["asn1_parser/generators/cosmos/generator.py:_create_telemetry_item_data"]}
{"id": "C36", "title": "A COSMOS packet is as long as the sequence it describes", "statement": "The total number of bits of the items of a COSMOS packet equals the size of the sequence as computed by the tool's own size function, so every item has the bit offset of its member.", "quantifier": "for all messages without arrays", "why_tests_cant": "Two recursive computations over arbitrary types.", "anchors": ["asn1_parser/generators/cosmos/generator.py:_create_telemetry_item_data", "asn1_parser/asn1/grammar_elements/sequence.py:Sequence.get_size_bits"]}
{"id": "C37", "title": "COSMOS identifies a packet by exactly the fixed values", "statement": "An item is emitted as identifier (APPEND_ID_ITEM) iff WITH COMPONENTS fixes a value for it, and the value printed is the fixed value.", "quantifier": "for all messages and clauses", "why_tests_cant": "Arbitrary nesting and values.", "anchors": ["asn1_parser/generators/cosmos/generator.py:_create_telemetry_item_data", "asn1_parser/generators/cosmos/templates.py:cosmos_telemetry"]}
{"id": "C38", "title": "COSMOS resolves every type through the import graph to one definition", "statement": "For every accepted bundle without import cycles, the search for the definition of a used type through direct and transitive imports finds exactly one definition, so generation is never stopped by the lookup.", "quantifier": "for all accepted bundles, all depths of imports, diamonds included", "why_tests_cant": "Arbitrary import graphs.", "anchors": ["asn1_parser/generators/cosmos/generator.py:_get_definitions_recurs", "asn1_parser/generators/cosmos/generator.py:_get_definition"]}
{"id": "C39", "title": "A failing COSMOS run leaves no trace", "statement": "If generate-cosmos fails because a requested message is undefined or cannot be converted, no file is created or changed; if it succeeds, the text added has one packet per requested message, in the requested order.", "quantifier": "for all bundles, message lists and prior file contents", "why_tests_cant": "Arbitrary inputs and file system states.", "anchors": ["asn1_parser/generators/cosmos/generator.py:generate_cosmos"]}
{"id": "C40", "title": "Generation is repeatable", "statement": "Running a generation command a second time with the same arguments and inputs leaves the output directory as the first run left it, whatever was in the directory before.", "quantifier": "for all inputs and prior directory contents", "why_tests_cant": "Arbitrary prior states.", "anchors": ["asn1_parser/c_printer.py:print_to_file", "asn1_parser/generators/cosmos/generator.py:generate_cosmos"]}
{"id": "C41", "title": "COSMOS limits are emitted exactly for restricted REAL ranges", "statement": "A LIMITS line is printed for an item iff it is a REAL whose range is a proper part of the range of its representation, and the limits are the declared bounds.", "quantifier": "for all items", "why_tests_cant": "Unbounded numeric domain.", "anchors": ["asn1_parser/generators/cosmos/generator.py:_range_subrange_data_type", "asn1_parser/generators/cosmos/templates.py:cosmos_telemetry"]}
{"id": "C42", "title": "C structs have one field per member, in declaration order", "statement": "The struct generated for a sequence has exactly one field per member, in declaration order, named after the member, arrays and strings with the declared length.", "quantifier": "for all sequences", "why_tests_cant": "Arbitrary member lists.", "anchors": ["asn1_parser/generators/generator.py:_convert_sequence_to_c"]}
{"id": "C43", "title": "Standard headers are included when needed", "statement": "If a generated header uses a type of stdint.h it includes stdint.h, and if it uses bool it includes stdbool.h.", "quantifier": "for all modules", "why_tests_cant": "Arbitrary modules.", "anchors": ["asn1_parser/generators/generator.py:_convert_sequence_to_c", "asn1_parser/c_data.py:CData.set_stdint_if_needed", "asn1_parser/c_printer.py:print_to_file"]}
{"id": "C44", "title": "Field widths agree between C, COSMOS and the binary files", "statement": "For every numeric or enumerated leaf member, the number of bits of the C field, the COSMOS item and (where supported) the binary block are the same.", "quantifier": "for all members", "why_tests_cant": "Three independent code paths over unbounded ranges.", "anchors": ["asn1_parser/generators/generator.py:_map_simple_types_to_c", "asn1_parser/generators/cosmos/generator.py:_create_telemetry_item_data", "asn1_parser/asn1/grammar_elements/asn1_type.py:Asn1Type.get_size_bits"]}
{"id": "C45", "title": "The generated C source includes its own header", "statement": "In the output of generate-c, a .c file that defines initialised variables includes the header that declares their types.", "quantifier": "for all modules", "why_tests_cant": "Depends on the order of definitions.", "anchors": ["asn1_parser/c_data.py:CData.extend_with_cdata", "asn1_parser/generators/c/generator.py:_with_components_handling"]}
{"id": "C46", "title": "C initialisers say what WITH COMPONENTS says", "statement": "The designated initialiser generated for a WITH COMPONENTS clause names exactly the fixed members with the fixed values, in the same order and with the same nesting, and the clause can be read back from it unambiguously.", "quantifier": "for all clauses and nesting depths", "why_tests_cant": "Unbounded nesting.", "anchors": ["asn1_parser/generators/c/generator.py:_process_with_components", "asn1_parser/generators/c/generator.py:_process_start_with_component"]}
{"id": "C47", "title": "Rejected input produces no output", "statement": "If validation refuses the input of generate-cfs, generate-c or generate-binary, no file is created or changed.", "quantifier": "for all inputs and prior directory contents", "why_tests_cant": "Arbitrary inputs and file system states.", "anchors": ["asn1_parser/main.py:main", "asn1_parser/asn1/asn1_bundle_builder.py:build_from_cfs_config"]}
{"id": "C48", "title": "Comma separated arguments keep the names", "statement": "Splitting an argument that joins names without commas by commas gives back exactly these names, and every part of a split is free of commas.", "quantifier": "for all non-empty lists of names", "why_tests_cant": "Infinitely many arguments.", "anchors": ["asn1_parser/cli/cli_arg_parser.py:_parse_comma_separated_string_argument"]}
{"id": "C49", "title": "cFS output consists of two headers per module with exactly the defines of its sequences", "statement": "A successful generate-cfs run writes for every module of the bundle exactly <module>_msg.h and <module>_msgids.h and nothing else; the msgids header contains one #define per fixed leaf (a CCSDS primary header counting as one leaf) of the module's sequences.", "quantifier": "for all accepted bundles", "why_tests_cant": "Arbitrary bundles.", "anchors": ["asn1_parser/generators/cfs/generator.py:generate_cfs", "asn1_parser/generators/cfs/generator.py:_process_with_components", "asn1_parser/c_printer.py:print_to_file"]}
{"id": "C50", "title": "The CCSDS application id is printed by COSMOS and cFS with the same number", "statement": "For a packet with a fixed CCSDS primary header, the application id printed in the COSMOS identifier item and the low 11 bits of the cFS message id are the same number.", "quantifier": "for all application ids below 2^11", "why_tests_cant": "2048 values times arbitrary surrounding clauses.", "anchors": ["asn1_parser/generators/cosmos/generator.py:_create_telemetry_item_data", "asn1_parser/generators/cfs/generator.py:_ccsds_primary_header_to_msg_id"]}
{"id": "C51", "title": "A COSMOS packet does not depend on the other messages of the run", "statement": "The text that generate-cosmos adds for a message is the same whichever other messages are requested in the same run and in whatever order, and a run succeeds exactly if it succeeds for each requested message alone.", "quantifier": "for all accepted models, modules, targets and lists of messages", "why_tests_cant": "Lists of messages are unbounded and the generator changes its own input tree while it works.", "anchors": ["asn1_parser/generators/cosmos/generator.py:generate_cosmos", "asn1_parser/generators/cosmos/generator.py:_create_telemetry_item_data"]}
{"id": "C52", "title": "Modules are read as written, whatever the layout", "statement": "A text that writes a module in the ASN.1 subset, with any white space and comments and with Unix or Windows line ends, is read as exactly that module: every name, type, number, comment, import and clause; decimals become the nearest double. Every command does on the files what it does on the modules, so the layout makes no difference, and no text writes two different modules.", "quantifier": "for all modules, layouts, commands and arguments", "why_tests_cant": "Infinitely many modules and layouts.", "anchors": ["asn1_parser/asn1/grammar.py:GRAMMAR", "asn1_parser/asn1/parser.py:Asn1Parser.parse_from_files", "asn1_parser/main.py:main"]}
{"id": "C53", "title": "Whatever the files hold, a command runs on modules of the grammar or changes nothing", "statement": "For any contents of the input files, a command either ends with an error before it creates or changes any file or directory, or every input file holds a module as the grammar describes it and the command does what it does for these modules.", "quantifier": "for all file contents, including missing files, commands and arguments", "why_tests_cant": "Arbitrary file contents.", "anchors": ["asn1_parser/asn1/parser.py:Asn1Parser.parse_from_files", "asn1_parser/asn1/parser.py:Asn1Parser.parse_from_text", "asn1_parser/main.py:main"]}
{"id": "C54", "title": "Struct fields have the C counterpart of the member's type", "statement": "In a generated header the type of each struct field is the C counterpart of the member's ASN.1 type: the least standard unsigned type with a bit-field width for an unsigned range, int for a signed range, float or double, the stdint.h type of a standard name, char for strings, and otherwise the struct, union or enum generated for the named definition; arrays and strings carry their declared length.", "quantifier": "for all accepted bundles, modules, sequences and members, for generate-cfs, generate-c and generate-binary", "why_tests_cant": "Arbitrary types and ranges across modules.", "anchors": ["asn1_parser/generators/generator.py:_convert_sequence_to_c", "asn1_parser/generators/generator.py:_map_simple_types_to_c"]}
{"id": "C55", "title": "Comments are only comments", "statement": "What follows -- on a line is a comment and nothing else: leaving the comments out of an accepted module gives a module that is accepted with the same names, types, numbers, imports and clauses. The comments that are kept contain neither brackets nor --.", "quantifier": "for all module texts", "why_tests_cant": "Arbitrary texts; the grammar reads comments with a regular expression that has to match up to the end of the line.", "anchors": ["asn1_parser/asn1/grammar.py:GRAMMAR", "asn1_parser/asn1/processor.py:check_comment"]}
{"id": "C56", "title": "Valid input is accepted, and only acceptable input is", "statement": "If the input modules are valid (names of modules and types unique, every type known where it is used, imports satisfied, ranges in order, no NULL, enumerations numbered from zero without gaps or not at all, standard names with their ranges, WITH COMPONENTS naming existing members, no refused signs in comments) and --asn1-modules lists them in any order, every command accepts them and goes on to generate. The exact conditions of acceptance are those of validity, except for the known places where the tool looks less closely; input that misses them is refused before anything is written (by generate-cosmos if the modules have different names).", "quantifier": "for all lists of modules and module lists, for all four commands", "why_tests_cant": "Validity is a condition over arbitrary sets of modules; tests show single inputs that pass.", "anchors": ["asn1_parser/asn1/processor.py:check_enumerated", "asn1_parser/asn1/processor.py:asn1_type", "asn1_parser/asn1/validation/asn1_bundle_validator.py:ASN1BundleValidator.validate_bundle", "asn1_parser/asn1/asn1_bundle_builder.py:ASN1BundleBuilder.build_from_cfs_config"]}
{"id": "C57", "title": "Which accepted input can be generated", "statement": "generate-c, generate-cfs and generate-binary succeed exactly when the input passes validation and meets a fixed set of conditions on the modules alone: no import cycle between modules, no type containing itself, and a C field can be made for every member (INTEGER and REAL members have bounds that C types can hold, named simple types are ranges, BOOLEAN, Float or Double); generate-cfs also needs readable clauses on the primary header and used simple types with a size; generate-binary also needs values that can be encoded. Passing validation alone does not make generation succeed.", "quantifier": "for all lists of grammatical modules, module lists and output directories", "why_tests_cant": "Success is a condition over arbitrary sets of modules; tests show single inputs that succeed.", "anchors": ["asn1_parser/generators/c/generator.py:generate_c", "asn1_parser/generators/cfs/generator.py:generate_cfs", "asn1_parser/generators/binary/generator.py:generate_binary", "asn1_parser/generators/generator.py:_map_simple_types_to_c"]}
{"id": "C58", "title": "The order of the input files does not matter", "statement": "A run that succeeds also succeeds, and leaves exactly the same files, when the input files and the names in --asn1-modules are given in any other order.", "quantifier": "for all lists of modules, all their orders, and all four commands", "why_tests_cant": "The number of orders grows without bound, and the generator uses sets, dictionaries and the order of the files at many places.", "anchors": ["asn1_parser/asn1/asn1_bundle_builder.py:ASN1BundleBuilder.build_from_cfs_config", "asn1_parser/generators/cfs/generator.py:generate_cfs", "asn1_parser/generators/cosmos/generator.py:generate_cosmos"]}
{"id": "C59", "title": "Headers declare the types they use", "statement": "In every generated header each struct field has a type that a compiler knows at that place: a type of the language, a type of an included standard header, a type defined earlier in the same file, or a type defined in an included header that the run has written.", "quantifier": "for all accepted modules, all import relations between them and all three C generating commands", "why_tests_cant": "It needs the order of the definitions, the include lines, the file names and the type mapping to agree for every dependency graph. Tests compare a few files.", "anchors": ["asn1_parser/generators/cfs/generator.py:generate", "asn1_parser/generators/c/generator.py:generate", "asn1_parser/generators/binary/generator.py:generate", "asn1_parser/c_printer.py:CPrinter.print"]}
{"id": "C60", "title": "A C compiler reads the declarations of the module in its header", "statement": "After the C translation phases (joining continued lines, dropping comments, splitting into tokens, setting directives aside), each generated header consists of an include guard, the include lines of the imports, and one declaration per SEQUENCE, ENUMERATED and CHOICE definition, and nothing else. Each declaration has the members of its definition in order, under their names. SEQUENCE members have their C types, array lengths and bit widths, enumerators their values (C62 is about the types in a CHOICE).", "quantifier": "for all accepted modules, all comments, and all three C generating commands", "why_tests_cant": "Whether a text is read as intended depends on every character of every comment and name. Tests compare texts of a few benign modules and never run a C compiler.", "anchors": ["asn1_parser/generators/cfs/generator.py:generate", "asn1_parser/generators/c/generator.py:generate", "asn1_parser/generators/binary/generator.py:generate", "asn1_parser/c_printer.py:CPrinter.print"]}
{"id": "C61", "title": "The headers of a run declare no identifier twice", "statement": "All headers of one run can be included in one C file: no identifier is declared twice in the same scope. This counts type names, enumerators, variables, union tags and the fields of each struct and union, as a C compiler reads them.", "quantifier": "for all accepted sets of modules and all three C generating commands", "why_tests_cant": "Enumerators of all headers share one scope in C but not in ASN.1. Tests use one or two enumerations with different items.", "anchors": ["asn1_parser/generators/generator.py:_convert_enumerated_to_c", "asn1_parser/generators/generator.py:_convert_sequence_to_c", "asn1_parser/generators/generator.py:_convert_choice_to_c"]}
{"id": "C62", "title": "Alternatives of a CHOICE have their C types", "statement": "Each CHOICE becomes a union with one field per alternative in order, and each field has the C type and the array length that a SEQUENCE member of the same type has.", "quantifier": "for all accepted modules, all CHOICE definitions and all types of alternatives", "why_tests_cant": "The type of an alternative is any type. Tests use alternatives of one or two kinds and compare with the text the tool printed.", "anchors": ["asn1_parser/generators/generator.py:_convert_choice_to_c"]}
{"id": "C63", "title": "Array lengths and bit-fields are within the limits of C", "statement": "Every array in a generated header has a positive length, and every bit-field has a positive width that is not above the width of its type.", "quantifier": "for all accepted modules, all ranges, all enumerations, all lengths and all three C generating commands", "why_tests_cant": "The limits are violated only at the ends of the ranges of numbers and lengths. Tests use sizes from the middle.", "anchors": ["asn1_parser/generators/generator.py:_map_simple_types_to_c", "asn1_parser/generators/generator.py:_convert_sequence_to_c", "asn1_parser/asn1/grammar_elements/enumerated.py:get_size_bits"]}
{"id": "C64", "title": "A C file that includes the headers of a run compiles", "statement": "A C file that includes any of the headers of one run, in any order and any number of times, compiles: every included file exists, every type is declared before it is used, no identifier is declared twice or replaced by an include guard, array lengths and bit widths are legal, no struct, union or enumeration is empty, and enumerators are of type int. The file has the declarations of every header it includes.", "quantifier": "for all accepted sets of modules, all import relations between them, all lists of included headers and all three C generating commands", "why_tests_cant": "The order in which nested includes and guards let the compiler see the declarations depends on the whole import graph. Tests never compile the headers.", "anchors": ["asn1_parser/generators/cfs/generator.py:generate", "asn1_parser/generators/c/generator.py:generate", "asn1_parser/generators/binary/generator.py:generate", "asn1_parser/c_printer.py:CPrinter.print"]}
{"id": "C65", "title": "The messages that generate-cosmos can print are known exactly", "statement": "For modules with different names that pass validation, and messages in which at most one WITH COMPONENTS clause reaches each application-process-identifier, a run of generate-cosmos succeeds, given enough stack, exactly if there is at least one module and every requested message is a SEQUENCE of the requested module such that: no SEQUENCE inside it contains itself; every leaf member is an INTEGER or REAL with usable bounds (in no array), a BOOLEAN or an array of it, a string (in no array), an ENUMERATED type or an array of it, or a type defined as a usable range or BOOLEAN or an array of such a type; every application-process-identifier that is no array is fixed to a whole number by a clause around it; and, if the message contains defined types, following the imports of its module comes to an end. If a run succeeds with some stack, it succeeds with every larger one from some size on.", "quantifier": "all lists of modules as the grammar builds them, all module names, message lists, targets, output directories, stack sizes and number formats", "why_tests_cant": "Success depends on the types of all members reached from the message, on the values collected from all clauses on the way and on the import graph; a test run shows one message with one stack size.", "anchors": ["asn1_parser/generators/cosmos/generator.py:generate_cosmos", "asn1_parser/generators/cosmos/generator.py:_create_telemetry_item_data", "asn1_parser/generators/cosmos/generator.py:_get_definitions_recurs"]}
{"id": "C66", "title": "A C program and COSMOS find every value of a message at the same bits", "statement": "For accepted modules whose headers are read as meant (C60), take a message that generate-cosmos prints and the struct of the same name in the headers of generate-cfs or generate-c. Laid out as a packed struct on a big-endian target (bit-fields one after the other, all other fields and nested structs from a byte boundary on), the struct has as many bytes as the packet, and each of its leaves has the first bit and the number of bits of the corresponding packet item, which COSMOS places one after the other.", "quantifier": "all lists of modules as the grammar builds them, all configurations, messages, targets and output directories", "why_tests_cant": "The position of a value is the sum of the widths of all values before it, which come from nested types in several modules, and two generators compute them separately; a test compares a few messages, and agreement depends on where byte boundaries fall.", "anchors": ["asn1_parser/generators/cosmos/generator.py:_create_telemetry_item_data", "asn1_parser/generators/generator.py:_convert_sequence_to_c", "asn1_parser/generators/generator.py:_map_simple_types_to_c"]}
{"id": "C67", "title": "Descriptions, units and byte order marks in comments reach the COSMOS file", "statement": "When generate-cosmos succeeds, the file has for each requested message one packet whose quoted description is the comment of the message, and for each leaf member one item whose quoted description is the comment of the member. The item has one UNITS line with the unit named in the comment, or none if no unit is named, and is marked LITTLE_ENDIAN exactly if the comment says so. Descriptions are read the way COSMOS splits lines.", "quantifier": "all lists of modules as the grammar builds them, all messages, targets and output directories", "why_tests_cant": "Comments are free text that ends up inside quotes on a line with other words; a test tries a few comments, but the rest of the line is lost for the one comment that closes the quotes early.", "anchors": ["asn1_parser/generators/cosmos/generator.py:_create_telemetry_item_data", "asn1_parser/generators/cosmos/generator.py:generate_cosmos", "asn1_parser/generators/cosmos/templates.py:cosmos_telemetry"]}
{"id": "C68", "title": "Adding modules leaves the files of the other modules as they are", "statement": "When a command succeeds for some modules, and also after further modules are added to the input, every file written for the first modules has the same content after the second run. generate-cosmos writes the same packets when files are added.", "quantifier": "all lists of modules as the grammar builds them, all longer lists, all orders, byte orders and output directories", "why_tests_cant": "Definitions are looked up in one table over all modules; a test adds one module to one example, not every module that could shadow or extend what another one sees.", "anchors": ["asn1_parser/generators/cfs/generator.py:generate_cfs", "asn1_parser/generators/c/generator.py:generate_c", "asn1_parser/generators/binary/generator.py:generate_binary", "asn1_parser/generators/cosmos/generator.py:generate_cosmos"]}
{"id": "C69", "title": "The C files of generate-c compile", "statement": "After a successful generate-c run every C file written next to the headers is accepted by a C compiler: the included header is there, no variable is defined twice, and each initialiser names fields of the struct and gives them constants of the language.", "quantifier": "all modules as the grammar builds them, all clauses of any depth, all output directories and earlier files", "why_tests_cant": "Whether a clause is a valid initialiser depends on the kinds of the members, their nesting, the values and the order of the definitions; tests compare the text of a few files and compile none.", "anchors": ["asn1_parser/generators/c/generator.py:generate_c", "asn1_parser/generators/c/generator.py:_process_with_components"]}
{"id": "C70", "title": "Comments change nothing but comments", "statement": "Two sources that differ only in comments give the same result of a run, the same error if any, the same binary files and message identifiers byte for byte, headers and C files from which a C compiler reads the same, and COSMOS packets that differ at most in descriptions, units and the byte order of items.", "quantifier": "all pairs of module lists as the grammar builds them that agree without comments, all commands, all output directories and earlier files", "why_tests_cant": "It relates two runs on sources with arbitrary texts in every comment position; tests run single sources with a few harmless comments.", "anchors": ["asn1_parser/asn1/processor.py", "asn1_parser/c_printer.py", "asn1_parser/generators/cosmos/generator.py"]}
{"id": "C71", "title": "COSMOS data types fit the ASN.1 types", "statement": "Each item of a generated COSMOS packet is declared UINT if its leaf member is a BOOLEAN, an enumeration or an INTEGER range without negative numbers, INT if it is an INTEGER range with negative numbers, FLOAT if it is a REAL, and STRING if it is a string; an array has the data type of its elements, a named type that of the type it names.", "quantifier": "all module lists as the grammar builds them that are accepted, all messages for which the command succeeds", "why_tests_cant": "It is about every leaf of every message through any nesting and naming of types; tests compare a few generated files.", "anchors": ["asn1_parser/generators/cosmos/generator.py", "asn1_parser/generators/cosmos/templates.py", "asn1_parser/asn1/processor.py"]}
{"id": "C72", "title": "COSMOS recognises the packets by the fixed values", "statement": "COSMOS takes received data for a generated packet exactly if the data have, in the bits of each member with a fixed value, that value; so it never takes data for two packets that fix the same bits to different values, and it takes the binary file of a sequence whose first members are the fixed ones for the packet of that sequence.", "quantifier": "all accepted module lists, all messages for which the command succeeds, all byte sequences received", "why_tests_cant": "It quantifies over all received data and relates the text of one generator, the bits of the layout and the bytes of another generator; a test would need COSMOS and all data.", "anchors": ["asn1_parser/generators/cosmos/generator.py", "asn1_parser/generators/cosmos/templates.py", "asn1_parser/generators/binary/generator.py"]}
{"id": "C73", "title": "The generators agree on the types", "statement": "When two of generate-c, generate-binary and generate-cfs succeed on the same modules, the headers that they write for a module declare the same types by the same text, in the same order, with the same includes of system headers.", "quantifier": "all accepted module lists, any two of the three commands for which they succeed, all output folders and prior contents", "why_tests_cant": "It compares whole outputs of different commands for all inputs; tests compare each command with a stored file.", "anchors": ["asn1_parser/generators/cfs/generator.py", "asn1_parser/generators/c/generator.py", "asn1_parser/generators/binary/generator.py", "asn1_parser/c_printer.py"]}
{"id": "C74", "title": "Commands keep the files of other commands", "statement": "Running one of the four commands on the same modules with the folder in which another has written leaves the files of the other as they are, and the order of the two does not matter.", "quantifier": "all accepted module lists and any two commands that succeed, all prior contents of the folder", "why_tests_cant": "It is about the interaction of two runs for all module names and prior contents; tests run each generator into a fresh folder.", "anchors": ["asn1_parser/generators/cfs/generator.py", "asn1_parser/generators/c/generator.py", "asn1_parser/generators/binary/generator.py", "asn1_parser/generators/cosmos/generator.py", "asn1_parser/c_printer.py"]}
{"id": "C75", "title": "The command line means what its options say", "statement": "A command line is accepted iff it is one of the four commands followed by exactly one group of paths and by options of this command, each with a value, with every needed option; abbreviations must be unambiguous. It is then understood as these paths and the last value of each option, with the documented default folder. The order of options and paths does not matter if no option is repeated.", "quantifier": "all lists of words, each of which does not begin with a dash or begins with two dashes and has no blank", "why_tests_cant": "The words of a command line are unbounded and options can be combined in every order and abbreviation; tests try single ones.", "anchors": ["asn1_parser/cli/cli_arg_parser.py", "asn1_parser/main.py"]}
{"id": "C76", "title": "Running a command leaves the sources alone", "statement": "A command changes only files whose names end in .h, .c, .bin or .txt, whatever the command line and the input files are. So after any number of runs of any commands the same command line on .asn files does the same as before.", "quantifier": "all command lines, all contents of the file system, all sequences of runs", "why_tests_cant": "It is a statement about all files that exist and all sequences of runs; tests look at the files they expect.", "anchors": ["asn1_parser/cli/cli_arg_parser.py", "asn1_parser/main.py", "asn1_parser/c_printer.py", "asn1_parser/generators/cosmos/generator.py"]}
{"id": "C77", "title": "A command writes into its output folder only", "statement": "Every file that a command changes is directly in the folder given by --output-dir (or the default folder).", "quantifier": "all accepted command lines, all contents of the file system", "why_tests_cant": "File names come from module and type names and from options; that none of them leads out of the folder is a statement about all of them.", "anchors": ["asn1_parser/cli/cli_arg_parser.py", "asn1_parser/main.py", "asn1_parser/c_printer.py", "asn1_parser/generators/cosmos/generator.py"]}
{"id": "C78", "title": "A C program finds the fixed values in the binary file", "statement": "If a C program lays the generated struct of a message over the generated binary file of the message, on a packed target with the byte order that was asked for, then it reads in each member that a clause fixes the value of the clause.", "quantifier": "all accepted sets of modules, both byte orders, all messages whose members have the same widths in all formats", "why_tests_cant": "It relates the layout of one generated file with the bytes of another for every message; tests compare each file with an expected text.", "anchors": ["asn1_parser/generators/binary/generator.py", "asn1_parser/c_printer.py"]}
{"id": "C79", "title": "A run writes all files of a module or none", "statement": "Whether a run of generate-c, generate-cfs or generate-binary on accepted input succeeds or fails, the files it has written are all the files of some modules and no others: never the header of a module without its source, its message ids or its binary files. No module without files imports from one with files, and the run succeeds exactly if no module is left out.", "quantifier": "all accepted sets of modules, all commands of the three, all output folders, failing and successful runs", "why_tests_cant": "It is about the state after a failure at any module of any input; tests look at the files of successful runs.", "anchors": ["asn1_parser/main.py", "asn1_parser/c_printer.py", "asn1_parser/generators/binary/generator.py"]}
{"id": "C80", "title": "C files, binary files and COSMOS give a fixed member the same number", "statement": "The initialiser in the C file of generate-c and the binary file of generate-binary give the same numbers to the same members of a sequence in the same order; reals in the binary file are the nearest of their format. The number in the initialiser is also the one by which the COSMOS item of the member identifies the packet.", "quantifier": "all accepted sets of modules and nested clauses, both byte orders; sequences with one clause; for COSMOS, clauses that do not fix a member twice and values of the kind of the member, which is no array", "why_tests_cant": "It relates files of three commands for every clause; tests compare each file with an expected text on its own.", "anchors": ["asn1_parser/generators/c/generator.py", "asn1_parser/generators/binary/generator.py", "asn1_parser/generators/cosmos/generator.py"]}
{"id": "C81", "title": "The order of the definitions in a module does not matter", "statement": "A run that succeeds also succeeds when the definitions inside the modules are written in another order, and it leaves the same files. Headers and C files have the same whole lines for each definition and only go through the definitions in another order. All other files, such as the binary files and the description for COSMOS, are the same to the last character.", "quantifier": "for all accepted sets of modules, all permutations of the definitions of each module, and all four commands", "why_tests_cant": "The number of orders is unbounded. The example files of the tests each have one order.", "anchors": ["asn1_parser/generators/generator.py", "asn1_parser/generators/cfs/module_sorter.py", "asn1_parser/generators/c/generator.py", "asn1_parser/generators/binary/generator.py", "asn1_parser/generators/cosmos/generator.py"]}
{"id": "C82", "title": "Adding definitions keeps what is generated for the others", "statement": "When definitions and modules are added to an input and both runs succeed, everything the first run generates is kept. Binary files and the description for COSMOS of the same packets are the same to the last character. Headers and C files keep every line, the text for each old definition is unchanged, and only whole lines for the new definitions and imports come in.", "quantifier": "for all pairs of accepted inputs where each module of the first is in the second, with further definitions in any places and further imports, and all four commands", "why_tests_cant": "The additions and the places where they are made are unbounded. Tests compare one input with one expected output.", "anchors": ["asn1_parser/generators/generator.py", "asn1_parser/generators/cfs/module_sorter.py", "asn1_parser/generators/c/generator.py", "asn1_parser/generators/cfs/generator.py", "asn1_parser/generators/binary/generator.py", "asn1_parser/generators/cosmos/generator.py"]}
{"id": "C83", "title": "Fixed values do not change the layout", "statement": "Sources that are the same but for the WITH COMPONENTS clauses of their members lead to the same types. Each header is the same to the last character, apart from the lines with which generate-c declares the variables of its C file. The COSMOS file has the same packets with the same items in the same order, apart from the values of the items. A run that writes headers and succeeds also succeeds when all clauses are taken away.", "quantifier": "for all accepted sets of modules, all ways to change, add or remove clauses such that both runs succeed, and all four commands", "why_tests_cant": "The number of combinations of values is unbounded. A test compares the output for a few values.", "anchors": ["asn1_parser/generators/generator.py", "asn1_parser/generators/cfs/generator.py", "asn1_parser/generators/c/generator.py", "asn1_parser/generators/binary/generator.py", "asn1_parser/generators/cosmos/generator.py"]}
{"id": "C84", "title": "A change reaches only what depends on it", "statement": "The struct, union or enumeration that a header has for a definition is the same in any two successful runs whose sources both have the definition, even runs of different commands, if the type names of its members mean the same: not the contents of these types count, but only whether they are simple types, and which, enumerations, and how many bits their items need, or sequences and choices. The binary file of a sequence, and the COSMOS description of a list of messages, are the same if all definitions that they use, directly or through others, are in both sources. Whatever else differs between the sources, such as other definitions, other modules or the module a definition is in, has no effect.", "quantifier": "for all pairs of accepted sets of modules, all definitions they share, and all four commands", "why_tests_cant": "The changes that must have no effect are unbounded, and a test can only compare outputs for a few of them.", "anchors": ["asn1_parser/generators/generator.py", "asn1_parser/generators/binary/generator.py", "asn1_parser/generators/cosmos/generator.py", "asn1_parser/asn1/asn1_bundle_builder.py"]}
{"id": "C85", "title": "Names of types and modules are only names", "statement": "Suppose all types and modules of the sources get other names, consistently, so that different names stay different and the names with a meaning of their own (INTEGER, REAL, the types of stdint.h, Float, Double and so on) stay what they are. Then every command ends in the same way, with the same error or with success. The header of a module under its new name has the same definitions in the same order, with the same fields, comments, bit-fields and dimensions; only a field whose type was the old name of a type has the new name. The msgids header has the same macros in the same order with the same values, and the C file the same variables with the same initialisers, under the new names. The binary file of a sequence has the same bytes under its new file name. The COSMOS file is the same but for the names of the messages, and so independent of the names of modules and of other types.", "quantifier": "for all renamings, all sets of modules, configurations and commands", "why_tests_cant": "A test renames a few things in a few files; the order of definitions, of modules and of dictionary entries could depend on any names, for instance by sorting or by hashing.", "anchors": ["asn1_parser/generators/generator.py", "asn1_parser/generators/cfs/module_sorter.py", "asn1_parser/asn1/asn1_bundle_builder.py", "asn1_parser/generators/cosmos/generator.py", "asn1_parser/generators/binary/generator.py"]}
{"id": "C86", "title": "A simple type can be written in place of its name", "statement": "Suppose some members of sequences have as type the name of a simple type, such as Level ::= INTEGER (0..12), and that type is written in place of the name. Then a command that succeeded still succeeds, the text of every struct, enumeration and choice in the headers is the same, the binary files have the same bytes and the COSMOS file is the same.", "quantifier": "for all choices of simple types that are put in place, all sets of modules, configurations and commands", "why_tests_cant": "A test has one or two such types in one or two places; the name and the type take different ways through every generator, and the use of names changes the order of definitions and the imports.", "anchors": ["asn1_parser/generators/generator.py", "asn1_parser/generators/cosmos/generator.py", "asn1_parser/generators/binary/generator.py", "asn1_parser/asn1/asn1_bundle_builder.py"]}
{"id": "C87", "title": "Wider ranges never give narrower fields", "statement": "Suppose the ranges of numbers, the sizes of strings and arrays or the lists of enumeration items are made wider or longer anywhere in the modules, and definitions may be added. Then the COSMOS packet of a message keeps its items in order with the same names, no item gets fewer bits and the packet does not get shorter; and no field of a struct in the headers gets fewer bits.", "quantifier": "for all pairs of sets of modules in which the types of the second are at least as wide, all messages and all commands", "why_tests_cant": "A test compares a few pairs of ranges; the width of a field comes from the sign of the lower bound, the upper bound, the kind of number and definitions in other modules, and the claim is about all pairs.", "anchors": ["asn1_parser/utils/size.py", "asn1_parser/generators/cosmos/generator.py", "asn1_parser/generators/generator.py", "asn1_parser/asn1/processor.py"]}
{"id": "C88", "title": "Appending members keeps earlier members in place", "statement": "Suppose members are appended to sequences anywhere in the modules, and definitions may be added. Then the struct of each such sequence keeps the text of its fields and gets further fields after them, if the types of the earlier members still mean the same; the COSMOS packet of a message keeps its items in order, with the same names, sizes, types, byte orders, states, limits and units, at the start of the packet if only the message itself was extended, and with the same values where at most one clause reaches; and the binary file of a sequence stays the same if the new members have names of their own and add no clause to it.", "quantifier": "for all pairs of sets of modules in which the sequences of the second extend those of the first, all messages and all commands", "why_tests_cant": "A test compares one message before and after; here the extended sequence may be nested at any depth, in any module, and reached through any number of members.", "anchors": ["asn1_parser/generators/generator.py", "asn1_parser/generators/cosmos/generator.py", "asn1_parser/generators/binary/generator.py"]}
{"id": "C89", "title": "Names of members and items are only names", "statement": "Suppose the members of sequences and choices, and the items of enumerations, get other names throughout the modules, so that different names stay different. The names of the parts of a CCSDS primary header stay what they are, and so do the names True and False. Then each command succeeds or fails with the same error as before. The headers have the same types, field types, array lengths, includes and order, with the new names in place of the old ones; the macros have the same values in the same order; the variables of the C sources have the same values; the binary files have the same bytes; and the COSMOS file has the same packets with items and states under their new names.", "quantifier": "for all modules, all one-to-one renamings of members and items, and all commands", "why_tests_cant": "A test renames some members of some modules; here the renaming is arbitrary, so a name can become that of any other member, of a type, or of a word with a meaning in some other place.", "anchors": ["asn1_parser/generators/generator.py", "asn1_parser/generators/cfs/generator.py", "asn1_parser/generators/cosmos/generator.py", "asn1_parser/generators/binary/generator.py", "asn1_parser/asn1/processor.py"]}
{"id": "C90", "title": "How imports are written does not matter", "statement": "Suppose each module still imports the same types from the same modules, but its imports are written in another order, grouped in another way, or partly repeated. Then each command succeeds or fails with the same error as before. Its files are the same, except that the header of a module has one include line for each import, in the order of the imports. The COSMOS file is the same.", "quantifier": "for all modules, all rewritings of their imports that keep the imported types and modules, and all commands", "why_tests_cant": "A test compares two orders of imports of one module; the modules are put in an order by their imports and searched through their imports, so any rewriting can change the way through both.", "anchors": ["asn1_parser/asn1/asn1_bundle_builder.py", "asn1_parser/generators/cfs/module_sorter.py", "asn1_parser/generators/cosmos/generator.py", "asn1_parser/generators/generator.py"]}
{"id": "C91", "title": "The order in which a clause fixes values only matters for the order of what is written", "statement": "Suppose WITH COMPONENTS clauses fix the same values in another order, also within inner clauses. Then each command still succeeds, or still fails. The headers with types stay the same. The message id headers define the same macros with the same values, message ids included. The variables of a C file have the same names, and each initialiser sets the same members to the same values. The COSMOS file is the same. The binary file of a message is the same.", "quantifier": "for all modules, all rearrangements of the entries of clauses and inner clauses, and all commands", "why_tests_cant": "A test compares two orders of one clause; a clause of n entries has n! orders, at each depth, and the message id is put together bit by bit along the way.", "anchors": ["asn1_parser/generators/cfs/generator.py", "asn1_parser/generators/c/generator.py", "asn1_parser/generators/binary/generator.py", "asn1_parser/generators/cosmos/generator.py"]}
{"id": "C92", "title": "The output folder only decides where the files are", "statement": "When a command is run with another output folder, it ends in the same way, and each file has the same content under the same name in the other folder. A slash at the end of the name of the folder makes no difference.", "quantifier": "for all input files, all arguments of the four commands, all pairs of folders and all prior contents", "why_tests_cant": "A test generates into one folder; the name of the folder could reach the text of a file, a guard or the order of the work in any run.", "anchors": ["asn1_parser/main.py", "asn1_parser/c_printer.py", "asn1_parser/generators/cosmos/generator.py"]}
{"id": "C93", "title": "A number range counts only by its sign and width", "statement": "Let two inputs be the same but for ranges of INTEGER types, each replaced by another range of the same sign (negative lower bound or not) and the same number of bits. All four commands have exactly the same runs on both: the same files with the same contents and the same end of the run, successful or not. If ranges of REAL types are also replaced by others of the same width (32 or 64 bits), this still holds for headers, C files and binary files. generate-cosmos then ends in the same way, and a telemetry file says the same packets and items but for their limits. Definitions of a simple type with the name of a standard type (such as Uint8) keep their range.", "quantifier": "for all inputs, all such replacements of ranges at any number of places (members, elements of arrays and simple types), and all command lines", "why_tests_cant": "a test compares two concrete ranges; the claim covers every pair of ranges of a width, at any combination of places, including inputs on which the commands fail half way", "anchors": ["asn1_parser/utils/size.py", "asn1_parser/asn1/processor.py", "asn1_parser/generators/generator.py", "asn1_parser/generators/cosmos/generator.py", "asn1_parser/main.py"]}
{"id": "C94", "title": "Items can be appended to enumerations", "statement": "Let items be appended to enumerations. The C enumeration keeps its enumerators with their numbers and their texts, and the new ones follow. Every other definition keeps its text in the headers if the enumerations among the types of its members need as many bits as before. The packet of a message keeps its items in order, with their names, types, byte orders, limits, units and states with their numbers; new states come last. An item has as many bits as before exactly if its enumeration needs as many bits as before. Binary files stay the same, if only simple types have names of standard types (such as Float).", "quantifier": "for all inputs before and after, all enumerations in them to which any number of items is appended, all modules, messages and successful command lines", "why_tests_cant": "a test appends an item to one enumeration; the claim covers any number of items on any of the enumerations, at every place and depth where they are used, with the exact point where the layout changes", "anchors": ["asn1_parser/asn1/processor.py", "asn1_parser/utils/size.py", "asn1_parser/generators/generator.py", "asn1_parser/generators/cosmos/generator.py", "asn1_parser/generators/binary/generator.py"]}
{"id": "C95", "title": "Changing fixed values changes only these values", "statement": "Let the values of some keys be changed in WITH COMPONENTS clauses, with every clause still fixing the same members in the same order. Then all headers stay the same. generate-c succeeds as before, and a C file keeps its comment, its include line and its variables, and the text of a variable differs only if its clause does. The message id headers keep their macros in order, and a line differs only if the value, or the header clause for a message id, does. The binary file of a sequence has the same blocks of the same lengths in the same order, and a block differs only if its value does. In the COSMOS file items differ only in their values, and only items of the changed keys.", "quantifier": "for all inputs before and after, all sets of keys, all other values, all modules, messages and successful command lines", "why_tests_cant": "a test changes one value in one clause and compares files; the claim covers all clauses at once, at every depth, and excludes influence of a value on anything else in any output", "anchors": ["asn1_parser/generators/generator.py", "asn1_parser/generators/c/generator.py", "asn1_parser/generators/cfs/generator.py", "asn1_parser/generators/cosmos/generator.py", "asn1_parser/generators/binary/generator.py"]}
{"id": "C96", "title": "Macros of message id headers and of stdint.h replace nothing in the headers with types", "statement": "Whatever the input calls its types, members and items, no macro that the message id headers of the run define, and no macro of stdint.h, is called like a type, tag, field, enumerator or variable that the headers declare. A C file can include all of them in any order.", "quantifier": "for all inputs whose headers can be read as C, all fixed values, all declarations in all headers of the run", "why_tests_cant": "a test includes the headers of a few modules; the claim compares every macro with every identifier for every choice of names, also names in capitals and names with digits", "anchors": ["asn1_parser/generators/generator.py", "asn1_parser/generators/cfs/generator.py", "asn1_parser/c_printer.py", "asn1_parser/asn1/grammar.py"]}
{"id": "C97", "title": "Error messages name the cause", "statement": "When modules are refused, what the error message names is so: the range is inverted or too large, the type is not defined in the module named and used there, the modules named are exactly those that are missing or occur twice, the types named are exactly those imported but not defined, the key named is fixed by a clause of the definition named and is no member, the type named is defined in the two modules named. A message is printed exactly when the modules are refused as inconsistent.", "quantifier": "for all lists of modules, with any contents, and all lists of module names on the command line", "why_tests_cant": "a test provokes each message once; the claim is about every input that leads to the message, also inputs with several mistakes at once", "anchors": ["asn1_parser/asn1/processor.py", "asn1_parser/asn1/asn1_bundle_builder.py", "asn1_parser/asn1/validation/asn1_bundle_validator.py", "asn1_parser/main.py"]}
{"id": "C98", "title": "COSMOS recognises a message by its fixed reals", "statement": "COSMOS takes received data for the packet of a message exactly if the data have the fixed values of the message, INTEGERs as integers and REALs as IEEE 754 numbers of their width. In particular it takes the big endian binary file that generate-binary writes for a message for the packet that generate-cosmos writes for it.", "quantifier": "for all accepted modules, messages with fixed INTEGERs and REALs, and received data", "why_tests_cant": "whether the two files agree depends on the digits of the number and the width of the type; a test tries a few numbers, usually ones like 0.5 for which they do", "anchors": ["asn1_parser/generators/cosmos/generator.py", "asn1_parser/generators/cosmos/templates.py", "asn1_parser/generators/binary/generator.py"]}
{"id": "C99", "title": "Binary files and COSMOS packets have the same byte order", "statement": "COSMOS takes the binary file that generate-binary writes for a message, with either byte order, for the packet that generate-cosmos writes for it.", "quantifier": "for all accepted modules, both byte orders, and messages whose first members are the fixed ones and INTEGERs", "why_tests_cant": "it depends on the marks in the comments of all fixed members, on the command line and on the values, and relates the files of two generators; values whose bytes are the same in both orders make tests pass by chance", "anchors": ["asn1_parser/generators/cosmos/generator.py", "asn1_parser/generators/cosmos/templates.py", "asn1_parser/generators/binary/generator.py"]}
{"id": "C100", "title": "Every generated packet can be recognised", "statement": "For each packet that generate-cosmos writes there are data that COSMOS takes for it: the values that identify the packet are values its items can have.", "quantifier": "for all accepted modules, messages and fixed values", "why_tests_cant": "whether data exist is a question about all byte strings, and it depends on the widths that follow from the declared ranges of nested members and on the values of the clauses; tests send data built from values known to fit", "anchors": ["asn1_parser/generators/cosmos/generator.py", "asn1_parser/generators/cosmos/templates.py", "asn1_parser/utils/size.py:get_bit_size"]}
{"id": "C101", "title": "Messages are told apart", "statement": "No data are taken by COSMOS for the packets of two different messages of the file that generate-cosmos writes.", "quantifier": "for all accepted modules, all pairs of messages and all data", "why_tests_cant": "it is a claim about all byte strings and all pairs of messages, whose fixed values may be at different places with different widths; tests send the data of one message and look at one answer", "anchors": ["asn1_parser/generators/cosmos/generator.py", "asn1_parser/generators/cosmos/templates.py", "asn1_parser/asn1/grammar_elements/asn1_type.py"]}
{"id": "C102", "title": "Numbers are recognised in the byte order of their members", "statement": "COSMOS takes received data for a packet exactly if the data have the fixed values of the message, integers and reals, each in the byte order that the comment of its member asks for; in particular it takes the binary file of a message for its packet, whatever byte order generate-binary was given.", "quantifier": "for all accepted modules, all messages, all data, both byte orders of generate-binary and all fixed integers and reals", "why_tests_cant": "it is an equivalence over all byte strings, and over all fixed numbers of files in both orders; tests look at single files and never read them by the COSMOS definitions", "anchors": ["asn1_parser/generators/cosmos/generator.py", "asn1_parser/generators/binary/generator.py", "asn1_parser/asn1/grammar_elements/asn1_comment.py"]}
{"id": "C103", "title": "Binary files are not taken for other packets", "statement": "COSMOS does not take the binary file of a message, which it takes for the packet of this message, for the packet of another message.", "quantifier": "for all accepted modules, all pairs of messages, both byte orders of generate-binary and all fixed integers and reals", "why_tests_cant": "it relates two generators for all pairs of messages and all fixed numbers; tests look at single files and never compare them with the packets of other messages", "anchors": ["asn1_parser/generators/cosmos/generator.py", "asn1_parser/generators/binary/generator.py"]}
{"id": "C104", "title": "Packets begin with their message ids", "statement": "If generate-cfs defines a message id for a sequence, all data that COSMOS takes for the packet of the sequence begin with this id, so that cFS and COSMOS assign the same data to the same packet.", "quantifier": "for all accepted modules, all sequences with a fixed primary header, all values of its fields and all data", "why_tests_cant": "it relates macros written by one generator to what a consumer of the file of another generator does with all possible data; tests compare the texts of each generator only", "anchors": ["asn1_parser/generators/cfs/generator.py", "asn1_parser/generators/cosmos/generator.py"]}
{"id": "C105", "title": "Inputs can be joined and parts used alone", "statement": "Two inputs on which a command succeeds can be given to it together exactly if no module and no type has the same name in both; the files are then those of the two runs. Some modules of an input on which a command succeeds can be given to it alone exactly if they import only from each other. generate-cosmos writes the same for joined inputs.", "quantifier": "for all inputs, all ways to join or divide them, and all four commands", "why_tests_cant": "success on one input must be compared with success on all inputs that contain it or are contained in it; tests run on fixed sets of modules", "anchors": ["asn1_parser/asn1/asn1_bundle_builder.py", "asn1_parser/asn1/processor.py", "asn1_parser/generators/generator.py"]}
{"id": "C106", "title": "Every module can be written", "statement": "Every module that the grammar describes, with reals that are doubles and comments that do not look like marks or units, can be written as a file that is read as exactly this module; no other module has such a file. For every double there is a decimal that is read as this double. For every list of such modules there are files on which each command does what it does on the modules.", "quantifier": "for all modules, all doubles and all lists of modules", "why_tests_cant": "that a text exists for every module needs a construction for infinitely many modules; tests read some texts", "anchors": ["asn1_parser/asn1/grammar.py", "asn1_parser/asn1/asn1_bundle_builder.py"]}
{"id": "C107", "title": "Accepted texts have a normal form", "statement": "Whatever the input files hold, either every command ends with an error before it changes a file, or there are as many files in good style (ASCII digits in decimals, comments up to the end of their line) on which every command does exactly the same. The modules that come out of the parser are exactly those that validation makes of modules that can be written.", "quantifier": "for all files, all commands and their options", "why_tests_cant": "the claim is about all byte sequences that the parser lets through; tests show single texts", "anchors": ["asn1_parser/asn1/grammar.py", "asn1_parser/asn1/parser.py"]}
