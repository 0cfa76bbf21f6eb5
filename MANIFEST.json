{
 "claims": [
  {
   "property": "C01",
   "status": "proved",
   "theorems": [
    "Apg.C01_fields",
    "Apg.C01_cosmos",
    "Apg.C01_uint_width"
   ],
   "note": "C01_uint_width is about the width function, C01_cosmos about the items in COSMOS files, C01_fields about the fields of the structs in C headers."
  },
  {
   "property": "C02",
   "status": "proved",
   "theorems": [
    "Apg.C02_cosmos",
    "Apg.C02_int_width"
   ],
   "note": "C02_int_width is about the width function, C02_cosmos about the items in COSMOS files."
  },
  {
   "property": "C03",
   "status": "proved",
   "theorems": [
    "Apg.C03_run_refused",
    "Apg.C03_inverted_range_refused",
    "Apg.C03_integer_classified",
    "Apg.C03_real_classified",
    "Apg.C03_limits"
   ],
   "note": "C03_run_refused: every command, any place of the range. The other theorems are about the classification of one type; C56_exact uses them for whole bundles."
  },
  {
   "property": "C04",
   "status": "partial",
   "theorems": [
    "Apg.C04_full_false",
    "Apg.C04_full_false_sequence",
    "Apg.C04_standard_int_partial",
    "Apg.C04_standard_real_partial",
    "Apg.C04_kinds_partial",
    "Apg.C04_real_kinds_partial"
   ],
   "note": "Exact: a definition with a standard name is INTEGER or REAL with exactly the standard range, or no simple definition (C04_kinds_partial for integers, C04_real_kinds_partial for Float and Double). The kind of number and the kind of definition are not checked by the code (C04_full_false, C04_full_false_sequence). Width proved for INTEGER and REAL definitions."
  },
  {
   "property": "C05",
   "status": "proved",
   "theorems": [
    "Apg.C05_numbered",
    "Apg.C05_bundle"
   ],
   "note": "C05_numbered for one enumeration, C05_bundle for accepted bundles."
  },
  {
   "property": "C06",
   "status": "partial",
   "theorems": [
    "Apg.C06_valid_honoured",
    "Apg.C06_refusal_full_false",
    "Apg.C06_refusal_partial",
    "Apg.C06_accepted_iff_partial",
    "Apg.C06_bundle_partial"
   ],
   "note": "False in full: numbers that sum to zero are renumbered (C06_refusal_full_false). C06_accepted_iff_partial gives the exact condition, C06_bundle_partial for whole bundles."
  },
  {
   "property": "C07",
   "status": "proved",
   "theorems": [
    "Apg.C07_enumerations"
   ],
   "note": "Full. Least width, C bit-fields, enumerators, COSMOS item width and states all agree for every enumeration of an accepted bundle."
  },
  {
   "property": "C08",
   "status": "partial",
   "theorems": [
    "Apg.C08_storage_partial",
    "Apg.C08_exact_partial",
    "Apg.C08_zero_fails",
    "Apg.C08_full_false"
   ],
   "note": "Exact (C08_exact_partial): the field of an unsigned range is right exactly if the upper bound is below 2^64; beyond, it is an unsigned long long with a bit-field suffix of more than 64 bits (C08_full_false). C08_storage_partial: the line in the text for bounds 1..2^64-1, for all three header generators. Upper bound 0 makes every run fail (C08_zero_fails)."
  },
  {
   "property": "C09",
   "status": "partial",
   "theorems": [
    "Apg.C09_arrays_partial",
    "Apg.C09_byte_arrays_partial",
    "Apg.C09_full_false",
    "Apg.C09_size_partial",
    "Apg.C09_terminates",
    "Apg.C09_order_independent",
    "Apg.C09_additive"
   ],
   "note": "C09_arrays_partial is exact for every accepted bundle: the size is the specified one if each array is taken for a string of as many characters. So it is the specified size if array elements take eight bits or arrays are empty (C09_byte_arrays_partial); other arrays are wrong (C09_full_false). Termination, additivity and order independence are proved in full."
  },
  {
   "property": "C10",
   "status": "proved",
   "theorems": [
    "Apg.C10_duplicates",
    "Apg.C10_accepted_no_duplicates"
   ],
   "note": "Accepted iff no two modules define the same name."
  },
  {
   "property": "C11",
   "status": "proved",
   "theorems": [
    "Apg.C11_unique_modules"
   ],
   "note": "Config build rejects repeated module names."
  },
  {
   "property": "C12",
   "status": "proved",
   "theorems": [
    "Apg.C12_modules_permutation"
   ],
   "note": "Accepted modules are a permutation of the inputs; none dropped or invented."
  },
  {
   "property": "C13",
   "status": "proved",
   "theorems": [
    "Apg.C13_imports_distinct",
    "Apg.C13_imports",
    "Apg.C13_cosmos_full_false"
   ],
   "note": "Every import resolves to a definition of the named module; without the duplicate-name check of the COSMOS path this is false (C13_cosmos_full_false)."
  },
  {
   "property": "C14",
   "status": "proved",
   "theorems": [
    "Apg.C14_used_types_distinct",
    "Apg.C14_used_types"
   ],
   "note": "Every used type name is built in, local or imported."
  },
  {
   "property": "C15",
   "status": "partial",
   "theorems": [
    "Apg.C15_full_false_builtin",
    "Apg.C15_full_false_choice",
    "Apg.C15_components_partial",
    "Apg.C15_binary"
   ],
   "note": "False in full: clauses on members of predefined types and of CHOICE types, and clauses inside a CHOICE, are not checked by the code (C15_full_false_builtin, C15_full_false_choice). C15_components_partial: clauses on members of sequence types name existing members at every depth. C15_binary: if generate-binary succeeds, this holds for the clauses of all sequences without exceptions."
  },
  {
   "property": "C16",
   "status": "proved",
   "theorems": [
    "Apg.C16_no_null"
   ],
   "note": "No accepted definition contains NULL."
  },
  {
   "property": "C17",
   "status": "proved",
   "theorems": [
    "Apg.C17_unique_binding",
    "Apg.C17_order_independent"
   ],
   "note": "Unique binding and independence of input order."
  },
  {
   "property": "C18",
   "status": "proved",
   "theorems": [
    "Apg.C18_use_map"
   ],
   "note": "Use map is exactly the set of use sites."
  },
  {
   "property": "C19",
   "status": "partial",
   "theorems": [
    "Apg.C19_accepted_partial",
    "Apg.C19_full_false",
    "Apg.C19_dependency_order_partial"
   ],
   "note": "C19_accepted_partial: full for the modules of accepted bundles that do not import from themselves; self import breaks it (C19_full_false)."
  },
  {
   "property": "C20",
   "status": "proved",
   "theorems": [
    "Apg.C20_returns_iff",
    "Apg.C20_cycle_diverges",
    "Apg.C20_cycle_accepted"
   ],
   "note": "Returns iff well founded; divergence on stuck sets; an accepted bundle with recursive types diverges."
  },
  {
   "property": "C21",
   "status": "proved",
   "theorems": [
    "Apg.C21_importers_first",
    "Apg.C21_returns_iff",
    "Apg.C21_cycle_diverges"
   ],
   "note": "Returns iff acyclic; permutation with importers first; divergence on cycles."
  },
  {
   "property": "C22",
   "status": "proved",
   "theorems": [
    "Apg.C22_msgid_layout",
    "Apg.C22_bits_iff",
    "Apg.C22_macros"
   ],
   "note": "C22_msgid_layout: all orders and groupings of the four fields; layout, 16 bit bound and read back. C22_bits_iff: for every clause and every integer, which id comes out, by its bits; fields may be missing, repeated, too large or negative. C22_macros: the same for the macros in the files after a successful generate-cfs."
  },
  {
   "property": "C23",
   "status": "partial",
   "theorems": [
    "Apg.C23_full_false",
    "Apg.C23_msgid_injective_partial",
    "Apg.C23_collisions_partial",
    "Apg.C23_all_iff_partial"
   ],
   "note": "False for values too wide for their fields, which the tool accepts (C23_full_false). Exact for type, flag and application id in their fields and any version; C23_collisions_partial says for all natural numbers which headers collide; C23_all_iff_partial for all clauses, with missing, repeated and negative fields."
  },
  {
   "property": "C24",
   "status": "proved",
   "theorems": [
    "Apg.C24_mid_text",
    "Apg.C24_integers_full_false",
    "Apg.C24_digits_iff"
   ],
   "note": "C24_mid_text: for every non-negative id the digits, their number and the value they denote. C24_integers_full_false: negative integers in a clause give a text that is not a number. C24_digits_iff: exactly these; the macro has only hexadecimal digits if and only if no integer of the clause is negative."
  },
  {
   "property": "C25",
   "status": "partial",
   "theorems": [
    "Apg.C25_full_false",
    "Apg.C25_packet_numbers_partial"
   ],
   "note": "The code never compares packets (C25_full_false). Proved: printed ids are the header numbers, hence equal only for equal headers."
  },
  {
   "property": "C26",
   "status": "partial",
   "theorems": [
    "Apg.C26_identifier_iff_partial",
    "Apg.C26_reserved_iff_partial",
    "Apg.C26_full_false",
    "Apg.C26_syntax_full_false",
    "Apg.C26_injective",
    "Apg.C26_identifier_partial",
    "Apg.C26_not_reserved_partial"
   ],
   "note": "Injectivity is full. Syntax fails for non-ASCII digits, reserved words for lower-case names (two refuted statements). Exact: the identifier is valid if and only if the name is ASCII (C26_identifier_iff_partial), and reserved if and only if the name itself is (C26_reserved_iff_partial)."
  },
  {
   "property": "C27",
   "status": "proved",
   "theorems": [
    "Apg.C27_cfs",
    "Apg.C27_c",
    "Apg.C27_binary"
   ],
   "note": "All runs of the three header generators, failing runs included."
  },
  {
   "property": "C28",
   "status": "proved",
   "theorems": [
    "Apg.C28_cfs",
    "Apg.C28_c",
    "Apg.C28_binary"
   ],
   "note": "All headers of the three generators: guard structure, agreement and distinctness."
  },
  {
   "property": "C29",
   "status": "partial",
   "theorems": [
    "Apg.C29_distinct_iff_partial",
    "Apg.C29_full_false",
    "Apg.C29_distinct_partial"
   ],
   "note": "Exact characterisation (iff) of when macros are distinct; the unrestricted claim is refuted."
  },
  {
   "property": "C30",
   "status": "partial",
   "theorems": [
    "Apg.C30_arrays_partial",
    "Apg.C30_blocks_partial",
    "Apg.C30_full_false"
   ],
   "note": "One block per fixed value in clause order (C30_blocks_partial), of the width of its elementary type. C30_arrays_partial: the exact size of a block for every fixed member, arrays included: an array counts one byte per element like a text of its length, which is wrong for other elements (C30_full_false)."
  },
  {
   "property": "C31",
   "status": "proved",
   "theorems": [
    "Apg.C31_integers",
    "Apg.C31_read_back",
    "Apg.C31_reals"
   ],
   "note": "Integers of all widths, whole-file read back, and IEEE 754 nearest single/double for reals with ties to even."
  },
  {
   "property": "C32",
   "status": "proved",
   "theorems": [
    "Apg.C32_byte_order"
   ],
   "note": "Both runs end alike, same files, blocks reversed."
  },
  {
   "property": "C33",
   "status": "partial",
   "theorems": [
    "Apg.C33_fits_partial",
    "Apg.C33_full_false",
    "Apg.C33_ranges_iff_partial"
   ],
   "note": "Width is enforced, range is not (C33_full_false: 255 for INTEGER (0..200)). C33_ranges_iff_partial is exact: the values fixed for a range are kept in range exactly if it is the range of a type of stdint.h, or its width is not 8, 16, 32 or 64 bits, so that no value can be written."
  },
  {
   "property": "C34",
   "status": "partial",
   "theorems": [
    "Apg.C34_last_clause",
    "Apg.C34_own_file_partial",
    "Apg.C34_own_path",
    "Apg.C34_full_false"
   ],
   "note": "Paths are distinct (full); the file is complete for sequences with one clause; later clauses overwrite earlier ones (C34_full_false)."
  },
  {
   "property": "C35",
   "status": "proved",
   "theorems": [
    "Apg.C35_items_are_leaves"
   ],
   "note": "All successful runs, all messages."
  },
  {
   "property": "C36",
   "status": "proved",
   "theorems": [
    "Apg.C36_packet_length",
    "Apg.C36_flat_arrays",
    "Apg.C36_with_arrays_false"
   ],
   "note": "Messages without arrays, and with flat arrays; arrays of sequences refute the unrestricted statement (C36_with_arrays_false), which is beyond the documented subset."
  },
  {
   "property": "C37",
   "status": "partial",
   "theorems": [
    "Apg.C37_identifiers_partial",
    "Apg.C37_kinds_partial",
    "Apg.C37_full_false"
   ],
   "note": "False in full: a BOOLEAN without value is printed as identifier (C37_full_false). C37_kinds_partial gives the exact kind of every item that at most one clause reaches (Clear), whatever the clauses for other members: arrays are APPEND_ARRAY_ITEM, other leaves are APPEND_ID_ITEM iff they are fixed or BOOLEAN, a BOOLEAN without value identifies by FALSE. C37_identifiers_partial: values of the identifiers."
  },
  {
   "property": "C38",
   "status": "partial",
   "theorems": [
    "Apg.C38_lookup_partial",
    "Apg.C38_full_false"
   ],
   "note": "No consistency error and no endless recursion; arrays of strings are looked up as definitions (C38_full_false)."
  },
  {
   "property": "C39",
   "status": "proved",
   "theorems": [
    "Apg.C39_failure_leaves_no_trace",
    "Apg.C39_success_adds_packets"
   ],
   "note": "All runs."
  },
  {
   "property": "C40",
   "status": "partial",
   "theorems": [
    "Apg.C40_full_false",
    "Apg.C40_repeatable_partial",
    "Apg.C40_cosmos_partial"
   ],
   "note": "Three generators repeatable; generate-cosmos appends (C40_full_false): by C40_cosmos_partial, n runs leave the old content and n times the text of one run."
  },
  {
   "property": "C41",
   "status": "proved",
   "theorems": [
    "Apg.C41_limits"
   ],
   "note": "All items of all successful runs; the range of representation is the tool's own Float and Double range."
  },
  {
   "property": "C42",
   "status": "partial",
   "theorems": [
    "Apg.C42_struct_fields_partial",
    "Apg.C42_struct_fields_flat_partial",
    "Apg.C42_full_false"
   ],
   "note": "Fields, order, names and outermost dimension proved; inner dimensions are lost (C42_full_false)."
  },
  {
   "property": "C43",
   "status": "partial",
   "theorems": [
    "Apg.C43_bool_partial",
    "Apg.C43_stdint_partial",
    "Apg.C43_full_false"
   ],
   "note": "stdint.h proved; stdbool.h is never included although bool fields occur (C43_full_false). C43_bool_partial: the bool fields are exactly those of members whose type is a name defined as BOOLEAN."
  },
  {
   "property": "C44",
   "status": "partial",
   "theorems": [
    "Apg.C44_widths_partial",
    "Apg.C44_exact_partial",
    "Apg.C44_full_false"
   ],
   "note": "Full statement false (C44_full_false): signed ranges are printed as int whatever their width. C44_widths_partial: the widths agree for the types of `Width`. C44_exact_partial: for numeric and enumerated members the C field has the bits of the COSMOS item exactly if the type is one of `Width`, in which a bit-field is not wider than the C type before it. For the other numeric types the claim is false, so the condition is exact."
  },
  {
   "property": "C45",
   "status": "partial",
   "theorems": [
    "Apg.C45_include_iff_partial",
    "Apg.C45_include_partial",
    "Apg.C45_full_false"
   ],
   "note": "Exact characterisation (iff) of when the include line is present; the unrestricted claim is refuted."
  },
  {
   "property": "C46",
   "status": "proved",
   "theorems": [
    "Apg.C46_initialisers",
    "Apg.C46_unambiguous"
   ],
   "note": "Whole C files are read back; the initialiser says what the clause says, and is unambiguous."
  },
  {
   "property": "C47",
   "status": "proved",
   "theorems": [
    "Apg.C47_rejected_no_output"
   ],
   "note": "All four commands."
  },
  {
   "property": "C48",
   "status": "proved",
   "theorems": [
    "Apg.C48_split_join",
    "Apg.C48_join_split",
    "Apg.C48_commands"
   ],
   "note": "Split and join are inverse, and the commands use exactly the split names."
  },
  {
   "property": "C49",
   "status": "proved",
   "theorems": [
    "Apg.C49_files",
    "Apg.C49_defines"
   ],
   "note": "Files and macros of all successful runs."
  },
  {
   "property": "C50",
   "status": "partial",
   "theorems": [
    "Apg.C50_application_id_partial",
    "Apg.C50_full_false"
   ],
   "note": "Proved for application ids that at most one clause reaches and that are neither array nor BOOLEAN; defaults at several levels refute the rest (C50_full_false)."
  },
  {
   "property": "C51",
   "status": "partial",
   "theorems": [
    "Apg.C51_independent_partial",
    "Apg.C51_full_false"
   ],
   "note": "Proved for messages without contended members (members that have a clause and are reached by another), whatever the clauses of the other messages of the run; the generator changes its input in place, which refutes the rest (C51_full_false)."
  },
  {
   "property": "C52",
   "status": "proved",
   "theorems": [
    "Apg.C52_decimals",
    "Apg.C52_read",
    "Apg.C52_unambiguous",
    "Apg.C52_run"
   ],
   "note": "Module, list of modules and whole runs. The meaning of decimals is unique (C52_decimals)."
  },
  {
   "property": "C53",
   "status": "proved",
   "theorems": [
    "Apg.C53_grammatical"
   ],
   "note": "Total: covers every file content."
  },
  {
   "property": "C54",
   "status": "partial",
   "theorems": [
    "Apg.C54_field_types_partial",
    "Apg.C54_exact_partial",
    "Apg.C54_full_false"
   ],
   "note": "The full statement is false (C54_full_false): a SEQUENCE may be called `Uint8-t`. C54_exact_partial proves, without further conditions on the modules, which members have the right field: the fields of all other members have another type. Wrong are members with unsigned ranges beyond 64 bits, arrays of built-in types, of arrays and of simple definitions that need a bit-field, simple definitions that are arrays, and sequences, choices and enumerations with the name of a type of stdint.h. C54_field_types_partial is the case in which every member is right."
  },
  {
   "property": "C55",
   "status": "partial",
   "theorems": [
    "Apg.C55_clean",
    "Apg.C55_full_false",
    "Apg.C55_uncomment_partial"
   ],
   "note": "Cleanliness of kept comments is full. A character outside the comment class, such as a brace, makes the rest of the line part of the module (C55_full_false); proved for modules in good style."
  },
  {
   "property": "C56",
   "status": "proved",
   "theorems": [
    "Apg.C56_exact",
    "Apg.C56_exact_cosmos",
    "Apg.C56_valid_accepted",
    "Apg.C56_files",
    "Apg.C56_refused"
   ],
   "note": "Equivalence with a declarative specification on the syntax trees, and whole runs on files."
  },
  {
   "property": "C57",
   "status": "proved",
   "theorems": [
    "Apg.C57_generate_c",
    "Apg.C57_generate_cfs",
    "Apg.C57_generate_binary",
    "Apg.C57_valid_not_generated",
    "Apg.C57_files"
   ],
   "note": "Exact for all three generators, also for members with the same name. For generate-binary the fuel that is enough is not given in numbers."
  },
  {
   "property": "C58",
   "status": "partial",
   "theorems": [
    "Apg.C58_generate_c",
    "Apg.C58_generate_cfs",
    "Apg.C58_generate_binary",
    "Apg.C58_generate_cosmos_partial",
    "Apg.C58_full_false"
   ],
   "note": "Full for generate-c, generate-cfs and generate-binary. generate-cosmos: for different module names; with equal names the first file wins (C58_full_false)."
  },
  {
   "property": "C59",
   "status": "partial",
   "theorems": [
    "Apg.C59_generate_cfs_partial",
    "Apg.C59_local_partial",
    "Apg.C59_include_lines",
    "Apg.C59_full_false",
    "Apg.C59_cfs_full_false"
   ],
   "note": "The full statement is false (C59_full_false): generate-c and generate-binary write `#include \"b\"` for module b, but the file is b.h. It is also false for generate-cfs alone (C59_cfs_full_false): a field of a CHOICE type names a type that no header defines. C59_generate_cfs_partial proves it for generate-cfs if no member has a CHOICE type or an alias of BOOLEAN and the definitions are Regular (see C54). C59_local_partial proves it for all three commands if also only simple definitions are imported. C59_include_lines, without these conditions: generate-cfs writes one include line per import, and it names a header that the run has written. Missing: members of CHOICE blocks, include guards, and what the C preprocessor does with the lines."
  },
  {
   "property": "C60",
   "status": "partial",
   "theorems": [
    "Apg.C60_reads_partial",
    "Apg.C60_full_false",
    "Apg.C60_full_false_choice",
    "Apg.C60_full_false_close",
    "Apg.C60_full_false_reserved"
   ],
   "note": "The full statement is false: a member comment ending in a backslash swallows the next member (C60_full_false), a comment in a CHOICE hides the rest of the union, which is printed on one line (C60_full_false_choice), `*/` in the comment of a definition ends the C comment (C60_full_false_close), and a member may have a reserved C word as its name (C60_full_false_reserved). C60_reads_partial proves it for all three commands when the module is Tame, which excludes exactly these four situations, and Regular (see C54). The reader (Spec/CReader.lean) is written from the C standard and shares nothing with the printer. The alternatives of a CHOICE are read with the types the code prints, which are ASN.1 names for INTEGER and BOOLEAN (see C62). Missing: string literals and character constants (no header has any outside include lines), macro expansion, and checks of scope and linkage."
  },
  {
   "property": "C61",
   "status": "partial",
   "theorems": [
    "Apg.C61_stdbool_iff_partial",
    "Apg.C61_stdbool_false",
    "Apg.C61_no_clash_iff_partial",
    "Apg.C61_full_false",
    "Apg.C61_full_false_members"
   ],
   "note": "The full statement is false: two enumerations may have an item of the same name (C61_full_false), and two members of a SEQUENCE may have the same key (C61_full_false_members). C61_no_clash_iff_partial proves exactly when the headers of a run are free of clashes, by a condition on the syntax trees. It covers modules whose headers can be read as C (Tame and Regular, see C60). Names of stdint.h are part of C64, its macros of C96. C61_stdbool_iff_partial: stdbool.h, which the headers of this tool never include themselves, is compatible with the headers exactly if no enumerator, member or variable is called bool, true or false (C61_stdbool_false)."
  },
  {
   "property": "C62",
   "status": "partial",
   "theorems": [
    "Apg.C62_alternatives_iff_partial",
    "Apg.C62_full_false"
   ],
   "note": "The full statement is false (C62_full_false): an INTEGER alternative is printed as `INTEGER x;` and a string as one `char`. C62_alternatives_iff_partial proves exactly which alternatives are right: those whose type is the name of a SEQUENCE, CHOICE or ENUMERATED. For Tame and Regular modules (see C60)."
  },
  {
   "property": "C63",
   "status": "partial",
   "theorems": [
    "Apg.C63_limits_iff_partial",
    "Apg.C63_full_false",
    "Apg.C63_full_false_empty"
   ],
   "note": "The full statement is false: a member of an enumeration with one item becomes a bit-field of width 0 (C63_full_false), a string of length 0 an array of length 0 (C63_full_false_empty). C63_limits_iff_partial proves exactly when all fields are within the limits, by a condition on the syntax trees. For Tame and Regular modules (see C60); ranges beyond 64 bits are not Regular (see C08)."
  },
  {
   "property": "C64",
   "status": "partial",
   "theorems": [
    "Apg.C64_compiles_partial",
    "Apg.C64_full_false",
    "Apg.C64_compiles_iff_partial"
   ],
   "note": "The full statement is false (C64_full_false): two enumerations may have an item of the same name; see also C59, C61 and C63. C64_compiles_partial proves it for Tame and Regular modules (see C60) whose definitions meet the conditions of C59, C61 and C63 and whose CHOICE alternatives are strings or have defined types or are arrays of such, if include lines name the headers that are written (always for generate-cfs, without imports for the others). C64_compiles_iff_partial proves that these conditions are exact, for modules in which no enumerator or variable has a name of stdint.h. Compiling means the rules listed in the statement, not all of C."
  },
  {
   "property": "C65",
   "status": "proved",
   "theorems": [
    "Apg.C65_printable_messages",
    "Apg.C65_arrays_of_numbers_fail"
   ],
   "note": "C65_printable_messages is the exact criterion; C65_arrays_of_numbers_fail shows an accepted message that cannot be printed with any stack."
  },
  {
   "property": "C66",
   "status": "partial",
   "theorems": [
    "Apg.C66_same_layout_iff_partial",
    "Apg.C66_full_false"
   ],
   "note": "The full statement is false (C66_full_false): after a 3-bit number a one byte number comes at bit 8 in C and at bit 3 in COSMOS. C66_same_layout_iff_partial proves exactly when the layouts agree, for messages whose leaves are numbers, booleans and enumerations of the same width in both (C44), strings, or arrays of the types of stdint.h: everything that C puts at a byte boundary must already be at one. Missing: messages with other leaves, arrays of sequences, headers that are not Tame and Regular (C60). The layout rules of C are those of GCC for packed structs on big-endian targets."
  },
  {
   "property": "C67",
   "status": "partial",
   "theorems": [
    "Apg.C67_descriptions_partial",
    "Apg.C67_units",
    "Apg.C67_full_false"
   ],
   "note": "C67_units is proved in full. The full statement on descriptions is false (C67_full_false): a comment with a double quote ends the description early and the rest of it is read as further words. C67_descriptions_partial proves exactly for which comments the description is the comment: those where every double quote follows a backslash and every backslash belongs to a character after it."
  },
  {
   "property": "C68",
   "status": "partial",
   "theorems": [
    "Apg.C68_generate_c",
    "Apg.C68_generate_binary",
    "Apg.C68_generate_cfs_partial",
    "Apg.C68_full_false",
    "Apg.C68_generate_cosmos_partial",
    "Apg.C68_full_cosmos_false"
   ],
   "note": "C68_generate_c and C68_generate_binary are proved in full. For generate-cfs the full statement is false (C68_full_false): the note on a simple type lists the modules that use it. C68_generate_cfs_partial proves that the files stay the same exactly if no added module uses a simple type of the others directly. For generate-cosmos the statement is false for files with the same module name (C68_full_cosmos_false) and proved for different names (C68_generate_cosmos_partial)."
  },
  {
   "property": "C69",
   "status": "partial",
   "theorems": [
    "Apg.C69_compiles_iff_partial",
    "Apg.C69_full_false"
   ],
   "note": "The full statement is false (C69_full_false): a sequence with two fixed members has its variable defined twice. C69_compiles_iff_partial proves that, where the headers compile (C64), the C file compiles exactly if the last block of the header has a clause if any has, no sequence has two clauses, and the clauses fix members that exist, of the right kind, to values C has constants for. Missing: the other modules."
  },
  {
   "property": "C70",
   "status": "partial",
   "theorems": [
    "Apg.C70_result",
    "Apg.C70_cosmos_result",
    "Apg.C70_files",
    "Apg.C70_headers_partial",
    "Apg.C70_sources",
    "Apg.C70_cosmos",
    "Apg.C70_full_false"
   ],
   "note": "The claim on headers is false in full (C70_full_false): a comment that ends in a backslash takes the next field away. C70_result, C70_cosmos_result, C70_files, C70_sources and C70_cosmos hold for all comments that are not refused; C70_headers_partial proves the claim on headers if the comments do not end C comments and do not end in a backslash (and there are none in a CHOICE). Missing: headers with other comments."
  },
  {
   "property": "C71",
   "status": "proved",
   "theorems": [
    "Apg.C71_data_types"
   ],
   "note": "C71_data_types holds for every leaf of every message of a successful run and says that the type allows no other data type."
  },
  {
   "property": "C72",
   "status": "partial",
   "theorems": [
    "Apg.C72_identified_partial",
    "Apg.C72_apart",
    "Apg.C72_binary_partial",
    "Apg.C72_full_false"
   ],
   "note": "False in full (C72_full_false): a BOOLEAN without fixed value must be FALSE for the packet to be recognised. C72_identified_partial is the exact condition (fixed values, and the other BOOLEANs FALSE) for messages whose fixed and BOOLEAN leaves are big endian integers, enumerations and BOOLEANs; C72_apart: no data carry the fixed values of two messages that fix the same bits differently; C72_binary_partial: COSMOS recognises the big endian binary file of a sequence whose leading leaves are the fixed ones. How COSMOS reads bits and ID values is specified in Spec/CosmosData (not part of the repository). Missing: little endian items, fixed reals and strings, arrays of sequences."
  },
  {
   "property": "C73",
   "status": "proved",
   "theorems": [
    "Apg.C73_same_types"
   ],
   "note": "C73_same_types: for any two commands, any folders and prior contents the blocks of the header are the same text, one for each definition of the module."
  },
  {
   "property": "C74",
   "status": "partial",
   "theorems": [
    "Apg.C74_cosmos",
    "Apg.C74_cfs_partial",
    "Apg.C74_binary_partial",
    "Apg.C74_full_false"
   ],
   "note": "False in full (C74_full_false): generate-c and generate-binary write headers of the same name, which differ as soon as a sequence fixes a value. C74_cosmos: generate-cosmos shares no file with the others, even for other inputs and folders. C74_cfs_partial: generate-cfs shares files with generate-c or generate-binary exactly if a module is called like another with -msg or -msgids added. C74_binary_partial: generate-c and generate-binary keep each other's files exactly if no value is fixed and no simple type is called Float or Double; the shared files are exactly the headers."
  },
  {
   "property": "C75",
   "status": "proved",
   "theorems": [
    "Apg.C75_command_line",
    "Apg.C75_understood",
    "Apg.C75_order"
   ],
   "note": "C75_command_line is an exact iff on usual words; C75_understood needs no condition on words; C75_order: any permutation of the parts. argparse itself is modelled by hand (trusted, compared with Python 3.11 by conformance/argv.py)."
  },
  {
   "property": "C76",
   "status": "proved",
   "theorems": [
    "Apg.C76_sources_kept",
    "Apg.C76_again"
   ],
   "note": "C76_sources_kept for one run from words and files; C76_again for any sequence of runs in between."
  },
  {
   "property": "C77",
   "status": "partial",
   "theorems": [
    "Apg.C77_folder_partial",
    "Apg.C77_full_false"
   ],
   "note": "False in full (C77_full_false): --output-file-name of generate-cosmos may be an absolute path. C77_folder_partial: full for the other three commands and for names without a slash; with a slash in front the file is exactly that name with .txt."
  },
  {
   "property": "C78",
   "status": "partial",
   "theorems": [
    "Apg.C78_overlay_partial",
    "Apg.C78_full_false"
   ],
   "note": "False in full (C78_full_false): the file has only the bytes of the fixed members, so a clause that leaves out the first member puts the value of the second into the place of the first. C78_overlay_partial: all fixed values are found if the only clause fixes the first leaves of the message in their order and they are numbers. Missing: fixed values in arrays of the types of stdint.h and for members whose type has a standard name with another meaning (an enumeration called Float, a REAL called Uint32-t), and several clauses, which overwrite each other (C34). Strings and BOOLEAN cannot occur, since no run with them succeeds."
  },
  {
   "property": "C79",
   "status": "proved",
   "theorems": [
    "Apg.C79_whole_modules"
   ],
   "note": "Proved for generate-c, generate-cfs and generate-binary with fuel of the module sort at least one."
  },
  {
   "property": "C80",
   "status": "proved",
   "theorems": [
    "Apg.C80_c_binary",
    "Apg.C80_c_cosmos"
   ],
   "note": "C80_c_binary: C file and binary file, for sequences with one clause (of several only the last reaches the binary file, C34). C80_c_cosmos: C file and COSMOS, for members that at most one clause reaches (see C51) and values of the kind of the member."
  },
  {
   "property": "C81",
   "status": "partial",
   "theorems": [
    "Apg.C81_generate_cfs",
    "Apg.C81_generate_binary",
    "Apg.C81_generate_cosmos",
    "Apg.C81_generate_c_partial",
    "Apg.C81_full_false"
   ],
   "note": "Proved in full for generate-cfs, generate-binary and generate-cosmos. The full statement is false for generate-c (C81_full_false): the include line of the C file disappears when a sequence without clauses is moved to the end, see C45. C81_generate_c_partial proves it for the headers, and for the C files apart from that line. Hypotheses: the larger fuel exceeds the number of modules and of definitions in each module (the fuel bounds recursions that have no bound in the code)."
  },
  {
   "property": "C82",
   "status": "partial",
   "theorems": [
    "Apg.C82_generate_binary",
    "Apg.C82_generate_cosmos",
    "Apg.C82_generate_c_partial",
    "Apg.C82_generate_cfs_partial",
    "Apg.C82_full_c_false",
    "Apg.C82_full_cfs_false"
   ],
   "note": "Proved in full for generate-binary and generate-cosmos. The full statement is false for generate-c (C82_full_c_false): a sequence without clauses that comes last removes the include line of the C file, see C45. C82_generate_c_partial proves it for the headers, and for the C files apart from that line. It is also false for generate-cfs (C82_full_cfs_false): the note on a simple type lists the modules that use it, and the line changes when a further module uses it. C82_generate_cfs_partial proves it for all headers with message ids, and for all other headers whose simple types are not used in further modules."
  },
  {
   "property": "C83",
   "status": "proved",
   "theorems": [
    "Apg.C83_success",
    "Apg.C83_headers",
    "Apg.C83_cosmos"
   ],
   "note": "Both runs must succeed. C83_success shows that taking all clauses away never makes a header run fail. For generate-cosmos that is not so: it fails without a value for an application-process-identifier (example in Props/Unfixed). The theorem on COSMOS has the usual assumptions on the printing of decimals."
  },
  {
   "property": "C84",
   "status": "proved",
   "theorems": [
    "Apg.C84_header",
    "Apg.C84_binary",
    "Apg.C84_cosmos"
   ],
   "note": "Both runs must succeed: moving a definition to another module can make a run fail (generate-binary needs the types of clauses in the same module)."
  },
  {
   "property": "C85",
   "status": "proved",
   "theorems": [
    "Apg.C85_end",
    "Apg.C85_headers",
    "Apg.C85_binary",
    "Apg.C85_cosmos",
    "Apg.C85_macros",
    "Apg.C85_sources"
   ],
   "note": "Names must be ones of the grammar before and after for the three commands that write headers. Proved for all commands and all files."
  },
  {
   "property": "C86",
   "status": "partial",
   "theorems": [
    "Apg.C86_success_partial",
    "Apg.C86_headers_partial",
    "Apg.C86_binary_partial",
    "Apg.C86_cosmos_partial",
    "Apg.C86_full_false"
   ],
   "note": "False in full (C86_full_false): with the name of a BOOLEAN the COSMOS item has no states and the field in the header is bool instead of a field of one bit. Proved for INTEGER and REAL types; the headers and binary files for names that have no fixed meaning in C (Int8-t, Float and so on), the COSMOS files for all names. Elements of arrays keep their names."
  },
  {
   "property": "C87",
   "status": "partial",
   "theorems": [
    "Apg.C87_cosmos",
    "Apg.C87_headers_partial",
    "Apg.C87_ranges_iff_partial",
    "Apg.C87_full_false"
   ],
   "note": "Proved for COSMOS files without further conditions. False in full for headers (C87_full_false): INTEGER (0..4294967296) is a bit-field of 33 bits and INTEGER (-1..4294967296) is int. Proved for the headers for types whose field has the width of the type (Width, as in C44). C87_ranges_iff_partial is exact for ranges: the field gets fewer bits exactly if an unsigned range of more than 32 bits becomes signed. Missing: unsigned ranges of more than 64 bits."
  },
  {
   "property": "C88",
   "status": "proved",
   "theorems": [
    "Apg.C88_headers",
    "Apg.C88_cosmos",
    "Apg.C88_binary"
   ],
   "note": "Proved for headers, COSMOS files and binary files. For binary files no sequence has one of the names of standard types such as Uint8-t, because the size of a value of such a type would be that of the sequence."
  },
  {
   "property": "C89",
   "status": "proved",
   "theorems": [
    "Apg.C89_end",
    "Apg.C89_headers",
    "Apg.C89_macros",
    "Apg.C89_sources",
    "Apg.C89_binary",
    "Apg.C89_cosmos"
   ],
   "note": "Proved for all commands and all files. The renamed modules have to be within the grammar; for COSMOS files the text of a clause as a Python object does not depend on the names in it."
  },
  {
   "property": "C90",
   "status": "proved",
   "theorems": [
    "Apg.C90_end",
    "Apg.C90_files",
    "Apg.C90_cosmos"
   ],
   "note": "Proved for all commands and all files, also for runs that fail or go on forever. The modules of a command with headers have to be within the grammar."
  },
  {
   "property": "C91",
   "status": "partial",
   "theorems": [
    "Apg.C91_end",
    "Apg.C91_files_partial",
    "Apg.C91_macros",
    "Apg.C91_cosmos",
    "Apg.C91_full_false"
   ],
   "note": "Proved for all commands and all files, also for runs that fail or go on forever, except that a binary file changes: it has the bytes of the same values, but in the order of the clause instead of the order of the members (C91_full_false). For COSMOS the text Python prints for a clause object must not depend on the order of its entries."
  },
  {
   "property": "C92",
   "status": "partial",
   "theorems": [
    "Apg.C92_folder_partial",
    "Apg.C92_absolute",
    "Apg.C92_slash",
    "Apg.C92_full_false"
   ],
   "note": "Proved for all inputs, also for runs that fail or go on forever, except for generate-cosmos with a file name that is a path from the root: then the folder has no effect at all (C92_absolute), and the claim fails (C92_full_false)."
  },
  {
   "property": "C93",
   "status": "proved",
   "theorems": [
    "Apg.C93_integers",
    "Apg.C93_reals",
    "Apg.C93_cosmos_result",
    "Apg.C93_cosmos"
   ],
   "note": "Both parts are proved by a map that takes every range to one chosen range of its sign and width. Lemmas/Retype shows for every function of the model that it commutes with this map; the two inputs have the same image."
  },
  {
   "property": "C94",
   "status": "proved",
   "theorems": [
    "Apg.C94_enumerations",
    "Apg.C94_headers",
    "Apg.C94_cosmos",
    "Apg.C94_binary"
   ],
   "note": "Proved in four parts. That the numbers are kept is not assumed: the relation of the inputs speaks of names and comments of the items only."
  },
  {
   "property": "C95",
   "status": "proved",
   "theorems": [
    "Apg.C95_generate_c",
    "Apg.C95_headers",
    "Apg.C95_variables",
    "Apg.C95_macros",
    "Apg.C95_binary",
    "Apg.C95_cosmos"
   ],
   "note": "Proved in six parts, one for each kind of output and one for the success of generate-c. generate-cfs, generate-binary and generate-cosmos can fail for some values, so their parts speak of runs that both succeed. For COSMOS, printing a clause itself (which Python does with an address) must not depend on values."
  },
  {
   "property": "C96",
   "status": "proved",
   "theorems": [
    "Apg.C96_stdint",
    "Apg.C96_msgids"
   ],
   "note": "Proved for modules whose headers can be read as C (Tame and Regular, see C60). The reason is the grammar of names: a type has one capital letter only, a macro at least two. stdbool.h is different, see C61."
  },
  {
   "property": "C97",
   "status": "partial",
   "theorems": [
    "Apg.C97_message_iff",
    "Apg.C97_message_texts_iff",
    "Apg.C97_printed",
    "Apg.C97_true_partial",
    "Apg.C97_index_partial",
    "Apg.C97_used_type_partial",
    "Apg.C97_full_false",
    "Apg.C97_full_false_index"
   ],
   "note": "Proved of all messages but two. The message that the type of a clause is not defined is never true (C97_used_type_partial), since such a type is refused before; the clause is on a type that is no SEQUENCE or is defined several times. The message that an index occurs several times may name a negative index that occurs once; it is true if no index is negative. Comments that the trees do not keep are not covered, nor is which of several messages comes first within the object processors."
  },
  {
   "property": "C98",
   "status": "partial",
   "theorems": [
    "Apg.C98_identified_partial",
    "Apg.C98_rounded",
    "Apg.C98_binary_partial",
    "Apg.C98_full_false"
   ],
   "note": "Data: an exact condition, for the messages C72_identified_partial covers and for REALs too. Binary files: recognised exactly if every fixed REAL can be written with the bits it has without rounding. How COSMOS compares a FLOAT item is a specification, not part of the code: the number of the bits is compared with the number in the text. Infinities, strings and little endian items are missing."
  },
  {
   "property": "C99",
   "status": "partial",
   "theorems": [
    "Apg.C99_order_iff_partial",
    "Apg.C99_full_false"
   ],
   "note": "False in full (C99_full_false): generate-binary uses one byte order for all members and ignores the marks ENDIANNESS(LITTLE), by which generate-cosmos chooses the byte order. C99_order_iff_partial is exact: the file is taken for the packet exactly if each fixed member is marked when the file is little endian and not marked when it is big endian, or has a value whose bytes are the same in both orders. Missing: REALs, BOOLEANs, other orders of members; little endian items that are not whole bytes do not occur among them."
  },
  {
   "property": "C100",
   "status": "partial",
   "theorems": [
    "Apg.C100_either_iff_partial",
    "Apg.C100_recognisable_iff_partial",
    "Apg.C100_in_range_partial",
    "Apg.C100_full_false"
   ],
   "note": "False in full (C100_full_false): a REAL of 32 bits fixed to 0.1 is accepted and no data have that value. C100_recognisable_iff_partial is exact: there are data for the packet exactly if each fixed integer fits in the bits of its item, unsigned or in two's complement, and each fixed real needs no rounding in them. C100_in_range_partial: this holds for all integers within the declared ranges. C100_either_iff_partial: the same for messages with members of either byte order, if little endian leaves with a fixed value or BOOLEAN fill whole bytes; arrays of sequences, which COSMOS files describe by one element, are covered. Missing: messages with nested arrays or arrays of BOOLEAN, members reached by several clauses, fixed or BOOLEAN leaves that are arrays or that are little endian without filling whole bytes, fixed strings."
  },
  {
   "property": "C101",
   "status": "partial",
   "theorems": [
    "Apg.C101_either_iff_partial",
    "Apg.C101_either_header_iff_partial",
    "Apg.C101_shared_iff_partial",
    "Apg.C101_header_iff_partial",
    "Apg.C101_full_false"
   ],
   "note": "False in full (C101_full_false): a message without fixed values takes all data. C101_shared_iff_partial is exact: some data are taken for both packets exactly if data exist for each and no bit must be set for one and clear for the other by fixed values (integers, enumerations, BOOLEANs and reals, where only the sign of zero is free) and by the zeros of BOOLEANs without fixed value. C101_header_iff_partial: messages whose fixed values are at the same places, as with a common header, are told apart exactly if a member is fixed to different numbers. C101_either_iff_partial and C101_either_header_iff_partial: the same for messages with members of either byte order; bit i of a little endian leaf is then at another place (bitPlace). Missing: messages with nested arrays or arrays of BOOLEAN, members reached by several clauses, fixed or BOOLEAN leaves that are arrays or that are little endian without filling whole bytes, fixed strings."
  },
  {
   "property": "C102",
   "status": "partial",
   "theorems": [
    "Apg.C102_identified_partial",
    "Apg.C102_binary_partial",
    "Apg.C102_full_false"
   ],
   "note": "Unites C72, C98 and C99. Data: an exact condition for integers, enumerations, BOOLEANs and reals in either byte order (C102_identified_partial); as in C72 the BOOLEANs without fixed value must be FALSE. Binary files: false in full (C102_full_false), as one byte order is used for all members; C102_binary_partial is exact: the file is taken for the packet exactly if each fixed member can have its value without rounding and is marked as little endian exactly if the file is, or has a value whose bytes are the same in both orders. Messages with arrays of sequences, which COSMOS files describe by one element, are covered. Missing: messages with nested arrays or arrays of BOOLEAN, members reached by several clauses, fixed or BOOLEAN leaves that are arrays or little endian and not whole bytes, fixed strings; for files BOOLEANs, other orders of the fixed members and reals fixed to zero, whose sign the model does not keep."
  },
  {
   "property": "C103",
   "status": "partial",
   "theorems": [
    "Apg.C103_other_iff_partial",
    "Apg.C103_full_false",
    "Apg.C103_any_iff_partial",
    "Apg.C103_file_iff_partial"
   ],
   "note": "False in full (C103_full_false): a message without fixed values takes the file of any other. C103_file_iff_partial is exact for all messages that C101 covers and files in either byte order, whatever the marks of the members: COSMOS takes the file for a packet exactly if that packet can be recognised at all, its fixed members and BOOLEANs end within the fixed members of the message of the file, and the bits of these in the byte order of the file are those the packet needs. C103_any_iff_partial: the same for files that are taken for the packet of their own message, by the bits that both messages need. C103_other_iff_partial: messages whose fixed members have the bits, data type and byte order of fixed members of the message of the file are taken exactly if these are fixed to the same numbers. Missing: files with reals that are rounded or zero, and messages not covered by C101 and C102."
  },
  {
   "property": "C104",
   "status": "partial",
   "theorems": [
    "Apg.C104_begins_partial",
    "Apg.C104_begins_iff_partial",
    "Apg.C104_apart_partial",
    "Apg.C104_full_false"
   ],
   "note": "False in full (C104_full_false): data for a packet with its header after another member begin with this member. Proved if the four fields are the first ones and have 3, 1, 1 and 11 bits (C104_begins_partial); exact, the data taken for the packet are those that begin with the id, if nothing else is fixed (C104_begins_iff_partial); and so packets with different ids share no data (C104_apart_partial). Missing: headers elsewhere or with other fields, and messages not covered by C101."
  },
  {
   "property": "C105",
   "status": "proved",
   "theorems": [
    "Apg.C105_joined_accepted_iff",
    "Apg.C105_part_accepted_iff",
    "Apg.C105_joined_iff",
    "Apg.C105_part_iff",
    "Apg.C105_joined_files",
    "Apg.C105_joined_cosmos"
   ],
   "note": "Exact for validation and for runs of generate-cfs, generate-c and generate-binary: C105_joined_accepted_iff, C105_joined_iff, C105_part_accepted_iff and C105_part_iff. C105_joined_files: the files are those of the two runs with the same contents. C105_joined_cosmos: generate-cosmos, for files with different module names."
  },
  {
   "property": "C106",
   "status": "proved",
   "theorems": [
    "Apg.C106_doubles",
    "Apg.C106_iff",
    "Apg.C106_read",
    "Apg.C106_run"
   ],
   "note": "C106_iff: a module has a text in the strict syntax (ASCII digits, comments up to the end of the line) exactly if it is Expressible. C106_doubles: decimals write exactly the finite and infinite doubles. C106_read and C106_run: with C52, reading such a text gives the module, and runs on files with these texts are the runs on the modules. Texts outside the strict syntax: C107."
  },
  {
   "property": "C107",
   "status": "proved",
   "theorems": [
    "Apg.C107_normal_form",
    "Apg.C107_results_iff",
    "Apg.C107_run"
   ],
   "note": "C107_normal_form for single texts, C107_run for runs of all commands, C107_results_iff for the modules the parser gives. Theorems on texts in the strict syntax therefore cover all inputs on which a command writes anything."
  }
 ]
}