# Formal model of APG (ASN.1 parser/generator) in Lean 4

Source under study: `/repo` (Python package `asn1_parser`), read as text, never run.
Properties: `properties.jsonl`. Status per property: `MANIFEST.json`.
Bug-seeding log: `seeded/LOG.jsonl`. Calibration of the model against the expected
outputs of the repository's integration tests: `conformance/`.

## Layout

* `lean/Verif/Model/*.lean`: the model, function by function. Every definition cites the file and lines it models.
* `lean/Verif/Spec/*.lean`: small independent specifications: what a number, a name, a C header, a C initialiser, a COSMOS file, a binary file *is*. They do not use the model's helpers; files are read back by readers written for this purpose.
* `lean/Verif/Lemmas/*.lean`: auxiliary lemmas.
* `lean/Verif/Props/*.lean`: the property theorems (named `Cnn_...`), each with a non-vacuity `example` beside it.

A theorem name ending in `_partial` covers only part of its property. The full statement is then kept as `Cnn_full : Prop`, and where the code violates it `Cnn_full_false` proves the negation with a concrete input that the tool accepts. `proved` in the manifest means that the property as written in `properties.jsonl` is proved.

## Modelling conventions

* A Python function becomes a total Lean function. Exceptions are values: `Except Err α`, where `Err` names the Python exception class. Messages are dropped, except in `Model/Report.lean`, which keeps the names and numbers they carry.
* `while` loops without an obvious bound take fuel; `none` (or the error `running`) means "still running". Divergence is proved as "every fuel gives `none`". Recursion on data that may be cyclic takes fuel too; the error `recursion` stands for Python's `RecursionError`.
* Python `int` is `Int`/`Nat`. Python `float` is an exact rational or an infinity (`Num`), because Python compares int and float exactly. NaN cannot be written in the grammar. `-0.0` is identified with `0.0`.
* Python dictionaries with "last assignment wins" are association lists searched from the back.
* Object identity: definitions and modules are compared by position or name. The comment at each definition says which and why this is exact. The in-place change of clause lists by the COSMOS generator is modelled by an explicit store.
* Text is `List Char`; names in the tree are `String`.
* Files: a run produces a list of directory, write and append operations plus a result; a file system is a function from path to content, content being characters (text mode) or bytes (binary mode).

## What is modelled

| Model file | Python source |
|---|---|
| `Ast` | `asn1_types/*`, `containers/*` (data only) |
| `Size` | `size.py`, `get_bit_size`, `asn1_type` classification, `posix` ranges |
| `Processor` | `validator` object processors: ranges, NULL, enumerations, POSIX names, comments |
| `Builder` | bundle building, all validation steps, resolution of types and imports, sizes of definitions, use map |
| `Sorter` | `module_sorter.py`: definition and module order |
| `Text` | number printing, `utils/string.py`, C names |
| `CMap` | `generators/generator.py`, `c_data.py`: C types, structs, enums, unions |
| `Output` | `c_printer.py`, the common part of the three header generators, whole runs |
| `Cfs` | `generators/cfs/generator.py`: message ids, macros, notes |
| `CGen` | `generators/c/generator.py`: initialisers |
| `Struct` | Python `struct.pack` for the formats used, IEEE 754 rounding included |
| `Binary` | `generators/binary/generator.py` |
| `Cosmos` | `generators/cosmos/*.py` |
| `Main` | `main.py` and comma splitting of `cli/cli_arg_parser.py`, on syntax trees |
| `Parser` | `asn1/grammar.py` as textX runs it, `asn1/parser.py` |
| `Program` | reading of the input files and `main.py` on their texts |
| `Report` | The checks of `Processor` and `Builder` once more, with what their error messages name; the wording and the order of names from a Python set are dropped |
| `CommandLine` | `cli/cli_arg_parser.py` with argparse: from the words of the command line to a run |

## What is not modelled

* textX and Arpeggio themselves: `Model/Parser.lean` is the grammar text read with their rules (ordered choice, greedy repetition, white space skipped before literals and regular expressions outside `noskipws` rules). Left out are the word-boundary tests after numbers, which the next literal of the grammar makes redundant, CPython's limit on the digits of an integer, the recursion limit, and the position in error messages. When several checks would fail, which error is raised first may differ. `parse_from_text` without `is_multimodule`, which no command uses, is only modelled as `checkComponents`.
* Most theorems about generators start from syntax trees that the grammar can build (`GrammarModule`, `GrammarComments` in `Spec/Grammar.lean`). C53 shows that every run on files is such a run or ends before it changes anything, so they hold for files. Comments inside `WITH COMPONENTS` and at import items are checked and dropped, as the generators never look at them.
* argparse is modelled by hand on the declared options (`Model/CommandLine.lean`, compared with Python 3.11 by `conformance/argv.py`), not its source; the property on it is restricted to words without a leading dash or with two. A file with bytes that were written in binary mode counts as unreadable. Logging, `pprint`, the wording of error messages, operating system errors, UTF-8 encoding of text files, Python's recursion limit (every stack depth is covered by fuel).
* `repr` of Python floats and `str` of a `WithComponents` object are parameters (`Printer`). Theorems that read numbers back assume `Faithful p`: the text of a float denotes the float and has the form Python prints. COSMOS theorems assume `OneLine p`: the text of an object has no newline and no quote. `IsTarget t` says that the COSMOS output name is one word and no absolute path.
* `math.log(n, 2)` is modelled by the exact test for a power of two (see `isPow2`; the float logarithm is exact for the sizes that occur).
* `cgen` is modelled by its output text, calibrated on the expected files in the repository.

## Trusted base

* The Lean 4 kernel. Axioms: only `propext`, `Classical.choice` and `Quot.sound`; the table at the end lists them per theorem. No `sorry`, no `native_decide`, no `bv_decide`, no own axioms.
* The reading of the Python source: the tie between model and code is the citation at each definition. It is calibrated by `conformance/conform.py`, which evaluates the model on the inputs of `/repo/tests/integration`: all 70 expected output files are reproduced byte for byte, and all 8 validation tests are refused with the expected class of error. `conformance/unit.py` runs the parser and validator of the model on the ASN.1 texts of `/repo/tests/unit` and compares the outcome with what each test expects. This is evidence about the tie, not part of any proof.
* The specifications in `Spec/`, as with every formal claim.

## Per property: what is modelled and how it is proved

| Id | Modelled | Proof |
|---|---|---|
| C01, C02 | `get_bit_size` | arithmetic, for all bounds |
| C03 | `asn1_type` | case analysis with exact rationals |
| C04 | `check_posix`, NULL checks, size of resolved members | case analysis; the kind of number is not checked by the code (counterexample) |
| C05, C06 | `check_enumerated` with Python negative indexing | induction over slot filling, sum argument; renumbering on zero sum is a counterexample to C06 |
| C07 | enumerations in headers and COSMOS, whole runs | read back of both files, `All2` induction over leaves |
| C08 | `_map_simple_types_to_c`, whole runs | search loop with fuel, least power of two, read back of the struct line |
| C09 | `get_size_bits` over the resolved type graph | rank induction against the relation `Size` |
| C10-C14, C16-C18 | builder and validator | list induction |
| C15 | `_check_with_component` | induction on the clause |
| C19-C21 | both sorters with fuel | invariants, progress measure, divergence invariant |
| C22-C25 | message id, whole cFS runs | bit arithmetic; digit arithmetic; counterexamples for uniqueness |
| C26 | C names | induction on characters |
| C27, C28, C40, C47, C49 | file operations of whole runs | fold over writes, injectivity of file names and guards |
| C29 | macro names of whole runs | injectivity of upper-casing on names, exact criterion |
| C30-C34 | binary generator, `struct.pack`, IEEE 754 | induction on the clause, byte arithmetic, nearest-number lemmas |
| C35-C38, C41 | COSMOS generator, whole runs | induction on fuel with the store invariant; read back of the file |
| C39 | COSMOS runs | case analysis of the run, `Adds` |
| C42-C45, C54 | header and C file of whole runs | decomposition of the file into blocks, read back of lines |
| C46 | C initialisers | recursive reader for initialisers, induction on the clause |
| C48 | comma split and the four commands | list induction |
| C44, C50 | all back ends together | combination of the read-back theorems |
| C51 | message loop of COSMOS | the lists of members that no two clauses reach stay as parsed (invariant of the traversal), and simulation of two traversals with different lists |
| C52 | parser, file reading, all commands | induction over the concrete syntax `ModuleSyntax`, which leaves the layout free; correct rounding of decimals to doubles |
| C53 | parser, file reading, all commands | inversion of the parser: every tree it builds is written in the text |
| C55 | parser, comment check | induction over the concrete syntax against a two-state function that leaves comments out |
| C56 | all object processors, bundle builder and validator | each check shown equivalent to a condition on the syntax tree; converse of the WITH COMPONENTS check by induction over the clause |
| C57 | all of generate-c, generate-cfs and generate-binary | each step shown to succeed exactly under a condition on the syntax tree; the sorters by their completeness theorems |
| C58 | all four commands | bundles of permuted inputs are permutations; every look-up, use list, sort and size agrees on them; the paths written are distinct |
| C59 | Text of the headers of a successful run, split into include lines and blocks in sorted order | Types of fields from C54, order of blocks from C09, imports from C13; the type of each field is looked up in the earlier blocks or in the header of the imported module. Counterexamples by evaluation |
| C60 | Text of the headers of a successful run, read by a separately written reader of C headers: line splicing, comments, tokens, directives, declarations | The exact text from C18 and C54 is fed to the reader piece by piece; each printed piece is shown to yield its tokens and to leave the reader in code; a parser of declarations then rebuilds members, types, dimensions, bit widths and values. Four counterexamples by evaluation |
| C61 | Declarations of all headers of a run, as read by the reader of C60 | The identifiers of each declaration are a function of its definition; lists of declarations are compared pairwise up to permutation; injectivity of C names and of lowered names |
| C62 | Unions as read by the reader of C60 | Comparison of the printed name with the type relation of C54, by cases on that relation |
| C63 | Fields as read by the reader of C60 | Minimality of widths gives when a width is zero; cases on the type relation of C54 |
| C64 | A preprocessor (guards, nested includes) running on the files of a run, on top of the reader of C60 | Invariant: every symbol defined so far stands for a header whose declarations are in the unit; induction on the rank of modules in the import graph (C13). Types are known by C59, clashes excluded by C61, limits by C63 for the part of the headers included. Conversely, from a unit that compiles: its declarations are a permutation of those of the headers, so C61 and C63 apply, and a known type is a type of the language, of stdint.h or the name of a sequence or enumeration |
| C65 | `runCosmos` on accepted modules with different names, for messages in which at most one clause reaches each application id (`ClearIds`) | `Printable` is stated on the syntax trees (`Leaves`, `Listed`, `FixedTo`, `ImportsEnd`). Forward: the entries made for the leaves and the shapes found for all members reached. Backward: induction on `Leaves` with the invariant that the lists of clauses are `Tidy` (see C37), and on `ImportsEnd` for the search. |
| C66 | the declarations read from all headers of a run, `runCosmos` on the same modules; layouts are relations (`Placed`, `SamePlaces`) outside the model | induction on the leaves of a message: a struct is never shorter than its leaves together, and as long only if there is no gap (`Gapless`, stated on the syntax trees); without gaps its leaves follow one another as the items do. |
| C67 | `runCosmos`; descriptions read by `readNotes`, which ends them where COSMOS's regular expression does | the text of a successful run is taken apart line by line; induction on the comment shows that the reader gives it back exactly if it is `Quotable`. |
| C68 | `runC`, `runCfs`, `runBinary`, `runCosmos` on a list of modules and on a longer one | the bundle grows: every module keeps its definitions and imports, and every type a member names resolves to the same definition; look-ups, sizes and headers are compared by induction. For cFS, notes get longer with more users, so the header changes. |
| C69 | the text of the C file written by `runC`; a reader with C preprocessing numbers, the preprocessor of C64, struct initialisers | the reader is proved to return the directives and the variables with their entries; C64 gives the translation unit of the include line; entries fit the fields exactly if the clause suits the members, by induction over the clause. Assumes `PythonFloats p`: the text of a finite float is a floating constant, perhaps with a sign, and infinities are `inf`. |
| C70 | two runs of each of the four commands on sources with equal modules after removal of comments | every function of the builder, sorter, generators is proved to commute with the removal of comments: results and data agree, written files agree except in the copied comments; the readers of C60/C69/C46 give the rest. |
| C71 | type word of each item (`itemFields`), C type of each leaf (`asn1Type`, `shapeOf`) | `ItemType` is a separate relation from ASN.1 types to COSMOS data types, proved to be functional; each item of a read packet has the data type of its leaf. |
| C72 | generate-cosmos and generate-binary, and a specification of how COSMOS reads ID items from data | `Identified` reads items at running bit positions from bytes; `LeafAt` places leaves by their sizes; induction over leaves and items shows that both agree; the binary file is a prefix of blocks at these positions. |
| C73 | headers of two runs on the same modules | both headers are put into parts (`HeaderParts`); sorting and field conversion do not depend on the fuel or the command, so that the blocks are equal. |
| C74 | file operations of two runs, as functions on the disk | `FileOf`, `Keeps`, `OrderFree` are stated by what runs do to every disk; the set of files of each run is computed from names and endings; equality of shared headers is decided part by part. |
| C75 | the words of the command line, argparse on the declared options | classification of a word is characterised for ordinary words and for unambiguous abbreviations; soundness of the scan by induction on the number of words, completeness part by part; values by the last occurrence. |
| C76 | command line, files, runs as functions on the disk | endings of all files of a run (C74) for modules that come from the parser (C53); induction over the runs. |
| C77 | as C76 | names of files are identifiers, which have no slash; the COSMOS name is an option and is followed literally. |
| C78 | header and binary file of one run | place of a leaf in the struct (C66) without gaps as long as the leaves are whole bytes, width of its block (C50) is the width of the leaf; the C type of the leaf reads the block as the value (C50, C51). |
| C79 | run of the three commands, failing or not | the loop over the modules stops at the first error, and the file operations of a module come after everything that can fail for it; order from C17/C18. |
| C80 | C source, binary file and COSMOS file for one model | the initialiser read back (C46), the blocks of the binary file (C31) and the items (C37) follow the same clause, by induction on the clause. |
| C81 | Whole runs on modules whose definitions are permuted; the text of a file as parts with whole lines for each definition | The bundle is permuted module by module; looking up names gives the same results because names are unique; sorting gives some permutation of the names; each definition contributes the same lines |
| C54 exact | Type, suffix and dimensions of every struct field of a header | Cases on the type of the member and on what its name is defined as; each wrong case prints a type that the specification excludes |
| C82 | Pairs of whole runs where the second input has more definitions; the text of a file as parts with whole lines for each definition | Names are unique in accepted inputs, so looking up an old name gives the same definition in both; each old definition contributes the same lines; the new ones only add lines |
| C83 | Whole runs on modules that agree after removal of their clauses; the text of a header as parts around its declarations; packets read back from the COSMOS file | Each run is compared with the modules without clauses: looking up types, ordering, struct lines and notes are the same (a member with a clause never has a simple type, so the notes agree); for COSMOS by induction over the recursion, for any contents of the lists that the generator changes |
| C84 | Two whole runs on different sources; names that mean the same in both (SameMeaning) and definitions used directly or through others (Reaches) | The type of a field is computed from the kind of the named definition, its simple type or its number of items, by uniqueness of names in the bundle; the text of a struct is a function of the types of its fields; sizes and telemetry only follow names of members, so that both runs agree by induction over the recursion |
| C85 | All functions from validation to output on the renamed modules (Spec/Rename) | Every step commutes with an injective renaming: look-ups by name, duplicate and import checks, both loops of the sorter, sizes, kinds and posix names (fixed names), telemetry with its store; the C type of a field by injectivity of the C names of capital names |
| C86 | All functions from validation to output on the modules with types in place (Spec/InPlace) | The sorter still ends, since what was ahead stays ahead; fields have equal mappings; sizes and tables of binary data relate entry by entry; an alias has no table and no C type, so no clause can give it a value; COSMOS shapes are equal |
| C87 | Widths in COSMOS files and headers of two runs (Spec/Widen) | The width of a leaf is monotone in its range, since a width for the wider range holds the narrower one; the leaves of the two messages correspond by induction; items are compared by the shapes of their types; the fields by C44 |
| C88 | Headers, packets and binary files of two runs (Spec/Append) | Headers: the fields of the longer list split, and the first part has the same types by C84's lemma; packets: the leaves of the shorter message are a sublist of those of the longer by induction on Leaves, a prefix if nothing inside changed, and entries for the same leaf have the same shape; binary: look-ups of names that were there before give the same specification |
| C89 | Two runs, on modules and on the same modules with members and items renamed (Spec/Relabel) | Each step of processing, validation, ordering, sizing and generating commutes with the renaming, by induction on types, clauses and lists of definitions; so do the results of the runs, and the files are then compared through the theorems that describe them |
| C90 | Two runs, on modules and on the same modules with their imports written in another way (Spec/Imports) | Processing, validation and the order of modules only ask which names and modules are imported: their results are equal, or alike but for the imports, by induction on the lists and the fuel. The files written are compared operation by operation. For COSMOS the search for a definition gives a set of equal definitions both times, as names of types are unique |
| C91 | Two runs, on modules and on modules whose clauses have their entries in another order (Spec/ClauseOrder) | Induction on the rearrangement (kept entry, changed inner clause, two entries swapped, one after the other). The message id is an OR of integers, which commutes also for negative ones (bit by bit). Macros and byte blocks are permuted; everything else of the collected data is equal, by induction over members, definitions and modules. For COSMOS the only entry for a member is the same in both versions |
| C92 | Whole runs from the contents of the input files, with two folders; names of files in a folder (Spec/Folder) | The collected data of a module does not depend on the folder, by induction over definitions and modules; so there is one list of names and contents for all folders. Names have no slash by C77; the last write to a name wins in both folders |
| C93 | all of Model | Spec/SameRange says when two inputs differ only in ranges of the same sign and width; Lemmas/Retype* prove, function by function, that a map on ranges which keeps kind and size changes no run |
| C94 | Model/Processor, CMap, Cosmos, Binary | Spec/MoreItems says when an input differs by further items only; Lemmas/MoreItems follows the type of each leaf and each packed member through both runs |
| C95 | Whole runs on modules whose clauses differ in values of given keys only | Spec/Altered and Spec/NewValues relate the inputs; the lemmas of C91 (clauses in another order) are stated for any relation of clauses that keeps the checks and are used for both; values and what is written for them are paired in rows |
| C96 | Declarations of all headers of a run, as read by the reader of C60, and the macros read from the message id headers | The identifiers of the headers are those of the definitions (as for C61); macro names have a second capital letter, identifiers do not |
| C97 | The checks with what their messages name (`Model/Report`), and what a reader takes from each message (`Spec/Report`) | The model with messages ends like the one without (`Erases`, by induction on every loop); each message is followed back through the checks to the modules as read, as processing changes only positions of items |
| C98 | As C72, with a specification of how COSMOS reads items of type FLOAT | `Recognised` extends `Identified` by reals; the text of a float determines the float (`Faithful`); the blocks of the file are the nearest IEEE 754 numbers, which are the fixed ones exactly if these can be represented |
| C99 | As C72, with a specification of how COSMOS reads items of either byte order | `Taken` reads each item in its own byte order; the blocks of the file are read back in the order of the file; the two numbers are equal exactly if the orders are or the bytes are a palindrome, as bytes are determined by their number |
| C100 | As C98 | From left to right by the values that bits can have; from right to left the data are built: bits for each leaf one after the other (`dataOf`), which are read back at their places (`dataOf_field`) |
| C101 | As C98; which bits a message needs is specified by all patterns of each fixed number (`Needs`) | The data are built bit by bit (`data_of_bits`): a bit is set if one of the messages needs it set. The patterns of a number are those that agree with one of them where all agree (`isNumber_cube`), as a double or single has one pattern for each number but zero (`ieee_patterns`) |
| C102 | As C98 and C99 | One relation for both kinds of numbers and both orders (`Accepts`, `IsNumber`); a number other than zero has one pattern (`isNumber_unique`), so that the number of reversed bytes is the same only for palindromes (`block_either`) |
| C103 | As C102 | The file has the numbers of its own message (`blocks_either`); the same bits, read in the same way, are one number (`isNumber_same`, `isNumber_move`). A leaf that no two clauses reach has one value (`fixed_unique`, by induction on the leaves) |
| C100, C101 for either byte order | As C102: an item with `LITTLE_ENDIAN` is read in whole bytes, last byte first | `bitPlace` gives for each bit of an item its place in the data; it is injective on a leaf and stays within it (`bitPlace_inj`, `bitPlace_range`), so that the data can again be built bit by bit (`itemBits_of_bits`, `either_data`) |
| C103, any fixed members | As C101 and C102 | Every bit of the file belongs to a fixed member, whose bits are determined by its value (`blocks_cover`, `isNumber_unique`), so the bits of the file are those that its message needs (`other_bits`) |
| C104 | `runCfs`, `runCosmos`; recognition of packets as in C98 to C101 | The id is the sum of the shifted fields (C25). Data that are taken have the fields in their bits (`accepts_has`), which are those of the sum (`bitsAt_two`, `beginsWith_iff`). What is fixed in the first two bytes only depends on them (`itemBits_two`) |
| C105 | `buildFromConfig`, `buildFromTexts`, `runCfs`, `runC`, `runBinary`, `runCosmos` | From the exact conditions of C56 and C57: a set of modules that satisfies its imports contains all definitions it uses (`within_of`), so each condition holds in the larger set exactly if in the smaller one (`bits_up`, `bits_down`, `writable_iff`, `addresses_down`, `storable_iff`). Files: C68 and C79; no simple type is used across the two (`not_newlyUsed`) |
| C106 | `readModule`, `decimalFloat`, `program` | Texts are built by recursion over the module; a double is `± k / 2 ^ 1074`, hence the decimal `± k * 5 ^ 1074` with exponent -1074 (`decimal_mag`), to which it is the nearest double. The converse is induction over the syntax (`text_module`). Reading is C52 |
| C107 | `readModule`, `program` | The parser's inverse (C53) gives the module written in loose syntax, with doubles and comments that do not look like marks (`floatLit_double`, `commentRule_unmarked`); acceptance excludes brackets in comments (C55), so the module is Expressible and C106 gives the text |

Nothing in the list is judged inexpressible.

## Where the code does not do what one would expect

Each of these is a consequence of the model; those with a theorem name are proved.

Violated properties (negations proved):

* C04: `Uint8-t ::= REAL (0.0..255.0)` and a SEQUENCE called `Uint8-t` are accepted (`C04_full_false`, `C04_full_false_sequence`).
* C06: `{a(1), b(-1)}` is renumbered silently because the numbers sum to zero (`C06_refusal_full_false`).
* C08: `INTEGER (0..2^64)` becomes `unsigned long long x : 65;` (`C08_full_false`); `INTEGER (0..0)` makes every header generator fail (`C08_zero_fails`).
* C09, C30: array elements count eight bits each whatever their type (`C09_full_false`, `C30_full_false`).
* C13: generate-cosmos accepts two modules of the same name and checks only one of them (`C13_cosmos_full_false`).
* C15: `WITH COMPONENTS` on members of built-in type and on CHOICE members is not checked (`C15_full_false_builtin`, `C15_full_false_choice`).
* C19: a module that imports one of its own definitions is emitted in a wrong order (`C19_full_false`).
* C20, C21: recursive types and import cycles are accepted and then loop forever (`C20_cycle_accepted`, `C20_cycle_diverges`, `C21_cycle_diverges`).
* C23, C24: field values too wide for their field run into their neighbour; a negative application id prints `(0x-001)` (`C23_full_false`, `C24_integers_full_false`).
* C25: two packets may have the same message id (`C25_full_false`).
* C26: reserved words of C and non-ASCII digits reach the C files (`C26_full_false`, `C26_syntax_full_false`).
* C29: the same macro can be defined twice (`C29_full_false`).
* C33: 255 is written for `INTEGER (0..200)` (`C33_full_false`). The same holds for every range of one, two, four or
  eight bytes that is not that of a type of stdint.h (`C33_ranges_iff_partial`).
* C34: the second clause of a sequence replaces the binary file of the first (`C34_full_false`).
* C36: an array of a sequence gets the items of one element (`C36_with_arrays_false`).
* C37: a BOOLEAN without fixed value becomes `APPEND_ID_ITEM .. 0` (`C37_full_false`).
* C38: arrays of strings stop generate-cosmos with a consistency error (`C38_full_false`).
* C40: generate-cosmos appends to its file on every run (`C40_full_false`).
* C42: inner dimensions of nested arrays are lost (`C42_full_false`).
* C43: `bool` fields without `stdbool.h` (`C43_full_false`).
* C44: `INTEGER (-5..5)` is 8 bits in COSMOS and binary files and `int` in C (`C44_full_false`).
* C45: the include of the own header is dropped when another definition follows (`C45_full_false`).
* C50, C51: clauses that reach the same member at several levels hide each other, and the COSMOS generator merges them into its input tree, so that one message changes the packet of the next (`C50_full_false`, `C51_full_false`).
* C54: a SEQUENCE called `Uint8-t` has the struct `Uint8_t`, its users have fields of type `uint8_t` (`C54_full_false`).
* C55: in `a BOOLEAN, -- b BOOLEAN } Bar ::= SEQUENCE {` the brace ends the comment before it begins, so `b` becomes a member and `Bar` a definition (`C55_full_false`). The refusal of bad comments of definitions and modules is an `AttributeError`.
* C57: a valid module with an INTEGER member without bounds passes validation, and no generator of C code can process it (`C57_valid_not_generated`).
* C58: with two files of the same module name generate-cosmos finds only the messages of the first file given (`C58_full_false`).
* C59: generate-c and generate-binary write `#include "b"` for an imported module `b` although the header is called `b.h`. A field of CHOICE type `Either` is printed as `Either x;`, but the header only has `union Either {...} either;`, so `Either` is not a type name in C. A field whose type is an alias of BOOLEAN is printed as `bool` without `#include <stdbool.h>` (see C43).
* C60: comments are copied into C without escaping. A member comment ending in a backslash continues on the next line, so the next member is lost; `*/` inside a definition comment ends it early; in a CHOICE block members and `//` comments are printed on one line, so the first comment hides the rest of the union and its closing brace. Names that are reserved words of C (`default`, `int`) are accepted and printed as they are.
* C61: `Power ::= ENUMERATED {off, on}` and `Heater ::= ENUMERATED {off, on}` are accepted together, and their headers declare `off` and `on` twice. Two members with the same key are accepted too.
* C62: alternatives of a CHOICE of type INTEGER, REAL, BOOLEAN, a string, an array or a simple definition have a wrong type in C (`INTEGER x;`, `char x;` for a string, `Uint8_t x;`).
* C63: a member whose type is an enumeration with one item is printed as `One x : 0;`, which C refuses for a field with a name. Lengths of zero and below are accepted and printed (`char x[-3];`).
* C64: no new defect; the defects of C59 to C63 are the ways in which a set of accepted modules gives headers that do not compile.
* C65: accepted messages that generate-cosmos cannot print with any stack: those with an array of INTEGER or REAL with bounds (`C65_arrays_of_numbers_fail`), arrays of strings, CHOICE types, simple definitions that are strings, names or arrays of numbers, and application ids that no clause fixes.
* C66: a bit-field that does not end at a byte boundary before a number of whole bytes, a string or a nested SEQUENCE makes C skip bits that COSMOS does not skip (`C66_full_false`), so ground and flight software disagree on all that follows. Neither validation nor a generator warns of it.
* C67: comments are put between double quotes without escaping, so a comment with a double quote or with a backslash at its end changes how COSMOS reads the line (`C67_full_false`).
* C68: in generate-cfs the header of a module changes when another module starts to use one of its simple types, because the note on the type lists its users (`C68_full_false`).
* C69: a sequence with two members that have WITH COMPONENTS clauses is accepted, and generate-c defines its variable twice in the C file (`C69_full_false`). By `C69_compiles_iff_partial` the C file is also not valid C if a clause fixes a member that does not exist, a whole array or string, a SEQUENCE to a value, has a group for a member that is none, or has a number of 2^63 or more in absolute value or an infinity.
* C70: whether a struct has a field in the header can depend on the comment of the field before it (`C70_full_false`: the comment ends in a backslash).
* C72: COSMOS recognises a packet with a BOOLEAN that has no fixed value only while this BOOLEAN is FALSE, since it is printed as an identifier with value 0 (`C72_full_false`).
* C74: generate-c and generate-binary in one folder overwrite each other's headers; the `.c` files of generate-c then include a header without its variables (`C74_full_false`).
* C77: `--output-file-name /x` writes `/x.txt` outside the output folder (`C77_full_false`).
* C78: the binary file of a message has no bytes for members that the clause does not fix, so the struct does not lie over it (`C78_full_false`).
* C79: a failing run leaves the files of the modules before the failing one behind; these are the importing modules, so their headers include headers that were not written.
* C81: moving a sequence without clauses to the end of a module removes the include line from the C file (cause: C45).
* C54: an array of a simple definition with a bit-field, such as `Small ::= INTEGER (0..5)`, is printed as `uint8_t x : 3[4];`.
* C82: adding a sequence without clauses at the end of a module removes the include line from the C file (cause: C45). Adding a module that uses a simple type changes the note on that type in the cFS header of another module.
* C83: taking the clause with the application-process-identifier away makes generate-cosmos fail with a ValueError, although the layout does not depend on it.
* C86: a member whose type is the name of a BOOLEAN type gets other results than a BOOLEAN member: `bool x;` instead of `uint8_t x : 1;` in headers, and no `STATE` lines in COSMOS files.
* C87: a range that gets a negative lower bound can get a narrower field: `INTEGER (0..4294967296)` is `uint64_t x : 33;`, `INTEGER (-1..4294967296)` is `int x;`, which cannot hold it.
* C91: generate-binary writes the values of a clause in the order in which the clause fixes them, not in the order of the members of the sequence (`binary/generator.py:228-297`). Two clauses that fix the same values thus give different binary files, and a file only fits the packed struct if the clause follows the order of the members.
* C92: with `--output-file-name` set to a path from the root, generate-cosmos ignores the output folder (`cosmos/generator.py:103-110`, `os.path.join`).
* C93: the range itself is nowhere checked. A fixed value outside of its own range but inside the width gives a file without a message (see C33), and COSMOS limits exist for REAL only, so two INTEGER ranges of a width cannot be told apart by any output.
* C94: appending one item can move every field after it. Three and four items need two bits, the fifth item a third bit, both in bit-fields of headers and in COSMOS.
* C61: `Truth ::= ENUMERATED {false, true}` is accepted, and a C file that includes stdbool.h before the header does not compile; so are members called `bool`. From C23 on these are reserved words.
* C97: a WITH COMPONENTS clause on a member whose type is an ENUMERATED, CHOICE or simple definition is refused with `used type 'Mode' in 'P' is not defined`, although it is defined (`C97_full_false`). This message is never true.
* C97: items at the positions 2, -1 and 2 are refused with `index '-1' is defined multiple times` (`C97_full_false_index`).
* C97: when module names are repeated both among the modules read and on the command line, or modules are missing on both sides, only the second of the two mistakes is reported.
* C98: a REAL that is stored with 32 bits and fixed to a number that needs more, such as 0.1, is printed with all its digits as identifier of the COSMOS packet. No data have this value, so COSMOS recognises no data as this packet, not even the binary file written for it (`C98_rounded`, `C98_full_false`, `C98_binary_partial`).
* C99: marks ENDIANNESS(LITTLE) have no effect on binary files. A message with marked and unmarked fixed members of several bytes is not recognised by COSMOS in any binary file that can be written for it (`C99_order_iff_partial`).
* C100: fixed values are not compared with what their items can have. A message with an INTEGER (0..255) fixed to 300, or a 32 bit REAL fixed to 0.1, gets a packet that COSMOS takes no data for (`C100_recognisable_iff_partial`, `C100_full_false`).
* C101: nothing is done to see that the packets of a file can be told apart. Messages without fixed values, or with the same ones, or with values in different bits, get packets that take the same data (`C101_shared_iff_partial`, `C101_full_false`).
* C104: cFS takes the message id from the first two bytes of a packet. The generators do not require that a sequence with a `primary` header begins with it, nor that the fields have the widths of the standard (`C104_full_false`).

Seen while modelling, not stated as properties: an array of a bit-field type prints `uint8_t x : 4[5]`; an array of IA5String keeps only one length; an array of inline INTEGER is a `NotImplementedError`; alias of a POSIX integer is an `AssertionError`; generate-binary refuses members typed by other user-defined simple types, raises `KeyError` for imported sequences and when `--endianness` is left out; includes of generate-c and generate-binary lack `.h`; a BOOLEAN fixed to an integer prints 0 in COSMOS; a nested clause on a built-in member prints an object text; the documentation lets `--asn1-modules` be a subset of the input, the code does not (C12).

## Bug seeding

`seeded/LOG.jsonl` has one line per wrong program tried: the definition edited in a scratch copy, the edit, the claim it breaks, the theorems whose proofs (directly or through lemmas) then fail, and the theorems tightened as a result. Edits that repair a violated property are included: there the `_full_false` theorem must fail. A failing proof does not by itself show that the theorem is false for the wrong program: `failed_directly` names the lemma that broke, and for some edits this is a step of a proof that mentions the code as it was (for example a lemma proved by unfolding, or an edit that changes the arguments of a function). A test ends as soon as a theorem of the broken claim is among those that fail, so the lists are not complete.

## Axioms per theorem

* `Classical.choice`, `Quot.sound`, `propext`: `C01_fields`, `C01_cosmos`, `C01_uint_width`, `C02_cosmos`, `C02_int_width`, `C03_run_refused`, `C03_inverted_range_refused`, `C03_integer_classified`, `C03_real_classified`, `C03_limits`, `C04_full_false`, `C04_full_false_sequence`, `C04_standard_int_partial`, `C04_standard_real_partial`, `C04_kinds_partial`, `C04_real_kinds_partial`, `C05_numbered`, `C05_bundle`, `C06_valid_honoured`, `C06_refusal_full_false`, `C06_refusal_partial`, `C06_accepted_iff_partial`, `C06_bundle_partial`, `C07_enumerations`, `C08_storage_partial`, `C08_exact_partial`, `C08_zero_fails`, `C08_full_false`, `C09_arrays_partial`, `C09_byte_arrays_partial`, `C09_full_false`, `C09_size_partial`, `C09_terminates`, `C09_order_independent`, `C09_additive`, `C10_accepted_no_duplicates`, `C12_modules_permutation`, `C13_imports_distinct`, `C13_imports`, `C13_cosmos_full_false`, `C14_used_types_distinct`, `C14_used_types`, `C15_full_false_builtin`, `C15_full_false_choice`, `C15_components_partial`, `C15_binary`, `C16_no_null`, `C17_unique_binding`, `C17_order_independent`, `C19_accepted_partial`, `C19_full_false`, `C20_returns_iff`, `C20_cycle_accepted`, `C21_importers_first`, `C21_returns_iff`, `C21_cycle_diverges`, `C22_msgid_layout`, `C22_bits_iff`, `C22_macros`, `C23_msgid_injective_partial`, `C23_collisions_partial`, `C23_all_iff_partial`, `C24_mid_text`, `C24_integers_full_false`, `C24_digits_iff`, `C25_full_false`, `C25_packet_numbers_partial`, `C26_identifier_iff_partial`, `C26_reserved_iff_partial`, `C26_full_false`, `C26_syntax_full_false`, `C26_injective`, `C26_identifier_partial`, `C26_not_reserved_partial`, `C27_cfs`, `C27_c`, `C27_binary`, `C28_cfs`, `C28_c`, `C28_binary`, `C29_distinct_iff_partial`, `C29_full_false`, `C29_distinct_partial`, `C30_arrays_partial`, `C30_blocks_partial`, `C30_full_false`, `C31_integers`, `C31_read_back`, `C31_reals`, `C32_byte_order`, `C33_fits_partial`, `C33_full_false`, `C33_ranges_iff_partial`, `C34_last_clause`, `C34_own_file_partial`, `C34_own_path`, `C34_full_false`, `C35_items_are_leaves`, `C36_packet_length`, `C36_flat_arrays`, `C36_with_arrays_false`, `C37_identifiers_partial`, `C37_kinds_partial`, `C37_full_false`, `C38_lookup_partial`, `C38_full_false`, `C39_failure_leaves_no_trace`, `C39_success_adds_packets`, `C40_full_false`, `C40_repeatable_partial`, `C40_cosmos_partial`, `C41_limits`, `C42_struct_fields_partial`, `C42_struct_fields_flat_partial`, `C42_full_false`, `C43_bool_partial`, `C43_stdint_partial`, `C43_full_false`, `C44_widths_partial`, `C44_exact_partial`, `C44_full_false`, `C45_include_iff_partial`, `C45_include_partial`, `C45_full_false`, `C46_initialisers`, `C46_unambiguous`, `C47_rejected_no_output`, `C48_commands`, `C49_files`, `C49_defines`, `C50_application_id_partial`, `C50_full_false`, `C51_independent_partial`, `C51_full_false`, `C52_decimals`, `C52_read`, `C52_unambiguous`, `C52_run`, `C53_grammatical`, `C54_field_types_partial`, `C54_exact_partial`, `C54_full_false`, `C55_clean`, `C55_full_false`, `C55_uncomment_partial`, `C56_exact`, `C56_exact_cosmos`, `C56_valid_accepted`, `C56_files`, `C56_refused`, `C57_generate_c`, `C57_generate_cfs`, `C57_generate_binary`, `C57_valid_not_generated`, `C57_files`, `C58_generate_c`, `C58_generate_cfs`, `C58_generate_binary`, `C58_generate_cosmos_partial`, `C58_full_false`, `C59_generate_cfs_partial`, `C59_local_partial`, `C59_include_lines`, `C59_full_false`, `C59_cfs_full_false`, `C60_reads_partial`, `C60_full_false`, `C60_full_false_choice`, `C60_full_false_close`, `C60_full_false_reserved`, `C61_stdbool_iff_partial`, `C61_stdbool_false`, `C61_no_clash_iff_partial`, `C61_full_false`, `C61_full_false_members`, `C62_alternatives_iff_partial`, `C62_full_false`, `C63_limits_iff_partial`, `C63_full_false`, `C63_full_false_empty`, `C64_compiles_partial`, `C64_full_false`, `C64_compiles_iff_partial`, `C65_printable_messages`, `C65_arrays_of_numbers_fail`, `C66_same_layout_iff_partial`, `C66_full_false`, `C67_descriptions_partial`, `C67_units`, `C67_full_false`, `C68_generate_c`, `C68_generate_binary`, `C68_generate_cfs_partial`, `C68_full_false`, `C68_generate_cosmos_partial`, `C68_full_cosmos_false`, `C69_compiles_iff_partial`, `C69_full_false`, `C70_result`, `C70_cosmos_result`, `C70_files`, `C70_headers_partial`, `C70_sources`, `C70_cosmos`, `C70_full_false`, `C71_data_types`, `C72_identified_partial`, `C72_apart`, `C72_binary_partial`, `C72_full_false`, `C73_same_types`, `C74_cosmos`, `C74_cfs_partial`, `C74_binary_partial`, `C74_full_false`, `C75_command_line`, `C75_understood`, `C75_order`, `C76_sources_kept`, `C76_again`, `C77_folder_partial`, `C77_full_false`, `C78_overlay_partial`, `C78_full_false`, `C79_whole_modules`, `C80_c_binary`, `C80_c_cosmos`, `C81_generate_cfs`, `C81_generate_binary`, `C81_generate_cosmos`, `C81_generate_c_partial`, `C81_full_false`, `C82_generate_binary`, `C82_generate_cosmos`, `C82_generate_c_partial`, `C82_generate_cfs_partial`, `C82_full_c_false`, `C82_full_cfs_false`, `C83_success`, `C83_headers`, `C83_cosmos`, `C84_header`, `C84_binary`, `C84_cosmos`, `C85_end`, `C85_headers`, `C85_binary`, `C85_cosmos`, `C85_macros`, `C85_sources`, `C86_success_partial`, `C86_headers_partial`, `C86_binary_partial`, `C86_cosmos_partial`, `C86_full_false`, `C87_cosmos`, `C87_headers_partial`, `C87_ranges_iff_partial`, `C87_full_false`, `C88_headers`, `C88_cosmos`, `C88_binary`, `C89_end`, `C89_headers`, `C89_macros`, `C89_sources`, `C89_binary`, `C89_cosmos`, `C90_end`, `C90_files`, `C90_cosmos`, `C91_end`, `C91_files_partial`, `C91_macros`, `C91_cosmos`, `C91_full_false`, `C92_folder_partial`, `C92_absolute`, `C92_slash`, `C92_full_false`, `C93_integers`, `C93_reals`, `C93_cosmos_result`, `C93_cosmos`, `C94_enumerations`, `C94_headers`, `C94_cosmos`, `C94_binary`, `C95_generate_c`, `C95_headers`, `C95_variables`, `C95_macros`, `C95_binary`, `C95_cosmos`, `C96_stdint`, `C96_msgids`, `C97_message_iff`, `C97_message_texts_iff`, `C97_printed`, `C97_true_partial`, `C97_index_partial`, `C97_used_type_partial`, `C97_full_false`, `C97_full_false_index`, `C98_identified_partial`, `C98_rounded`, `C98_binary_partial`, `C98_full_false`, `C99_order_iff_partial`, `C99_full_false`, `C100_either_iff_partial`, `C100_recognisable_iff_partial`, `C100_in_range_partial`, `C100_full_false`, `C101_either_iff_partial`, `C101_either_header_iff_partial`, `C101_shared_iff_partial`, `C101_header_iff_partial`, `C101_full_false`, `C102_identified_partial`, `C102_binary_partial`, `C102_full_false`, `C103_other_iff_partial`, `C103_full_false`, `C103_any_iff_partial`, `C103_file_iff_partial`, `C104_begins_partial`, `C104_begins_iff_partial`, `C104_apart_partial`, `C104_full_false`, `C105_joined_accepted_iff`, `C105_part_accepted_iff`, `C105_joined_iff`, `C105_part_iff`, `C105_joined_files`, `C105_joined_cosmos`, `C106_doubles`, `C106_iff`, `C106_read`, `C106_run`, `C107_normal_form`, `C107_results_iff`, `C107_run`.
* `Quot.sound`, `propext`: `C10_duplicates`, `C11_unique_modules`, `C18_use_map`, `C19_dependency_order_partial`, `C20_cycle_diverges`, `C23_full_false`, `C48_join_split`.
* `propext`: `C48_split_join`.
