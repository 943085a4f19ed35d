# Design

Target: the Rust sources in /repo (pku-minic/koopa, crates `koopa` and `libkoopa`, and the examples of `koopa`).
Nothing of it is built or run; the Lean model is written from the text of the sources.

## Layout of /verif/lean

* `Verif/Util/*`: association maps and list facts, not specific to Koopa.
* `Verif/Model/*`: the model, one definition per function of the code, each with a comment naming file and lines and the simplifications made.
* `Verif/Spec/*`: specifications written without the helpers of the model: uses, typing, lexical and phrase grammar, what a program for a text is, control edges, printed names, equality of programs up to handles, balanced Brainfuck texts and their meaning, needed instructions.
* `Verif/Lemmas/*`: helper lemmas.
* `Verif/Props/*`: the property theorems and, beside each, an `example` that meets its hypotheses.

## Modelling conventions

* `HashMap` is an association list with at most one entry per key. Where the code iterates over a `HashMap` or `HashSet` and the order can matter, the model takes the order as a parameter and theorems quantify over it; exceptions are named below.
* `&mut` arguments become returned values. Panics (`unwrap`, `expect`, `assert!`, indexing, `unreachable!`) are the outcome `none`.
* Recursion without an obvious measure has a bound (fuel). Reaching it gives `none`. It is proved that the bound is never reached in the lexer, the parser and the builder; for the raw form theorems say "from some depth on", and `Lemmas/Lib/RawFuel.lean` shows that more depth never changes a result.
* Handles are natural numbers; the id ranges of idman.rs are kept (globals below 0x40000000). Theorems about programs assume that the counter of global ids has not passed this limit; C06 shows what happens beyond it.
* Interned types are structural types in the IR model. This is justified by C07, which is proved about the pool itself.
* Strings are lists of characters. The front end casts each byte to a character, so its input is a list of characters; bytes from 128 on are Latin-1 letters to it.
* `i32` is `BitVec 32`, literals are integers in the range of `i64`.
* Stack depth and memory exhaustion are not modelled. The lexer is modelled twice: with lines only (`Front/Lexer`, used by the parser) and with whole spans (`Front/LexPos`); C62 shows that they agree.

## Trusted base

* Lean's kernel, and the standard axioms `propext`, `Classical.choice`, `Quot.sound`. No other axiom is used. The list per theorem is at the end of this file.
* That the model says what the Rust text says: file and line references are given at each definition.
* External code is assumed, not modelled: the standard library (collections, formatting, number parsing, character classes), and `key-node-list`, assumed to behave as an ordered list of distinct keys that calls the map operations given in layout.rs.

### Modelled

| Source | Model |
| --- | --- |
| koopa/src/ir/types.rs | `Types`, `TypePool`, `TypeSize` |
| koopa/src/ir/values.rs, entities.rs | `Ir`, `Program` |
| koopa/src/ir/dfg.rs | `Dfg` |
| koopa/src/ir/builder.rs | `IrBuilder`, `Program` |
| koopa/src/ir/layout.rs | `Layout` |
| koopa/src/ir/idman.rs | `Idman` |
| the mutating API as histories | `History` |
| koopa/src/front/span.rs | `Front/Span`, `Front/LexPos` |
| koopa/src/front/token.rs, lexer.rs, ast.rs, parser.rs, builder.rs, driver.rs | `Front/*` |
| koopa/src/back/generator.rs, koopa.rs, llvm.rs | `Back/Names`, `Back/Koopa`, `Back/Llvm`, `Back/Writer` |
| koopa/src/opt/pass.rs, passman.rs | `Opt/Pass` |
| libkoopa/src/driver.rs, back.rs, errors.rs | `Lib/Ffi` |
| libkoopa/src/raw/entities.rs, builder.rs, generator.rs | `Lib/Raw` |
| koopa/examples/interpreter/interpreter.rs | `Examples/Interp` |
| koopa/examples/opt/const_fold.rs, dce.rs, main.rs (the passes) | `Examples/ConstFold`, `Examples/Dce`, `Examples/Opt` |
| koopa/examples/brainfuck/main.rs | `Examples/Brainfuck` |

### Not modelled

* span.rs: colours, the wording of messages, `log_global`, the computation of the width of line numbers (a parameter) and the feature `no-front-logger`.
* The spans of syntax trees, which the parser joins from those of tokens: of them only the line is modelled. C63 covers all spans from a character to a not earlier one.
* Direct access to the maps of a program through `funcs_mut`, `bbs_mut` and the deprecated `Program::new_func` with data taken out of another program.
* In the back end: the name manager finds functions and values by their addresses, the model by their handles (see Findings).
* In the C interface: ownership and freeing of memory, invalid pointers, closing of descriptors; libkoopa/src/io.rs, utils.rs, raw/ffi.rs and raw/mod.rs, which wrap the modelled functions.
* In the interpreter: numeric addresses, the external functions of ext_funcs.rs (a parameter of the model). One deviation: overwriting an array as a whole keeps pointers to its elements valid in the model, while they dangle in the code.
* In the raw form: the tables of types and strings; order of `used_by` slices.
* Command line handling of the examples.

## Findings

Places where the code does something other than one would expect, found while modelling. Those marked with a theorem are proved about the model.

* IR: `remove_func` leaves uses of globals (`C01_violated_by_remove_func`, `C05_violated_by_remove_func`) and leaves calls of the function dangling; `remove_bb` of a block whose parameter was replaced by another instruction leaves uses (`C01_violated_by_remove_bb`, `C02_violated_by_remove_bb`); `update_value` with a closure that assigns a clone loses users (`C01_violated_by_update`, `C03_violated_by_update`).
* IR: structural comparison treats arguments of different blocks with the same index as equal, and two `alloc`s of one type; it does not return on cyclic operands (`C09_diverges_on_cycle`).
* IR: `FunctionData::set_name` and `BasicBlockData::set_name` do not check the name, unlike everything else that sets names (`C55_violated`); `Type::size` overflows for types of 2^64 bytes and more (`C56_violated`).
* Layout: removing or clearing a non-empty block keeps the recorded parents (`C10_violated_by_remove`, `C10_violated_by_clear`).
* Front end: too many arguments of a call are dropped silently (`C21_violated`); too few panic (`C21_missing_argument_panics`); zero array lengths, unknown branch targets and others panic (`C22_violated`); duplicate local names are accepted in some places (`C19_violated`); literals are truncated to 32 bits; negative array lengths wrap; uses need not be dominated by their definition; the error counter is shared by all drivers of a thread (`C23_violated`).
* Messages: the report of a lexical error panics for an invalid comment before a `\r\n` and for letters that are not ASCII (`C63_violated`); the row of dots is not ended (`C63_violated_dots`); columns from 65536 on panic in the formatting of the standard library.
* Printer: a printed name can coincide with another one (`C25_violated`); a unique given name may get a suffix (`C26_violated`).
* LLVM: a value and a block may share a name (`C29_violated`), also in programs from text (`C53_labels_violated`); a function that is called before it is printed becomes a `%` name (`C31_violated`). An entry block with parameters gives a phi node without incoming values (`C51_violated`). Uses that are not dominated are written as they are (`C53_order_violated`). A name with a character across byte 513 makes the generator panic (`C57_violated`). The text depends on the order of a hash set, that is on the run (`C58_violated`).
* Generators: names of programs written before stay in use, so that a second program with the same generator may get other names (`C60_violated`); after a write has failed in a function, the generator panics (`C60_failed_panics`). Names are remembered by address: if a program is changed between two uses of a generator, so that its tables move, the names of other objects may be written (not modelled). `dump_to_raw` and `parse_from_raw` close the descriptor of the caller (not modelled).
* C interface: a buffer of the length that the dump functions report is too small (`C32_reported_length_is_short`).
* Raw form: a builder cannot be used twice (`C35_used_builder_panics`); reading back panics for accepted programs that use a block parameter where its block does not dominate (`C34_violated`); a function definition without blocks becomes a declaration; slice lengths are truncated to 32 bits; cyclic operands make the generator recurse for ever.
* Interpreter: block arguments are assigned one after the other (`C40_violated`).
* Dead code elimination: panics when an instruction with an effect mentions a global (`C39_global_panics`, `C68_mark_exact`); the live set is never cleared, so dead code is left (`C39_leftover`); block parameters after a removed one keep their old index (`C66_violated`).
* Constant folding: panics on undefined operands, so also on the result of a division by zero (`C67_violated`), on the least number divided by -1 and, in debug builds, on overflow; panics at a parameter of the entry block (`C67_params_panic`) and at a block argument that is a global (`C67_params_stuck`, `C67_params_exact`); puts `undef` in the place of a pointer, so that the optimizer writes `load undef`, which the parser rejects (`C65_violated`).
* Brainfuck: an unclosed loop is accepted and gives a branch to a block that is not laid out (`C41_open_loop_accepted`).

## Properties

Each entry gives the statement, what is modelled, how it is proved and what the theorems say exactly.

### C01 Value use lists are exact

After any history of successful IR API calls, value u is in used_by(v) exactly when u is a live value whose instruction mentions v as an operand, for local and for global v.

Status: partial. Theorems: `C01_value_uses_exact_partial`, `C01_value_uses_remove_func_partial`, `C01_violated_by_remove_func`, `C01_violated_by_update`, `C01_violated_by_remove_bb`.

Modelled: `Program`, `DataFlowGraph` and all mutating methods, as an operation type `Op` with `Program.step`; `Reach` is the set of states reached by any finite history. Proved as one invariant (`Inv`) by induction over histories; the specification (Spec/Uses.lean) is computed only from the kinds of live values.

Exact for every history of API calls that satisfy Op.Ok (closures of update_value keep the user set, raw data has no users, removed blocks' parameters have no operands) and remove no function; with remove_func, exact for locals and without false omissions for globals. The unrestricted statement is false: three counterexamples.

### C02 Basic block use lists are exact

After any history of successful IR API calls, value u is in used_by(bb) exactly when u is a live value of the same function that branches or jumps to bb.

Status: partial. Theorems: `C02_block_uses_exact_partial`, `C02_violated_by_remove_bb`.

Block part of the invariant of C01.

Exact for every history, except that no removed block may have a parameter that was replaced by a branch or jump; counterexample for that case.

### C03 No dangling operands

In every reachable program, every operand of every live value is itself live (in the globals or in the same function), and every branch target is a live block; so queries that follow operands never panic.

Status: partial. Theorems: `C03_no_dangling_operands_partial`, `C03_violated_by_update`.

Closedness part of the invariant of C01.

For every history satisfying Op.Ok, including remove_func; counterexample without Op.Ok. Callees are not operands here: a call of a removed function stays.

### C04 Replacing a value keeps its identity

Replacing a value by a new instruction keeps its handle, keeps the set of its users, gives exactly the requested new data, and leaves the type, kind and name of every other value unchanged.

Status: proved. Theorems: `C04_replace_keeps_identity`, `C04_replace_succeeds`.

Frame theorem for the replace operation, with the old and the new state given by lookups only.

Frame theorem for every program state; success for every state reached by histories satisfying Op.Ok.

### C05 Removal is refused exactly when the value is used

Removing an existing value that nobody uses succeeds, returns its data and afterwards the value is gone and in no use list; removing a value somebody uses always panics.

Status: partial. Theorems: `C05_remove_local`, `C05_remove_global_partial`, `C05_violated_by_remove_func`.

Both directions from the invariant of C01.

Locals: every history satisfying Op.Ok. Globals: histories that also remove no function; a counterexample shows that a global used by a removed function can never be removed.

### C06 Handles are fresh and classified correctly

Any two handles ever allocated for the same kind of entity are different, and a handle reports itself as global exactly when it was allocated for a global value, as long as fewer than 2^30-1 global and fewer than 3*2^30 local handles were requested; the order in which threads take handles does not matter.

Status: proved. Theorems: `C06_ids_consecutive`, `C06_handles_fresh`, `C06_limit_needed`.

Modelled: the atomic counters with 32-bit wrap-around; an execution of any number of threads is a list of requests in some order.

All interleavings within the stated limits; the limit is shown to be needed.

### C07 Type equality is structural equality

Two types obtained through the constructors, in any order and with any other constructions in between on the same thread, compare equal exactly when they have the same structure.

Status: proved. Theorems: `C07_type_equality_structural`, `C07_constructors`.

Modelled: the thread-local pool as a heap of kinds over addresses, `Type::get` as lookup-or-insert. Invariant over construction histories, by refinement to structural types.

All construction histories on one thread.

### C08 Builders only create well-typed instructions

Every live value built through the builder methods satisfies the Koopa typing rules with respect to the types its operands have, as long as replacements keep the type of the replaced value.

Status: proved. Theorems: `C08_well_typed`, `C08_builder_checks`, `C08_needs_type_preserving_replacement`.

Typing rules as an independent inductive judgement (Spec/Typing.lean); invariant over histories.

All histories of builder calls, replacements that keep the type, and removals; the restriction on replacements is shown to be needed.

### C09 Structural value comparison is an equivalence

value_eq is reflexive, symmetric and transitive on every acyclic program and terminates there; values that compare equal have the same type and the same shape all the way down to leaves.

Status: proved. Theorems: `C09_value_eq_decides`, `C09_value_eq_equivalence`, `C09_diverges_on_cycle`.

Modelled: `data_eq` with fuel. Specification: equality of inductively defined unfoldings; all acyclic closed graphs, with fuel shown to suffice.

All acyclic closed graphs; a reachable cyclic graph on which the comparison does not return is exhibited.

### C10 Layout parent queries agree with the block lists

After any history of layout edits parent_bb(i) is b exactly when i is listed in block b, and is none when i is in no block.

Status: partial. Theorems: `C10_parent_partial`, `C10_violated_by_remove`, `C10_violated_by_clear`, `C10_violated_by_double_insert`.

Modelled: `Layout` with block lists and the shared parent map. Invariant over edit histories; each restriction has a counterexample.

For histories in which an instruction is inserted only if it is in no other block and only empty lists are dropped as a whole; counterexamples for each restriction.

### C11 Operand enumeration is complete

Enumerating the uses of an instruction yields each operand exactly as often and in the order it occurs, and enumerating block uses yields each target, for every instruction kind and any number of operands.

Status: proved. Theorems: `C11_operand_enumeration`.

The index-driven iterator is modelled literally and proved equal to the operand list of the instruction.

All instruction kinds, any number of operands.

### C12 Lexing always terminates and makes progress

For every byte stream the lexer returns after finitely many steps; every call either consumes at least one byte or reports the end of input, positions never go backwards, and after the end of input it keeps reporting it.

Status: proved. Theorems: `C12_nextToken_progress`, `C12_eof_stable`, `C12_input_ends`.

Modelled: the lexer character by character. Measure argument over the remaining input.

All texts, all numbers of calls, readers that fail. Lines only; columns are not modelled.

### C13 Integer literals are read exactly

The decimal text of any 64-bit integer lexes to exactly that integer, text outside the range is rejected, and the printed form of any 32-bit constant is read back as the same constant.

Status: proved. Theorems: `C13_literal_value`, `C13_printed_integer`, `C13_i32_constant`.

Modelled: digit accumulation, `i64::from_str`, `as i32`, `Display for i32`.

All digit strings and integers. Note that the parser truncates literals to 32 bits, so larger literals are accepted and wrapped.

### C14 Whitespace and comments do not change the token sequence

Between two tokens, any amount of whitespace, line comments and (closed) block comments can be inserted without changing the kinds of the tokens produced.

Status: proved. Theorems: `C14_blank_insertion`.

About the lexer state reached after any blank text, with blanks specified in Spec/Lexical.lean.

Any blank between any two tokens of any text.

### C15 Parsing always terminates

For every byte stream the parser reaches the end of the program or a fatal error after finitely many steps, including all error recovery paths.

Status: proved. Theorems: `C15_parseNext_returns`, `C15_parsing_ends`.

Modelled: the parser with fuel; fuel linear in the input length suffices for every input and every recovery path.

All texts, all numbers of calls, all recovery paths, readers that fail. The stack is unbounded in the model.

### C16 Parsed blocks are terminator-closed

In every syntax tree that the parser produces without reporting an error, each basic block is a sequence of non-terminators followed by exactly one branch, jump or return.

Status: proved. Theorems: `C16_blocks_closed`, `C16_recovered_blocks`.

Invariant of the parser's output.

All texts; the second theorem also covers functions with reported errors.

### C17 A program is returned exactly when no error was reported

generate_program returns a program if and only if no error was logged while lexing, parsing and building, and gives up with an error once more than 20 errors were logged.

Status: proved. Theorems: `C17_program_iff_no_error`, `C17_gives_up`.

Modelled: the driver loop with the shared error counter threaded through lexer, parser and builder.

Every text, every state of the program the ids come from. The shared error counter is an explicit input; panics of the builder are a third outcome.

### C18 Blocks are laid out in breadth-first order from the entry

The blocks of a generated function are exactly the blocks of the text reachable from the first block, each once, the first one first, and a block never precedes all of its reachable predecessors.

Status: proved. Theorems: `C18_breadth_first`, `C18_entry_block`.

Modelled: the work list of the builder with fuel shown to suffice; specification is reachability in the text (Spec/Elab.lean).

Every function of every accepted text.

### C19 Duplicate definitions are rejected

A text in which two globals, two functions, a global and a function, two blocks of one function, or two local symbols of one function share a name is rejected.

Status: partial. Theorems: `C19_duplicates_rejected_partial`, `C19_violated`.

Contrapositive: accepted texts have distinct names; from the symbol tables of the builder.

Proved for items, blocks, function parameters, and the parameters and definitions of reachable blocks among each other. Not so for block parameters named like a function parameter (counterexample) and for names in unreachable blocks (example).

### C20 Symbols resolve to a definition that can reach the use

When a text is accepted, every local symbol operand refers to the value defined under that name in the same block earlier, or in a block from which the using block can be reached, or to the function parameter of that name.

Status: proved. Theorems: `C20_symbols_resolve`.

Modelled: the search through predecessors; specification is a path relation in the text, and for parameters the exact depth-first walk.

Every symbol operand of every statement of every accepted text. If a name is a parameter of the function and of a block (C19_violated), the theorem says which of them is meant: the first met on a depth-first walk through the predecessors.

### C21 Wrong argument counts are rejected

A call, jump or branch whose number of arguments differs from the number of parameters makes the front end report an error.

Status: partial. Theorems: `C21_argument_counts_partial`, `C21_violated`, `C21_missing_argument_panics`.

The count comparison in the code compares a length with itself. What does hold is stated as `_partial`.

Too few arguments are never accepted (the front end panics); too many are accepted and dropped: counterexample to the full statement.

### C22 The front end never panics

For every byte stream generate_program returns a program or an error and does not panic.

Status: partial. Theorems: `C22_returns_partial`, `C22_reads_returns_partial`, `C22_panics_in_generator_partial`, `C22_violated`.

Witness texts, a theorem that locates every panic, and a theorem that texts whose trees are harmless (`Spec/Harmless.lean`) never panic: an invariant of the tables and the program is kept by every function of the generator, also after errors; the trees of every text are well named and their blocks end as they should (`Lemmas/Front/ParseTrees.lean`).

False: four kinds of text make the generator panic. Proved: the front end returns for every text, with or without syntax errors and failing readers, whose trees have no empty array types, jump to existing labels, give enough arguments, and use aggregates only as initialisers with elements of one type; any other error is allowed. Also, lexer, parser and driver never panic, so any panic is one of the generator on some definition. Missing: aggregates as operands, and which excluded texts do panic.

### C23 Drivers are independent

The result of generating a program from a text does not depend on other drivers created and run on the same thread in between.

Status: partial. Theorems: `C23_fresh_driver_independent_partial`, `C23_violated`.

Modelled: several drivers over one `World` of counters.

False for interleaved drivers: the shared error counter. Proved: a driver that is run right after creation depends on the past through the id counters only. That the counters change nothing but handles is C54.

### C24 Type text round trip

The printed text of every type that the language can express is read back as the same type.

Status: proved. Theorems: `C24_type_round_trip`, `C24_text_determines_type`.

Round trip through printer, lexer, parser and builder, by induction on types and the lexical grammar.

For every type in which unit occurs only as a return type and array lengths are between 1 and 2^63-1, through a declaration read by the whole front end. Other types have no text that is accepted.

### C25 Printed names are unique

In one printed function no two values, and no value and global or function, share a printed name, and no two blocks share a printed name.

Status: partial. Theorems: `C25_printed_names_unique_partial`, `C25_violated`.

Modelled: the name manager and all requests of the printer, in order. Invariant over requests.

Proved for every program the printer accepts in which no given name is `%` followed by decimal digits; without that restriction the property fails, and C25_violated is a program whose printed text gives two values the same name.

### C26 Printed names are stable and honour the chosen name

Within one function scope asking twice for the name of the same entity gives the same text; the first entity with a chosen name is printed with exactly that name, later ones with that name plus a suffix.

Status: partial. Theorems: `C26_names_stable`, `C26_chosen_names_partial`, `C26_violated`.

As C25.

Names stay the same throughout the printed text (all programs). A given name is printed as it is or with a numeric suffix; the clause that a unique given name is printed unchanged fails (C26_violated: the names %x, %x, %x_0).

### C27 Printed programs are read back unchanged

For every well-formed program the printed Koopa text is accepted by the front end without error and yields a program with the same functions, types, blocks and instructions up to handle renaming.

Status: partial. Theorems: `C27_printed_text_read_back_partial`, `C27_accepted_text_read_back_partial`, `C27_violated`.

Spec/Print.lean says which programs the text form can express and when two programs are the same up to handles and names, without the generator or the front end. The proof gives a syntax tree for every expressible program under the names the name manager hands out (Lemmas/Back/Tree), shows that the text the generator writes is the text of that tree (TreeText, TreeRun), that it lexes and parses to it (TreeLex), that the tree is well typed in the sense of C48 (TreeOk), and that the program of C47 for it is the same (SameItems, SameFun, SameProg). Accepted programs are expressible (Readable). The full claim is false: a function with a temporary name may be printed as `%0_0` (C27_violated).

Proved for every program the text form can express (Printable, PlainNames in Spec/Print.lean), and for every accepted program whose array lengths are literals and whose functions are not named by temporaries, if the ids of global values suffice: the printed text is accepted and gives the same global variables, functions, types, blocks and instructions. The full statement is false: C27_violated has an accepted program with a function named %0 whose printed text does not lex; programs built by calls may be inexpressible in other ways (forward calls, unreachable blocks; see the example).

### C28 Printing after reading is a fixpoint

For every text the front end accepts (ASCII, with in-range array lengths), the printed text is accepted again and printing the result yields the same text.

Status: partial. Theorems: `C28_print_read_print_partial`, `C28_violated`.

Built on C27. The program read from the printed text carries as names exactly the names the first run handed out (temporaries become unnamed), stands at the same places (Lemmas/Back/Place), has the same tree under these names, and both runs of the name manager proceed in lockstep: same counter, same names in use, same names handed out (Lemmas/Back/Lock, Again). Holds for every program read from the printed text, whatever the ids. False in full for functions with temporary names (C28_violated).

Proved for every accepted text (ASCII or not) with array lengths in the range of literals, no function named by a temporary, and enough ids for global values: the program is printed, the text is accepted again, and every program read from it is the same and is printed as the same text. The full statement is false: C28_violated, a function named %0 behind an unnamed global variable is printed as %0_0, which does not lex.

### C29 LLVM local names are unique

In one emitted LLVM function no two definitions, of values or labels, share a name.

Status: partial. Theorems: `C29_llvm_names_partial`, `C29_labels_partial`, `C29_violated`.

Modelled: LLVM naming on top of C25. Labels against values (`LabelsDiffer`, LlvmApart): every local name was made by the prefix rule from the name in the program, with a number at the most; temporary names of blocks and values have different numbers. So labels and values differ if the names in the program do (`LabelsApart`).

Names in the LLVM text are distinct among values and among blocks when given names are harmless for the rewriting. For accepted texts in which no block has the name of a value (also not with a number added) labels and values differ too (C29_labels_partial). C29_violated: a value and a block that share one LLVM name; C53_labels_violated: the same for a program from text.

### C30 LLVM phi nodes cover every predecessor edge

For each block parameter the emitted phi has exactly one incoming pair for each branch or jump edge into the block, naming the argument passed along that edge and the block it comes from.

Status: proved. Theorems: `C30_phi_covers_edges`, `C30_accepted`.

Modelled: phi emission; specification of edges in Spec/Edges.lean.

For every order in which the users of a block are iterated, and every program the generator prints, built by calls within the restrictions of C02 and C08 (all programs from the front end are); functions whose recorded parent blocks are right (C10).

### C31 Functions are emitted as LLVM globals

Every function is emitted under a name starting with @ and calls use the same name as the definition.

Status: partial. Theorems: `C31_calls_use_defined_name`, `C31_functions_are_globals_partial`, `C31_accepted_partial`, `C31_violated`.

Modelled: the order of name requests of the LLVM generator. For programs read from text the condition on the order of functions is derived from the elaboration of C47.

A call always uses the same name as the definition; that it is an `@` name is proved when callees are printed before their callers, which holds for all programs read from text (C31_accepted_partial), and C31_violated shows a callee printed later that gets a `%` name.

### C32 Two-call string dump protocol

Calling the dump with a null buffer reports the text length; calling again with a buffer of at least that length plus one writes the text and a terminating NUL and nothing behind it; a smaller buffer gives an error and writes nothing.

Status: proved. Theorems: `C32_dump_protocol`, `C32_two_calls`, `C32_reported_length_is_short`.

Modelled: memory as a function from addresses to bytes; the dump functions on texts.

C32_dump_protocol describes every call; C32_two_calls the size query followed by a call with one byte more; C32_reported_length_is_short shows that a buffer of exactly the reported length never suffices.

### C33 Failed parsing leaves the output handle untouched

The C parse functions write the output program handle exactly when they return success.

Status: proved. Theorems: `C33_parse_writes_iff_success`, `C33_old_handles_kept`.

Modelled: the exported functions on a memory with output pointers.

All four parse entry points; files and stdin are modelled by the bytes they deliver or a read failure.

### C34 Raw program round trip

Converting a program to the raw C representation and back yields the same functions, blocks and instructions up to renaming of handles and order of blocks.

Status: partial. Theorems: `C34_round_trip_partial`, `C34_accepted_partial`, `C34_reading_panics`, `C34_violated`.

Modelled: raw builder and generator. The specification (Spec/Raw.lean) gives equality of programs up to a renaming of handles, `SameProgram`, with orders of blocks and functions free except for the entry, and the class `Convertible`. Proof: the builder is total on convertible programs and its tables describe the program; an invariant of the generator (`GInv`) relates its partial program to the original; all steps keep it and a measure shows that it finishes. For accepted texts `Convertible` is derived from C47, C43 and a pass over the builder that tracks which values are in use.

Proved for every program with a raw form (Convertible), and for every accepted text whose block parameters are used only in blocks dominated by the parameter's block and whose lists fit into u32 lengths: building and reading back terminate without panic and give the same program up to handles, order of blocks and order of functions. The full statement is false: C34_violated has an accepted text, with a parameter used in a block it does not dominate, on which reading back panics.

### C35 Raw builders can be reused

Building a second raw program with the same builder gives the same result as with a fresh builder.

Status: partial. Theorems: `C35_used_builder_panics`, `C35_same_program_panics`, `C35_reuse_partial`.

Modelled as C34; the tables of a used builder are arbitrary.

The property does not hold: a builder that holds a value panics on every program, and building the same program twice panics while the users are filled in. Proved for builders without values whose functions and blocks are not those of the program.

### C36 Passes run in registration order on everything

Running a pass manager runs every registered pass once, in registration order, and a function pass visits every function of the program exactly once.

Status: proved. Theorems: `C36_passes_in_order`, `C36_log_is_faithful`, `C36_calls_sorted`.

Modelled: pass list and traversal of the functions with an event log; passes are arbitrary functions.

For arbitrary passes and every iteration order of the function map. Passes are instrumented to log their calls; C36_log_is_faithful shows that the instrumentation does not change the result.

### C37 Constant folding agrees with execution

Whenever constant folding replaces an instruction on two constants by a constant, executing the instruction gives that constant; and folding does not change the result of running the function.

Status: proved. Theorems: `C37_operators`, `C37_folding_preserves`, `C37_accepted`.

Modelled: folding and the interpreter. Simulation between the runs of the program before and after.

Operators against an independent meaning on integers and against the interpreter; whole programs through a simulation in the interpreter model. Nothing is said about runs that panic; the folding itself may panic (undef or global operands, overflow in debug builds).

### C38 Folding block parameters is sound

A block parameter is replaced by a constant only if every edge into the block passes that constant.

Status: proved. Theorems: `C38_only_if_all_edges`, `C38_params_preserve`, `C38_pass_accepted`.

Modelled: `eval_bb_params` and `run_on`, with the iteration orders as parameters. Simulation as in C37; that programs from text meet the conditions follows from C47 (what the text builder makes).

A value whose data differs after eval_bb_params is a parameter of a block, is now a constant, and every branch or jump to the block passes a constant alike to it (same type, kind and structurally equal elements). The second theorem says that every run of the interpreter model gives the same result before and after. Both for functions in which block parameters are block arguments, each of one block, and in which local aggregates have local elements (`Foldable`). The third theorem is about the whole pass (`run_on`: rounds of eval_const, then eval_bb_params) on any functions of any program accepted from text, one after the other; that programs from text are `Foldable` and that the pass keeps this is proved. The orders of values, blocks and users are parameters.

### C39 Dead code elimination removes only dead instructions

Dead code elimination removes no store, call, branch, jump, return and nothing whose value a remaining instruction uses, and removes every other pure instruction.

Status: partial. Theorems: `C39_exact`, `C39_rest`, `C39_preserves`, `C39_leftover`, `C39_global_panics`.

Modelled: mark and sweep, with the iteration orders as parameters. Specification of needed instructions in Spec/Dce.lean; simulation as in C37.

Koopa.C39_exact: for every accepted program and every sequence of functions the pass runs through without a panic, no instruction with an effect and nothing a remaining instruction uses goes, and every listed instruction that is not needed (transitively) by one with an effect goes. C39_rest: other functions are untouched. C39_preserves: the results of the interpreter stay the same. Missing from the full claim, and false for the code: C39_leftover is a program from text after which a pure instruction nobody mentions stays listed (the live set is never cleared between rounds), and C39_global_panics shows that the pass panics as soon as an instruction with an effect mentions a global variable.

### C40 Block arguments are passed simultaneously

Executing a jump or branch gives each parameter the value its argument had before the transfer.

Status: partial. Theorems: `C40_simultaneous_partial`, `C40_swap`, `C40_violated`.

Modelled: the sequential parameter update of the interpreter.

The code violates the statement: arguments are evaluated and assigned one after the other, so an argument that is an earlier parameter of the same block gets that parameter's new value (C40_violated: an accepted program on which the interpreter returns the wrong value). Proved for all other argument lists.

### C41 Brainfuck compiler accepts exactly balanced programs

The Brainfuck front end rejects every program with unbalanced brackets, and every block its output branches to is laid out.

Status: partial. Theorems: `C41_total`, `C41_rejected_iff_partial`, `C41_balanced_partial`, `C41_unbalanced_dangling`, `C41_open_loop_accepted`.

Modelled: the compiler; specification of balance in Spec/Brainfuck.lean.

The code violates the statement: a text with an unclosed loop is accepted and the result branches to a block that is not listed (C41_open_loop_accepted, and C41_unbalanced_dangling for every such text). Proved: no panic; the rejected texts are exactly those with a stray closing bracket; for balanced texts the result is complete.

### C42 Program layouts list every entity once

After any history of API calls, the function order lists every live function exactly once, and the global order every global allocation exactly once, in creation order.

Status: proved. Theorems: `C42_program_layouts`.

Invariant over operation histories.

All histories of API calls.

### C43 Accepted text yields well-formed programs

Every program generated from text satisfies the invariants of C01, C02, C03, C08 and C10, and every laid-out block ends in exactly one terminator.

Status: proved. Theorems: `C43_accepted_well_formed`.

Every step of the front end is an operation of `History`, so the invariants of C01 to C10 apply; blocks from C16 and C47.

Every accepted text.

### C44 The lexer accepts exactly the lexical grammar

A call of next_token returns a token if and only if the remaining text begins with blank text followed by a text of that token that is not continued, and reports an error if and only if there is no such beginning.

Status: proved. Theorems: `C44_lexer_exact`, `C44_error_exact`.

Lexical grammar in Spec/Lexical.lean, written without the lexer.

Both directions, for every remaining text of a reader that does not fail.

### C45 The parser accepts exactly the grammar

Parsing a text up to its end yields a list of syntax trees without reporting an error if and only if the text consists of tokens that form these trees according to the grammar; so a text has at most one reading.

Status: proved. Theorems: `C45_parser_exact`, `C45_grammar_unambiguous`.

Phrase grammar as an inductive relation between token lists and trees in Spec/Grammar.lean.

Both directions for every text of a reader that does not fail. Texts are lists of characters, one per byte.

### C46 Parameters are numbered in order with the given types and names

Creating a function or a block yields exactly one parameter per requested parameter; the i-th is an argument reference with index i, the requested type and the requested name; a new function contains no other value and no block.

Status: proved. Theorems: `C46_function_params`, `C46_block_params`.

Direct, for arbitrary program states.

Every program state, every parameter list.

### C47 The generated program is the one written in the text

A text that is accepted is a text of the grammar, and the returned program has exactly the global variables and functions written there, in order, with the written names, types and parameters; each function has the reachable blocks of the text with their parameters, and each block has one instruction per statement, of the written kind, whose operands are the written constants and the values the written symbols refer to.

Status: proved. Theorems: `C47_program_is_text`.

Specification in Spec/Elab.lean: a relation between a program and syntax trees that says for each written item, block, statement and operand what the program contains. Proved by induction over the items with an invariant of the builder.

Every accepted text, with the grammar of C45 and the specification in Spec/Elab.lean.

### C48 Well-typed texts are accepted

If a text consists of items that are well typed by the rules of the language (names are new and defined before they are used on some path, operands and arguments have the required types, blocks can be ordered, initialisers have the declared types), then the front end neither panics nor reports an error, and returns the program written in the text.

Status: proved. Theorems: `C48_well_typed_accepted`.

Type system of the text form in Spec/Typed.lean, over names and types only. Proved by showing that every step of the builder succeeds on well-typed trees; includes that the symbol search over the predecessors terminates and finds every symbol in scope.

For every text whose items are well typed by Spec/Typed.lean, the front end returns a program and it is the one of C47. The converse is not claimed: the front end also accepts some ill-typed texts (see C19 and C21).

### C49 Compiled Brainfuck programs do what the text means

For every Brainfuck text with balanced brackets, interpreting the program the Brainfuck compiler builds ends exactly as the text does on a machine with 65536 cells: it halts with 0 in the same outside world, stops with an error where the machine leaves the tape or input/output fails, panics where a checked addition overflows, and runs for ever if the machine does.

Status: proved. Theorems: `C49_meaning`, `C49_forever`, `C49_meaning_total`.

Specification in Spec/BfMeaning.lean: a small-step machine over positions of the text, with matching brackets defined by balance. Proof: the finished program is described command by command (Lemmas/Examples/BfCode, `Compiled`), each group of instructions is run by the interpreter (BfRun, BfSim), and interpreter and machine proceed in lockstep (`progress`), which gives both directions (`forward`, `backward`) because the machine is deterministic (BfText).

For balanced texts. The machine (Spec/BfMeaning.lean) is defined without the compiler, the program or the interpreter; C49_meaning_total shows that it leaves no balanced text without a meaning. The recursion of the interpreter is bounded by a parameter; C49_meaning holds for every sufficiently large bound, C49_forever says that no bound suffices. Stack overflow of the real interpreter is not modelled. Texts with an unclosed loop are covered by C41.

### C50 The interpreter runs programs as a stack machine for Koopa IR does

Interpreting a program gives exactly the behaviour that an independently defined small-step machine for Koopa IR gives it: the same exit value or failure in the same outside world, a panic or undefined behaviour exactly where the machine is stuck, and an endless run exactly when the machine runs for ever. The machine says for each instruction what it does to registers, memory, the stack of activations and the outside world; block arguments are assigned all at once.

Status: partial. Theorems: `C50_machine_partial`, `C50_accepted_partial`.

Specification in Spec/Machine.lean: relations for constants, operands, memory, pointers and arithmetic (on integers, naturals and bits), and a small-step machine with a stack of activations; only the types of values, objects and the outside world are shared with the interpreter model. Proof: each relation is the graph of the corresponding function of the interpreter (MachineBase, MachineStep), the machine is a function (MachineNext, MachineFun), and the recursive interpreter follows it instruction by instruction (`insts_follows`, `bb_follows` in MachineSim), by induction on the bound of the recursion; determinism gives the converse directions (MachineWhole, Props/Machine). Missing: arguments that are earlier parameters of the target, where the code deviates (C40).

Proved for every program with distinct parameters in which no branch or jump passes a parameter of its target block at a later position (C50_accepted_partial: for accepted texts only the latter is needed). Without this condition the statement is false, because the code assigns block arguments one after the other (C40_violated). All four outcomes are equivalences. The nesting of constants is bounded by a parameter that has to be large enough; stack overflow is not modelled; the main function has a body.

### C51 The LLVM text computes what the program does

The text the LLVM generator writes for a program is an LLVM module, and the module behaves as the program: whenever the program exits, the module can run and end with the same exit code in the same outside world, and whenever the program runs for ever, the module can run for ever; and the module can do nothing else. Programs are run by the machine of C50, modules by an independently defined small-step machine for the part of LLVM that is needed.

Status: partial. Theorems: `C51_llvm_runs_partial`, `C51_llvm_plain_partial`, `C51_llvm_only_partial`, `C51_violated`.

Specification in Spec/LlvmText.lean (words, syntax trees and a grammar for the needed part of LLVM) and Spec/LlvmMachine.lean (a small-step machine for it, where what LLVM leaves undefined has no step), written without the generator; Spec/LlvmProg.lean says which programs can be written in LLVM. Proof: every line the generator writes is cut into the words of the expected instruction (LlvmTrans, LlvmWords, LlvmLines), the whole text is that of a module whose items correspond to the functions and globals under an injective naming (LlvmShape, LlvmRun, with C29 for the names and C30 for the phi nodes), and each step of the Koopa machine of C50 is matched by one or two steps of the LLVM machine (LlvmSim, LlvmStep, LlvmWhole). Accepted programs meet the conditions (LlvmReady, LlvmStatic). The grammar is unambiguous (LlvmGrammar), so nothing depends on how the text is read, and no name is defined twice (LlvmUnique). Not covered: labels are looked up apart from other local names (see C29_violated), types are not checked by the machine (C53 proves them), poison and data layout are not modelled beyond `undef`. False in full: C51_violated. Nothing else (LlvmOnly): two runs of a module from any two starts stay the same up to a one-to-one relation of objects, which grows with each alloca; alloca never gives an object that was there before, so the relation stays one-to-one, also with dangling pointers. The machine does not check that definitions dominate uses: C53 says when they do.

Forward simulation for every accepted text with short arrays, names LLVM can write (ASCII, not overlong, functions with @), and entry blocks without parameters: the generated text is that of exactly one LLVM module (Spec/LlvmText.lean), in which no name is defined twice, and whenever the program exits or runs for ever (machine of C50), so can the module (Spec/LlvmMachine.lean). C51_llvm_plain_partial replaces the condition on runs by a condition on the text of the program. C51_llvm_only_partial: with memory from alloca zero and an outside world that does not look at the identity of pointers, the module can do nothing else, whatever objects alloca and the globals get: every run ends with that exit code within a bound, or every run goes on for ever. Missing: runs where LLVM is undefined (branch on undef, shift by 32 or more, failing runs) and, for the last part, memory from alloca other than zero. The full statement is false: C51_violated, an entry block with a parameter gives a phi node without incoming values.

### C52 Printing and reading, or converting to the raw form and back, does not change what a program does

The program read from the printed text of a program, and the program built back from its raw form, behave as the program: started with the corresponding function in the same outside world they end with the same result, fail in the same way, run for ever together and get stuck together; and functions keep their names.

Status: partial. Theorems: `C52_print_read_behaves_partial`, `C52_raw_behaves_partial`.

Specification in Spec/Behave.lean: two programs behave in the same way if, in every outside world that treats pointers as names, they have the same results, endless runs and stuck runs on the machine of Spec/Machine.lean. Proof: a general simulation between programs related by one-to-one relations of functions, blocks, values and objects (Lemmas/Same/Match, Step, Run, Whole), used in both directions; `SameText` (C27, C28) and `SameProgram` (C34) are such relations (Text, Raw). External functions are called by name, so the printer must keep the names of functions (KeptNames), which holds because names in accepted texts are distinct and the name manager has nothing to rename. Missing: programs for which the conversions fail.

Text form: for every accepted text with array lengths in the range of literals and no function named by a temporary, every program read from the printed text has the same functions in order, with the same names, and each of them behaves as before on the machine of C50 (same exits, failures, endless runs and stuck runs, in the same outside worlds). Raw form: the same for accepted texts in which uses are dominated and whose lists fit. The outside world must not look at the identity of pointers (Blind). Missing: the texts for which the conversions fail (C28_violated, C34_violated).

### C53 LLVM accepts the generated text

The text the LLVM generator writes is a module that obeys LLVM's rules: every operand has the type its instruction needs and types have values, calls fit the signature of the function called, jumps go to blocks that are there, every block ends with its only terminator, every phi node names each way to its block exactly once with a value of its type, control never comes back to the entry block, no name is defined twice, and definitions come before uses on every way.

Status: partial. Theorems: `C53_llvm_valid_partial`, `C53_order_violated`, `C53_labels_violated`.

Specification in Spec/LlvmValid.lean, written from the language reference without the generator: typing of constants, operands, instructions and calls (`InstOk`), phi nodes as a permutation of the ways to the block (`PhiOk`), ends of blocks, the entry block, types of values (`ModOk`), and definitions before uses on every way (`Fn.Ssa`). Proof: along the translation relation of C51 (LlvmTrans): every mentioned value has the type in the module that it has in the program (LlvmTyped, from C08), blocks and phi nodes from the recorded users and parents (LlvmBlocks, from C02 and C10), and the order of definitions and uses in both directions (LlvmSsa): the module is in SSA form exactly if the uses of the program are dominated (Spec/Ssa.lean). Function types are pointers to functions in LLVM (llvm.rs:472-482 writes the `*`), so they are types of values; that all types are ones of LLVM follows from the text (`TCtx.inst_ty`). Missing: the order where the program does not have it (`C53_order_violated`), labels that coincide with other local names because the program has the coincidence (`C53_labels_violated`, otherwise `LabelsDiffer` is proved), and the conditions of C51. Not modelled: attributes, linkage, metadata, data layout, and limits on integer widths and numbers of elements.

For accepted texts with array lengths below 2^63, ASCII names and no parameters of entry blocks, the generated text is that of exactly one module; it is well typed, its phi nodes are exactly the ways to their blocks, and no name is defined twice. Its definitions come before uses exactly if those of the program do; its labels differ from the names of values if those of the program do (C53_labels_violated otherwise). The order is false in general: the front end accepts uses that are not dominated (C53_order_violated). Missing: programs outside these conditions.

### C54 A text means one program

What program a text stands for depends on the text alone. The global counters that hand out ids, and errors or warnings counted earlier in the process, change the handles and nothing else: the globals, functions, blocks and instructions, their order, types, operands and names are the same, and so is the behaviour. This includes symbols that could mean two parameters.

Status: proved. Theorems: `C54_one_program`, `C54_one_behaviour`.

Both programs satisfy the relation of C47 with the same tree, and this relation determines the program up to handles (Lemmas/Front/OneMeaning). The only place where the text alone did not decide was a symbol that is a parameter of the function and of a block; the relation therefore contains the exact walk through the predecessors (`Meets`, `predsOf` in Spec/Elab.lean), and the proof that the builder follows it is `findLocal_meets` with the tables in Lemmas/Front/ElabFun (`Table`).

For every text and any two states of the process (id counters, numbers of earlier errors and warnings) in which it is accepted: the two programs have the same globals, functions, blocks, instructions, types, constants and operands at the same places (SameText) and the same names (SameNames). C54_one_behaviour: functions at the same place behave in the same way on the machine of C50, for array lengths in the range of literals.

### C55 Names are a sigil and something

Every name in a program (of a function, block, global or local value) begins with @ or % and has at least one more character, after every sequence of API calls and in every program read from text. A call that is given another name panics.

Status: partial. Theorems: `C55_bad_name_panics`, `C55_value_names`, `C55_all_names_partial`, `C55_text_names`, `C55_names_in_text`, `C55_violated`.

Names as in Spec/NameForm.lean (`SigilName`), not through the check of the code. The invariant `NameForm` is kept by each of the calls of Model/History.lean (Lemmas/NameForm), with a switch for functions and blocks, whose setters do not check. The front end reaches programs by these calls only (`FInv.reach`).

Every call that is given a name, except FunctionData::set_name and BasicBlockData::set_name, panics unless it has the right form. After any history the names of all values have the right form; names of functions and blocks too if the two setters are given such names; in programs from accepted texts always, and there every name is part of the text. False in full: the two setters take any text (C55_violated). Data handed over as a whole (raw) and closures of update_value must have or keep names of the right form.

### C56 The size of a type is the number of its bytes

Type::size is the number of bytes that the scalars of a value of the type fill when put one after the other, with pointers and functions taking the configured pointer size, and element i of an array begins at i times the size of an element.

Status: partial. Theorems: `C56_size_is_bytes`, `C56_element_offsets`, `C56_size_if_it_fits_partial`, `C56_checked_panics`, `C56_violated`.

Model/TypeSize.lean is `Type::size` with products on 64-bit usize, checked or wrapping; `Ty.size` is the same on natural numbers and is what the machines of C50 and C51 use. The specification (Spec/TypeSize.lean, `Fills`) adds up the bytes of the scalars.

On natural numbers the size is exactly the number of bytes that the scalars fill, for every type and pointer size, and elements of arrays are at multiples of their size. On usize the result is this number whenever it is below 2^64; with overflow checks there is a panic otherwise. False in full: without checks the product wraps, a type of 2^66 bytes has size 0 (C56_violated).

### C57 The LLVM generator writes every accepted program

For every program the front end accepts, the LLVM generator ends without a panic and writes a text; together with C51 and C53, every accepted program is compiled to a module that does what the program does.

Status: partial. Theorems: `C57_llvm_prints_partial`, `C57_ascii_partial`, `C57_compiles_partial`, `C57_violated`.

Every unwrap of the visitor (Model/Back/Llvm.lean) is `none`; Lemmas/Back/LlvmPrints.lean shows that none is met for programs from text, Lemmas/Back/LlvmCut.lean that the name manager then runs through. Which names can be cut is said in Spec/LlvmCut.lean on byte lengths, without the function that cuts.

For every accepted program whose names can be cut at byte 513 between two characters, and for every order of hash sets, the generator writes a text; in particular for every accepted ASCII text. C57_compiles_partial puts this together with C51 and C53 (under their conditions): the text is that of one module, which does exactly what the program does. False in full: a long name with a two-byte character across byte 513 makes String::truncate panic (C57_violated).

### C58 The LLVM text does not depend on the order of hash sets

The users of a block are kept in a hash set whose order differs from run to run; the LLVM text generated for a program is the same for every order, or at least the generated modules do the same.

Status: partial. Theorems: `C58_one_text_partial`, `C58_orders_agree_partial`, `C58_violated`.

The order of a hash set is a parameter of the generator (`UserOrder`: any permutation, which may depend on the block). The two orders used for the witness are that of insertion and its reverse.

If every block with parameters has at most one user, the text is the same for all orders. For accepted programs (under the conditions of C51) the modules for two orders do the same. False in full: the text of an accepted loop depends on the order of the set of users (C58_violated).

### C59 Dump functions tell whether the whole text was written

The dump functions to files, raw files and the standard output report success exactly if every byte of the text was written. If the writer fails they report an I/O error and what was written is a beginning of the text. A path that is not UTF-8 or a file that cannot be created is reported before anything is written.

Status: proved. Theorems: `C59_dump_to_file`, `C59_dump_to_raw`.

Model/Back/Writer.lean: a writer is the number of bytes it takes before it fails; every piece of text is written with an early return. Proved by induction over the pieces (`writePieces_spec`), with the text that `runPieces` gives for a writer that never fails.

For every program that the generator (Koopa or LLVM) writes, and writers that fail after any number of bytes, the code is success exactly if all bytes were written, and otherwise a proper beginning of the text was.

### C60 A generator can be used for several programs

The text that a generator writes for a program does not depend on the programs it has written before: it is the text of a new generator.

Status: partial. Theorems: `C60_reuse_partial`, `C60_idle_again`, `C60_in_function_panics`, `C60_violated`, `C60_failed_panics`.

Spec/Reuse.lean says what it means that names do not clash. Lemmas/Back/Reuse.lean: two managers that agree on everything the program asks for (`AgreeOn`, `AllAsked`) give the same pieces and agree again. Managers are followed by handles, see Not modelled.

For the Koopa generator. If no name given so far is one of the program (with or without a suffix), a used generator writes the text of a new one that counts temporary names from the same number; and it is ready again after every program. False in full: names of programs before stay in use (C60_violated), and a generator whose writer failed in a function panics (C60_failed_panics).

### C61 The LLVM text of a compiled Brainfuck text does what the text means

The example compiler and the LLVM generator together are correct: for every text with balanced brackets the generator writes the compiled program, and the written LLVM module, however it runs, ends with exit code 0 in the world in which the text halts, and runs for ever if the text does.

Status: partial. Theorems: `C61_bf_llvm_partial`.

Lemmas/Examples/BfSimple.lean gives every kind of value, block and function in a compiled program (`Simple`, an invariant of the compiler's calls); Lemmas/Examples/BfLlvm.lean derives from it that the LLVM generator runs through and that the conditions of the simulation of C51, freed from programs that come from text (`LlvmCore`), are met. Then C49 (meaning of the text and interpreter), C50 (interpreter and machine) and `LlvmCore.runs` are put together. Trusted in addition to C49 and C51: nothing.

For every balanced text: the text of the compiled program is written, is that of exactly one LLVM module without double definitions, and the module does what the text means (halting and running for ever), in every order of the users of a block; a run of the module that ends, ends as the text does unless the text fails. Missing: texts that leave the tape, crash in the outside world or overflow in a checked build; and memory from alloca other than zero for what the module cannot do.

### C62 Spans mark exactly what they are about

For every text and every number of calls of the lexer, the span of a token starts at the first and stops at the last character of its text, the span of an error at the first and last character of what is wrong, and that of the end of the file at the last position; positions count lines from 1 and columns from 1, and are ordered as the characters are. The same tokens and errors are returned as without positions.

Status: proved. Theorems: `C62_spans`, `C62_returns`, `C62_order`, `C62_located`, `C62_same_lexer`.

Model/Front/LexPos.lean models the lexer with positions; Lemmas/Front/LexErase.lean shows that without columns it is the lexer of the other claims. Spec/Position.lean says where a character is (`Here`: whole lines and the part of the current line before it), which texts are wrong (`BadText`) and which results calls may give (`Finds`). Lemmas/Front/LexPos.lean follows each function of the lexer, with the position reached after each part of the text.

Every list of results of successive calls is one that the specification `Finds` allows: tokens, errors and the end of the file with the positions of their characters, found by counting. What is wrong is one of six kinds of text (`BadText`). After a fatal error nothing is said.

### C63 Messages show the line and mark the characters

A message about a place in a file is printed, and its marks are below exactly the characters the span is about: carets below all of them in one line, or below the first and the last with the lines in between.

Status: partial. Theorems: `C63_one_line_partial`, `C63_many_lines_partial`, `C63_panics_iff_partial`, `C63_lexical_errors_partial`, `C63_violated`, `C63_violated_dots`.

Model/Front/Span.lean models print_file_info, print_single_line_info, print_multi_line_info and get_line_str, with the parts of the standard library they use (lines of a reader, string slices, padding). Spec/Message.lean draws the picture from the parts of the line. Not modelled: colours, the text of the message before the picture, the width of the line numbers (f32 logarithm, a parameter).

The full statement is false: two files whose lexical error makes the report panic, and a picture whose row of dots does not end. Proved for files of ASCII characters with lines below 32768 characters: the exact picture for spans that do not start (or, over several lines, stop) at a tab, and that a report panics exactly if the span starts or stops at the carriage return of a line end, which a lexical error does exactly if it is a slash before such a line end. The width of line numbers is any number.

### C64 The example optimizer keeps the results of programs

When the example optimizer ends without a panic on a program from text, the program it makes returns the same value and has the same effects through external functions as the original one whenever that one returns, runs on whenever that one runs on, and contains, of the folded program, exactly the instructions that are needed.

Status: proved. Theorems: `C64_same_results`, `C64_cleaned`.

Model/Examples/Opt.lean: the loop of the pass manager over the functions, for the two passes of main.rs, with the state of dead code elimination kept from function to function. `FoldPasses_spec` (Props/ParamFold.lean) shows that folding keeps all that dead code elimination relies on (`CInv`, `Foldable`, `OnlyInsts`); then `eliminates_spec` of C39 applies.

For every accepted program and all orders. The overflow mode in which the optimizer folds is the one in which the program is interpreted. The optimizer panics on some programs (C39_global_panics), and about those nothing is said; nor about original runs that end with an error.

### C65 What the optimizer leaves can be written and read back

The Koopa IR generator writes every accepted program, and every program that the example optimizer makes of an accepted one, without a panic: every instruction, operand, block, parameter and function that the listed parts mention exists. The text it writes for an optimized program is accepted again.

Status: partial. Theorems: `C65_accepted_written`, `C65_optimized_written`, `C65_violated`.

`AllPresent` (Lemmas/Back/Total.lean) says, without mention of the generator, that what the listed parts of a program mention exists; `AllPresent.written` shows that the generator then returns. Lemmas/Examples/Whole.lean: folding keeps that elements of aggregates are constants of the function and that no instruction mentions a global constant; Props/OptText.lean: what dead code elimination leaves (`Cleaned`, C39) of such a program is `AllPresent`. The witness for reading back is run through the model's parser, optimizer, generator and parser by the kernel.

Writing is proved in full. Reading back is false: when all edges pass undef for a pointer parameter, the optimizer makes load undef, which the parser rejects (C65_violated). Missing: a description of the optimized programs that are read back.

### C66 The optimizer keeps parameters numbered by position

In every program that the example optimizer makes of an accepted one, the i-th parameter of a function is function argument reference i, and the i-th parameter of a block is block argument reference i, as in every accepted program.

Status: partial. Theorems: `C66_accepted`, `C66_folded`, `C66_optimized_partial`, `C66_violated`.

`ParamsNumbered` speaks of the positions in the parameter lists and the kinds of the values there. Folding: preserved by the relations `Light` (rounds of folding) and `Mid` (replaced parameters) of C37 and C38; dead code elimination: from `Cleaned` of C39. The witness is a block whose first parameter is unused.

False for the optimizer: dead code elimination takes parameters out without renumbering the others (C66_violated). Proved: accepted programs and all results of constant folding are numbered; after both passes the parameters of functions are numbered, and those of every listed block are block argument references with growing numbers.

### C67 Constant folding ends, and panics on no accepted program

The loop of constant folding comes to an end on every function of every accepted program, after at most one round more than the function has instructions, and without a panic.

Status: partial. Theorems: `C67_fold_ends`, `C67_fold_total_partial`, `C67_violated`, `C67_params_panic`, `C67_params_exact`, `C67_params_stuck`, `C67_params_end_partial`, `C67_pass_total_partial`.

`FoldStuck` says which operations panic (`OpPanics` in terms of the integers, not of the functions of the model). `Steady`: operands of operations are values of the function (by the types: a global in an accepted program is a pointer or is not mentioned) and operations are listed; every round keeps it (`evalConst_steady`), as does the folding of parameters (`Mid.steady`), and a round takes an instruction out if it changes anything, so that the rounds are bounded by the number of instructions. `replaceAll_total`, `unlistAll_total`: the edits of a round succeed. For parameters (Props/ParamFoldEnds.lean): comparing two constants ends because the elements of an aggregate have smaller types (`dataEq_total`), and the replacements succeed one after the other (`replaceFlat_total`), as the operands put in are constants and no parameters.

False as it stands: an operation on a quotient by zero panics in the next round (C67_violated), and a parameter of the entry block makes the folding of parameters panic (C67_params_panic). Proved: the loop always ends within the stated number of rounds, and panics exactly if it comes to an operation on an undefined operand or to one that overflows in the stated way (C67_fold_ends, both directions); without overflow checks, undefined constants and divisions there is no panic. The theorems hold at every function of the pass, whatever functions have been folded before. The folding of parameters panics in no order of blocks and users exactly if every block with parameters is jumped to and no argument for a block is a global (C67_params_exact, both directions); it panics in every order if nothing passes a value of the function for some parameter (C67_params_stuck). The whole pass on a function ends under both conditions (C67_pass_total_partial).

### C68 Dead code elimination marks and sweeps without a panic

On every function of every accepted program the marking phase of dead code elimination comes to an end and does not panic, and neither does the sweeping phase after it, whatever functions the pass has dealt with before.

Status: partial. Theorems: `C68_mark_exact`, `C68_sweep_ends`, `C68_mark_ends_partial`, `C68_mark_sweep_partial`, `C68_round_partial`, `C68_violated`.

The panic is described with `Needed` of C39 (instructions with effects and what they need) and `GlobalVal`. The number of entries of the work list and of unmarked values together goes down with every step (`visit_run`), so that the loop ends; a panic is at a needed instruction (`markLoop_none`), and a loop that ends has looked at all operands of all it has marked (`markLoop_run`). The state left by other functions holds only values of those (`eliminates_live`), which this function does not mention. Sweeping (Props/DceSweep.lean): what is taken out is used only by what is taken out, as all instructions of a program from text are listed and elements of aggregates are constants; an instruction without effects has a value (`Accepted.computed_ty`), so that `undef` can replace it. Block parameters (Props/DceParams.lean): the removed ones are distinct and unused (`dropAllParams_total`); a branch or jump is needed and so mentions local values only, and the arguments that stay are still used by it (`updateAll_total`). Later rounds on the same function are not covered.

False as it stands: a store to a global variable makes marking panic (C68_violated). Proved: marking always ends within the stated number of steps, and panics exactly if an instruction with an effect, or one that such an instruction needs, mentions a global (C68_mark_exact, both directions); otherwise it ends (C68_mark_ends_partial). This holds at every function, after any functions the pass has dealt with before, and for every order. After marking, sweeping does not panic (C68_sweep_ends). If no needed instruction mentions a global, the whole first round on a function, with the removal of unused block parameters (opt_bb_params), does not panic (C68_round_partial). The later rounds on the same function are not covered.

## Axioms

`#print axioms` for every theorem named in MANIFEST.json (names in namespace `Koopa`). `p` is `propext`, `c` is `Classical.choice`, `q` is `Quot.sound`.

* `C01_value_uses_exact_partial`: c p q
* `C01_value_uses_remove_func_partial`: c p q
* `C01_violated_by_remove_bb`: p q
* `C01_violated_by_remove_func`: p q
* `C01_violated_by_update`: p q
* `C02_block_uses_exact_partial`: c p q
* `C02_violated_by_remove_bb`: p q
* `C03_no_dangling_operands_partial`: c p q
* `C03_violated_by_update`: p q
* `C04_replace_keeps_identity`: p q
* `C04_replace_succeeds`: c p q
* `C05_remove_global_partial`: c p q
* `C05_remove_local`: c p q
* `C05_violated_by_remove_func`: c p q
* `C06_handles_fresh`: c p q
* `C06_ids_consecutive`: p q
* `C06_limit_needed`: c p q
* `C07_constructors`: p q
* `C07_type_equality_structural`: p q
* `C08_builder_checks`: c p q
* `C08_needs_type_preserving_replacement`: p q
* `C08_well_typed`: c p q
* `C09_diverges_on_cycle`: c p q
* `C09_value_eq_decides`: c p q
* `C09_value_eq_equivalence`: c p q
* `C10_parent_partial`: p q
* `C10_violated_by_clear`: p q
* `C10_violated_by_double_insert`: p q
* `C10_violated_by_remove`: p q
* `C11_operand_enumeration`: c p q
* `C12_eof_stable`: c p q
* `C12_input_ends`: c p q
* `C12_nextToken_progress`: c p q
* `C13_i32_constant`: c p q
* `C13_literal_value`: c p q
* `C13_printed_integer`: c p q
* `C14_blank_insertion`: c p q
* `C15_parseNext_returns`: c p q
* `C15_parsing_ends`: c p q
* `C16_blocks_closed`: c p q
* `C16_recovered_blocks`: c p q
* `C17_gives_up`: c p q
* `C17_program_iff_no_error`: c p q
* `C18_breadth_first`: c p q
* `C18_entry_block`: c p q
* `C19_duplicates_rejected_partial`: c p q
* `C19_violated`: c p q
* `C20_symbols_resolve`: c p q
* `C21_argument_counts_partial`: c p q
* `C21_missing_argument_panics`: c p q
* `C21_violated`: c p q
* `C22_panics_in_generator_partial`: c p q
* `C22_reads_returns_partial`: c p q
* `C22_returns_partial`: c p q
* `C22_violated`: c p q
* `C23_fresh_driver_independent_partial`: c p q
* `C23_violated`: c p q
* `C24_text_determines_type`: c p q
* `C24_type_round_trip`: c p q
* `C25_printed_names_unique_partial`: c p q
* `C25_violated`: c p q
* `C26_chosen_names_partial`: c p q
* `C26_names_stable`: p q
* `C26_violated`: p
* `C27_accepted_text_read_back_partial`: c p q
* `C27_printed_text_read_back_partial`: c p q
* `C27_violated`: c p q
* `C28_print_read_print_partial`: c p q
* `C28_violated`: c p q
* `C29_labels_partial`: c p q
* `C29_llvm_names_partial`: c p q
* `C29_violated`: c p q
* `C30_accepted`: c p q
* `C30_phi_covers_edges`: c p q
* `C31_accepted_partial`: c p q
* `C31_calls_use_defined_name`: c p q
* `C31_functions_are_globals_partial`: c p q
* `C31_violated`: c p q
* `C32_dump_protocol`: c p q
* `C32_reported_length_is_short`: c p q
* `C32_two_calls`: c p q
* `C33_old_handles_kept`: c p q
* `C33_parse_writes_iff_success`: c p q
* `C34_accepted_partial`: c p q
* `C34_reading_panics`: c p q
* `C34_round_trip_partial`: c p q
* `C34_violated`: c p q
* `C35_reuse_partial`: p q
* `C35_same_program_panics`: p q
* `C35_used_builder_panics`: p q
* `C36_calls_sorted`: c p q
* `C36_log_is_faithful`: p
* `C36_passes_in_order`: p q
* `C37_accepted`: c p q
* `C37_folding_preserves`: c p q
* `C37_operators`: c p q
* `C38_only_if_all_edges`: c p q
* `C38_params_preserve`: c p q
* `C38_pass_accepted`: c p q
* `C39_exact`: c p q
* `C39_global_panics`: c p q
* `C39_leftover`: c p q
* `C39_preserves`: c p q
* `C39_rest`: c p q
* `C40_simultaneous_partial`: p q
* `C40_swap`: p
* `C40_violated`: c p q
* `C41_balanced_partial`: c p q
* `C41_open_loop_accepted`: c p q
* `C41_rejected_iff_partial`: c p q
* `C41_total`: c p q
* `C41_unbalanced_dangling`: c p q
* `C42_program_layouts`: c p q
* `C43_accepted_well_formed`: c p q
* `C44_error_exact`: c p q
* `C44_lexer_exact`: c p q
* `C45_grammar_unambiguous`: c p q
* `C45_parser_exact`: c p q
* `C46_block_params`: c p q
* `C46_function_params`: c p q
* `C47_program_is_text`: c p q
* `C48_well_typed_accepted`: c p q
* `C49_forever`: c p q
* `C49_meaning`: c p q
* `C49_meaning_total`: c p q
* `C50_accepted_partial`: c p q
* `C50_machine_partial`: c p q
* `C51_llvm_only_partial`: c p q
* `C51_llvm_plain_partial`: c p q
* `C51_llvm_runs_partial`: c p q
* `C51_violated`: c p q
* `C52_print_read_behaves_partial`: c p q
* `C52_raw_behaves_partial`: c p q
* `C53_labels_violated`: c p q
* `C53_llvm_valid_partial`: c p q
* `C53_order_violated`: c p q
* `C54_one_behaviour`: c p q
* `C54_one_program`: c p q
* `C55_all_names_partial`: c p q
* `C55_bad_name_panics`: p q
* `C55_names_in_text`: c p q
* `C55_text_names`: c p q
* `C55_value_names`: c p q
* `C55_violated`: p q
* `C56_checked_panics`: p q
* `C56_element_offsets`: p q
* `C56_size_if_it_fits_partial`: p q
* `C56_size_is_bytes`: p q
* `C56_violated`: p q
* `C57_ascii_partial`: c p q
* `C57_compiles_partial`: c p q
* `C57_llvm_prints_partial`: c p q
* `C57_violated`: c p q
* `C58_one_text_partial`: c p q
* `C58_orders_agree_partial`: c p q
* `C58_violated`: c p q
* `C59_dump_to_file`: c p q
* `C59_dump_to_raw`: c p q
* `C60_failed_panics`: c p q
* `C60_idle_again`: c p q
* `C60_in_function_panics`: c p q
* `C60_reuse_partial`: c p q
* `C60_violated`: c p q
* `C61_bf_llvm_partial`: c p q
* `C62_located`: c p q
* `C62_order`: c p q
* `C62_returns`: c p q
* `C62_same_lexer`: c p q
* `C62_spans`: c p q
* `C63_lexical_errors_partial`: c p q
* `C63_many_lines_partial`: c p q
* `C63_one_line_partial`: c p q
* `C63_panics_iff_partial`: c p q
* `C63_violated`: c p q
* `C63_violated_dots`: c p q
* `C64_cleaned`: c p q
* `C64_same_results`: c p q
* `C65_accepted_written`: c p q
* `C65_optimized_written`: c p q
* `C65_violated`: c p q
* `C66_accepted`: c p q
* `C66_folded`: c p q
* `C66_optimized_partial`: c p q
* `C66_violated`: c p q
* `C67_fold_ends`: c p q
* `C67_fold_total_partial`: c p q
* `C67_params_end_partial`: c p q
* `C67_params_exact`: c p q
* `C67_params_panic`: c p q
* `C67_params_stuck`: c p q
* `C67_pass_total_partial`: c p q
* `C67_violated`: c p q
* `C68_mark_ends_partial`: c p q
* `C68_mark_exact`: c p q
* `C68_mark_sweep_partial`: c p q
* `C68_round_partial`: c p q
* `C68_sweep_ends`: c p q
* `C68_violated`: c p q
