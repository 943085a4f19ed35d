{
 "claims": [
  {
   "property": "C01",
   "status": "partial",
   "theorems": [
    "Koopa.C01_value_uses_exact_partial",
    "Koopa.C01_value_uses_remove_func_partial",
    "Koopa.C01_violated_by_remove_func",
    "Koopa.C01_violated_by_update",
    "Koopa.C01_violated_by_remove_bb"
   ],
   "note": "Exact for every history of API calls that satisfy Op.Ok (closures of update_value keep the user set, raw data has no users, removed blocks' parameters have no operands) and remove no function; with remove_func, exact for locals and without false omissions for globals. The unrestricted statement is false: three counterexamples."
  },
  {
   "property": "C02",
   "status": "partial",
   "theorems": [
    "Koopa.C02_block_uses_exact_partial",
    "Koopa.C02_violated_by_remove_bb"
   ],
   "note": "Exact for every history, except that no removed block may have a parameter that was replaced by a branch or jump; counterexample for that case."
  },
  {
   "property": "C03",
   "status": "partial",
   "theorems": [
    "Koopa.C03_no_dangling_operands_partial",
    "Koopa.C03_violated_by_update"
   ],
   "note": "For every history satisfying Op.Ok, including remove_func; counterexample without Op.Ok. Callees are not operands here: a call of a removed function stays."
  },
  {
   "property": "C04",
   "status": "proved",
   "theorems": [
    "Koopa.C04_replace_keeps_identity",
    "Koopa.C04_replace_succeeds"
   ],
   "note": "Frame theorem for every program state; success for every state reached by histories satisfying Op.Ok."
  },
  {
   "property": "C05",
   "status": "partial",
   "theorems": [
    "Koopa.C05_remove_local",
    "Koopa.C05_remove_global_partial",
    "Koopa.C05_violated_by_remove_func"
   ],
   "note": "Locals: every history satisfying Op.Ok. Globals: histories that also remove no function; a counterexample shows that a global used by a removed function can never be removed."
  },
  {
   "property": "C06",
   "status": "proved",
   "theorems": [
    "Koopa.C06_ids_consecutive",
    "Koopa.C06_handles_fresh",
    "Koopa.C06_limit_needed"
   ],
   "note": "All interleavings within the stated limits; the limit is shown to be needed."
  },
  {
   "property": "C07",
   "status": "proved",
   "theorems": [
    "Koopa.C07_type_equality_structural",
    "Koopa.C07_constructors"
   ],
   "note": "All construction histories on one thread."
  },
  {
   "property": "C08",
   "status": "proved",
   "theorems": [
    "Koopa.C08_well_typed",
    "Koopa.C08_builder_checks",
    "Koopa.C08_needs_type_preserving_replacement"
   ],
   "note": "All histories of builder calls, replacements that keep the type, and removals; the restriction on replacements is shown to be needed."
  },
  {
   "property": "C09",
   "status": "proved",
   "theorems": [
    "Koopa.C09_value_eq_decides",
    "Koopa.C09_value_eq_equivalence",
    "Koopa.C09_diverges_on_cycle"
   ],
   "note": "All acyclic closed graphs; a reachable cyclic graph on which the comparison does not return is exhibited."
  },
  {
   "property": "C10",
   "status": "partial",
   "theorems": [
    "Koopa.C10_parent_partial",
    "Koopa.C10_violated_by_remove",
    "Koopa.C10_violated_by_clear",
    "Koopa.C10_violated_by_double_insert"
   ],
   "note": "For histories in which an instruction is inserted only if it is in no other block and only empty lists are dropped as a whole; counterexamples for each restriction."
  },
  {
   "property": "C11",
   "status": "proved",
   "theorems": [
    "Koopa.C11_operand_enumeration"
   ],
   "note": "All instruction kinds, any number of operands."
  },
  {
   "property": "C12",
   "status": "proved",
   "theorems": [
    "Koopa.C12_nextToken_progress",
    "Koopa.C12_eof_stable",
    "Koopa.C12_input_ends"
   ],
   "note": "All texts, all numbers of calls, readers that fail. Lines only; columns are not modelled."
  },
  {
   "property": "C13",
   "status": "proved",
   "theorems": [
    "Koopa.C13_literal_value",
    "Koopa.C13_printed_integer",
    "Koopa.C13_i32_constant"
   ],
   "note": "All digit strings and integers. Note that the parser truncates literals to 32 bits, so larger literals are accepted and wrapped."
  },
  {
   "property": "C14",
   "status": "proved",
   "theorems": [
    "Koopa.C14_blank_insertion"
   ],
   "note": "Any blank between any two tokens of any text."
  },
  {
   "property": "C15",
   "status": "proved",
   "theorems": [
    "Koopa.C15_parseNext_returns",
    "Koopa.C15_parsing_ends"
   ],
   "note": "All texts, all numbers of calls, all recovery paths, readers that fail. The stack is unbounded in the model."
  },
  {
   "property": "C16",
   "status": "proved",
   "theorems": [
    "Koopa.C16_blocks_closed",
    "Koopa.C16_recovered_blocks"
   ],
   "note": "All texts; the second theorem also covers functions with reported errors."
  },
  {
   "property": "C17",
   "status": "proved",
   "theorems": [
    "Koopa.C17_program_iff_no_error",
    "Koopa.C17_gives_up"
   ],
   "note": "Every text, every state of the program the ids come from. The shared error counter is an explicit input; panics of the builder are a third outcome."
  },
  {
   "property": "C18",
   "status": "proved",
   "theorems": [
    "Koopa.C18_breadth_first",
    "Koopa.C18_entry_block"
   ],
   "note": "Every function of every accepted text."
  },
  {
   "property": "C19",
   "status": "partial",
   "theorems": [
    "Koopa.C19_duplicates_rejected_partial",
    "Koopa.C19_violated"
   ],
   "note": "Proved for items, blocks, function parameters, and the parameters and definitions of reachable blocks among each other. Not so for block parameters named like a function parameter (counterexample) and for names in unreachable blocks (example)."
  },
  {
   "property": "C20",
   "status": "proved",
   "theorems": [
    "Koopa.C20_symbols_resolve"
   ],
   "note": "Every symbol operand of every statement of every accepted text. If a name is a parameter of the function and of a block (C19_violated), the theorem says which of them is meant: the first met on a depth-first walk through the predecessors."
  },
  {
   "property": "C21",
   "status": "partial",
   "theorems": [
    "Koopa.C21_argument_counts_partial",
    "Koopa.C21_violated",
    "Koopa.C21_missing_argument_panics"
   ],
   "note": "Too few arguments are never accepted (the front end panics); too many are accepted and dropped: counterexample to the full statement."
  },
  {
   "property": "C22",
   "status": "partial",
   "theorems": [
    "Koopa.C22_returns_partial",
    "Koopa.C22_reads_returns_partial",
    "Koopa.C22_panics_in_generator_partial",
    "Koopa.C22_violated"
   ],
   "note": "False: four kinds of text make the generator panic. Proved: the front end returns for every text, with or without syntax errors and failing readers, whose trees have no empty array types, jump to existing labels, give enough arguments, and use aggregates only as initialisers with elements of one type; any other error is allowed. Also, lexer, parser and driver never panic, so any panic is one of the generator on some definition. Missing: aggregates as operands, and which excluded texts do panic."
  },
  {
   "property": "C23",
   "status": "partial",
   "theorems": [
    "Koopa.C23_fresh_driver_independent_partial",
    "Koopa.C23_violated"
   ],
   "note": "False for interleaved drivers: the shared error counter. Proved: a driver that is run right after creation depends on the past through the id counters only. That the counters change nothing but handles is C54."
  },
  {
   "property": "C24",
   "status": "proved",
   "theorems": [
    "Koopa.C24_type_round_trip",
    "Koopa.C24_text_determines_type"
   ],
   "note": "For every type in which unit occurs only as a return type and array lengths are between 1 and 2^63-1, through a declaration read by the whole front end. Other types have no text that is accepted."
  },
  {
   "property": "C25",
   "status": "partial",
   "theorems": [
    "Koopa.C25_printed_names_unique_partial",
    "Koopa.C25_violated"
   ],
   "note": "Proved for every program the printer accepts in which no given name is `%` followed by decimal digits; without that restriction the property fails, and C25_violated is a program whose printed text gives two values the same name."
  },
  {
   "property": "C26",
   "status": "partial",
   "theorems": [
    "Koopa.C26_names_stable",
    "Koopa.C26_chosen_names_partial",
    "Koopa.C26_violated"
   ],
   "note": "Names stay the same throughout the printed text (all programs). A given name is printed as it is or with a numeric suffix; the clause that a unique given name is printed unchanged fails (C26_violated: the names %x, %x, %x_0)."
  },
  {
   "property": "C27",
   "status": "partial",
   "theorems": [
    "Koopa.C27_printed_text_read_back_partial",
    "Koopa.C27_accepted_text_read_back_partial",
    "Koopa.C27_violated"
   ],
   "note": "Proved for every program the text form can express (Printable, PlainNames in Spec/Print.lean), and for every accepted program whose array lengths are literals and whose functions are not named by temporaries, if the ids of global values suffice: the printed text is accepted and gives the same global variables, functions, types, blocks and instructions. The full statement is false: C27_violated has an accepted program with a function named %0 whose printed text does not lex; programs built by calls may be inexpressible in other ways (forward calls, unreachable blocks; see the example)."
  },
  {
   "property": "C28",
   "status": "partial",
   "theorems": [
    "Koopa.C28_print_read_print_partial",
    "Koopa.C28_violated"
   ],
   "note": "Proved for every accepted text (ASCII or not) with array lengths in the range of literals, no function named by a temporary, and enough ids for global values: the program is printed, the text is accepted again, and every program read from it is the same and is printed as the same text. The full statement is false: C28_violated, a function named %0 behind an unnamed global variable is printed as %0_0, which does not lex."
  },
  {
   "property": "C29",
   "status": "partial",
   "theorems": [
    "Koopa.C29_llvm_names_partial",
    "Koopa.C29_labels_partial",
    "Koopa.C29_violated"
   ],
   "note": "Names in the LLVM text are distinct among values and among blocks when given names are harmless for the rewriting. For accepted texts in which no block has the name of a value (also not with a number added) labels and values differ too (C29_labels_partial). C29_violated: a value and a block that share one LLVM name; C53_labels_violated: the same for a program from text."
  },
  {
   "property": "C30",
   "status": "proved",
   "theorems": [
    "Koopa.C30_phi_covers_edges",
    "Koopa.C30_accepted"
   ],
   "note": "For every order in which the users of a block are iterated, and every program the generator prints, built by calls within the restrictions of C02 and C08 (all programs from the front end are); functions whose recorded parent blocks are right (C10)."
  },
  {
   "property": "C31",
   "status": "partial",
   "theorems": [
    "Koopa.C31_calls_use_defined_name",
    "Koopa.C31_functions_are_globals_partial",
    "Koopa.C31_accepted_partial",
    "Koopa.C31_violated"
   ],
   "note": "A call always uses the same name as the definition; that it is an `@` name is proved when callees are printed before their callers, which holds for all programs read from text (C31_accepted_partial), and C31_violated shows a callee printed later that gets a `%` name."
  },
  {
   "property": "C32",
   "status": "proved",
   "theorems": [
    "Koopa.C32_dump_protocol",
    "Koopa.C32_two_calls",
    "Koopa.C32_reported_length_is_short"
   ],
   "note": "C32_dump_protocol describes every call; C32_two_calls the size query followed by a call with one byte more; C32_reported_length_is_short shows that a buffer of exactly the reported length never suffices."
  },
  {
   "property": "C33",
   "status": "proved",
   "theorems": [
    "Koopa.C33_parse_writes_iff_success",
    "Koopa.C33_old_handles_kept"
   ],
   "note": "All four parse entry points; files and stdin are modelled by the bytes they deliver or a read failure."
  },
  {
   "property": "C34",
   "status": "partial",
   "theorems": [
    "Koopa.C34_round_trip_partial",
    "Koopa.C34_accepted_partial",
    "Koopa.C34_reading_panics",
    "Koopa.C34_violated"
   ],
   "note": "Proved for every program with a raw form (Convertible), and for every accepted text whose block parameters are used only in blocks dominated by the parameter's block and whose lists fit into u32 lengths: building and reading back terminate without panic and give the same program up to handles, order of blocks and order of functions. The full statement is false: C34_violated has an accepted text, with a parameter used in a block it does not dominate, on which reading back panics."
  },
  {
   "property": "C35",
   "status": "partial",
   "theorems": [
    "Koopa.C35_used_builder_panics",
    "Koopa.C35_same_program_panics",
    "Koopa.C35_reuse_partial"
   ],
   "note": "The property does not hold: a builder that holds a value panics on every program, and building the same program twice panics while the users are filled in. Proved for builders without values whose functions and blocks are not those of the program."
  },
  {
   "property": "C36",
   "status": "proved",
   "theorems": [
    "Koopa.C36_passes_in_order",
    "Koopa.C36_log_is_faithful",
    "Koopa.C36_calls_sorted"
   ],
   "note": "For arbitrary passes and every iteration order of the function map. Passes are instrumented to log their calls; C36_log_is_faithful shows that the instrumentation does not change the result."
  },
  {
   "property": "C37",
   "status": "proved",
   "theorems": [
    "Koopa.C37_operators",
    "Koopa.C37_folding_preserves",
    "Koopa.C37_accepted"
   ],
   "note": "Operators against an independent meaning on integers and against the interpreter; whole programs through a simulation in the interpreter model. Nothing is said about runs that panic; the folding itself may panic (undef or global operands, overflow in debug builds)."
  },
  {
   "property": "C38",
   "status": "proved",
   "theorems": [
    "Koopa.C38_only_if_all_edges",
    "Koopa.C38_params_preserve",
    "Koopa.C38_pass_accepted"
   ],
   "note": "A value whose data differs after eval_bb_params is a parameter of a block, is now a constant, and every branch or jump to the block passes a constant alike to it (same type, kind and structurally equal elements). The second theorem says that every run of the interpreter model gives the same result before and after. Both for functions in which block parameters are block arguments, each of one block, and in which local aggregates have local elements (`Foldable`). The third theorem is about the whole pass (`run_on`: rounds of eval_const, then eval_bb_params) on any functions of any program accepted from text, one after the other; that programs from text are `Foldable` and that the pass keeps this is proved. The orders of values, blocks and users are parameters."
  },
  {
   "property": "C39",
   "status": "partial",
   "theorems": [
    "Koopa.C39_exact",
    "Koopa.C39_rest",
    "Koopa.C39_preserves",
    "Koopa.C39_leftover",
    "Koopa.C39_global_panics"
   ],
   "note": "Koopa.C39_exact: for every accepted program and every sequence of functions the pass runs through without a panic, no instruction with an effect and nothing a remaining instruction uses goes, and every listed instruction that is not needed (transitively) by one with an effect goes. C39_rest: other functions are untouched. C39_preserves: the results of the interpreter stay the same. Missing from the full claim, and false for the code: C39_leftover is a program from text after which a pure instruction nobody mentions stays listed (the live set is never cleared between rounds), and C39_global_panics shows that the pass panics as soon as an instruction with an effect mentions a global variable."
  },
  {
   "property": "C40",
   "status": "partial",
   "theorems": [
    "Koopa.C40_simultaneous_partial",
    "Koopa.C40_swap",
    "Koopa.C40_violated"
   ],
   "note": "The code violates the statement: arguments are evaluated and assigned one after the other, so an argument that is an earlier parameter of the same block gets that parameter's new value (C40_violated: an accepted program on which the interpreter returns the wrong value). Proved for all other argument lists."
  },
  {
   "property": "C41",
   "status": "partial",
   "theorems": [
    "Koopa.C41_total",
    "Koopa.C41_rejected_iff_partial",
    "Koopa.C41_balanced_partial",
    "Koopa.C41_unbalanced_dangling",
    "Koopa.C41_open_loop_accepted"
   ],
   "note": "The code violates the statement: a text with an unclosed loop is accepted and the result branches to a block that is not listed (C41_open_loop_accepted, and C41_unbalanced_dangling for every such text). Proved: no panic; the rejected texts are exactly those with a stray closing bracket; for balanced texts the result is complete."
  },
  {
   "property": "C42",
   "status": "proved",
   "theorems": [
    "Koopa.C42_program_layouts"
   ],
   "note": "All histories of API calls."
  },
  {
   "property": "C43",
   "status": "proved",
   "theorems": [
    "Koopa.C43_accepted_well_formed"
   ],
   "note": "Every accepted text."
  },
  {
   "property": "C44",
   "status": "proved",
   "theorems": [
    "Koopa.C44_lexer_exact",
    "Koopa.C44_error_exact"
   ],
   "note": "Both directions, for every remaining text of a reader that does not fail."
  },
  {
   "property": "C45",
   "status": "proved",
   "theorems": [
    "Koopa.C45_parser_exact",
    "Koopa.C45_grammar_unambiguous"
   ],
   "note": "Both directions for every text of a reader that does not fail. Texts are lists of characters, one per byte."
  },
  {
   "property": "C46",
   "status": "proved",
   "theorems": [
    "Koopa.C46_function_params",
    "Koopa.C46_block_params"
   ],
   "note": "Every program state, every parameter list."
  },
  {
   "property": "C47",
   "status": "proved",
   "theorems": [
    "Koopa.C47_program_is_text"
   ],
   "note": "Every accepted text, with the grammar of C45 and the specification in Spec/Elab.lean."
  },
  {
   "property": "C48",
   "status": "proved",
   "theorems": [
    "Koopa.C48_well_typed_accepted"
   ],
   "note": "For every text whose items are well typed by Spec/Typed.lean, the front end returns a program and it is the one of C47. The converse is not claimed: the front end also accepts some ill-typed texts (see C19 and C21)."
  },
  {
   "property": "C49",
   "status": "proved",
   "theorems": [
    "Koopa.C49_meaning",
    "Koopa.C49_forever",
    "Koopa.C49_meaning_total"
   ],
   "note": "For balanced texts. The machine (Spec/BfMeaning.lean) is defined without the compiler, the program or the interpreter; C49_meaning_total shows that it leaves no balanced text without a meaning. The recursion of the interpreter is bounded by a parameter; C49_meaning holds for every sufficiently large bound, C49_forever says that no bound suffices. Stack overflow of the real interpreter is not modelled. Texts with an unclosed loop are covered by C41."
  },
  {
   "property": "C50",
   "status": "partial",
   "theorems": [
    "Koopa.C50_machine_partial",
    "Koopa.C50_accepted_partial"
   ],
   "note": "Proved for every program with distinct parameters in which no branch or jump passes a parameter of its target block at a later position (C50_accepted_partial: for accepted texts only the latter is needed). Without this condition the statement is false, because the code assigns block arguments one after the other (C40_violated). All four outcomes are equivalences. The nesting of constants is bounded by a parameter that has to be large enough; stack overflow is not modelled; the main function has a body."
  },
  {
   "property": "C51",
   "status": "partial",
   "theorems": [
    "Koopa.C51_llvm_runs_partial",
    "Koopa.C51_llvm_plain_partial",
    "Koopa.C51_llvm_only_partial",
    "Koopa.C51_violated"
   ],
   "note": "Forward simulation for every accepted text with short arrays, names LLVM can write (ASCII, not overlong, functions with @), and entry blocks without parameters: the generated text is that of exactly one LLVM module (Spec/LlvmText.lean), in which no name is defined twice, and whenever the program exits or runs for ever (machine of C50), so can the module (Spec/LlvmMachine.lean). C51_llvm_plain_partial replaces the condition on runs by a condition on the text of the program. C51_llvm_only_partial: with memory from alloca zero and an outside world that does not look at the identity of pointers, the module can do nothing else, whatever objects alloca and the globals get: every run ends with that exit code within a bound, or every run goes on for ever. Missing: runs where LLVM is undefined (branch on undef, shift by 32 or more, failing runs) and, for the last part, memory from alloca other than zero. The full statement is false: C51_violated, an entry block with a parameter gives a phi node without incoming values."
  },
  {
   "property": "C52",
   "status": "partial",
   "theorems": [
    "Koopa.C52_print_read_behaves_partial",
    "Koopa.C52_raw_behaves_partial"
   ],
   "note": "Text form: for every accepted text with array lengths in the range of literals and no function named by a temporary, every program read from the printed text has the same functions in order, with the same names, and each of them behaves as before on the machine of C50 (same exits, failures, endless runs and stuck runs, in the same outside worlds). Raw form: the same for accepted texts in which uses are dominated and whose lists fit. The outside world must not look at the identity of pointers (Blind). Missing: the texts for which the conversions fail (C28_violated, C34_violated)."
  },
  {
   "property": "C53",
   "status": "partial",
   "theorems": [
    "Koopa.C53_llvm_valid_partial",
    "Koopa.C53_order_violated",
    "Koopa.C53_labels_violated"
   ],
   "note": "For accepted texts with array lengths below 2^63, ASCII names and no parameters of entry blocks, the generated text is that of exactly one module; it is well typed, its phi nodes are exactly the ways to their blocks, and no name is defined twice. Its definitions come before uses exactly if those of the program do; its labels differ from the names of values if those of the program do (C53_labels_violated otherwise). The order is false in general: the front end accepts uses that are not dominated (C53_order_violated). Missing: programs outside these conditions."
  },
  {
   "property": "C54",
   "status": "proved",
   "theorems": [
    "Koopa.C54_one_program",
    "Koopa.C54_one_behaviour"
   ],
   "note": "For every text and any two states of the process (id counters, numbers of earlier errors and warnings) in which it is accepted: the two programs have the same globals, functions, blocks, instructions, types, constants and operands at the same places (SameText) and the same names (SameNames). C54_one_behaviour: functions at the same place behave in the same way on the machine of C50, for array lengths in the range of literals."
  },
  {
   "property": "C55",
   "status": "partial",
   "theorems": [
    "Koopa.C55_bad_name_panics",
    "Koopa.C55_value_names",
    "Koopa.C55_all_names_partial",
    "Koopa.C55_text_names",
    "Koopa.C55_names_in_text",
    "Koopa.C55_violated"
   ],
   "note": "Every call that is given a name, except FunctionData::set_name and BasicBlockData::set_name, panics unless it has the right form. After any history the names of all values have the right form; names of functions and blocks too if the two setters are given such names; in programs from accepted texts always, and there every name is part of the text. False in full: the two setters take any text (C55_violated). Data handed over as a whole (raw) and closures of update_value must have or keep names of the right form."
  },
  {
   "property": "C56",
   "status": "partial",
   "theorems": [
    "Koopa.C56_size_is_bytes",
    "Koopa.C56_element_offsets",
    "Koopa.C56_size_if_it_fits_partial",
    "Koopa.C56_checked_panics",
    "Koopa.C56_violated"
   ],
   "note": "On natural numbers the size is exactly the number of bytes that the scalars fill, for every type and pointer size, and elements of arrays are at multiples of their size. On usize the result is this number whenever it is below 2^64; with overflow checks there is a panic otherwise. False in full: without checks the product wraps, a type of 2^66 bytes has size 0 (C56_violated)."
  },
  {
   "property": "C57",
   "status": "partial",
   "theorems": [
    "Koopa.C57_llvm_prints_partial",
    "Koopa.C57_ascii_partial",
    "Koopa.C57_compiles_partial",
    "Koopa.C57_violated"
   ],
   "note": "For every accepted program whose names can be cut at byte 513 between two characters, and for every order of hash sets, the generator writes a text; in particular for every accepted ASCII text. C57_compiles_partial puts this together with C51 and C53 (under their conditions): the text is that of one module, which does exactly what the program does. False in full: a long name with a two-byte character across byte 513 makes String::truncate panic (C57_violated)."
  },
  {
   "property": "C58",
   "status": "partial",
   "theorems": [
    "Koopa.C58_one_text_partial",
    "Koopa.C58_orders_agree_partial",
    "Koopa.C58_violated"
   ],
   "note": "If every block with parameters has at most one user, the text is the same for all orders. For accepted programs (under the conditions of C51) the modules for two orders do the same. False in full: the text of an accepted loop depends on the order of the set of users (C58_violated)."
  },
  {
   "property": "C59",
   "status": "proved",
   "theorems": [
    "Koopa.C59_dump_to_file",
    "Koopa.C59_dump_to_raw"
   ],
   "note": "For every program that the generator (Koopa or LLVM) writes, and writers that fail after any number of bytes, the code is success exactly if all bytes were written, and otherwise a proper beginning of the text was."
  },
  {
   "property": "C60",
   "status": "partial",
   "theorems": [
    "Koopa.C60_reuse_partial",
    "Koopa.C60_idle_again",
    "Koopa.C60_in_function_panics",
    "Koopa.C60_violated",
    "Koopa.C60_failed_panics"
   ],
   "note": "For the Koopa generator. If no name given so far is one of the program (with or without a suffix), a used generator writes the text of a new one that counts temporary names from the same number; and it is ready again after every program. False in full: names of programs before stay in use (C60_violated), and a generator whose writer failed in a function panics (C60_failed_panics)."
  },
  {
   "property": "C61",
   "status": "partial",
   "theorems": [
    "Koopa.C61_bf_llvm_partial"
   ],
   "note": "For every balanced text: the text of the compiled program is written, is that of exactly one LLVM module without double definitions, and the module does what the text means (halting and running for ever), in every order of the users of a block; a run of the module that ends, ends as the text does unless the text fails. Missing: texts that leave the tape, crash in the outside world or overflow in a checked build; and memory from alloca other than zero for what the module cannot do."
  },
  {
   "property": "C62",
   "status": "proved",
   "theorems": [
    "Koopa.C62_spans",
    "Koopa.C62_returns",
    "Koopa.C62_order",
    "Koopa.C62_located",
    "Koopa.C62_same_lexer"
   ],
   "note": "Every list of results of successive calls is one that the specification `Finds` allows: tokens, errors and the end of the file with the positions of their characters, found by counting. What is wrong is one of six kinds of text (`BadText`). After a fatal error nothing is said."
  },
  {
   "property": "C63",
   "status": "partial",
   "theorems": [
    "Koopa.C63_one_line_partial",
    "Koopa.C63_many_lines_partial",
    "Koopa.C63_panics_iff_partial",
    "Koopa.C63_lexical_errors_partial",
    "Koopa.C63_violated",
    "Koopa.C63_violated_dots"
   ],
   "note": "The full statement is false: two files whose lexical error makes the report panic, and a picture whose row of dots does not end. Proved for files of ASCII characters with lines below 32768 characters: the exact picture for spans that do not start (or, over several lines, stop) at a tab, and that a report panics exactly if the span starts or stops at the carriage return of a line end, which a lexical error does exactly if it is a slash before such a line end. The width of line numbers is any number."
  },
  {
   "property": "C64",
   "status": "proved",
   "theorems": [
    "Koopa.C64_same_results",
    "Koopa.C64_cleaned"
   ],
   "note": "For every accepted program and all orders. The overflow mode in which the optimizer folds is the one in which the program is interpreted. The optimizer panics on some programs (C39_global_panics), and about those nothing is said; nor about original runs that end with an error."
  },
  {
   "property": "C65",
   "status": "partial",
   "theorems": [
    "Koopa.C65_accepted_written",
    "Koopa.C65_optimized_written",
    "Koopa.C65_violated"
   ],
   "note": "Writing is proved in full. Reading back is false: when all edges pass undef for a pointer parameter, the optimizer makes load undef, which the parser rejects (C65_violated). Missing: a description of the optimized programs that are read back."
  },
  {
   "property": "C66",
   "status": "partial",
   "theorems": [
    "Koopa.C66_accepted",
    "Koopa.C66_folded",
    "Koopa.C66_optimized_partial",
    "Koopa.C66_violated"
   ],
   "note": "False for the optimizer: dead code elimination takes parameters out without renumbering the others (C66_violated). Proved: accepted programs and all results of constant folding are numbered; after both passes the parameters of functions are numbered, and those of every listed block are block argument references with growing numbers."
  },
  {
   "property": "C67",
   "status": "partial",
   "theorems": [
    "Koopa.C67_fold_ends",
    "Koopa.C67_fold_total_partial",
    "Koopa.C67_violated",
    "Koopa.C67_params_panic",
    "Koopa.C67_params_exact",
    "Koopa.C67_params_stuck",
    "Koopa.C67_params_end_partial",
    "Koopa.C67_pass_total_partial"
   ],
   "note": "False as it stands: an operation on a quotient by zero panics in the next round (C67_violated), and a parameter of the entry block makes the folding of parameters panic (C67_params_panic). Proved: the loop always ends within the stated number of rounds, and panics exactly if it comes to an operation on an undefined operand or to one that overflows in the stated way (C67_fold_ends, both directions); without overflow checks, undefined constants and divisions there is no panic. The theorems hold at every function of the pass, whatever functions have been folded before. The folding of parameters panics in no order of blocks and users exactly if every block with parameters is jumped to and no argument for a block is a global (C67_params_exact, both directions); it panics in every order if nothing passes a value of the function for some parameter (C67_params_stuck). The whole pass on a function ends under both conditions (C67_pass_total_partial)."
  },
  {
   "property": "C68",
   "status": "partial",
   "theorems": [
    "Koopa.C68_mark_exact",
    "Koopa.C68_sweep_ends",
    "Koopa.C68_mark_ends_partial",
    "Koopa.C68_mark_sweep_partial",
    "Koopa.C68_round_partial",
    "Koopa.C68_violated"
   ],
   "note": "False as it stands: a store to a global variable makes marking panic (C68_violated). Proved: marking always ends within the stated number of steps, and panics exactly if an instruction with an effect, or one that such an instruction needs, mentions a global (C68_mark_exact, both directions); otherwise it ends (C68_mark_ends_partial). This holds at every function, after any functions the pass has dealt with before, and for every order. After marking, sweeping does not panic (C68_sweep_ends). If no needed instruction mentions a global, the whole first round on a function, with the removal of unused block parameters (opt_bb_params), does not panic (C68_round_partial). The later rounds on the same function are not covered."
  }
 ]
}