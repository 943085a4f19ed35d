{"id": "C01", "title": "Value use lists are exact", "statement": "After any history of successful IR API calls, value u is in used_by(v) exactly when u is a live value whose instruction mentions v as an operand, for local and for global v.", "quantifier": "for every finite sequence of API calls (create, replace, update, remove, rename, block and function operations) and every pair of values", "why_tests_cant": "The used_by sets are maintained incrementally by several methods; a wrong update only shows after a particular interleaving of replace/update/remove, and the histories are unbounded.", "anchors": ["koopa/src/ir/dfg.rs: new_value_data, replace_value_with_data, update_value, remove_value", "koopa/src/ir/entities.rs: Program::new_value_data, Program::remove_value, ValueUses"]}
{"id": "C02", "title": "Basic block use lists are exact", "statement": "After any history of successful IR API calls, value u is in used_by(bb) exactly when u is a live value of the same function that branches or jumps to bb.", "quantifier": "for every finite sequence of API calls and every block/value pair", "why_tests_cant": "Same as C01: the sets are incrementally maintained over unbounded histories.", "anchors": ["koopa/src/ir/dfg.rs: new_value_data, replace_value_with_data, update_value, remove_value", "koopa/src/ir/entities.rs: BasicBlockUses"]}
{"id": "C03", "title": "No dangling operands", "statement": "In every reachable program, every operand of every live value is itself live (in the globals or in the same function), and every branch target is a live block; so queries that follow operands never panic.", "quantifier": "for every reachable program state, every live value and each of its operands and targets", "why_tests_cant": "Needs an invariant over all reachable states: tests only visit a few.", "anchors": ["koopa/src/ir/dfg.rs: data!, data_mut!, remove_value, remove_bb"]}
{"id": "C04", "title": "Replacing a value keeps its identity", "statement": "Replacing a value by a new instruction keeps its handle, keeps the set of its users, gives exactly the requested new data, and leaves the type, kind and name of every other value unchanged.", "quantifier": "for every reachable program, every value and every replacement data", "why_tests_cant": "Frame property over all other values in all programs; a test checks one program.", "anchors": ["koopa/src/ir/dfg.rs: replace_value_with_data", "koopa/src/ir/builder.rs: ReplaceBuilder"]}
{"id": "C05", "title": "Removal is refused exactly when the value is used", "statement": "Removing an existing value that nobody uses succeeds, returns its data and afterwards the value is gone and in no use list; removing a value somebody uses always panics.", "quantifier": "for every reachable program state and every live value", "why_tests_cant": "Quantifies over all reachable states; depends on the use-list invariant.", "anchors": ["koopa/src/ir/dfg.rs: remove_value", "koopa/src/ir/entities.rs: Program::remove_value"]}
{"id": "C06", "title": "Handles are fresh and classified correctly", "statement": "Any two handles ever allocated for the same kind of entity are different, and a handle reports itself as global exactly when it was allocated for a global value, as long as fewer than 2^30-1 global and fewer than 3*2^30 local handles were requested; the order in which threads take handles does not matter.", "quantifier": "for every interleaving of allocation requests by any number of threads", "why_tests_cant": "Schedules are unbounded, and the failure needs a billion allocations.", "anchors": ["koopa/src/ir/idman.rs: next_global_value_id, next_local_value_id, is_global_id"]}
{"id": "C07", "title": "Type equality is structural equality", "statement": "Two types obtained through the constructors, in any order and with any other constructions in between on the same thread, compare equal exactly when they have the same structure.", "quantifier": "for every sequence of type constructions and every pair of types obtained", "why_tests_cant": "Equality is pointer equality on a thread-local pool, so it depends on the whole history of the pool.", "anchors": ["koopa/src/ir/types.rs: Type::get, get_array, get_pointer, get_function, PartialEq for Type"]}
{"id": "C08", "title": "Builders only create well-typed instructions", "statement": "Every live value built through the builder methods satisfies the Koopa typing rules with respect to the types its operands have, as long as replacements keep the type of the replaced value.", "quantifier": "for every history of builder calls", "why_tests_cant": "Typing relates a value to operands created arbitrarily earlier and possibly replaced since.", "anchors": ["koopa/src/ir/builder.rs: ValueBuilder, LocalInstBuilder, check_bb_arg_types"]}
{"id": "C09", "title": "Structural value comparison is an equivalence", "statement": "value_eq is reflexive, symmetric and transitive on every acyclic program and terminates there; values that compare equal have the same type and the same shape all the way down to leaves.", "quantifier": "for every acyclic data flow graph and every triple of values", "why_tests_cant": "Recursion over arbitrarily deep operand graphs.", "anchors": ["koopa/src/ir/dfg.rs: value_eq, data_eq"]}
{"id": "C10", "title": "Layout parent queries agree with the block lists", "statement": "After any history of layout edits parent_bb(i) is b exactly when i is listed in block b, and is none when i is in no block.", "quantifier": "for every sequence of layout insertions and removals", "why_tests_cant": "Two structures are kept in sync incrementally.", "anchors": ["koopa/src/ir/layout.rs: parent_bb, BasicBlockMap, InstMap"]}
{"id": "C11", "title": "Operand enumeration is complete", "statement": "Enumerating the uses of an instruction yields each operand exactly as often and in the order it occurs, and enumerating block uses yields each target, for every instruction kind and any number of operands.", "quantifier": "for every instruction", "why_tests_cant": "Argument lists are unbounded.", "anchors": ["koopa/src/ir/entities.rs: ValueKind::value_uses, ValueKind::bb_uses, ValueUses::next, BasicBlockUses::next"]}
{"id": "C12", "title": "Lexing always terminates and makes progress", "statement": "For every byte stream the lexer returns after finitely many steps; every call either consumes at least one byte or reports the end of input, positions never go backwards, and after the end of input it keeps reporting it.", "quantifier": "for every byte sequence, including malformed ones and streams that fail", "why_tests_cant": "All byte sequences.", "anchors": ["koopa/src/front/lexer.rs: next_token, handle_comment, log_err_and_skip"]}
{"id": "C13", "title": "Integer literals are read exactly", "statement": "The decimal text of any 64-bit integer lexes to exactly that integer, text outside the range is rejected, and the printed form of any 32-bit constant is read back as the same constant.", "quantifier": "for every integer and every digit string", "why_tests_cant": "2^64 values and unbounded digit strings.", "anchors": ["koopa/src/front/lexer.rs: handle_integer", "koopa/src/front/builder.rs: generate_const", "koopa/src/back/koopa.rs: visit_value"]}
{"id": "C14", "title": "Whitespace and comments do not change the token sequence", "statement": "Between two tokens, any amount of whitespace, line comments and (closed) block comments can be inserted without changing the kinds of the tokens produced.", "quantifier": "for every text and every inserted blank", "why_tests_cant": "All texts and insertions.", "anchors": ["koopa/src/front/lexer.rs: next_token, handle_comment, handle_line_comment, handle_block_comment"]}
{"id": "C15", "title": "Parsing always terminates", "statement": "For every byte stream the parser reaches the end of the program or a fatal error after finitely many steps, including all error recovery paths.", "quantifier": "for every byte sequence", "why_tests_cant": "Error recovery loops depend on arbitrary malformed input.", "anchors": ["koopa/src/front/parser.rs: parse_next, parse_block, match_token!"]}
{"id": "C16", "title": "Parsed blocks are terminator-closed", "statement": "In every syntax tree that the parser produces without reporting an error, each basic block is a sequence of non-terminators followed by exactly one branch, jump or return.", "quantifier": "for every input text", "why_tests_cant": "All texts.", "anchors": ["koopa/src/front/parser.rs: parse_block"]}
{"id": "C17", "title": "A program is returned exactly when no error was reported", "statement": "generate_program returns a program if and only if no error was logged while lexing, parsing and building, and gives up with an error once more than 20 errors were logged.", "quantifier": "for every input text", "why_tests_cant": "All texts and all error combinations.", "anchors": ["koopa/src/front/driver.rs: generate_program", "koopa/src/front/span.rs: log_error, error_num"]}
{"id": "C18", "title": "Blocks are laid out in breadth-first order from the entry", "statement": "The blocks of a generated function are exactly the blocks of the text reachable from the first block, each once, the first one first, and a block never precedes all of its reachable predecessors.", "quantifier": "for every function text accepted", "why_tests_cant": "All control flow graphs.", "anchors": ["koopa/src/front/builder.rs: get_block_list"]}
{"id": "C19", "title": "Duplicate definitions are rejected", "statement": "A text in which two globals, two functions, a global and a function, two blocks of one function, or two local symbols of one function share a name is rejected.", "quantifier": "for every input text", "why_tests_cant": "All texts.", "anchors": ["koopa/src/front/builder.rs: build_on_global_def, build_on_fun_def, build_on_fun_decl, get_block_list, generate_stmt"]}
{"id": "C20", "title": "Symbols resolve to a definition that can reach the use", "statement": "When a text is accepted, every local symbol operand refers to the value defined under that name in the same block earlier, or in a block from which the using block can be reached, or to the function parameter of that name.", "quantifier": "for every accepted function and every symbol use", "why_tests_cant": "Search over arbitrary control flow graphs.", "anchors": ["koopa/src/front/builder.rs: generate_symbol, get_local_symbol"]}
{"id": "C21", "title": "Wrong argument counts are rejected", "statement": "A call, jump or branch whose number of arguments differs from the number of parameters makes the front end report an error.", "quantifier": "for every text", "why_tests_cant": "All texts.", "anchors": ["koopa/src/front/builder.rs: generate_args"]}
{"id": "C22", "title": "The front end never panics", "statement": "For every byte stream generate_program returns a program or an error and does not panic.", "quantifier": "for every byte sequence", "why_tests_cant": "All byte sequences.", "anchors": ["koopa/src/front/driver.rs", "koopa/src/front/builder.rs", "koopa/src/front/parser.rs"]}
{"id": "C23", "title": "Drivers are independent", "statement": "The result of generating a program from a text does not depend on other drivers created and run on the same thread in between.", "quantifier": "for every interleaving of operations of several drivers", "why_tests_cant": "Interleavings are unbounded.", "anchors": ["koopa/src/front/span.rs: STATE, reset", "koopa/src/front/driver.rs: Driver::new, generate_program"]}
{"id": "C24", "title": "Type text round trip", "statement": "The printed text of every type that the language can express is read back as the same type.", "quantifier": "for every type of any nesting depth", "why_tests_cant": "Types are unboundedly deep.", "anchors": ["koopa/src/ir/types.rs: Display for Type", "koopa/src/front/parser.rs: parse_type"]}
{"id": "C25", "title": "Printed names are unique", "statement": "In one printed function no two values, and no value and global or function, share a printed name, and no two blocks share a printed name.", "quantifier": "for every program", "why_tests_cant": "All programs and all user-chosen names.", "anchors": ["koopa/src/back/generator.rs: NameManager"]}
{"id": "C26", "title": "Printed names are stable and honour the chosen name", "statement": "Within one function scope asking twice for the name of the same entity gives the same text; the first entity with a chosen name is printed with exactly that name, later ones with that name plus a suffix.", "quantifier": "for every sequence of naming requests", "why_tests_cant": "All request sequences.", "anchors": ["koopa/src/back/generator.rs: NameManager::next_name, next_name_str, value_name, bb_name, func_name"]}
{"id": "C27", "title": "Printed programs are read back unchanged", "statement": "For every well-formed program the printed Koopa text is accepted by the front end without error and yields a program with the same functions, types, blocks and instructions up to handle renaming.", "quantifier": "for every well-formed program of any size", "why_tests_cant": "All programs.", "anchors": ["koopa/src/back/koopa.rs: Visitor", "koopa/src/front/driver.rs: generate_program"]}
{"id": "C28", "title": "Printing after reading is a fixpoint", "statement": "For every text the front end accepts (ASCII, with in-range array lengths), the printed text is accepted again and printing the result yields the same text.", "quantifier": "for every accepted text", "why_tests_cant": "All texts.", "anchors": ["koopa/src/back/koopa.rs", "koopa/src/front"]}
{"id": "C29", "title": "LLVM local names are unique", "statement": "In one emitted LLVM function no two definitions, of values or labels, share a name.", "quantifier": "for every program", "why_tests_cant": "All programs and names.", "anchors": ["koopa/src/back/llvm.rs", "koopa/src/back/generator.rs"]}
{"id": "C30", "title": "LLVM phi nodes cover every predecessor edge", "statement": "For each block parameter the emitted phi has exactly one incoming pair for each branch or jump edge into the block, naming the argument passed along that edge and the block it comes from.", "quantifier": "for every block of every function of a well-typed program with exact block users (C02, C08) and right parent blocks (C10); in particular for every program the front end returns", "why_tests_cant": "All control flow graphs.", "anchors": ["koopa/src/back/llvm.rs: visit_bb"]}
{"id": "C31", "title": "Functions are emitted as LLVM globals", "statement": "Every function is emitted under a name starting with @ and calls use the same name as the definition.", "quantifier": "for every program, whatever the order of functions", "why_tests_cant": "All programs and layouts.", "anchors": ["koopa/src/back/llvm.rs: visit_call, visit_func", "koopa/src/back/generator.rs: func_name"]}
{"id": "C32", "title": "Two-call string dump protocol", "statement": "Calling the dump with a null buffer reports the text length; calling again with a buffer of at least that length plus one writes the text and a terminating NUL and nothing behind it; a smaller buffer gives an error and writes nothing.", "quantifier": "for every text and buffer size", "why_tests_cant": "All texts and sizes.", "anchors": ["libkoopa/src/back.rs: dump_to_string"]}
{"id": "C33", "title": "Failed parsing leaves the output handle untouched", "statement": "The C parse functions write the output program handle exactly when they return success.", "quantifier": "for every input", "why_tests_cant": "All inputs.", "anchors": ["libkoopa/src/driver.rs"]}
{"id": "C34", "title": "Raw program round trip", "statement": "Converting a program to the raw C representation and back yields the same functions, blocks and instructions up to renaming of handles and order of blocks.", "quantifier": "for every well-formed program", "why_tests_cant": "All programs.", "anchors": ["libkoopa/src/raw/builder.rs", "libkoopa/src/raw/generator.rs"]}
{"id": "C35", "title": "Raw builders can be reused", "statement": "Building a second raw program with the same builder gives the same result as with a fresh builder.", "quantifier": "for every pair of programs", "why_tests_cant": "All histories of the builder.", "anchors": ["libkoopa/src/raw/builder.rs: build_on"]}
{"id": "C36", "title": "Passes run in registration order on everything", "statement": "Running a pass manager runs every registered pass once, in registration order, and a function pass visits every function of the program exactly once.", "quantifier": "for every list of passes and every program", "why_tests_cant": "All pass lists and programs.", "anchors": ["koopa/src/opt/passman.rs: run_passes"]}
{"id": "C37", "title": "Constant folding agrees with execution", "statement": "Whenever constant folding replaces an instruction on two constants by a constant, executing the instruction gives that constant; and folding does not change the result of running the function.", "quantifier": "for every pair of 32-bit operands and every operator; for every function", "why_tests_cant": "2^64 operand pairs per operator and all functions.", "anchors": ["koopa/examples/opt/const_fold.rs: eval_const", "koopa/examples/interpreter/interpreter.rs: eval_binary"]}
{"id": "C38", "title": "Folding block parameters is sound", "statement": "A block parameter is replaced by a constant only if every edge into the block passes that constant.", "quantifier": "for every function", "why_tests_cant": "All control flow graphs.", "anchors": ["koopa/examples/opt/const_fold.rs: eval_bb_params"]}
{"id": "C39", "title": "Dead code elimination removes only dead instructions", "statement": "Dead code elimination removes no store, call, branch, jump, return and nothing whose value a remaining instruction uses, and removes every other pure instruction.", "quantifier": "for every function", "why_tests_cant": "All functions.", "anchors": ["koopa/examples/opt/dce.rs"]}
{"id": "C40", "title": "Block arguments are passed simultaneously", "statement": "Executing a jump or branch gives each parameter the value its argument had before the transfer.", "quantifier": "for every block, argument list and machine state", "why_tests_cant": "All states, loops that permute parameters.", "anchors": ["koopa/examples/interpreter/interpreter.rs: update_bb_params"]}
{"id": "C41", "title": "Brainfuck compiler accepts exactly balanced programs", "statement": "The Brainfuck front end rejects every program with unbalanced brackets, and every block its output branches to is laid out.", "quantifier": "for every Brainfuck text", "why_tests_cant": "All texts.", "anchors": ["koopa/examples/brainfuck/main.rs"]}
{"id": "C42", "title": "Program layouts list every entity once", "statement": "After any history of API calls, the function order lists every live function exactly once, and the global order every global allocation exactly once, in creation order.", "quantifier": "for every sequence of API calls", "why_tests_cant": "Unbounded histories.", "anchors": ["koopa/src/ir/entities.rs: Program::new_func, remove_func, new_value_data, remove_value"]}
{"id": "C43", "title": "Accepted text yields well-formed programs", "statement": "Every program generated from text satisfies the invariants of C01, C02, C03, C08 and C10, and every laid-out block ends in exactly one terminator.", "quantifier": "for every accepted text", "why_tests_cant": "All texts.", "anchors": ["koopa/src/front/builder.rs"]}
{"id": "C44", "title": "The lexer accepts exactly the lexical grammar", "statement": "A call of next_token returns a token if and only if the remaining text begins with blank text followed by a text of that token that is not continued, and reports an error if and only if there is no such beginning.", "quantifier": "for every remaining text", "why_tests_cant": "All texts, in both directions.", "anchors": ["koopa/src/front/lexer.rs: next_token, handle_integer, handle_symbol, handle_keyword, handle_comment"]}
{"id": "C45", "title": "The parser accepts exactly the grammar", "statement": "Parsing a text up to its end yields a list of syntax trees without reporting an error if and only if the text consists of tokens that form these trees according to the grammar; so a text has at most one reading.", "quantifier": "for every text and every list of syntax trees", "why_tests_cant": "All texts and trees, in both directions.", "anchors": ["koopa/src/front/parser.rs: parse_next and all parse_* methods"]}
{"id": "C46", "title": "Parameters are numbered in order with the given types and names", "statement": "Creating a function or a block yields exactly one parameter per requested parameter; the i-th is an argument reference with index i, the requested type and the requested name; a new function contains no other value and no block.", "quantifier": "for every program state and every parameter list", "why_tests_cant": "All states and lists of any length.", "anchors": ["koopa/src/ir/entities.rs: FunctionData::new, with_param_names", "koopa/src/ir/builder.rs: basic_block_with_params, basic_block_with_param_names"]}
{"id": "C47", "title": "The generated program is the one written in the text", "statement": "A text that is accepted is a text of the grammar, and the returned program has exactly the global variables and functions written there, in order, with the written names, types and parameters; each function has the reachable blocks of the text with their parameters, and each block has one instruction per statement, of the written kind, whose operands are the written constants and the values the written symbols refer to.", "quantifier": "for every accepted text and every state of the id counters in range", "why_tests_cant": "All texts; the relation between text and program is checked for every instruction.", "anchors": ["koopa/src/front/builder.rs", "koopa/src/front/driver.rs: generate_program"]}
{"id": "C48", "title": "Well-typed texts are accepted", "statement": "If a text consists of items that are well typed by the rules of the language (names are new and defined before they are used on some path, operands and arguments have the required types, blocks can be ordered, initialisers have the declared types), then the front end neither panics nor reports an error, and returns the program written in the text.", "quantifier": "for every text, every well-typed list of items and every state of the id counters with enough ids left", "why_tests_cant": "Completeness over all programs of the language; the symbol search over the predecessor graph has to find every symbol in scope whatever the graph looks like.", "anchors": ["koopa/src/front/builder.rs", "koopa/src/front/driver.rs: generate_program"]}
{"id": "C49", "title": "Compiled Brainfuck programs do what the text means", "statement": "For every Brainfuck text with balanced brackets, interpreting the program the Brainfuck compiler builds ends exactly as the text does on a machine with 65536 cells: it halts with 0 in the same outside world, stops with an error where the machine leaves the tape or input/output fails, panics where a checked addition overflows, and runs for ever if the machine does.", "quantifier": "for every balanced text, every outside world, every library that writes and reads characters, with and without overflow checks, for runs of any length", "why_tests_cant": "Correctness of a compiler and an interpreter together over all programs, inputs and unboundedly long runs.", "anchors": ["koopa/examples/brainfuck/main.rs", "koopa/examples/interpreter/interpreter.rs"]}
{"id": "C50", "title": "The interpreter runs programs as a stack machine for Koopa IR does", "statement": "Interpreting a program gives exactly the behaviour that an independently defined small-step machine for Koopa IR gives it: the same exit value or failure in the same outside world, a panic or undefined behaviour exactly where the machine is stuck, and an endless run exactly when the machine runs for ever. The machine says for each instruction what it does to registers, memory, the stack of activations and the outside world; block arguments are assigned all at once.", "quantifier": "for every program with a main function, every outside world and library, with and without overflow checks, for runs of any length and any depth of recursion", "why_tests_cant": "Agreement of an interpreter with a semantics over all programs and unboundedly long runs, including those that do not end.", "anchors": ["koopa/examples/interpreter/interpreter.rs:74-394"]}
{"id": "C51", "title": "The LLVM text computes what the program does", "statement": "The text the LLVM generator writes for a program is an LLVM module, and the module behaves as the program: whenever the program exits, the module can run and end with the same exit code in the same outside world, and whenever the program runs for ever, the module can run for ever; and the module can do nothing else. Programs are run by the machine of C50, modules by an independently defined small-step machine for the part of LLVM that is needed.", "quantifier": "for every accepted text, every library and outside world, for runs of any length and any depth of recursion", "why_tests_cant": "Correctness of a translation over all programs and unboundedly long runs; needs that names stay apart, that phi nodes cover exactly the edges, and that every operator and type is rendered with its meaning.", "anchors": ["koopa/src/back/llvm.rs", "koopa/src/back/generator.rs"]}
{"id": "C52", "title": "Printing and reading, or converting to the raw form and back, does not change what a program does", "statement": "The program read from the printed text of a program, and the program built back from its raw form, behave as the program: started with the corresponding function in the same outside world they end with the same result, fail in the same way, run for ever together and get stuck together; and functions keep their names.", "quantifier": "for every accepted program, every function, every outside world that does not look at the identity of pointers, for runs of any length and any depth of recursion", "why_tests_cant": "Equivalence of two programs over all inputs and unboundedly long runs; objects have different identities in the two programs, so even one run cannot be compared value by value.", "anchors": ["koopa/src/back/koopa.rs", "koopa/src/back/generator.rs", "koopa/src/front/driver.rs", "libkoopa/src/raw/builder.rs", "libkoopa/src/raw/generator.rs"]}
{"id": "C53", "title": "LLVM accepts the generated text", "statement": "The text the LLVM generator writes is a module that obeys LLVM's rules: every operand has the type its instruction needs and types have values, calls fit the signature of the function called, jumps go to blocks that are there, every block ends with its only terminator, every phi node names each way to its block exactly once with a value of its type, control never comes back to the entry block, no name is defined twice, and definitions come before uses on every way.", "quantifier": "for every accepted text, with any number of functions, blocks and instructions", "why_tests_cant": "The rules relate every use in a function to all ways through it; a test covers one control flow graph, and a missing phi entry or wrong type shows only for certain programs.", "anchors": ["koopa/src/back/llvm.rs", "koopa/src/back/generator.rs"]}
{"id": "C54", "title": "A text means one program", "statement": "What program a text stands for depends on the text alone. The global counters that hand out ids, and errors or warnings counted earlier in the process, change the handles and nothing else: the globals, functions, blocks and instructions, their order, types, operands and names are the same, and so is the behaviour. This includes symbols that could mean two parameters.", "quantifier": "for every text and every two states of the process in which it is accepted", "why_tests_cant": "The states of the counters and the texts are unbounded, and symbol lookup walks through tables filled in another order than they are read; a test compares a text in two states at most.", "anchors": ["koopa/src/front/builder.rs", "koopa/src/front/driver.rs", "koopa/src/ir/idman.rs"]}
{"id": "C55", "title": "Names are a sigil and something", "statement": "Every name in a program (of a function, block, global or local value) begins with @ or % and has at least one more character, after every sequence of API calls and in every program read from text. A call that is given another name panics.", "quantifier": "for every program, every sequence of API calls, every accepted text and every name", "why_tests_cant": "Names enter through eight methods with four copies of the check; a test tries some bad names in some of them, not all histories.", "anchors": ["koopa/src/ir/entities.rs", "koopa/src/ir/builder.rs", "koopa/src/ir/dfg.rs"]}
{"id": "C56", "title": "The size of a type is the number of its bytes", "statement": "Type::size is the number of bytes that the scalars of a value of the type fill when put one after the other, with pointers and functions taking the configured pointer size, and element i of an array begins at i times the size of an element.", "quantifier": "for every type of any nesting and any lengths, every pointer size, with and without overflow checks", "why_tests_cant": "Types nest without bound and lengths go up to 2^64; the tests compare five small types.", "anchors": ["koopa/src/ir/types.rs:59-60", "koopa/src/ir/types.rs:106-134"]}
{"id": "C57", "title": "The LLVM generator writes every accepted program", "statement": "For every program the front end accepts, the LLVM generator ends without a panic and writes a text; together with C51 and C53, every accepted program is compiled to a module that does what the program does.", "quantifier": "for every text the front end accepts, whatever its length, names and functions, and every order in which hash sets are iterated", "why_tests_cant": "The visitor unwraps at every value, block and layout entry and cuts names at a byte; tests cannot cover all programs and name lengths.", "anchors": ["koopa/src/back/llvm.rs:68-381", "koopa/src/back/generator.rs:58-241"]}
{"id": "C58", "title": "The LLVM text does not depend on the order of hash sets", "statement": "The users of a block are kept in a hash set whose order differs from run to run; the LLVM text generated for a program is the same for every order, or at least the generated modules do the same.", "quantifier": "for every accepted program and every two orders of iterating the users of each block", "why_tests_cant": "The order of a hash set is random; a test sees one or a few orders.", "anchors": ["koopa/src/back/llvm.rs:167-193", "koopa/src/ir/entities.rs:418-440"]}
{"id": "C59", "title": "Dump functions tell whether the whole text was written", "statement": "The dump functions to files, raw files and the standard output report success exactly if every byte of the text was written. If the writer fails they report an I/O error and what was written is a beginning of the text. A path that is not UTF-8 or a file that cannot be created is reported before anything is written.", "quantifier": "for every program that is printed, both generators, every path and every number of bytes after which the writer fails", "why_tests_cant": "The writer can fail at every byte of every text; tests write to memory or to files that do not fail.", "anchors": ["libkoopa/src/back.rs:16-24", "libkoopa/src/back.rs:53-73", "koopa/src/back/generator.rs:314-330"]}
{"id": "C60", "title": "A generator can be used for several programs", "statement": "The text that a generator writes for a program does not depend on the programs it has written before: it is the text of a new generator.", "quantifier": "for every program, every generator whatever it has written before, and every failure of its writer", "why_tests_cant": "The names in use grow with everything written before; a test writes one program with one generator.", "anchors": ["koopa/src/back/generator.rs:20-75", "koopa/src/back/generator.rs:281-319"]}
{"id": "C61", "title": "The LLVM text of a compiled Brainfuck text does what the text means", "statement": "The example compiler and the LLVM generator together are correct: for every text with balanced brackets the generator writes the compiled program, and the written LLVM module, however it runs, ends with exit code 0 in the world in which the text halts, and runs for ever if the text does.", "quantifier": "for every balanced text, every order of the users of a block, every outside world and library with these characters, every pointer size", "why_tests_cant": "Needs every text and every run, also endless ones; a test compares outputs of some texts and needs LLVM to run them.", "anchors": ["koopa/examples/brainfuck/main.rs:1-305", "koopa/src/back/llvm.rs:1-743"]}
{"id": "C62", "title": "Spans mark exactly what they are about", "statement": "For every text and every number of calls of the lexer, the span of a token starts at the first and stops at the last character of its text, the span of an error at the first and last character of what is wrong, and that of the end of the file at the last position; positions count lines from 1 and columns from 1, and are ordered as the characters are. The same tokens and errors are returned as without positions.", "quantifier": "all texts, all numbers of calls, readers that fail or not", "why_tests_cant": "Positions depend on all characters before, on comments and line breaks; tests compare some positions in some texts.", "anchors": ["koopa/src/front/lexer.rs:13-217", "koopa/src/front/span.rs:427-447"]}
{"id": "C63", "title": "Messages show the line and mark the characters", "statement": "A message about a place in a file is printed, and its marks are below exactly the characters the span is about: carets below all of them in one line, or below the first and the last with the lines in between.", "quantifier": "all files and all spans between two characters of them, all line number widths", "why_tests_cant": "Columns are shifted by tabs and line ends; a test checks the picture for some files, and the panic for a carriage return or a letter beyond ASCII needs just that input.", "anchors": ["koopa/src/front/span.rs:78-112", "koopa/src/front/span.rs:325-413"]}
{"id": "C64", "title": "The example optimizer keeps the results of programs", "statement": "When the example optimizer ends without a panic on a program from text, the program it makes returns the same value and has the same effects through external functions as the original one whenever that one returns, runs on whenever that one runs on, and contains, of the folded program, exactly the instructions that are needed.", "quantifier": "all accepted texts, all iteration orders of the maps and sets, both overflow modes, all libraries of external functions and all fuels", "why_tests_cant": "The two passes change a function in turn, with state that stays from function to function, and every order of hash maps can occur; a test sees one order of some programs.", "anchors": ["koopa/examples/opt/main.rs:46-52", "koopa/src/opt/passman.rs:27-39", "koopa/examples/opt/const_fold.rs", "koopa/examples/opt/dce.rs"]}
{"id": "C65", "title": "What the optimizer leaves can be written and read back", "statement": "The Koopa IR generator writes every accepted program, and every program that the example optimizer makes of an accepted one, without a panic: every instruction, operand, block, parameter and function that the listed parts mention exists. The text it writes for an optimized program is accepted again.", "quantifier": "all accepted texts (any array lengths, any names), all iteration orders of the maps and sets, both overflow modes, fresh generators and ones used before", "why_tests_cant": "A pass may leave a dangling handle only for one shape of program and one order of a hash map; a test sees some outputs, and an undefined pointer passed to a block is rarely among them.", "anchors": ["koopa/examples/opt/main.rs:46-56", "koopa/examples/opt/const_fold.rs:76-121", "koopa/examples/opt/dce.rs", "koopa/src/back/koopa.rs", "koopa/src/front/parser.rs:330-338"]}
{"id": "C66", "title": "The optimizer keeps parameters numbered by position", "statement": "In every program that the example optimizer makes of an accepted one, the i-th parameter of a function is function argument reference i, and the i-th parameter of a block is block argument reference i, as in every accepted program.", "quantifier": "all accepted texts, all iteration orders of the maps and sets, both overflow modes, any number of folded functions", "why_tests_cant": "Neither the printed text nor the interpreter shows the index, so tests that compare texts or results never see it; only users of the raw form do.", "anchors": ["koopa/examples/opt/dce.rs:84-154", "koopa/examples/opt/const_fold.rs:110-120", "koopa/src/ir/values.rs (BlockArgRef)"]}
{"id": "C67", "title": "Constant folding ends, and panics on no accepted program", "statement": "The loop of constant folding comes to an end on every function of every accepted program, after at most one round more than the function has instructions, and without a panic.", "quantifier": "all accepted texts, all functions, all iteration orders of the map of values, both overflow modes, all numbers of rounds above the number of instructions", "why_tests_cant": "A test folds a few programs in one order; a loop that does not end, or a panic at an operand that becomes undefined only in a later round, needs a program that nobody wrote as a test.", "anchors": ["koopa/examples/opt/const_fold.rs:8-74", "koopa/examples/opt/const_fold.rs:76-121"]}
{"id": "C68", "title": "Dead code elimination marks and sweeps without a panic", "statement": "On every function of every accepted program the marking phase of dead code elimination comes to an end and does not panic, and neither does the sweeping phase after it, whatever functions the pass has dealt with before.", "quantifier": "all accepted texts, all functions, all lists of functions dealt with before, all iteration orders of the maps and sets, all bounds on the number of steps above twice the number of values", "why_tests_cant": "A test marks a few functions in one order, with the empty state at the first function; the work list may fail to run empty, or meet an operand outside the function, only for a program that nobody wrote as a test.", "anchors": ["koopa/examples/opt/dce.rs:12-82", "koopa/examples/opt/dce.rs:156-165"]}
