p("EDN tokenization is maximal munch and tokens know their place",
  "The lexer divides the text into lexemes, each the longest text any token rule matches at that point (the earliest rule on ties), in exactly one way; every lexeme that is not whitespace or a comment gives one token whose range is exactly where its text stands in the source; tokens come in source order and do not overlap.",
  "every text",
  "interaction of sixteen rules on arbitrary text",
  ["edn/src/ab-edn-lexer.cpp.rl: ab_edn_lexer, Lexer::next"])
p("EDN source locations",
  "The line and column the document's line information gives for a token are the number of newlines before the token in the text and the distance from the last one.",
  "every text, every token",
  "depends on every newline before the token, wherever it stands",
  ["edn/src/ab-edn-lexer.cpp.rl: on_newline","parse/include/Ab/Parse/LineInfo.hpp: record_br, location"])
p("EDN string literals",
  "Parsing a string literal yields its contents: the characters between the quotes, with escape sequences replaced.",
  "every string literal",
  "all contents and escapes",
  ["edn/src/ab-edn-lexer.cpp.rl: string","edn/src/ab-edn-parser.cpp: parse_string"])
p("driver command line",
  "`ab -h` and `ab --help` print the usage, `-v` and `--version` the version; without a command, or with an unknown option, an error is reported; `ab <command> args...` and `ab -- <command> args...` run the command's program with the command's words as its argument vector.",
  "every command line, environment and file system",
  "all argument vectors",
  ["ab/src/ab-main.cpp: main, run_cmd"])
p("raising a power-of-two size to a power",
  "pow(n) of a power-of-two size is the size raised to the n-th power.",
  "every exponent and n whose result is representable",
  "all operands",
  ["util/include/Ab/SizeP2.hpp: SizeP2::pow"])
p("wasm signed leb128 stream reader",
  "Reading a signed LEB128 number from a stream returns the encoded value for every 64-bit integer and every encoding of it of at most ten bytes, and consumes exactly its bytes.",
  "every encoding and everything that may follow it",
  "all encodings",
  ["util/include/Ab/leb128.hpp: leb128"])
p("fixed-width numbers from a stream",
  "Reading a 32-bit number consumes exactly four bytes and is their little-endian value; with fewer bytes left an error is raised.",
  "every stream",
  "all streams",
  ["util/include/Ab/leb128.hpp: readNumber, ReaderInput::read"])
p("linear memory gives everything back",
  "Creating a linear memory, whether that succeeds or fails, using it in any way and destroying it leaves the process's memory map exactly as it was.",
  "every configuration, request sequence and operating system behaviour",
  "arbitrary requests and refusals by the system",
  ["core/include/Ab/LinearMemory.hpp: LinearMemory, ~LinearMemory","util/include/Ab/Page.hpp: map, unmap"])
p("quoted strings in S-expressions",
  "A string written with stringify reads back as that string.",
  "every string",
  "all contents",
  ["util/include/Ab/Sexpr.hpp: stringify"])

p("iterating over a persistent vector",
  "A range-based for over a persistent vector visits exactly its elements, in order.",
  "every vector any program can build",
  "all sizes and histories",
  ["util/include/Ab/Vector.hpp: Vec::begin, Vec::end, Vec::Iter, Vec::leafFor"])
p("foreach over a persistent vector",
  "foreach calls its function exactly once for each element, in order, and for nothing else.",
  "every vector any program can build",
  "all sizes and histories",
  ["util/include/Ab/Vector.hpp: Vec::foreach"])

p("WebAssembly instructions are decoded",
  "Reading the encoding of any sequence of WebAssembly 1.0 instructions hands exactly these instructions with their immediates, in order, to the consumer, and consumes exactly their bytes.",
  "every instruction sequence, every encoding of it and everything that may follow it",
  "all instructions, immediates and encodings",
  ["core/include/Ab/Wasm/ExprReader.hpp: ExprReader","core/include/Ab/Wasm/Expression.hpp: ReadImmediates, OpTraits","core/include/Ab/Wasm/OpCode.hpp.jinja: opDispatch"])
p("WebAssembly modules are read",
  "Reading any WebAssembly 1.0 module tells the visitor exactly what the module contains, in order, and returns unless the visitor throws.",
  "every module, every encoding of it and every visitor",
  "all modules and visitors",
  ["core/include/Ab/Wasm/Reader.hpp: Reader","core/include/Ab/Wasm/Visitor.hpp: Visitor"])
p("malformed WebAssembly modules are rejected",
  "A file that is not a WebAssembly module is rejected with a reader error; nothing is reported to the visitor that is not in the file.",
  "every file",
  "all byte strings",
  ["core/include/Ab/Wasm/Reader.hpp: Reader::header, section, import_entry, function_type, init_expr, data_segment, string"])
p("the disassembler's command line",
  "The disassembler understands its documented options in any order and number, with the last output file counting, optionally followed by -- and an input file.",
  "every command line",
  "all argument vectors",
  ["disasm/src/ab-disasm-main.cpp: parseArguments"])
p("disassembling code",
  "The disassembler prints the instructions of every function of a module.",
  "every module",
  "all modules and function bodies",
  ["disasm/src/ab-disasm-main.cpp: WastPrinter::function_body, dump"])
p("the disassembly shows the module",
  "The disassembly of a module is an S-expression with one line for every type, import, global, export, element segment and data segment, in order, showing its names, types and numbers.",
  "every module",
  "all modules",
  ["disasm/src/ab-disasm-main.cpp: WastPrinter","core/include/Ab/Wasm/Printing.hpp: operator<<"])
p("reading a WebAssembly file ends",
  "Reading or disassembling any file ends after an amount of work bounded by the size of the file.",
  "every file and every visitor whose callbacks return",
  "all byte strings",
  ["core/include/Ab/Wasm/Reader.hpp: Reader","util/include/Ab/leb128.hpp: uleb128, leb128"])
p("module bytes are released exactly once",
  "Bytes handed over with a deleter (or with free) are released exactly once, with that deleter, when the last storage, module pointer or instance that reaches them has gone, and not before; also when compilation fails.",
  "every program that creates, copies, moves and drops storages, modules, instances and the VM",
  "all programs and orders of destruction",
  ["core/include/Ab/Module.hpp: ModuleStorage, Module, ModuleInst","core/include/Ab/Loading.hpp: compile, instantiate","core/src/ab-core-Loading.cpp: compile, instantiate"])
p("the VM destroys its instances",
  "When the VM is destroyed, the module instances made with it are destroyed too.",
  "every program",
  "all programs",
  ["core/include/Ab/Loading.hpp: instantiate","core/include/Ab/VirtualMachine.hpp: VirtualMachine"])
p("a function's type stays readable",
  "type() of every function of a loaded module refers to the type its declaration names, whatever the order of the sections of the file.",
  "every accepted file",
  "all files",
  ["core/include/Ab/Func.hpp: Func::type","core/src/ab-core-Loading.cpp: decode_code_entry, decode_type_section"])
p("contexts live and die",
  "Contexts can be created, moved and destroyed in any order: the VM always lists exactly the existing contexts, every context has its own stack, and every stack is released exactly once.",
  "every program that creates, moves and destroys contexts",
  "all programs",
  ["core/include/Ab/VirtualMachine.hpp: Context","core/src/ab-core-Interpreter.cpp.jinja: Interpreter::Interpreter, ~Interpreter","util/include/Ab/IntrusiveList.hpp: IntrusiveList"])

p("WAST tokens and their places",
  "Lexing a text of parentheses, words, identifiers and white space delivers exactly its tokens, in order, each with its kind, its text and the line, column and offset where it starts and ends, and prints one line for each lexeme.",
  "every text below two gigabytes that is a sequence of lexemes",
  "all texts",
  ["wast/src/ab-wast-Lexer.cpp.rl: Lexer::lex","wast/include/Ab/Wast/Lexer.hpp: Lexer"])
p("what cannot be lexed is reported",
  "If a text contains something that is not a WAST lexeme, lexing it reports an error: an error token is delivered or an exception raised.",
  "every text below two gigabytes",
  "all texts",
  ["wast/src/ab-wast-Lexer.cpp.rl: Lexer::lex"])
p("lexing in pieces",
  "A text that is given to the lexer in pieces gives the same tokens as the text in one piece, wherever it is cut.",
  "every text and every way of cutting it, in one buffer or in several",
  "all texts and cuts",
  ["wast/src/ab-wast-Lexer.cpp.rl: Lexer::lex"])
p("the assembler's command line",
  "ab-asm [--] <abt> [<abx>] reads <abt>, whatever it is called after --; the help options print the usage; anything else is answered with an error message.",
  "every command line and every state of the file system",
  "all argument vectors",
  ["asm/src/ab-asm-main.cpp: main, Input"])
p("the assembler's answer",
  "ab-asm on a readable file prints the listing of its lexemes and tokens and ends with status 0 if all of the file could be read, and with another status otherwise.",
  "every file below two gigabytes",
  "all files",
  ["asm/src/ab-asm-main.cpp: go, main, Input","wast/src/ab-wast-Lexer.cpp.rl: Lexer::lex"])
p("ab run runs a module",
  "ab-run [--] <abx> runs the module; the help options print the usage; anything else is answered with an error message.",
  "every command line",
  "all argument vectors",
  ["run/src/ab-run-main.cpp: main, run_file","core/src/ab-core-VirtualMachine.cpp: instantiate_file"])
p("structural mistakes in EDN are reported",
  "Parsing a text whose brackets do not match, that leaves a bracket open, has a key without a value in a map or a key twice, returns a document with a non-empty error list; for every other text the list is empty.",
  "every text that splits into tokens",
  "all texts and nestings",
  ["edn/src/ab-edn-parser.cpp: parse, parse_list, parse_vector, parse_map","edn/include/Ab/Edn/Error.hpp: ErrorLog::error"])
p("results hold what was stored",
  "A Result answers with the value or error last stored in it, asking for the other one fails an assertion, and every object stored in a Result is destroyed exactly once.",
  "every program of constructions, copies, moves, assignments and ends of life, for trivial types and class types",
  "all histories; leaks and reads of dead objects are invisible to a test",
  ["util/include/Ab/Result.hpp: Result","util/include/Ab/SafeDestructor.hpp: SafeDestructor"])
p("the read-write lock excludes",
  "While a guard for exclusive access to a lock is alive no other guard of that lock is; an attempt that cannot succeed at once gives nothing or waits; the lock says whether it is locked.",
  "every number of threads and every schedule",
  "all schedules",
  ["util/include/Ab/SharedLock.hpp: SharedLock","util/include/Ab/LockGuard.inl.hpp: LockGuard, trySharedLock, tryExclusiveLock"])
p("spans are ordered by address",
  "One span is less than another exactly when all of it is lower in memory; spans are equal when they are the same memory.",
  "every pair of spans",
  "all addresses and lengths",
  ["util/include/Ab/Span.hpp: Span"])
p("string views compare in dictionary order",
  "compare() of two string views, or a view and a C string, is negative, zero or positive as the first comes before, is equal to or comes after the second in dictionary order.",
  "every pair of strings",
  "all strings",
  ["util/include/Ab/StringSpan.hpp: StringSpan::compare"])
p("writing a module neither leaks nor damages memory",
  "ModuleNode::write returns a span over one freshly allocated block, owned by the caller and holding exactly the module's encoding, with every temporary buffer freed; or it throws std::bad_alloc and every block on the heap is as before.",
  "every module, every prior heap, every pattern of refused allocations and every vector growth policy",
  "every allocation is a potential failure point; leaks on unwinding are invisible to tests",
  ["core/include/Ab/ModuleWriter.hpp: ModuleWriter::finalize, CodeWriter::append_to","core/include/Ab/ModuleBuilder.hpp: ModuleNode::write","util/include/Ab/ByteBuffer.hpp: ByteBuffer, release_span"])
p("the module language",
  "compile returns a module exactly for the files that are a header followed by well-formed type, function and code sections to the end of the file, and returns the module they describe; it ends the process exactly when well-formed sections are followed by a section of another known kind or by a code entry that does not fit the file or has no type; every other file is refused with an exception.",
  "every file and every module",
  "all byte strings; an exact language is an equivalence over all of them",
  ["core/src/ab-core-Loading.cpp: compile, decode_type_section, decode_func_section, decode_code_section","core/include/Ab/Module.hpp: Module::type_for","core/include/Ab/Func.hpp: Func"])
p("real literals",
  "A real literal is read as the double nearest to the number it denotes.",
  "every real literal: any number of digits, any exponent",
  "all literals; rounding errors depend on every digit",
  ["edn/src/ab-edn-lexer.cpp.rl: parse_real, next_token"])
p("EDN nodes live exactly as long as they are in use",
  "A node lives as long as the program can get at it through a variable, an element, a key, a value or metadata; when the program no longer can, it is destroyed; no destroyed node is ever touched and none is destroyed twice.",
  "every program over any number of variables: construction, copying, element access and assignment, push_back, clear, metadata, map insertion and lookup",
  "all histories of sharing",
  ["edn/include/Ab/Edn/Ir.hpp: Ptr, construct, Node, List, Vector, Map"])
p("EDN nodes compare by content, however their parts are shared",
  "Comparing or hashing nodes always gives an answer, which depends only on the data the nodes show, not on which objects they share.",
  "every graph of nodes",
  "all graphs; non-termination is not observable by a finite test",
  ["edn/include/Ab/Edn/Ir.hpp: node_eq, node_hash"])
p("an EDN map finds what was inserted",
  "Looking up a key in a map finds the value of the entry whose key is the same data, or says there is none; inserting a new key adds one entry and changes nothing else, inserting a key that is there changes nothing.",
  "every map, key and iteration order",
  "all histories and iteration orders",
  ["edn/include/Ab/Edn/Ir.hpp: Map::at, Map::find, Map::insert"])
p("EDN nodes are shared objects: counting uses is not observable",
  "A program working with EDN nodes does exactly what it would if nodes were plain objects, never destroyed, that pointers refer to: it ends the same way and sees the same contents; a change made through one pointer is seen through all pointers to that node, and no other node changes.",
  "every program over any number of variables: construction, copying, element access and assignment, push_back, clear, metadata, map insertion and lookup",
  "all histories of sharing and destruction",
  ["edn/include/Ab/Edn/Ir.hpp: Ptr, List, Vector, Map, Node::set_metadata"])
p("S-expression output is laid out tidily",
  "Whatever sequence of texts, parentheses, line breaks and indentation changes is sent to the S-expression formatter, the output has one space between two things on a line, none just inside parentheses, two spaces at the beginning of a line for each open level up to ten, no empty lines and no spaces at the end of a line.",
  "every sequence of formatter calls",
  "all call sequences; each character depends on the whole history",
  ["util/include/Ab/Sexpr.hpp: SexprFormatter","util/include/Ab/Indent.hpp: Indent"])
p("a verbose disassembly only adds comments",
  "The disassembler asked to be verbose prints the plain disassembly with comments added: without the comments it is the same text apart from white space.",
  "every module of any number of sections and entries",
  "all modules; one stray line break moves part of the text into or out of a comment",
  ["disasm/src/ab-disasm-main.cpp: DisassembleVisitor::section, type_section, import_section","core/include/Ab/Wasm/Printing.hpp"])
p("printed code",
  "Printing the code of a function shows each instruction under its standard name with its immediates, one instruction a line, the inside of each block indented once more than the block and its end and else at the level of its beginning.",
  "every structured code, nested to any depth",
  "all instruction sequences and nestings",
  ["core/include/Ab/Wasm/Printing.hpp: ExprPrinter","data/wasm_operators.yaml"])
p("EDN mistakes are reported where they are",
  "For every text, parsing reports exactly the structural mistakes of the text – closers where nothing is open, closers of the wrong kind, lists and vectors not closed, keys without values – each with the place of the token concerned and a message naming what is wrong, in the order of the text.",
  "every text",
  "all texts; the places depend on everything before them",
  ["edn/src/ab-edn-parser.cpp: parse, parse_list, parse_vector, parse_map, parse_node","edn/include/Ab/Edn/Error.hpp: ErrorLog","edn/src/ab-edn-lexer.cpp.rl: Lexer::next"])
p("ab help",
  "ab help prints the help text, ab help <page> shows that page with man, and more arguments are refused.",
  "every environment, file system and command line",
  "all environments and command lines",
  ["ab/src/ab-main.cpp: main, run_cmd","help/src/ab-help-main.cpp: main"])
p("code without backward branches finishes",
  "A call to a function all of whose branches go forward comes back (or ends the program) after executing at most as many instructions as the function has.",
  "every function body without backward branches, every argument list and every state of the context",
  "all bodies and all inputs",
  ["core/src/ab-core-Interpreter.cpp.jinja: do_interpret","core/include/Ab/VirtualMachine.hpp: static_call"])
p("a call's answer depends on the function and its arguments only",
  "Two calls of a function with the same arguments give the same answer – the same values and error flag, or both do not come back – whatever earlier calls did on the context, and on whatever context.",
  "every function, argument list, pair of contexts and history of calls",
  "all histories: the registers after the arguments are what the stack held",
  ["core/include/Ab/VirtualMachine.hpp: static_call, set_stack_elements","core/src/ab-core-Interpreter.cpp.jinja: Interpreter::enter_native_frame, do_interpret"])
p("loading takes memory in proportion to the file",
  "Whatever the bytes, the loader asks for room for no more elements than the file has bytes, and the tables of a loaded module hold no more elements than its file has bytes.",
  "every byte sequence",
  "all byte sequences, including hostile ones",
  ["core/src/ab-core-Loading.cpp: decode_type_section, decode_func_section, decode_code_section, compile"])
p("contexts do not interfere",
  "In any history of calls on several contexts of one process, the calls on a context give the same values, and leave it in the same state, as when only those calls are made; and calls that are fine on each context alone are fine in any order together – whatever code is called.",
  "every number of contexts, every history of calls, every code, including malformed code",
  "all interleavings of calls and all codes",
  ["core/include/Ab/VirtualMachine.hpp: Context, static_call","core/src/ab-core-Interpreter.cpp.jinja: Interpreter::Interpreter, Interpreter::interpret, do_interpret"])
p("any written code runs as its instructions say",
  "For every module that is written, loaded and instantiated, and every function in it whose code is well formed – any instructions, any branches, arguments and results of any types – a call on a fresh context answers, after any number of instructions, as the register machine does that starts with the arguments in its first registers.",
  "every module, function, well-formed code, argument list and content of the uninitialised stack",
  "all programs and inputs; loops run any number of times",
  ["core/include/Ab/ModuleWriter.hpp: ModuleWriter","core/src/ab-core-Loading.cpp: compile, instantiate","core/include/Ab/VirtualMachine.hpp: static_call","core/src/ab-core-Interpreter.cpp.jinja: do_interpret"])
p("real literals are read as numbers",
  "A real literal that denotes a number in the range of double is read as a number, not as an infinity or a NaN; and a literal of zeros is read as zero.",
  "every real literal, every IEEE arithmetic",
  "all literals; the exponent has any number of digits",
  ["edn/src/ab-edn-lexer.cpp.rl: parse_real"])
p("comparing tokens",
  "Two tokens of a text compare equal exactly when they are the same token; comparing tokens the lexer gave never fails, and != is the negation of ==.",
  "every text, every pair of its tokens, and pairs of tokens of different texts",
  "all texts and pairs of tokens",
  ["edn/include/Ab/Edn/Token.hpp: Token, operator==, operator!="])
p("the text of a token",
  "The source texts of the tokens of a text are, in order, the pieces of the text that are not whitespace or comments, and that of the end token is empty; each token is of the kind of its piece and carries its value; taken over another buffer the text is refused exactly when the buffer ends before the token begins.",
  "every text shorter than 2^64 bytes, every buffer",
  "all texts and buffers",
  ["parse/include/Ab/Parse/Location.hpp: SrcRange::strv, SrcRange::length, SrcPos","edn/include/Ab/Edn/Token.hpp: Token::strv"])
p("appending to a byte buffer is cheap",
  "Whatever is appended to a buffer made with room for some bytes, in pieces of any sizes and whatever the allocator refuses: the buffer takes at most twice the room its contents need (or the room asked for); it has been moved at most as often as that room is a doubling of the first; and all moves together moved fewer bytes than that room.",
  "every initial capacity other than zero, every sequence of appends, every allocator",
  "all sequences of appends; the bound is on the sum of all of them",
  ["util/include/Ab/ByteBuffer.hpp: append, ensure_space, grow_capacity, resize_capacity"])
p("appending to a persistent vector shares what was there",
  "In any program, appending an element to a vector of n elements makes exactly as many nodes as the least k other than zero with n + 1 <= 4^k, and every node there was is still there with the same contents: nothing else is copied.",
  "every program over persistent vectors, every vector of at most 2^30 elements",
  "all histories and sizes",
  ["util/include/Ab/Vector.hpp: cons, update, copy, capacity"])
p("lexing takes time in proportion to the text",
  "There is a factor such that, for every text, the scanner looks at no more bytes – each counted as often as it is looked at – than that factor times the length of the text.",
  "every text",
  "all texts; the bound is on the sum of the work of all tokens",
  ["edn/src/ab-edn-lexer.cpp.rl: Lexer::next, real, integer, string"])
p("how the disassembler shows the functions of a module",
  "The disassembler's printer, told of a module's functions, writes for each the number of its type, its locals, and its instructions in order, one a line, each with its name and all its immediates and indented by the blocks it is in.",
  "every list of functions with any well-nested instructions",
  "all programs; the indentation depends on everything before",
  ["disasm/src/ab-disasm-main.cpp: WastPrinter::function_body","core/include/Ab/Wasm/Printing.hpp: ExprPrinter, operator<<","data/wasm_operators.yaml"])
p("parsing takes bounded stack",
  "There is a stack size with which every EDN text can be parsed: however deeply its collections are nested, parsing does what it would do with unlimited stack.",
  "every text, every stack size",
  "all nesting depths",
  ["edn/src/ab-edn-parser.cpp: parse, parse_node, parse_list, parse_vector, parse_map"])

p("destroying, hashing and comparing EDN nodes takes bounded stack",
  "There is a stack size with which every EDN node a program can build can be destroyed, hashed and compared with itself.",
  "every program that builds EDN nodes, every stack size",
  "all histories of shared nodes and all nesting depths",
  ["edn/include/Ab/Edn/Ir.hpp: Node, List, Vector, Map, node_hash, node_eq"])
p('the debug text of a token tells which it is',
  'The debug text of a token tells its kind, its place and, for an integer, its value; of the tokens of one text no two have the same debug text; the debug text of a location or a range of locations tells its numbers.',
  'every two tokens, every text, every location; every way of writing doubles without spaces',
  'all pairs of tokens of all texts',
  ['edn/include/Ab/Edn/DebugPrinting.hpp: formatter<Token>, formatter<TokenKind>', 'edn/include/Ab/Edn/Printing.hpp: formatter<SrcPos>, formatter<SrcRange>, formatter<Location>, formatter<LocationRange>'])
p('Boxes hold what they are given',
  'After any sequence of constructions and assignments, a Box<T> holds the value it was last given, and giving a value away leaves its source unchanged unless the program said std::move. (False: assigning from a variable moves out of it, and assigning one box variable to another runs off the end of the function.)',
  'every sequence of constructions, assignments and writes on any number of variables and boxes, for every type and every effect of a move',
  'Tests assign temporaries; a later use of the variable assigned from, after any history, is what goes wrong.',
  ['util/include/Ab/Box.hpp: Box::Box, Box::operator=, Box::operator(), Box::value'])
p('Opcodes are told apart by name',
  'The printed name of an opcode tells which opcode it is: different opcodes that the interpreter executes have different names, none of them "unknown". (False: 0x6b executes as a subtraction and prints as unknown.)',
  'every opcode byte, every machine state',
  'A test prints the names it thought of; which opcodes run without aborting is a property of the dispatch in every state.',
  ['core/include/Ab/XDisasm.hpp.jinja: cstring, name', 'core/include/Ab/Opcode.hpp.jinja: Opcode', 'data/abx_operators.yaml', 'core/src/ab-core-Interpreter.cpp.jinja: INSTRUCTION_TABLE'])
p("The interpreter's trace tells what was executed",
  'While a function runs, the trace on standard error names each instruction executed, in order, with its address, the values of its operands and its result. (False: operands are shown as their registers are afterwards, so that an instruction that overwrites an operand shows the result in its place.)',
  'every well-formed body, every start memory (all arguments), every number of instructions, as long as no arithmetic overflows',
  'The trace of a run depends on the whole execution; tests run the interpreter with the trace scrolling by unchecked.',
  ['core/src/ab-core-Interpreter.cpp.jinja: TRACE_ENTER, TRACE_PRINT, do_interpret'])
p('Parsing EDN writes nothing',
  "Parsing a text writes nothing to the standard streams: its contents do not leak into a program's output. (False: every string, symbol and keyword is written to standard error.)",
  'every text that is split into tokens, every symbol table, however parsing ends',
  'Whether anything is written depends on every token of the text, and test frameworks let standard error through.',
  ['edn/src/ab-edn-parser.cpp: parse, parse_string, parse_symbol, parse_keyword', 'util/include/Ab/Debug.hpp: AB_DBG_MSG'])
p('Linear memories are separate',
  'In a process with any number of virtual machines (each has a linear memory) or linear memories, created, moved or copied, grown and destroyed in any order while other code maps memory too, every memory that exists can be read and written throughout its size, no two share a page, and pages mapped by others are not touched.',
  'every lawful operating system (where it puts mappings, what it refuses), every initial page table and every sequence of operations',
  'depends on where the operating system puts mappings and on the order in which objects are moved and destroyed; a test sees one layout',
  ['core/include/Ab/LinearMemory.hpp: LinearMemory', 'core/include/Ab/VirtualMachine.hpp: VirtualMachine(VirtualMachine&&)', 'util/include/Ab/Page.hpp: Page'])
p('Virtual machines can be moved',
  'A virtual machine can be moved: whatever machines and contexts a program creates, moves and destroys – each context before its machine, the new machine taking over the contexts of the one it was moved from – nothing undefined happens, and each machine lists exactly its contexts, newest first.',
  'every sensible sequence of creating, moving and destroying machines and creating and destroying contexts on them, any number of each',
  'ranges over all histories of several machines and contexts whose links are shared',
  ['core/include/Ab/VirtualMachine.hpp: VirtualMachine(VirtualMachine&&), Context', 'util/include/Ab/IntrusiveList.hpp: IntrusiveList'])
p('Counted pointers inside counted objects',
  'Objects that contain counted pointers – lists, trees, graphs – can be built, walked and cut with assignments between variables and members: whatever a program does, no deleted object is used, each object that exists counts exactly the variables and members that refer to it, and when no variable refers to anything all that is left are cycles.',
  'every program of makings, copy, pointer and move assignments, clearings and uses, over any number of variables, objects and members, with any aliasing',
  'ranges over all programs and all shapes of the object graph, and deleting one object deletes arbitrarily many others',
  ['util/include/Ab/Rc.hpp: Rc, decref, mkrc'])
p('Optional pointers and nested optional values',
  'A Maybe of a pointer type, or of another Maybe nested to any depth, holds what was last put in it and gives it back; assigning through it replaces the value; map and apply call their function exactly when there is a value, once, with that value, and mapping two functions one after the other is mapping both at once.',
  'every value of every such type to any nesting depth, every function, and every program of constructions, copies, moves, assignments, assignments through * and ends of life over any number of variables',
  'ranges over unboundedly nested types, all functions and all programs',
  ['util/include/Ab/Maybe.hpp: Maybe, just, map, apply', 'util/include/Ab/MaybeStorage.hpp: MaybeStorage<Type, true>', 'util/include/Ab/TypeTrait/Nullable.hpp'])
p('What the disassembler prints, the assembler reads',
  "The text ab-disasm prints for a module, saved in a file, is read by ab-asm to its end: the lexemes it lists are together exactly the text, and are the parentheses and words of the module's entries in order.",
  'every module the disassembler prints, with or without --verbose, every file name and every file system that holds the text',
  'ranges over all modules of any number and length of sections, composed through two programs',
  ['disasm/src/ab-disasm-main.cpp', 'core/include/Ab/Wasm/Printing.hpp', 'wast/src/ab-wast-Lexer.cpp.rl: Lexer', 'asm/src/ab-asm-main.cpp: main'])
p('Persistent vectors are shallow and small',
  'In a program over persistent vectors of at most 2^30 elements that assigns none to itself, reading any element of a vector of n elements looks at exactly as many tree nodes as the base-4 logarithm of n, rounded up and at least one; and all versions together never occupy more tree nodes than a third of the elements held plus one such depth per version.',
  'every program of constructions, appends, assignments and ends of life over any number of variables, every index',
  'ranges over all programs and sizes; the depth and the sharing depend on the whole history',
  ['util/include/Ab/Vector.hpp: Vec::at, leafFor, nodefor, cons'])
p('Looking up a line takes logarithmically many steps',
  'Looking up the line and column of any offset in a table of n lines takes at most k iterations of the search, where 2^k is at most 2n, and yields the right location.',
  'every list of line breaks recorded in increasing order and every offset',
  'ranges over tables of any length and all offsets',
  ['parse/include/Ab/Parse/LineInfo.hpp: LineInfo::line, location'])
p('Loading takes time in proportion to the file',
  'Whatever bytes it is given, and whether it accepts them or not, compile does at most a hundred operations for each byte, an operation being the reading of a byte or looking at one entry of a function type.',
  'every byte string',
  'ranges over all byte strings; the work depends on how sections refer to each other',
  ['core/src/ab-core-Loading.cpp: compile, decode_type_section, decode_func_section, decode_code_section', 'core/include/Ab/Func.hpp: Func::Func', 'core/include/Ab/Types.hpp: FuncType::arg_nregs, ret_nregs'])
p('Layout of EDN text does not matter',
  'Spaces, tabs, commas, line breaks and comments may be put between the tokens of a text, or taken out as long as the tokens stay what they are, without changing what is read: the same nodes, the same symbols and the same errors, each at the same token, or the same failure.',
  'every text, well formed or not, every place between two pieces of it, every blank text put there',
  'ranges over all texts and all ways to lay them out; what a lexer takes for one token depends on all that follows',
  ['edn/src/ab-edn-lexer.cpp.rl: ab_edn_lexer, Lexer::next', 'edn/src/ab-edn-parser.cpp: parse'])
p('One EDN text after another',
  'If a text that ends with a line break is read without errors, then reading it with a second text behind it is reading the first and then, with the symbols the first has left, the second: the nodes of the first are followed by those of the second, the errors of the second are reported where they now stand, and the whole fails or does not end exactly when the second does.',
  'every two texts, the first read without errors and the second well formed or not, every symbol table to begin with',
  'ranges over all pairs of texts; what a lexer takes for one token depends on all that follows, and a reader of the whole sees neither text end',
  ['edn/src/ab-edn-lexer.cpp.rl: ab_edn_lexer, Lexer::next', 'edn/src/ab-edn-parser.cpp: parse'])
p('A hash depends on every part',
  'Replacing one node anywhere in an EDN tree by another changes the hash of the tree exactly when the two nodes hash differently; different symbols and different keywords hash differently, leaves of another kind do unless the standard library hashes their values alike; a list and a vector of the same elements hash differently. Another type for one argument or result changes the hash of a function type, another minimum or maximum that of limits.',
  'all trees, all places in them, all nodes to put there; all function types and limits; all standard library hashes (one-to-one for the last two)',
  'ranges over all trees of any size and all 64-bit hashes; a test tries a few trees and cannot see that no part is lost by the arithmetic modulo 2^64',
  ['edn/include/Ab/Edn/Ir.hpp: node_hash, List::hash, Vector::hash, Map::hash', 'util/include/Ab/HashUtilities.hpp: mix, combine_hashes', 'core/include/Ab/Types.hpp: FuncType::hash, Limits::hash'])
p('EDN texts compare as the data written',
  'Of the nodes read from one text, or from two texts read one after the other with the symbols kept, any two compare equal exactly when they were written as the same data: the same up to layout and the order of map entries. Which names were interned before does not matter.',
  'every two documents of nil, booleans, integers, strings, symbols, keywords, lists, vectors and maps at any depth, every layout of their texts, every table of names interned before, every pair of nodes read',
  'ranges over all pairs of documents, layouts and orders of entries; equality of maps rests on hashing, symbol numbering and the order a hash table happens to keep',
  ['edn/src/ab-edn-parser.cpp: parse', 'edn/include/Ab/Edn/Ir.hpp: node_eq, node_hash', 'edn/src/ab-edn-lexer.cpp.rl: ab_edn_lexer'])
p('Memory units',
  'So many bytes, kibibytes, mebibytes, gibibytes or tebibytes, given as a number of any integer type or as a literal, are exactly 1, 2^10, 2^20, 2^30 or 2^40 times as many bytes.',
  'every integer type, every value of it, every unit, every literal',
  'ranges over all values of all integer types, including those whose product does not fit',
  ['util/include/Ab/Bytes.hpp: bytes, kibibytes, mebibytes, gibibytes, tebibytes, operator"" _B, _KiB, _MiB, _GiB'])
p('Module files that lost their end',
  'Loading a module file of which the end is missing (a copy that was interrupted, a disk that was full) ends in DecodeError, wherever the file was cut.',
  'every module ModuleWriter can write, every place to cut the file; for the prefix theorem every file and every place',
  'ranges over all modules and all places to cut their files',
  ['core/src/ab-core-Loading.cpp: compile, decode_type_section, decode_func_section, decode_code_section', 'core/include/Ab/ModuleWriter.hpp: ModuleWriter::finalize, append_module'])
p('EDN texts that lost their end',
  'When the end of an EDN text is missing, reading what is left never passes for the whole: it reports an error, or it yields the first data of the whole text, each complete; a list, vector or map that is still open is always reported.',
  'every EDN text and every place to cut it',
  'ranges over all texts and all places to cut them',
  ['edn/src/ab-edn-lexer.cpp.rl: Lexer::next', 'edn/src/ab-edn-parser.cpp: parse, parse_node, parse_list, parse_vector, parse_map'])
p('WebAssembly files that lost their end',
  'A WebAssembly file of which the end is missing is rejected, whatever part of it is missing; nothing that is not in the file is ever reported to the visitor.',
  'every module, every visitor and every place to cut the file',
  'ranges over all modules, all visitors and all places to cut them',
  ['core/include/Ab/Wasm/Reader.hpp: Reader::module, sections, section, type_section, function_section', 'util/include/Ab/leb128.hpp: uleb128, ReaderInput::get'])
p('WebAssembly texts that lost their end',
  'When the end of a WebAssembly text is missing, lexing what is left delivers exactly the tokens of the whole text that end where the text now ends or before, in the same places, followed by what is left of the word or identifier the end is inside of, which starts in the same place and ends where the text does; nothing else.',
  'every text below two gigabytes, whatever it is made of, and every place to cut it',
  'ranges over all texts and all places to cut them',
  ['wast/src/ab-wast-Lexer.cpp.rl: Lexer::lex', 'wast/include/Ab/Wast/Lexer.hpp: Lexer'])
