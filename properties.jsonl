{"id": "C01", "title": "varuint32 round trip", "statement": "Whatever 32-bit number is appended with append_varuint32, reading a varuint32 back at that position (with anything before and after it in the buffer) yields exactly that number and leaves the read position exactly at the end of the appended bytes.", "quantifier": "every 32-bit value, every prefix and suffix of surrounding bytes", "why_tests_cant": "2^32 values times unboundedly many contexts; the boundary between 1..5 byte encodings and the 5th byte's truncated bits are easy to sample wrongly", "anchors": ["util/include/Ab/VarInt.hpp: append_varuint, append_varuint32", "core/src/ab-core-Loading.cpp: Decoder::read_varu, read_varu32"]}
{"id": "C02", "title": "varuint encoding is minimal, prefix-free and injective", "statement": "The bytes append_varuint32 produces are 1 to 5 long, exactly as many as the value's base-128 digits, every byte but the last has the continuation bit and the last one does not; two different values never get encodings one of which is a prefix of the other.", "quantifier": "every pair of 32-bit values", "why_tests_cant": "a statement about all pairs of values", "anchors": ["util/include/Ab/VarInt.hpp: append_varuint, append_varuint32, append_varuint7"]}
{"id": "C03", "title": "varuint reader is safe and computes the LEB128 value modulo 2^32", "statement": "On any buffer and position, reading a varuint32 either raises DecodeError or consumes 1 to 5 bytes, all inside the buffer, ending at the first byte without continuation bit, and yields the base-128 value of those bytes modulo 2^32. It raises DecodeError exactly when the first five bytes all carry the continuation bit or the buffer ends before a terminating byte.", "quantifier": "every byte buffer and position in it", "why_tests_cant": "all malformed and truncated inputs, at every length", "anchors": ["core/src/ab-core-Loading.cpp: Decoder::read_varu, Decoder::read"]}
{"id": "C04", "title": "out-of-range varuint32 values are rejected", "statement": "A varuint32 whose encoded value does not fit in 32 bits is reported as a DecodeError rather than silently changed into another number.", "quantifier": "every byte buffer", "why_tests_cant": "only an argument over all 5-byte encodings shows which ones are silently truncated", "anchors": ["core/src/ab-core-Loading.cpp: Decoder::read_varu"]}
{"id": "C05", "title": "signed varint reader computes the sign-extended LEB128 value", "statement": "Reading a signed varint32 (varint7) yields the sign-extended base-128 value of the consumed bytes, with no undefined behaviour.", "quantifier": "every byte buffer", "why_tests_cant": "undefined shifts occur only on particular lengths and sign bits", "anchors": ["core/src/ab-core-Loading.cpp: Decoder::read_vari, read_vari32, read_vari7"]}
{"id": "C06", "title": "module write / compile round trip", "statement": "Writing a module (types, function declarations, code with register counts) and compiling the bytes yields a module with exactly the same type table, the same function-to-type assignment, the same variable-register counts, and for each function a body that points at exactly the written instruction bytes.", "quantifier": "every module whose vectors fit in 32-bit counts and whose functions refer to existing types", "why_tests_cant": "unboundedly many modules, section sizes crossing each varint length boundary, empty sections omitted", "anchors": ["core/include/Ab/ModuleWriter.hpp: ModuleWriter, CodeWriter", "core/src/ab-core-Loading.cpp: compile"]}
{"id": "C07", "title": "compile is total and memory safe on arbitrary bytes", "statement": "On any byte string compile terminates, and it never reads a byte outside the string it was given; whenever it returns a module, every function's body pointer lies inside the module bytes and every function carries the type-table entry its declaration named when it was decoded.", "quantifier": "every byte string", "why_tests_cant": "adversarial inputs are unbounded; fuzzing samples", "anchors": ["core/src/ab-core-Loading.cpp: compile, Decoder, decode_type_section, decode_func_section, decode_code_section", "core/include/Ab/Module.hpp: Module::type_for"]}
{"id": "C08", "title": "malformed module bytes are reported as DecodeError, never a process abort", "statement": "compile reports every malformed input as a DecodeError exception; it never aborts or terminates the process.", "quantifier": "every byte string", "why_tests_cant": "the claim is over all malformed inputs", "anchors": ["core/src/ab-core-Loading.cpp: compile, Decoder::reposition", "core/include/Ab/Module.hpp: Module::type_for"]}
{"id": "C09", "title": "header and section validation", "statement": "compile returns a module only if the bytes start with the 8-byte magic/version header; any string with a wrong magic or version is rejected with DecodeError, and any section code above 0x0b is rejected with DecodeError.", "quantifier": "every byte string", "why_tests_cant": "quantifies over all wrong headers and all section codes at all positions", "anchors": ["core/src/ab-core-Loading.cpp: compile, read_section_code", "core/include/Ab/ModuleConstants.hpp"]}
{"id": "C10", "title": "declared section sizes are enforced", "statement": "If compile returns a module, then each section of the file occupied exactly as many bytes as its declared size; a section with a wrong size is rejected with DecodeError.", "quantifier": "every byte string", "why_tests_cant": "quantifies over all files with an inconsistent size", "anchors": ["core/src/ab-core-Loading.cpp: decode_type_section, decode_func_section, decode_code_section"]}
{"id": "C11", "title": "function bodies stay within their own code entry", "statement": "In a compiled module each function body starts inside the byte range of its own code entry as given by the entry's declared size, so bodies of different functions never overlap.", "quantifier": "every byte string that compiles", "why_tests_cant": "only malformed entries (size smaller than the register-count field) break it", "anchors": ["core/src/ab-core-Loading.cpp: decode_code_section"]}
{"id": "C12", "title": "module builder preserves instructions and register numbers", "statement": "Building a function node by node and writing it produces an instruction stream that decodes back, opcode by opcode and operand by operand, to the instructions that were pushed, in order.", "quantifier": "every instruction list with 32-bit register operands", "why_tests_cant": "operands are 32-bit in the builder but one byte in the stream", "anchors": ["core/include/Ab/ModuleBuilder.hpp: FuncNode::accept, ModuleNode::accept", "core/include/Ab/ModuleWriter.hpp: CodeWriter"]}
{"id": "C13", "title": "instruction list reader visits the whole list and terminates", "statement": "Traversing an instruction stream with InstructionListReader reports each instruction once, in order, and terminates.", "quantifier": "every byte sequence produced by the code writer", "why_tests_cant": "non-termination on an unhandled opcode cannot be observed by a finite test", "anchors": ["core/include/Ab/ModuleReader.hpp: InstructionListReader::accept"]}
{"id": "C14", "title": "argument slot layout", "statement": "The stack slots assigned to the successive arguments of a call are contiguous and disjoint, start at slot 0, are wide enough for their type, and together cover exactly the number of argument registers the function type reports.", "quantifier": "every sequence of argument types", "why_tests_cant": "arbitrary-length mixed 32/64-bit signatures", "anchors": ["core/include/Ab/Types.hpp: nth_slot_index, slots_taken, nreg, FuncType::arg_nregs"]}
{"id": "C15", "title": "function type equality and hashing", "statement": "Two function types compare equal exactly when their argument and return type sequences are identical, equality is an equivalence, and equal function types have equal hashes (likewise for Limits).", "quantifier": "all pairs of function types", "why_tests_cant": "all pairs of unbounded sequences", "anchors": ["core/include/Ab/Types.hpp: FuncType::operator==, FuncType::hash, Limits::operator==, Limits::hash"]}
{"id": "C16", "title": "static_call signature check", "statement": "static_call runs a function exactly when the C++ argument and return types map one-for-one to the function's declared value types; any other call aborts before the frame is built, leaving the interpreter state untouched.", "quantifier": "every declared type and every call signature", "why_tests_cant": "all pairs of signatures", "anchors": ["core/include/Ab/Types.hpp: types_match", "core/include/Ab/VirtualMachine.hpp: static_call"]}
{"id": "C17", "title": "interpreter refines the abstract register machine", "statement": "Running any function body whose register operands are below the function's register count and whose control flow stays in the body behaves, step for step and for any number of steps, like an abstract machine with a register file of 32-bit values: same register contents, same control flow, same exit kind and value.", "quantifier": "every body, every argument assignment, every number of steps", "why_tests_cant": "loops make executions unbounded", "anchors": ["core/src/ab-core-Interpreter.cpp.jinja: do_interpret", "core/include/Ab/Opcode.hpp.jinja"]}
{"id": "C18", "title": "execution touches only its own frame", "statement": "While a function whose register operands are below its register count runs, no stack byte outside its own register area changes.", "quantifier": "every body, every start state, any number of steps", "why_tests_cant": "frame safety over all executions", "anchors": ["core/src/ab-core-Interpreter.cpp.jinja: reg_at, do_interpret"]}
{"id": "C19", "title": "native frames nest and restore", "statement": "For any well-nested sequence of enter_native_frame / leave_native_frame with matching register counts, each leave restores the stack pointer, instruction pointer and function pointer to their values before the matching enter, and the debug eye-catcher check succeeds as long as only bytes below the frame header are written in between.", "quantifier": "every nesting depth, every register count, every write pattern within the frames", "why_tests_cant": "arbitrary nesting", "anchors": ["core/src/ab-core-Interpreter.cpp.jinja: enter_native_frame, leave_native_frame"]}
{"id": "C20", "title": "static_call returns the function's result and restores the caller's state", "statement": "A top-level static_call to a well-formed function that returns a register value yields exactly that value, and afterwards the stack pointer, instruction pointer, function pointer and all stack bytes at or above the old stack pointer are what they were.", "quantifier": "every well-formed function and all arguments", "why_tests_cant": "all programs and all arguments", "anchors": ["core/include/Ab/VirtualMachine.hpp: static_call, set_stack_elements, get_stack_elements"]}
{"id": "C21", "title": "static_call may be nested", "statement": "It is safe to static_call into the interpreter while another native frame is active: the nested call returns to its caller like a top-level one.", "quantifier": "every nesting context", "why_tests_cant": "depends on the low byte of the saved instruction pointer, i.e. on the address of the interrupted code", "anchors": ["core/include/Ab/VirtualMachine.hpp: static_call (doc comment), enter_native_frame", "core/src/ab-core-Interpreter.cpp.jinja: do_return, do_x32_return"]}
{"id": "C22", "title": "i32.add and i32.sub compute two's-complement results", "statement": "i32.add / i32.sub store lhs+rhs / lhs-rhs into the destination register for all register contents, including when destination aliases an operand.", "quantifier": "all 2^64 operand pairs and all aliasing patterns", "why_tests_cant": "2^64 operand pairs", "anchors": ["core/src/ab-core-Interpreter.cpp.jinja: do_i32_add, do_i32_sub"]}
{"id": "C23", "title": "branch semantics", "statement": "goto moves the instruction pointer to the end of the instruction plus the signed offset; goto_if does so exactly when its register is non-zero and goto_unless exactly when it is zero, falling through otherwise; no register changes.", "quantifier": "every offset byte and every register value", "why_tests_cant": "all offset/value combinations in all states", "anchors": ["core/src/ab-core-Interpreter.cpp.jinja: do_goto, do_goto_if, do_goto_unless"]}
{"id": "C24", "title": "halt, unreachable and unimplemented opcodes", "statement": "halt stops without setting the error flag, unreachable stops with the error flag set, every opcode outside the implemented set aborts; in the first two cases the committed instruction pointer is that of the stopping instruction and the registers are untouched. The error flag, once set, is never cleared by later calls.", "quantifier": "every state and every opcode byte", "why_tests_cant": "all 256 opcodes in all states and all histories", "anchors": ["core/src/ab-core-Interpreter.cpp.jinja: INSTRUCTION_TABLE, do_unreachable, do_halt, do_unimplemented"]}
{"id": "C25", "title": "every instruction the writer can emit is executable", "statement": "Any instruction that the module builder and writer can emit is executed by the interpreter (it does not abort as unimplemented).", "quantifier": "every instruction kind", "why_tests_cant": "relates two tables in different components", "anchors": ["core/include/Ab/ModuleWriter.hpp: CodeWriter", "core/src/ab-core-Interpreter.cpp.jinja: INSTRUCTION_TABLE"]}
{"id": "C26", "title": "calls never overflow the interpreter stack", "statement": "static_call on a fresh context never moves the stack pointer or writes below the allocated stack, whatever function is called.", "quantifier": "every function type and register count", "why_tests_cant": "unbounded register counts", "anchors": ["core/src/ab-core-Interpreter.cpp.jinja: Interpreter::Interpreter, enter_native_frame, push_regs"]}
{"id": "C27", "title": "end to end: built code computes what it says", "statement": "Building a straight-line integer function, writing it, compiling it, instantiating it and calling it through static_call returns the value that the sequence of additions denotes.", "quantifier": "every straight-line function over in-range registers and all arguments for which no intermediate addition overflows", "why_tests_cant": "all programs and inputs; ties builder, writer, loader and interpreter together", "anchors": ["core/include/Ab/ModuleBuilder.hpp", "core/include/Ab/ModuleWriter.hpp", "core/src/ab-core-Loading.cpp", "core/src/ab-core-Interpreter.cpp.jinja", "core/include/Ab/VirtualMachine.hpp"]}
{"id": "C28", "title": "byte buffer behaves like a growable byte list", "statement": "Any sequence of append / write / read / reserve / clear / release operations on a byte buffer yields the contents a plain list of bytes would have; size never exceeds capacity and capacity at least doubles on growth.", "quantifier": "every operation sequence", "why_tests_cant": "all histories", "anchors": ["util/include/Ab/ByteBuffer.hpp: ByteBuffer"]}
{"id": "C29", "title": "byte buffer never uses freed memory", "statement": "No sequence of public byte-buffer operations makes the buffer use or free memory it has already freed.", "quantifier": "every operation sequence", "why_tests_cant": "needs the one history that shrinks to zero", "anchors": ["util/include/Ab/ByteBuffer.hpp: resize_capacity, release_span, shrink_to_fit, grow_capacity"]}
{"id": "C30", "title": "persistent vector is a list and old versions survive", "statement": "Appending to a persistent vector gives a vector whose elements are the old ones followed by the new one, reading index i yields the i-th appended element, and every older version still reads exactly as before.", "quantifier": "every append history and every retained version", "why_tests_cant": "all histories, arbitrary sizes crossing trie level boundaries", "anchors": ["util/include/Ab/Vector.hpp: Vec::cons, Vec::at, Vec::update"]}
{"id": "C31", "title": "persistent vector reference counts are exact", "statement": "After any history of creating, appending to, copying and dropping vectors, every trie node's reference count equals the number of live references to it; so a node is freed exactly when nothing refers to it, and nothing live is ever freed.", "quantifier": "every history", "why_tests_cant": "leaks and double frees depend on sharing histories", "anchors": ["util/include/Ab/Vector.hpp: Branch, Leaf, Vec", "util/include/Ab/Rc.hpp"]}
{"id": "C32", "title": "reference-counted handles free exactly once", "statement": "For any sequence of constructing, copying, moving, assigning, clearing and destroying reference-counted handles, an object is destroyed exactly when its last handle goes away, and never used afterwards.", "quantifier": "every sequence of handle operations", "why_tests_cant": "all histories including self-assignment", "anchors": ["util/include/Ab/Rc.hpp: Rc"]}
{"id": "C33", "title": "intrusive list / context registration", "statement": "After any sequence of entering and leaving contexts (no context entered while already entered, each leave matching an entered context), the VM's context list enumerates exactly the currently entered contexts, most recent first, with consistent forward and backward links.", "quantifier": "every sequence of add/remove of member elements", "why_tests_cant": "all histories", "anchors": ["util/include/Ab/IntrusiveList.hpp: IntrusiveList::add, remove", "core/include/Ab/VirtualMachine.hpp: Context, VirtualMachine::enter, leave"]}
{"id": "C34", "title": "label table", "statement": "Labels get distinct ids, a placed label always resolves to the offset given when it was placed, whatever other labels are allocated or placed in between; placing twice, placing an unallocated label and resolving an unplaced label abort.", "quantifier": "every sequence of alloc/place/target_of", "why_tests_cant": "all histories", "anchors": ["core/include/Ab/Label.hpp: LabelTable"]}
{"id": "C35", "title": "line and column lookup", "statement": "Given the recorded line-break offsets in increasing order, the line of an offset is the number of recorded breaks at or before it and the column is its distance from the start of that line; the lookup terminates.", "quantifier": "every increasing break list and every offset", "why_tests_cant": "binary search over all lists and offsets", "anchors": ["parse/include/Ab/Parse/LineInfo.hpp: LineInfo"]}
{"id": "C36", "title": "symbol interning is a bijection", "statement": "Interning returns the same symbol for the same text and different symbols for different texts, whatever was interned in between; the text of a symbol is the text that was interned.", "quantifier": "every sequence of intern calls", "why_tests_cant": "all histories", "anchors": ["edn/include/Ab/Edn/Ir.hpp: SymbolTable"]}
{"id": "C37", "title": "EDN node equality is an equivalence", "statement": "Structural equality of EDN nodes (without sets) is reflexive, symmetric and transitive and holds exactly for structurally identical data.", "quantifier": "all EDN trees", "why_tests_cant": "all trees of all depths", "anchors": ["edn/include/Ab/Edn/Ir.hpp: node_eq"]}
{"id": "C38", "title": "equal EDN nodes have equal hashes", "statement": "Whenever two EDN nodes compare equal, their hashes are equal, so a node can be used as a map key.", "quantifier": "all pairs of EDN trees", "why_tests_cant": "map iteration order depends on insertion history", "anchors": ["edn/include/Ab/Edn/Ir.hpp: node_hash, Map::hash"]}
{"id": "C39", "title": "EDN parser terminates on every input", "statement": "Parsing any text terminates and hands back a document; mistakes in the text end up in its error list, not in an exception.", "quantifier": "every text", "why_tests_cant": "non-termination is not observable by a finite test", "anchors": ["edn/src/ab-edn-parser.cpp: parse_map, parse_list, parse_vector"]}
{"id": "C40", "title": "EDN print / parse round trip", "statement": "Writing an EDN tree of nil, booleans, in-range integers, strings, symbols, keywords, lists, vectors and maps as tokens and parsing the tokens yields the tree again with no error logged.", "quantifier": "every such tree", "why_tests_cant": "all trees", "anchors": ["edn/src/ab-edn-parser.cpp", "edn/src/ab-edn-lexer.cpp.rl"]}
{"id": "C41", "title": "EDN integer literals", "statement": "Parsing an integer literal yields the integer it denotes.", "quantifier": "every literal", "why_tests_cant": "overflow boundary", "anchors": ["edn/src/ab-edn-parser.cpp: parse_integer"]}
{"id": "C42", "title": "EDN lexing errors are reported", "statement": "Text that is not a sequence of valid tokens leads to a logged error rather than to silently dropping the rest of the document.", "quantifier": "every text", "why_tests_cant": "all invalid texts", "anchors": ["edn/src/ab-edn-lexer.cpp.rl: next", "edn/src/ab-edn-parser.cpp: parse"]}
{"id": "C43", "title": "linear memory stays within its limits", "statement": "After any sequence of grow/shrink requests the number of accessible pages lies between the configured minimum and maximum, a request beyond the maximum raises an error and changes nothing, and the reported size is the accessible pages times the page size and never exceeds the reported maximum size.", "quantifier": "every configuration and request sequence", "why_tests_cant": "all histories", "anchors": ["core/include/Ab/LinearMemory.hpp"]}
{"id": "C44", "title": "wasm uleb128 stream reader", "statement": "Reading an unsigned LEB128 number from a stream returns the encoded value and consumes exactly its bytes; a truncated number is reported as an error.", "quantifier": "every stream", "why_tests_cant": "all truncations and overlong encodings", "anchors": ["util/include/Ab/leb128.hpp: uleb128, leb128"]}
{"id": "C45", "title": "command lookup picks the first matching directory", "statement": "The ab driver runs the first executable named ab-<command> found in the search path directories, in left-to-right order and with AB_PATH before AB_HOME/bin before PATH; it reports failure exactly when no directory contains it.", "quantifier": "every search path string and file system", "why_tests_cant": "arbitrary path strings including empty components", "anchors": ["ab/src/ab-main.cpp: find_file_in_search_path, find_command"]}
{"id": "C46", "title": "S-expression output is balanced", "statement": "For any well-nested use of the S-expression formatter the output has balanced parentheses, every start paired with its end, and the indentation level returns to its initial value.", "quantifier": "every well-nested sequence of formatter operations", "why_tests_cant": "all nestings", "anchors": ["util/include/Ab/Sexpr.hpp", "util/include/Ab/Indent.hpp"]}
{"id": "C47", "title": "integer hashing and string views", "statement": "The 64-bit integer hash is injective, and string-view equality holds exactly for equal byte sequences.", "quantifier": "all pairs of 64-bit values; all pairs of byte strings", "why_tests_cant": "2^128 pairs", "anchors": ["util/include/Ab/HashUtilities.hpp: hash", "util/include/Ab/StringSpan.hpp: operator=="]}
{"id": "C48", "title": "power-of-two size arithmetic", "statement": "Multiplying, dividing and reducing by a power-of-two size object agrees with ordinary multiplication, division and remainder by that power of two.", "quantifier": "every exponent below 64 and every 64-bit operand", "why_tests_cant": "all operand values", "anchors": ["util/include/Ab/SizeP2.hpp"]}
{"id": "C49", "title": "optional value semantics", "statement": "A Maybe obtained by any sequence of constructions, copies, moves and assignments holds exactly the value (or absence) last given to it.", "quantifier": "every sequence of operations", "why_tests_cant": "assignment from empty over full is the corner case", "anchors": ["util/include/Ab/Maybe.hpp", "util/include/Ab/MaybeStorage.hpp"]}
{"id": "C50", "title": "EDN tokenization is maximal munch and tokens know their place", "statement": "The lexer divides the text into lexemes, each the longest text any token rule matches at that point (the earliest rule on ties), in exactly one way; every lexeme that is not whitespace or a comment gives one token whose range is exactly where its text stands in the source; tokens come in source order and do not overlap.", "quantifier": "every text", "why_tests_cant": "interaction of sixteen rules on arbitrary text", "anchors": ["edn/src/ab-edn-lexer.cpp.rl: ab_edn_lexer, Lexer::next"]}
{"id": "C51", "title": "EDN source locations", "statement": "The line and column the document's line information gives for a token are the number of newlines before the token in the text and the distance from the last one.", "quantifier": "every text, every token", "why_tests_cant": "depends on every newline before the token, wherever it stands", "anchors": ["edn/src/ab-edn-lexer.cpp.rl: on_newline", "parse/include/Ab/Parse/LineInfo.hpp: record_br, location"]}
{"id": "C52", "title": "EDN string literals", "statement": "Parsing a string literal yields its contents: the characters between the quotes, with escape sequences replaced.", "quantifier": "every string literal", "why_tests_cant": "all contents and escapes", "anchors": ["edn/src/ab-edn-lexer.cpp.rl: string", "edn/src/ab-edn-parser.cpp: parse_string"]}
{"id": "C53", "title": "driver command line", "statement": "`ab -h` and `ab --help` print the usage, `-v` and `--version` the version; without a command, or with an unknown option, an error is reported; `ab <command> args...` and `ab -- <command> args...` run the command's program with the command's words as its argument vector.", "quantifier": "every command line, environment and file system", "why_tests_cant": "all argument vectors", "anchors": ["ab/src/ab-main.cpp: main, run_cmd"]}
{"id": "C54", "title": "raising a power-of-two size to a power", "statement": "pow(n) of a power-of-two size is the size raised to the n-th power.", "quantifier": "every exponent and n whose result is representable", "why_tests_cant": "all operands", "anchors": ["util/include/Ab/SizeP2.hpp: SizeP2::pow"]}
{"id": "C55", "title": "wasm signed leb128 stream reader", "statement": "Reading a signed LEB128 number from a stream returns the encoded value for every 64-bit integer and every encoding of it of at most ten bytes, and consumes exactly its bytes.", "quantifier": "every encoding and everything that may follow it", "why_tests_cant": "all encodings", "anchors": ["util/include/Ab/leb128.hpp: leb128"]}
{"id": "C56", "title": "fixed-width numbers from a stream", "statement": "Reading a 32-bit number consumes exactly four bytes and is their little-endian value; with fewer bytes left an error is raised.", "quantifier": "every stream", "why_tests_cant": "all streams", "anchors": ["util/include/Ab/leb128.hpp: readNumber, ReaderInput::read"]}
{"id": "C57", "title": "linear memory gives everything back", "statement": "Creating a linear memory, whether that succeeds or fails, using it in any way and destroying it leaves the process's memory map exactly as it was.", "quantifier": "every configuration, request sequence and operating system behaviour", "why_tests_cant": "arbitrary requests and refusals by the system", "anchors": ["core/include/Ab/LinearMemory.hpp: LinearMemory, ~LinearMemory", "util/include/Ab/Page.hpp: map, unmap"]}
{"id": "C58", "title": "quoted strings in S-expressions", "statement": "A string written with stringify reads back as that string.", "quantifier": "every string", "why_tests_cant": "all contents", "anchors": ["util/include/Ab/Sexpr.hpp: stringify"]}
{"id": "C59", "title": "iterating over a persistent vector", "statement": "A range-based for over a persistent vector visits exactly its elements, in order.", "quantifier": "every vector any program can build", "why_tests_cant": "all sizes and histories", "anchors": ["util/include/Ab/Vector.hpp: Vec::begin, Vec::end, Vec::Iter, Vec::leafFor"]}
{"id": "C60", "title": "foreach over a persistent vector", "statement": "foreach calls its function exactly once for each element, in order, and for nothing else.", "quantifier": "every vector any program can build", "why_tests_cant": "all sizes and histories", "anchors": ["util/include/Ab/Vector.hpp: Vec::foreach"]}
{"id": "C61", "title": "WebAssembly instructions are decoded", "statement": "Reading the encoding of any sequence of WebAssembly 1.0 instructions hands exactly these instructions with their immediates, in order, to the consumer, and consumes exactly their bytes.", "quantifier": "every instruction sequence, every encoding of it and everything that may follow it", "why_tests_cant": "all instructions, immediates and encodings", "anchors": ["core/include/Ab/Wasm/ExprReader.hpp: ExprReader", "core/include/Ab/Wasm/Expression.hpp: ReadImmediates, OpTraits", "core/include/Ab/Wasm/OpCode.hpp.jinja: opDispatch"]}
{"id": "C62", "title": "WebAssembly modules are read", "statement": "Reading any WebAssembly 1.0 module tells the visitor exactly what the module contains, in order, and returns unless the visitor throws.", "quantifier": "every module, every encoding of it and every visitor", "why_tests_cant": "all modules and visitors", "anchors": ["core/include/Ab/Wasm/Reader.hpp: Reader", "core/include/Ab/Wasm/Visitor.hpp: Visitor"]}
{"id": "C63", "title": "malformed WebAssembly modules are rejected", "statement": "A file that is not a WebAssembly module is rejected with a reader error; nothing is reported to the visitor that is not in the file.", "quantifier": "every file", "why_tests_cant": "all byte strings", "anchors": ["core/include/Ab/Wasm/Reader.hpp: Reader::header, section, import_entry, function_type, init_expr, data_segment, string"]}
{"id": "C64", "title": "the disassembler's command line", "statement": "The disassembler understands its documented options in any order and number, with the last output file counting, optionally followed by -- and an input file.", "quantifier": "every command line", "why_tests_cant": "all argument vectors", "anchors": ["disasm/src/ab-disasm-main.cpp: parseArguments"]}
{"id": "C65", "title": "disassembling code", "statement": "The disassembler prints the instructions of every function of a module.", "quantifier": "every module", "why_tests_cant": "all modules and function bodies", "anchors": ["disasm/src/ab-disasm-main.cpp: WastPrinter::function_body, dump"]}
{"id": "C66", "title": "the disassembly shows the module", "statement": "The disassembly of a module is an S-expression with one line for every type, import, global, export, element segment and data segment, in order, showing its names, types and numbers.", "quantifier": "every module", "why_tests_cant": "all modules", "anchors": ["disasm/src/ab-disasm-main.cpp: WastPrinter", "core/include/Ab/Wasm/Printing.hpp: operator<<"]}
{"id": "C67", "title": "reading a WebAssembly file ends", "statement": "Reading or disassembling any file ends after an amount of work bounded by the size of the file.", "quantifier": "every file and every visitor whose callbacks return", "why_tests_cant": "all byte strings", "anchors": ["core/include/Ab/Wasm/Reader.hpp: Reader", "util/include/Ab/leb128.hpp: uleb128, leb128"]}
{"id": "C68", "title": "module bytes are released exactly once", "statement": "Bytes handed over with a deleter (or with free) are released exactly once, with that deleter, when the last storage, module pointer or instance that reaches them has gone, and not before; also when compilation fails.", "quantifier": "every program that creates, copies, moves and drops storages, modules, instances and the VM", "why_tests_cant": "all programs and orders of destruction", "anchors": ["core/include/Ab/Module.hpp: ModuleStorage, Module, ModuleInst", "core/include/Ab/Loading.hpp: compile, instantiate", "core/src/ab-core-Loading.cpp: compile, instantiate"]}
{"id": "C69", "title": "the VM destroys its instances", "statement": "When the VM is destroyed, the module instances made with it are destroyed too.", "quantifier": "every program", "why_tests_cant": "all programs", "anchors": ["core/include/Ab/Loading.hpp: instantiate", "core/include/Ab/VirtualMachine.hpp: VirtualMachine"]}
{"id": "C70", "title": "a function's type stays readable", "statement": "type() of every function of a loaded module refers to the type its declaration names, whatever the order of the sections of the file.", "quantifier": "every accepted file", "why_tests_cant": "all files", "anchors": ["core/include/Ab/Func.hpp: Func::type", "core/src/ab-core-Loading.cpp: decode_code_entry, decode_type_section"]}
{"id": "C71", "title": "contexts live and die", "statement": "Contexts can be created, moved and destroyed in any order: the VM always lists exactly the existing contexts, every context has its own stack, and every stack is released exactly once.", "quantifier": "every program that creates, moves and destroys contexts", "why_tests_cant": "all programs", "anchors": ["core/include/Ab/VirtualMachine.hpp: Context", "core/src/ab-core-Interpreter.cpp.jinja: Interpreter::Interpreter, ~Interpreter", "util/include/Ab/IntrusiveList.hpp: IntrusiveList"]}
{"id": "C72", "title": "WAST tokens and their places", "statement": "Lexing a text of parentheses, words, identifiers and white space delivers exactly its tokens, in order, each with its kind, its text and the line, column and offset where it starts and ends, and prints one line for each lexeme.", "quantifier": "every text below two gigabytes that is a sequence of lexemes", "why_tests_cant": "all texts", "anchors": ["wast/src/ab-wast-Lexer.cpp.rl: Lexer::lex", "wast/include/Ab/Wast/Lexer.hpp: Lexer"]}
{"id": "C73", "title": "what cannot be lexed is reported", "statement": "If a text contains something that is not a WAST lexeme, lexing it reports an error: an error token is delivered or an exception raised.", "quantifier": "every text below two gigabytes", "why_tests_cant": "all texts", "anchors": ["wast/src/ab-wast-Lexer.cpp.rl: Lexer::lex"]}
{"id": "C74", "title": "lexing in pieces", "statement": "A text that is given to the lexer in pieces gives the same tokens as the text in one piece, wherever it is cut.", "quantifier": "every text and every way of cutting it, in one buffer or in several", "why_tests_cant": "all texts and cuts", "anchors": ["wast/src/ab-wast-Lexer.cpp.rl: Lexer::lex"]}
{"id": "C75", "title": "the assembler's command line", "statement": "ab-asm [--] <abt> [<abx>] reads <abt>, whatever it is called after --; the help options print the usage; anything else is answered with an error message.", "quantifier": "every command line and every state of the file system", "why_tests_cant": "all argument vectors", "anchors": ["asm/src/ab-asm-main.cpp: main, Input"]}
{"id": "C76", "title": "the assembler's answer", "statement": "ab-asm on a readable file prints the listing of its lexemes and tokens and ends with status 0 if all of the file could be read, and with another status otherwise.", "quantifier": "every file below two gigabytes", "why_tests_cant": "all files", "anchors": ["asm/src/ab-asm-main.cpp: go, main, Input", "wast/src/ab-wast-Lexer.cpp.rl: Lexer::lex"]}
{"id": "C77", "title": "ab run runs a module", "statement": "ab-run [--] <abx> runs the module; the help options print the usage; anything else is answered with an error message.", "quantifier": "every command line", "why_tests_cant": "all argument vectors", "anchors": ["run/src/ab-run-main.cpp: main, run_file", "core/src/ab-core-VirtualMachine.cpp: instantiate_file"]}
{"id": "C78", "title": "structural mistakes in EDN are reported", "statement": "Parsing a text whose brackets do not match, that leaves a bracket open, has a key without a value in a map or a key twice, returns a document with a non-empty error list; for every other text the list is empty.", "quantifier": "every text that splits into tokens", "why_tests_cant": "all texts and nestings", "anchors": ["edn/src/ab-edn-parser.cpp: parse, parse_list, parse_vector, parse_map", "edn/include/Ab/Edn/Error.hpp: ErrorLog::error"]}
{"id": "C79", "title": "results hold what was stored", "statement": "A Result answers with the value or error last stored in it, asking for the other one fails an assertion, and every object stored in a Result is destroyed exactly once.", "quantifier": "every program of constructions, copies, moves, assignments and ends of life, for trivial types and class types", "why_tests_cant": "all histories; leaks and reads of dead objects are invisible to a test", "anchors": ["util/include/Ab/Result.hpp: Result", "util/include/Ab/SafeDestructor.hpp: SafeDestructor"]}
{"id": "C80", "title": "the read-write lock excludes", "statement": "While a guard for exclusive access to a lock is alive no other guard of that lock is; an attempt that cannot succeed at once gives nothing or waits; the lock says whether it is locked.", "quantifier": "every number of threads and every schedule", "why_tests_cant": "all schedules", "anchors": ["util/include/Ab/SharedLock.hpp: SharedLock", "util/include/Ab/LockGuard.inl.hpp: LockGuard, trySharedLock, tryExclusiveLock"]}
{"id": "C81", "title": "spans are ordered by address", "statement": "One span is less than another exactly when all of it is lower in memory; spans are equal when they are the same memory.", "quantifier": "every pair of spans", "why_tests_cant": "all addresses and lengths", "anchors": ["util/include/Ab/Span.hpp: Span"]}
{"id": "C82", "title": "string views compare in dictionary order", "statement": "compare() of two string views, or a view and a C string, is negative, zero or positive as the first comes before, is equal to or comes after the second in dictionary order.", "quantifier": "every pair of strings", "why_tests_cant": "all strings", "anchors": ["util/include/Ab/StringSpan.hpp: StringSpan::compare"]}
{"id": "C83", "title": "writing a module neither leaks nor damages memory", "statement": "ModuleNode::write returns a span over one freshly allocated block, owned by the caller and holding exactly the module's encoding, with every temporary buffer freed; or it throws std::bad_alloc and every block on the heap is as before.", "quantifier": "every module, every prior heap, every pattern of refused allocations and every vector growth policy", "why_tests_cant": "every allocation is a potential failure point; leaks on unwinding are invisible to tests", "anchors": ["core/include/Ab/ModuleWriter.hpp: ModuleWriter::finalize, CodeWriter::append_to", "core/include/Ab/ModuleBuilder.hpp: ModuleNode::write", "util/include/Ab/ByteBuffer.hpp: ByteBuffer, release_span"]}
{"id": "C84", "title": "the module language", "statement": "compile returns a module exactly for the files that are a header followed by well-formed type, function and code sections to the end of the file, and returns the module they describe; it ends the process exactly when well-formed sections are followed by a section of another known kind or by a code entry that does not fit the file or has no type; every other file is refused with an exception.", "quantifier": "every file and every module", "why_tests_cant": "all byte strings; an exact language is an equivalence over all of them", "anchors": ["core/src/ab-core-Loading.cpp: compile, decode_type_section, decode_func_section, decode_code_section", "core/include/Ab/Module.hpp: Module::type_for", "core/include/Ab/Func.hpp: Func"]}
{"id": "C85", "title": "real literals", "statement": "A real literal is read as the double nearest to the number it denotes.", "quantifier": "every real literal: any number of digits, any exponent", "why_tests_cant": "all literals; rounding errors depend on every digit", "anchors": ["edn/src/ab-edn-lexer.cpp.rl: parse_real, next_token"]}
{"id": "C86", "title": "EDN nodes live exactly as long as they are in use", "statement": "A node lives as long as the program can get at it through a variable, an element, a key, a value or metadata; when the program no longer can, it is destroyed; no destroyed node is ever touched and none is destroyed twice.", "quantifier": "every program over any number of variables: construction, copying, element access and assignment, push_back, clear, metadata, map insertion and lookup", "why_tests_cant": "all histories of sharing", "anchors": ["edn/include/Ab/Edn/Ir.hpp: Ptr, construct, Node, List, Vector, Map"]}
{"id": "C87", "title": "EDN nodes compare by content, however their parts are shared", "statement": "Comparing or hashing nodes always gives an answer, which depends only on the data the nodes show, not on which objects they share.", "quantifier": "every graph of nodes", "why_tests_cant": "all graphs; non-termination is not observable by a finite test", "anchors": ["edn/include/Ab/Edn/Ir.hpp: node_eq, node_hash"]}
{"id": "C88", "title": "an EDN map finds what was inserted", "statement": "Looking up a key in a map finds the value of the entry whose key is the same data, or says there is none; inserting a new key adds one entry and changes nothing else, inserting a key that is there changes nothing.", "quantifier": "every map, key and iteration order", "why_tests_cant": "all histories and iteration orders", "anchors": ["edn/include/Ab/Edn/Ir.hpp: Map::at, Map::find, Map::insert"]}
{"id": "C89", "title": "EDN nodes are shared objects: counting uses is not observable", "statement": "A program working with EDN nodes does exactly what it would if nodes were plain objects, never destroyed, that pointers refer to: it ends the same way and sees the same contents; a change made through one pointer is seen through all pointers to that node, and no other node changes.", "quantifier": "every program over any number of variables: construction, copying, element access and assignment, push_back, clear, metadata, map insertion and lookup", "why_tests_cant": "all histories of sharing and destruction", "anchors": ["edn/include/Ab/Edn/Ir.hpp: Ptr, List, Vector, Map, Node::set_metadata"]}
{"id": "C90", "title": "S-expression output is laid out tidily", "statement": "Whatever sequence of texts, parentheses, line breaks and indentation changes is sent to the S-expression formatter, the output has one space between two things on a line, none just inside parentheses, two spaces at the beginning of a line for each open level up to ten, no empty lines and no spaces at the end of a line.", "quantifier": "every sequence of formatter calls", "why_tests_cant": "all call sequences; each character depends on the whole history", "anchors": ["util/include/Ab/Sexpr.hpp: SexprFormatter", "util/include/Ab/Indent.hpp: Indent"]}
{"id": "C91", "title": "a verbose disassembly only adds comments", "statement": "The disassembler asked to be verbose prints the plain disassembly with comments added: without the comments it is the same text apart from white space.", "quantifier": "every module of any number of sections and entries", "why_tests_cant": "all modules; one stray line break moves part of the text into or out of a comment", "anchors": ["disasm/src/ab-disasm-main.cpp: DisassembleVisitor::section, type_section, import_section", "core/include/Ab/Wasm/Printing.hpp"]}
{"id": "C92", "title": "printed code", "statement": "Printing the code of a function shows each instruction under its standard name with its immediates, one instruction a line, the inside of each block indented once more than the block and its end and else at the level of its beginning.", "quantifier": "every structured code, nested to any depth", "why_tests_cant": "all instruction sequences and nestings", "anchors": ["core/include/Ab/Wasm/Printing.hpp: ExprPrinter", "data/wasm_operators.yaml"]}
{"id": "C93", "title": "EDN mistakes are reported where they are", "statement": "For every text, parsing reports exactly the structural mistakes of the text \u2013 closers where nothing is open, closers of the wrong kind, lists and vectors not closed, keys without values \u2013 each with the place of the token concerned and a message naming what is wrong, in the order of the text.", "quantifier": "every text", "why_tests_cant": "all texts; the places depend on everything before them", "anchors": ["edn/src/ab-edn-parser.cpp: parse, parse_list, parse_vector, parse_map, parse_node", "edn/include/Ab/Edn/Error.hpp: ErrorLog", "edn/src/ab-edn-lexer.cpp.rl: Lexer::next"]}
{"id": "C94", "title": "ab help", "statement": "ab help prints the help text, ab help <page> shows that page with man, and more arguments are refused.", "quantifier": "every environment, file system and command line", "why_tests_cant": "all environments and command lines", "anchors": ["ab/src/ab-main.cpp: main, run_cmd", "help/src/ab-help-main.cpp: main"]}
{"id": "C95", "title": "code without backward branches finishes", "statement": "A call to a function all of whose branches go forward comes back (or ends the program) after executing at most as many instructions as the function has.", "quantifier": "every function body without backward branches, every argument list and every state of the context", "why_tests_cant": "all bodies and all inputs", "anchors": ["core/src/ab-core-Interpreter.cpp.jinja: do_interpret", "core/include/Ab/VirtualMachine.hpp: static_call"]}
{"id": "C96", "title": "a call's answer depends on the function and its arguments only", "statement": "Two calls of a function with the same arguments give the same answer \u2013 the same values and error flag, or both do not come back \u2013 whatever earlier calls did on the context, and on whatever context.", "quantifier": "every function, argument list, pair of contexts and history of calls", "why_tests_cant": "all histories: the registers after the arguments are what the stack held", "anchors": ["core/include/Ab/VirtualMachine.hpp: static_call, set_stack_elements", "core/src/ab-core-Interpreter.cpp.jinja: Interpreter::enter_native_frame, do_interpret"]}
{"id": "C97", "title": "loading takes memory in proportion to the file", "statement": "Whatever the bytes, the loader asks for room for no more elements than the file has bytes, and the tables of a loaded module hold no more elements than its file has bytes.", "quantifier": "every byte sequence", "why_tests_cant": "all byte sequences, including hostile ones", "anchors": ["core/src/ab-core-Loading.cpp: decode_type_section, decode_func_section, decode_code_section, compile"]}
{"id": "C98", "title": "contexts do not interfere", "statement": "In any history of calls on several contexts of one process, the calls on a context give the same values, and leave it in the same state, as when only those calls are made; and calls that are fine on each context alone are fine in any order together \u2013 whatever code is called.", "quantifier": "every number of contexts, every history of calls, every code, including malformed code", "why_tests_cant": "all interleavings of calls and all codes", "anchors": ["core/include/Ab/VirtualMachine.hpp: Context, static_call", "core/src/ab-core-Interpreter.cpp.jinja: Interpreter::Interpreter, Interpreter::interpret, do_interpret"]}
{"id": "C99", "title": "any written code runs as its instructions say", "statement": "For every module that is written, loaded and instantiated, and every function in it whose code is well formed \u2013 any instructions, any branches, arguments and results of any types \u2013 a call on a fresh context answers, after any number of instructions, as the register machine does that starts with the arguments in its first registers.", "quantifier": "every module, function, well-formed code, argument list and content of the uninitialised stack", "why_tests_cant": "all programs and inputs; loops run any number of times", "anchors": ["core/include/Ab/ModuleWriter.hpp: ModuleWriter", "core/src/ab-core-Loading.cpp: compile, instantiate", "core/include/Ab/VirtualMachine.hpp: static_call", "core/src/ab-core-Interpreter.cpp.jinja: do_interpret"]}
{"id": "C100", "title": "real literals are read as numbers", "statement": "A real literal that denotes a number in the range of double is read as a number, not as an infinity or a NaN; and a literal of zeros is read as zero.", "quantifier": "every real literal, every IEEE arithmetic", "why_tests_cant": "all literals; the exponent has any number of digits", "anchors": ["edn/src/ab-edn-lexer.cpp.rl: parse_real"]}
{"id": "C101", "title": "comparing tokens", "statement": "Two tokens of a text compare equal exactly when they are the same token; comparing tokens the lexer gave never fails, and != is the negation of ==.", "quantifier": "every text, every pair of its tokens, and pairs of tokens of different texts", "why_tests_cant": "all texts and pairs of tokens", "anchors": ["edn/include/Ab/Edn/Token.hpp: Token, operator==, operator!="]}
{"id": "C102", "title": "the text of a token", "statement": "The source texts of the tokens of a text are, in order, the pieces of the text that are not whitespace or comments, and that of the end token is empty; each token is of the kind of its piece and carries its value; taken over another buffer the text is refused exactly when the buffer ends before the token begins.", "quantifier": "every text shorter than 2^64 bytes, every buffer", "why_tests_cant": "all texts and buffers", "anchors": ["parse/include/Ab/Parse/Location.hpp: SrcRange::strv, SrcRange::length, SrcPos", "edn/include/Ab/Edn/Token.hpp: Token::strv"]}
{"id": "C103", "title": "appending to a byte buffer is cheap", "statement": "Whatever is appended to a buffer made with room for some bytes, in pieces of any sizes and whatever the allocator refuses: the buffer takes at most twice the room its contents need (or the room asked for); it has been moved at most as often as that room is a doubling of the first; and all moves together moved fewer bytes than that room.", "quantifier": "every initial capacity other than zero, every sequence of appends, every allocator", "why_tests_cant": "all sequences of appends; the bound is on the sum of all of them", "anchors": ["util/include/Ab/ByteBuffer.hpp: append, ensure_space, grow_capacity, resize_capacity"]}
{"id": "C104", "title": "appending to a persistent vector shares what was there", "statement": "In any program, appending an element to a vector of n elements makes exactly as many nodes as the least k other than zero with n + 1 <= 4^k, and every node there was is still there with the same contents: nothing else is copied.", "quantifier": "every program over persistent vectors, every vector of at most 2^30 elements", "why_tests_cant": "all histories and sizes", "anchors": ["util/include/Ab/Vector.hpp: cons, update, copy, capacity"]}
{"id": "C105", "title": "lexing takes time in proportion to the text", "statement": "There is a factor such that, for every text, the scanner looks at no more bytes \u2013 each counted as often as it is looked at \u2013 than that factor times the length of the text.", "quantifier": "every text", "why_tests_cant": "all texts; the bound is on the sum of the work of all tokens", "anchors": ["edn/src/ab-edn-lexer.cpp.rl: Lexer::next, real, integer, string"]}
{"id": "C106", "title": "how the disassembler shows the functions of a module", "statement": "The disassembler's printer, told of a module's functions, writes for each the number of its type, its locals, and its instructions in order, one a line, each with its name and all its immediates and indented by the blocks it is in.", "quantifier": "every list of functions with any well-nested instructions", "why_tests_cant": "all programs; the indentation depends on everything before", "anchors": ["disasm/src/ab-disasm-main.cpp: WastPrinter::function_body", "core/include/Ab/Wasm/Printing.hpp: ExprPrinter, operator<<", "data/wasm_operators.yaml"]}
{"id": "C107", "title": "parsing takes bounded stack", "statement": "There is a stack size with which every EDN text can be parsed: however deeply its collections are nested, parsing does what it would do with unlimited stack.", "quantifier": "every text, every stack size", "why_tests_cant": "all nesting depths", "anchors": ["edn/src/ab-edn-parser.cpp: parse, parse_node, parse_list, parse_vector, parse_map"]}
{"id": "C108", "title": "destroying, hashing and comparing EDN nodes takes bounded stack", "statement": "There is a stack size with which every EDN node a program can build can be destroyed, hashed and compared with itself.", "quantifier": "every program that builds EDN nodes, every stack size", "why_tests_cant": "all histories of shared nodes and all nesting depths", "anchors": ["edn/include/Ab/Edn/Ir.hpp: Node, List, Vector, Map, node_hash, node_eq"]}
{"id": "C109", "title": "the debug text of a token tells which it is", "statement": "The debug text of a token tells its kind, its place and, for an integer, its value; of the tokens of one text no two have the same debug text; the debug text of a location or a range of locations tells its numbers.", "quantifier": "every two tokens, every text, every location; every way of writing doubles without spaces", "why_tests_cant": "all pairs of tokens of all texts", "anchors": ["edn/include/Ab/Edn/DebugPrinting.hpp: formatter<Token>, formatter<TokenKind>", "edn/include/Ab/Edn/Printing.hpp: formatter<SrcPos>, formatter<SrcRange>, formatter<Location>, formatter<LocationRange>"]}
{"id": "C110", "title": "Boxes hold what they are given", "statement": "After any sequence of constructions and assignments, a Box<T> holds the value it was last given, and giving a value away leaves its source unchanged unless the program said std::move. (False: assigning from a variable moves out of it, and assigning one box variable to another runs off the end of the function.)", "quantifier": "every sequence of constructions, assignments and writes on any number of variables and boxes, for every type and every effect of a move", "why_tests_cant": "Tests assign temporaries; a later use of the variable assigned from, after any history, is what goes wrong.", "anchors": ["util/include/Ab/Box.hpp: Box::Box, Box::operator=, Box::operator(), Box::value"]}
{"id": "C111", "title": "Opcodes are told apart by name", "statement": "The printed name of an opcode tells which opcode it is: different opcodes that the interpreter executes have different names, none of them \"unknown\". (False: 0x6b executes as a subtraction and prints as unknown.)", "quantifier": "every opcode byte, every machine state", "why_tests_cant": "A test prints the names it thought of; which opcodes run without aborting is a property of the dispatch in every state.", "anchors": ["core/include/Ab/XDisasm.hpp.jinja: cstring, name", "core/include/Ab/Opcode.hpp.jinja: Opcode", "data/abx_operators.yaml", "core/src/ab-core-Interpreter.cpp.jinja: INSTRUCTION_TABLE"]}
{"id": "C112", "title": "The interpreter's trace tells what was executed", "statement": "While a function runs, the trace on standard error names each instruction executed, in order, with its address, the values of its operands and its result. (False: operands are shown as their registers are afterwards, so that an instruction that overwrites an operand shows the result in its place.)", "quantifier": "every well-formed body, every start memory (all arguments), every number of instructions, as long as no arithmetic overflows", "why_tests_cant": "The trace of a run depends on the whole execution; tests run the interpreter with the trace scrolling by unchecked.", "anchors": ["core/src/ab-core-Interpreter.cpp.jinja: TRACE_ENTER, TRACE_PRINT, do_interpret"]}
{"id": "C113", "title": "Parsing EDN writes nothing", "statement": "Parsing a text writes nothing to the standard streams: its contents do not leak into a program's output. (False: every string, symbol and keyword is written to standard error.)", "quantifier": "every text that is split into tokens, every symbol table, however parsing ends", "why_tests_cant": "Whether anything is written depends on every token of the text, and test frameworks let standard error through.", "anchors": ["edn/src/ab-edn-parser.cpp: parse, parse_string, parse_symbol, parse_keyword", "util/include/Ab/Debug.hpp: AB_DBG_MSG"]}
{"id": "C114", "title": "Linear memories are separate", "statement": "In a process with any number of virtual machines (each has a linear memory) or linear memories, created, moved or copied, grown and destroyed in any order while other code maps memory too, every memory that exists can be read and written throughout its size, no two share a page, and pages mapped by others are not touched.", "quantifier": "every lawful operating system (where it puts mappings, what it refuses), every initial page table and every sequence of operations", "why_tests_cant": "depends on where the operating system puts mappings and on the order in which objects are moved and destroyed; a test sees one layout", "anchors": ["core/include/Ab/LinearMemory.hpp: LinearMemory", "core/include/Ab/VirtualMachine.hpp: VirtualMachine(VirtualMachine&&)", "util/include/Ab/Page.hpp: Page"]}
{"id": "C115", "title": "Virtual machines can be moved", "statement": "A virtual machine can be moved: whatever machines and contexts a program creates, moves and destroys \u2013 each context before its machine, the new machine taking over the contexts of the one it was moved from \u2013 nothing undefined happens, and each machine lists exactly its contexts, newest first.", "quantifier": "every sensible sequence of creating, moving and destroying machines and creating and destroying contexts on them, any number of each", "why_tests_cant": "ranges over all histories of several machines and contexts whose links are shared", "anchors": ["core/include/Ab/VirtualMachine.hpp: VirtualMachine(VirtualMachine&&), Context", "util/include/Ab/IntrusiveList.hpp: IntrusiveList"]}
{"id": "C116", "title": "Counted pointers inside counted objects", "statement": "Objects that contain counted pointers \u2013 lists, trees, graphs \u2013 can be built, walked and cut with assignments between variables and members: whatever a program does, no deleted object is used, each object that exists counts exactly the variables and members that refer to it, and when no variable refers to anything all that is left are cycles.", "quantifier": "every program of makings, copy, pointer and move assignments, clearings and uses, over any number of variables, objects and members, with any aliasing", "why_tests_cant": "ranges over all programs and all shapes of the object graph, and deleting one object deletes arbitrarily many others", "anchors": ["util/include/Ab/Rc.hpp: Rc, decref, mkrc"]}
{"id": "C117", "title": "Optional pointers and nested optional values", "statement": "A Maybe of a pointer type, or of another Maybe nested to any depth, holds what was last put in it and gives it back; assigning through it replaces the value; map and apply call their function exactly when there is a value, once, with that value, and mapping two functions one after the other is mapping both at once.", "quantifier": "every value of every such type to any nesting depth, every function, and every program of constructions, copies, moves, assignments, assignments through * and ends of life over any number of variables", "why_tests_cant": "ranges over unboundedly nested types, all functions and all programs", "anchors": ["util/include/Ab/Maybe.hpp: Maybe, just, map, apply", "util/include/Ab/MaybeStorage.hpp: MaybeStorage<Type, true>", "util/include/Ab/TypeTrait/Nullable.hpp"]}
{"id": "C118", "title": "What the disassembler prints, the assembler reads", "statement": "The text ab-disasm prints for a module, saved in a file, is read by ab-asm to its end: the lexemes it lists are together exactly the text, and are the parentheses and words of the module's entries in order.", "quantifier": "every module the disassembler prints, with or without --verbose, every file name and every file system that holds the text", "why_tests_cant": "ranges over all modules of any number and length of sections, composed through two programs", "anchors": ["disasm/src/ab-disasm-main.cpp", "core/include/Ab/Wasm/Printing.hpp", "wast/src/ab-wast-Lexer.cpp.rl: Lexer", "asm/src/ab-asm-main.cpp: main"]}
{"id": "C119", "title": "Persistent vectors are shallow and small", "statement": "In a program over persistent vectors of at most 2^30 elements that assigns none to itself, reading any element of a vector of n elements looks at exactly as many tree nodes as the base-4 logarithm of n, rounded up and at least one; and all versions together never occupy more tree nodes than a third of the elements held plus one such depth per version.", "quantifier": "every program of constructions, appends, assignments and ends of life over any number of variables, every index", "why_tests_cant": "ranges over all programs and sizes; the depth and the sharing depend on the whole history", "anchors": ["util/include/Ab/Vector.hpp: Vec::at, leafFor, nodefor, cons"]}
{"id": "C120", "title": "Looking up a line takes logarithmically many steps", "statement": "Looking up the line and column of any offset in a table of n lines takes at most k iterations of the search, where 2^k is at most 2n, and yields the right location.", "quantifier": "every list of line breaks recorded in increasing order and every offset", "why_tests_cant": "ranges over tables of any length and all offsets", "anchors": ["parse/include/Ab/Parse/LineInfo.hpp: LineInfo::line, location"]}
{"id": "C121", "title": "Loading takes time in proportion to the file", "statement": "Whatever bytes it is given, and whether it accepts them or not, compile does at most a hundred operations for each byte, an operation being the reading of a byte or looking at one entry of a function type.", "quantifier": "every byte string", "why_tests_cant": "ranges over all byte strings; the work depends on how sections refer to each other", "anchors": ["core/src/ab-core-Loading.cpp: compile, decode_type_section, decode_func_section, decode_code_section", "core/include/Ab/Func.hpp: Func::Func", "core/include/Ab/Types.hpp: FuncType::arg_nregs, ret_nregs"]}
{"id": "C122", "title": "Layout of EDN text does not matter", "statement": "Spaces, tabs, commas, line breaks and comments may be put between the tokens of a text, or taken out as long as the tokens stay what they are, without changing what is read: the same nodes, the same symbols and the same errors, each at the same token, or the same failure.", "quantifier": "every text, well formed or not, every place between two pieces of it, every blank text put there", "why_tests_cant": "ranges over all texts and all ways to lay them out; what a lexer takes for one token depends on all that follows", "anchors": ["edn/src/ab-edn-lexer.cpp.rl: ab_edn_lexer, Lexer::next", "edn/src/ab-edn-parser.cpp: parse"]}
{"id": "C123", "title": "One EDN text after another", "statement": "If a text that ends with a line break is read without errors, then reading it with a second text behind it is reading the first and then, with the symbols the first has left, the second: the nodes of the first are followed by those of the second, the errors of the second are reported where they now stand, and the whole fails or does not end exactly when the second does.", "quantifier": "every two texts, the first read without errors and the second well formed or not, every symbol table to begin with", "why_tests_cant": "ranges over all pairs of texts; what a lexer takes for one token depends on all that follows, and a reader of the whole sees neither text end", "anchors": ["edn/src/ab-edn-lexer.cpp.rl: ab_edn_lexer, Lexer::next", "edn/src/ab-edn-parser.cpp: parse"]}
{"id": "C124", "title": "A hash depends on every part", "statement": "Replacing one node anywhere in an EDN tree by another changes the hash of the tree exactly when the two nodes hash differently; different symbols and different keywords hash differently, leaves of another kind do unless the standard library hashes their values alike; a list and a vector of the same elements hash differently. Another type for one argument or result changes the hash of a function type, another minimum or maximum that of limits.", "quantifier": "all trees, all places in them, all nodes to put there; all function types and limits; all standard library hashes (one-to-one for the last two)", "why_tests_cant": "ranges over all trees of any size and all 64-bit hashes; a test tries a few trees and cannot see that no part is lost by the arithmetic modulo 2^64", "anchors": ["edn/include/Ab/Edn/Ir.hpp: node_hash, List::hash, Vector::hash, Map::hash", "util/include/Ab/HashUtilities.hpp: mix, combine_hashes", "core/include/Ab/Types.hpp: FuncType::hash, Limits::hash"]}
{"id": "C125", "title": "EDN texts compare as the data written", "statement": "Of the nodes read from one text, or from two texts read one after the other with the symbols kept, any two compare equal exactly when they were written as the same data: the same up to layout and the order of map entries. Which names were interned before does not matter.", "quantifier": "every two documents of nil, booleans, integers, strings, symbols, keywords, lists, vectors and maps at any depth, every layout of their texts, every table of names interned before, every pair of nodes read", "why_tests_cant": "ranges over all pairs of documents, layouts and orders of entries; equality of maps rests on hashing, symbol numbering and the order a hash table happens to keep", "anchors": ["edn/src/ab-edn-parser.cpp: parse", "edn/include/Ab/Edn/Ir.hpp: node_eq, node_hash", "edn/src/ab-edn-lexer.cpp.rl: ab_edn_lexer"]}
{"id": "C126", "title": "Memory units", "statement": "So many bytes, kibibytes, mebibytes, gibibytes or tebibytes, given as a number of any integer type or as a literal, are exactly 1, 2^10, 2^20, 2^30 or 2^40 times as many bytes.", "quantifier": "every integer type, every value of it, every unit, every literal", "why_tests_cant": "ranges over all values of all integer types, including those whose product does not fit", "anchors": ["util/include/Ab/Bytes.hpp: bytes, kibibytes, mebibytes, gibibytes, tebibytes, operator\"\" _B, _KiB, _MiB, _GiB"]}
{"id": "C127", "title": "Module files that lost their end", "statement": "Loading a module file of which the end is missing (a copy that was interrupted, a disk that was full) ends in DecodeError, wherever the file was cut.", "quantifier": "every module ModuleWriter can write, every place to cut the file; for the prefix theorem every file and every place", "why_tests_cant": "ranges over all modules and all places to cut their files", "anchors": ["core/src/ab-core-Loading.cpp: compile, decode_type_section, decode_func_section, decode_code_section", "core/include/Ab/ModuleWriter.hpp: ModuleWriter::finalize, append_module"]}
{"id": "C128", "title": "EDN texts that lost their end", "statement": "When the end of an EDN text is missing, reading what is left never passes for the whole: it reports an error, or it yields the first data of the whole text, each complete; a list, vector or map that is still open is always reported.", "quantifier": "every EDN text and every place to cut it", "why_tests_cant": "ranges over all texts and all places to cut them", "anchors": ["edn/src/ab-edn-lexer.cpp.rl: Lexer::next", "edn/src/ab-edn-parser.cpp: parse, parse_node, parse_list, parse_vector, parse_map"]}
{"id": "C129", "title": "WebAssembly files that lost their end", "statement": "A WebAssembly file of which the end is missing is rejected, whatever part of it is missing; nothing that is not in the file is ever reported to the visitor.", "quantifier": "every module, every visitor and every place to cut the file", "why_tests_cant": "ranges over all modules, all visitors and all places to cut them", "anchors": ["core/include/Ab/Wasm/Reader.hpp: Reader::module, sections, section, type_section, function_section", "util/include/Ab/leb128.hpp: uleb128, ReaderInput::get"]}
{"id": "C130", "title": "WebAssembly texts that lost their end", "statement": "When the end of a WebAssembly text is missing, lexing what is left delivers exactly the tokens of the whole text that end where the text now ends or before, in the same places, followed by what is left of the word or identifier the end is inside of, which starts in the same place and ends where the text does; nothing else.", "quantifier": "every text below two gigabytes, whatever it is made of, and every place to cut it", "why_tests_cant": "ranges over all texts and all places to cut them", "anchors": ["wast/src/ab-wast-Lexer.cpp.rl: Lexer::lex", "wast/include/Ab/Wast/Lexer.hpp: Lexer"]}
