#!/usr/bin/env python3
"""Regenerates /verif/properties.jsonl.  Each entry: id,title,statement,quantifier,why_tests_cant,anchors."""
import json
P=[]
def p(title,statement,quantifier,why,anchors):
    P.append(dict(id="C%02d"%(len(P)+1),title=title,statement=statement,quantifier=quantifier,why_tests_cant=why,anchors=anchors))

# ---- integer encodings -------------------------------------------------
p("varuint32 round trip",
  "Whatever 32-bit number is appended with append_varuint32, reading a varuint32 back at that position (with anything before and after it in the buffer) yields exactly that number and leaves the read position exactly at the end of the appended bytes.",
  "every 32-bit value, every prefix and suffix of surrounding bytes",
  "2^32 values times unboundedly many contexts; the boundary between 1..5 byte encodings and the 5th byte's truncated bits are easy to sample wrongly",
  ["util/include/Ab/VarInt.hpp: append_varuint, append_varuint32","core/src/ab-core-Loading.cpp: Decoder::read_varu, read_varu32"])
p("varuint encoding is minimal, prefix-free and injective",
  "The bytes append_varuint32 produces are 1 to 5 long, exactly as many as the value's base-128 digits, every byte but the last has the continuation bit and the last one does not; two different values never get encodings one of which is a prefix of the other.",
  "every pair of 32-bit values",
  "a statement about all pairs of values",
  ["util/include/Ab/VarInt.hpp: append_varuint, append_varuint32, append_varuint7"])
p("varuint reader is safe and computes the LEB128 value modulo 2^32",
  "On any buffer and position, reading a varuint32 either raises DecodeError or consumes 1 to 5 bytes, all inside the buffer, ending at the first byte without continuation bit, and yields the base-128 value of those bytes modulo 2^32. It raises DecodeError exactly when the first five bytes all carry the continuation bit or the buffer ends before a terminating byte.",
  "every byte buffer and position in it",
  "all malformed and truncated inputs, at every length",
  ["core/src/ab-core-Loading.cpp: Decoder::read_varu, Decoder::read"])
p("out-of-range varuint32 values are rejected",
  "A varuint32 whose encoded value does not fit in 32 bits is reported as a DecodeError rather than silently changed into another number.",
  "every byte buffer",
  "only an argument over all 5-byte encodings shows which ones are silently truncated",
  ["core/src/ab-core-Loading.cpp: Decoder::read_varu"])
p("signed varint reader computes the sign-extended LEB128 value",
  "Reading a signed varint32 (varint7) yields the sign-extended base-128 value of the consumed bytes, with no undefined behaviour.",
  "every byte buffer",
  "undefined shifts occur only on particular lengths and sign bits",
  ["core/src/ab-core-Loading.cpp: Decoder::read_vari, read_vari32, read_vari7"])
# ---- module format -------------------------------------------------------
p("module write / compile round trip",
  "Writing a module (types, function declarations, code with register counts) and compiling the bytes yields a module with exactly the same type table, the same function-to-type assignment, the same variable-register counts, and for each function a body that points at exactly the written instruction bytes.",
  "every module whose vectors fit in 32-bit counts and whose functions refer to existing types",
  "unboundedly many modules, section sizes crossing each varint length boundary, empty sections omitted",
  ["core/include/Ab/ModuleWriter.hpp: ModuleWriter, CodeWriter","core/src/ab-core-Loading.cpp: compile"])
p("compile is total and memory safe on arbitrary bytes",
  "On any byte string compile terminates, and it never reads a byte outside the string it was given; whenever it returns a module, every function's body pointer lies inside the module bytes and every function carries the type-table entry its declaration named when it was decoded.",
  "every byte string",
  "adversarial inputs are unbounded; fuzzing samples",
  ["core/src/ab-core-Loading.cpp: compile, Decoder, decode_type_section, decode_func_section, decode_code_section","core/include/Ab/Module.hpp: Module::type_for"])
p("malformed module bytes are reported as DecodeError, never a process abort",
  "compile reports every malformed input as a DecodeError exception; it never aborts or terminates the process.",
  "every byte string",
  "the claim is over all malformed inputs",
  ["core/src/ab-core-Loading.cpp: compile, Decoder::reposition","core/include/Ab/Module.hpp: Module::type_for"])
p("header and section validation",
  "compile returns a module only if the bytes start with the 8-byte magic/version header; any string with a wrong magic or version is rejected with DecodeError, and any section code above 0x0b is rejected with DecodeError.",
  "every byte string",
  "quantifies over all wrong headers and all section codes at all positions",
  ["core/src/ab-core-Loading.cpp: compile, read_section_code","core/include/Ab/ModuleConstants.hpp"])
p("declared section sizes are enforced",
  "If compile returns a module, then each section of the file occupied exactly as many bytes as its declared size; a section with a wrong size is rejected with DecodeError.",
  "every byte string",
  "quantifies over all files with an inconsistent size",
  ["core/src/ab-core-Loading.cpp: decode_type_section, decode_func_section, decode_code_section"])
p("function bodies stay within their own code entry",
  "In a compiled module each function body starts inside the byte range of its own code entry as given by the entry's declared size, so bodies of different functions never overlap.",
  "every byte string that compiles",
  "only malformed entries (size smaller than the register-count field) break it",
  ["core/src/ab-core-Loading.cpp: decode_code_section"])
p("module builder preserves instructions and register numbers",
  "Building a function node by node and writing it produces an instruction stream that decodes back, opcode by opcode and operand by operand, to the instructions that were pushed, in order.",
  "every instruction list with 32-bit register operands",
  "operands are 32-bit in the builder but one byte in the stream",
  ["core/include/Ab/ModuleBuilder.hpp: FuncNode::accept, ModuleNode::accept","core/include/Ab/ModuleWriter.hpp: CodeWriter"])
p("instruction list reader visits the whole list and terminates",
  "Traversing an instruction stream with InstructionListReader reports each instruction once, in order, and terminates.",
  "every byte sequence produced by the code writer",
  "non-termination on an unhandled opcode cannot be observed by a finite test",
  ["core/include/Ab/ModuleReader.hpp: InstructionListReader::accept"])
# ---- types ---------------------------------------------------------------
p("argument slot layout",
  "The stack slots assigned to the successive arguments of a call are contiguous and disjoint, start at slot 0, are wide enough for their type, and together cover exactly the number of argument registers the function type reports.",
  "every sequence of argument types",
  "arbitrary-length mixed 32/64-bit signatures",
  ["core/include/Ab/Types.hpp: nth_slot_index, slots_taken, nreg, FuncType::arg_nregs"])
p("function type equality and hashing",
  "Two function types compare equal exactly when their argument and return type sequences are identical, equality is an equivalence, and equal function types have equal hashes (likewise for Limits).",
  "all pairs of function types",
  "all pairs of unbounded sequences",
  ["core/include/Ab/Types.hpp: FuncType::operator==, FuncType::hash, Limits::operator==, Limits::hash"])
p("static_call signature check",
  "static_call runs a function exactly when the C++ argument and return types map one-for-one to the function's declared value types; any other call aborts before the frame is built, leaving the interpreter state untouched.",
  "every declared type and every call signature",
  "all pairs of signatures",
  ["core/include/Ab/Types.hpp: types_match","core/include/Ab/VirtualMachine.hpp: static_call"])
# ---- interpreter ----------------------------------------------------------
p("interpreter refines the abstract register machine",
  "Running any function body whose register operands are below the function's register count and whose control flow stays in the body behaves, step for step and for any number of steps, like an abstract machine with a register file of 32-bit values: same register contents, same control flow, same exit kind and value.",
  "every body, every argument assignment, every number of steps",
  "loops make executions unbounded",
  ["core/src/ab-core-Interpreter.cpp.jinja: do_interpret","core/include/Ab/Opcode.hpp.jinja"])
p("execution touches only its own frame",
  "While a function whose register operands are below its register count runs, no stack byte outside its own register area changes.",
  "every body, every start state, any number of steps",
  "frame safety over all executions",
  ["core/src/ab-core-Interpreter.cpp.jinja: reg_at, do_interpret"])
p("native frames nest and restore",
  "For any well-nested sequence of enter_native_frame / leave_native_frame with matching register counts, each leave restores the stack pointer, instruction pointer and function pointer to their values before the matching enter, and the debug eye-catcher check succeeds as long as only bytes below the frame header are written in between.",
  "every nesting depth, every register count, every write pattern within the frames",
  "arbitrary nesting",
  ["core/src/ab-core-Interpreter.cpp.jinja: enter_native_frame, leave_native_frame"])
p("static_call returns the function's result and restores the caller's state",
  "A top-level static_call to a well-formed function that returns a register value yields exactly that value, and afterwards the stack pointer, instruction pointer, function pointer and all stack bytes at or above the old stack pointer are what they were.",
  "every well-formed function and all arguments",
  "all programs and all arguments",
  ["core/include/Ab/VirtualMachine.hpp: static_call, set_stack_elements, get_stack_elements"])
p("static_call may be nested",
  "It is safe to static_call into the interpreter while another native frame is active: the nested call returns to its caller like a top-level one.",
  "every nesting context",
  "depends on the low byte of the saved instruction pointer, i.e. on the address of the interrupted code",
  ["core/include/Ab/VirtualMachine.hpp: static_call (doc comment), enter_native_frame","core/src/ab-core-Interpreter.cpp.jinja: do_return, do_x32_return"])
p("i32.add and i32.sub compute two's-complement results",
  "i32.add / i32.sub store lhs+rhs / lhs-rhs into the destination register for all register contents, including when destination aliases an operand.",
  "all 2^64 operand pairs and all aliasing patterns",
  "2^64 operand pairs",
  ["core/src/ab-core-Interpreter.cpp.jinja: do_i32_add, do_i32_sub"])
p("branch semantics",
  "goto moves the instruction pointer to the end of the instruction plus the signed offset; goto_if does so exactly when its register is non-zero and goto_unless exactly when it is zero, falling through otherwise; no register changes.",
  "every offset byte and every register value",
  "all offset/value combinations in all states",
  ["core/src/ab-core-Interpreter.cpp.jinja: do_goto, do_goto_if, do_goto_unless"])
p("halt, unreachable and unimplemented opcodes",
  "halt stops without setting the error flag, unreachable stops with the error flag set, every opcode outside the implemented set aborts; in the first two cases the committed instruction pointer is that of the stopping instruction and the registers are untouched. The error flag, once set, is never cleared by later calls.",
  "every state and every opcode byte",
  "all 256 opcodes in all states and all histories",
  ["core/src/ab-core-Interpreter.cpp.jinja: INSTRUCTION_TABLE, do_unreachable, do_halt, do_unimplemented"])
p("every instruction the writer can emit is executable",
  "Any instruction that the module builder and writer can emit is executed by the interpreter (it does not abort as unimplemented).",
  "every instruction kind",
  "relates two tables in different components",
  ["core/include/Ab/ModuleWriter.hpp: CodeWriter","core/src/ab-core-Interpreter.cpp.jinja: INSTRUCTION_TABLE"])
p("calls never overflow the interpreter stack",
  "static_call on a fresh context never moves the stack pointer or writes below the allocated stack, whatever function is called.",
  "every function type and register count",
  "unbounded register counts",
  ["core/src/ab-core-Interpreter.cpp.jinja: Interpreter::Interpreter, enter_native_frame, push_regs"])
p("end to end: built code computes what it says",
  "Building a straight-line integer function, writing it, compiling it, instantiating it and calling it through static_call returns the value that the sequence of additions denotes.",
  "every straight-line function over in-range registers and all arguments for which no intermediate addition overflows",
  "all programs and inputs; ties builder, writer, loader and interpreter together",
  ["core/include/Ab/ModuleBuilder.hpp","core/include/Ab/ModuleWriter.hpp","core/src/ab-core-Loading.cpp","core/src/ab-core-Interpreter.cpp.jinja","core/include/Ab/VirtualMachine.hpp"])
# ---- utilities -------------------------------------------------------------
p("byte buffer behaves like a growable byte list",
  "Any sequence of append / write / read / reserve / clear / release operations on a byte buffer yields the contents a plain list of bytes would have; size never exceeds capacity and capacity at least doubles on growth.",
  "every operation sequence",
  "all histories",
  ["util/include/Ab/ByteBuffer.hpp: ByteBuffer"])
p("byte buffer never uses freed memory",
  "No sequence of public byte-buffer operations makes the buffer use or free memory it has already freed.",
  "every operation sequence",
  "needs the one history that shrinks to zero",
  ["util/include/Ab/ByteBuffer.hpp: resize_capacity, release_span, shrink_to_fit, grow_capacity"])
p("persistent vector is a list and old versions survive",
  "Appending to a persistent vector gives a vector whose elements are the old ones followed by the new one, reading index i yields the i-th appended element, and every older version still reads exactly as before.",
  "every append history and every retained version",
  "all histories, arbitrary sizes crossing trie level boundaries",
  ["util/include/Ab/Vector.hpp: Vec::cons, Vec::at, Vec::update"])
p("persistent vector reference counts are exact",
  "After any history of creating, appending to, copying and dropping vectors, every trie node's reference count equals the number of live references to it; so a node is freed exactly when nothing refers to it, and nothing live is ever freed.",
  "every history",
  "leaks and double frees depend on sharing histories",
  ["util/include/Ab/Vector.hpp: Branch, Leaf, Vec","util/include/Ab/Rc.hpp"])
p("reference-counted handles free exactly once",
  "For any sequence of constructing, copying, moving, assigning, clearing and destroying reference-counted handles, an object is destroyed exactly when its last handle goes away, and never used afterwards.",
  "every sequence of handle operations",
  "all histories including self-assignment",
  ["util/include/Ab/Rc.hpp: Rc"])
p("intrusive list / context registration",
  "After any sequence of entering and leaving contexts (no context entered while already entered, each leave matching an entered context), the VM's context list enumerates exactly the currently entered contexts, most recent first, with consistent forward and backward links.",
  "every sequence of add/remove of member elements",
  "all histories",
  ["util/include/Ab/IntrusiveList.hpp: IntrusiveList::add, remove","core/include/Ab/VirtualMachine.hpp: Context, VirtualMachine::enter, leave"])
p("label table",
  "Labels get distinct ids, a placed label always resolves to the offset given when it was placed, whatever other labels are allocated or placed in between; placing twice, placing an unallocated label and resolving an unplaced label abort.",
  "every sequence of alloc/place/target_of",
  "all histories",
  ["core/include/Ab/Label.hpp: LabelTable"])
p("line and column lookup",
  "Given the recorded line-break offsets in increasing order, the line of an offset is the number of recorded breaks at or before it and the column is its distance from the start of that line; the lookup terminates.",
  "every increasing break list and every offset",
  "binary search over all lists and offsets",
  ["parse/include/Ab/Parse/LineInfo.hpp: LineInfo"])
p("symbol interning is a bijection",
  "Interning returns the same symbol for the same text and different symbols for different texts, whatever was interned in between; the text of a symbol is the text that was interned.",
  "every sequence of intern calls",
  "all histories",
  ["edn/include/Ab/Edn/Ir.hpp: SymbolTable"])
p("EDN node equality is an equivalence",
  "Structural equality of EDN nodes (without sets) is reflexive, symmetric and transitive and holds exactly for structurally identical data.",
  "all EDN trees",
  "all trees of all depths",
  ["edn/include/Ab/Edn/Ir.hpp: node_eq"])
p("equal EDN nodes have equal hashes",
  "Whenever two EDN nodes compare equal, their hashes are equal, so a node can be used as a map key.",
  "all pairs of EDN trees",
  "map iteration order depends on insertion history",
  ["edn/include/Ab/Edn/Ir.hpp: node_hash, Map::hash"])
p("EDN parser terminates on every input",
  "Parsing any text terminates and hands back a document; mistakes in the text end up in its error list, not in an exception.",
  "every text",
  "non-termination is not observable by a finite test",
  ["edn/src/ab-edn-parser.cpp: parse_map, parse_list, parse_vector"])
p("EDN print / parse round trip",
  "Writing an EDN tree of nil, booleans, in-range integers, strings, symbols, keywords, lists, vectors and maps as tokens and parsing the tokens yields the tree again with no error logged.",
  "every such tree",
  "all trees",
  ["edn/src/ab-edn-parser.cpp","edn/src/ab-edn-lexer.cpp.rl"])
p("EDN integer literals",
  "Parsing an integer literal yields the integer it denotes.",
  "every literal",
  "overflow boundary",
  ["edn/src/ab-edn-parser.cpp: parse_integer"])
p("EDN lexing errors are reported",
  "Text that is not a sequence of valid tokens leads to a logged error rather than to silently dropping the rest of the document.",
  "every text",
  "all invalid texts",
  ["edn/src/ab-edn-lexer.cpp.rl: next","edn/src/ab-edn-parser.cpp: parse"])
p("linear memory stays within its limits",
  "After any sequence of grow/shrink requests the number of accessible pages lies between the configured minimum and maximum, a request beyond the maximum raises an error and changes nothing, and the reported size is the accessible pages times the page size and never exceeds the reported maximum size.",
  "every configuration and request sequence",
  "all histories",
  ["core/include/Ab/LinearMemory.hpp"])
p("wasm uleb128 stream reader",
  "Reading an unsigned LEB128 number from a stream returns the encoded value and consumes exactly its bytes; a truncated number is reported as an error.",
  "every stream",
  "all truncations and overlong encodings",
  ["util/include/Ab/leb128.hpp: uleb128, leb128"])
p("command lookup picks the first matching directory",
  "The ab driver runs the first executable named ab-<command> found in the search path directories, in left-to-right order and with AB_PATH before AB_HOME/bin before PATH; it reports failure exactly when no directory contains it.",
  "every search path string and file system",
  "arbitrary path strings including empty components",
  ["ab/src/ab-main.cpp: find_file_in_search_path, find_command"])
p("S-expression output is balanced",
  "For any well-nested use of the S-expression formatter the output has balanced parentheses, every start paired with its end, and the indentation level returns to its initial value.",
  "every well-nested sequence of formatter operations",
  "all nestings",
  ["util/include/Ab/Sexpr.hpp","util/include/Ab/Indent.hpp"])
p("integer hashing and string views",
  "The 64-bit integer hash is injective, and string-view equality holds exactly for equal byte sequences.",
  "all pairs of 64-bit values; all pairs of byte strings",
  "2^128 pairs",
  ["util/include/Ab/HashUtilities.hpp: hash","util/include/Ab/StringSpan.hpp: operator=="])
p("power-of-two size arithmetic",
  "Multiplying, dividing and reducing by a power-of-two size object agrees with ordinary multiplication, division and remainder by that power of two.",
  "every exponent below 64 and every 64-bit operand",
  "all operand values",
  ["util/include/Ab/SizeP2.hpp"])
p("optional value semantics",
  "A Maybe obtained by any sequence of constructions, copies, moves and assignments holds exactly the value (or absence) last given to it.",
  "every sequence of operations",
  "assignment from empty over full is the corner case",
  ["util/include/Ab/Maybe.hpp","util/include/Ab/MaybeStorage.hpp"])
exec(open(__file__.replace("props.py","props_more.py")).read()) if __import__("os").path.exists(__file__.replace("props.py","props_more.py")) else None
open("/verif/properties.jsonl","w").write("".join(json.dumps(x)+"\n" for x in P))
print(len(P))
