# Formal model of ab-vm/ab in Lean 4 — design

## Trusted base

* Lean 4.33.0's kernel. No axioms of our own; every theorem may depend on at most
  `propext`, `Classical.choice`, `Quot.sound` (checked with `#print axioms` by hand and by vcheck).
* The reading of the C++ text into the model: each definition cites the file and lines it models.
  Nothing was compiled or run; the model is hand-written, and its fidelity rests on those citations.
* C++ semantics used in the model: LP64 x86-64 (8-byte pointers, little endian), two's complement,
  `AB_ASSERT` always on and ending the process (`util/include/Ab/Assert.hpp`), an exception leaving a
  `noexcept` function ending the process (`std::terminate`). Memory allocation is assumed to succeed
  (no `std::bad_alloc`) unless a property says otherwise. Alignment faults, strict aliasing and floating
  point are not modelled.

## Outcomes

`Verif/Basic.lean` defines `Outcome α`: `ok a`, `throw e` (C++ exception), `trap why` (AB_ASSERT,
`__builtin_trap`, `std::terminate`), `ub why` (undefined behaviour: out-of-bounds access,
use after free, signed overflow, over-wide shift) and `fuel` (a fuel-bounded loop did not finish; used
to state termination and divergence).  A theorem that concludes `= .ok _` therefore excludes aborts, UB
and non-termination.

## File layout

* `lean/Verif/Model/*.lean` – the model, definitions only, each citing `/repo`.
* `lean/Verif/Spec/*.lean`  – small independent specifications used in statements.
* `lean/Verif/Proof/*.lean` – helper lemmas.
* `lean/Verif/Props/*.lean` – the property theorems (with non-vacuity examples beside each).
* `seeded/LOG.jsonl` – mutation log. `tools/` – scripts generating properties.jsonl / MANIFEST.json.

## Plan per property

| id | what is modelled | how it is proved |
|----|------------------|------------------|
| C01–C03 | `append_varuint`, `Decoder::read`, `read_varu` over byte lists with a position; `UInt32`/`UInt8` bit operations | strong induction on the value; spec = base-128 value of a byte list |
| C04 | same | false: concrete witness of silent truncation; `_partial`: values that fit are never changed |
| C05 | `read_vari` with over-wide shift as `ub` | false for 5-byte negative encodings (witness); `_partial` for the rest |
| C06 | `ModuleWriter` byte layout, `compile` | compositional "reads back" lemmas for varints, types, func decls, code entries |
| C07 | `compile` on arbitrary bytes, buffer reads as outcome `ub` outside the buffer | invariant through the decoder monad; progress measure gives fuel sufficiency |
| C08 | same | false: witnesses for each abort; `_partial`: aborts characterised |
| C09 | same | direct analysis of `compile` |
| C10 | same | false for the code section (witness); `_partial` for type and func sections |
| C11 | same | false (witness); `_partial` under entry sizes at least the register-count field |
| C12 | `FuncNode::accept`, `CodeWriter`, independent instruction decoder | induction; false for register numbers ≥ 256 (witness), `_partial` otherwise |
| C13 | `InstructionListReader::accept` with fuel | false: any other opcode diverges (all fuels); `_partial` for the handled opcodes |
| C14–C16 | `nreg`, slot index sums, `FuncType::==`, `hash`, `types_match` | induction on lists |
| C17–C20, C22–C24 | the interpreter: byte memory, `step`, frames, `static_call` | simulation between byte-level machine and abstract register machine |
| C21 | same | false: witness where the saved ip has a non-zero low byte; `_partial` when it is zero |
| C25 | opcode tables | false for x64.return; `_partial` for the others |
| C26 | stack bounds | false: witness; `_partial` with the exact bound |
| C27 | composition of C06, C12, C20; `C27_any_code` for everything the builder can make | composition; induction over the instructions |
| C28–C29 | ByteBuffer with explicit allocation state | refinement to list; use-after-free witness |
| C30–C31 | Vec over an explicit heap with reference counts | refinement to list + exact-count invariant |
| C32 | Rc handles over an explicit heap | count invariant; self-assignment witness |
| C33 | IntrusiveList over explicit link maps | refinement to a list |
| C34 | LabelTable | refinement to a finite map |
| C35 | LineInfo binary search | loop invariant |
| C36 | SymbolTable | invariant |
| C37–C38 | EDN nodes, `node_eq`, `node_hash` | structural induction; map-hash witness |
| C39–C42 | EDN lexer and parser | fuel-divergence witness; round trip on trees |
| C43 | LinearMemory | invariant; `max_size` witness |
| C44 | leb128.hpp | induction; EOF witness |
| C45 | ab-main search path | induction on the path string |
| C46 | Sexpr Formatter, Indent | induction over well-nested trees |
| C47–C48 | HashUtilities, StringSpan, SizeP2 | bit-vector algebra |
| C49 | Maybe | case analysis; assignment witness |
| C50–C52 | EDN lexer, token positions, LineInfo use, string nodes | equality with an independent character-level grammar (Spec/EdnGrammar); witnesses for line numbers and escapes |
| C53 | `ab` main: argument walk, sub-command dispatch | case analysis over the argument list; `--` witness |
| C54 | SizeP2::pow | exact formula; witness |
| C55–C56 | leb128.hpp signed reader, fixed-width reader | induction on the encoding; shift-by-70 witness |
| C57 | LinearMemory constructor/destructor over a page table | frame reasoning on the page table; throwing-constructor witness |
| C58 | Sexpr stringify | induction; quote witness |
| C59–C60 | Vec iterators, `foreach` | leaf lookup lemma (exact condition for `end()`), padding formula |
| C61–C63 | WebAssembly reader: Reader.hpp, ExprReader.hpp, Expression.hpp | relational encoding grammar (Spec/Wasm); for every encoding the reader equals the grammar's calls, by induction over the grammar; witnesses for what is dropped |
| C64 | disassembler `parseArguments` | induction over written options; witnesses |
| C65–C66 | disassembler `WastPrinter`, Printing.hpp | offset invariant (never returns on a last code section); refinement of the stateful formatter to rendered trees |
| C67 | reader and disassembler termination | invariant "later stream" through every reader function; counting visitor witness |
| C68–C69 | ModuleStorage, Module, ModuleInst, `compile`, `instantiate` as an ownership machine | counting invariant (blocks handed over = held + released; use count = references) |
| C70 | `Func::type()` pointer into a growing vector | types-length invariant of the section loop; capacity formula for doubling |
| C71 | Context, Interpreter constructor/destructor/move, list of contexts | invariant linking list, stacks and contexts; "a shared or deleted stack stays" for moves |
| C72–C74 | WAST lexer (Ragel scanner written out as an automaton) | induction over lexemes with a place computed from the text before; every text splits into lexemes and something unreadable; simulation between one buffer and several |
| C75–C76 | `ab-asm` command line and output | case analysis; composition with C72/C73 |
| C77 | `ab-run` command line | case analysis; composition with C53 |
| C78 | EDN parser's error list against a grammar of token kinds | mutual induction over the grammar one way, over the parser's fuel the other way |
| C79 | `Result<T,E>`: programs over variables, with object lifetimes and a count of objects made and destroyed | invariant over programs; exact converse |
| C80 | `SharedLock`, `LockGuard`: transition system over live guards, calls as atomic steps | reachability by induction over guards |
| C81, C82 | `Span` ordering, `StringSpan::compare` (strncmp written out) | arithmetic; induction over strings |
| C83 | `ModuleNode::write`, `ModuleWriter`, `CodeWriter` over the heap of C28/C29: every temporary, relocation copy, destructor and unwinding path | separation-style invariant (base heap + owned blocks), triples `Writes` per statement, induction over functions; refinement to the byte-list writer of C06 |
| C84 | the loader of C06–C11 | the language as relations `input → item → rest` (`Spec/Loader.lean`: base-128 numbers, counted items, sized sections, code entries, deadly sections); forward and backward simulation for each reader, induction over items, entries and sections; refusal by the totality theorem C07 |
| C85 | `parse_real` | the literal's parts (sign, digits, digits after the point, exponent) as a relation on texts, the denoted fraction, nearest 53-bit number as a specification; induction over the digits with relative error intervals; 0.7 by computing the two roundings that matter; existence of rounding arithmetic proved |
| C86 | EDN nodes as `shared_ptr` objects: a heap of cells with use counts, programs of fifteen kinds of steps | invariant: each count is the number of variables and parts that point to the node; `release` keeps it (induction on the work list); reachability and cycles as relations in Spec/EdnHeap; going back from an unreachable live node must repeat one (pigeonhole) |
| C87 | `node_eq`, `node_hash` on the heap, fuel = recursion depth | `Shows` relates a pointer to a tree; structural induction over the tree, existence of the tree and termination by a depth bound from acyclicity; more fuel changes nothing |
| C88 | `Map::find`, `at`, `insert` on the heap | as C87, with a frame lemma (what a pointer shows depends only on what is within it) |
| C89 | as C86, against a reference semantics in which nothing is destroyed (`Spec/EdnShare.lean`) | forward simulation step by step: every live node has the same contents; hash and equality transported along it |
| C90 | the S-expression formatter and its level counter (`Model/Sexpr.lean`), against a layout function on lines (`Spec/Sexpr.lean`) | invariant relating the formatter state to the finished text and the current line |
| C91 | the disassembler's verbose visitor (`Model/Disasm.lean`), against `Spec/Disasm2.lean` | exact text by induction over sections and entries; a comment remover shown to undo the additions |
| C92 | `ExprPrinter` and the operator name table (`Model/Disasm.lean`), against structured code (`Spec/Code.lean`) | mutual induction over structured code; names by the kernel over all 256 codes |
| C93 | the EDN parser's error log (`Model/EdnParser.lean`), against a left-to-right bracket scanner (`Spec/EdnErrors.lean`) | induction over the fuel of the three mutually recursive parsers: each logs what the scanner reports of the tokens it consumes, in order |
| C94 | `ab` and `ab-help` (`Model/Driver.lean`, `Model/Tools.lean`) | case analysis over all command lines, composing the two programs |
| C95 | the interpreter loop and `static_call` (`Model/Interp.lean`), `ForwardOnly` in `Spec/Assigned.lean` | the abstract machine of C17 passes at least one more instruction at each step |
| C96 | the same; `Path` and `WrittenBeforeRead` in `Spec/Assigned.lean` | lockstep of two abstract machines that agree on the registers written so far; the full claim refuted by a function that counts its calls |
| C97 | `compile` with its `reserve` calls (`Model/LoaderMem.lean`) | the elements read so far never exceed the bytes read (induction over the sections of C84's grammar); the full claim refuted by a 15-byte file |
| C98 | one memory, one `ExecState` per context, calls in any order (`Model/World.lean`, on top of `staticCall`) | two-run relation (`Proof/World.lean`): runs from memories that agree on the context's stack stay in step and change nothing else; then induction over the history |
| C99 | composition of C06, C17, C20 over all well-formed code (`Spec/Answer.lean`) | composition; demonstrated on a multiplication loop by induction on the factor |
| C100 | parse_real over an arithmetic with the IEEE laws of zero, infinity and NaN (`Spec/EdnDouble.lean`) | induction on the digits; the full claim refuted by 0e309 |
| C101 | tokens as objects, `operator==` (`Model/Token.lean`) | case analysis over kinds, with the places from C50; refuted for NaN |
| C102 | `SrcRange::strv` with 64-bit lengths (`Model/Token.lean`) | C50 and an invariant of the scanner position |
| C103 | the byte buffer of `Model/ByteBuffer.lean`, appends only | invariant along the appends: capacity at most double the size, sum of moved blocks below the capacity |
| C104 | the persistent vector of `Model/Vec.lean` | exact allocation count of `update` by induction on the level, with the invariant of C30 |
| C105 | the scanner of `Model/EdnLexer.lean` (`scan`, with the bytes it reads) | a lemma that a scan goes at most two bytes beyond the match except in strings and after a zero, then potential argument over the lexemes; the negation by induction on the number of zeros |
| C106 | `Printer.body`, `printExpr`, `putBody` of `Model/Disasm.lean`; instruction names restated by groups in `Spec/DisasmCode.lean` | induction on the instructions with the block depth as invariant; the names by evaluation over all 256 codes |
| C107 | `parseD` (`Model/EdnStack.lean`): the parser with stack for a given number of open collections; spec: greatest number of open collections over the prefixes, nesting depth of a tree | simulation with the unlimited parser by induction on fuel, carrying the open collections; depth by induction on trees |
| C108 | `releaseD` (`Model/EdnHeapStack.lean`): ending the lives of node pointers with stack for a given number of nested destructors; hashing and comparing as in C83 with fuel as the stack; spec: chains of nodes | equality with `release` by induction on the steps, with a rank from the chains; the overrun by following the chain |
| C109 | `RawToken.text` (`Model/TokenText.lean`): the formatters, text as characters | unique reading: the first word, the middle and the place are recovered by splitting at spaces and parentheses; decimal is injective |
| C110 | `Box.step` over named variables and boxes (`Model/Box.lean`) | induction over the program against a history specification that knows only who wrote what last |
| C111 | `OpName.name` (`Model/OpName.lean`) beside the dispatch of `Interp.step` | exhaustive over the byte for the table, case analysis on the dispatch for every state |
| C112 | `Trace.run`: the dispatch loop with what its handlers print (`Model/Trace.lean`) | erasure to `run`; simulation of the abstract machine (step_sim, AtBoundary) step by step |
| C113 | `Print.parse`: the parser with what it writes (`Model/EdnPrint.lean`) | simultaneous induction on the fuel: same result as `parse`, output is the lines of the tokens consumed |
| C114 | page table with several memories and the pages of others | invariant over all programs: each memory owns its reservation, reservations are disjoint and disjoint from foreign pages; witnesses for copies |
| C115 | machines with list roots, links in the contexts, each context's machine pointer | refinement of machines-with-lists by induction over programs; frame lemmas for the intrusive list; witnesses |
| C116 | objects with counters and fields, variables, deletion with a worklist | invariant (counters plus uncounted references = references) by induction over programs; a frame lemma for the member being overwritten, whose stale value stays during deletion; witnesses |
| C117 | types as nested Maybes over pointers and plain objects, values as stored | induction on values for assignment through all levels; invariant over programs; witnesses |
| C118 | composition of the models of the two tools | the disassembly as written lexemes; the lexeme list is proper; characters outside the lexer's alphabet stop it |
| C119 | reader instrumented with the nodes looked at; live nodes counted in the heap | invariant of C30/C31; a node list per version, closed under children, of bounded length |
| C120 | the search loop instrumented with its iterations | induction: each iteration halves the interval; the wrapping r = m - 1 never happens at m = 0 |
| C121 | the loader again, in a monad that counts reads and looks also on failure | erasure to the plain loader; bound relative to the bytes moved over, composed along binds; family of files through the C06 round trip |
| C122 | lexer and parser as for C39 and C50; blank text and reading alike in Spec.EdnLayout | insertion lemma on longest matches (a string is text in which every quote follows a backslash); simulation of the parser over related token lists |
| C123 | lexer and parser as for C39 and C50; outcome of the whole from that of the second text in Spec.EdnConcat | longest matches before a line break stay the longest; the parser reads past the first tokens in the same way as long as it logs nothing; simulation over moved tokens for the second text |
| C124 | hashes as for C15, C38 and C47; replacement of one node in Spec.EdnReplace | mix is one-to-one in each argument (37 is odd), induction over the elements after the place and over the depth |
| C125 | lexer, parser, node equality and symbol table as for C37, C40 and C50; written data are the trees of Spec.EdnTree | trees related to nodes by reading; equality of nodes is sameness of data (C37), sameness of nodes is sameness of trees by induction on trees, with the symbol table injective |
| C126 | the five functions and four literals over the integer types of x86-64, with promotion to int, wrapping and undefined signed overflow | induction on the nesting of the multiplications, linear arithmetic per type |
| C127 | the model of C84 and the writer of C06; the loss is a suffix of the written bytes | the relations of Spec/Loader are unambiguous and do not look behind what they read; the sections of a written file give all places where a module comes out; induction on code entries for the aborts |
| C128 | the lexer and parser models of C37, C78 and C123 | cutting keeps the pieces that end before the cut; what is left of a piece has no brackets; data at the beginning of a token sequence are read alike whatever follows |
| C129 | the reader model of C62 and C63 | a vector of which entries are missing is read like the entries that are there, then one round on a stream at its end, whose outcome is computed for every kind of section |
| C130 | the lexer model of C72 to C74 | induction over the lexemes of the whole text: those before the cut stay, the one that is cut becomes a shorter one of its kind or a lone dollar sign |

Every property can be expressed in a model; none is classed "not applicable".

"False of the code" in MANIFEST notes means: the property as a user would state it does not hold of the
program as written. The negation is then a theorem with a concrete witness (`Cnn_negation…`), and the
`_partial` theorem proves it for everything outside the excluded cases, which are spelled out in its statement.

## What is modelled, and what is assumed, part by part

| code | model | assumed / simplified |
|------|-------|----------------------|
| core `Module*.hpp`, `ModuleWriter`, `ModuleBuilder`, `Func.hpp` | VarInt, Types, Module, Builder | buffers are byte lists with a base address; `std::vector` = list; allocation succeeds |
| core interpreter template, `State.hpp`, `VirtualMachine.hpp`, `Entry.nasm` | Interp | addresses are naturals; memory is the 2048-byte stack and the module bytes, anything else is `ub`; trace output left out; a backward `goto` adds a wrapped unsigned offset to the instruction pointer, which is taken to step back as the machine does |
| util `ByteBuffer.hpp` | ByteBuffer | allocations have serial numbers (never reused), `realloc` always moves, failures and fresh contents are arbitrary parameters, `malloc(0)` is non-null |
| util `Rc.hpp` | Rc | objects hold no handles; constructors that cannot be instantiated left out |
| util `Vector.hpp` (`Vec`) | Vec | unbounded counters and sizes, no address reuse; copy/move constructors, `assoc`, `conj` do not compile and are left out; `dump` left out |
| util `IntrusiveList.hpp` with `VirtualMachine.hpp` contexts | IntrusiveList | linked elements stay allocated |
| core `Module.hpp`, `Loading.hpp` ownership | Own | `std::shared_ptr` is a use count; blocks, modules and instances are numbered, numbers not reused; null spans not compiled |
| core `Func::type()` | TypeRef | `std::vector` reallocates exactly when full; growth policy a parameter (doubling in the witness) |
| core `Context`, `Interpreter` lifetimes | Context | the VM outlives its contexts; stack numbers not reused |
| core `Label.hpp`, parse `LineInfo.hpp` | Label, LineInfo | sizes are naturals, wrap-around explicit where the code can wrap |
| edn `Ir.hpp` | EdnNode | nodes are values; mutators and metadata left out; `Set` left out (no members, comparing aborts); hash functions and map iteration order are parameters (`Lib`); `unordered_map::find` = equal hash and equal key |
| edn lexer (Ragel) | Regex, EdnLexer | Ragel's scanner is taken to be longest match, first rule on ties; the rule regexes are transcribed and proved equal to an independent grammar |
| `parse_real` | EdnReal | the machine written out as states; the arithmetic of `double` is a parameter: exact fractions, or any rounding to a nearest 53-bit number (ties either way, `pow` off by at most one unit and exact for 10^0, each operation rounded on its own: no fused multiply-add or extended precision); the exponent range of `double` is not limited |
| edn `Ir.hpp` nodes as objects | EdnHeap | `shared_ptr` is a use count (no weak count); addresses are not used again; recursion depth is not limited; `unordered_map` is its entries in iteration order with the hash of each key as it was at insertion, the order after an insertion a parameter; mutation through `elements()` only by `clear()`; single-threaded |
| edn parser | EdnParser | tokens lexed before parsing, so if the text both aborts in the parser and is undefined in a later token, the model shows only one of the two |
| util `SizeP2`, `StringSpan`, `Span`, `HashUtilities` | Util, Types | |
| util `leb128.hpp` | LebStream | a stream is its remaining bytes and the end-of-file flag; I/O errors other than end-of-file left out |
| core `LinearMemory.hpp`, util `Page.hpp` | LinearMemory | the operating system is a parameter: even page size, placements on free pages, a refused request changes nothing |
| ab `ab-main.cpp` | Driver | environment, directory contents and `execvp` results are parameters; the `malloc`/`delete` mismatch on the path buffer is treated as harmless |
| util `Sexpr.hpp`, `Indent.hpp` | Sexpr | output is the list of characters |
| util `Maybe.hpp`, `MaybeStorage.hpp` | Maybe | types without a null value; `map`, `apply` left out; exceptions from constructors left out |
| util `Result.hpp` | Result | types are trivial or class types with all operations their own; other instantiations and what does not compile left out; exceptions left out |
| core `ModuleWriter.hpp`, `ModuleBuilder.hpp` (write), util `VectorUtilities.hpp` over `ByteBuffer` | WriterHeap | `std::vector` storage outside the modelled heap, its failures and growth policy arbitrary oracles; relocation constructs the new element first and copies |
| core `VirtualMachine.hpp` (several `Context`s) | World | the stacks of different contexts are disjoint (each is its own allocation); calls come one after the other; code and static data are not written |
| edn `Token.hpp`, parse `Location.hpp` | Token | the union is 64 bits; positions are naturals (lengths are taken modulo 2^64) |
| edn parser on a finite stack | EdnStack | one unit of stack per open collection; overrunning is undefined behaviour; stack taken by hashing, comparing and destroying nodes is not counted |
| edn nodes on a finite stack | EdnHeapStack | one unit of stack per nested destructor, hash or comparison; overrunning is undefined behaviour |
| util `SharedLock.hpp`, `LockGuard*.hpp` | Lock | calls are atomic steps; `yield`, `engage`, `disengage` (not defined) left out |
| core `Wasm/Reader.hpp`, `ExprReader.hpp`, `Expression.hpp`, `OpCode.hpp.jinja` | WasmOps, WasmReader | a stream is remaining bytes, eofbit, failbit, bytes consumed; files can be positioned past their end; allocations above a parameter throw; messages on the error stream left out; exceptions are their message |
| wast `ab-wast-Lexer.cpp.rl` | Wast | the Ragel scanner is taken to be longest match, first rule on ties, entering and leaving actions of its sub-machines where Ragel puts them; its automaton is written out by hand; a pointer is a buffer number and an index |
| asm `ab-asm-main.cpp`, run `ab-run-main.cpp`, help `ab-help-main.cpp` | Tools | `open`, `fstat`, `mmap` are parameters; a process has a name (`argc ≥ 1`); messages are shown as the way the process ends |
| disasm `ab-disasm-main.cpp`, core `Wasm/Printing.hpp` | Disasm | output is a list of characters, a byte each; overload resolution of `<<` in `Ab::Wasm` was checked with a compiler on a stand-alone excerpt; opening files left out |
| debug text | TokenText | writing of doubles a parameter; text as characters |
| util `Box.hpp` | Box | the overload each expression picks is written into the model, checked with a compiler on an imitation of the overload set; boxes of one type; the forwarding constructor left out |
| core `XDisasm.hpp.jinja`, `Opcode.hpp.jinja`, `data/abx_operators.yaml` | OpName | the table is the generated switch; names as strings |
| core trace in `ab-core-Interpreter.cpp.jinja` | Trace | a line is kept as its parts (name, number, address, value); printing does not fail; messages around do_interpret left out |
| edn debug output of `ab-edn-parser.cpp` | EdnPrint | printing does not fail; texts the lexer rejects are left out |
| core `LinearMemory` copies, `VirtualMachine` moves | Memories | the rest of the process is the pages it maps; sizes that wrap are left to C43 |
| core `VirtualMachine` moves and contexts | Machines | contexts are not moved here (C71); interpreters left out |
| `Rc` members of counted objects | RcGraph | order of deletion inside a destructor, recursion depth not limited |
| `MaybeStorage<Type, true>`, `map`, `apply` | MaybeNull | object counts (in Maybe), other instantiations, exceptions |
| `at`, `leafFor` counting the nodes read | VecSteps | - |
| `line`, `location` counting iterations | LineSteps | - |
| loader with its work counted | LoadWork | checks, comparisons, appends (boundedly many per byte read), reallocation |
| util `Bytes.hpp` | Units | integer types of x86-64; popcount left out (a compiler builtin) |

Not modelled, file by file:

- needs a library that is not in the repository (OMR JitBuilder): `compiler/`, `interpreter/`, core `InterpreterBuilder.hpp`;
- does not compile, and nothing includes it: parse `match.hpp`; edn `Intern.hpp`, `TokenTree.hpp`, `Fmt.hpp`; core
  `ModulePrinting.hpp`; util `Combinators.hpp`, `Ranges.hpp`, `Id.hpp`, `Fn.hpp` (a destructor function that
  may throw is stored as one that may not), `BitField.hpp`, `MemoryRegion.hpp`, `SlabAllocator.hpp`, `IntervalTree.hpp`, `Latch.hpp`,
  `Synchronic.hpp`, `Atomic.hpp`, `Cli.hpp`, `SexprPrinter.inl.hpp` (the header it belongs to is missing; `Sexpr.hpp` and
  `Indent.hpp`, which took its place, are modelled);
- says nothing that could be right or wrong: pure interfaces and empty visitors (core `ModuleVisitation.hpp`, `Wasm/Visitor.hpp`,
  `Wasm/NoOpVisitor.hpp`, `Wasm/BytecodeVisitor.hpp`, `Wasm/InflateVisitor.hpp`), stubs (core `Resolver.hpp`, `Wasm/Loader.hpp`, `Store.hpp`,
  wast `FunctionParser`, `ModuleParser`), compile-time helpers (util `Mixin.hpp`, `StaticPoly.hpp`, `Constant.hpp`, `Meta/`, `TypeTraits.hpp`,
  `InPlace.hpp`, `Iterator.hpp`, `PtrLike.hpp`), one-line wrappers (`ArrayBox.hpp`, `Address.hpp`, `Process.hpp`, version mains);
- compiled out with `#if 0`: core `FuncBuilder.hpp.jinja`;
- the Clojure sources, the tests and the build system; floating-point hardware (C85 and C100 state the laws they use) and threads
  (the code starts none).
