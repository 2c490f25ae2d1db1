FORCE_PARTIAL=set()
NOTES={
"C01":"for every value and every surrounding bytes; also the 7-bit variant and its failure above 127",
"C04":"false of the code (C04_negation: FF FF FF FF 7F is read as 2^32-1); proved: in-range numbers are never changed and encodings longer than five bytes are rejected",
"C05":"false of the code (C05_negation: the five-byte encoding of -2^31 shifts an int by 35); proved for up to four bytes, non-negative five-byte numbers and varint7",
"C08":"false of the code (negation and three families of aborting inputs); proved: aborts happen only at sections other than type and function sections",
"C10":"false of the code for code sections (witness); proved for type and function sections",
"C11":"false of the code (witness entry and witness file); proved: exact condition, and body offsets strictly increase",
"C12":"false of the code (C12_negation: register 256 is written as 0); proved exactly modulo 256 for all registers, and faithful below 256",
"C13":"false of the code (any instruction other than unreachable/nop/halt makes the reader loop for ever, proved for all such streams); proved for the three handled instructions",
}
NOTES.update({
"C17":"for every well-formed body, memory and number of steps, including divergence and the converse",
"C18":"well-formed bodies: only the own register area; any code: within the 256 encodable registers",
"C21":"false of the code (the return handler reads the saved ip as the frame tag); proved: fails whenever the saved ip's low byte is non-zero, with an API witness; holds when it is zero",
"C22":"false of the code for overflowing operands (signed overflow is undefined in C++17 and C++20); proved for all others, all aliasing patterns",
"C25":"false of the code (x64.return always aborts); proved for every other instruction",
"C26":"false of the code (more than 502 registers); exact bound proved",
})
NOTES.update({
"C28":"false of the code (appending to a zero-capacity buffer aborts); proved for every program that creates no zero-capacity buffer, any allocator, with the exact aborts",
"C29":"false of the code (five witnesses: shrink of an empty buffer then destroy, resize(0), release_span, self-append, wrapping offset); proved for every program avoiding those misuses, any allocator",
"C32":"false of the code (self-assignment frees the object); proved for every program without self-assignment and fewer than 2^31 handles",
})
NOTES.update({
"C36":"every sequence of fewer than 2^64 distinct names",
"C37":"false of the code (NaN is not equal to itself; two equal maps used as keys of maps may compare different because hashing a map depends on iteration order); proved: symmetric, transitive, implies same data; exact when there is no NaN and no key contains a map of two entries",
"C38":"false of the code (equal maps filled in another order hash differently); proved when no map has more than one entry",
})
NOTES.update({
"C39":"false of the code (a map left open loops for ever, allocating an error each round; an error message containing '}' is used as a format string and throws fmt::format_error, as for `(}`); proved: which of the three – document, exception, endless loop – happens, for every text",
"C40":"false of the code (a keyword is read as a symbol named with the colon, a string with its quotes; a string that ends in a backslash swallows what follows, C40_negation_backslash); proved for every tree without strings that end in a backslash, with reals read as the number their digits give in machine arithmetic (C85) and keywords and strings read that way, printed with single spaces (C40_round_trip_partial) or in any layout (C40_any_layout_partial)",
"C41":"false of the code (-2^63 is undefined behaviour, so is any literal of magnitude 2^63 or more); proved exactly for the others",
"C42":"false of the code (from the first text no rule matches everything is dropped and nothing is logged); proved: the rest plays no part in the document",
"C50":"every text; Ragel's longest-match scanner semantics is the model (DESIGN.md)",
"C51":"false of the code (newlines inside string literals are not recorded); proved for every text whose string literals contain no newline",
"C52":"false of the code (nodes keep the quotes and escapes); proved: the node is the literal's source text",
})
NOTES.update({
"C43":"false of the code (max_size is in pages while size is in bytes; a maximum that wraps in bytes hands out foreign pages); proved: region, limits and size for every configuration that does not wrap, every request sequence and every operating system behaviour",
"C44":"false of the code (a truncated number is not reported, an empty stream reads as 127); proved for every complete number of at most ten bytes; the other streams characterised exactly",
"C45":"false of the code (the first directory entry of the name wins even if it cannot be executed); proved: first directory with such an entry, in the documented order",
"C46":"contents and balance proved for all event sequences; indentation is false beyond 10 levels (C46_negation), exact formula proved",
"C47":"hash proved injective; view equality false of the code when there are NUL bytes; exact characterisation proved",
"C49":"false of the code (assigning nothing keeps the old value; self-assignment is undefined); proved for every program avoiding those assignments, with exact object counts",
"C53":"false of the code (`--` is passed to the command as its name); proved for all other command lines",
"C54":"false of the code (pow(n) is 2^(e+n-1)); exact characterisation proved",
"C55":"false of the code (ten-byte negative numbers are undefined behaviour: shift by 70); proved for all others",
"C57":"false of the code (pages leak when the constructor throws); proved when the constructor succeeds",
"C58":"false of the code (quotes are not escaped); proved for strings without a quote",
})

NOTES.update({
"C30":"false of the code (self-assignment and appending to more than 2^30 elements are undefined behaviour); proved for every other program: reads, sizes and old versions",
"C31":"false of the code (self-assignment frees a live node); proved for every other program: counters exact, live nodes = reachable nodes, nothing left at the end",
"C59":"false of the code (end() fails an assertion for sizes that are multiples of four, not zero and not a power of four, e.g. 8); proved exactly for all sizes",
"C60":"false of the code (the unused places of the last leaf are visited too); exact characterisation proved",
})

NOTES.update({
"C61":"false of the code (memory.size, memory.grow and the conversions end the process; ten-byte negative constants are undefined behaviour); proved for all other instruction sequences; exact condition for the process to end proved",
"C62":"false of the code (table, memory and start sections are not consumed, a custom section before the end loses the place, names end at a zero byte); proved for all other modules and every visitor",
"C63":"false of the code (short files, wrong section sizes, section numbers above 255, truncated data accepted; exit; undefined behaviour); proved: headers, section numbers, type tags, import kinds, initializers",
"C64":"false of the code (--output misspelt, -o without a file is undefined); proved for all other command lines",
"C65":"false of the code: proved that for every module whose last section is a code section with one function nothing is printed",
"C66":"false of the code (integers print as single characters); proved for every module without function bodies with numbers shown that way",
"C67":"ending proved for every file; the bound is false of the code (20 bytes cause more than 2^64 callbacks)",
})

NOTES.update({
"C68":"std::shared_ptr is modelled as a use count",
"C69":"false of the code: the VM's table of instances is never filled, so destroying the VM destroys nothing (proved for every program)",
"C70":"false of the code (types after functions reallocate the table, type() dangles); proved for every file with its types first and every written module",
"C71":"false of the code (the defaulted move constructor shares the stack and forgets the list); proved that no program with a move ends well, and the full property for programs without moves",
})

NOTES.update({
"C72":"the counters are ints, so texts of two gigabytes and more are outside the property",
"C73":"false of the code: proved for every text that the tokens up to the first unreadable character are delivered, the rest is lost and no error is reported",
"C74":"one buffer: proved for every cut; several buffers: false of the code (a piece that ends with a word makes the next call undefined, proved for every such piece); proved when all pieces end with a parenthesis or white space",
"C75":"false of the code (one argument is undefined behaviour, after -- the file called -- is read); proved for two arguments, help and errors",
"C76":"false of the code (status 0 although text was lost; empty files 'cannot be opened'); exact listing proved for every file",
"C77":"false of the code: proved that no command line runs anything; usage and errors proved",
})

NOTES.update({
"C78":"false of the code (`(}` throws, `{` loops for ever); proved for every text for which parsing returns, that it returns for every well-formed text, and that the error list is empty exactly when the text is well formed and no pair was dropped",
})

NOTES.update({
"C79":"false of the code (a value of class type assigned over an error, or an error of class type over a value, is assigned to an object that is not alive; a trivial error over a value never destroys the value); proved for every other program and that no program doing so ends well",
"C80":"false of the code (the guards' bodies are commented out): proved that any combination of guards can be alive together and that nobody ever waits",
"C81":"false of the code (adjacent spans are not less); exact characterisation proved for spans that are not empty",
"C82":"false of the code (a prefix compares equal); exact characterisation proved",
})

NOTES.update({
"C83":"false of the code in one case (the final shrink happens in a noexcept function, so its refusal ends the process); everything else proved for every allocator, prior heap and module, and success for an obliging allocator",
})

NOTES.update({
"C84":"proved as equivalences with a grammar given as relations on what is left of the file (Spec/Loader.lean)",
})

NOTES.update({
"C04":"false of the code (C04_negation: FF FF FF FF 7F is read as 2^32-1); exact behaviour proved for every byte string: the result is the encoded number modulo 2^32, encodings longer than five bytes are rejected, truncated ones raise",
"C05":"false of the code (C05_negation: the five-byte encoding of -2^31 shifts an int by 35); exact behaviour proved for every byte string, including which encodings are undefined",
"C08":"false of the code (negation and three families of aborting inputs); the exact set of aborting inputs is C84_aborts_exactly",
})

NOTES.update({
"C85":"false of the code (each digit rounds, so 0.7 is read as 0.7000000000000001; an exponent of 2^63 or more overflows); proved for every literal: exact with exact arithmetic, a relative error of at most 2n+m+4 roundings for any round-to-nearest arithmetic, exact for whole numbers below 2^53, undefined exactly for exponents out of range. Exponent range of double (overflow to infinity, subnormals) not modelled",
})

NOTES.update({
"C86":"false of the code for nodes that are part of themselves (a list pushed into itself, a map that is its own metadata: never destroyed); proved for every program: no use after free, exactly which nodes live, and the full claim where there is no cycle",
"C87":"false of the code (comparing or hashing a list pushed into itself never comes back); proved: it ends when the left side does not contain itself, and gives the answer for the trees shown when nothing is null and no key has changed since insertion",
"C88":"false of the code (a key changed after its insertion is not found again, even by the same object); proved for maps whose keys have not changed and keys without NaN or larger maps inside, for every iteration order",
})

NOTES.update({
"C89":"proved as a simulation of a reference semantics without use counts (Spec/EdnShare.lean), for every program and every map iteration order",
})

NOTES.update({
"C90":"exact layout of every call sequence against an independent specification, plus the tidiness claims",
"C91":"false of the code (when the last section shows nothing the closing parenthesis of the module is in a comment; a section of ten bytes has its size printed as a line break); proved for all other modules of the C66 fragment, with the exact verbose text",
"C92":"false of the code for blocks nested more than ten levels deep (the level stops at ten but is counted back); proved for all structured code within that, with the names of all 256 operator codes; operators the program does not know (C61) are excluded",
})

NOTES.update({
"C93":"false of the code (a repeated key is reported at the token after the value, a ] closing a map is said to close a vector, and some texts yield no document, C39); proved for every text that yields a document: the exact list of errors apart from repeated keys, and the places and order of all errors",
"C94":"false of the code after -- (ab -- help run passes -- on as the program name and run is then one argument too many); proved for all other command lines and every environment",
})

NOTES.update({
"C95":"loop and call level; the bound is the number of instructions of the body and is exact",
"C96":"false of the code (registers after the arguments are not initialised, so r1 := r1 + r0 counts calls); proved, for any two contexts and stacks, for bodies that write each register before reading it on every path",
"C97":"false of the code (reserve is called with the declared count before anything is read: 15 bytes ask for 16 GiB); proved for files that load, for code sections of any file, and for the tables of loaded modules",
})

NOTES.update({
"C98":"proved as a relational (two-run) property: every access outside a context's own stack and the module bytes is undefined behaviour in the model, so a defined run reads and writes its own stack only; calls are sequential",
})

NOTES.update({
"C99":"all outcomes: values, error flag, undefined (overflow, no value where one is declared), not finished; used on a multiplication loop for all factors",
})

NOTES.update({
"C100":"false of the code (0e309 is read as NaN: the value is multiplied by pow(10, 309), which is infinite); proved for zeros with exponents up to 308 (exactly NaN above) and for all literals of moderate size (17 digits with an exponent up to 280, say); for every arithmetic with the IEEE laws of Spec/EdnDouble.lean",
"C101":"false of the code for NaN tokens (C100), which differ from themselves; proved for all others; the comparison does not look at the text, so tokens of different texts at the same place compare equal (C101_other_texts)",
"C102":"every text shorter than 2^64 bytes",
})

NOTES.update({
"C103":"a buffer made with capacity 0 starts at DEFAULT_CAPACITY with its first append; not covered by the theorem",
"C104":"exact count of nodes allocated; sizes up to 2^30 (beyond, the code overflows: see C30)",
})

NOTES.update({
"C105":"false of the code: n zeros are n tokens, and because a real may begin with several zeros each scan reads to the end of the text before it goes back; n zeros take exactly n(n+1)/2 looks, which is also the most any text takes; proved (at most 5 looks per byte) for texts in which no token 0 is directly followed by a digit. The work counted is that of the scanner of Model/EdnLexer.lean, which, like Ragel's, stops at the first byte at which no rule can go on",
})

NOTES.update({
"C106":"false of the code: the indentation stops at ten levels going in but not coming out, and of a branch table only the first target is shown; proved (exact text) for functions at most eight blocks deep and tables of at most one target besides the default, when the printer is handed the size of the instructions (handed the size the format has, which counts the locals, it prints nothing: C65); numbers are written as characters, as in C66",
})

NOTES.update({
"C107":"false of the code: the parser calls itself for every open collection and nothing limits the depth, so whatever the stack there is a document whose parsing overruns it; proved exactly when: parsing overruns a stack for n collections if and only if at some time, before the parser gives up or the text ends, more than n are open, and otherwise does what it does with unlimited stack; for documents that number is the depth of nesting. Stack is counted in open collections, not bytes",
})

NOTES.update({
"C108":"false of the code: destructors, hashing and comparison call themselves for nested nodes and nothing limits the depth; proved: for every stack there is a program whose node can be neither destroyed nor hashed nor compared with itself, though with stack for one more call all three work; destruction does what it does with unlimited stack whenever no chain of nodes, each holding the next, is longer than the stack, and overruns it whenever there is a longer one whose nodes have no other use. Stack is counted in nested calls, not bytes",
})

NOTES.update({
'C109':'how fmt writes a double is a parameter that writes no space; nil, true, false and errors are shown as (unknown n ...), so that true and false at the same place of different texts look the same (example beside the theorem)',
})

NOTES.update({
"C106":NOTES["C106"]+"; for functions nested to any depth and any branch tables the exact text printed is proved too (C106_any_depth_partial)",
"C92":NOTES["C92"]+"; the exact text beyond that is proved too (C92_any_depth_partial)",
})

NOTES.update({
'C110':'proved for programs without `b = c` (c a box variable), and with `b = x` (x a variable) only if moving leaves values alone; C110_negation has both failures',
})

NOTES.update({
'C111':'names other than unknown are unique, and every opcode that does not abort in some state has one, except 0x6b (C111_negation)',
})

NOTES.update({
'C112':'the names, places, results and order are proved for every well-formed body, with operands as after the instruction; operands as they were for bodies in which no instruction overwrites its own operand; C112_negation shows i32.add r0 r0 r1',
})

NOTES.update({
'C113':'exactly what is written is proved: the lines for the strings, symbols and keywords, in order, of all tokens if parsing completes and of the first ones if not; silence for texts without them; C113_negation parses `a`',
})

NOTES.update({
'C114':'False of the code: moving a VirtualMachine copies its LinearMemory, so destroying the one moved from unmaps the memory of the other (C114_negation), and later the other unmaps what somebody else may have put there (C114_foreign_negation). Proved for every process that neither copies a memory nor moves a VM.',
})

NOTES.update({
'C115':'False of the code: a context keeps pointing to the machine that was moved from, so destroying it touches a destroyed machine (C115_negation), or leaves a destroyed context in the list of the new machine (C115_stale_negation). Proved for all programs that move machines only while they have no contexts.',
})

NOTES.update({
'C116':'False of the code: an assignment gives up the old object before it reads the new one, so p = p->next uses a deleted object (C116_negation), exactly when nothing else refers to the object (C116_next). Proved for all programs without assignments from a place to itself or from a member of the object the assigned variable refers to; such programs leak nothing but cycles.',
})

NOTES.update({
'C117':'False of the code: a Maybe made from a null pointer or from a Maybe that holds nothing holds nothing; assigning what holds nothing keeps the old value, also through *; assigning a nested Maybe that holds an object to itself is undefined; map does not compose when the first function returns a null pointer (C117_negation). Proved: exactly the values that come down to nothing are lost (C117_value_partial), every program without those assignments ends with each variable as meant (C117_programs_partial), apply as stated, map and its composition for results that are not null.',
})

NOTES.update({
'C118':'False of the code: ab-asm has no lexeme for a quoted text or a comment, so it stops, with status 0, inside the disassembly of every module with an import, an export or a data segment (C118_quotes_negation) and of every module with a section disassembled with --verbose (C118_verbose_negation). Proved: every module whose entries show only words and parentheses is read back exactly (C118_words_partial), in particular every module that shows only function types (C118_types_partial).',
})

NOTES.update({
'C119':'Counting reads erases to the plain reader (C119_same_answer); the depth is exact (C119_lookup); the space bound counts live nodes (C119_space).',
})

NOTES.update({
'C120':'Counting iterations erases to the plain lookup (C120_same_answer); the bound and the answer together (C120_steps).',
})

NOTES.update({
'C121':'False of the code: each function goes through all entries of its type again, so k functions sharing a type of k parameters take k*k operations for a file of 4k+98 bytes (C121_quadratic_negation); no factor up to a million works (C121_negation). Proved: at most six reads per byte for any bytes, although a code entry may move the reader back (C121_reads_partial); at most quadratic work (C121_quadratic_partial); exactly how many entries are looked at (C121_looks_exact); linear for types of bounded size (C121_small_types_partial).',
})

NOTES.update({
'C122':'False of the code: a string may end in a backslash before its closing quote, and then a comment with a double quote in it becomes part of the string (C122_negation). Proved: blank text whose comments have no double quote may be put at the end of any piece, and everything after it moves by its length, line breaks included (C122_blank_between_tokens_partial); such a comment may also end the text without a line break (C122_last_line_partial); texts with the same tokens are read alike, whatever the layout (C122_same_tokens).',
})

NOTES.update({
'C123':'False of the code in two ways: a character in the first text that begins no token ends the reading without a report, so that all of the second is lost (C123_negation_silent_end); a string of the first text may end in a backslash before its closing quote, and then runs on to a quote in the second (C123_negation_string). Proved without these two: the first text is all tokens, whitespace and comments, and none of its strings ends so or the second has no double quote (C123_one_after_the_other_partial).',
})

NOTES.update({
'C125':'False of the code: a map is hashed in iteration order, so two texts of the same data with a map of two entries as a key are read as nodes that compare different (C125_negation); and 0e309, read as a NaN, differs from itself (C125_nan_negation). Proved (C125_equal_texts_partial): nodes that compare equal were always written as the same data (reals: as literals read as the same number), and the same data compare equal when no map inside a map key has two or more entries and no real is read as a NaN. Keywords come back as symbols whose names keep the colon and strings with their quotes (C40), which does not confuse them with others. Left out: strings that end in a backslash (C40).',
})

NOTES.update({
'C126':'False of the code: nothing guards the product, so 2^34 GiB are no bytes and 2 GiB as an int are undefined (C126_negation). Proved: exact for every type and value whose product fits (C126_exact_partial, C126_literals_partial); what happens to every other product, per type (C126_too_large).',
})

NOTES.update({
'C127':'False of the code: a file cut between sections loads as a module without the later ones, and a file cut inside a function body ends the process (C127_refused_negation). Proved: exactly where a cut file loads and as what (C127_loads_exactly), exactly where it ends the process (C127_aborts_exactly), DecodeError everywhere else (C127_refused_partial), that a cut file that loads has no functions at all (C127_no_partial_function), and for arbitrary files that the front part has a prefix of the whole (C127_front_is_prefix).',
})

NOTES.update({
'C128':'False of the code: an escaped quote lets what is left of a string end earlier and swallow nothing of what follows, so a cut text can be read without errors as other contents (C128_negation_escaped_quote); what is left of a token can be another token (C128_negation_other_token); an open map makes reading go on for ever (C128_negation_open_map). Proved for texts without escaped double quotes in strings: what is read without errors is some of the first data of the whole text, each complete, followed only, and only if the cut is inside a token, by atoms (C128_nodes_partial); if the tokens before the cut do not form a document, every document returned has a structural error (C128_open_reported_partial).',
})

NOTES.update({
'C129':'False of the code: a file cut between sections is accepted as the module of those before (C129_boundary_negation); a file cut within its function section is accepted, and the visitor is told of functions of type 127 in place of those missing (C129_functions_negation); a file that lost the last byte of a type or an export is accepted with another result type or index (C129_entry_negation; for every file that ends with exports, C129_export_negation). Proved: a file cut within a type, import, global, export, element, code or data section - after the number of the section, after its length, or between its entries - is rejected, by the exception or the exit determined by the kind of section, after the visitor was told exactly what is there (C129_between_entries_partial).',
})

NOTES.update({
'C130':'Every text is lexemes followed by something unreadable (C73_every_text); what is left of it is lexemes followed by something unreadable too. An identifier of which only the dollar sign is left delivers no token; nothing is reported (C73).',
})
