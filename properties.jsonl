{"id": "C01", "title": "LEB128 encode/decode round trip", "statement": "leb128.Encode(n) followed by any further bytes decodes, through DecodeSlice, Decode (bufio) and DecodeReader alike, to exactly n, reporting as bytes read exactly the number of bytes Encode produced and leaving the further bytes unread.", "quantifier": "every 32-bit value n, every byte string following the encoding, all three decoder entry points", "why_tests_cant": "2^32 values times unbounded suffixes; tests sample a handful of values with nothing after them", "anchors": ["leb128/encode.go:Encode", "leb128/decode.go:Decode", "leb128/decode.go:DecodeReader", "leb128/decode.go:DecodeSlice"]}
{"id": "C02", "title": "The three LEB128 decoders agree and compute the base-128 value", "statement": "On any byte string containing a byte below 0x80, the three decoders return the same value and byte count: the count is the index of the first such byte plus one and the value is the sum of the low seven bits of the i-th byte times 128^i, modulo 2^32. On a byte string with no such byte the two stream decoders report an error.", "quantifier": "every byte string, of any length, including over-long and truncated encodings", "why_tests_cant": "the inputs are arbitrary guest bytes of unbounded length; agreement between three loops has to hold on all of them", "anchors": ["leb128/decode.go:Decode", "leb128/decode.go:DecodeReader", "leb128/decode.go:DecodeSlice"]}
{"id": "C03", "title": "LEB128 encoding is canonical and minimal", "statement": "leb128.Encode(n) produces between one and five bytes, all but the last with the high bit set and the last without it, and no shorter byte string decodes to n; distinct values have distinct encodings and no encoding is a proper prefix of another.", "quantifier": "every 32-bit value and every competing byte string", "why_tests_cant": "minimality quantifies over all competing byte strings", "anchors": ["leb128/encode.go:Encode", "leb128/decode.go:DecodeSlice"]}
{"id": "C04", "title": "Binary reader header decision", "statement": "binary.Read accepts an input only if it begins with the eight-byte preamble: magic 00 61 73 6d, then a little-endian 16-bit version equal to 1 (module) or 0x0a (component), then a 16-bit layer. Every other input, including every input shorter than eight bytes, yields an error and no document; the version and layer reported are the decoded little-endian fields.", "quantifier": "every byte string", "why_tests_cant": "the rejected inputs form an unbounded set; tests cover a few malformed headers", "anchors": ["binary/read.go:Read", "binary/read.go:ReadPreamble", "binary/read.go:ReadMagic", "binary/read.go:ReadVersion"]}
{"id": "C05", "title": "Binary module round trip", "statement": "For every module made of function types, functions with bodies over the supported instructions, and function exports, binary.Read of its standard WebAssembly binary encoding (types, functions, exports and code sections, LEB128 lengths) returns a module with exactly those types, functions, bodies and exports in the same order.", "quantifier": "every module in the supported subset: any number of types, params, results, functions, instructions, exports and any names and indices", "why_tests_cant": "modules are unboundedly large trees; tests decode two fixture files", "anchors": ["binary/read.go:ReadModule", "binary/read.go:ReadTypeSection", "binary/read.go:ReadFunctionSection", "binary/read.go:ReadFuncs", "binary/read.go:ReadString", "binary/read.go:ReadExportSection"]}
{"id": "C06", "title": "Unknown sections are transparent", "statement": "Inserting a section with an id the reader does not interpret (for instance a custom section), with any payload, at any section boundary of an input changes neither success nor the module read.", "quantifier": "every input, every section boundary, every unknown section id and every payload", "why_tests_cant": "payload and position are unbounded", "anchors": ["binary/read.go:ReadModule"]}
{"id": "C07", "title": "Truncated modules are errors", "statement": "If a module is read successfully from an input and the input is cut strictly inside one of its sections, reading the cut input returns an error and no document; in particular it never panics and never returns a partially filled module.", "quantifier": "every successfully read input and every cut point strictly inside a section", "why_tests_cant": "every crash or cut point of every file", "anchors": ["binary/read.go:ReadModule", "binary/read.go:ReadString", "leb128/decode.go:DecodeReader"]}
{"id": "C08", "title": "Functions and bodies are paired by position", "statement": "In a module returned by binary.Read the i-th function has the i-th declared type index and the body of the i-th code entry; an input with a different number of code entries than declared functions is rejected.", "quantifier": "every byte string that the reader accepts", "why_tests_cant": "relates two sections of arbitrary length read at different times", "anchors": ["binary/read.go:ReadModule", "binary/read.go:UpdateFuncsWithCode"]}
{"id": "C09", "title": "AlignTo returns the least aligned address", "statement": "AlignTo(ptr, a) returns the least multiple of a that is at least ptr, for every address and every alignment 1, 2, 4 or 8 for which that multiple fits in 32 bits.", "quantifier": "every 32-bit ptr and every alignment", "why_tests_cant": "2^32 addresses; the implementation goes through floating point, whose rounding must be exact on all of them", "anchors": ["abi/io/alignment.go:AlignTo"]}
{"id": "C10", "title": "Alignment and Size are well formed", "statement": "For every component value type that can be laid out, Alignment returns 1, 2, 4 or 8, and Size returns a multiple of that alignment; so consecutive list elements are all aligned.", "quantifier": "every value type: arbitrary nesting of records, variants, lists, flags, tuples, enums, options, results and unions", "why_tests_cant": "types are an unbounded recursive family", "anchors": ["abi/io/alignment.go:Alignment", "abi/io/size.go:Size"]}
{"id": "C11", "title": "Record fields occupy disjoint aligned slots inside the record", "statement": "In the layout used by Store and Load for a record, every field starts at a multiple of its own alignment, fields do not overlap, each ends within Size(record), and the offsets are the least possible in declaration order.", "quantifier": "every record type, any number of fields of any nested type, any aligned base address", "why_tests_cant": "unbounded field lists and nesting", "anchors": ["abi/io/size.go:SizeRecord", "abi/io/store.go:StoreRecord", "abi/io/load.go:LoadRecord"]}
{"id": "C12", "title": "Discriminant width is sufficient and minimal", "statement": "For a variant with n cases (1 <= n <= 2^32), the discriminant type chosen is the smallest of 1, 2 or 4 bytes that can represent every case index 0..n-1; n = 0 is an error.", "quantifier": "every case count", "why_tests_cant": "boundary behaviour of a floating-point log2 over all counts", "anchors": ["abi/io/alignment.go:DiscriminantType"]}
{"id": "C13", "title": "Specialised types are laid out as their expansions", "statement": "Alignment, Size and FlattenType of tuple, enum, option, result and union types equal those of the record or variant they abbreviate, and expanding twice is the same as expanding once.", "quantifier": "every type", "why_tests_cant": "unbounded recursive family of types", "anchors": ["abi/io/despecialize.go:Despecialize", "abi/io/alignment.go:Alignment", "abi/io/size.go:Size", "abi/io/flatten.go:FlattenType"]}
{"id": "C14", "title": "Flat lowering produces exactly the flattened core types", "statement": "Whenever LowerFlat(v, t) succeeds, the list of core value kinds it returns equals FlattenType(t): same length, same kinds, in order.", "quantifier": "every type, every Go value passed, every memory and allocator state for which lowering succeeds", "why_tests_cant": "a static typing property over all values and types; tests look at values not kinds", "anchors": ["abi/io/lower.go:LowerFlat", "abi/io/flatten.go:FlattenType"]}
{"id": "C15", "title": "Flat lifting consumes exactly the flattened core values", "statement": "Whenever LiftFlat(t) succeeds on an iterator, it has consumed exactly as many values as FlattenType(t) has entries, so that parameters lifted in sequence never steal or skip each other's values.", "quantifier": "every type, every sequence of core values", "why_tests_cant": "unbounded types and value sequences", "anchors": ["abi/io/lift.go:LiftFlat", "abi/io/flatten.go:FlattenType", "abi/values/value.go:Next"]}
{"id": "C16", "title": "Function flattening respects the flat limits", "statement": "FlattenFuncTypeLift and FlattenFuncTypeLower pass parameters as their concatenated flattening when that has at most the maximum number of values, otherwise as one pointer; results likewise, with a trailing out-pointer parameter for lowering and a returned pointer for lifting. Lift and lower signatures coincide whenever the results fit.", "quantifier": "every function type and every pair of limits", "why_tests_cant": "all parameter and result lists", "anchors": ["abi/io/flatten.go:FlattenFuncTypeLift", "abi/io/flatten.go:FlattenFuncTypeLower"]}
{"id": "C17", "title": "Joined flat kinds can carry every case", "statement": "In FlattenType of a variant, every position's kind is able to carry, without loss, the value at that position of every case that has one: a value written by lowering any case is recovered bit for bit by lifting that case.", "quantifier": "every variant type, every case, every payload bits", "why_tests_cant": "quantifies over all case lists and all 32- and 64-bit payloads", "anchors": ["abi/io/flatten.go:FlattenVariant", "abi/io/flatten.go:join", "abi/io/lower.go:LowerFlatVariant", "abi/values/coerce_value_iterator.go:Next"]}
{"id": "C18", "title": "Integer memory round trip", "statement": "Storing an integer of any of the eight integer types in memory and loading it back with the same type returns the same value, and the bytes written are its little-endian two's complement representation.", "quantifier": "every integer value of every width and signedness, every in-bounds address and memory", "why_tests_cant": "2^64 values times all addresses", "anchors": ["abi/io/store.go:StoreInt", "abi/io/load.go:LoadInt"]}
{"id": "C19", "title": "Store then Load returns the value", "statement": "For every type and every Go value of that type, if Store succeeds at an aligned in-bounds address then Load at the same address returns that value (with NaNs replaced by the canonical NaN).", "quantifier": "every type (integers, floats, bool, char, string, list, record, variant, flags and specialised types, arbitrarily nested), every value of it, every memory contents and address", "why_tests_cant": "unbounded nesting of types and values; tests check a few dozen shapes", "anchors": ["abi/io/store.go:Store", "abi/io/load.go:Load"]}
{"id": "C20", "title": "Store writes only its own region and fresh allocations", "statement": "Store(v, t, ptr) changes no memory byte outside [ptr, ptr+Size(t)) and outside the blocks it obtained from the guest allocator during that call.", "quantifier": "every type, value, address, memory and allocator", "why_tests_cant": "a frame property over all memory addresses", "anchors": ["abi/io/store.go:Store"]}
{"id": "C21", "title": "Out-of-bounds and misaligned stores are refused", "statement": "Store at an address that is not a multiple of Alignment(t), or whose [ptr, ptr+Size(t)) does not fit inside the memory, returns an error, leaves memory unchanged and does not panic.", "quantifier": "every address, size and memory length, including addresses near 2^32", "why_tests_cant": "arithmetic wrap-around at the end of the 32-bit address space", "anchors": ["abi/io/store.go:StoreValidate", "abi/io/store.go:Store"]}
{"id": "C22", "title": "Flat lower then lift returns the value", "statement": "For every type and every Go value of that type, LiftFlat applied to the result of LowerFlat (followed by any other core values) returns that value, with NaNs canonicalised, and leaves the other core values unread.", "quantifier": "every type including nested variants with joined payloads, every value", "why_tests_cant": "unbounded types and values", "anchors": ["abi/io/lower.go:LowerFlat", "abi/io/lift.go:LiftFlat"]}
{"id": "C23", "title": "Chars are valid Unicode scalar values", "statement": "Loading or lifting a char from a 32-bit word returns that code point when it is a Unicode scalar value and traps otherwise (surrogates D800-DFFF and everything from 0x110000).", "quantifier": "every 32-bit word, every address inside every memory below 2^32 bytes; in a memory of any size, every char that is given", "why_tests_cant": "2^32 inputs", "anchors": ["abi/io/load.go:ConvertU32ToRune", "abi/io/load.go:Load", "abi/io/lift.go:LiftFlat"]}
{"id": "C24", "title": "Floats cross the boundary bit-exactly except for canonical NaN", "statement": "Every float loaded, lifted, stored or lowered is either a non-NaN with exactly the bits given, or the canonical NaN when the bits given were any NaN; canonicalising twice equals canonicalising once.", "quantifier": "every 32- and 64-bit float bit pattern, every address inside every memory below 2^32 bytes; in a memory of any size, every float that is given or stored", "why_tests_cant": "2^64 patterns", "anchors": ["abi/io/canonicalize.go:CanonicalizeNan32", "abi/io/canonicalize.go:CanonicalizeNan64", "abi/io/load.go:DecodeInt32ToFloat"]}
{"id": "C25", "title": "Flags map label i to bit i", "statement": "Loading or lifting flags gives label i the value of bit i of the little-endian bit vector and ignores all other bits; storing or lowering then loading or lifting flags returns the same set, for any number of labels.", "quantifier": "every label list and every set of flags", "why_tests_cant": "unbounded label lists, including more than 32 and more than 64 labels", "anchors": ["abi/io/load.go:LoadFlags", "abi/io/load.go:UnpackFlagsFromInt", "abi/io/store.go:StoreFlags", "abi/io/store.go:PackFlagsIntoInt", "abi/io/lift.go:LiftFlatFlags", "abi/io/lower.go:LowerFlatFlags"]}
{"id": "C26", "title": "String length tags round trip", "statement": "The code-unit count and the UTF-16 flag stored in one 32-bit word by TaggedCodeUnits are both recovered from it, for every count below 2^31.", "quantifier": "every count and flag", "why_tests_cant": "2^31 counts", "anchors": ["abi/io/code_units.go:ToUInt32", "abi/io/code_units.go:UInt32ToTaggedCodeUnits"]}
{"id": "C27", "title": "String and list ranges are checked before being read", "statement": "Loading a string or a list from a (pointer, length) pair traps if the pointer is misaligned or the described bytes do not all lie inside memory; it never panics and never reads outside memory.", "quantifier": "every pointer, length, element size and memory length", "why_tests_cant": "guest-controlled 32-bit pointer and length: wrap-around products and sums", "anchors": ["abi/io/load.go:LoadStringFromRange", "abi/io/load.go:LoadListFromRange"]}
{"id": "C28", "title": "List elements are loaded from consecutive slots", "statement": "A successful list load of length n returns exactly n elements, the i-th being what Load returns at ptr + i*Size(element).", "quantifier": "every element type, length, pointer and memory", "why_tests_cant": "unbounded length", "anchors": ["abi/io/load.go:LoadListFromRange", "abi/io/store.go:StoreListIntoValidRange"]}
{"id": "C29", "title": "Stores reject values of the wrong Go type", "statement": "Store succeeds only if the Go value is a value of the component type given: an integer store is accepted only when the numeric value fits the target width and signedness, and a non-integer is rejected.", "quantifier": "every type and every Go value of any dynamic type", "why_tests_cant": "values arrive as untyped any; all mismatched pairs must be rejected", "anchors": ["abi/io/store.go:StoreInt", "abi/io/store.go:Store"]}
{"id": "C30", "title": "Variant case matching honours refinement order", "statement": "Matching a variant value labelled l1|l2|...|lk against a variant type selects the case named by the first li that the type has, and fails when it has none; a label produced by loading case i, matched against the same type, selects case i again.", "quantifier": "every variant type with any refines chains, every label; for the second part, labels that differ and contain no '|', as the component model requires", "why_tests_cant": "unbounded refinement chains", "anchors": ["abi/io/lower.go:MatchCase", "abi/io/load.go:CaseLabelWithRefinements", "abi/io/load.go:FindCaseIndex"]}
{"id": "C31", "title": "Refinement labels are computed for every variant type", "statement": "Loading or lifting a variant value terminates for every variant type, whatever its refines annotations are.", "quantifier": "every variant type, including cyclic and dangling refines", "why_tests_cant": "termination over all inputs", "anchors": ["abi/io/load.go:CaseLabelWithRefinements"]}
{"id": "C32", "title": "A handle table never confuses live handles", "statement": "In any sequence of Add, Get and Remove calls on a handle table, an index returned by Add is not the index of a live handle, Get returns for each live index exactly the element that was added there, every other index traps, and no call panics.", "quantifier": "every sequence of operations of any length, with any indices", "why_tests_cant": "a history property over unbounded operation sequences", "anchors": ["abi/types/handle.go:Add", "abi/types/handle.go:Get", "abi/types/handle.go:Remove"]}
{"id": "C33", "title": "Freed handle slots are reused", "statement": "Add always succeeds, and after Remove(i) succeeds the next Add returns a freed index, so that the table never grows beyond the largest number of simultaneously live handles.", "quantifier": "every sequence of operations", "why_tests_cant": "leaks and spurious failures only show up in particular histories", "anchors": ["abi/types/handle.go:Add", "abi/types/handle.go:Remove"]}
{"id": "C34", "title": "A lent handle cannot be removed", "statement": "Removing (dropping or transferring) a handle that is currently lent to a call traps and leaves the table unchanged; after the call exits successfully every lend taken through it has been released, and exit traps exactly when the callee still holds borrows.", "quantifier": "every history of lifts of borrows, removals and call exits", "why_tests_cant": "counter balance over unbounded histories", "anchors": ["abi/types/handle.go:Remove", "abi/types/context.go:LiftBorrowFrom", "abi/types/context.go:ExitCall"]}
{"id": "C35", "title": "Owned handles are transferred, not copied", "statement": "Lifting an own handle returns the representation it was created with and makes the index dead: every later Get, lift or removal of it traps until an Add returns the index again. Lifting a borrow leaves the handle alive.", "quantifier": "every table state reachable by any operations, every index", "why_tests_cant": "use-after-transfer safety over all histories", "anchors": ["abi/io/lift.go:LiftOwn", "abi/io/lift.go:LiftBorrow", "abi/io/lower.go:LowerOwn"]}
{"id": "C36", "title": "A resource destructor runs at most once per owned handle", "statement": "CanonResourceDrop calls the destructor, with the handle's representation, exactly when it removes an own handle of a resource type that has a destructor; never for a borrow handle, never for an invalid index, and never twice for the same handle.", "quantifier": "every history of drops interleaved with other handle operations", "why_tests_cant": "double-drop freedom over all histories", "anchors": ["abi/io/canon.go:CanonResourceDrop", "abi/types/handle.go:Remove"]}
{"id": "C37", "title": "Resource types are isolated from each other", "statement": "Adding, getting, lifting or removing handles of one resource type neither observes nor changes the handles of any other resource type of the same component instance.", "quantifier": "every pair of distinct resource types and every operation", "why_tests_cant": "non-interference over all histories", "anchors": ["abi/types/handle.go:HandleTables", "abi/types/handle.go:Table"]}
{"id": "C38", "title": "Calls restore the instance's enter and leave flags", "statement": "When CanonLift or CanonLower returns, the instance's MayEnter and MayLeave flags are what they were before the call, whether it returned results or an error; and re-entering an instance whose flags forbid it fails without calling the callee.", "quantifier": "every function type, arguments, callee behaviour and outcome", "why_tests_cant": "error paths at every possible failure point", "anchors": ["abi/io/canon_lift.go:CanonLift", "abi/io/canon_lower.go:CanonLower"]}
{"id": "C39", "title": "A component call delivers arguments and results unchanged", "statement": "Calling through CanonLower and CanonLift with a callee that returns its argument gives back the caller's value, both when values are passed flat and when the flattening exceeds the limit and they are spilled to memory.", "quantifier": "every parameter and result type, every value, every flat limit", "why_tests_cant": "unbounded types and values, two passing conventions", "anchors": ["abi/io/canon_lift.go:CanonLift", "abi/io/canon_lower.go:CanonLower", "abi/io/canon_lower.go:LowerValues", "abi/io/canon_lift.go:LiftValues"]}
{"id": "C40", "title": "Core value iterators hand out each value once, in order", "statement": "Successive Next calls on a value iterator return the values in order, each once; asking for a kind that the value does not have, or for a value past the end, returns an error and does not panic.", "quantifier": "every value list and every sequence of requested kinds", "why_tests_cant": "unbounded sequences", "anchors": ["abi/values/value.go:Next", "abi/values/coerce_value_iterator.go:Next"]}
{"id": "C41", "title": "WAT tokens tile the input", "statement": "Calling Next on a WAT lexer until end of stream without an error returns tokens whose captures, concatenated, are the input; each token before the end is non-empty, starts at the offset where the previous one ended, and the sequence is finite.", "quantifier": "every input string", "why_tests_cant": "all strings; termination and no loss of text", "anchors": ["wat/lex/lexer.go:Next", "wat/lex/lexer.go:token"]}
{"id": "C42", "title": "WAT token positions are true", "statement": "Every token's Line is the number of newlines before it and its Column the number of bytes since the last newline or the start of the input.", "quantifier": "every input string and every token of it", "why_tests_cant": "unbounded inputs", "anchors": ["wat/lex/lexer.go:token"]}
{"id": "C43", "title": "Peek and Clone do not disturb lexing", "statement": "Inserting any number of Peek calls into a sequence of lexer calls does not change the tokens Next returns; operations on a clone do not change the tokens the original returns, and a clone returns the same tokens as the original would have.", "quantifier": "every input and every interleaving of Peek, Next and Clone", "why_tests_cant": "interleavings of unbounded length; the parsers backtrack through Clone", "anchors": ["wat/lex/lexer.go:Peek", "wat/lex/lexer.go:Clone", "wit/lex/lexer.go:Peek", "wit/lex/lexer.go:Clone"]}
{"id": "C44", "title": "WAT integer literals are recognised exactly", "statement": "A reserved word of the WAT text is classified as an integer exactly when it is an optionally signed decimal or 0x-hexadecimal numeral with single underscores allowed between digits, as in the WebAssembly text format.", "quantifier": "every string of identifier characters", "why_tests_cant": "both inclusions of a language, over all strings", "anchors": ["wat/lex/lexer.go:isInteger", "wat/lex/lexer.go:num", "wat/lex/lexer.go:hexnum"]}
{"id": "C45", "title": "WAT float literals are recognised exactly", "statement": "A reserved word that is not an integer is classified as a float exactly when it is a float literal of the WebAssembly text format (decimal and hexadecimal floats with fraction or exponent, inf, nan, nan:0xN).", "quantifier": "every string of identifier characters", "why_tests_cant": "both inclusions of a language, over all strings", "anchors": ["wat/lex/lexer.go:isFloat", "wat/lex/lexer.go:float", "wat/lex/lexer.go:hexfloat"]}
{"id": "C46", "title": "Unterminated WAT comments and strings are errors", "statement": "An input that ends inside a block comment or a string literal is reported as an error and not silently treated as the end of the input.", "quantifier": "every input with an unterminated comment or string", "why_tests_cant": "all prefixes and contents", "anchors": ["wat/lex/lexer.go:next"]}
{"id": "C47", "title": "Parsing WAT ignores whitespace and comments", "statement": "The result of parsing a WAT text, a module or a script, depends only on its sequence of significant tokens: two inputs with the same non-whitespace, non-comment tokens parse to the same tree, or both fail.", "quantifier": "every pair of inputs with equal significant tokens", "why_tests_cant": "unbounded placement of trivia", "anchors": ["wat/parse/parser.go:next", "wat/parse/parser.go:peek", "wat/parse/parser.go:Parse"]}
{"id": "C48", "title": "WAT integer constants have their mathematical value", "statement": "i32.const of a decimal or hexadecimal literal n with -2^31 <= n < 2^32 is parsed to n modulo 2^32, and i64.const of n with -2^63 <= n < 2^64 to n modulo 2^64; literals out of range are errors.", "quantifier": "every integer literal", "why_tests_cant": "unbounded literals and 2^64 values", "anchors": ["wat/parse/parser.go:parseInt32", "wat/parse/parser.go:parseInt64"]}
{"id": "C49", "title": "WAT NaN constants are NaNs with the given payload", "statement": "f32.const of nan or nan:0xN with 1 <= N < 2^23 is parsed to a NaN whose payload is N (the canonical payload for plain nan) and whose sign is the literal's sign.", "quantifier": "every payload and sign", "why_tests_cant": "2^23 payloads; infinities differ from NaNs in one bit", "anchors": ["wat/parse/parser.go:parseFloat32"]}
{"id": "C50", "title": "WAT modules survive printing and parsing", "statement": "For every module syntax tree in the supported grammar, printing it in WAT syntax and parsing the text returns the same tree.", "quantifier": "every syntax tree: any number of functions, parameters, results, locals, nested instructions, blocks and names", "why_tests_cant": "unbounded trees", "anchors": ["wat/parse/parser.go:Parse", "wat/parse/parser.go:parseFunc", "wat/parse/parser.go:parseInstruction", "wat/ast/ast.go"]}
{"id": "C51", "title": "Parsers terminate on every input", "statement": "Parsing any text with the WAT, WAST or WIT parser finishes with a tree or an error.", "quantifier": "every input string", "why_tests_cant": "termination over all inputs, including malformed and truncated ones", "anchors": ["wat/parse/parser.go:Parse", "wit/parse/parser.go:Parse", "wast/parse/parser.go:Parse"]}
{"id": "C52", "title": "WIT tokens tile the input", "statement": "Calling Next on a WIT lexer until end of stream without an error returns non-empty tokens whose captures concatenate to the input and whose positions are the running offsets.", "quantifier": "every input string, including multi-byte characters", "why_tests_cant": "all strings", "anchors": ["wit/lex/lexer.go:Next"]}
{"id": "C53", "title": "WIT block comments nest", "statement": "A WIT block comment token ends at the closing marker that balances its opening marker, whatever comments are nested in it; an unbalanced comment is an error.", "quantifier": "every input and nesting depth", "why_tests_cant": "unbounded nesting depth", "anchors": ["wit/lex/lexer.go"]}
{"id": "C54", "title": "WIT keywords, identifiers and operators are distinguished", "statement": "A WIT word is returned as a keyword token exactly when it is one of the keywords, an identifier written with a leading % is never a keyword, and '->' is one token while '-' alone is another.", "quantifier": "every word", "why_tests_cant": "all strings of word characters", "anchors": ["wit/lex/lexer.go", "wit/token/types.go"]}
{"id": "C55", "title": "WIT documents survive printing and parsing", "statement": "For every WIT syntax tree in the supported grammar (packages, interfaces, worlds, records, variants, enums, flags, resources, functions, type aliases and nested type expressions) printing it and parsing the text returns the same tree.", "quantifier": "every syntax tree", "why_tests_cant": "unbounded trees", "anchors": ["wit/parse/parser.go:Parse", "wit/ast/ast.go"]}
{"id": "C56", "title": "The WIT parser rejects what is not WIT", "statement": "A text containing, at top level, anything other than a package declaration, uses, interfaces and worlds is rejected with an error.", "quantifier": "every input", "why_tests_cant": "the complement of a language", "anchors": ["wit/parse/parser.go:parseAst"]}
{"id": "C57", "title": "Instantiation allocates fresh function addresses", "statement": "NewModuleInstance returns as many function addresses as the module has functions; the i-th address resolves in the store to the i-th function, all addresses are distinct from every address allocated before, and every earlier address still resolves to the same function.", "quantifier": "every store state and every sequence of instantiations", "why_tests_cant": "history property over all instantiation sequences", "anchors": ["runtime/instance.go:NewModuleInstance"]}
{"id": "C58", "title": "Exports of an instantiated module can be found", "statement": "After NewModuleInstance, GetExport finds exactly the names the module exports; GetExport returns the first export with the name asked for and reports absence otherwise.", "quantifier": "every module, every name", "why_tests_cant": "all modules and names", "anchors": ["runtime/instance.go:GetExport", "runtime/instance.go:NewModuleInstance"]}
{"id": "C59", "title": "The internal stack is last-in first-out", "statement": "Any sequence of Push and Pop calls on the stack behaves as a mathematical stack: Pop returns the most recently pushed value not yet popped.", "quantifier": "every operation sequence", "why_tests_cant": "unbounded histories", "anchors": ["internal/collections/stack/stack.go"]}
{"id": "C60", "title": "Select maps in order and stops at the first error", "statement": "collections.Select applies the transform to the elements in order, returns all results when none fails, and otherwise the first error, without applying the transform to later elements.", "quantifier": "every slice and every transform", "why_tests_cant": "all slices and functions", "anchors": ["internal/collections/select.go:Select"]}
{"id": "C61", "title": "Codec lookup by encoding name is exact", "statement": "The default codec factory returns for each of the supported encoding names the codec of that name, with its alignment and code-unit size, and an error for every other name.", "quantifier": "every encoding name", "why_tests_cant": "all strings", "anchors": ["encoding/factory.go:DefaultFactory", "encoding/factory.go:Get", "encoding/factory.go:Lookup"]}
{"id": "C62", "title": "Strings survive every supported string encoding", "statement": "Storing a string in memory with any of the supported string encodings and loading it back with the same encoding returns the same string; for latin1+utf16 the tag says which of the two was used and the narrower one is used whenever possible.", "quantifier": "every string of Unicode scalar values and each encoding", "why_tests_cant": "unbounded strings over 1.1 million code points", "anchors": ["abi/io/store.go:StoreString", "abi/io/store.go:StoreStringIntoRange", "abi/io/load.go:LoadStringFromRange", "encoding/utf16.go", "encoding/latin1.go"]}
{"id": "C63", "title": "Loads never panic", "statement": "Load of any type at any address of any memory returns a value or an error; it does not panic.", "quantifier": "every type, address and memory contents", "why_tests_cant": "guest-controlled addresses and contents", "anchors": ["abi/io/load.go:Load"]}
{"id": "C64", "title": "Own and borrow handles are kept apart", "statement": "A handle received as a borrow cannot be used as if it were owned: lifting it as an own traps, and dropping it never runs the destructor.", "quantifier": "every history of operations on any number of instances, calls and resource types", "why_tests_cant": "the confusion needs a particular order of a lowering and a lifting with different types, in any reachable table state", "anchors": ["abi/io/lift.go:LiftOwn", "abi/io/canon.go:CanonResourceDrop", "abi/io/lower.go:LowerBorrow"]}
{"id": "C65", "title": "Narrow values are read from any word", "statement": "Loading or lifting a bool gives false for zero and true for every other byte or word. Lifting an 8- or 16-bit integer takes the low bits of the word, whatever the high bits are. Lowering a bool gives 0 or 1, an unsigned integer its value and a signed one its sign-extended value.", "quantifier": "every byte, every 32-bit word, every value, every address inside every memory below 2^32 bytes; in a memory of any size, every bool that is given", "why_tests_cant": "all words; the boundary is crossed by guests that do not normalise", "anchors": ["abi/io/load.go:LoadBool", "abi/io/lift.go:LiftFlatU8", "abi/io/lift.go:LiftFlatS8", "abi/io/lower.go:LowerU8", "abi/io/lower.go:LowerS8"]}
{"id": "C66", "title": "Discriminants out of range are refused", "statement": "Loading or lifting a variant, union, enum, option or result whose discriminant is not the number of one of its cases returns an error; it does not panic and gives no value.", "quantifier": "every type with cases, every discriminant value, every flat value list and every address inside every memory below 2^32 bytes; in a memory of any size no value is given", "why_tests_cant": "all types and all discriminants; the boundary is the number of cases and the width of the discriminant depends on it", "anchors": ["abi/io/load.go:LoadVariant", "abi/io/lift.go:LiftFlatVariant"]}
{"id": "C67", "title": "A call is ended after the post-return function", "statement": "The function that CanonLift returns runs the post-return function if there is one and fails if that fails; then it ends the call: each handle lent to the call gets back exactly as many loans as it gave. If borrowed handles of the call are still held it reports an error.", "quantifier": "every successful call, every state in which the returned function is called, every post-return function", "why_tests_cant": "quantifies over all callees and handle histories", "anchors": ["abi/io/canon_lift.go:CanonLift", "abi/types/context.go:ExitCall"]}
{"id": "C68", "title": "WAT string literals are one token", "statement": "A string literal of the WAT text, in which quotes and backslashes are escaped by a backslash, is returned as one String token with the whole literal as capture.", "quantifier": "every string literal at every place of a text", "why_tests_cant": "all literals and all texts around them", "anchors": ["wat/lex/lexer.go:str", "wat/lex/lexer.go:Next"]}
{"id": "C69", "title": "WAT block comments nest", "statement": "A block comment, possibly with block comments inside it, is returned as one BlockComment token that ends at the end marker balancing its beginning.", "quantifier": "every block comment at every place of a text, every nesting depth", "why_tests_cant": "unbounded contents and nesting", "anchors": ["wat/lex/lexer.go:blockComment", "wat/lex/lexer.go:Next"]}
{"id": "C70", "title": "WAT words are the longest runs of word characters", "statement": "A longest run of the identifier characters of the WebAssembly text format is returned as one token, an Id exactly when it is a dollar sign with at least one more character, otherwise a Reserved, Integer, Float or keyword token; and tokens of these types are never anything else.", "quantifier": "every word at every place of a text", "why_tests_cant": "all strings and all texts around them", "anchors": ["wat/lex/lexer.go:reserved", "wat/lex/lexer.go:identifier", "wat/lex/lexer.go:isIdChar"]}
{"id": "C71", "title": "WAT white space, parentheses and foreign bytes", "statement": "In a WAT text a longest run of spaces, tabs, newlines, vertical tabs, form feeds and carriage returns is returned as one Whitespace token, a parenthesis that begins no comment as one OpenParen or CloseParen token, tokens of these types are never anything else, and a byte that can begin no token is reported as an error.", "quantifier": "every white space run, parenthesis and byte at every place of a text", "why_tests_cant": "The claim is about every run at every offset and all 256 byte values, before and after any other tokens.", "anchors": ["wat/lex/lexer.go:isSpace", "wat/lex/lexer.go:next"]}
{"id": "C72", "title": "Different WAT instructions have different trees", "statement": "Two different instruction mnemonics that the WAT parser accepts without operands never parse to the same instruction.", "quantifier": "every pair of words", "why_tests_cant": "injectivity over all words", "anchors": ["wat/parse/parser.go:parseInstruction"]}
{"id": "C73", "title": "WIT token positions are true", "statement": "Every token of a WIT text carries as line the number of newlines before it and as column the number of bytes between the last newline before it and the token.", "quantifier": "every token of every text", "why_tests_cant": "The claim is about every token after any number of lines, comments and multi-byte characters.", "anchors": ["wit/lex/lexer.go:Next"]}
{"id": "C74", "title": "WIT white space, numbers, line comments and foreign characters", "statement": "In a WIT text a longest run of white space characters is one Whitespace token, a longest run of digits one Integer token, a line comment runs to the end of its line, tokens of these types are never anything else, and a character that is neither white space, a letter, a digit nor one of the punctuation characters of WIT is reported as an error.", "quantifier": "every run, comment and character at every place of a text, multi-byte characters included", "why_tests_cant": "The claim is about every run at every offset and every character, before and after any other tokens.", "anchors": ["wit/lex/lexer.go:Next", "wit/lex/lexer.go:isSpace"]}
{"id": "C75", "title": "Parsing WIT ignores whitespace and comments", "statement": "The result of parsing a WIT text depends only on its sequence of significant tokens: two texts with the same tokens other than white space and comments parse to the same tree, or are both refused.", "quantifier": "every pair of texts with equal significant tokens", "why_tests_cant": "White space and comments can stand at any of unboundedly many places of a text, in any number and nesting.", "anchors": ["wit/parse/parser.go:next", "wit/parse/parser.go:peek", "wit/parse/parser.go:Parse"]}
{"id": "C76", "title": "The WIT parser accepts exactly its grammar", "statement": "A WIT text is parsed to a given tree, one without empty items, exactly if the text has no lexical error and its tokens, white space and comments apart, are one of the ways in which the grammar writes that tree. In particular every text the grammar allows is accepted, whatever it contains and however deep it nests, and the tree has everything that was written in the order it was written.", "quantifier": "every text and every tree, both directions", "why_tests_cant": "Both the texts and the trees are unboundedly long and deep; a test compares one text with one tree and cannot show that no other text is accepted.", "anchors": ["wit/parse/parser.go:Parse", "wit/parse/parser.go:parseAst", "wit/parse/parser.go:parseInterface", "wit/parse/parser.go:parseWorld", "wit/parse/parser.go:parseType"]}
{"id": "C77", "title": "A WIT text has one reading", "statement": "No sequence of tokens can be read as two different documents: the grammar the parser accepts is unambiguous.", "quantifier": "every sequence of tokens and every pair of trees", "why_tests_cant": "A test shows the reading the parser finds, not that there is no other.", "anchors": ["wit/parse/parser.go:parseAst", "wit/ast/ast.go:Ast"]}
{"id": "C78", "title": "Built-in types are nodes of their own in the WIT tree", "statement": "The word of a built-in type (u8 to s64, float32, float64, char, bool, string) is parsed to the node the syntax tree declares for that type and not to a reference to a type of that name, and the element type of a list or an option is in the field ItemType.", "quantifier": "every built-in type, every element type, every text", "why_tests_cant": "A test covers the types it mentions; element types nest without bound.", "anchors": ["wit/parse/parser.go:parseType", "wit/parse/parser.go:parseList", "wit/parse/parser.go:parseOption", "wit/ast/ast.go"]}
{"id": "C79", "title": "The WAT parser accepts exactly its grammar", "statement": "A WAT text is parsed to a given tree exactly if its tokens, white space and comments apart, begin with one of the ways in which the grammar writes that tree; every other text is answered with an error. In particular every module the grammar allows is accepted, however many functions it has and however deep its instructions nest, and the tree has the instructions, types, locals and sections in the order in which they were written.", "quantifier": "every text and every tree, both directions", "why_tests_cant": "Both the texts and the trees are unboundedly long and deep; a test compares one text with one tree and cannot show that no other text is accepted.", "anchors": ["wat/parse/parser.go:Parse", "wat/parse/parser.go:parseModule", "wat/parse/parser.go:parseFunc", "wat/parse/parser.go:parseInstruction", "wat/parse/parser.go:parseIf"]}
{"id": "C80", "title": "A WAT text has one reading", "statement": "No sequence of tokens can be read as two different modules, and no module is the beginning of another one: the grammar the parser accepts is unambiguous and prefix-free.", "quantifier": "every sequence of tokens and every pair of trees", "why_tests_cant": "A test shows the reading the parser finds, not that there is no other.", "anchors": ["wat/parse/parser.go:parse", "wat/ast/ast.go:Module"]}
{"id": "C81", "title": "A WAT module is what is between its parentheses", "statement": "If a WAT text is accepted, there is one closing parenthesis in it that ends the module: whatever bytes are put after that parenthesis, even bytes that are no tokens, the text is accepted as the same tree, and the text cut off anywhere before that parenthesis is refused.", "quantifier": "every accepted text, every place to cut, every continuation", "why_tests_cant": "There are unboundedly many texts, places to cut and continuations; a cut can fall inside any token.", "anchors": ["wat/parse/parser.go:Parse", "wat/parse/parser.go:parse", "wat/lex/lexer.go:Next"]}
{"id": "C82", "title": "The script parser accepts exactly its grammar", "statement": "A test script (WAST) is parsed to a given list of directives exactly if its tokens, white space and comments apart, are one of the ways in which the grammar writes these directives one after the other up to the end of the text; every other text is answered with an error. No sequence of tokens can be read in two ways, and no directive is the beginning of another.", "quantifier": "every text and every list of directives, both directions", "why_tests_cant": "Scripts are unboundedly long and hold modules of any depth; a test compares one text with one list.", "anchors": ["wast/parse/parser.go:Parse", "wast/parse/parser.go:parseDirective", "wast/parse/parser.go:parseQuoteWat", "wast/parse/parser.go:parseAction", "wast/parse/parser.go:parseConst", "wast/parse/parser.go:parseResults"]}
{"id": "C83", "title": "Accepted texts have balanced parentheses", "statement": "In what the parser of modules reads of an accepted text every parenthesis is closed, and a text with a parenthesis that is never closed is refused; the same for scripts.", "quantifier": "every text", "why_tests_cant": "Parentheses nest without bound and every place where the grammar has one could forget to close it.", "anchors": ["wat/parse/parser.go:parse", "wast/parse/parser.go:parseWast", "wast/parse/parser.go:parseResults"]}
{"id": "C84", "title": "Assertions about an action have one", "statement": "If a script is accepted, each of its assertions about a return value or a trap has the action it is about: the module and name that are called and the arguments, in the order in which they were written, or the global that is read.", "quantifier": "every accepted script", "why_tests_cant": "An action that is silently lost shows only in the scripts that use it.", "anchors": ["wast/parse/parser.go:parseAction", "wast/parse/parser.go:parseInvoke", "wast/parse/parser.go:parseGet"]}
{"id": "C85", "title": "Float constants written as integers mean the integer", "statement": "A float constant written as an integer, as in f32.const 7, is the float nearest to that integer, with the sign it is written with.", "quantifier": "every integer literal of the text format", "why_tests_cant": "There are unboundedly many literals; the conversion goes through a narrower integer type, which shows only at its ends.", "anchors": ["wat/parse/parser.go:parseFloat32", "wat/parse/parser.go:parseFloat64", "wat/parse/parser.go:parseInt32", "wat/parse/parser.go:parseInt64"]}
{"id": "C86", "title": "Scripts can be put one after the other", "statement": "An accepted script ends with a closing parenthesis such that whatever is put after it is read as a script of its own: the directives of both are returned one after the other if the second is accepted, and the whole is refused if it is not.", "quantifier": "every accepted script and every continuation", "why_tests_cant": "There are unboundedly many pairs; state of the lexer could leak from one directive to the next.", "anchors": ["wast/parse/parser.go:parseWast", "wast/parse/parser.go:parseDirective", "wat/lex/lexer.go:Clone"]}
{"id": "C87", "title": "Printed scripts parse back", "statement": "The text of a script, its words written with spaces between them, is parsed to the same script; so two different scripts have different texts.", "quantifier": "every script, with modules of any size", "why_tests_cant": "Scripts and the modules in them are unboundedly large.", "anchors": ["wast/parse/parser.go:Parse", "wast/ast/ast.go:Wast"]}
{"id": "C88", "title": "Lowering gives and lifting takes exactly the handles in a value", "statement": "When a value is lowered for a call that has not ended, the receiving instance gets one handle for each handle in the value, from left to right, at an index that was free, owned if it was owned and belonging to the call if it was borrowed; when a value is lifted or loaded, the handles in it are those the instance had at the indices given, the owned ones are taken out of its tables and the borrowed ones are lent to the call. No other handle of any instance changes.", "quantifier": "every type, every value, every reachable state of the tables of any number of instances", "why_tests_cant": "Handles may occur anywhere in values of unbounded size, and what must not change is every other handle of every instance.", "anchors": ["abi/io/lower.go:LowerFlat", "abi/io/lift.go:LiftFlat", "abi/io/load.go:Load", "abi/io/lower.go:LowerOwn", "abi/io/lift.go:LiftOwn"]}
{"id": "C89", "title": "Values with handles can be stored", "statement": "A value with handles in it can be written to memory with Store, as it can be read with Load; so lists of handles can be passed as arguments.", "quantifier": "every type with handles and every value of it", "why_tests_cant": "The handles may be anywhere in the value; the claim is about all types.", "anchors": ["abi/io/store.go:Store", "abi/io/load.go:Load", "abi/io/lower.go:LowerFlat"]}
{"id": "C90", "title": "Passing a value moves its owned handles", "statement": "When a value is lifted out of one instance and lowered into another, each owned handle in it was held by the first instance, is no longer held by it, and the second instance holds an owned handle to the same resource at an index that was free.", "quantifier": "every type, every value, every reachable state, every two instances", "why_tests_cant": "Ownership must be unique after every one of unboundedly many histories.", "anchors": ["abi/io/lower.go:LowerFlat", "abi/io/lift.go:LiftFlat", "abi/io/canon_lift.go", "abi/io/canon_lower.go"]}
{"id": "C91", "title": "A call moves exactly the handles in its arguments and results", "statement": "A successful call through CanonLower takes exactly the handles in the arguments from the calling instance before it calls the function once, gives it exactly the handles in the results afterwards and ends the call; a successful call through CanonLift gives the called instance exactly the handles in the arguments, calls the function once, and takes exactly the handles in the results. No other handle of any instance is changed by the call itself.", "quantifier": "every function, every types, every reachable state, whatever the function called does", "why_tests_cant": "The function called may do anything, arguments may have any number of handles anywhere, and what must not change is every other handle.", "anchors": ["abi/io/canon_lift.go:CanonLift", "abi/io/canon_lower.go:CanonLower", "abi/types/context.go:ExitCall"]}
{"id": "C92", "title": "A borrowed handle does not outlive its call", "statement": "When a call has returned successfully no instance has a handle that was borrowed for it: a function that keeps one makes the call fail. So no instance can use a borrowed handle after its owner dropped the resource.", "quantifier": "every call and every function called", "why_tests_cant": "The function called may do anything.", "anchors": ["abi/io/canon_lift.go:CanonLift", "abi/io/canon_lower.go:CanonLower", "abi/types/context.go:ExitCall"]}
{"id": "C93", "title": "The text decoder returns the module that the text describes", "statement": "Decode of wat.NewDecoder succeeds exactly when the reader delivers a text whose beginning is a module or component of the text format, and returns a directive with the types, functions, tables, memories and globals of that text; everything else is answered with an error. So texts of different modules are decoded to different modules.", "quantifier": "every reader and every text", "why_tests_cant": "Texts are unbounded; a test sees a few of them.", "anchors": ["wat/decoder.go:Decode", "wat/decoder.go:module", "wat/decoder.go:component"]}
{"id": "C94", "title": "A binary module that was read can be instantiated and used", "statement": "Reading the standard bytes of a module and instantiating it puts every function with its type, locals and code into the store; the addresses of the instance lead to them in order, also after later instantiations; the instance finds every export by its name and knows the signatures of its functions.", "quantifier": "every module, every standard encoding of it, every store, every later instantiations", "why_tests_cant": "Modules, encodings and the order of instantiations are unbounded.", "anchors": ["binary/read.go:Read", "runtime/instance.go:NewModuleInstance", "runtime/instance.go:GetExport"]}
{"id": "C95", "title": "The string-copy helpers put the whole string in the block they allocate and nowhere else", "statement": "Copying a string in a given encoding returns an aligned fresh block from which the string can be decoded again, and leaves every byte that was in use as it was. Transcoding UTF-8 to UTF-16 likewise returns the string in UTF-16 with the number of code units it takes, whatever the resize of the block does with its place.", "quantifier": "every string, every encoding, every number of source code units, every allocator and resize that keep their contract, every memory", "why_tests_cant": "Strings, memories and allocators are unbounded; tests see one allocator that never moves a block and never has a neighbour.", "anchors": ["abi/io/store.go:StoreStringCopy", "abi/io/store.go:StoreUtf8ToUtf16"]}
{"id": "C96", "title": "The largest memory can be used", "statement": "In a memory of 2^32 bytes, the largest size WebAssembly allows, Store of a value of a type with a layout at an aligned address inside the memory is not refused for its address, and Load of an integer inside the memory returns it; neither panics.", "quantifier": "every type with a layout, every value, every aligned address whose slot lies inside the memory", "why_tests_cant": "A test would have to allocate 4 GiB, and one address settles nothing about the others: the length wraps to zero in a 32-bit comparison.", "anchors": ["abi/io/store.go:74-98", "abi/io/load.go:133-159"]}
{"id": "C97", "title": "Reading a binary asks for memory in proportion to its length", "statement": "While Read reads a binary, the number of slice elements it makes or appends is at most the number of bytes of the input, whether the input is accepted or refused.", "quantifier": "every input", "why_tests_cant": "The allocation depends on counts inside the input, which take any 32-bit value; a test sees only the inputs it tries, and does not measure what a refused one has allocated.", "anchors": ["binary/read.go:ReadBytes", "binary/read.go:ReadValueTypeVector", "binary/read.go:ReadFuncs", "binary/read.go:ReadString"]}
{"id": "C98", "title": "Float constants have the value of their literal", "statement": "f32.const and f64.const of a float literal of the text format (with a point or an exponent) are the number of that type nearest to the literal's value, ties to even, with the literal's sign; a literal to which infinity is nearest is an error.", "quantifier": "every float literal with digits, decimal or hexadecimal, with or without sign, fraction, exponent and underscores", "why_tests_cant": "There are unboundedly many literals, and errors of rounding or of missing digits show only on particular ones.", "anchors": ["wat/parse/parser.go:431-450", "wat/parse/parser.go:818-881", "wat/lex/dfa.go"]}
{"id": "C99", "title": "Infinity and NaN constants", "statement": "f32.const and f64.const of inf are the infinity with the literal's sign; f64.const of nan and of nan:0xN with 1 <= N < 2^52 are NaNs with the literal's sign and payload N (the canonical payload for plain nan).", "quantifier": "every sign and every payload", "why_tests_cant": "There are 2^52 payloads with three ways to write a sign.", "anchors": ["wat/parse/parser.go:818-881"]}
{"id": "C100", "title": "Reading does not depend on how the reader delivers its bytes", "statement": "Read of a binary comes to the same, the same document or an error, for any two io.Readers that hand out the same bytes and then say end of file, however many bytes each call of Read returns, and whether end of file comes with the last bytes or after them.", "quantifier": "every byte string and every reader that keeps to the contract of io.Reader", "why_tests_cant": "Tests read from buffers, which deliver everything at once; the ways to cut a byte string into portions are exponentially many.", "anchors": ["leb128/decode.go:9-32", "binary/read.go:71-135", "binary/read.go:392-427"]}
{"id": "C101", "title": "A failing reader never yields a module", "statement": "If the reader never reports end of file, because it fails with another error or goes on for ever, Read does not return a module: a failure is never taken for the end of the module.", "quantifier": "every reader, in every state, after any number of bytes", "why_tests_cant": "A failure can come at any call of Read, with or without bytes.", "anchors": ["binary/read.go:71-135", "leb128/decode.go:9-32"]}
{"id": "C102", "title": "Decoding text does not depend on how the reader delivers its bytes", "statement": "Decode of a text comes to the same for every io.Reader that hands out its bytes and then says end of file, however many bytes each call of Read returns, and whether end of file comes with the last bytes or after them; a reader that fails instead never makes it return anything.", "quantifier": "every text and every reader that keeps to the contract of io.Reader", "why_tests_cant": "The ways to cut a text into portions are exponentially many, and tests read from strings.", "anchors": ["wat/decoder.go:27-38"]}
{"id": "C103", "title": "Encoded numbers reach the writer or an error is reported", "statement": "If values are encoded one after the other to a buffered writer and Flush then reports no error, every Encode reported success with the number of its bytes and the writer behind has received exactly bytes that Decode reads back as the values; whatever fails, it never receives anything but the beginning of those bytes, a call that reports an error returns 0, and from the first one on all do, while a call that reports success has handed over all of its bytes.", "quantifier": "every list of 32-bit values, every buffer size, every writer with any pattern of short writes and errors", "why_tests_cant": "Writers can fail at any call after any number of bytes; tests use buffers that never fail.", "anchors": ["leb128/encode.go:5-23"]}
{"id": "C104", "title": "Decoding from a buffered reader does not depend on delivery", "statement": "leb128.Decode from a bufio.Reader returns the number the bytes begin with, its length, and leaves exactly the bytes after it, in whatever portions the reader behind delivers them, with empty calls in between and end of file with the last bytes or after them; bytes without a whole number are reported as end of file.", "quantifier": "every byte string, every reader that keeps to the contract of io.Reader, does not fail and does not return nothing a hundred times in a row", "why_tests_cant": "The ways to deliver a byte string are unbounded.", "anchors": ["leb128/decode.go:34-51"]}
{"id": "C105", "title": "Values stored side by side do not disturb each other", "statement": "If values are stored one after the other at places in memory that do not overlap, then in the end every value whose Store succeeded can be loaded from its place and is the same (with NaNs replaced by the canonical NaN), whatever was stored after it, with its strings and lists in blocks of the allocator, and whichever other stores failed.", "quantifier": "every number of values, every well-formed type without handles (at most 64 flags), strings and lists that fit a 32-bit memory, every allocator that does not hand out bytes in use, memories below 2^32 bytes", "why_tests_cant": "Tests store one value; interference needs particular combinations of types, addresses and allocations.", "anchors": ["abi/io/store.go", "abi/io/load.go"]}
{"id": "C106", "title": "What Load and LiftFlat return is a value of the type", "statement": "Whatever bytes the guest's memory holds and whatever core values it passes, a value returned by Load or LiftFlat is a Go value of the type asked for, in canonical form: every float is the canonical NaN or not a NaN, every char is a Unicode scalar value, records and flags have exactly the declared labels, and a variant is one entry named by a declared case followed by the labels it refines.", "quantifier": "for every type in which the labels of each record, variant and flags differ and no case label contains '|', every memory, address, flat values, handle tables and encoding", "why_tests_cant": "The guest may hand over any bytes; tests load what Store wrote.", "anchors": ["abi/io/load.go:13-65", "abi/io/load.go:270-450", "abi/io/lift.go:28-89", "abi/io/lift.go:234-342"]}
{"id": "C107", "title": "A received value is passed on exactly", "statement": "A value that Load or LiftFlat returned is accepted by Store and LowerFlat of another instance unless its allocator refuses memory, and loading or lifting it there gives exactly the value received, with nothing left to normalise: copying a value from instance to instance any number of times does not change it.", "quantifier": "for every usable type without handles, every value received from any memory or flat values whose strings and lists fit the receiving memory and encoding, every allocator that hands out fresh aligned blocks, receiving memories below 2^32 bytes", "why_tests_cant": "Needs all values of all types, and that receiving lands in the set on which sending is exact.", "anchors": ["abi/io/load.go:13-65", "abi/io/lift.go:28-89", "abi/io/store.go:13-72", "abi/io/lower.go:13-64"]}
{"id": "C108", "title": "Receiving a value changes nothing but handles", "statement": "Load and LiftFlat, whether they succeed, fail or panic, leave every byte of the memory, its size and the state of the guest's allocator as they were; if the type has no handles in it they leave the handle tables as they were too, so that reading again gives the same.", "quantifier": "for every type, address, memory, flat values, tables and outcome", "why_tests_cant": "An absence of effects over all inputs and outcomes.", "anchors": ["abi/io/load.go:13-450", "abi/io/lift.go:28-342"]}
{"id": "C109", "title": "A lifted value depends only on its own core values", "statement": "If LiftFlat succeeds, it gives the same value, and has the same effects, on every other iterator whose next values are the same, as many of them as FlattenType has entries: neither the values before nor those after matter.", "quantifier": "for every type, list of core values, position and state in which LiftFlat succeeds", "why_tests_cant": "Independence from everything else, for all lists.", "anchors": ["abi/io/lift.go:28-342", "abi/values/value.go:20-43", "abi/values/coerce_value_iterator.go:41-89"]}
{"id": "C110", "title": "A value in memory is its own bytes and no others", "statement": "If Load returns a value from an aligned address inside a memory, it returns the same value, and does the same to the handle tables, from every other memory that is at least as large and holds the same bytes where the value is: its numbers, pointer and length pairs and discriminants, what the pairs describe, and the payload of the case that is there. Padding, the bytes of the other cases and everything else do not matter, so that writing there leaves the value as it was.", "quantifier": "for every type with a layout, every aligned address at which it fits, every pair of memories of less than 2^32 bytes that agree on the bytes of the value, none of whose strings and lists is described to reach 2^32, every encoding and handle tables", "why_tests_cant": "Independence from all other bytes, for all types and memories.", "anchors": ["abi/io/load.go:13-450"]}
{"id": "C111", "title": "WAT line comments and lone semicolons", "statement": "In a WAT text two semicolons begin a line comment: everything up to and with the next line feed, whatever it is, is one LineComment token; if no line feed follows, the text ends there and Next returns the end of the stream. A semicolon followed by another byte is an error, and one at the very end of the text is the end of the stream.", "quantifier": "every semicolon that begins no part of another token, at every place of a text, and every content of the comment", "why_tests_cant": "The claim is about every content and every place, before and after any other tokens.", "anchors": ["wat/lex/lexer.go:229-258", "wat/lex/lexer.go:next"]}
{"id": "C112", "title": "Bytes that are not UTF-8 are refused in WIT texts", "statement": "Where a WIT text has, outside of comments, bytes with which no UTF-8 character begins (a stray continuation byte, a character cut off, an overlong form, a surrogate, a character above U+10FFFF), the lexer answers with an error: such bytes are never taken for other characters. Every token other than a comment is UTF-8, and so is an accepted text apart from its comments.", "quantifier": "every text, every place between tokens, every accepted text; for Unicode tables in which U+FFFD is no letter, digit or white space, as in Unicode", "why_tests_cant": "There are unboundedly many malformed sequences and places; a lexer that accepts an overlong form of a letter passes every test written in valid UTF-8.", "anchors": ["wit/lex/lexer.go:308-323", "wit/lex/lexer.go:78-181"]}
{"id": "C113", "title": "A string in memory is what its bytes write", "statement": "Loading a string returns exactly the characters its bytes write in the string encoding of the call (UTF-8, UTF-16 in either byte order, Latin-1, or with latin1+utf16 the one the highest bit of the length word names), and changes nothing; bytes that are misaligned or outside the memory, and bytes that write no string (malformed UTF-8, lone surrogates), are refused.", "quantifier": "every encoding, memory of less than 2^32 bytes, address and length word below 2^31 (any with latin1+utf16) describing bytes that end below 2^32", "why_tests_cant": "Tests read strings that were written by the store side, which is wrong in the same way if the codec is.", "anchors": ["abi/io/load.go:206-253", "encoding/utf8.go:9-16", "encoding/utf16.go:13-35", "encoding/latin1.go:10-26", "encoding/factory.go:18-52"]}
{"id": "C114", "title": "A refused operation on handles changes nothing", "statement": "When creating, representing, dropping, lifting or lowering a handle or ending a call returns an error, nothing that can be seen of the handles changes: whatever operations come later answer as if the refused one had not been tried, and no destructor is called.", "quantifier": "every history of operations on any number of instances, resource types and calls, every refused operation, every continuation", "why_tests_cant": "All histories and all continuations; a test looks at one value after one refusal.", "anchors": ["abi/types/handle.go:21-67", "abi/types/context.go:10-31", "abi/io/canon.go:5-36", "abi/io/lift.go:11-26", "abi/io/lower.go:244-270"]}
{"id": "C115", "title": "Load returns what the bytes stand for", "statement": "Load returns exactly the value that the Canonical ABI assigns to the bytes at the address: integers least significant byte first, floats with one NaN, characters that are Unicode scalar values, records field after field at their aligned offsets, the case of a variant its discriminant names, bit i for flag i, and the strings and lists that (address, length) pairs describe. It changes nothing, and refuses bytes to which no value is assigned.", "quantifier": "every type without handles, memory and aligned address with the value inside the memory", "why_tests_cant": "All types and memory contents against a specification of what bytes mean; tests load what Store has written, so the two can be wrong together.", "anchors": ["abi/io/load.go:13-65", "abi/io/load.go:109-159", "abi/io/load.go:206-299", "abi/io/load.go:301-383", "abi/io/load.go:410-443"]}
{"id": "C116", "title": "Store writes the bytes that the Canonical ABI prescribes", "statement": "After a successful Store the bytes at the address are those the Canonical ABI prescribes for the value: integers least significant byte first, booleans as 0 or 1, NaNs canonical, characters as their code points, record fields at their aligned offsets, the discriminant of the case and its payload at the payload offset, bit i for flag i and no other bits, and for strings and lists an (address, length) pair describing aligned bytes inside the memory that hold the encoded string or the elements.", "quantifier": "every type without handles, value of that type that fits a 32-bit memory, aligned destination and allocator that keeps its promises", "why_tests_cant": "All types, values and allocators against a specification of the bytes; tests store and load again with the same code, so errors that cancel out stay unseen.", "anchors": ["abi/io/store.go:13-72", "abi/io/store.go:74-134", "abi/io/store.go:136-449", "abi/io/store.go:451-526"]}
{"id": "C117", "title": "FlattenType gives the core types of the Canonical ABI", "statement": "FlattenType succeeds exactly for the types that have a layout, and returns their core types: one 32-bit integer for booleans, small integers, characters and handles, i64, f32, f64 for their own, two 32-bit integers for strings and lists, those of the fields in order for records, one 32-bit integer per 32 labels for flags, and for a variant the discriminant followed by one slot per position of its longest payload, whose type is that of all payloads there if they agree, i32 if all have 32 bits, and i64 otherwise.", "quantifier": "every type whose flags have fewer than 2^37 labels", "why_tests_cant": "All types against a slot-by-slot specification; tests flatten a few types, and a slot that is wider than needed still round trips.", "anchors": ["abi/io/flatten.go:22-98"]}
{"id": "C118", "title": "The core values stand for the values lowered to them and lifted from them", "statement": "LowerFlat returns core values of the core types of the type that stand for the value in the one way the Canonical ABI prescribes: integers zero- or sign-extended to their slot, true as 1, canonical NaNs, flags in 32-bit words, a variant as the number of its case, its payload in the shared slots and 0 in the slots it does not use, strings and lists as pairs that say where their bytes are. LiftFlat, given core values that stand for a value, returns that value and takes exactly them, whatever is in the bits and slots that are not used; it returns an error and changes nothing else exactly where the core values stand for nothing (no such case, no such character, a list or string misaligned or outside the memory).", "quantifier": "all types without handles, all values, all core values before and after, all memories below 2^32 bytes and all allocators that keep their promises", "why_tests_cant": "All values of all types against a specification that is apart from both directions; a round trip cannot tell if both directions share a mistake, such as a slot read with the wrong width or the words of flags in the wrong order.", "anchors": ["abi/io/lower.go:13-344", "abi/io/lift.go:28-342", "abi/values/coerce_value_iterator.go:41-89"]}
{"id": "C119", "title": "In a call, the core values on both sides stand for the same values", "statement": "When a call between two component instances goes through CanonLower on the caller's side and CanonLift on the callee's and succeeds, the core function receives core values of the right types that stand, by the rules of the Canonical ABI, in the callee's memory and string encoding, for the same values as the caller's core values stood for in the caller's memory and string encoding; the core values the caller gets back stand, in its memory and encoding, for the same values as the core results of the callee stood for in its memory. Core arguments that stand for nothing are refused before the function is called. Arguments that are too many to be passed as core values are read from the tuple in memory whose address is passed.", "quantifier": "all function types without handles, all arguments, all core functions (they may do anything to all memories), both string encodings, all allocators that keep their promises", "why_tests_cant": "The core function, the memories and the string encodings on both sides are arbitrary; and a test of the round trip through both sides cannot see a mistake that both sides share.", "anchors": ["abi/io/canon_lift.go:12-143", "abi/io/canon_lower.go:13-140"]}
{"id": "C120", "title": "What is read from a guest's memory is bounded by its size", "statement": "Whatever a guest left in its memory and whatever core values it passes, the value that Load, LiftFlat or the lifting of parameters and results returns holds at most (number of parts of the type) times (memory size + 1) to the power of (depth of lists and strings within each other) values and characters, if the elements of its lists take up at least one byte each and the memory leaves as many addresses free as one of them takes; the elements of a list all start within the memory. Where elements take up no bytes there is no such bound: two core values and no memory are enough for any number of elements below 2^32. And the power is needed: a memory of 8k bytes can hold k^d values at d levels of lists.", "quantifier": "all memories and their contents, all addresses and core values, all types including handles, all string encodings", "why_tests_cant": "The bytes come from a guest that may be malicious; the worst input is one where lists overlap and wrap around, which a test would have to guess.", "anchors": ["abi/io/load.go:13-65", "abi/io/load.go:219-299", "abi/io/lift.go:28-342", "abi/io/canon_lift.go:79-143"]}
{"id": "C121", "title": "A binary has one reading", "statement": "binary.Read returns a document exactly for these inputs: a component preamble, with what follows left unread; or a module preamble followed up to the end of the input by sections, in any number and order, where no code section has more entries than the function section before it has indices. The module then has the types of the last type section, the exports of the last export section and one function for each index of the last function section, with the code entry of its number in the last code section after it that has so many. The bytes determine where a section ends and what it says: no input can be cut into sections in two ways.", "quantifier": "all byte strings, all sequences of sections", "why_tests_cant": "Which of the infinitely many byte strings are accepted, and that none has two readings, is a statement about a language; a test samples it.", "anchors": ["binary/read.go:16-133", "binary/read.go:137-403"]}
{"id": "C122", "title": "Binaries that are not well-formed are refused", "statement": "binary.Read returns an error for every input that is not a well-formed binary: the size of each section is the size of its contents, sections come in order and at most once, and numbers take at most five bytes and fit in 32 bits.", "quantifier": "all byte strings, all sequences of sections, all sizes", "why_tests_cant": "The ways to be malformed are endless, and a check that is missing shows only on the inputs nobody wrote a test for.", "anchors": ["binary/read.go:71-133", "binary/read.go:137-403", "leb128/decode.go:9-31"]}
{"id": "C123", "title": "Handles among bytes and core values are places in a table", "statement": "In memory and among core values a handle is a u32: the number of its place in the table of the instance for the resource type. Load and LiftFlat return the value that is assigned to the bytes or core values when every handle is read as a u32, with each of these numbers, from left to right, replaced by the handle that lifting finds at that place; they change the tables as these liftings do, one after the other, and nothing else; they return nothing else (except that a string that is malformed comes with U+FFFD in it), and an error where no value is assigned or no such handle is found. The core values that LowerFlat returns stand in the same way for the value lowered, with the numbers that its handles got in the table of the instance, entered from left to right.", "quantifier": "all types with differing labels and at most 64 flags, handles anywhere in them; all values whose strings and lists fit; all tables; all memories below 2^32 bytes in which the (address, length) pairs met end below 2^32 and length words have a tag only where the encoding has one; all allocators that keep their promises", "why_tests_cant": "Where handles are in a value, and in which order they are entered into or found in the tables, varies with the type; a test fixes one type and one state of the tables.", "anchors": ["abi/io/load.go:13-65", "abi/io/lift.go:11-89", "abi/io/lift.go:234-342", "abi/io/lower.go:13-64", "abi/io/lower.go:244-344"]}
{"id": "C124", "title": "In a call, the handles on both sides are the same, and the numbers for them are those of each side's table", "statement": "When a call between two component instances goes through CanonLower on the caller's side and CanonLift on the callee's and succeeds, the core function receives core values that stand, in the callee's memory and string encoding, for the same values as the caller's core values stood for on its side; where these values have handles, the caller's core values had the numbers of their places in the caller's table, and the callee's core values have the numbers that the same handles got, in order, in the callee's table, after they were taken out of the caller's table or lent from it. The same holds of the results on the way back. Core arguments with a number at which the caller's table has no such handle are refused before the function is called, whatever the function is, and no memory is changed.", "quantifier": "all function types, handles anywhere in them; all arguments; all core functions (they may do anything to all memories and tables); all tables; all string encodings on both sides; all allocators that keep their promises", "why_tests_cant": "Which handles are in the values, and at which places of which tables they are, varies with type, value and the history of both instances; a test fixes all of these.", "anchors": ["abi/io/canon_lift.go:12-143", "abi/io/canon_lower.go:13-140", "abi/io/lift.go:11-89", "abi/io/lower.go:13-64"]}
{"id": "C125", "title": "The guest's allocator is asked for exactly the blocks the strings and lists of a value need", "statement": "While Store or LowerFlat run on a value, the guest's allocator is called once for every string and once for every list in the value and never otherwise: with the alignment and the number of bytes of the string in the canonical options' encoding, and with the alignment of the element type and the number of elements times its size; from left to right, the block of a list before the blocks of its elements. This holds whatever the allocator answers; if lowering does not succeed, only a first part of these requests has been made. When a call passes its arguments flat, the core function is called after exactly the requests for the arguments; when it passes its results flat, exactly the requests for the results are made after the function returned and before the post-return function; lifting never calls the allocator; the allocators of other instances are not called.", "quantifier": "all types and values of them (any nesting, with handles), strings of less than 2^31 code units that the encoding can write, lists of less than 2^32 bytes; all encodings the library knows; all allocators (they may refuse, panic, return any address, change the memory); all memories; all core functions", "why_tests_cant": "The sequence of requests depends on type, value, encoding and on where the allocator stops; tests use one allocator that always succeeds and never look at what it was asked for.", "anchors": ["abi/io/store.go:13-72", "abi/io/store.go:217-289", "abi/io/store.go:392-440", "abi/io/lower.go:13-64", "abi/io/canon_lift.go:12-77", "abi/io/canon_lower.go:13-92"]}
{"id": "C126", "title": "Lowering does not look at the guest's memory", "statement": "The outcome of Store and LowerFlat, the core values, the requests to the allocator, the handles given out and the bytes written with their addresses do not depend on what is in the guest's memory: on two memories of the same size, whatever their bytes are, lowering does the same, and every byte it does not write stays as it was. (Only the guest's own allocator may look at memory: then at the bytes it looks at the two memories agree.)", "quantifier": "all types; all Go values, of the type or not; all addresses; all pairs of memories of the same size; all allocators and all sets of bytes they look at; all handle tables", "why_tests_cant": "A property of pairs of runs; a test makes one run on one memory, usually all zero.", "anchors": ["abi/io/store.go:13-554", "abi/io/lower.go:13-374"]}
{"id": "C127", "title": "Go values that stand for the same value are lowered alike, and only those", "statement": "A Go value of a component type can be written in several ways: the entries of a map in any order and with further entries, the case of a variant by its label or by any chain of labels whose first known one is it, any NaN. Two ways of writing the same value give the same outcome, the same bytes, the same requests to the allocator, the same handles and core values in Store and LowerFlat, and cannot be told apart by the callee of CanonLift nor by the caller of CanonLower. Conversely, if two stores or lowerings leave the same memory (and core values), then the Go values lowered are ways of writing the same value.", "quantifier": "first part: all types whose labels differ within each record, variant and flags type and in which no case label contains '|', all values, allocators, states, callees; converse: those types with at most 64 flags, without handles, all values of the type whose strings and lists fit in 32 bits, all pairs of allocators that keep their promises, all pairs of states with memories below 2^32 bytes", "why_tests_cant": "A property of pairs of Go values and runs; Go's map iteration order changes from run to run, and a test compares a few written examples.", "anchors": ["abi/io/store.go:13-554", "abi/io/lower.go:13-374", "abi/io/canon_lift.go:12-77", "abi/io/canon_lower.go:13-140"]}
{"id": "C128", "title": "A call writes only where it may, whatever comes of it", "statement": "CanonLift calls the core function at most once. Until then it changes no memory and no allocator but those of its own instance, and of that memory no byte that was in use; after the core function has returned it changes no memory. CanonLower calls the function at most once; until then it changes no memory; afterwards it changes, up to the post-return function, only the caller's memory, and there no byte that was in use; after the post-return function it changes no memory. This holds whether the call succeeds, fails or panics. So if the called component's function and post-return function touch only their own memory, a call from one component to another leaves the memory of every third component as it was, and every byte in use in the caller's memory; and so does any sequence of such calls, whatever comes of each, for an instance that is on neither side of any of them.", "quantifier": "all function types, arguments, limits on flat values, callees (which may do anything), states of all memories, allocators and handle tables, all outcomes; for the bytes in use: allocators that keep their promises, memories below 2^32 bytes, arguments or results whose lists fit in 32 bits (C20 shows the failure beyond that); for the caller's bytes across components: results passed flat, list elements smaller than the addresses left beyond the called side's memory", "why_tests_cant": "Isolation is about every byte of every memory and every outcome, including errors half way through; a test looks at the result of a call that succeeds.", "anchors": ["abi/io/canon_lift.go:12-143", "abi/io/canon_lower.go:13-140", "abi/io/lower.go:13-374", "abi/io/store.go:13-554"]}
{"id": "C129", "title": "What comes out of a memory fits into a memory", "statement": "Whatever bytes a memory holds, the lists in a value that Load or LiftFlat returns have fewer than 2^32 elements that take up fewer than 2^32 bytes, and if the memory is smaller than 512 MiB its strings can be written in UTF-8 and UTF-16. So such a value is accepted by Store and LowerFlat of any other instance unless the allocator there refuses a request, and comes back from there exactly as it was: nothing need be known about the value.", "quantifier": "all types whose labels differ, all memories, addresses and core values, such that the list elements of the type are smaller than the addresses left beyond the memory; passing on: types without handles that can be used (C19), memories below 512 MiB to read from, UTF-8, UTF-16 and latin1+utf16 to write in, all allocators that keep their promises, memories below 2^32 bytes to write to", "why_tests_cant": "Quantifies over all contents of memory, also those no encoder would write; tests load what they have stored.", "anchors": ["abi/io/load.go:13-452", "abi/io/lift.go:12-342", "abi/io/store.go:13-554", "abi/io/lower.go:13-374"]}
{"id": "C130", "title": "A call depends only on the memories that take part in it", "statement": "What comes of CanonLift, and everything it leaves behind outside a set P of instances, is the same whatever the memories and allocators of the instances in P are, if the core function called depends on nothing in P and the call's own instance is not in P; likewise CanonLower, if the function called and the post-return function it returns depend on nothing in P. So in any sequence of calls between components outside P, none of the outcomes, errors and panics included, says anything about the memories in P. And CanonLift does not look at the bytes that were in the called instance's memory before it calls: with other bytes there, it fails alike, or calls the function once with the same core values, having written the same bytes, and then does the same with the results.", "quantifier": "all sets P of instances, function types, arguments, limits on flat values, states of all memories, allocators and handle tables, all outcomes, all sequences of calls; callees and post-return functions that depend on nothing in P; allocators that work on the memory of their own instance; for the last sentence: allocators that look at no byte outside a set K of addresses, memories that agree on K, all callees", "why_tests_cant": "Confidentiality compares two runs on systems that differ arbitrarily in what must not matter; a test makes one run.", "anchors": ["abi/io/canon_lift.go:12-143", "abi/io/canon_lower.go:13-140", "abi/io/lower.go:13-374", "abi/io/store.go:13-554", "abi/io/lift.go:12-342", "abi/io/load.go:13-452"]}
{"id": "C131", "title": "Calls do nothing to handles but take, give and end, in that order", "statement": "While a call goes from one component to another through CanonLower and CanonLift, all that happens to handles, in this order, is: handles are taken from the caller for the arguments and given to the called instance, the called code does what it does, handles are taken from the called instance for the results and given to the caller, the post-return function does what it does, the called side's call ends and then the caller's. That is so whatever the values and whatever comes of the call: a call that fails or panics has done a part of this and nothing else. Neither call is used after its end. So after any sequence of calls, failed ones included, the handles are as after a history of single operations, and all that is promised of such histories holds: no resource is destroyed more often than it was created or given, and nothing is destroyed unless code drops a handle.", "quantifier": "all function types, core arguments, limits on flat values, memories, allocators, handle tables and string encodings; all core functions and post-return functions whose effect on handles is some sequence of operations, the post-return function's not using any call; all sequences of calls, with a new call context each; all outcomes; on no hypothesis about the values; for the destructors: tables of fewer than 2^32 slots", "why_tests_cant": "It quantifies over every point at which a call can fail, over all values and over all sequences of calls; a test sees a few of them, and looks at handles that are expected to change.", "anchors": ["abi/io/canon_lift.go:12-143", "abi/io/canon_lower.go:13-140", "abi/io/lower.go:13-374", "abi/io/lift.go:12-342", "abi/io/load.go:13-452", "abi/types/context.go:3-32"]}
{"id": "C132", "title": "Calls between components leave the handles of other instances alone", "statement": "In any sequence of calls between components, whatever comes of each, an instance that is on neither side of any of them, and whose handles the called code does not touch, has the handles it had: each index stands for the resource it stood for, or for none if it stood for none, and a handle can be taken out if and only if it could be taken out before.", "quantifier": "all sequences of calls with new call contexts, all outcomes, all histories of operations on handles before them in which no call was used after its end, all instances, resource types and indices; core functions and post-return functions as in C131; tables of fewer than 2^32 slots", "why_tests_cant": "The claim is about all indices and resource types of all other instances after any number of calls; tests look at the instances that take part.", "anchors": ["abi/io/canon_lift.go:12-77", "abi/io/canon_lower.go:13-69", "abi/io/lower.go:244-270", "abi/io/lift.go:12-26", "abi/types/context.go:3-32"]}
{"id": "C133", "title": "A failed call does not close an instance", "statement": "After any sequence of calls between components, whether they succeeded or failed, every instance that could be called before can be called again, and can make calls again, unless the called code decided otherwise.", "quantifier": "all sequences of calls, all function types, core arguments, limits on flat values, memories, allocators, handle tables; core functions and post-return functions that leave the flags MayEnter and MayLeave alone; all outcomes", "why_tests_cant": "The claim is about the calls after the one that failed, for every way in which a call can fail; a test of an error looks at the error.", "anchors": ["abi/io/canon_lift.go:12-77", "abi/io/canon_lower.go:13-69"]}
{"id": "C134", "title": "WAT integer constants are read as Go reads integers", "statement": "An i32.const or i64.const instruction whose operand is an integer of the WebAssembly text format is accepted exactly when the operand has no plus sign and the number it stands for in Go's syntax lies between -2^31 and 2^32 - 1; the constant is that number modulo 2^32 or 2^64. In Go's syntax digits after 0x are hexadecimal, decimal digits after a leading 0 are octal (and 8 or 9 among them an error), all others decimal.", "quantifier": "all integers of the text format, of any length, with any signs, leading zeros and underscores", "why_tests_cant": "There are infinitely many spellings, and what a leading zero, an underscore behind it, or a digit 8 far to the right does is decided in the library; the claim is an equivalence, which no list of accepted and refused literals gives.", "anchors": ["wat/parse/parser.go:774-806", "wat/parse/parser.go:419-430"]}
{"id": "C135", "title": "An index is the number written", "statement": "The index of br, br_if, br_table, call, local.get, local.set, local.tee, global.get or global.set, written as a decimal or hexadecimal number below 2^32, is read as that number; a number with a sign or from 2^32 on is an error.", "quantifier": "all instructions with an index, all integers of the text format as operands", "why_tests_cant": "The numbers for which a conversion from int to uint32 silently gives another index are those beyond every index a test would use.", "anchors": ["wat/parse/parser.go:540-559", "wat/parse/parser.go:366-412"]}
{"id": "C136", "title": "Single items are read token by token", "statement": "Calls of Peek, ParseString, ParseInt32, ParseInt64, ParseFloat32 and ParseFloat64 of the WAT parser on one lexer, in any order, are answered from the tokens of the text that are neither white space nor comments: Peek returns the next one and leaves it, each of the others takes it and returns its value, or returns an error if it is of another kind or its number cannot be read. Where the text has ended Peek returns the end and the others return errors; where the text has something that is no token all return an error.", "quantifier": "all texts, all sequences of calls up to the first that returns no value", "why_tests_cant": "The state of the lexer after a sequence of looks and reads depends on a token kept aside, on what was skipped and on errors; tests call a reader once on a fresh lexer.", "anchors": ["wat/parse/parser.go:23-25", "wat/parse/parser.go:758-881", "wat/parse/parser.go:917-952"]}
{"id": "C137", "title": "A lexer with rules of one's own takes the longest token", "statement": "With any rules in Lexer.Rules, Next returns the longest non-empty beginning of the rest of the text that one of the rules matches, with the type of the first rule that matches it (words of type Reserved are told apart further by what they spell), and returns an error if no rule matches any beginning. Tokens returned one after the other concatenate to the text read.", "quantifier": "all lists of rules made of automata and of strings, all texts, all states of the lexer", "why_tests_cant": "The choice is among all beginnings of the text and all rules; tests use the rules of WAT on short texts.", "anchors": ["wat/lex/lexer.go:17-25", "wat/lex/lexer.go:90-150", "wat/lex/dfa.go:47-105", "wat/lex/string.go:7-60"]}
{"id": "C138", "title": "FromString recognises its string and nothing else", "statement": "The automaton of FromString, once the caller has made its last node final, accepts the string it was made from and no other, and a lexer in which a rule with that automaton stands in the place of a StringRule of the same string and type returns the same for every text.", "quantifier": "all strings, all lists of rules in which any such rules are exchanged, all texts", "why_tests_cant": "That nothing else is accepted is a statement about all texts; the automaton is a chain as long as the string.", "anchors": ["wat/lex/dfa.go:107-119", "wat/lex/string.go:7-60"]}
{"id": "C139", "title": "Lexing does not depend on the order of a map", "statement": "New appends the rules of the two parentheses while it ranges over a Go map, in an order that differs from run to run; whatever the order, every call of Next returns the same token or error and leaves the lexer at the same place.", "quantifier": "all orders of the map, all texts, all states of the lexer", "why_tests_cant": "The order is chosen anew by the runtime at each call; a test sees one of them and cannot choose it.", "anchors": ["wat/lex/lexer.go:27-54", "wat/lex/lexer.go:90-150"]}
{"id": "C140", "title": "Errors of the WAT lexer say where they are", "statement": "In any sequence of calls of Next on a lexer of a text, an error names the line and the column (both from 0) in which the text begins that no token returned so far contains, names the position up to which it read, and quotes exactly the bytes between; the last of these can begin no token, or is a semicolon followed by another byte than a semicolon.", "quantifier": "all texts, all numbers of calls, also after earlier errors", "why_tests_cant": "Places are sums over everything before; tests of errors look at most at whether there is one.", "anchors": ["wat/lex/lexer.go:78-150", "wat/lex/lexer.go:710-712"]}
{"id": "C141", "title": "Errors of the WIT lexer say where they are", "statement": "In any sequence of calls of Next on a lexer of a WIT text, an error names the line and the column (both from 0) in which the text begins that no token returned so far contains, and the position up to which it read, which is at least one byte further.", "quantifier": "all texts, all numbers of calls, also after earlier errors, whatever the Unicode tables say", "why_tests_cant": "Places are sums over everything before; tests of errors look at most at whether there is one.", "anchors": ["wit/lex/lexer.go:55-181", "wit/lex/lexer.go:325-327"]}
{"id": "C142", "title": "All exported kinds of rules can be used", "statement": "A lexer whose Rules have a StateRule among them treats it as one more rule: where it can begin with the next byte, Next returns a token of its type as long as its functions allow, or that of a longer rule; where it cannot, Next returns what it would return without it.", "quantifier": "all lists of rules of the three types, all texts, all states of the lexer", "why_tests_cant": "A statement about all texts and rules; there is no test with a StateRule.", "anchors": ["wat/lex/state.go:5-39", "wat/lex/registry.go:3-9", "wat/lex/lexer.go:99-108"]}
{"id": "C143", "title": "The WIT lexer fails exactly where no token begins", "statement": "After any number of calls of Next that all returned tokens, the next call fails if and only if the text that is left begins with a character that is no white space, letter or digit, none of / = , : . ; ( ) { } < > * @ - + % and no underscore (a byte that belongs to no UTF-8 character counts as such), or begins with /* but with no balanced block comment. The error then names the line and the column of that place, and the position after that one character, or the end of the text.", "quantifier": "all texts, all numbers of calls that returned tokens, whatever the Unicode tables say", "why_tests_cant": "An equivalence over all texts: tests show single characters that are refused.", "anchors": ["wit/lex/lexer.go:78-181", "wit/lex/lexer.go:308-327"]}
{"id": "C144", "title": "Nothing after the place a WAT parse error names has a part in the error", "statement": "Where an error of the parser of WAT names a line, a column and a position, they are those of the token it looked at last, which stands in the text at that position and is neither white space nor a comment; the line is one more than the newlines before it, and the column one more than the bytes between the last newline and it. If another text begins with the same tokens up to and including that one, Parse does the same with it: it fails in the same way and looks at the same token last, whatever comes after.", "quantifier": "all texts, all sequences of tokens they begin with, all texts that begin with the same tokens", "why_tests_cant": "A claim about all pairs of texts that agree up to the place of an error: tests look at the message of single texts.", "anchors": ["wat/parse/parser.go:19-43", "wat/parse/parser.go:888-962", "wat/parse/parser.go:359-376"]}
{"id": "C145", "title": "Nothing after the place a WIT parse error names has a part in the error", "statement": "Where an error of the parser of WIT names a place, it is that of the token it looked at last, which stands in the text at its position and is neither white space nor a comment; the line is one more than the newlines before it, and the column one more than the bytes between the last newline and it. If another text begins with the same tokens up to and including that one, Parse does the same with it: it fails in the same way and looks at the same token last, whatever comes after.", "quantifier": "all texts, all sequences of tokens they begin with, all texts that begin with the same tokens, whatever the Unicode tables say", "why_tests_cant": "A claim about all pairs of texts that agree up to the place of an error, with a parser that reads ahead on a copy of its lexer: tests look at the message of single texts.", "anchors": ["wit/parse/parser.go:18-53", "wit/parse/parser.go:222-266", "wit/parse/parser.go:637-667", "wit/parse/parser.go:716-757", "wit/parse/parser.go:882-985"]}
{"id": "C146", "title": "Values over the limit on flat values are given one place, that of their tuple, checked and not written", "statement": "Where the types of the arguments or results need more flat values than the limit, LowerValues determines one pointer: if no place is given, it asks the guest's allocator once, for the size and the alignment of the tuple of the types; if the flat values of the caller are given, it takes the next of them. It returns that pointer alone if it is a multiple of the alignment of the tuple and the whole tuple at it lies within the memory, and otherwise returns an error. Apart from what the allocator does it changes nothing, in no memory, whatever the values are.", "quantifier": "all lists of types and all limits they exceed, all values (of any number and kind), allocators, memories below 4 GiB, tables of handles, and flat values of the caller", "why_tests_cant": "A decision over all pointers an allocator or a caller may give and all lists of types: the tests of the package never exceed the limit.", "anchors": ["abi/io/canon_lower.go:71-92", "abi/io/canon_lower.go:94-140", "abi/types/tuple.go:20-24"]}
{"id": "C147", "title": "Nothing after the place an error of the script parser names has a part in the error", "statement": "Where an error of the parser of WAST scripts names a line, a column and a position, they are those of the token it looked at last, which stands in the script at that position and is neither white space nor a comment; the line is one more than the newlines before it, and the column one more than the bytes between the last newline and it. Although the parser reads ahead on a copy of its lexer to tell modules, quoted modules and assertions apart, what it does depends on nothing after that token: if another script begins with the same tokens up to and including it, Parse does the same with it, whatever comes after.", "quantifier": "all scripts, all sequences of tokens they begin with, all scripts that begin with the same tokens", "why_tests_cant": "A claim about all pairs of scripts that agree up to the place of an error, with a parser that reads ahead and goes back: tests look at the outcome of single scripts.", "anchors": ["wast/parse/parser.go:17-76", "wast/parse/parser.go:131-189", "wast/parse/parser.go:385-437"]}
{"id": "C148", "title": "Growing a guest's memory takes nothing away", "statement": "What succeeds goes on succeeding after a memory has grown. If Load or LiftFlat gives a value, it gives the same value, takes the same handles and consumes the same flat values in the memory grown, and leaves the grown memory as it is. If Store or LowerFlat succeeds, it succeeds in the memory grown, with the same flat values and the same addresses, and the bytes where there was room before end up the same. If a call between two components, or any sequence of such calls, succeeds, then it does so with the same flat results after any of the memories have grown, and leaves the same handles, flags and allocations. This ends at the largest size: in a memory that has grown to 2^32 bytes no string but the empty one can be read.", "quantifier": "all types and values, all addresses and flat values, all pairs of memories of which the second is at least as long and has at least as much capacity, is shorter than 2^32 bytes and has the same bytes wherever the first has capacity; for stores and calls all allocators, and for calls all called functions and post-return functions, to which more memory does no harm themselves; all sequences of calls", "why_tests_cant": "A claim about pairs of memories of any sizes and about whatever is read, written or called in them: a test runs in one memory of one size, and growth between two uses is not exercised.", "anchors": ["abi/io/load.go:13-65", "abi/io/load.go:219-299", "abi/io/store.go:13-72", "abi/io/lift.go:28-89", "abi/io/lower.go:13-65", "abi/io/canon_lift.go:12-77", "abi/io/canon_lower.go:13-69"]}
{"id": "C149", "title": "WIT texts can be put one after the other", "statement": "A WIT text that begins with none of `package`, `as` and `:` is read the same after an accepted text, from which it is parted by a line break, as it is read alone: Parse accepts the whole exactly if it accepts the second text, and then returns the package of the first and the items of the first followed by those of the second. Any number of such texts can be put together. Without the line break this does not hold, and a second package declaration is silently turned into items without content.", "quantifier": "every accepted text and every second text, accepted or not, whose first token that is neither white space nor a comment is none of the three; any number of texts", "why_tests_cant": "There are unboundedly many pairs of texts. Parts that may be left out at the end of a text, comments that run to the end, and what the lexer keeps from the first text could all change how the second is read.", "anchors": ["wit/parse/parser.go:18-53", "wit/parse/parser.go:98-110", "wit/lex/lexer.go:84-120"]}
{"id": "C150", "title": "Types can be extended at their end", "statement": "A guest and a host may differ in what is at the end of a type. Where Load finds a record or a tuple with more fields, or flags with more labels, it finds the shorter record, tuple or flags at the same address, with the same values of the fields and labels it has; the same holds for LiftFlat and the core values. The other way round, what Load finds as a value of an enum, a variant or a union, it finds as the same value, taking the same handles, as the type with more cases at the end, as long as the discriminant keeps its width, the payloads begin at the same offset and no new label is one that an old case refines in vain; for LiftFlat the same holds as long as the core types are the same. Inside a list, or where one of these conditions does not hold, it does not.", "quantifier": "all types, all extensions at the end of their outermost level, all memories, addresses, core values and handle tables; flags in memory up to 64 labels in all, as Load refuses others, flags among core values below 2^32 labels; labels of flags all different; variants, enums and unions extended to at most 2^24 cases, as others are refused", "why_tests_cant": "A claim about pairs of types and every memory content. A test fixes one type and reads what it has written with that type; that two types agree on the same bytes is not exercised.", "anchors": ["abi/io/load.go:301-383", "abi/io/load.go:385-452", "abi/io/lift.go:258-342", "abi/io/alignment.go:98-111", "abi/io/despecialize.go:9-55"]}
{"id": "C151", "title": "The WIT parser does not look at names", "statement": "Two WIT texts with the same tokens up to the texts of their names (white space and comments may differ) are treated alike: if the first is accepted, so is the second, with the same tree, each name in it replaced as it was in the text; if names that differ in the first differ in the second, the one is accepted exactly when the other is, and neither fails in another way. So no name is special, reserved or compared with another, no declaration is refused for the name it has or for being the second of that name, and a name is never altered on its way into the tree. A keyword in place of a name does make a difference.", "quantifier": "all pairs of texts with the same tokens up to a renaming of identifiers, escaped with % or not, to any other identifiers of the same kind; the equivalence for renamings that keep different names different; every table of Unicode classes", "why_tests_cant": "A claim about pairs of texts and every renaming. A test fixes the names in its text, and a parser that treats one name differently, or compares two names, passes all tests that do not use them.", "anchors": ["wit/parse/parser.go:18-53", "wit/parse/parser.go:370-452", "wit/parse/parser.go:882-893", "wit/lex/lexer.go:155-171"]}
{"id": "C152", "title": "The WAT parser does not look at names", "statement": "Two WAT texts with the same tokens up to their identifiers and strings (white space and comments may differ) are treated alike: if the first is accepted, so is the second, with the same tree, each identifier and each exported name in it replaced as it was in the text; if names that differ in the first differ in the second, the one is accepted exactly when the other is, and neither fails in another way. So no identifier and no exported name is special or compared with another, none is altered on its way into the tree, and nothing is refused because a name is declared twice or not at all. Words that are not names do make a difference.", "quantifier": "all pairs of texts with the same tokens up to identifiers and strings, all renamings that keep whether a string has a quote in it; the equivalence for renamings that keep different names different; every behaviour of the float parser of the library that returns", "why_tests_cant": "A claim about pairs of texts and every renaming. A test fixes the names in its text, and a parser that treats one name differently, or compares two names, passes all tests that do not use them.", "anchors": ["wat/parse/parser.go:27-128", "wat/parse/parser.go:217-244", "wat/parse/parser.go:327-345", "wat/parse/parser.go:540-559", "wat/parse/parser.go:582-768"]}
{"id": "C153", "title": "The sections of a WAT module are read one by one", "statement": "If the sections of a module are written in two groups, and the parentheses in the first group match, then the module is accepted exactly when the module with the first group alone and the module with the second group alone are, and it has the functions, memories, types, tables and globals of the first and then those of the second, each kind in the order it is written. So what a section means does not depend on the sections around it, one bad section makes the whole be refused, and groups of sections of different kinds can be exchanged without effect.", "quantifier": "all groups of tokens, the first with matching parentheses; all texts with these tokens, whatever white space and comments they have; every behaviour of the float parser of the library that returns", "why_tests_cant": "A claim about all ways of putting sections together. Tests have modules of one or two sections and one order each; state that one section leaves behind for the next shows in the pairs that are not tested.", "anchors": ["wat/parse/parser.go:27-75", "wat/parse/parser.go:883-952"]}
{"id": "C154", "title": "The items of WIT interfaces and worlds are read one by one", "statement": "If some tokens are the items of an interface, that is, the text with only them between the braces is accepted as one interface, then they can be put in front of the items of any interface of that name at the begin of a text without package declaration, unless what follows begins with a semicolon or an opening brace: the text is accepted exactly when it was before, its first interface has these items and then those it had, and nothing else of the tree differs. The same holds for worlds. So what an item means does not depend on the items around it, and two groups of items that are accepted alone are accepted in both orders, each time with the items in the order they are written.", "quantifier": "all groups of tokens that are accepted alone as items, all tokens that follow them and begin with neither semicolon nor opening brace, all texts with these tokens whatever white space and comments they have", "why_tests_cant": "A claim about all ways of putting items together, with accepted and refused rests. Tests have interfaces of one or a few items in one order each; an item that takes a token too many or too few, or leaves something behind for the next, shows in the pairs that are not tested.", "anchors": ["wit/parse/parser.go:23-53", "wit/parse/parser.go:112-343", "wit/parse/parser.go:613-760"]}
{"id": "C155", "title": "Modules in scripts are read as by the WAT parser", "statement": "The script parser and the WAT parser agree on modules and components. Given an accepted script, the WAT parser returns the module with which it begins, the same that the script parser returns, and an error if it begins with a quoted module or an assertion or has no directive; the same holds from the place of every other module on. A text is a script of one module exactly if it is one group in parentheses, can be cut into tokens, and is accepted by the WAT parser, with the same result. A module that the WAT parser accepts can be put in front of any script, which is then accepted exactly if it was before. In an assertion that a module is invalid or malformed, the module is read as it would be alone: the assertion is accepted exactly if the module alone is an accepted script.", "quantifier": "all texts; for assertions all texts in them with matching parentheses; every behaviour of the float parser of the library that returns", "why_tests_cant": "Two parsers with copies of the same helpers are compared on all texts. Tests of scripts and tests of modules use different texts and check different parts of the trees, so that a difference between the two parsers stays unseen.", "anchors": ["wast/parse/parser.go:17-189", "wat/parse/parser.go:20-75"]}
{"id": "C156", "title": "The script parser does not look at names", "statement": "Two scripts with the same tokens up to their identifiers and strings (white space and comments may differ) are treated alike: if the first is accepted, so is the second, with the same directives, each identifier, called name, exported name, message and quoted text in them replaced as it was in the text, and all constants and expected results as they were; if names that differ in the first differ in the second, the one is accepted exactly when the other is, and neither fails in another way. So no name is special, compared with another or altered on its way into the directives, a quoted text is not looked into, and no message decides what an assertion is. Words that are not names do make a difference.", "quantifier": "all pairs of texts with the same tokens up to identifiers and strings of which both or none can be cut into tokens up to the end, all renamings that keep whether a string has a quote in it; the equivalence for renamings that keep different names different; every behaviour of the float parser of the library that returns", "why_tests_cant": "A claim about pairs of scripts and every renaming. A test fixes the names and messages in its script, and a parser that treats one of them differently, or compares two, passes all tests that do not use them.", "anchors": ["wast/parse/parser.go:17-359"]}
{"id": "C157", "title": "A binary is read section by section", "statement": "What binary.Read keeps of the sections it has read is the module so far and nothing else. If an input was read as a module and a section is put after it, the result is that module with what the section says done to it (its types, functions or exports replaced, its code given to the functions in order, or nothing for an unknown section), or an error if there are more code entries than functions. Two inputs with the same version that were read as the same module are read alike, whatever follows them. An input that was read can be cut after any of its sections and be read, and an input of whole sections that was refused is refused whatever follows it.", "quantifier": "all inputs, all versions, all sections the reader takes, all continuations, well-formed or not", "why_tests_cant": "A claim about every beginning and every continuation of an input. State left over from an earlier section shows only with some continuation, and tests read a few whole files.", "anchors": ["binary/read.go:16-121", "binary/read.go:334-368"]}
