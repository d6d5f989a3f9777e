# Formal model of go-wasm: design

The subject is the Go source in `/repo` (patrickhuber/go-wasm). It was read as text only; it was not
built or run. The model is written in Lean 4 under `lean/Verif/`, one directory-level module per Go
package. `properties.jsonl` lists the properties, `MANIFEST.json` maps each to its theorems.

## 1. Modelling conventions

* **Go functions** become total Lean functions. A Go function that can fail returns `Res α`, with
  four outcomes: `ok a`, `err` (any returned `error`, traps included; the message is not modelled,
  the distinction trap/plain error is kept only where a property mentions it), `panic` (a run-time
  panic: index or slice out of range, failed type assertion, nil call) and `diverge` (a loop that never ends).
* **Mutable state** (memory, allocator, handle tables, iterators, lexers) is threaded explicitly.
  A state after an `err` is modelled wherever a property speaks about it.
* **Fixed-width integers** are `BitVec w` or `Nat` with explicit `% 2^w` where the code wraps;
  `float32`/`float64` values are their bit patterns (`BitVec 32/64`), because the code only moves,
  reinterprets and NaN-tests them.
* **Go `any`** is the inductive type `Val`; a dynamic type test is a pattern match. `map[string]any`
  is an association list accessed only through lookup, length and insert.
* **Loops over input** are structural recursions on the input; loops bounded by a counter read from
  the input recurse on the counter; parsers that recurse take fuel, and a theorem says that fuel
  linear in the input length is never exhausted.
* Each definition has a comment `-- models <file>:<lines>`; simplifications are stated there.
* Files `Verif/<Pkg>/Model.lean` hold definitions, `.../Spec.lean` the small independent
  specification, `.../Lemmas*.lean` helpers, `.../Props.lean` the property theorems with examples.

## 2. Trusted base

* Lean's kernel (4.33.0), and the axioms `propext`, `Classical.choice`, `Quot.sound`. No other axiom,
  no `sorry`, no `native_decide`, no `bv_decide`, no `implemented_by`, no `unsafe`.
  `lean/Verif/Axioms.lean` prints the axioms of the property theorems at build time.
* That the model says what the Go code does. The model was written by reading; nothing was extracted.
* Go semantics assumed: two's complement wrap-around of sized integers, shifts by at least the width
  give 0, conversions truncate, slicing panics out of range, `float64` division and `math.Ceil` are
  exact for 32-bit integers divided by a power of two, `math.Log2` of an `int` is exact on powers of
  two and monotone.
* Library code outside the repository modelled by its documented behaviour: `io.Reader` (a list
  of bytes in `Verif.Binary.Model`, an arbitrary reader in `Verif.Binary.Stream`), `io.ReadFull`,
  `encoding/binary`, `strconv.ParseInt/ParseUint/ParseFloat`,
  `utf8.DecodeRuneInString`, `strings.Split/Trim`, `golang.org/x/text` codecs
  (UTF-8, UTF-16LE/BE, ISO 8859-1), `go-types` (`Result.Unwrap` + `handle.Error` = early return of the error).

## 3. What is not modelled

Error messages, except the numbers and bytes in those of the lexers (C140, C141, C143); memory exhaustion, Go stack depth; concurrency (the code has none); `api`, `opcode`,
`values`, `instance`, `address`, `config` data declarations except where used; `bytes.Buffer` is modelled
as the array behind it with `Len` and `Cap`, so slice expressions panic past `Cap` as in Go; strings that
are not valid UTF-8 in the ABI part. The
guest's allocator is an arbitrary function of its own state and of memory; that it cannot enter the host
again is a simplification. `strconv.ParseFloat` and conversions of integers to floats in the text parsers are
arbitrary functions (`Lib` in `Wat/Parse.lean`) except in C85, C98 and C99, where they are what the library's documentation says (`goLib` in
`Wat/GoLib.lean`, which is `Lib.Total`; the simplifications are in the comments of `Go/Float.lean`); the theorems about scripts assume that they return a value or an error (`Lib.Total`); the positions of tokens are not in the model of the parser, which uses
them in messages only. The Unicode tables behind `unicode.IsLetter/IsDigit/IsSpace` are modelled for ASCII; what they
say about other characters is a parameter (`Unicode` in `Wit/Lex.lean`) of every theorem about the WIT lexer.

## 4. Plan per property

| id | what is modelled | how it is proved |
|----|------------------|------------------|
| C01-C03 | `leb128` encode and the three decoders over byte lists | induction on the value / bytes; spec: base-128 positional value |
| C04 | preamble reader | case analysis on the first eight bytes, all inputs |
| C05 | `binary` module reader, spec encoder written separately | round trip by induction over each vector; the standard encoding of locals is not what the reader expects: negative witness + partial |
| C06, C07 | same reader | locality lemma for every sub-reader (a success does not depend on the bytes after it; a cut inside is an error) |
| C08 | same reader | invariant over the section loop; fewer bodies than functions is accepted: negative witness + partial |
| C09 | `AlignTo` on integers (exact floats) | arithmetic |
| C10-C13 | types, `Alignment`, `Size`, `Despecialize`, `DiscriminantType`, `FlattenType` | mutual induction on types |
| C14, C15, C17, C22 | `LowerFlat`, `LiftFlat`, iterators | mutual induction on types; iterator refinement |
| C16 | `FlattenFuncType*` | case analysis |
| C18 | `StoreInt`, `LoadInt` over byte lists | little-endian arithmetic |
| C19, C20, C62 | `Store`, `Load` with an arbitrary allocator satisfying a stated contract | mutual induction on types with a footprint invariant |
| C21, C27, C63 | bounds checks with 32-bit wrap-around | arithmetic; wrap-around panics: negative witnesses + partials under `ptr + size < 2^32` |
| C23, C24, C26 | char check, NaN canonicalisation, tags | bit-vector arithmetic |
| C25 | flags | induction on labels; more than 64 labels lose flags: negative witness + partial |
| C28 | list loops | induction on the length |
| C29 | `StoreInt` on any `Val` | case analysis; silent zero store: negative witness + partial |
| C30, C31 | `MatchCase`, `CaseLabelWithRefinements` | induction on chains; cyclic `refines` diverges: proved as non-termination of the loop, partial for acyclic |
| C32-C37, C64 | handle tables, contexts, drop, lift/lower of handles, as a state machine | invariants by induction over operation lists; refinement to a finite map; the free-list defect is a negative witness; `Ledger` says what handles mean in every history, also when calls are used after their end |
| C38, C39 | `CanonLift`, `CanonLower` with an arbitrary callee (`CanonDeliver`: any callee, handles in the values) | symbolic execution of the model; error paths and heap passing are negative witnesses + partials |
| C40 | value iterators | induction; reading past the end panics: negative witness + partial |
| C41-C43 | `wat/lex` lexer (rules as automata), peek slot, clone | invariants over the scanning loop, induction over operation lists |
| C44, C45 | classification of reserved words | equivalence with a separately defined grammar; decimal floats are never recognised: negative witness + partial |
| C46 | same lexer | negative witness + partial (what is reported) |
| C47 | `wat/parse` over the lexer | the parser reads the lexer only through `peek`/`next`; simulation |
| C48, C49 | literal parsing | equivalence with positional value; 64-bit range and plain `nan` are negative witnesses + partials |
| C50 | `wat/parse` and a separate printer | round trip by mutual induction on trees; 64-bit range is a negative witness + partial |
| C72 | `parseInstruction` on a word alone | case analysis over the switch; the nil instructions are negative witnesses + partial |
| C51 | parsers with fuel | fuel bound lemma: each recursive call consumes a token |
| C52-C54, C73, C74 | `wit/lex`, `utf8.DecodeRuneInString`; the Unicode tables are a parameter from U+0080 on | as C41; the automaton equals a function that cuts off the first token; UTF-8 decoding inverts encoding |
| C75 | `wit/parse` over an interface with `peek` and `next` | the parser on the lexer is simulated by the parser on the list of significant tokens |
| C55 | `wit/parse` and a separate printer | as C50 |
| C56 | `wit/parse` | top-level garbage accepted: negative witness + partial, from C76 |
| C76, C77 | `wit/parse`, a grammar written apart from it (`Wit/Grammar.lean`) | soundness and completeness of every parser function for its part of the grammar, by induction on the bound on loops (soundness) and on the tree (completeness); unambiguity follows from completeness |
| C78 | `wit/parse`, `wit/ast` | from C76, on the document with one type alias; negative for nine of the thirteen built-in types and for `ItemType` |
| C79, C80 | `wat/parse`, a grammar written apart from it (`Wat/Grammar.lean`) | soundness and completeness of every parser function for its part of the grammar, by induction on the bound on loops (soundness) and on the number of tokens (completeness); unambiguity follows from completeness |
| C81 | `wat/lex`, `wat/parse` | the tokens up to a closing parenthesis do not depend on what follows it (induction on the tokens, `Wat/LexCut.lean`), with C79 and C80 |
| C82, C84 | `wast/parse`, `wast/ast`, a grammar written apart from them (`Wast/Grammar.lean`) | as C79; the lost action of `get` is a negative witness + partial |
| C83 | `wat/parse`, `wast/parse` | balance is an invariant of every part of the grammars, with C79 and C82; results that are references are a negative witness + partial |
| C85 | `parseFloat32`, `parseFloat64` of `wat/parse` | from the literal theorems of C48; wrap-around at 2^31, literals out of range and the sign of zero are negative witnesses + partial |
| C86 | `wast/parse`, `wat/lex` | as C81, with C82 |
| C87 | `wast/parse` and a separate printer | the printed tokens are in the grammar (C82), modules by C50 |
| C88, C90, C22 | `LowerFlat`, `LiftFlat`, `Load` over the tables of `abi/io` | mutual induction on types: each is a sequence of the operations of C32 to C37, one for each handle in the value; then the refinement of C32; the indices used are the words at the places the layout gives to handles (HandleWordsSpec) |
| C89 | `Store` | false of the code: a store that succeeds carries no handle, by mutual induction |
| C91 | `CanonLift`, `CanonLower` with an arbitrary callee | symbolic execution; the part before the callee and the part after it are histories of the operations of C32 to C37 |
| C92 | the same | false of the code: a concrete call, executed by the kernel; the positive part by the refinement of C34 |
| C93 | `wat/decoder.go` over the parser | acceptance from C79; the empty result for every module is a theorem |
| C94 | `binary.Read` followed by `NewModuleInstance` | C05 and C57 composed; exports and signatures never recorded: negative theorem |
| C95 | `StoreStringCopy`, `StoreUtf8ToUtf16` | state-passing model over any allocator and resize meeting their contracts; round trip with `decode`; negative theorems for wrong counts of code units |
| C96 | `StoreValidate`, `LoadInt` at `Memory.Len() = 2^32` | false of the code: the 32-bit length is 0; negative theorems for every type and value, and for the last word; loads below it proved |
| C97 | the binary reader with a count of what it asks the allocator for (`Verif.Binary.Alloc`) | erasing the count gives the reader of C04; bounds by induction; false for refused inputs, a family of short inputs with arbitrary counts |
| C98 | `parseFloat32`, `parseFloat64` of `wat/parse` with a model of `strconv.ParseFloat` (`Verif.Wat.goLib`, `Verif.Strconv.parseFloat`); IEEE formats as a separate specification over the rationals (`Verif.Ieee`) | the rounding function gives the nearest number, by monotonicity of the numbers of a format; the loops over the digits by induction; every kind of literal is covered, those refused by a negative theorem |
| C99 | the same | the names `inf` and `nan` by evaluation, payloads for every numeral |
| C100 | the binary reader once more, calling `Read` of a reader with a state of its own (`Verif.Io.Reader`, `Verif.Binary.Stream`); the contract of `io.Reader` as a separate specification (`Delivers`, `Polite`) | simulation by the reader on lists of bytes, function by function; false for readers that give end of file with a byte or return nothing: three negative theorems, one for every section id and size |
| C101 | the same | the loops never come to end of file, by induction over their rounds |
| C102 | `decoder.Decode` calling `io.ReadAll` on a reader with a state of its own (`Verif.Wat.decodeFrom`) | induction over the calls of `Read` |
| C103 | `leb128.Encode` writing to a `bufio.Writer` in front of any writer (`Verif.Io.Buffered`, `Verif.Leb128.encodeTo`) | invariant over the bytes written: taken by the writer or in the buffer |
| C104 | `leb128.Decode` reading from a `bufio.Reader` in front of any reader (`Verif.Io.Buffer`, `Verif.Leb128.decodeBuf`) | invariant: buffered bytes and those still to come are the bytes ahead |
| C105 | `Store`, `Load` | the footprints of C19 kept through a list of stores, failed ones included |
| C106 | `Load`, `LiftFlat` | induction over the type: what comes back has the type and is its own normal form (`Same t v v`) |
| C107 | `Load`/`LiftFlat`, then `Store`/`LowerFlat`, then `Load`/`LiftFlat` | C106 with C19, C22 and the uniqueness of normal forms |
| C108 | `Load`, `LiftFlat` | the loads keep the state (`Tame`); the same for the lifts |
| C109 | `LiftFlat`, `ValueIterator` | each reading of the iterator, and so every lift, is local to the values consumed; their number is C15 |
| C110 | `Load` | `Owns` says which addresses are the value's; induction over the type, running the loads in two states side by side |
| C111 | the WAT lexer | from the description of the first token of a text (`Spec.first`), at every place reached without an error |
| C112 | the WIT lexer and `utf8.DecodeRuneInString`, the WIT parser | `decode` is characterised by the encoding of characters (`begins_iff`, `decode_malformed`), then cases of the first token of a text |
| C113 | `LoadStringFromRange`, `LoadString`, the codecs | `Spec.Writes` relates characters and bytes apart from the codecs (UTF-8 by Lean's `String.utf8EncodeChar`); decoding inverts it, and decoding without U+FFFD implies it; the refusal of malformed bytes is false, as the `Decoder` of x/text is documented to put U+FFFD for bytes it cannot transcode |
| C114 | the handle operations | the state after a refusal is the same, or for additions the same but for the free list (a simulation); refused additions take an entry off the free list and refused drops can lose the handle: negative witnesses + partials |
| C115 | `Load` | a relation saying which value the bytes at an address stand for, by structure of the type and apart from the model; by induction on the type `Load` decides it; malformed strings and untagged length words are accepted: negative witnesses + partials |
| C116 | `Store` | the relation of C115 with the additional demand that the bytes are the only ones for the value; by induction on the type, with the bytes each part depends on, so that later allocations do not disturb it |
| C117 | `FlattenType` | the core types slot by slot, a slot being a function of the set of kinds that share it; by induction on the type, with the list so far shared by the cases so far |
| C118 | `LowerFlat`, `LiftFlat` | which lists of bits stand for a value (`FlatMeansSpec.lean`), apart from the models; lifting decides it, by induction on the type, a payload being read through its view of the shared slots; lowering gives such a list, by the same induction as the round trip |
| C119 | `CanonLift`, `CanonLower` | C118 for the parameter list, by induction on it (`CallMeansSpec.lean`), then through the steps of a call, for every callee; a tuple in memory through C115 |
| C120 | `load`, `liftFlat`, `liftValues` | `weight` of a value and `bound` of a type (`BoundSpec.lean`); what was loaded and takes up bytes starts within the memory, so list elements cannot wrap around; induction on the type. Counterexample for elements without bytes, and a family of memories that shows the power is needed |
| C121 | `read` | Exactly the grammar of `Binary/Spec.lean`; what the sections say kind by kind (`lastTypes`, `saidFuncs`, `lastExports`) instead of a run over them; sections are prefix-free, so a byte string has one cutting |
| C122 | `read` | False of the code: general theorems that sizes, order and repetition of sections do not matter, and that numbers wrap; what remains is that everything outside the reader's own grammar is refused |
| C123 | `load`, `liftFlat`, `lowerFlat` | `Spec.bare` replaces handles by `u32` in a type, `Spec.Swapped` relates a value with handles to the one with numbers; each call is related to the same call at the bare type (`Mirror`, `Shadows`), by induction on the type, and C115 and C118 are used there |
| C124 | `canonLift`, `canonLower` | parameter lists against `Spec.FlatMeansAll` at the types with `u32` instead of handles and `Spec.SwappedAll`, with C123 for each value; the two sides are put together, and `Spec.Same` values have the same handles (`same_carried`) |
| C125 | `store`, `lowerFlat`, `canonLift`, `canonLower` | the allocator's state is read by an arbitrary `log` to which every request is added (`Spec.Remembers`); `Spec.Asks` lists the requests by recursion on type and value; every step of the code adds a first part of its list, all of it if it succeeds (`Logs`), by induction on the type |
| C126 | `store`, `lowerFlat` | two runs side by side on `Spec.Twins` memories: same outcome, same states, `Spec.SameWrites`; kept by every step (`Blindly`), by induction on the type |
| C127 | `store`, `lowerFlat`, `canonLift`, `canonLower` | two values with the same canonical form (`Spec.Same`): equal runs, by induction on the type; converse from `Spec.Means`/`FlatMeans`, which hold of one value only |
| C128 | `canonLift`, `canonLower`, `lowerValues`, `lowerFlat`, `store` | relations between states (`Spec.Elsewhere`, `Spec.Kept`, `Spec.SameMemories`) kept step by step; byte-wise invariants of the allocator through `lowerFlat` by induction on the type; `Spec.OnlyCalls` says that the callee runs once, there |
| C129 | `load`, `liftFlat`, then `store`, `lowerFlat` | a load that succeeds has read within the memory, so a list loaded is no larger than it (lemmas of C120); by induction on the type; then C107 |
| C130 | `canonLift`, `canonLower`, `lowerValues`, `liftValues` | two runs side by side, kept related step by step (`Spec.AlikeBut`; for the own memory `Spec.AlikeButBytes` and the lemmas of C126); sequences of calls by induction on their number |
| C131 | `load`, `liftFlat`, `lowerFlat`, `store`, `canonLift`, `canonLower`, `step` | for all outcomes, by induction over types, the change to the handle tables is a list of operations of the histories of C32 to C37; these lists are put together along the calls (`Spec.Operates`, `Spec.Job`) |
| C132 | `canonLift`, `canonLower`, `step` | from C131: operations of other instances in new calls leave what an index stands for and whether it is lent |
| C133 | `canonLift`, `canonLower` | sequences of calls by induction; false of the code: that `MayLeave` is off is an invariant of all calls (`closed_for_ever`), and every failed lowering turns it off (`bad_arguments_close`) |
| C134 | `parseInt32`, `parseInt64`, `strconv.ParseInt`, `ParseUint` | `Verif.Wat.Number` specifies Go's integers by a grammar; `ParseUint` accepts exactly these (`parseUint_iff`, induction over the digits and the underscores); lifted to the text through the lexer |
| C135 | `parseIndex`, `strconv.Atoi` | the same for `Atoi`; false of the code: larger numbers are cut to 32 bits, signs are accepted, hexadecimal numbers and underscores refused |
| C136 | the exported readers of `wat/parse`, `peek`, `next` | `Verif.Wat.Items`: a sequence of calls refines `Spec.Answers`, a relation between the tokens of the text and the answers; induction over the calls. False of the code for `ParseString`, which panics where there is no token |
| C137 | `Lexer.next` with any `Rules` | `Verif.Wat.OwnRules`: what the rules can have read and what they match are relations between bytes (`Leads`, `Viable`, `Matches`); the answer is given exactly in terms of the longest bytes a rule can have read. The longest-token rule holds where these are a token; false of the code otherwise, which does not go back |
| C138 | `FromString` | `Verif.Wat.FromString`: what the automaton accepts, by induction over the string; exchange of rules that match alike, by induction over the text |
| C139 | `New` and the map of parentheses | `Verif.Wat.RuleOrder`: rules that share no token but with rules of their type can be permuted, by induction over the permutation and the text |
| C140 | `lexerError` of `wat/lex` | `Verif.Wat.Messages`: the answers of `Next` with the numbers and bytes of their messages; the invariant of C41 and C42 over all sequences of calls |
| C141 | `lexerError` of `wit/lex` | `Verif.Wit.Messages`: the same for WIT |
| C142 | `StateRule`, `registry` | `Verif.Wat.StateRule`: false of the code, the registry has no factory for it; where no `StateRule` can begin it does not matter |
| C143 | `next`, `lexerError` of `wit/lex` | `Verif.Wit.Faults`: an equivalence with two conditions on the text left, stated with characters and balanced comments only |
| C144 | `parse` with all its readers, `parseError` of `wat/parse` | `Verif.Wat.ErrorPlace`: the parser with a note of the token looked at last; `Verif.Wat.Local`: on two sources that agree up to a token every reader does the same or has looked past it, by induction over the bounds |
| C145 | `parseAst` with all its readers, `parseError`, `parseErrorFromLexer` of `wit/parse` | `Verif.Wit.ErrorPlace`, `Verif.Wit.Local`: as for C144; the place is wrong for an unknown item of a world |
| C146 | `lowerValues`, `lowerTuple`, `tuplePtr` (`LowerValues`, `LowerValuesToTuple`) | `Verif.Abi.SpillProps`: the result of the code by cases on what the allocator or the caller gives, in terms of `Spec.size` and `align` of the tuple; the end of the tuple is computed in 32 bits, so that a pointer near 2^32 is accepted |
| C147 | `parseWast` with all its readers, `parseError` of `wast/parse` | `Verif.Wast.Local`, `Verif.Wast.ErrorPlace`: as for C144; where the parser goes back to a copy of its lexer, it looks again at the tokens it has seen (`parse_again`, `TwiceDich`) |
| C148 | `load`, `store`, `liftFlat`, `lowerFlat`, `canonLift`, `canonLower` and all they call | `Verif.Abi.GrowSpec`, `Verif.Abi.GrowLemmas`, `Verif.Abi.GrowProps`: a one-way simulation between the run in a memory and the run in the memory grown, put together step by step (`Up`); every comparison with the length and every slice that passes in the smaller memory passes in the larger one |
| C149 | `Parse` of WIT and the lexer under it | `Verif.Wit.Concat`: the tokens of a text, a line break and a second text are those of the first and those of the second; `Verif.Wit.ConcatProps`: the loose grammar that characterises acceptance (C76) is put together and taken apart at that place, since each item is determined by the tokens it takes |
| C150 | `load`, `liftFlat`, `caseLabelWithRefinements`, `despecialize` | `Verif.Abi.ExtendSpec`: types put together at their end, and when added cases leave the others in their place; `Verif.Abi.ExtendProps`: the loop over the fields is cut where the added fields begin, the bits of flags do not depend on how many bytes are read, and the chain of refinements of an old case stays among the old cases; negative theorems for each condition |
| C151 | the whole WIT parser on the lexer's tokens | `Verif.Wit.Rename`: the renaming of a tree, node by node, and of tokens; `Verif.Wit.RenameProps`: each parse function, run on the renamed tokens, gives the renamed node (one lemma per function, induction on the fuel for types), then the inverse renaming for the other direction |
| C152 | the whole WAT parser on the lexer's tokens | `Verif.Wat.Rename`: the renaming of a tree, node by node, and of tokens; `Verif.Wat.RenameProps`: each production of the grammar (C79), on the renamed tokens, gives the renamed node, by induction over the derivation for instructions, functions and modules; the inverse renaming for the other direction |
| C153 | `parse`, `parseModule` and all parsers of sections | `Verif.Wat.Sections`: two modules put together kind by kind; sections can be cut where the parentheses match (counting parentheses), so the grammar (C79) of the whole is that of the parts; exchange of groups and a negative theorem for parentheses that do not match |
| C154 | `Parse`, `parseInterface`, `parseWorld` and all parsers of their items | `Verif.Wit.Items`: a list of items followed by something can be cut behind its first items, as the parser of an item takes exactly that item (C76); the tree with items put in front; both orders of two groups; a negative theorem for a semicolon after a resource |
| C155 | `wast/parse.Parse`, `parseDirective`, `parseQuoteWat`, `parseAssertInvalid`, `parseAssertMalformed`, and `wat/parse.Parse` | `Verif.Wast.Modules`: the two parsers related through their grammars (C79, C82); where a module ends follows from its parentheses (C83); a negative theorem for assertions with parentheses that do not match |
| C156 | all of `wast/parse` | `Verif.Wast.Rename`: directives with their names renamed; the grammar of scripts (C82) is closed under renaming, with the renaming of modules of C152; the equivalence by renaming back; a negative theorem for the word of an action |
| C157 | `read` | `Verif.Binary.Extend`: by the grammar of sections (C121), with what one section does to a module (`Sec.run` in `Binary/Spec.lean`) as the specification; a sequence of sections that begins another one is cut off it |
| C57, C58 | `runtime` | induction over instantiation lists; exports never recorded: negative witness + partial |
| C59-C61 | `stack`, `Select`, codec factory | induction, case analysis |
| C65 | loading, lifting and lowering of narrow types | case analysis, bit-vector arithmetic |
| C66 | `LoadVariant`, `LiftFlatVariant` | the check read off the equations, with the discriminant read from memory |
| C67 | `CanonLift`, `ExitCall` | inversion of a successful call; induction over the lenders; the dropped error is a negative witness |
| C68, C69 | string and block comment automata | the automaton equals a search for the end marker; escaped quotes and nested comments are negative witnesses + partials |
| C70, C71 | word and white space automata and character classes | the automata equal a longest run; all 256 bytes for the classes |

Section 5 (status and disagreements between code and property) is kept up to date below.

### 4.1 Wrong programs: what `seeded/LOG.jsonl` shows and does not show

Each line is one edit of the model in a scratch copy, followed by a rebuild. `caught_by` says what stopped the build:

* `claim theorem`: the proof of a theorem listed in MANIFEST.json failed.
* `supporting lemma`: only lemmas below the claim theorems failed. The theorems that import them were not rebuilt.
* `examples only`: only concrete examples failed. An example is a test, so this is recorded as `survived: true`.
* `nothing`: the edited model built. Also `survived: true`.

Most edits were caught by a supporting lemma. That shows the proof does not go through for the edited model. It does
not show that the claim theorem is false of it, since a different proof might exist. `theorems_failed` lists what
failed in that build, not everything that would fail. Ids ending in `r` or `h` are repeats at a later commit.

Lines with a field `refuted` show more. There the negation of the claim theorem named, in exactly the words in which it
is stated, was proved about the edited model (`theorem refute : ¬ type_of% @theorem`, from a concrete counterexample,
without `sorry`). So no proof of that theorem exists for the edited model.
Where such a line names no other theorem, `theorems_failed` and `caught_by` follow from the refutation: only the modules
that the theorem imports were compiled, in most cases with the proofs in between left out.

A correction: 21 lines of an earlier version (ids `q1` to `q8`, `q10`, `s1` to `s5`, `s7` to `s13`) described edits for C137 to
C143 with the results of older edits that had the same id; those newer edits had not been run. The lines now describe the
older edits again. The newer ones have ids beginning with `ow` and `ms` and are listed only if they were run.

Lines whose id begins with `auto:` are edits made mechanically, one operator, number, condition or string of a definition
at a time. They were compiled module by module up to the first failure, with the examples taken out; `caught_by` names the module. No claim is singled out in them. Those that nothing stopped are listed one by one (ids
beginning with `auto-`), with the reason why they are equivalent or with the theorem that was tightened.

## 5. Status

Generated from MANIFEST.json. "partial" rows say what is missing; where the code contradicts the property, the
contradiction is itself a theorem (a concrete execution of the model) listed in MANIFEST.json.

| id | property | status | note |
|----|----------|--------|------|
| C01 | LEB128 encode/decode round trip | proved | All 32-bit values, all trailing bytes, all three decoders. |
| C02 | The three LEB128 decoders agree and compute the base-128 value | proved | Denotation given by the separate `denotes`. The slice decoder accepts truncated input; that is stated as its own theorem. |
| C03 | LEB128 encoding is canonical and minimal | partial | Length, shape and prefix freedom for all values; minimality over everything the three decoders accept, except the empty slice. Full statement false of the code there: the slice decoder maps no bytes at all to 0 (empty_slice_is_zero). |
| C04 | Binary reader header decision | proved | Every byte string; also that Read never panics and always ends. |
| C05 | Binary module round trip | partial | Proved for functions without locals, with any custom sections in between. Full statement false of the code for functions with locals: the reader expects plain value types instead of count/type pairs, shown by a refused and a misread module. |
| C06 | Unknown sections are transparent | partial | Proved after every sequence of sections of the grammar, accepted or not, for any payload and continuation. Full statement false of the code where a section lies about its size: the size fields of known sections are not checked, shown by a concrete input (unknown_not_transparent). |
| C07 | Truncated modules are errors | proved | Sections as the reader delimits them; cuts inside the preamble are short_input. |
| C08 | Functions and bodies are paired by position | partial | Proved for every sequence of sections (paired_all_partial: what is accepted, and which type index and body every function gets; paired_partial for one section of each kind); more bodies than functions are refused. Full statement false of the code for fewer bodies: accepted with absent bodies (code_missing). |
| C09 | AlignTo returns the least aligned address | proved | Integer part for every nonzero alignment; float64 rounding shown exact for the alignments in use. The model computes exactly; platform dependent float-to-integer overflow is excluded by the hypothesis that the result is below 2^32. |
| C10 | Alignment and Size are well formed | proved | Every user type. `Alignment` alone can answer 0 without error for a variant with an unknown payload type; that is recorded as a theorem. |
| C11 | Record fields occupy disjoint aligned slots inside the record | partial | For a record placed at an aligned address with its end below 2^32. Full statement false of the code for larger types: sizes are 32-bit, a field of 2^32 bytes counts as none and the next field is put on top of it (fields_overlap). storeFields_addrs and loadFields_addrs: the loops of Store and Load use exactly those addresses. |
| C12 | Discriminant width is sufficient and minimal | partial | Full statement false of the code above 2^24 cases (refused); proved up to 2^24 and the refusal proved above. log2 is computed exactly in the model. |
| C13 | Specialised types are laid out as their expansions | proved | code_equations shows that eager expansion in the model obeys the lazy equations of the code. |
| C14 | Flat lowering produces exactly the flattened core types | proved | Any type, value, state and allocator. |
| C15 | Flat lifting consumes exactly the flattened core values | proved | Any type and value list; also for parameters lifted in sequence. |
| C16 | Function flattening respects the flat limits | proved | Every function type, every pair of limits. |
| C17 | Joined flat kinds can carry every case | proved | Position by position for every case of every variant, all bits; end to end in C22. |
| C18 | Integer memory round trip | partial | All eight integer types, every address inside a memory shorter than 2^32 bytes. Full statement false of the code for a memory of 2^32 bytes, the largest WebAssembly allows (C96). |
| C19 | Store then Load returns the value | partial | Any type without handles, any value of it, any allocator meeting GoodAlloc, any encoding the factory knows. Missing: flags with more than 64 labels, lists of 2^32 bytes, variants with repeated labels, for which the code does not round trip (see C25, C20); handles, which Store refuses (store_with_handle_fails, C89). Full statement false of the code: flags of more than 64 labels are stored without writing anything and cannot be loaded (flags_over_64). |
| C20 | Store writes only its own region and fresh allocations | partial | Full statement false of the code: a list whose byte size reaches 2^32 is written outside what was allocated. Proved for all other values. |
| C21 | Out-of-bounds and misaligned stores are refused | partial | Full statement false of the code: ptr+size wrapping around passes the check and panics. Proved when it does not wrap. |
| C22 | Flat lower then lift returns the value | partial | Any type with or without handles, any value of it, any allocator meeting GoodAlloc, any reachable tables, values before and after left alone. Missing: more than 64 flags, where it is false (lower_flags_over_64); borrowed handles lowered into the instance that implements the resource, which gets the representation itself and where it is false (borrow_home_not_lifted). After every history, also one that uses calls after their end, as long as no table has 2^32 slots (the _any theorems, by the books of Handles.Ledger); with 2^32 slots it is false (add_returns_live). |
| C23 | Chars are valid Unicode scalar values | proved | Loading and lifting, every 32-bit word. Loads in memories of 2^32 bytes: load_char_any; what fails there is in C96. |
| C24 | Floats cross the boundary bit-exactly except for canonical NaN | proved | All four directions, every bit pattern. Loads and stores in memories of 2^32 bytes: the _any theorems; what fails there is in C96. |
| C25 | Flags map label i to bit i | partial | Full statement false of the code above 64 labels (the three over_64 theorems). Up to 64 labels loading and lifting proved here; storing then loading and lowering then lifting are part of store_load_partial and lower_lift_partial. |
| C26 | String length tags round trip | proved | Every count below 2^31, both flags. |
| C27 | String and list ranges are checked before being read | partial | Full statement false of the code for ranges reaching 2^32 and for lengths with the top bit set. Proved for all others, including that nothing outside memory is read. |
| C28 | List elements are loaded from consecutive slots | proved | Every element type, also with handles. |
| C29 | Stores reject values of the wrong Go type | partial | Full statement false of the code: integers of other widths are truncated, non-integers stored as 0. What an accepted value must look like is proved. |
| C30 | Variant case matching honours refinement order | proved | match_case: every type. loaded_label_selects: distinct labels without \|. |
| C31 | Refinement labels are computed for every variant type | partial | Full statement false of the code: cyclic refines loops for ever. Proved when refines chains end. |
| C32 | A handle table never confuses live handles | partial | Proved for tables with fewer than 2^32 slots: one table (table_spec_partial), and several instances, types and calls (ledger_spec_partial, index_keeps_partial; history_spec_partial in the terms of C34). Full statement false of the code beyond: with 2^32 handles no index can be used (full_table_fails), the next Add returns index 0, which is live (add_returns_live), and index 0 then gives the first handle (wrapped_index). An Add may also return an error, see C33. |
| C33 | Freed handle slots are reused | partial | Full statement false of the code: Remove records the length of the free list instead of the freed index. add_exact_partial gives the result of Add after every history of a table below 2^32 slots; one_removal_breaks_add: freeing any handle but the first makes the next Add fail, for tables of every size. Proved: removals in increasing order starting at 0 are reused. |
| C34 | A lent handle cannot be removed | partial | Proved for histories that use no call after its end and keep tables below 2^32 slots (Valid). Full statement false of the code when ExitCall is called twice on a context: it does not forget the lenders and releases them twice, so a handle lent to another call can be removed (lent_taken_after_second_exit). ledger_spec_partial: in every history, valid or not, while no table has 2^32 slots, a handle with a loan on the books cannot be removed. |
| C35 | Owned handles are transferred, not copied | partial | Proved for every history of operations in which the tables stay below 2^32 slots, also when calls are used after their end (Ledger). Any continuation of the history. Full statement false of the code with 2^32 slots (full_table_fails, wrapped_index). The last three theorems say it in the terms of C34, for Valid histories. |
| C36 | A resource destructor runs at most once per owned handle | partial | Never twice: proved for every history without assumption (destructs_at_most_once). Exactly when: Proved for every history of operations in which the tables stay below 2^32 slots, also when calls are used after their end (Ledger). Full statement false of the code when the implementing instance may not be entered: the drop traps after the handle has been removed, and the destructor is never called (drop_loses_resource). |
| C37 | Resource types are isolated from each other | proved | Every history, valid or not. No effect on, and no dependence on, the tables of other types. |
| C38 | Calls restore the instance's enter and leave flags | partial | Forbidden calls are refused without calling the callee, and successful calls keep the flags. On the error paths the code leaves MayLeave off when lowering the arguments (CanonLift) or results (CanonLower) fails; that is the only exception, and both are witnessed by concrete calls. |
| C39 | A component call delivers arguments and results unchanged | partial | Proved for values passed flat, handles included, between two instances with different memories and string encodings, and for every function called (component_call_any_partial: what the function gets stands for the arguments in its memory, what the caller gets back stands for the results in its own). False in the code when values are spilled: the pointer is not a flat value, the tuple is never stored, and loaded tuples come in map order. |
| C40 | Core value iterators hand out each value once, in order | partial | In order, each once, errors on a wrong kind and on an empty list. Full statement false of the code: past the end of a list that is not empty Next panics (next_past_end); a coercing iterator asked for a kind it cannot convert to returns the value of the other kind (coerce_wrong_kind). |
| C41 | WAT tokens tile the input | proved | Every input; errors on the way lose no text either. |
| C42 | WAT token positions are true | proved | Every input and every token returned, also after errors. |
| C43 | Peek and Clone do not disturb lexing | partial | Proved for the WAT and the WIT lexer, any number of lexers and clones and any order of calls, as long as no Peek meets a lexical error. Full statement false of the code there: Peek panics and moves on (peek_panics of both). |
| C44 | WAT integer literals are recognised exactly | partial | Exact for words without a trailing or doubled underscore; integer_words gives the accepted language for all words. Full statement false of the code: 1_ is taken as an integer (untidy_integer). |
| C45 | WAT float literals are recognised exactly | partial | Which words are returned as floats is proved exactly, for all words (float_words), and which literals of the format: inf, nan, payloads, and hexadecimal ones with signed exponents; decimal floats never (decimal_float_missed). Full statement false of the code in both directions (no_float_taken). |
| C46 | Unterminated WAT comments and strings are errors | partial | String and comment tokens are always closed. Full statement false of the code: every unclosed string or block comment is returned as the end of the stream (unterminated_is_end, for all such inputs); only its non-empty capture tells (end_capture). |
| C47 | Parsing WAT ignores whitespace and comments | proved | Every pair of modules and every pair of scripts; the bound on loops of the model is any number above the length of the text (see wat_parser_ends, wast_parser_ends). |
| C48 | WAT integer constants have their mathematical value | partial | Proved for every literal without a plus sign and superfluous leading zeros, 64 bit constants in the range of 32 bit ones. Full statement false of the code for the rest: a plus sign is always refused (plus_refused), a leading 0 always means base 8 (padded_octal, padded_literals), and 64 bit constants out of the 32 bit range are refused (wide_literal). |
| C49 | WAT NaN constants are NaNs with the given payload | partial | Proved for every payload with a minus sign or no sign. Full statement false of the code for plain nan, which becomes infinity (plain_nan_infinite), and for a plus sign, with which every NaN is refused (f32_plus_nan_refused, with the model of strconv.ParseFloat). |
| C50 | WAT modules survive printing and parsing | partial | Proved for every component or module whose 64 bit constants are in the range of 32 bits, whose floats are written as the library reads them, whose names are names and whose exported names have no quote (Spec.Supported). Full statement false of the code for wider 64 bit constants (wide_i64_refused). |
| C51 | Parsers terminate on every input | proved | The three parsers, every text. The bound on loops and recursion that the model needs is shown never to be reached and not to matter. |
| C52 | WIT tokens tile the input | proved | Every text, valid UTF-8 or not, and whatever the Unicode tables say about characters from U+0080 on. |
| C53 | WIT block comments nest | proved | Every nesting depth. token_spelling says that every BlockComment token is a balanced comment. |
| C54 | WIT keywords, identifiers and operators are distinguished | proved | Every word at every place of a text. |
| C55 | WIT documents survive printing and parsing | partial | Every tree of the supported part (OkAst), of any size and nesting and with any names, without a use at top level; with uses the exact tree read back is given. Missing, because it is false for them: trees with uses at top level (their semicolon becomes an empty item), with the built-in types other than u32, float32, float64 and string, with ItemType set, with named methods, with flags or enums in a world, with includes of several names, with paths that have a package, and with version numbers from 2^31 on; witnesses in not_read_back. |
| C56 | The WIT parser rejects what is not WIT | partial | Proved for every text whose tree has no empty item. Missing, because it is false: a token at top level that begins no item is accepted and becomes an empty item. accepted_iff_loose says exactly what is accepted. |
| C57 | Instantiation allocates fresh function addresses | partial | Proved while the store holds at most 2^32 functions; beyond that the uint32 address wraps (addresses_wrap). |
| C58 | Exports of an instantiated module can be found | partial | GetExport finds the first export of an instance. Full statement false of the code: NewModuleInstance never fills the exports (exports_never_found). |
| C59 | The internal stack is last-in first-out | proved | Each stack value used once, as in every use in the repository; push_shares shows what happens when an old stack value is pushed to again. |
| C60 | Select maps in order and stops at the first error | proved | Every slice and every transform, with the effects of the transform in order. |
| C61 | Codec lookup by encoding name is exact | proved | Every name. |
| C62 | Strings survive every supported string encoding | partial | Strings whose encoding is shorter than 2^31 code units, memories shorter than 2^32 bytes, allocators that return what the canonical ABI asks for (GoodAlloc). Characters Latin-1 does not have are refused (latin1_refused). Full statement false of the code for longer strings: an ASCII string of 2^31 or more characters is stored and comes back without its last 2^31 characters (long_string_cut). |
| C63 | Loads never panic | partial | Full statement false of the code: loads are not bounds checked. Proved for destinations inside memory whose pairs do not reach 2^32 and types with finite refines. |
| C64 | Own and borrow handles are kept apart | partial | Full statement false of the code: LiftOwn does not look at Own. The half about dropping is proved, for every history in which the tables stay below 2^32 slots. |
| C65 | Narrow values are read from any word | proved | Bool loads, bool and 8/16-bit lifts from any word, and lowering of bools and integers up to 32 bits. Loads in memories of 2^32 bytes: load_bool_any; what fails there is in C96. |
| C66 | Discriminants out of range are refused | proved | Every number of cases: 1 to 2^24 with a discriminant outside them, others always (load_no_discriminant; for lifting they have no flattening). In memories of 2^32 bytes no value either (load_discriminant_any), but the access at the end can panic, see C96. lift_enum is the positive side for enums, see C22 for all types. |
| C67 | A call is ended after the post-return function | partial | Everything but the last sentence: the code drops the error of ExitCall, so borrows still held are not reported (borrows_ignored). |
| C68 | WAT string literals are one token | partial | Proved for literals without an escaped quote. Full statement false of the code: the literal is cut at an escaped quote (escaped_quote_cut). |
| C69 | WAT block comments nest | partial | Proved for comments without a comment in them. Full statement false of the code: the first end marker ends the outer comment (nested_comment_cut). |
| C70 | WAT words are the longest runs of word characters | proved | Every text, up to the first lexical error. |
| C71 | WAT white space, parentheses and foreign bytes | proved | Every text, up to the first lexical error. |
| C72 | Different WAT instructions have different trees | partial | Proved for every pair of words that leave an instruction in the tree. Full statement false of the code: 25 words are accepted and leave a nil instruction (lost_instructions). |
| C73 | WIT token positions are true | proved | Every token of every text; the column counts bytes, not characters. |
| C74 | WIT white space, numbers, line comments and foreign characters | proved | Every place of every text; which characters from U+0080 on are white space, digits or letters is left open. |
| C75 | Parsing WIT ignores whitespace and comments | proved | Every pair of texts, whatever the Unicode tables say. |
| C76 | The WIT parser accepts exactly its grammar | proved | Every text and tree, whatever the Unicode tables say; accepted_iff_loose is for all trees, those with empty items included. The grammar is what the parser of this repository accepts; where it is more or less than WIT is said in Wit/Grammar.lean. |
| C77 | A WIT text has one reading | proved | Every sequence of tokens. |
| C78 | Built-in types are nodes of their own in the WIT tree | partial | Proved for u32, float32, float64 and string. Missing, because it is false: the other nine built-in types are parsed to references to a type of that name, and ItemType of lists and options stays nil (the element type is in the embedded Type). |
| C79 | The WAT parser accepts exactly its grammar | proved | Every text and tree, for any conversion of floats that returns a value or an error. The grammar is what the parser of this repository accepts; where it is more or less than WAT is said in Wat/Grammar.lean. inline_import_lost: an import inside a function leaves nothing in the tree. |
| C80 | A WAT text has one reading | proved | Every sequence of tokens. |
| C81 | A WAT module is what is between its parentheses | proved | Every accepted text. |
| C82 | The script parser accepts exactly its grammar | proved | Every text and list of directives, for any conversion of floats that returns a value or an error. The grammar is what the parser of this repository accepts; where it is more or less than WAST is said in Wast/Grammar.lean. |
| C83 | Accepted texts have balanced parentheses | partial | Proved for every module and every script without ref.null and ref.extern. Full statement false of the code for expected references in scripts: the closing parenthesis of (ref.null) must be left out, and a script that has it is refused (wast_unbalanced). |
| C84 | Assertions about an action have one | partial | Proved for every accepted script without an action of one word. Full statement false of the code: an action that is one word in parentheses is accepted and lost (wast_no_action), and reading a global is refused (wast_get_refused). |
| C85 | Float constants written as integers mean the integer | partial | Proved for integers written without plus sign or leading zeros (NoPadding) that fit the signed 32 bit type (f32) or the range of 32 bit literals (f64). Full statement false of the code for the rest: f32.const of 2^31 to 2^32-1 wraps to a negative float, larger integers are refused, and -0 loses its sign. float_integer_nearest_partial uses the conversions Go specifies (goLib); the others hold for any conversion. |
| C86 | Scripts can be put one after the other | partial | Every accepted script with at least one directive, every continuation. Full statement false of the code for scripts without directives: one that ends with a line comment swallows what follows (empty_script_swallows). |
| C87 | Printed scripts parse back | partial | Proved for every script of supported modules and constants (Spec.DirOk). Missing: 64 bit constants out of the range of 32 bits and actions that were lost. False of the code for references as arguments: ref.null and ref.extern leave the same tree (references_lost). |
| C88 | Lowering gives and lifting takes exactly the handles in a value | partial | Lowering for every type, lifting and loading for well-formed types (Wf: labels differ, at most 64 flags, refines chains end). Full statement false of the code for record types with repeated labels, which the code does not refuse. An instance that implements the resource of a borrow gets the representation, as the component model says. The indices are tied to the words at the places of the handles among the flat values and in memory (WordsIn, WordsAt), which are determined by type, value and place. After every history, also one that uses calls after their end, as long as no table has 2^32 slots (the _any theorems, by the books of Handles.Ledger); with 2^32 slots it is false (add_returns_live). |
| C89 | Values with handles can be stored | partial | False of the code, for every value with a handle in it: Store has no case for handles, so lists of handles cannot be lowered either. |
| C90 | Passing a value moves its owned handles | partial | Every well-formed type (Wf), every value, every two different instances. Full statement false of the code for record types with repeated labels: one resource gets two owners and another none (repeated_label_two_owners). The indices are those among the flat values lifted and lowered (WordsIn). After every history, also one that uses calls after their end, as long as no table has 2^32 slots (the _any theorems, by the books of Handles.Ledger); with 2^32 slots it is false (add_returns_live). |
| C91 | A call moves exactly the handles in its arguments and results | partial | Arguments and results passed flat, any function called, well-formed types, a fresh call context. Missing: spilled arguments and results, which the code does not deliver (C39). The indices are those among the flat values passed (WordsInAll). After every history, also one that uses calls after their end, as long as no table has 2^32 slots (the _any theorems, by the books of Handles.Ledger); with 2^32 slots it is false (add_returns_live). |
| C92 | A borrowed handle does not outlive its call | partial | False of the code: the error of ExitCall is dropped, so the call succeeds, the owner can drop the resource and the callee still has its borrowed handle (borrow_outlives_call). When nothing borrowed is left the call ends as it should (call_end_partial, for valid histories). |
| C93 | The text decoder returns the module that the text describes | partial | Acceptance, errors and the kind of directive hold for every reader and text. False of the code otherwise: every module is decoded to the empty module, every component to a nil pointer (decode_loses). |
| C94 | A binary module that was read can be instantiated and used | partial | Functions, their addresses and code: every module without locals (C05), up to 2^32 functions (C57). False of the code: exports and signatures are never recorded in the instance (loaded_is_not_callable). |
| C95 | The string-copy helpers put the whole string in the block they allocate and nowhere else | partial | Proved when the number of code units given is that of the string (string_copy_partial) or at least its UTF-8 length (utf8_to_utf16_partial). The helpers do not check it; with a wrong number the property is false: the string is cut (string_copy_cut), the block ends with bytes that were there before (string_copy_stale), or the string is written past the block (utf8_to_utf16_overruns). |
| C96 | The largest memory can be used | partial | Full statement false of the code: uint32(Memory.Len()) is 0 for such a memory, so every store below the last slot is refused and accesses to the last word panic. What is proved: loads of all eight integer types below the last slot. |
| C97 | Reading a binary asks for memory in proportion to its length | partial | Proved for accepted inputs. Full statement false of the code for refused ones: counts are trusted before the elements are read, so 21 bytes can ask for more than 2^32 elements (few_bytes_many_slots); never more than 2*(2^32-1) beyond the length (slots_bounded). counting_reads_same: the counting reader is the reader of C04. Elements made or appended are counted, not their sizes in memory nor the spare capacity append may take. |
| C98 | Float constants have the value of their literal | partial | Proved for f32.const of hexadecimal literals whose exponent has a sign, and for f64.const of those that are single precision numbers. Full statement false of the code for the rest: decimal literals, exponents without sign and literals without exponent are all refused (float_literal_refused), and f64.const rounds to single precision first (double_rounded, double_refused). strconv.ParseFloat is modelled from its documentation, with the simplifications in Go/Float.lean. |
| C99 | Infinity and NaN constants | partial | Proved for infinities and for f64.const nan. Full statement false of the code for the rest: f64.const of a NaN with a sign or a payload is refused (f64_nan_refused). |
| C100 | Reading does not depend on how the reader delivers its bytes | partial | Proved for readers that hand out at least one byte without an error while they have one. Full statement false of the code: a byte that comes with end of file is thrown away, so modules are refused and, worse, truncated ones accepted (eof_with_byte_accepted), and a call without bytes is an error. accepted_reads_bytes says what holds for every reader. |
| C101 | A failing reader never yields a module | proved | Every reader, also those that break the contract of io.Reader. |
| C102 | Decoding text does not depend on how the reader delivers its bytes | proved | Every reader within the contract of io.Reader that comes to its end; the growth of the slice in io.ReadAll is arbitrary. |
| C103 | Encoded numbers reach the writer or an error is reported | proved | bufio.Writer is modelled from its source. |
| C104 | Decoding from a buffered reader does not depend on delivery | proved | bufio.Reader is modelled from its source. DecodeReader, which has no buffer, does not have the property (C100). |
| C105 | Values stored side by side do not disturb each other | proved | The conditions on each value are those of C19. |
| C106 | What Load and LiftFlat return is a value of the type | proved | The labels have to differ: repeated_label_untyped. |
| C107 | A received value is passed on exactly | proved | Usable types are those of C19 and C22 (Wf); fitting is ListsFit and StringsFit, as there. |
| C108 | Receiving a value changes nothing but handles | proved | All outcomes. |
| C109 | A lifted value depends only on its own core values | proved | Any type, handles included. |
| C110 | A value in memory is its own bytes and no others | proved | Handles included. What is described to reach 2^32 is outside the quantifier; C27 says what goes wrong there. |
| C111 | WAT line comments and lone semicolons | proved |  |
| C112 | Bytes that are not UTF-8 are refused in WIT texts | proved | The condition PlainReplacement on the Unicode tables is that U+FFFD is no letter, digit or white space. |
| C113 | A string in memory is what its bytes write | partial | Missing: the refusal of bytes that write no string, which is false of the code: malformed_string_accepted shows that all of them are read as a string with U+FFFD in it, by the documented behaviour of the decoders of x/text. |
| C114 | A refused operation on handles changes nothing | partial | Every operation that asks for no new handle, in every state, apart from drops whose implementing instance may not be entered: those are refused after the handle was removed (drop_loses_resource). Refused additions: everything that asks for no other handle is answered as before; the next addition is not, as the refused one took an entry off the free list (refused_add_seen). |
| C115 | Load returns what the bytes stand for | partial | Every type without handles (for those see C123), with differing labels and at most 64 flags, every memory below 2^32 bytes, aligned address inside it. Missing: pairs that reach 2^32 (C63 false there), more than 64 flags (C25), and the refusal of malformed strings and of length words with a highest bit that is no tag, which the code accepts (malformed_string_accepted, untagged_length_accepted). |
| C116 | Store writes the bytes that the Canonical ABI prescribes | partial | Every type with differing labels and at most 64 flags, every value whose strings and lists fit, every allocator that keeps its promises. Missing: more than 64 flags (C25: the code writes nothing at all there), repeated labels, lists of 2^32 bytes or more (the code truncates the length), handles (Store does not write them). |
| C117 | FlattenType gives the core types of the Canonical ABI | proved | Every type whose flags have fewer than 2^37 labels. |
| C118 | The core values stand for the values lowered to them and lifted from them | partial | Handles: C123. Missing: more than 64 flags (false there: lower_flags_over_64), repeated labels, pairs that wrap around (C63), length words with a highest bit that is no tag (untagged_length_accepted), lists of 2^32 bytes or more (C19); bytes that write no string are not refused but read with U+FFFD (malformed_string_accepted). |
| C119 | In a call, the core values on both sides stand for the same values | partial | Handles: C124. Missing: as in C118; spilled values are lost when lowered (false there: canonLift_spilled_fails, spilled_results_lost) and come in any order when lifted (spilled_order_lost). |
| C120 | What is read from a guest's memory is bounded by its size | proved | Lists whose elements take up no bytes are outside the bound, as the statement says. |
| C121 | A binary has one reading | proved |  |
| C122 | Binaries that are not well-formed are refused | partial | Proved: what is outside the grammar of sections the reader takes is refused. Full statement false of the code: sizes of known sections are not looked at, order and repetition of sections do not matter, numbers may be too long and wrap. |
| C123 | Handles among bytes and core values are places in a table | proved | The domain is that of the quantifier (Readable, Liftable at the type with u32 instead of handles; Wf, ListsFit, StringsFit). What entering and finding a handle does to the tables is C32-C37 and C88. |
| C124 | In a call, the handles on both sides are the same, and the numbers for them are those of each side's table | partial | Missing: values spilled to memory, which are lost when lowered (false there: canonLift_spilled_fails, spilled_results_lost) and come in any order when lifted (spilled_order_lost); more than 64 flags, repeated labels, strings and lists of 2^32 bytes or more; a post-return function that changes the memory of the caller. |
| C125 | The guest's allocator is asked for exactly the blocks the strings and lists of a value need | proved | Arguments and results over the limit on flat values are not passed flat: there the code asks for one block and never fills it (C39). |
| C126 | Lowering does not look at the guest's memory | proved | No condition on type or value. |
| C127 | Go values that stand for the same value are lowered alike, and only those | proved | On the domains named in the quantifier. Without differing labels two cases can have one canonical name. |
| C128 | A call writes only where it may, whatever comes of it | proved | On the domains named in the quantifier; the condition that lists fit concerns only the bytes in use of the own memory (list_overflow_escapes, C20, shows what happens otherwise). |
| C129 | What comes out of a memory fits into a memory | proved | On the domain named in the quantifier. |
| C130 | A call depends only on the memories that take part in it | proved | On the domain named in the quantifier. The model gives each allocator the memory of its own instance only. |
| C131 | Calls do nothing to handles but take, give and end, in that order | proved | On the domain named in the quantifier. Call contexts are numbers that the calls choose; in Go they are fresh pointers, so new ones are different. What MayLeave is changed to is not an operation on handles; C38 is about it. |
| C132 | Calls between components leave the handles of other instances alone | proved | On the domain named in the quantifier. |
| C133 | A failed call does not close an instance | partial | Proved for sequences of calls that succeed. Full statement false of the code: a call whose arguments cannot be lowered, because one has another type or the guest has no memory to give, leaves MayLeave off, and from then on no call into or out of the instance succeeds, in any sequence of calls. |
| C134 | WAT integer constants are read as Go reads integers | proved | Every integer of the text format. What Go reads is specified in Verif.Wat.Number, which the grammars of C79 and C87 use too. |
| C135 | An index is the number written | partial | index_exact says what is read in every case. Full statement proved for decimal digits below 2^32, false of the code otherwise: numbers from 2^32 up to 2^63 are taken modulo 2^32, numbers with a sign are accepted, hexadecimal numbers and underscores are refused. |
| C136 | Single items are read token by token | partial | The answers to every sequence of calls are given exactly, and the tokens determine them. False of the code in one case: where the text has something that is no token ParseString panics instead of returning an error (string_panics), since it unwraps without recovering. |
| C137 | A lexer with rules of one's own takes the longest token | partial | What Next does is given exactly for all rules (own_rules, own_rules_none), and the longest token is returned where the longest bytes a rule can have read are a token. False of the code otherwise: the lexer does not go back to a shorter token when a longer attempt fails (no_going_back), and if the attempt fails at the end of the text it returns EndOfStream with the rest as its capture. Rules of types defined by the caller (Rule is an interface) are not modelled. |
| C138 | FromString recognises its string and nothing else | proved | What is accepted, and the exchange of rules in any list of rules and any state of the lexer. |
| C139 | Lexing does not depend on the order of a map | proved | map_order for New; rule_order for any rules after any others. |
| C140 | Errors of the WAT lexer say where they are | proved | All sequences of calls of Next, also after errors; said_next: the answers with messages are those of the lexer. The words of the message are not modelled, only the numbers and the quoted bytes. |
| C141 | Errors of the WIT lexer say where they are | proved | All sequences of calls of Next, also after errors. The words of the message and the character named in it are not modelled. |
| C142 | All exported kinds of rules can be used | partial | Proved where no StateRule can begin. Full statement false of the code: the registry has no factory for StateRule, so wherever one can begin Next returns no token, whatever the other rules (state_rule_fails; a panic, or an error if handle.Error recovers from it). |
| C143 | The WIT lexer fails exactly where no token begins | proved | The first error of a run; those after it are in C141. The words of the message and the character named in it are not modelled. |
| C144 | Nothing after the place a WAT parse error names has a part in the error | proved | Of an error its place is modelled, not its words. That `tok` in each call of `parseError` is the token of the last call of `peek` or `next` is read from the code, line by line, and not proved; errors of `strconv` and of an unknown section of a module name no place. |
| C145 | Nothing after the place a WIT parse error names has a part in the error | partial | That nothing after the token has a part in the error is proved in full. The place is not that of the token in one error: an unknown item of a world is refused with the line and the column where its first token ends (`world_item_place`). Of an error its place is modelled, not its words. That the argument of each call of `parseError` is the token of the last call of `peek` or `next` is read from the code, line by line, and not proved; errors of `strconv` name no place. |
| C146 | Values over the limit on flat values are given one place, that of their tuple, checked and not written | partial | Two parts are false. The end of the tuple is computed in 32 bits: a pointer at which the tuple would reach past 2^32 is accepted, though it lies outside the memory (`spilled_wraps`). And where the caller passes fewer flat values than it should, so that the one that names the place is missing, LowerValues panics (`spilled_no_place`). Proved for pointers at which the tuple ends below 2^32, and for tuples smaller than 4 GiB. That nothing is written is what makes such calls fail as a whole, see C39. |
| C147 | Nothing after the place an error of the script parser names has a part in the error | proved | Of an error its place is modelled, not its words. That `tok` in each call of `parseError` is the token of the last call of `peek` or `next` is read from the code, line by line, and not proved; errors of `strconv`, of `parseGet` and of an unknown section of a module name no place. |
| C148 | Growing a guest's memory takes nothing away | proved | `Grown` asks that the bytes be kept up to the capacity of the smaller memory, not only up to its length, since integers are read up to the capacity. An allocator, a called function or a post-return function that behaves otherwise in a larger memory is not covered (`Unharmed`, `CallUnharmed`); `bump_unharmed` and `backCall_unharmed` show that the hypotheses can be met. The converse does not hold and is not claimed. |
| C149 | WIT texts can be put one after the other | proved | The three tokens a second text must not begin with are in the statement of the property; `concat_package_lost` shows for `package` and `as` that the claim fails without that. `wit_concat` gives the outcome of the whole from that of the second text alone in both cases, accepted and refused. |
| C150 | Types can be extended at their end | proved | The conditions are in the statement of the property, and a theorem shows for each of them that the claim fails without it. Fields are compared by label, except labels used again among the added fields, which a Go map cannot hold twice. Enums and unions among core values are the case of variants (`lift_variant_extended`) after expansion. |
| C151 | The WIT parser does not look at names | proved | `wit_rename_accepted` needs no condition on the renaming beyond keeping the kinds of the tokens; `wit_rename` takes different names to different names and gives the same outcome in all cases, refusals included. |
| C152 | The WAT parser does not look at names | proved | `wat_rename_accepted` needs no condition on identifiers; `wat_rename` takes different names to different names and gives the same outcome in all cases, refusals included. A string with a quote in it is refused by the parser, so a renaming has to keep whether there is one. |
| C153 | The sections of a WAT module are read one by one | proved | Groups of sections are given by their tokens; `wat_sections_written` is about texts with these tokens written with spaces between them. `sections_unbalanced` shows why the parentheses of the first group have to match. |
| C154 | The items of WIT interfaces and worlds are read one by one | proved | Groups of items are given by their tokens; `wit_items_written` is about texts with these tokens written with spaces between them. `resource_goes_on` shows why the rest must not begin with a semicolon. The interface or world is the first of the text, with no package declaration before it. |
| C155 | Modules in scripts are read as by the WAT parser | proved | Texts are compared by their tokens, so white space and comments do not matter. `asserted_unbalanced` shows why the parentheses of a module in an assertion have to match. |
| C156 | The script parser does not look at names | proved | A renaming acts on identifiers and on strings with their quotes, as in C152. `action_word_is_no_name` shows that words which are not names do make a difference. |
| C157 | A binary is read section by section | proved | `cut_at_section` and `refused_stays` are about inputs that are cut between two sections (`Seq TakenSec`), the others about any input that was read. |
