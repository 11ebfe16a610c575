# Formal model of xaxys/bubbler in Lean 4: design, trusted base, findings

## 1. Trusted base

* **Kernel.** Lean 4.33.0's kernel. Every theorem listed in `MANIFEST.json` depends on at most the three standard axioms
  `propext`, `Classical.choice` and `Quot.sound` (checked with `#print axioms` for all of them). No axioms of our own, no
  compiled evaluation (`decide +kernel` is evaluated by the kernel), no unproved goals. Mathlib is not imported.
* **Reading.** The Go source in `/repo` was read, not run. Every definition of the model cites file and lines; where it
  simplifies, its comment says so.
* **The generated program.** bubbler is a generator: the interesting behaviour is that of the code it emits. The templates are
  text; the model gives directly the effect of the emitted statements on a byte buffer. Trusted: text/template, the
  compilers and runtimes of the target languages, and that the text of a statement has the effect written in the model
  (in Go: index out of range and a bad slice expression are an explicit `panic` outcome; in C: an access outside the buffer
  and a signed shift out of range are undefined behaviour, modelled as `none`/`panic`).
* **Go semantics.** `int` is 64 bits. Wrap-around is modelled where a number is attacker- or user-controlled
  (`DecodeSize`, sizes in the compiler, the template calculator) and left out where a bound follows from the data in memory.
* **Standard library.** Modelled by definitions of our own: `strings.Split/Join/ReplaceAll/TrimRight/HasPrefix/ToLower`
  (ASCII), `filepath.Join` (lexical cleaning), `fmt %d %X %b`, `strconv.ParseInt(s, 0, 64)` (no underscores), `strconv.Unquote` (without `\u`, `\U` and back quotes,
  which the lexer refuses), the range check of `strconv.ParseFloat`, Go maps (as
  functions or association lists), `append`/slices (as lists; aliasing is not modelled).
* **Lexer and parser.** The generated code (parser/*.go) drives ANTLR's runtime with serialized automata. The model interprets
  `bubbler.g4` itself: lexer rules as regular expressions with longest match, the first rule winning ties and non-greedy comments
  ending at the first `*/`; parser rules as a recursive descent parser that climbs precedences with the numbers in
  bubbler_parser.go 7110-7600. Trusted: that ANTLR 4 does the same (ALL(*) accepts the language of the grammar and resolves
  ambiguity by precedence and the least alternative). Any lexer or parser error makes the file unacceptable
  (compiler/error_listener.go); error recovery is not modelled. A file is a sequence of Unicode characters (ANTLR decodes UTF-8).
* **File system.** A function from absolute paths to contents that does not change during a run; `filepath.Abs` is a
  parameter.
* **Floating point.** In the codec a float is its bit pattern (`math.Float32bits`/`Float64bits` are bijections on bit
  patterns). In the template calculator IEEE arithmetic is a parameter.

## 2. Modules

| Module | Models (in `/repo`) | Properties |
|---|---|---|
| `Codec/Bits`, `Chunk` | byte buffers; `generateEncodeImpl`, `generateDecodeImpl`, `bbWriteFieldBits`, `bbReadFieldBits`, sign extension (golang.go) | C03–C06, C12 |
| `Codec/Dyn` | templates for strings and bytes, the length prefix, the scans of DecodeSize (golang.go) | C13, C14 |
| `Codec/Schema`, `Encode`, `Decode` | message types and values, EncodeSize, EncodeTo, Encode, DecodeSize, Decode (golang.go) | C01–C16 |
| `Codec/Spec`, `Repr` | **specification**: the bit string of a value; the bit strings that represent a value | C01–C17, C46, C49–C51 |
| `Codec/Legal` | specification: legal values of the generated Go types | C01–C17, C46, C49–C51 |
| `Codec/ChunkProofs`, `ChunkEnc`, `SignExt`, `SpecProofs`, `DynProofs`, `ScalarProofs`, `EncProofs`, `EncMain`, `ScanIdeal`, `ScanExt`, `ReprProofs`, `DecMain`, `DecSafe`, `Top` | proofs: EncodeTo overlays the specified bits; Decode accepts exactly the representations | |
| `Codec/CChunk`, `CMsg` | the C target: chunk statements, `bb_write_field_bits`, `bb_read_field_bits`, `X_encode`, `X_decode` (c.go) | C17 |
| `Codec/CSize`, `CSizeProofs` | `X_encode_size` and `X_decode_size` of C and C++, with 64-bit wrap-around (c.go, cpp.go), and proofs | C52 |
| `Codec/CProofs`, `CEncMain`, `CDecMain`, `CSim` | proofs for the C target (`CSim`: decoding of arbitrary data follows Go's) | |
| `Codec/PyChunk`, `PyMsg` | the Python target: chunk statements as printed, looped helpers, `encode_size`, `encode`, `decode_size`, `decode` (python.go) | C46 |
| `Codec/KtMsg` | the Kotlin target: `bbWriteBits`/`bbReadBits`, `encodeSize`, `encode`, `decodeSize`, `decode` with 32-bit arithmetic (kotlin.go, kotlin_encode.go, kotlin_decode.go) | C49 |
| `Codec/KtProofs`, `KtEnc`, `KtLeaf`, `KtDec`, `KtSound`, `KtTop`, `KtSafe` | proofs for the Kotlin target | |
| `Codec/TgtMsg` | what the generators for JavaScript, C#, Java and C++ share: order of fields, positions, loops, offsets of encode_size, encode, decode_size, decode; parameterised by the leaf statements | C50 |
| `Codec/TgtEnc`, `TgtDec`, `TgtTop`, `TgtSound` | proofs for any target whose leaf statements are right | |
| `Codec/TgtTrunc`, `TruncLeaf`, `KtTrunc` | proofs about truncated messages: any target; JavaScript, Java, C#; Kotlin | C59 |
| `Codec/TgtSafe`, `TgtLeafSafe` | proofs that decoding reads only bytes that are there: any target; JavaScript, Java, C# | C81 |
| `Codec/Utf` | **specification**: UTF-8 (Lean's library) and UTF-16 | C50, C51 |
| `Codec/JsTgt` | the leaf statements of the JavaScript targets: chunk statements, bit helpers, string functions, prefixes (esm*.go, commonjs.go) | C50, C51 |
| `Codec/JsText`, `JsEnc`, `JsDec`, `JsSound` | proofs for the JavaScript targets | |
| `Codec/MgTgt` | the leaf statements of Java and of C# with and without `-memcpy` (java.go, csharp.go) | C53, C54 |
| `Codec/MgEnc`, `MgDec`, `MgSound` | proofs for Java and C# | |
| `Codec/PyProofs`, `PyEnc`, `PyDec`, `PySim`, `PyTop` | proofs for the Python target | |
| `Front/Lex` | the lexer rules of bubbler.g4, longest match, positions | C60, C63 |
| `Front/TokSpec` | **specification**: what tokens look like, layouts, longest tokens | C60 |
| `Front/ReProofs`, `RuleProofs`, `LexTok`, `LexProofs`, `LexTop`, `LexConv` | proofs for C60 | |
| `Front/Tree` | **specification**: syntax trees, their tokens, which expressions are grouped right (bubbler.g4) | C61 |
| `Front/Parse` | the parser rules of bubbler.g4 | C61, C63 |
| `Front/ExprProofs`, `ParseProofs` | proofs for C61 | |
| `Front/Literal` | literal_visitor.go, import_visitor.go, `strconv.Unquote`; from syntax trees to the trees of `Compiler/Ast` | C62, C63 |
| `Front/LitSpec`, `LitProofs` | **specification** of literals; proofs for C62 | C62 |
| `Front/Relocate`, `Compiler/Move` | proofs for C63: moving tokens moves trees, moving trees moves what the compiler makes of them | C63 |
| `Front/Source` | what holds of every text that is read: places of definitions differ, names are words (hypotheses of C55–C58) | C64 |
| `Util/Path` | fileio/path.go, `filepath.Clean`, `Dir`, `Join`, `Abs` (Unix) | C65, C66 |
| `Front/Meaning` | specification for C67: the definitions a text stands for, as relations on trees | C67 |
| `Front/MeaningProofs`, `Front/MeaningUniq` | proofs for C67: the visitors give what is meant; the meaning is unique if no name is seen twice | C67 |
| `Compiler/Rename` | proofs for C66: renaming files renames what the compiler makes of them | C66 |
| `Compiler/Ast` | parse trees and definitions | C18–C33, C45 |
| `Compiler/Unit` | definition/compilation_unit.go (name tables, imports) | C26, C33 |
| `Compiler/Visitor`, `Info` | compiler/proto_visitor.go, literal_visitor.go, option_validator.go, info visitor | C18–C28 |
| `Compiler/Runtime`, `RuntimeSpec` | compiler/compilation_runtime.go; specification of import graphs | C29–C33 |
| `Compiler/Bridge` | from definitions to the schemas of `Codec/Schema` | C45 |
| `Compiler/Embed`, `Transfer` | embedding | C24 |
| `Expr/Model` | expressions of custom methods: ExprVisitor (proto_visitor.go 1289-1944), GenerateExpr of golang.go, c.go, cpp.go, csharp.go, java.go, commonjs.go, python.go | C47 |
| `Expr/Read` | **specification**: tokens and operator precedences of the seven languages, the tree a text is read as | C47 |
| `Expr/LexProofs`, `ParseProofs`, `AtomProofs`, `MainProofs` | proofs for C47 | |
| `Expr/Kotlin` | generateExpr and literalForType of kotlin.go (484-619); **specification** of how Kotlin reads it: infix functions, postfix calls, `if` as an expression | C47 |
| `Expr/KtProofs`, `KtMain` | proofs for C47, Kotlin | |
| `Obj/Equal` | equals/Equals and hashCode/GetHashCode of java.go 566-612, csharp.go 623-668, kotlin.go 451-483, with the library functions they call; objects with identities | C68 |
| `Obj/EqSpec` | **specification**: contents, what comparisons see of floats, heaps | C68 |
| `Obj/EqProofs`, `HashProofs`, `Contents` | proofs for C68, link to the values of the codec models | |
| `Front/Float`, `FloatProofs` | float constants: strconv.ParseFloat and `%f` over rationals (literal_visitor.go 143-161, golang.go 3031-3033 and the other targets); proofs | C70 |
| `Front/FloatSpec`, `Expr/SourceSpec` | **specification**: nearest float64, nearest millionth; what is kept of a written expression | C70 |
| `Expr/Source`, `SourceProofs` | expressions from text to generated text; proofs | C70 |
| `Obj/Fresh`, `FreshProofs` | initial values of attributes: java.go 328-423, csharp.go 383-483, kotlin.go 167-277, python.go 302-366, esm.go 1031-1103, commonjs.go 1116-1190; Go's zero values; proofs | C69 |
| `Compiler/ErrSpec` | **specification**: what the errors of a run claim, in terms of files alone | C71 |
| `Compiler/ErrOwn`, `ErrProofs`, `ErrMain` | proofs for C71 | |
| `Util/Indent`, `IndentProofs` | util/indent.go, `iterate` and `slice` of util/template.go; Props/IndentProps | C72 |
| `Compiler/WarnSpec` | **specification**: the warnings a file deserves, what is printed about which file | C74 |
| `Compiler/Warn` | `Compile` with its third result, the warnings (compilation_runtime.go 73-177, warning.go 16-36) | C74 |
| `Compiler/WarnProofs`, `WarnMain` | proofs for C74 | |
| `Compiler/Rules` | **specification**: the rules of the language, for definitions, files and projects | C75 |
| `Compiler/RuleVisit`, `RuleNames`, `RuleDefs`, `RuleMain` | proofs for C75 | |
| `Codec/Evolve` | a struct followed by more fields: values, wire, conditions of the parts | C77 |
| `Compiler/Bare` | **specification**: `bareAll`, what matters of a definition on the wire, and that schema and size depend on it alone | C77, C78 |
| `Props/ExchangeProps` | **specification** `Written`, `ReadEverywhere`, and C76 | C76 |
| `Props/EvolveProps` | C77 and C78 | |
| `Gen/Members` | names of all members of the type generated for a struct, in each language, with and without `-minimal`; which pairs a language cannot have both | C79 |
| `Props/MemberProps` | `Tidy`: the conditions on names (**specification**), and C79 | |
| `Gen/Globals` | names a definition declares outside of types, in each language; header guards and macros of C and C++; labels of the `switch` of Java enums | C80 |
| `Props/GlobalProps` | `Defined`: the definitions of a project, and C80 | |
| `Props/NoThrowProps`, `NoThrowMore` | the conditions on definitions per language (**specification**), and C81; Kotlin and Python | |
| `Props/KeywordProps` | keywords of the target languages (**specification**), and C82 | |
| `Props/IdentProps` | identifiers (**specification**), and C83 | |
| `Props/SizeProps` | the constants `Dynamic` and `Size` of the generated types | C73 |
| `Gen/Driver`, `Scope` | which types a generator writes, where and in which order (gen_dispatcher.go 230-257, `GenerateUnit`, `GenerateStruct`, `GenerateEnum` of all targets), owners of types (struct.go), imports of Go outputs (golang.go 166-211) | C55, C56 |
| `Gen/Files` | names of the output files of all targets, `WriteFile`, `WritePackage` (gen_ctx.go 44-72) | C57 |
| `Gen/Imports` | include and import statements of the outputs of all targets, package and namespace statements, names of C++ structs | C58 |
| `Gen/Spec` | **specification**: types declared by a file, types a struct mentions | C55, C56 |
| `Gen/DriverProofs`, `Quiet`, `Occ`, `OccTop`, `OccFile`, `Project`, `Options`, `ScopeProofs`, `FilesProofs` | proofs for C55–C57 | |
| `Util/*` | util/ordered_map.go, name_style.go, calc.go, size.go, type.go; generator/gen/*.go; definition/package.go, literal.go, error.go; generator/generator.go; main.go's options | C18, C34–C44 |
| `Props/*` | the property theorems, each with a concrete instance meeting its hypotheses, and the counterexamples | all |

## 3. How each property is modelled and proved

**Codec (C01–C16).** The specification is independent of the generator: a message is a list of bits (`Option Bool`, `none` for
padding), the concatenation of the bits of its fields (`Fields.wire`). Two refinement theorems, by mutual induction on types and
field lists, carry most properties: `Fields.encodeTo_spec` (EncodeTo overlays the wire form on the buffer, whatever the buffer, the
unroll threshold and the sign extension method) and `Fields.decode_iff` (Decode returns `v` exactly if the input starts with
a representation of `v`).

* C01 both refinements. C02 length of the wire form. C03 the refinement, plus the position of each field. C04 the byte order
  function is a permutation and puts the most significant byte first. C05 frame part of the overlay. C06 neither refinement
  mentions the options. C07 agreement ignores the suffix. C08, C09, C11: invariant of DecodeSize over unbounded integers
  (`ScanIdeal`), related to the wrapping one (`ScanExt`), all reads in range. C10 both sizes are the length of the
  representation. C12 bit-vector lemmas for all widths. C13, C14 induction on the length. C15 constants. C16 the values a
  decoder returns are in range and their wire form is again a representation.

**C target (C17).** `C17_encode_agrees`, `C17_decode_agrees`, `C17_exchange` against the Go model, by the same inductions;
`C17_field_positions` shows that the position condition is exact for each field.
C++ emits the same statements (cpp.go 200-305, 1601-1868, 2429-2905) and is covered by the same model; not covered are the two places where
C++ code does not compile (a direct dynamic struct field; enum array elements decoded in a loop from another file's namespace).

**Size functions of C and C++ (C52).** `cDecodeSize_rel` relates `decode_size` to the ideal (unbounded) scan of `ScanIdeal`, as
`decodeSize_rel` does for Go, under the condition that no length wraps: that no bytes field occurs, or that the input can be completed
to data the ideal scan accepts (every prefix then is shorter than the completed data). `iSize_reach` bounds the hints without bytes fields.

**Python target (C46).** Unbounded integers in place of `uint64`; `pyEncode` writes the bits `IsAt` names, so it equals `encode`;
`decode_size` is related to the ideal scan of the Go proof, and decoding is a simulation (`PySim`) of Go's: equal values while
nothing raises. `C46_field_positions` shows the position condition is exact. Simplifications: floats as bit patterns (Python
packs with `struct`), bools as 0/1, a string is its UTF-8 bytes, exceptions are one outcome.

**Compiler (C18–C33).** The visitors are functions in a state monad with errors and panics over the compilation unit. C19–C23,
C25, C27, C28 induct over bodies; C24 compares visiting the embedding and visiting the inlined body; C26 is an invariant
on the tables; C29–C32 are an induction over the recursive compilation, with the fuel shown irrelevant; C33 is about
sequences of additions and imports.

**Method expressions (C47).** A table-driven precedence parser over a maximal-munch lexer is the specification of how a language
reads a text (`Lang.Reads`, shown to be functional); the tree the user wrote is `ExprA.tree`. Induction over expressions shows
that each printed text is a complete operand of the language; the tables of the seven languages are then checked to fit by
kernel evaluation (finitely many operators, not a sample of expressions). Keywords, tokens and precedences are transcribed
from the language references; typing and evaluation of the text in the target language are not modelled. Kotlin has its own printer and reader (postfix calls
`.inv()`, `.pow()`, `.toX()`, infix `and`/`shl`, `if`-`else` expressions), with the same structure of proof.

**equals and hashCode (C68).** The generators select a comparison by type; selection and library functions are modelled on values in
which structs and byte arrays have identities. A heap says that equal identities are the same object; it is needed for
transitivity (an object with a NaN equals itself). Induction over definitions shows that equality is equality of a normal form of the
contents, and that the hash is a function of it; C49, C53 and C54 then give the statements about encodings.

**Expressions from text to text (C70).** Composition of the lexer and parser theorems (C60, C61), the literals (C62) and C47, with the step
in between (`Expr.ex`) that rounds float constants. Rounding is proved right against a specification that quantifies over all float64 numbers
(`Nearest64`) and all multiples of a millionth (`NearestMillionth`), in the rationals of Lean's core library.

**Errors (C71).** `Claim` and `FirstClaim` say what an error claims, by recursion over the nesting of import errors. Invariants of the
traversal: the stack consists of the files on the way to the current one and of files with a true error; the table of packages knows files of
this run that are on the stack or finished; both only contain parsed files. As long as nothing has failed the stack is the way itself, which
makes the first error exact.

**New objects (C69).** The initial values the generators write, on the values of the codec models; induction over definitions shows that
they are legal and stand for Go's zero value, so C46, C49, C50, C53 and C54 apply, or that the encoder reaches a null enum. Initial values the
models of values do not have (null byte arrays, `None`) make the object `none`. C and C++ (uninitialised members) are left out.

**Kotlin target (C49).** One bit at a time in place of byte chunks: `bbWriteBits` writes the bits `IsAt` names, so `encode` equals
Go's. `Int` is 32 bits (`w32` at every addition the code performs on sizes). Decoding: `ktRepr` is `Repr` with length prefixes of at
most five bytes counted modulo 2^32; `decode` succeeds exactly on the bit strings of `ktRepr`; two bit strings of the same data are
equal unless a prefix is cut (`repr_cross`), and as short as an encoder's only if they are its (`repr_short`, `ktRepr_canon`).
Exceptions are modelled as `panic`. Simplifications: floats as bit patterns, strings as their UTF-8 bytes with `decStr` the effect of
decoding and re-encoding, enum attributes as the member's number or null.

**JavaScript targets (C50, C51).** JavaScript, C#, Java and C++ are generated by parallel functions; `TgtMsg` models the common frame
over a record of leaf statements, `TgtTop` proves agreement with Go for every record whose leaves meet `EncOk`/`DecOk`, by induction
over definitions; `JsEnc`/`JsDec` establish those for JavaScript. The leaf conditions (`Sc.jsLegal`, `Sc.jsFit`, `Sc.jsGood`,
`jsConstOk`) state exactly the values for which the emitted expressions are right. Numbers and BigInts are unbounded integers, bit
operations on Numbers go through 32 bits. Simplifications: floats as bit patterns, `Uint8Array`s only, fewer than 2^28 bytes. The
two flavours differ only in module syntax and the extra `undefined` check of ESM's decode_size. `TgtSound` proves the converse (what the
target accepts is a representation) from the conditions `SoundOk` on constants, prefixes and strings.

**Methods of a field (C48).** Invariant of the method table over the list of methods.

**Generated types and their scope (C55, C56).** The generator state (types done, types being written) is followed through the types of
a unit: what is written is the post-order of the types reachable through fields, without those written before. The compiler side
shows, by induction on the compilation of a file and over the import graph, that each struct or enum reachable from a file's
definitions has been entered by the declaration with its name (`FileInv`), so a name stands for one type in a project and the new
names of a unit are the declared ones. C56 reads off the import graph which file declares a type; for Go the owner table (`SetBelongs`)
is shown to name that file.

**Output files (C57).** Names with proper parts are cleaned to the output directory followed by the parts, so they can be compared part
by part: packages are different (C32), keys of Go outputs are different (the generator refuses duplicates), types have different names
(C55). For Java and Kotlin the last part alone differs, so nothing is assumed of the package options.

**The rules (C75).** `Rules` gives a relation per syntactic category (`ElemOk`, `TypeOk`, `FieldOk`, `BodyOk`, `StructOk`, `NumsOk`, `EnumOk`,
`DefsOk`) between a tree and what it stands for, in a scope that says what names mean; no tables, positions or order of work. Both
directions are mutual inductions on the tree: if a visitor succeeds in a unit whose tables match the scope (`Match`), the relation
holds; if the relation holds and the names introduced are new, the visitor succeeds. A third induction shows that exactly the names
of `intro` are added. Files are composed along the import relation: acceptance is well-founded (`Compiled.acc`), and a finite
project without cycles is too (`acc_of`), so both directions are inductions over imports, with `Part`/`Full` for the tables; that an
import is refused only for a name defined in two files is C71's `importNames_true`.

**Exchange (C76).** `Written fs v d`: a program in one of the languages encoded as `d` an object standing for `v`; `ReadEverywhere fs v d rest`:
what the decoders of all languages return for `d` followed by `rest`. Both are read off the statements of C17, C46, C49, C50, C53 and C54, and
the proof goes through the Go message: every writer's bytes are Go's (`C76_one_message`), and every reader reads Go's.

**Evolution (C77) and names (C78).** `a.append b` is a definition with fields added, `a.join b x y` its values. From the characterization of
decoding (`Fields.decode_iff`: a buffer is accepted with `v` iff it agrees with some representation of `v`), which splits along `append`.
Reserved bits: the representation of fields of `n` bits constrains more than `void #n`. For compiled projects the two definitions are
compared by `bareAll`, which drops names, methods, enum values, other options and the marks of embedded structs.

**Member names (C79).** `lettersAndDigits` (C35) is a key that no conversion changes. The key of each member of an entry is a prefix
(nothing, get, set), the key of the entry's name and, for arrays, a suffix; for functions in C the struct's key goes before all (`Keyed`).
Two members with equal names have equal keys, and prefix, name and suffix can be told apart under the conditions; the fixed members have
reserved keys. Inside one entry the names are compared directly; that camelCase and PascalCase of a name differ follows from C35_style.
The counterexamples are structs of a project that the model of the compiler accepts.

**Global names (C80).** That each name is introduced once comes from the rules (C75): a name found in two places is found in one
definition. So types differ from types and from enum values, and values of different enums differ. In C a function begins with the name
of its struct and an underscore (`Prefixed`), so two equal functions of different structs mean that one name continues the other; what
follows has a small letter, which tells functions from enum values. Guards are compared by `lettersAndDigits`.

**No exceptions (C81).** The scan of `decode_size` stops at a length within the data or gives up; this bound is proved together with
the absence of out-of-range reads for any target whose leaf scans have it (`TgtDecSpec.SafeOk`, proved for JavaScript, Java and C#).
`decode` runs the size check first; by the proofs that decoding of arbitrary data is sound (C50, C53, C54) the readers consume exactly what
the scan counted, so every read lies within the data. For JavaScript, where reading past the end gives `undefined` and only `BigInt`
turns that into an exception, definitions without 64-bit types are treated by plain induction. Kotlin's proof is the one made for C49;
Python's decoder is compared with Go's (C46, C09), after a proof that without strings and enums it does not depend on what `str` and
the enum classes accept.

**Keywords (C82).** Over the members of C79 and the global names of C80. A member other than a C function keeps the letters and digits
of the name it is made from, with at most `get` or `set` before them (`made_keyed`), and no keyword begins so; names of C functions
contain `_get_`, `_set_` or end in one of six suffixes that occur in no keyword. In Go every member begins with a capital letter after
underscores (C35). Names of definitions of an accepted project are capitalized (by induction over the rules of C75, inline structs
included), and no keyword of a language but C and Python is; the lists are checked by
the kernel word by word, which is all they are: finite.

**Identifiers (C83).** Up to case and underscores every declared name is put together from `get`/`set`, names of the source, and a few
fixed words (`made_keyed`, `fixed_keyed`), all of which begin with a letter; a name whose letters and digits begin with a letter does
not begin with a digit, whatever underscores there are.

**Warnings (C74).** Each visitor adds a sublist of the warnings its piece of text deserves, and all of them if it succeeds (`Says`, an
invariant closed under the steps of the visitors); the loops that collect errors need that an error list is never empty. For a run the
files finished by a call (new entries of `Units`) are those whose warnings it returns (`Said`), by induction over the nested calls.

**Size and Dynamic (C73).** By C45 the constants are sum and flag of the schema. Two values are built by recursion over the schema, the
zero value and one with all strings of length N; the former is shortest by induction, the latter longer than N if the flag is set.

**Indentation (C72).** `strings.ReplaceAll` is a scan with a skip counter; on a text given by its lines the three steps become: pad
every line, trim the last one, empty every second of the lines that are only padding (`unblank`). `C72_content` and `C72_file` follow by
comparing trimmed lines, the latter with C37.

**References (C58).** `follow` and `search` say what `#include`, `require`, `import` and Python's `from … import` do with a path; a file
is where C57 puts it. A relative path is walked (`walk`, as for C36) from the directory of the referring file: the common prefix is
climbed down to, the rest descended, also after the same prefix was removed from both by `-rmpath`. Java, Kotlin, C# and Go are
compared with the package statements.

**Streams (C59).** `Reader.read` is the program of the user, written once for any pair of DecodeSize and Decode; `Reader.Follows` the claim.
`Reader.read_spec` proves it, by induction on the pieces and inside on the messages, from two facts about each message: followed by
anything it is decoded with its size, and cut off DecodeSize is not positive. The first is C07 and its counterparts (C17, C46, C49, C50,
C53, C54), the second C08, C52 and `tDs_trunc` (induction on the definition: decode_size either passes a value that is there, or asks for
more than there is and at most for what the message needs). Kotlin's decodeSize is shown equal to the generic one with its own statements
for strings and bytes.

**Lexer (C60).** `lex` matches the regular expressions of the grammar (`Re`, with all prefixes a rule matches) and takes the longest.
`TokSpec` says what tokens look like without regular expressions; `matches_*` relate the two rule by rule, and the main induction is on
the text. `Munch` (every token is the longest valid one at its place) makes the statement an equivalence; `Apart` is the simple
sufficient condition (no letter after a word, no digit or point after a number, no symbol that would extend a symbol).

**Parser (C61).** The specification is the grammar as a rule for writing (`toks`) and a condition on expression trees (`WF`: no
operand reaches further than written, by the precedences). `parse_iff`: soundness (what is parsed has the tokens and is well formed)
by induction on the fuel of the parser, completeness by induction on trees, with enough fuel. Unambiguity and the grouping rules are
corollaries.

**Literals (C62).** `Means` is an inductive relation between text and bytes; the unquoting loop is shown to compute it in both
directions. Numbers are positional notation; a float is compared as a fraction.

**Layout (C63).** Tokens of a file have different places, so a second file with the same tokens is a renaming of places, which extends to
an injective map of all places (a product of transpositions). Parsing commutes with it (`parse_iff` twice). The compiler compares places
only for equality, so every visitor commutes with it (`Eqv`, `EqvM`), tables included; induction on the fuel of `compile`.

**Sources to outputs (C64).** The tokens of a tree are the lexer's tokens (`parse_iff`), whose places differ and whose identifiers are words;
the places and names of the definitions are a sublist of these. So C55–C58 apply to `srcFS`. The generator's driver reads no line or
column, so it commutes with `Moves`, and C63 carries over to outputs.

**Import paths (C65).** A cleaned rooted path is where walking along its parts leads (`clean_foldl` of C41); the directory of a path is
the walk along all parts but the last. So the paths of `absFrom` are `pathTo` of walks, `Imports` of the file system `onDisk` is the step of
`Needs`, and C30 and C32 give the units. Two units at one place have one text, hence one package, which C32 excludes.

**Relocation (C66).** Everything needed is inside the directory (induction on `Needs`), so old and new paths are two lists without repetitions,
whose correspondence extends to an injection ρ of all paths. The compiler compares paths for equality only and reads no path but
that of an import, so a successful run commutes with ρ (`compile_ren`, induction on fuel); so does the driver of the generators.

**Meaning of texts (C67).** `Front/Meaning` says what a tree stands for by inference rules, one per form of the grammar; a name stands
for a definition the text sees (`Visible`). While a file is compiled the tables hold only what names stand for (`Env`); this is kept by
every visitor (structural induction on trees) and, across files, by induction on the import graph, which is acyclic for files that
compile. Uniqueness: two visible definitions of one name have table entries at the same place, and places of a text are distinct
(`read_places`), so they are the same statement (`Uniq`); then the rules are deterministic (induction on derivations).

**Utilities (C34–C44).** C34 refines a list of pairs under any operation sequence. C35–C44 are direct inductions.

**Bridge (C45).** What the compiler accepts has a well-formed schema with the same size, so the codec theorems apply. C45_fields relates the definition to the schema field by field with a relational specification (SameFields), C45_position composes it with the position theorem of the codec.

**Java and C# (C53, C54).** Both are instances of `TgtMsg` (`MgTgt`): the chunk statements have C's numbers, values are bit vectors,
offsets are 32-bit `int`s (`w32`), shifts take their counts modulo 32 or 64, arrays have fewer than 2^31 bytes; `sub` is the slice that
C# without `-memcpy` takes for nested calls. Encoding: the same overlay argument as for JavaScript. Decoding: `Fields.t_decode_go`
turns any message representation Go accepts (also with padded prefixes) into one the target reads, since the 32-bit length is the real
one below 2^30 (`mgLen_eq`). Soundness: `Fields.tDecode_to_repr` inverts the decoder; prefixes that overflow keep the claim on Go's
acceptance to definitions without `bytes`.

## 4. Findings: where the code violates what one would expect

Each item marked *proved* has a counterexample theorem in the model (name in parentheses); the property theorems then carry the
restriction that excludes it, and `properties.jsonl` states it.

1. DecodeSize skips a directly nested variable-length struct: truncated messages are accepted or make Decode panic, and a message may
   not decode (*proved*: C01/C08_C10/C09_direct_dynamic_counterexample).
2. An array of structs may be declared narrower than its structs; Encode then panics (*proved*: C02_narrow_array_counterexample).
3. A constant is not checked to fit its width, and a narrowed big-endian constant never decodes (*proved*: C15_unfit_constant_*,
   C27_fit_counterexample).
4. An explicit enum value -1 is taken for "no value" (*proved*: C25_minus_one_counterexample).
5. A size annotation is computed in int64 without an overflow check (*proved*: C18_overflow_counterexample).
6. A negative literal in base 16 is formatted `0x-5` (*proved*: C42_negative_hex_counterexample).
7. The "minimal" type of a negative literal below -1 is always int64 (*proved*: C42_not_minimal_counterexample).
8. Normalising generated text is not idempotent on `\r\r\n` (*proved*: C37_cr_counterexample).
9. -rmpath prefixes are textual (`ab` matches `abc/x`); an empty entry matches everything (*proved*: C38_textual_counterexample).
10. The template calculator is right-associative, `==` compares dynamic Go types, trailing arguments are ignored (*proved*:
    C43_right_counterexample, C43_equality_counterexample, C43_trailing_ignored).
11. OrderedMap: after Remove, the index of the zero key is stale (*proved*: C34_zero_key_counterexample).
12. Name conversions are not injective; Pascal and ALL_CAP are not idempotent when applied once (*proved*: C35_not_*).
13. Unrolled arrays of enums of 3, 5, 6 or 7 bytes generate Go code that does not compile (not modelled: excluded by
    `Ty.wf`).
14. A byte-wide bool array decodes differently in unrolled and loop form if the byte is neither 0 nor 1 (*proved*:
    C06_bool_array_counterexample).
15. DecodeSize returns -1 both for "one byte missing" and for a malformed length prefix.
16. Strings containing NUL do not survive a round trip (*proved*: C14_nul_counterexample).
17. The fourth example in the documentation of Package.Difference contradicts the code.
18. The parse stack is not popped after a failed import, so a later import of the same file is reported as a cycle (*proved*:
    C29_false_cycle_counterexample); a unit with errors stays in the list of units.
19. Negative, float, bool and narrowed constants produce Go code of the wrong type (excluded from the schemas).
20. ExprVisitor gives `value` the type of the method.
21. The C-family encoder shifts the second half of a chunk by the wrong amount, and its `|=` depends on what the buffer held
    (*proved*: C17_encode_counterexample, C17_dirty_buffer_counterexample, C17_field_positions).
22. DecodeSize overflows on arrays of variable-length structs (*proved*: C09/C11_overflow_counterexample).
23. The literals -2^63 and those of 2^63 or more cannot be written.
24. `struct lower x;` / `enum lower x;` make the compiler panic (*proved*: C26_panic_counterexample).
25. The size of an array is computed in int64 without an overflow check (*proved*: C19_overflow_counterexample).
26. Enum values are not checked against the size of the enum (*proved*: C25_range_counterexample).
27. CompileFile("") returns neither a unit nor an error (*proved*: C31_empty_name_counterexample).
28. A variable-length struct field may be declared with the size of its fixed part.
29. Struct definitions written inside a field never become visible to later definitions (*proved*: C26_inline_counterexample).
30. Absolute import paths are not cleaned: the same file under two spellings is taken for two files, and the project is refused for a duplicate package (`C65_spelling_counterexample`).
31. Custom get/set methods of an embedded struct are emitted a second time, for the wrong receiver, with the embedding struct.
32. C's decoder computes the length of a bytes field in 32-bit `int` (*proved*: C17_length_counterexample).
33. C's `X_decode` takes no size and checks no bounds.
34. Python's unrolled decode statements print `P1 | P2 << s` without parentheses, so only the last part is shifted: a field of
    more than 8 bits that does not start a byte is misread unless it is little endian and ends in the next byte
    (*proved*: C46_field_positions, C46_decode_counterexample). The bytes written are right; looped arrays are right.
35. Python compares a constant of signed type after sign extension with the unsigned literal: a message with `int8 K = 200`
    is refused by the code that wrote it (*proved*: C46_signed_constant_counterexample).
36. A minus sign before a negative literal is printed `--5`, which Go and the C family do not accept (*proved*:
    C47_minus_counterexample).
37. Python: `!x` is printed `notx` (*proved*: C47_python_not_counterexample).
38. Python: `(-5) ** 2` is printed `-5 ** 2` (*proved*: C47_python_power_counterexample); the same text is a syntax error in
    JavaScript (*proved*: C47_js_power_counterexample).
39. Float literals in expressions are printed with `%f`: digits after the sixth decimal place are lost (*proved*: C70_float_close,
    C70_float_counterexample: `1e-7` becomes `0.000000`).
40. `/` and `%` of integers mean true division and flooring remainder in Python and division of doubles in JavaScript.
41. Names of fields and methods are checked for collisions as written (C23), but not as converted and not against the generated
    accessors (C79); `-decnum`
    is ignored inside expressions; in a getter `value` has the method's type though it is the field (finding 20), so in Go a
    conditional or a result of another type needs an explicit cast.
42. Kotlin forgets `offset` behind a directly nested dynamic struct, since ForEachField calls such a field static: the next
    fixed-size field overwrites the nested struct's bytes, `{Inner{string s}; uint8 y}` encodes to 07 00 00 instead of 61 00 07
    (*proved*: C49_encode_counterexample).
43. Kotlin counts length prefixes in 32 bits: 83 80 80 80 10 is the length 3, FF FF FF FF 0F throws an exception instead of
    returning -1, and prefixes of six to nine bytes are refused though Go reads them (*proved*: C49_prefix_counterexample,
    C49_exception_counterexample, C49_long_prefix_counterexample).
44. `decodeSize` of an empty struct (size 0) past the end of the array returns -0 = 0, that is success.
45. JavaScript: an unrolled uint32 field of 32 bits decodes to a negative number from 2^31 on (looped elements do not), an enum
    member from 2^31 on to undefined, an int64 field of exactly 32 bits throws in decode (`>>>` on a BigInt)
    (*proved*: C50_uint32_counterexample, C50_enum_counterexample, C50_int64_counterexample).
46. JavaScript constants are compared with `!==` to a literal that is a BigInt from 2^31 on while decoded values are BigInts for
    64-bit types: uint32 constants from 2^31 on and 64-bit constants below 2^31 are never recognised
    (*proved*: C50_const_counterexample).
47. JavaScript's string reader takes the terminator for a continuation byte after malformed UTF-8, so decode consumes more than
    decode_size says; a lone surrogate swallows the unit after it (*proved*: C50_utf8_counterexample,
    C50_surrogate_counterexample).
48. JavaScript enums of more than 32 bits are written wrong when unrolled (`>> 32` is `>> 0`); a looped undefined enum throws.
49. The ES module generator does not pass the single-file flag to the template assigning array elements of enum type in encode
    (esm_encode.go), so single-file output refers to a module name that does not exist.
50. `decode_size` of C and C++ computes `offset + len` in 64 bits without a check: a bytes length of 2^64 - 1 is accepted as a message
    whose decoding reads outside the data, a length near 2^63 makes the hint (a negated sum cast to int64) positive although nothing
    follows, and eleven continuation bytes shift by 70 (*proved*: C52_wrap_counterexample, C52_positive_counterexample,
    C52_shift_counterexample). Go refuses all three.
51. Java's loops over elements of fixed width do not add `start` (nor, in nested structs, the position of the struct): anything that
    is not at index 0 is written over and read from the wrong place (*proved*: C53_start_counterexample, C53_nested_counterexample).
52. Java and C# put no limit on length prefixes and count in 32 bits: 81 80 80 80 10 is the length 1, FF FF FF FF 0F is -1, which
    decodeSize takes and decode throws on (*proved*: C53_prefix_counterexample, C54_prefix_counterexample).
53. Single floats declared with fewer bits than their type go through a variable of the next size: Java fills the upper bits with the
    sign of that variable, C# throws in BitConverter.ToSingle/ToDouble (*proved*: C53_float_counterexample, C54_float_counterexample).
54. C# enums are `int`s: bits above 32 are lost on decoding (*proved*: C54_enum_counterexample). Java enums of more than 32 bits do not
    compile.
55. C# without `-memcpy` takes slices at positions that may lie behind the end of truncated data and throws
    (*proved*: C54_slice_counterexample); bytes attributes then alias the input.
56. Generated code that does not compile: Java constants narrower than their type, boolean and float constants; Java with
    `-signext arith` and looped int64 elements of 32 to 63 bits (a literal suffixed `LL`); C# signed constants and `-signext arith` with
    64-bit int64 fields.
57. The ES module and Kotlin generators do not write structs declared inside other structs, though the code of the outer struct uses
    them (*proved*: C55_shallow_misses).
58. Java, C#, Kotlin and ES module outputs refer only to the files named in import statements, while the compiler resolves names through
    indirect imports too: an accepted project may give code with undefined names (*proved*: C56_direct_fails).
59. Go outputs import the packages of all types found at any depth of a field, also when no text of the output names them; Go rejects
    unused imports (*proved*: C56_go_unused).
60. A file left out by `omit_empty` is still included or imported by the outputs of the files that import it (*proved*:
    C56_omitted_fails).
61. Keys of Go outputs are the components of `go_package` joined with `.`, so `a/b` and `a.b` clash although the files differ.
62. `-rmpath` can make outputs overwrite each other (`x.b` and `b` with `-rmpath x`), and so can an empty part of a `go_package`
    (`g//h` and `g/h`), silently (*proved*: C57_rmpath_counterexample, C57_go_counterexample).
63. Results of method expressions are not converted: a Java or C# getter of a type narrower than `int` whose expression is an arithmetic
    operation does not compile (lossy conversion), and JavaScript throws when the expression of a 64-bit field mixes BigInt and Number
    (`uint64 x { get y: value + 1 }`); `Number(x)`/`BigInt(x)` as casts do not truncate.
64. Go with `-relpath`: the paths in import statements are computed from the directory above the package's own, so none of them leads to
    the imported package (*proved*: C58_go_relative); besides, Go modules refuse relative import paths.
65. C++ code names structs and enums by their package path, while `cpp_namespace` changes the namespace they are declared in: with this
    option generated code names a struct that does not exist (*proved*: C58_cpp_counterexample).
66. ES modules import `* as $x` with `x` the last part of the package: a file that imports `p.b` and `q.b` gives a module that binds
    `$b` twice, a syntax error (*proved*: C58_esm_counterexample).
67. All binary operators group to the left, `**` and `? :` too: `2 ** 3 ** 2` is 64, and `a ? b : c ? d : e` is `(a ? b : c) ? d : e` (*proved*:
    C61_groups, C61_ternary). A sign before a number belongs to the number, other prefix operators reach over `**`: `-5 ** 2` is
    `(-5) ** 2`, but `-value ** 2` is `-(value ** 2)` (*proved*: C61_prefix).
68. `08` is read as `0` and `8`, `0b1` as `0` and `b1`; the binary base in literal_visitor.go and `FormatIntLiteral` is never reached.
    `/*` without end is `/` and `*`. `inf`, `nan`, `value`, `get`, `set` cannot be names (*proved*: C60_exact and examples).
69. The lexer accepts escapes that `strconv.Unquote` then refuses: `\'` (so `'it\'s'` is an error), `\X41`, octal escapes above `\377`.
    A string in single quotes is rewritten with double quotes, so it cannot contain `"` either (*proved*: C62_string).
70. `import 'a.bb';` is an error: import names are unquoted without the rewriting other strings get, and Go allows one character
    between single quotes (*proved*: C62_import).
71. The smallest int64 cannot be written: the sign is applied after the range check (*proved*: C62_int).
72. Kotlin: `bool(e)` is written `(e != 0)`, a type error where e is Boolean or unsigned; `-(-5)` is written `(--5)` (*proved*:
    C47_kotlin_minus_counterexample).
73. Java, Kotlin: equals compares single floats with `!=`, hashCode takes their bits: 0.0 and -0.0 are equal with different hash codes
    (*proved*: C68_zero_counterexample); an object with a NaN does not equal the object read back from its bytes, while arrays with NaNs
    do (*proved*: C68_nan_counterexample).
74. C#: Equals compares `byte[]` and `Memory<byte>` attributes, and elements of arrays of bytes, by identity, so an object with bytes never
    equals the one read back from its encoding (*proved*: C68_csharp_bytes_counterexample). Java and Kotlin compare the contents.
75. Java, Kotlin, Python: enum attributes of new objects are null/None although Go starts from 0, so a new object of a struct with an enum
    cannot be encoded (*proved* for Java and Kotlin: C69_java_enum, C69_kotlin_enum; `None.value` in Python). In JavaScript a null enum
    is encoded as 0, except in looped arrays.
76. Java and C# with `-memcpy`: a new object's arrays of bytes hold nulls (`new byte[n][]`), so it cannot be encoded. JavaScript: new arrays of
    anything but structs are empty, whatever the declared length.
77. The error about a name defined in two imports says it occurred while importing the importing file itself (compilation_unit.go 163-168,
    `File: c.UnitName`), not the import that clashes; see the constructor `Claim.clash`.
78. Indenting is meant to leave empty lines empty, but occurrences of `\n`+blanks+`\n` share line feeds: of several empty lines in a row
    every second keeps its blanks (*proved*: C72_blank_counterexample). Written files are not affected, normalisation cuts them (C37).
79. Warnings of a file whose options or package statement are refused are printed again for every file that imports it: the file has
    not been entered into any table, so it is read again (compilation_runtime.go 98-108; `C74_repeat_counterexample`).
80. Names that become the same in the style of the target are accepted and declared twice: `fooBar` and `foo_bar` in all languages
    (*proved*: C79_style_counterexample), `x` and `get_x` in Go and C++, an array `x` and `x_item` in C and C++.
81. Names of built-in members are accepted too: a field `size`, `dynamic`, `encode`, ... in Go, C++, C# and Python (*proved*:
    C79_reserved_counterexample); in C# a field called as its struct (`Point`/`point`) and a struct called `Size`. In Python fields `x`
    and `_x` are accepted by Python as well: the property `x` reads and writes the attribute of the other field.
82. A constant without a name (`uint8 = 5;`) becomes a member without a name in C#, Java and JavaScript, a syntax error (*proved*:
    C79_empty_counterexample); Go, C, C++ and Kotlin leave it out.
83. Keywords of the target languages are not avoided: a field `class`, `default` or `for` is accepted (*proved*:
    C82_field_counterexample). Names of definitions must be capitalized, so of these only C's words like `_Atomic` and `_Bool` and
    Python's `None`, `True` and `False` are keywords (*proved*: C82_type_counterexample, C82_value_counterexample).
84. The guard of a C or C++ header joins the parts of the package with underscores and puts them in capitals: packages `p.q` and `p_q`
    (or `P.q`) of one project have the same guard, so where both headers are included the second is empty (*proved*:
    C80_guard_counterexample).
85. Enum values are plain names in C: `enum Kind { A_size; }` clashes with the constant `A_size` of `struct A` (*proved*:
    C80_value_counterexample), `struct A { uint8 size; }` with `struct A_get` (*proved*: C80_struct_counterexample); a value
    `__Q_BB_H` is replaced by the guard's empty macro (*proved*: C80_macro_counterexample).
86. Two values of an enum may have the same number; the Java enum then has a `switch` with two equal labels and does not compile
    (*proved*: C80_java_counterexample). In Python the second value becomes an alias of the first.
87. JavaScript: the reader of a string stops after the bytes its last character seems to have, `decode_size` at the first zero byte; for
    malformed UTF-8 the reader is ahead, and a 64-bit field behind the string is read past the end of data that passed the size check:
    `BigInt(undefined)` throws (*proved*: C81_string_counterexample).

## 5. Not modelled

Error recovery and messages of the parser; template text and its layout (except method expressions); writing files; colours and diagnostics
text; whether generated code compiles (findings 13, 49, 56); concurrency (bubbler has none).

## 6. Tests of the theorems

`seeded/LOG.jsonl` records wrong programs: for each, the definition of the model that was edited the way a realistic bug would
change the program, the claim this breaks, and the theorems whose proofs failed. The edits are applied to a copy of the project;
declarations whose proofs break are replaced by placeholders, and the manifest theorems that then rest on a placeholder are
those listed.
