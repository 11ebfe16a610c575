{"id": "C01", "title": "Encode/Decode round trip", "statement": "For a message type the compiler accepts (no directly nested variable-length struct mis-sizing, constants that fit, array elements not narrowed below their struct size) and every value whose fields are in the range of their declared bit widths, calling Decode on the bytes returned by Encode yields an equal value and returns the number of bytes encoded.", "quantifier": "every accepted struct definition, every in-range value, every -unroll threshold and sign-extension method", "why_tests_cant": "The schema space is infinite (nesting, bit offsets, widths 1..64, byte order, dynamic fields) and so is the value space.", "anchors": ["generator/target/golang/golang.go:GenerateEncoder", "generator/target/golang/golang.go:GenerateDecoder", "generator/target/golang/golang.go:generateEncodeImpl", "generator/target/golang/golang.go:generateDecodeImpl"]}
{"id": "C02", "title": "Encoded size is exact", "statement": "Encode returns exactly EncodeSize() bytes and EncodeTo returns EncodeSize(); EncodeTo never indexes out of range when given a buffer of at least EncodeSize() bytes.", "quantifier": "every well-formed struct definition, every value, every buffer at least EncodeSize() long", "why_tests_cant": "Off-by-one errors in size depend on nesting, on array lengths and on string/bytes lengths; tests sample only some.", "anchors": ["generator/target/golang/golang.go:encoderTemplate", "generator/target/golang/golang.go:fieldEncoderTemplate"]}
{"id": "C03", "title": "Wire layout is bit-exact concatenation", "statement": "The bits written by EncodeTo are the concatenation, in declaration order and with no gaps, of the fields' own bits: field k starts at the sum of the sizes of the preceding fields, element i of an array at i times the element width after the array start, little-endian fields put value bit j at stream bit j.", "quantifier": "every well-formed struct, every value, every bit offset and width", "why_tests_cant": "Every combination of start bit (0..7), width (1..64) and byte boundary crossing must be right; tests pick a few.", "anchors": ["generator/target/golang/golang.go:generateEncodeImpl", "generator/target/golang/golang.go:generateEncodeNormalField", "definition/struct.go:ForEachField"]}
{"id": "C04", "title": "Big-endian byte order", "statement": "A field with option order=\"big\" puts its most significant byte first: wire byte k of a w-bit field holds value bits starting at max(0, w-8(k+1)); the mapping from wire bits to value bits is a bijection for every width, so no value bit is lost or duplicated.", "quantifier": "every width, every value", "why_tests_cant": "Widths that are not a multiple of eight have a partial last byte; exhausting width x value by tests is infeasible.", "anchors": ["generator/target/golang/golang.go:bbWriteFieldBits", "generator/target/golang/golang.go:generateEncodeNormalFieldImpl"]}
{"id": "C05", "title": "EncodeTo only touches its own bits", "statement": "EncodeTo changes only bits that belong to normal or constant fields: void (padding) bits and bytes after the encoded size keep their previous contents, and the bits it does write do not depend on the previous contents. Encode therefore leaves void bits zero.", "quantifier": "every struct, value and initial buffer contents", "why_tests_cant": "Tests use zeroed buffers; dirty-buffer interactions of read-modify-write masks need a universally quantified buffer.", "anchors": ["generator/target/golang/golang.go:generateEncodeImpl", "generator/target/golang/golang.go:bbWriteFieldBits"]}
{"id": "C06", "title": "Loop unrolling threshold does not change the wire", "statement": "For every value the bytes produced do not depend on the -unroll option (unrolled statements and bit-helper loops write the same bits), and decoding a produced message does not depend on it either.", "quantifier": "every struct, value and pair of thresholds (including -1 = always unroll and 0 = always loop)", "why_tests_cant": "Two different code generators (chunked masks vs. bit loop) must agree on all offsets, widths and orders.", "anchors": ["generator/target/golang/golang.go:generateEncodeNormalField", "generator/target/golang/golang.go:generateDecodeNormalField", "generator/target/golang/golang.go:bbWriteFieldBits", "generator/target/golang/golang.go:bbReadFieldBits"]}
{"id": "C07", "title": "Trailing data is ignored", "statement": "Decode and DecodeSize applied to an encoded message followed by arbitrary further bytes give the same value and the same size as without them, so messages can be read off a stream.", "quantifier": "every struct, value and suffix", "why_tests_cant": "Suffix contents are unbounded; an over-read shows only for special suffixes.", "anchors": ["generator/target/golang/golang.go:decoderTemplate"]}
{"id": "C08", "title": "Truncated input is refused", "statement": "Decode of a strict prefix of an encoded message returns -1 and never panics (types without a directly nested variable-length struct; with one the generated DecodeSize skips it and the claim is false).", "quantifier": "every struct without directly nested dynamic struct, every value, every cut point", "why_tests_cant": "Needs every cut point of every message of every schema.", "anchors": ["generator/target/golang/golang.go:decoderSizeField", "generator/target/golang/golang.go:decoderSize", "generator/target/golang/golang.go:decodeNormalFieldString", "generator/target/golang/golang.go:decodeNormalFieldBytes"]}
{"id": "C09", "title": "Decode is memory safe on arbitrary input", "statement": "Decode on an arbitrary byte slice never indexes out of range; it returns -1 or a byte count not larger than the input (for structs without a directly nested dynamic struct field, and for inputs on which the length arithmetic does not overflow 63 bits; both restrictions are necessary, counterexamples are proved).", "quantifier": "every struct without directly nested dynamic struct, every byte string", "why_tests_cant": "Adversarial inputs (unterminated strings, huge length prefixes) are unbounded.", "anchors": ["generator/target/golang/golang.go:decoderTemplate", "generator/target/golang/golang.go:fieldDecoderTemplate"]}
{"id": "C10", "title": "DecodeSize agrees with Decode", "statement": "DecodeSize on an encoded message returns its exact size; whenever Decode succeeds on any input it returns exactly what DecodeSize returns.", "quantifier": "every struct without directly nested dynamic struct, every input", "why_tests_cant": "Two separately generated scanners must agree on all inputs.", "anchors": ["generator/target/golang/golang.go:decoderSize", "generator/target/golang/golang.go:decoderFunc"]}
{"id": "C11", "title": "DecodeSize reports missing bytes soundly", "statement": "If DecodeSize returns a negative number -k because the input is too short then k is greater than the input length, and no extension of the input to fewer than k bytes is accepted; malformed length prefixes also return a negative number and no extension of them is ever accepted (as long as the length arithmetic does not overflow 63 bits).", "quantifier": "every struct without directly nested dynamic struct, every input and every extension of it", "why_tests_cant": "Quantifies over all extensions of all inputs.", "anchors": ["generator/target/golang/golang.go:decoderSizeField"]}
{"id": "C12", "title": "Sign extension", "statement": "A signed integer declared with fewer bits than its type decodes to the two's-complement value of these bits, and the shift and arith sign-extension methods give the same result.", "quantifier": "every type width, every narrower field width, every bit pattern", "why_tests_cant": "Both formulas must agree for all widths and all patterns.", "anchors": ["generator/target/golang/golang.go:signExtendShift", "generator/target/golang/golang.go:signExtendArith", "generator/target/golang/golang.go:decodeIntValueExpr"]}
{"id": "C13", "title": "Length prefix of bytes fields", "statement": "A bytes field is prefixed by the base-128 little-endian varint of its length, using the number of bytes EncodeSize counts; reading the prefix back gives the length for every representable length; prefixes that do not fit 63 bits are refused.", "quantifier": "every length below 2^63, every byte sequence", "why_tests_cant": "Lengths near 2^7k boundaries up to 2^63 cannot be materialised in tests.", "anchors": ["generator/target/golang/golang.go:encodeNormalFieldBytes", "generator/target/golang/golang.go:decodeNormalFieldBytes", "generator/target/golang/golang.go:decoderSizeField"]}
{"id": "C14", "title": "Strings are NUL terminated", "statement": "A string field occupies its bytes plus one zero byte; it round-trips exactly when it contains no zero byte (a string with a zero byte is cut at it).", "quantifier": "every byte string", "why_tests_cant": "All contents including embedded NUL.", "anchors": ["generator/target/golang/golang.go:encodeNormalFieldString", "generator/target/golang/golang.go:decodeNormalFieldString"]}
{"id": "C15", "title": "Constant fields are checked", "statement": "A constant field always encodes its literal and Decode returns -1 whenever the bits at its place differ from the literal; a value that fits the declared width (and, for big endian, fills its type) decodes from its own encoding. A constant that does not fit makes every message undecodable.", "quantifier": "every constant, width, order, surrounding buffer", "why_tests_cant": "All corrupted inputs must be refused.", "anchors": ["generator/target/golang/golang.go:generateEncodeConstantField", "generator/target/golang/golang.go:generateDecodeConstantField"]}
{"id": "C16", "title": "Decoded values are in range and re-encodable", "statement": "Whatever bytes Decode accepts, the resulting value is in the declared range of each field (unsigned below 2^w, signed within two's-complement range, strings without NUL), so encoding it again and decoding gives the same value.", "quantifier": "every struct, every accepted input", "why_tests_cant": "Ranges over all accepted inputs, including non-canonical ones.", "anchors": ["generator/target/golang/golang.go:generateDecodeNormalFieldImpl"]}
{"id": "C17", "title": "C and C++ targets exchange messages with Go", "statement": "On a zeroed buffer X_encode of the C target stores exactly the bytes of Go's Encode and returns their number, provided every scalar, constant and scalar array element starts a byte, lies within one byte, or has in its last byte at most as many bits as lie before it in its first byte; for every other position there are values that the C statements (and the run-time helper) encode differently (they lose bits). X_decode of the C target gives back the value for every Go-encoded message shorter than 2^31 bytes, whatever the positions; on any other data whose size DecodeSize accepts it does what Go's Decode does (same value, or refusal of the same inputs). The C++ target emits the same statements inside member functions.", "quantifier": "every struct definition accepted by the compiler, every legal value, every start bit, width and byte order, every combination of generator options on the two sides", "why_tests_cant": "All offset/width combinations, all values, two code generators.", "anchors": ["generator/target/c/c.go:generateEncodeImpl", "generator/target/c/c.go:generateDecodeImpl", "generator/target/c/c.go:bb_write_field_bits", "generator/target/c/c.go:bb_read_field_bits", "generator/target/cpp/cpp.go:generateEncodeImpl", "generator/target/cpp/cpp.go:generateDecodeImpl", "generator/target/golang/golang.go:generateEncodeImpl"]}
{"id": "C18", "title": "Size annotations mean bytes*8+bits", "statement": "A size annotation [n], [#m] or [n#m] denotes 8n+m bits (for totals below 2^63); a zero size is refused; the size printed in diagnostics reads back to the same number of bits.", "quantifier": "every byte count and bit count", "why_tests_cant": "Unbounded numbers; overflow boundary.", "anchors": ["compiler/proto_visitor.go:VisitSize_", "util/size.go:ToSizeString"]}
{"id": "C19", "title": "Accepted structs have a sound layout", "statement": "If a struct definition is accepted then its fields are laid out one after the other without overlap, its recorded size is the sum of the fixed field sizes and a multiple of eight bits, and it is marked dynamic exactly when some field type is dynamic.", "quantifier": "every struct body", "why_tests_cant": "Every combination of fields.", "anchors": ["compiler/proto_visitor.go:VisitStructDef", "definition/struct.go:SumFieldBitSize", "definition/struct.go:ForEachField"]}
{"id": "C20", "title": "Byte alignment of string, bytes and struct fields", "statement": "In an accepted struct every string, bytes or struct field (or array of those) starts at a fixed offset that is a multiple of eight bits; a definition where one does not is refused.", "quantifier": "every struct body", "why_tests_cant": "Every combination of fields.", "anchors": ["compiler/proto_visitor.go:VisitStructDef"]}
{"id": "C21", "title": "Declared struct size is enforced", "statement": "If a struct declares a size then it is accepted only if it has no dynamic field and the declared size equals the sum of its field sizes.", "quantifier": "every struct body and declared size", "why_tests_cant": "All combinations of sizes.", "anchors": ["compiler/proto_visitor.go:VisitStructDef"]}
{"id": "C22", "title": "Field size rules", "statement": "An accepted normal field is never wider than its type, a sized array divides evenly into its elements, a directly nested struct keeps its exact size (a dynamic one may only repeat the size of its fixed part), and an unsized field gets the size of its type; strings, bytes and arrays of variable-length elements cannot be given a size.", "quantifier": "every field declaration", "why_tests_cant": "All type/size combinations.", "anchors": ["compiler/proto_visitor.go:VisitFieldNormal"]}
{"id": "C23", "title": "Field and method names are unique", "statement": "In an accepted struct no two named fields (including those coming from embedded structs) and no field and accessor name coincide.", "quantifier": "every struct body, including nested embedding", "why_tests_cant": "Histories of insertions of any length.", "anchors": ["compiler/proto_visitor.go:VisitStructBody"]}
{"id": "C24", "title": "Embedding is inlining", "statement": "A struct embedding another is accepted exactly if the struct obtained by writing the embedded fields in place is accepted and does not use the embedded struct's name for something else; the two then have the same size, the same layout and the same encoding.", "quantifier": "every struct, every embedding position and depth", "why_tests_cant": "All structures and values.", "anchors": ["compiler/proto_visitor.go:VisitStructBody", "definition/field.go:EmbeddedField.GetFieldBitSize"]}
{"id": "C25", "title": "Enum numbering", "statement": "Enum values without an explicit number take the previous value plus one (zero for the first); explicit numbers other than -1 are kept; value names are unique in the enum.", "quantifier": "every enum body", "why_tests_cant": "Lists of any length; the -1 sentinel corner.", "anchors": ["compiler/proto_visitor.go:VisitEnumBody"]}
{"id": "C26", "title": "Types are declared before use", "statement": "Every type a definition refers to was declared earlier (or imported), so type definitions are never recursive and every accepted type has a finite layout.", "quantifier": "every sequence of definitions", "why_tests_cant": "All definition sequences.", "anchors": ["compiler/proto_visitor.go:VisitType_", "definition/compilation_unit.go"]}
{"id": "C27", "title": "Constant literals match their field type", "statement": "A constant field is accepted only if its literal has the kind of the field type (bool, integer, float); a negative literal needs a signed type; an identifier must name an enum value.", "quantifier": "every type and literal", "why_tests_cant": "Decision table must be right in each of its cells.", "anchors": ["compiler/proto_visitor.go:VisitFieldConstant"]}
{"id": "C28", "title": "Option validation", "statement": "Known options with a wrong kind or value and duplicated options are errors, unknown options only warn, well-typed known options are accepted.", "quantifier": "every option list", "why_tests_cant": "Lists of any length and any names.", "anchors": ["compiler/option_validator.go", "compiler/info_visitor.go"]}
{"id": "C29", "title": "Import cycles are always reported and compilation terminates", "statement": "Compilation of any finite set of files terminates; if the import graph reachable from the entry file has a cycle the compilation fails, naming self import when the file imports itself directly and the imports before that one are correct.", "quantifier": "every finite import graph", "why_tests_cant": "All graph shapes.", "anchors": ["compiler/compilation_runtime.go:compile", "compiler/compilation_runtime.go:precheckFilePath"]}
{"id": "C30", "title": "Units come out in dependency order, each once", "statement": "A successful compilation returns each file reachable from the entry exactly once, every file after all files it imports, the entry last.", "quantifier": "every finite acyclic import graph", "why_tests_cant": "All graph shapes (diamonds, deep chains).", "anchors": ["compiler/compilation_runtime.go:compile", "compiler/compiler.go:Compile"]}
{"id": "C31", "title": "Errors are never swallowed", "statement": "If any file reachable from the entry fails to open, parse, or check then compilation of the entry reports an error (the empty file name as the entry, which yields neither a unit nor an error, excepted: counterexample proved).", "quantifier": "every import graph and every set of failing files", "why_tests_cant": "Needs all positions of the failing file in all graphs.", "anchors": ["compiler/compilation_runtime.go:compile", "definition/error.go:TopLevelErrorsJoin"]}
{"id": "C32", "title": "Package names are unique", "statement": "In a successful compilation no two units have the same package name.", "quantifier": "every import graph and package assignment", "why_tests_cant": "All assignments.", "anchors": ["compiler/compilation_runtime.go:precheckPackageName"]}
{"id": "C33", "title": "Global name tables merge without silent clashes", "statement": "Adding a name or type that is already bound to a different definition is an error, re-adding the same definition is harmless, and after importing a unit all of its names resolve to its definitions.", "quantifier": "every sequence of additions and imports", "why_tests_cant": "Histories of any length.", "anchors": ["definition/compilation_unit.go:AddLocalType", "definition/compilation_unit.go:AddImport"]}
{"id": "C34", "title": "Ordered map behaves like an insertion-ordered dictionary", "statement": "Any sequence of Put, MustPut, Get, Has, Rank, Remove, Clear and Sub with non-empty keys (anonymous entries allowed) behaves like a list of key/value pairs with unique keys in insertion order.", "quantifier": "every operation sequence", "why_tests_cant": "Index/entry desynchronisation appears only in particular histories.", "anchors": ["util/ordered_map.go"]}
{"id": "C35", "title": "Name style conversions", "statement": "The snake, camel, Pascal and ALLCAP conversions keep the letters and digits of an identifier (up to case) and its leading and trailing underscores; the words of the result are the words of the identifier (split at underscores and at case changes) in the case of the style; the compiler's name checks accept exactly the names in the style; the name recommended in a style warning does not itself trigger the warning.", "quantifier": "every identifier", "why_tests_cant": "Unbounded strings, many state combinations.", "anchors": ["util/name_style.go", "compiler/proto_visitor.go"]}
{"id": "C36", "title": "Relative package paths resolve", "statement": "The relative path between two packages used for imports, resolved from the directory of the first package, leads to the second package's file.", "quantifier": "every pair of packages", "why_tests_cant": "All pairs of paths of any depth.", "anchors": ["definition/package.go:Difference", "definition/package.go:ToRelativePath"]}
{"id": "C37", "title": "Generated file normalisation", "statement": "Generated text is normalised: no tabs or trailing blanks, at most two blank lines in a row, exactly one final newline, and normalising again changes nothing (for text without carriage returns); line contents are otherwise unchanged.", "quantifier": "every text", "why_tests_cant": "Unbounded strings; idempotence matters because it is applied repeatedly.", "anchors": ["generator/gen/gen_ctx.go:normalizeGeneratedIndent"]}
{"id": "C38", "title": "Prefix removal of output paths", "statement": "With -rmpath the first listed prefix that matches is removed together with one separator, otherwise the path is unchanged; output stays below the output directory.", "quantifier": "every prefix list and path", "why_tests_cant": "Unbounded strings.", "anchors": ["generator/gen/gen_ctx.go:WriteFile", "generator/gen/gen_option.go:RemovePath"]}
{"id": "C39", "title": "Error joining loses and reorders nothing", "statement": "Joining error values is nil exactly when all are nil, keeps every individual error once and in order, and is associative.", "quantifier": "every list of errors, nested joins", "why_tests_cant": "Arbitrary nesting.", "anchors": ["definition/error.go:TopLevelErrorsJoin", "definition/warning.go:TopLevelWarningsJoin"]}
{"id": "C40", "title": "Target lookup", "statement": "Every listed target name or alias resolves to its generator, any other non-empty name is an error, the empty name is a distinct error.", "quantifier": "every string", "why_tests_cant": "All strings.", "anchors": ["generator/generator.go:GetGenerator"]}
{"id": "C41", "title": "Generator options are validated", "statement": "An -unroll value below -1 and an unknown sign-extension method are refused; accepted options are exactly what the generators later use; a loop is used exactly when the threshold is non-negative and the array is longer.", "quantifier": "every option value and array length", "why_tests_cant": "All integers/strings.", "anchors": ["generator/gen/gen_option.go", "generator/target/golang/golang.go:generateEncodeNormalField"]}
{"id": "C42", "title": "Integer literals survive formatting", "statement": "Formatting a non-negative integer literal in base 2, 8, 10 or 16 and reading it back gives the same number; the minimal type chosen for a literal can represent it.", "quantifier": "every 64-bit integer", "why_tests_cant": "2^64 values.", "anchors": ["generator/gen/gen_dispatcher.go:FormatIntLiteral", "definition/literal.go:GetMinimalTypeID"]}
{"id": "C43", "title": "Template arithmetic", "statement": "The template calculator evaluates every expression of ?:, the binary and unary operators and parentheses according to the usual precedences, with int64 arithmetic on integers of any Go type and a panic on division by zero; operators of equal precedence group to the right (so a-b-c is a-(b-c), counterexample to the usual reading proved) and == compares Go types too; arguments after a complete expression are ignored.", "quantifier": "every expression", "why_tests_cant": "All token sequences.", "anchors": ["util/calc.go"]}
{"id": "C44", "title": "Power-of-two rounding of widths", "statement": "The width rounding used to choose a machine type for an enum or constant returns the least power of two not below its argument.", "quantifier": "every positive argument up to 2^62", "why_tests_cant": "All arguments.", "anchors": ["util/bitwise.go:HighBit"]}
{"id": "C45", "title": "What the compiler accepts the codec can carry", "statement": "Every struct of a project that compiles without errors and uses only features the Go target supports (non-negative fitting integer constants, enums of at most 64 bits, no narrowed arrays of structs, no overflowing sizes) yields a codec with exactly the fields, types, widths, byte orders and constants of the definition and the size and dynamic flag the compiler computed; a scalar field behind fixed fields is found in the message at the sum of their sizes, and messages survive a round trip.", "quantifier": "every set of files that compiles, every struct in it, every message", "why_tests_cant": "Joins all programs accepted by the compiler with all values of their messages.", "anchors": ["compiler/proto_visitor.go:VisitStructBody", "compiler/compilation_runtime.go:compile", "generator/target/golang/golang.go:generateStruct"]}
{"id": "C46", "title": "Python agrees with Go", "statement": "Code generated for Python encodes every legal value to the bytes the Go code gives (same size, same effect on a caller's buffer, negative numbers modulo 2^n). If every field lies where the Python decode statements are right (it starts a byte, has at most 8 bits, or is little endian and ends within the next byte; exactly these positions, counterexample proved) and signed constants are below half their range, Python decodes every input Go decodes to the same value and count, raises an exception exactly when a string is not UTF-8 or an enum number is not a member, and refuses what Go refuses; a fitting Python value survives a Python round trip and is read by Go.", "quantifier": "every definition without a direct dynamic struct field, every value, every input, all -unroll settings of both sides", "why_tests_cant": "The two generators are separate texts; all layouts, values and inputs would have to be enumerated, in two languages.", "anchors": ["generator/target/python/python.go:generateEncodeNormalField", "generator/target/python/python.go:generateDecodeNormalField", "generator/target/python/python.go:generateDecodeImpl", "generator/target/golang/golang.go:generateDecodeImpl"]}
{"id": "C47", "title": "Method expressions keep their structure", "statement": "The expression of a custom get or set method, as written by the Go, C, C++, C#, Java, JavaScript (CommonJS), Python and Kotlin targets, is read by that language (its tokens and operator precedences) as the expression the user wrote: the same operators on the same operands, the same literals, conversions to the same types (in Kotlin, conversions to the small integer types go through Int or UInt, and a conversion to bool is the comparison with 0), and in no other way. Excluded, with counterexamples: a minus sign directly before a negative literal (all but Python), in Python and JavaScript a negative literal as base of a power (a wrong tree, respectively a syntax error), in Python a word operator directly before a word. The Go target refuses an expression exactly if the branches of a conditional lack an explicit common type.", "quantifier": "every expression of the grammar, every method type, every field name", "why_tests_cant": "Expressions nest without bound, and each of 19 binary and 4 unary operators, casts and conditionals meets every other in every position in eight languages.", "anchors": ["generator/target/golang/golang.go:GenerateExpr", "generator/target/java/java.go:GenerateExpr", "generator/target/commonjs/commonjs.go:GenerateExpr", "generator/target/c/c.go:GenerateExpr", "generator/target/cpp/cpp.go", "generator/target/csharp/csharp.go", "generator/target/python/python.go:GenerateExpr", "generator/target/kotlin/kotlin.go:generateExpr", "compiler/proto_visitor.go:ExprVisitor"]}
{"id": "C48", "title": "Custom methods of a field", "statement": "A field with custom methods is accepted exactly if it is accepted without them, its type is a basic type, every method has an uncapitalised name and an expression without invalid literals, and no name has two getters, two setters or methods of different types; the accepted field then has exactly the methods written.", "quantifier": "every field definition, every list of methods, every state of the compilation unit", "why_tests_cant": "All combinations of methods.", "anchors": ["compiler/proto_visitor.go:VisitFieldMethods", "compiler/proto_visitor.go:VisitFieldMethod", "compiler/proto_visitor.go:VisitMethodName"]}
{"id": "C49", "title": "Kotlin agrees with Go", "statement": "Code generated for Kotlin has the same encodeSize, writes the same bytes (at any start index, the rest of the array untouched) and returns the same count as Go code for every value of every definition without a fixed-size field behind a directly nested dynamic struct (counterexample proved). On every input the two decoders never accept different messages: if both accept, Kotlin returns Go's value (an enum number without a member as null, a string decoded as UTF-8) and count. Kotlin accepts every input Go accepts whose length prefixes are as short as an encoder writes them, and whatever it accepts is the message of some value, the one Go decodes if the prefixes are that short; for definitions without bytes fields the two accept the same inputs and Kotlin never throws. A fitting Kotlin value survives a Kotlin round trip at any position of an array and is read by Go, and Kotlin reads every value Go encodes.", "quantifier": "every definition (for decoding: without a direct dynamic struct field), every value, every input shorter than 2^28 or 2^30 bytes, every start index, all options of both sides", "why_tests_cant": "The two generators are separate texts; all layouts, values and inputs would have to be enumerated, in two languages with different integer widths.", "anchors": ["generator/target/kotlin/kotlin_encode.go:generateEncoder", "generator/target/kotlin/kotlin_decode.go:generateDecoder", "generator/target/kotlin/kotlin.go:bitHelpers", "definition/struct.go:ForEachField", "generator/target/golang/golang.go:generateDecodeImpl"]}
{"id": "C50", "title": "JavaScript agrees with Go", "statement": "Code generated for JavaScript (CommonJS and ES modules) has the same encode_size, writes the same bytes (at any start index of a buffer zeroed from there on, what stands before untouched) and returns the same count as Go code, for every object with legal attributes. decode and decode_size return Go's value and count on every input that Go accepts with length prefixes as short as an encoder writes them, provided the values are ones JavaScript can read: no uint32 field of 32 bits from 2^31 on, no int64 field of exactly 32 bits, enums of at most 32 bits (unrolled) or 53 bits (looped), integer constants of a type and size that `!==` compares correctly, strings that are UTF-8 (each exception has a proved counterexample). A fitting object survives a round trip at any position of an array and is read by Go, and JavaScript reads every fitting value Go encodes. For definitions without strings, JavaScript accepts nothing that Go refuses: everything decode accepts, Go accepts with the same count, decode_size gives it, and the value is Go's if it is one JavaScript can read.", "quantifier": "every definition (for decoding: without a direct dynamic struct field), every object or value, every input and buffer shorter than 2^28 bytes, every start index, every -unroll, all options of Go", "why_tests_cant": "The generators are separate texts, with Number and BigInt arithmetic in place of fixed-width integers; all layouts, values and inputs would have to be enumerated.", "anchors": ["generator/target/esm/esm_encode.go:generateEncodeNormalField", "generator/target/esm/esm_decode.go:generateDecodeNormalField", "generator/target/commonjs/commonjs.go:generateEncodeNormalField", "generator/target/commonjs/commonjs.go:generateDecodeNormalField", "generator/target/golang/golang.go:generateDecodeImpl"]}
{"id": "C51", "title": "JavaScript strings are UTF-8", "statement": "For every text, the JavaScript string functions compute the length of its UTF-8 form, write exactly that form at the given position and nothing else, and read it back (up to a NUL) as the same text; different texts have different forms.", "quantifier": "every sequence of Unicode scalar values (for reading: without NUL), every buffer with enough room, every position", "why_tests_cant": "All texts, code points of all lengths and all positions.", "anchors": ["generator/target/esm/esm.go:stringToUTF8Bytes", "generator/target/commonjs/commonjs.go:stringFromUTF8Bytes"]}
{"id": "C52", "title": "C and C++ size functions", "statement": "encode_size of the C and C++ targets gives for every legal value the number of bytes Go's Encode returns, and a zeroed buffer of that size is enough for encode. decode_size gives Go's result on every input if the definition has no bytes field, and then a result that is not negative guarantees that decode stays within the data and does what Go's Decode does, with that count. With bytes fields it gives Go's result on every input that can be completed to data Go accepts: the size of a complete message whatever follows it, and on every proper prefix of a message a negative number whose magnitude is more than what is there and at most what is to come. (Length prefixes near 2^63 and 2^64 make it return a positive number, accept a message whose decoding is undefined, or shift by 64 or more: counterexamples proved.)", "quantifier": "every struct definition accepted by the compiler, every legal value, every input shorter than 2^62 bytes, every cut of every message", "why_tests_cant": "All inputs and all cut points; the arithmetic on lengths differs between the targets.", "anchors": ["generator/target/c/c.go:decoderSizeField", "generator/target/c/c.go:decoderSize", "generator/target/cpp/cpp.go:decoderSizeField", "generator/target/golang/golang.go:decoderSizeField"]}
{"id": "C53", "title": "Java agrees with Go", "statement": "Code generated for Java has the same encodeSize, writes the same bytes (at any start index of an array zeroed from there on, what stands before untouched) and returns the same count as Go code, for every object whose arrays have the declared length and whose enum attributes are not null. On every input that Go's Decode accepts, decode returns the same value and count and decodeSize the count. A fitting object survives a round trip at any position of an array and is read by Go, and Java reads every fitting value Go encodes. Whatever decode accepts lies within the array, decodeSize gives the same count, and for definitions without bytes fields Go accepts it too, with the same value. Excluded, with proved counterexamples: looped arrays of elements of fixed width other than at position 0 (they ignore the start index), length prefixes beyond 2^31 (Java accepts or throws where Go refuses), single floats narrow enough for a smaller variable whose top bit is set; and constants and enums for which the generated code does not compile.", "quantifier": "every definition (for decoding: without a direct dynamic struct field), every object or value, every input and buffer shorter than 2^30 bytes, every start index, every -unroll and -signext, all options of Go", "why_tests_cant": "The generators are separate texts, with signed 32-bit arithmetic and no unsigned types; all layouts, values, positions and inputs would have to be enumerated.", "anchors": ["generator/target/java/java.go:generateEncodeNormalField", "generator/target/java/java.go:generateDecodeNormalField", "generator/target/java/java.go:generateDecodeImpl", "generator/target/java/java.go:bitHelpers", "generator/target/golang/golang.go:generateDecodeImpl"]}
{"id": "C54", "title": "C# agrees with Go", "statement": "Code generated for C#, with and without -memcpy, has the same EncodeSize, writes the same bytes (at any start index of an array zeroed from there on, what stands before untouched) and returns the same count as Go code, for every object whose arrays have the declared length. On every input that Go's Decode accepts, Decode returns the same value and count and DecodeSize the count. A fitting object survives a round trip at any position of an array and is read by Go, and C# reads every fitting value Go encodes. Whatever Decode accepts lies within the array, DecodeSize gives the same count, and for definitions without bytes fields Go accepts it too, with the same value. Excluded, with proved counterexamples: length prefixes beyond 2^31, single floats narrow enough for a smaller variable (Decode throws), enums of more than 32 bits (the upper bits are lost); without -memcpy truncated data may throw instead of being refused; and signed or narrow constants, for which the generated code does not compile.", "quantifier": "every definition (for decoding: without a direct dynamic struct field), every object or value, every input and buffer shorter than 2^30 bytes, every start index, every -unroll, -signext and -memcpy, all options of Go", "why_tests_cant": "The generators are separate texts with different integer types; all layouts, values, positions and inputs would have to be enumerated, in two forms of the generated code.", "anchors": ["generator/target/csharp/csharp.go:generateEncodeNormalField", "generator/target/csharp/csharp.go:generateDecodeNormalField", "generator/target/csharp/csharp.go:generateDecodeImpl", "generator/target/csharp/csharp.go:bitHelpers", "generator/target/golang/golang.go:generateDecodeImpl"]}
{"id": "C55", "title": "Generated types: each once, in its file, after what it uses", "statement": "A successful run of a generator over an accepted project writes every type once; there is one output for every source file of the project, in the order of compilation, except for files that declare nothing and say omit_empty; the output of a file contains exactly the types the file declares, those declared inside other definitions included, and a struct is written after every struct and enum its fields name. The ES module and Kotlin generators write exactly the top-level definitions of each file, in the order of the file (a struct declared inside another one is used but missing: counterexample proved). If the text of every type can be produced, generation succeeds exactly if no two outputs have the same package.", "quantifier": "every set of source files the compiler accepts, every import graph, every nesting of definitions and of types, every target", "why_tests_cant": "All import graphs and nestings of definitions; the tables of what is already generated are shared by all types of a run.", "anchors": ["generator/gen/gen_dispatcher.go:AcceptGenCtx", "generator/gen/gen_dispatcher.go:AcceptType", "generator/target/golang/golang.go:GenerateUnit", "generator/target/golang/golang.go:GenerateStruct", "generator/target/golang/golang.go:GenerateEnum", "generator/target/c/c.go:GenerateUnit", "generator/target/esm/esm.go:GenerateUnit", "generator/target/kotlin/kotlin.go:GenerateUnit"]}
{"id": "C56", "title": "Generated code can see the types it uses", "statement": "Every struct or enum a field names is declared in the file of the struct or in a file it imports, directly or not. C, C++, Python and CommonJS outputs, which hand on what they import, therefore see every type they use, in outputs that exist, if no file is left out by omit_empty. Java and C# outputs do if every file imports everything it depends on (in general they do not: counterexample proved). The Go generator never fails to find the output of a type, imports only outputs of files below the file, and imports the output of every type named by a field and declared elsewhere (also some that are not used, which Go refuses: counterexample proved).", "quantifier": "every set of source files the compiler accepts, every import graph, every struct and every field of it, every target", "why_tests_cant": "All import graphs; whether a name is in scope depends on the whole graph.", "anchors": ["definition/struct.go:SetBelongs", "definition/compilation_unit.go:AddLocalType", "generator/target/golang/golang.go:resolveImports", "generator/target/c/c.go:GenerateUnit", "generator/target/python/python.go:GenerateUnit", "generator/target/java/java.go:GenerateUnit", "generator/target/csharp/csharp.go:GenerateUnit"]}
{"id": "C57", "title": "Every output goes to its own file", "statement": "In a run over an accepted project no output file overwrites another: the paths written are pairwise different, for every target and output path, without -rmpath or with an -rmpath directory that lies above all files. Each file is at its place below the output path: package a.b.c gives a/b/c with the endings of the target, in Go a/b/c/c.bb.go, in Java and Kotlin one file per type in a/b/c, where go_package, java_package and kotlin_package replace the package, and a directory given by -rmpath is left out; nothing else is written. The ESM and Kotlin targets write the types declared at top level, the others every declared type. With -single the one file is the output path itself. (With an -rmpath that is not above all files, and with a go_package with empty parts, one output overwrites another: counterexamples proved.)", "quantifier": "every set of source files the compiler accepts, every import graph, every target, every output path, every value of the package options", "why_tests_cant": "All sets of packages, types and options; a collision depends on the whole project.", "anchors": ["generator/gen/gen_ctx.go:WriteFile", "generator/gen/gen_ctx.go:WritePackage", "definition/package.go:ToFilePath", "generator/target/golang/golang.go:GenerateUnit", "generator/target/c/c.go:GenerateUnit", "generator/target/java/java.go:GenerateUnit", "generator/target/kotlin/kotlin.go:GenerateUnit"]}
{"id": "C58", "title": "References between outputs lead to the written files", "statement": "The include and import statements of an output are exactly those for the files its source imports. In C, C++, Python, CommonJS and ES modules each leads - from every file of the output, with and without -relpath, and with a directory removed by -rmpath that is above all files - to the file written for the imported source (in C and C++ its header), and C and C++ files find their own header. In Java and Kotlin the package statement names the directory the file is written to, and in Java, Kotlin and C# the import statements name exactly the packages (namespaces) that the outputs of the imported files declare; Kotlin leaves out its own package and the empty one. Without -relpath every import path of a Go output is the directory another output is written to, and its last part the name of that output's package. C++ refers to a struct by its name in the namespace that was declared for it, if cpp_namespace is not set. Excluded, with proofs: Go with -relpath (no import path leads to the other package), cpp_namespace, ES modules that import two packages with the same last part.", "quantifier": "every set of source files the compiler accepts, every import graph, every target, every output path, every value of the package options, -relpath or not, every -rmpath above the files", "why_tests_cant": "All pairs of packages, depths and options: a relative path depends on both packages, and what it leads to on where both files were written.", "anchors": ["definition/package.go:ToRelativePathStrict", "definition/package.go:ToPyRelativePath", "definition/package.go:ToFilePath", "generator/target/golang/golang.go:resolveImports", "generator/target/c/c.go:GenerateUnit", "generator/target/cpp/cpp.go:GenerateUnit", "generator/target/python/python.go:GenerateUnit", "generator/target/commonjs/commonjs.go:GenerateUnit", "generator/target/esm/esm.go:GenerateUnit", "generator/target/java/java.go:GenerateUnit", "generator/target/csharp/csharp.go:GenerateUnit", "generator/target/kotlin/kotlin.go:GenerateUnit"]}
{"id": "C59", "title": "Messages can be read off a stream cut in any way", "statement": "Values of one struct type are encoded and their messages written one after the other. A program that appends what arrives to a buffer and, while the buffer is not empty and DecodeSize of it is positive, calls Decode and removes the bytes it reports, has at any time returned exactly the values whose messages have arrived completely, in order, and holds exactly the bytes after them - however the stream is cut into pieces, down to single bytes; at the end it has returned all values and holds nothing. A message cut off anywhere is refused by Decode of every target without an exception, and DecodeSize then asks (except in Python, where it is only negative) for more bytes than there are but no more than the message has. No message is the beginning of another one, and a stream has only one reading. This holds for Go, C, C++, Python, Kotlin, JavaScript, Java and C# (with -memcpy), for values the target can hold. (C# without -memcpy throws on some truncated messages: counterexample proved under C54.)", "quantifier": "every accepted struct definition without directly nested dynamic structs, every list of legal values with non-empty messages, every way to cut the stream into pieces, every target", "why_tests_cant": "All histories of arrivals: the state of the reader depends on every earlier piece, and there are exponentially many ways to cut a stream.", "anchors": ["generator/target/golang/golang.go:GenerateDecoder", "generator/target/c/c.go:GenerateDecoder", "generator/target/python/python.go:GenerateDecoder", "generator/target/kotlin/kotlin_decode.go", "generator/target/esm/esm_decode.go", "generator/target/java/java.go", "generator/target/csharp/csharp.go"]}
{"id": "C60", "title": "Sources are read as tokens", "statement": "A source text made of keywords, symbols, literals and identifiers with blanks and comments between them is read as exactly these tokens if no token touches a character that could belong to it. In general a text has given tokens exactly if it is a sequence of these tokens, blanks and comments in which every token is the longest one that begins at its place. Each token carries the line and column at which it stands, different tokens different ones. A text that cannot be read contains a string that is not closed properly or a character that begins no token.", "quantifier": "every text, every sequence of valid tokens, every placement of blanks, line and block comments", "why_tests_cant": "All texts; longest match depends on everything that follows.", "anchors": ["bubbler.g4:SYNTAX to end of lexer rules", "parser/bubbler_lexer.go", "compiler/compilation_runtime.go:getProtoAST", "compiler/error_listener.go:SyntaxError"]}
{"id": "C61", "title": "Sources are read as the trees of the grammar, in one way", "statement": "A text is accepted by the parser and read as a given tree exactly if its tokens are those of the tree, written by the rules of the grammar, and the expressions in it are grouped by the precedences. No two trees have the same tokens. In a chain of two binary operators the one that binds more tightly takes the middle operand, operators of equal precedence group to the left (also ** and ?:), a prefix operator reaches over ** only, and a sign before a number is part of the number.", "quantifier": "every text, every tree, every nesting of definitions and expressions", "why_tests_cant": "All texts and all trees; the grammar of expressions is ambiguous as written, so its meaning lies in how the generated parser resolves it.", "anchors": ["bubbler.g4:proto", "parser/bubbler_parser.go:expr", "compiler/compilation_runtime.go:getProtoAST"]}
{"id": "C62", "title": "Literals mean what they say", "statement": "A string constant in single or double quotes has the bytes its text means (characters their UTF-8 form, escapes a, b, f, n, r, t, v, backslash, double quote, xHH and octal up to 377 one byte) and is refused if the text means nothing (an escaped apostrophe, XHH, larger octals); every sequence of bytes can be written. The file named by an import statement is what the text in double quotes means (in single quotes names of two or more characters are refused). An integer has its decimal, octal (after 0) or hexadecimal (after 0x) value with its sign if that is below 2^63 and is refused otherwise. A float is accepted exactly if it does not round to infinity.", "quantifier": "every string, integer and float token", "why_tests_cant": "All texts of literals, all values around the limits.", "anchors": ["compiler/literal_visitor.go:VisitStrLit", "compiler/import_visitor.go:VisitImportStatement", "compiler/literal_visitor.go:VisitIntLit", "compiler/literal_visitor.go:VisitFloatLit", "compiler/literal_visitor.go:VisitConstant"]}
{"id": "C63", "title": "Layout and comments do not matter", "statement": "If two directories have, under every path, files with the same tokens (or both no file, or both an unreadable one), compiling any file gives the same units, types, names, options, warnings and errors in both, up to the lines and columns of definitions, which are exchanged for others, different ones for different ones. In particular blanks and comments between tokens may be changed freely.", "quantifier": "every pair of directories, every import graph, every file compiled, every change of blanks and comments", "why_tests_cant": "All pairs of texts; positions decide whether a definition met again is the same one or a duplicate, so a dependence on layout would show only in whole projects.", "anchors": ["compiler/compilation_runtime.go:Compile", "compiler/proto_visitor.go:VisitProto", "definition/compilation_unit.go:AddLocalType", "definition/compilation_unit.go:AddImport", "definition/position.go"]}
{"id": "C64", "title": "From source texts to output files", "statement": "For every directory of source texts that compiles and every target: no type is written twice; a text has an output unless it defines nothing and says omit_empty; the output of a text has exactly the types the text defines (ESM, Kotlin: at the top); all files of a run have different names (Go: if go_package options have no empty parts); in C, C++, Python, CommonJS and ESM each output refers to the files of the outputs of the texts it imports and to nothing else. If blanks and comments are changed in any of the texts, the directory compiles exactly as before and every target writes the same types to the same files, with the same references between them.", "quantifier": "every directory of texts, every import graph, every target, with and without -relpath, every output directory, every change of blanks and comments", "why_tests_cant": "All texts and all projects; the conclusions rest on what the lexer guarantees of every text (words without slashes and dots, different definitions at different places).", "anchors": ["compiler/compilation_runtime.go:Compile", "generator/gen/gen_dispatcher.go:AcceptGenCtx", "generator/gen/gen_ctx.go:WritePackage", "generator/gen/gen_ctx.go:WriteFile", "compiler/proto_visitor.go:VisitProto"]}
{"id": "C65", "title": "Imports name files by the directory of the importing file", "statement": "In a file with an absolute path, an import that is not absolute means the file at which one arrives by walking from the directory of the importing file along the parts of the import (.. goes up, . and doubled slashes do nothing); an absolute import is taken as it is. The file to compile is looked for from the working directory. If a project compiles, the compiler has compiled exactly the files that are needed by these rules, no two of its units are at the same place, and all their paths are absolute; the working directory does not matter for imports. (Known exception, proved: an absolute import spelled in two ways, /b and //b, makes a project be refused, though it compiles with one spelling.)", "quantifier": "every working directory, every disk, every name of an import or of the file to compile, every import graph", "why_tests_cant": "All names with any mixture of .., ., slashes and directories, all import graphs.", "anchors": ["fileio/path.go:GetAbsolutelyPathWithBasePath", "fileio/path.go:GetAbsolutelyPath", "compiler/import_visitor.go:VisitImportStatement", "compiler/compilation_runtime.go:Compile", "compiler/compilation_runtime.go:precheckFilePath"]}
{"id": "C66", "title": "Outputs do not depend on where a project lies", "statement": "If a directory with all the files a project needs is moved or copied elsewhere, and the imports are relative and do not lead out of it, the project compiles at the new place if it compiles at the old one, whatever the working directories: the units come in the same order with the same packages, options and types, at the places moved, and every target writes the same types to the same files with the same references between them. In particular running the same command in the moved directory gives the same files.", "quantifier": "every directory and place it is moved to, every disk, every import graph, every target, with and without -relpath", "why_tests_cant": "All places and all projects; paths decide whether a definition met again is the same one, and they are the keys of the tables of units, so a dependence on them would show only in whole projects at particular places.", "anchors": ["compiler/compilation_runtime.go:Compile", "definition/compilation_unit.go:AddImport", "definition/position.go", "fileio/path.go:GetAbsolutelyPathWithBasePath", "generator/gen/gen_dispatcher.go:AcceptGenCtx", "generator/target/golang/golang.go:resolveImports"]}
{"id": "C67", "title": "Definitions mean what the source text says", "statement": "In every project that compiles, each file has the package name and the options its text has, and its definitions are exactly the one list of definitions its text stands for, in order: a struct has the fields written in it, in order (an embedded struct followed by its fields), each with the type, the size (as annotated in bytes and bits, or the width of its type), the constant, the options and the properties (methods of one name, in order) written; its size is the sum; it is dynamic if a field is; array lengths, sizes and enum numbers have the values of their literals; enum values without a number have the next number (so does a written -1, a known finding); a name of a type or of an enum value stands for the one definition of this name that the text sees, in itself or in a text it imports directly or not. The structs meant are those about which the layout of messages is proved.", "quantifier": "every directory of texts, every import graph, every text in a project that compiles", "why_tests_cant": "All texts at once: definitions are looked up in tables filled while files are compiled, in an order that depends on the whole import graph.", "anchors": ["compiler/proto_visitor.go:VisitStructDef", "compiler/proto_visitor.go:VisitFieldNormal", "compiler/proto_visitor.go:VisitFieldConstant", "compiler/proto_visitor.go:VisitType_", "compiler/proto_visitor.go:VisitEnumDef", "compiler/info_visitor.go", "compiler/compilation_runtime.go:Compile", "definition/compilation_unit.go:AddImport"]}
{"id": "C68", "title": "equals and hashCode of generated classes", "statement": "In Java, C# and Kotlin, equals of a generated class is an equivalence relation, false for null and other classes. Equal objects have the same content, except for the sign of zero of single floats and the payload of NaNs in arrays (in C# also the sign of zero there). Objects with the same content are equal unless a single float is a NaN; in C# this holds for definitions without bytes only, since byte arrays are compared by identity (counterexample). Equal objects have the same hash code, in Java and Kotlin unless a single float is a negative zero (counterexample). An object read back from the bytes of another equals it, and without floats two objects are equal exactly if their encodings are.", "quantifier": "every definition, every pair and triple of objects, however nested and shared, every choice of hash functions for the leaves", "why_tests_cant": "Equality is defined by recursion over nested structs and arrays of any depth, and transitivity and the hash contract are statements about all pairs and triples of objects, including aliased ones.", "anchors": ["generator/target/java/java.go:structDef template", "generator/target/csharp/csharp.go:structDef template", "generator/target/kotlin/kotlin.go:generateEqualsHash"]}
{"id": "C69", "title": "New objects encode like Go's zero value in every language", "statement": "An object just created in Java, C#, Kotlin, Python or JavaScript stands for the zero value of the Go type, and encoding it gives the bytes Go gives for the zero value, which Go reads back as the zero value; exceptions are definitions with enums (null: in Java and Kotlin encoding then throws; C# is no exception), with -memcpy arrays of bytes in Java and C#, and in JavaScript arrays of anything but structs.", "quantifier": "all accepted definitions of any nesting and array lengths, all options", "why_tests_cant": "A test creates objects of a few definitions; which initial value an attribute gets depends on its type, array length, nesting and options.", "anchors": ["generator/target/java/java.go:GenerateArrayDefaultValue", "generator/target/csharp/csharp.go:GenerateArrayDefaultValue", "generator/target/kotlin/kotlin.go:GenerateArrayDefaultValue", "generator/target/python/python.go:GenerateArrayDefaultValue", "generator/target/esm/esm.go:GenerateArrayDefaultValue", "generator/target/commonjs/commonjs.go:GenerateArrayDefaultValue"]}
{"id": "C70", "title": "Method expressions mean in the generated code what the source text says", "statement": "The text of a method expression in a source file is read in one way only, and it is accepted exactly if all constants in it have a value. The text the Go, C, C++, C#, Java, CommonJS and Python targets write for it is read by these languages, in one way only, as the written expression: the same operators applied to the same operands with bubbler's precedences, casts to the same types, integers with their values, and each float constant as the decimal with six digits nearest to the float64 nearest to it (ties to even in both steps). So a float constant changes by at most half a millionth plus one part in 2^53, and not at all if it has at most six decimals and is below 2^32 or a float64. Go refuses exactly the conditionals whose branches have no common explicit type. Excluded: strings, inf, nan, hexadecimal constants with a minus sign, and the constructs C47 shows to be broken.", "quantifier": "every expression text, with any layout, nesting and constants; every method type; setters and getters", "why_tests_cant": "All texts and all decimal constants: rounding errors and precedence mistakes show only at particular constants and nestings.", "anchors": ["compiler/proto_visitor.go:ExprVisitor", "compiler/literal_visitor.go:VisitConstant", "compiler/literal_visitor.go:VisitFloatLit", "generator/target/golang/golang.go:GenerateExpr", "generator/target/golang/golang.go:GenerateFloatLiteral", "generator/target/c/c.go:GenerateFloatLiteral", "generator/target/java/java.go:GenerateFloatLiteral", "generator/target/python/python.go:GenerateFloatLiteral"]}
{"id": "C71", "title": "Error messages are true and the first one is exact", "statement": "Every error of a run, at any depth of nested imports, is true of the file it is reported for: the file is missing, unreadable or not in the grammar, has no package statement or two, shares its package with another file of the run, has a fault in its own text, or imports a file of which the nested errors are true; a reported cycle is one, or the file was tried before and has a true error of its own. The first message, followed to its innermost first message, is exact: a cycle is a cycle, a reported name is defined in two of the imported files. If the head of a file is right, each of its imports that is missing, unreadable or unparsable is reported, not only the first. A text outside the grammar is a syntax error, and only such a text is.", "quantifier": "every file system or directory of texts, every import graph, every entry file", "why_tests_cant": "Errors are found while walking an import graph with a stack and tables that earlier failures have left changed; which message comes out depends on the whole graph and the order of imports.", "anchors": ["compiler/compilation_runtime.go:Compile", "compiler/compilation_runtime.go:precheckFilePath", "compiler/compilation_runtime.go:precheckPackageName", "compiler/info_visitor.go", "compiler/proto_visitor.go:VisitProto", "definition/compilation_unit.go:AddImport", "definition/error.go"]}
{"id": "C72", "title": "Indenting generated code changes only the indentation", "statement": "Indenting a text by n keeps its lines: each gets exactly n blanks in front, an empty line may stay empty, the first line is left alone by the variant that skips it, and blanks at the end of the last line are cut. So the lines that are not blank keep their text and their indentation relative to each other - what Python's blocks rest on -, indenting twice indents by the sum, and in a written file these lines appear with n blanks in front. Taking back two levels before indenting the statements of an array element removes exactly eight blanks of every line but the first. A loop over iterate a b in a template runs over a to b-1 in order, and slicing a string option gives the text between its quotes, also if it is empty. Blanks may stay in every second of several empty lines in a row (proved).", "quantifier": "every text, every number of blanks, every range of 64-bit numbers, every option text", "why_tests_cant": "All texts: the indentation is made by successive replacements whose occurrences can overlap, so mistakes show only with certain sequences of line feeds and blanks.", "anchors": ["util/indent.go:IndentSpace", "util/indent.go:IndentSpaceNoFirst", "util/indent.go:IndentTab", "util/template.go:templateIterate", "util/template.go:templateSlice", "generator/target/python/python.go:generateEncodeNormalField"]}
{"id": "C73", "title": "Dynamic() and Size() of generated types tell the truth about messages", "statement": "The constants every generated type has are exact: Dynamic() is false exactly if all messages of the type have the same length. Then this length is Size(), for every value that is encoded and every input that is decoded. If Dynamic() is true, every message is longer than Size(), and there are messages longer than any number of bytes. Decode refuses every input shorter than Size(), and the zero value has the shortest message.", "quantifier": "every project the compiler accepts, every struct in it the Go target supports, every value and input, all options", "why_tests_cant": "All definitions: size and flag are computed by the compiler from nested types, embedded structs and arrays before any code is generated, and what they promise is about all messages.", "anchors": ["generator/target/golang/golang.go:structConst template", "generator/target/c/c.go:structConst template", "generator/target/java/java.go:structConst template", "generator/target/python/python.go:structConst template", "generator/target/kotlin/kotlin.go:generateStruct", "definition/struct.go:SumFieldBitSize", "compiler/proto_visitor.go:VisitStructDef"]}
{"id": "C74", "title": "Warnings are exact", "statement": "In every run, accepted or not, each warning is true: it stands under a chain of files of which each imports the next, and the file it is about deserves it - an option bubbler does not know, or a name of a struct, enum, enum value, field or method that is not in the recommended style, with the recommended form. In an accepted run every file of the project gets exactly the warnings it deserves, each once and in reading order however many files import it, and nothing is said about other files; options come first, then one block per import that has something to report, in the order of the import statements, then the definitions. So the run is silent exactly if no file deserves a warning, and a name changed as advised is not warned about.", "quantifier": "every file system, every import graph, every entry file, every definition of any nesting", "why_tests_cant": "Warnings are collected by visitors that stop early at errors, and joined along an import graph with tables of finished files; a missing or repeated one shows only for certain graphs and definitions.", "anchors": ["compiler/compilation_runtime.go:compile", "compiler/info_visitor.go:VisitProto", "compiler/proto_visitor.go:VisitStructName", "compiler/proto_visitor.go:VisitFieldName", "compiler/proto_visitor.go:VisitMethodName", "compiler/proto_visitor.go:VisitEnumName", "compiler/proto_visitor.go:VisitEnumValueName", "compiler/proto_visitor.go:VisitFieldOptions", "compiler/option_validator.go:ValidateOption", "definition/warning.go:TopLevelWarningsJoin"]}
{"id": "C75", "title": "A project is accepted exactly if it obeys the rules of the language", "statement": "There is a list of rules, stated on definitions alone: which names, sizes, values, options, methods, array lengths and references are allowed where, how values of enums are numbered, that fields are aligned and structs take whole bytes and as many as declared, that names are introduced once in the whole project, that files import no cycles and share no package. The compiler accepts a project exactly if all files reached from the entry obey them - it lets no violation through and refuses nothing else -, and the definitions it hands to the generators are, file by file and in order, the ones the rules assign; there is only one such assignment.", "quantifier": "every finite file system or directory of texts, every import graph, every entry file, every definition of any nesting", "why_tests_cant": "Both directions range over all projects: a missing check shows only for the inputs it lets through, a check too many only for those it refuses, and checks are spread over visitors that share tables of names.", "anchors": ["compiler/compilation_runtime.go:compile", "compiler/info_visitor.go:VisitProto", "compiler/proto_visitor.go:VisitProto", "compiler/proto_visitor.go:VisitStructDef", "compiler/proto_visitor.go:VisitStructBody", "compiler/proto_visitor.go:VisitFieldNormal", "compiler/proto_visitor.go:VisitFieldEmbedded", "compiler/proto_visitor.go:VisitFieldConstant", "compiler/proto_visitor.go:VisitEnumDef", "compiler/proto_visitor.go:VisitEnumBody", "compiler/proto_visitor.go:VisitFieldMethods", "compiler/option_validator.go", "definition/compilation_unit.go:AddLocalType", "definition/compilation_unit.go:AddImport"]}
{"id": "C76", "title": "Programs in all target languages exchange messages", "statement": "Whichever of the target languages a program is generated for, the bytes it writes for an object are the message of the value the object stands for, one and the same sequence for all languages and options. Programs in every language, with any options, that read these bytes from a buffer in which other bytes follow, get their own object standing for the same value and the number of bytes of the message. Two values never have the same message, whoever wrote it.", "quantifier": "every struct definition the compiler accepts, every pair of target languages and options, every value, every following bytes", "why_tests_cant": "All pairs of nine targets, all definitions and all values: a test can only exchange samples between some of them.", "anchors": ["generator/target/golang/golang.go", "generator/target/c/c.go", "generator/target/cpp/cpp.go", "generator/target/csharp/csharp.go", "generator/target/java/java.go", "generator/target/kotlin/kotlin.go", "generator/target/python/python.go", "generator/target/esm/esm.go", "generator/target/commonjs/commonjs.go"]}
{"id": "C77", "title": "Definitions can grow without breaking programs in use", "statement": "If fields are added at the end of a struct, its messages begin with the message of the old struct; a program with the old definition, in any language, reads whatever a program with the new one writes or accepts, with the same values for the fields it knows and the length of its own part; a program with the new definition refuses an old message and says that more bytes are needed. If reserved bits (void) are replaced by fields of the same number of bits, old programs read new messages, and new programs read old messages with zero in the new fields. Both for structs of two compiled projects.", "quantifier": "every accepted definition and every extension of it, all values and inputs, all languages and options", "why_tests_cant": "All pairs of definitions and all inputs; whether positions of old fields stay the same depends on alignment, embedded structs, arrays and variable-length fields before them.", "anchors": ["generator/target/golang/golang.go:GenerateEncoder", "generator/target/golang/golang.go:GenerateDecoder", "compiler/proto_visitor.go:VisitStructBody", "compiler/proto_visitor.go:VisitFieldVoid", "definition/struct.go"]}
{"id": "C78", "title": "Names do not matter on the wire", "statement": "Two structs, of one project or of two, whose fields agree in order, type, size, byte order and constants have the same messages, whatever the names of the structs, fields, constants, types and enum values, whatever methods, enum values and other options they have, and whether fields are written out or embedded: programs of one project read exactly what programs of the other write, in all languages, and Size() and Dynamic() are the same.", "quantifier": "every pair of structs of accepted projects that differ only in such things, all values, languages and options", "why_tests_cant": "All pairs of definitions: that no name or method takes part in the layout is a statement about all of them.", "anchors": ["compiler/proto_visitor.go:VisitStructDef", "compiler/proto_visitor.go:VisitFieldEmbedded", "compiler/proto_visitor.go:VisitEnumDef", "generator/target/golang/golang.go:GenerateEncoder", "generator/target/golang/golang.go:GenerateDecoder"]}
{"id": "C79", "title": "Members of a generated type have different names", "statement": "If the names of a struct's fields, methods and constants - those of embedded structs among them - differ in more than case and underscores, begin with neither get nor set, are not in a list of 13 reserved names, are not the struct's name and are not the name of an array with item, length or at behind it, then in every target language, with and without raw accessors, no two attributes, properties, accessors, custom methods and built-in functions of the generated type have the same name, and none has an empty name. Every condition is needed: the compiler accepts structs that violate it and whose generated types declare a name twice. Nothing is left out: every field and named constant has an attribute, every custom getter and setter a property or function with its name (getters only in Kotlin; in Go and C not those of embedded structs: counterexample proved).", "quantifier": "every accepted struct, every target language, with and without -minimal", "why_tests_cant": "Names are converted between styles and combined with prefixes and suffixes; a clash needs two particular names, and the compiler checks only the names as written.", "anchors": ["util/name_style.go", "compiler/proto_visitor.go:VisitStructBody", "generator/target/golang/golang.go:GenerateRawGetter", "generator/target/golang/golang.go:GenerateCustomGetter", "generator/target/c/c.go:GenerateRawGetter", "generator/target/cpp/cpp.go:GenerateRawGetter", "generator/target/csharp/csharp.go", "generator/target/java/java.go", "generator/target/kotlin/kotlin.go", "generator/target/python/python.go", "generator/target/esm/esm.go", "generator/target/commonjs/commonjs.go"]}
{"id": "C80", "title": "The definitions of a project declare different names", "statement": "In the output for a project the names declared outside of types - names of types, in Go and C also those of enum values, in C also the constants and functions of structs - are all different, over all files together: in every language but C without any condition; in C if the functions of each struct differ, no struct is called as another with an underscore and more behind it, and no enum value is called so unless it has no small letters, which holds for names in the recommended style. None of them is a macro of a header unless it begins with two underscores, and headers of packages that differ in more than dots, underscores and case have different guards. The conditions are needed: for C the compiler accepts projects that declare A_size or A_get_size twice, name an enum value as a guard, or have two packages with one guard.", "quantifier": "every accepted project of any number of files, every list of its definitions, every target language, with and without -minimal", "why_tests_cant": "A clash takes two definitions, perhaps in different files, and particular names; that there is none is a statement about all pairs.", "anchors": ["compiler/compilation_runtime.go:compile", "definition/compilation_unit.go:AddLocalName", "definition/package.go:ToPath", "generator/target/c/c.go:GenerateStruct", "generator/target/c/c.go:GenerateEnum", "generator/target/c/c.go:headerFile", "generator/target/golang/golang.go:GenerateEnum", "generator/target/cpp/cpp.go:GenerateEnum", "generator/target/java/java.go:GenerateEnum"]}
{"id": "C81", "title": "Decoders throw no exception on foreign data", "statement": "The generated decoders of JavaScript, Java, C#, Kotlin and Python never end in an exception, whatever the data and wherever in it they start: decode_size answers with a length that lies within the data or with a negative number, and decode returns. The definitions to which this applies: in JavaScript those without an int64 field written with 32 bits (decode_size) and, for decode, either without strings or without fields and constants of 64-bit types; in Java and Kotlin those without bytes; in C# those without bytes, float fields of fewer bits than their type and, without -memcpy, nested structs of variable size; in Python decode_size for all definitions, decode for those without strings and enums whose fields lie where Python reads the right bits. For the conditions on strings, bytes, int64, floats, nested structs and enums there are definitions and data for which the decoder throws.", "quantifier": "every accepted definition meeting the conditions, every data, every start position, every option of the targets", "why_tests_cant": "An exception needs malformed data of a particular length at a particular place; all data and all definitions cannot be tried.", "anchors": ["generator/target/esm/esm_decode.go", "generator/target/commonjs/commonjs.go:GenerateDecoder", "generator/target/java/java.go:GenerateDecoder", "generator/target/csharp/csharp.go:GenerateDecoder", "generator/target/kotlin/kotlin_decode.go", "generator/target/python/python.go:GenerateDecoder"]}
{"id": "C82", "title": "Names in generated code are no keywords", "statement": "If no name of a struct's fields, methods and constants (those of embedded structs among them) is a keyword of the target language up to case and underscores, no attribute, property, accessor, custom method or built-in function of the generated type is called by a keyword of that language, with and without raw accessors; in Go without any condition. Nothing declared outside of types - types, in Go and C also enum values, in C constants and functions - in the output for an accepted project is called by a keyword in any language but C and Python, since names of definitions must be capitalized; in C if no type and no enum value begins with an underscore, in Python if no type is called None, True or False. The conditions are needed: a field `for` is accepted and declared under this name in every language but Go and JavaScript, a struct `_Atomic` and an enum value `_Bool` in C, a struct `None` in Python.", "quantifier": "every accepted struct or definition, every target language, with and without -minimal", "why_tests_cant": "Names are converted between styles and combined with prefixes and suffixes; that none of the results is one of about fifty words is a statement about all names.", "anchors": ["util/name_style.go", "compiler/proto_visitor.go:VisitStructDef", "compiler/proto_visitor.go:VisitFieldNormal", "generator/target/golang/golang.go:GenerateStruct", "generator/target/c/c.go:GenerateStruct", "generator/target/cpp/cpp.go:GenerateStruct", "generator/target/csharp/csharp.go", "generator/target/java/java.go", "generator/target/kotlin/kotlin.go", "generator/target/python/python.go", "generator/target/esm/esm.go", "generator/target/commonjs/commonjs.go"]}
{"id": "C83", "title": "Names in generated code are identifiers", "statement": "Every name that generated code declares - attributes, properties, accessors with or without raw accessors, custom methods and built-in functions of a type, types, enum values, C's constants and functions - consists of letters, digits and underscores, and does not begin with a digit, in every target language, if the names in the source consist of letters, digits and underscores, which is all the lexer accepts as a name; unnamed constants, which have empty names in C#, Java and JavaScript, are left out.", "quantifier": "every accepted struct or definition, every target language, with and without -minimal", "why_tests_cant": "Conversions remove underscores and change case next to digits: that none of the results for any name begins with a digit or is empty is a statement about all names.", "anchors": ["util/name_style.go", "compiler/proto_visitor.go:VisitFieldName", "compiler/proto_visitor.go:VisitStructDef", "generator/target/golang/golang.go:GenerateStruct", "generator/target/c/c.go:GenerateStruct", "generator/target/cpp/cpp.go:GenerateStruct", "generator/target/csharp/csharp.go", "generator/target/java/java.go", "generator/target/kotlin/kotlin.go", "generator/target/python/python.go", "generator/target/esm/esm.go", "generator/target/commonjs/commonjs.go"]}
