{"id": "C01", "title": "Same-schema round trip", "statement": "Encoding a host object with the protocol planned from its own type and decoding the bytes back into the same host type (with a large enough decode buffer) yields an object equal to the original: same integers, same float bits, same enum/variant term and payload, same array elements, same vector length and elements.", "quantifier": "every acyclic host type built from ints, floats, unit, structs, variants, arrays and vectors (any nesting, any host layout without overlapping fields), every tag path, every value of the type, every message address and every decode buffer of sufficient size", "why_tests_cant": "types, values and nesting depth are unbounded; tests fix a handful of schemas", "anchors": ["pj/generate_ir.cpp: TranscodeOpLowering, getOrCreate*TranscodeFn", "pj/llvm_gen2.cpp: *OpLowering", "pj/plan.cpp: plan_protocol"]}
{"id": "C02", "title": "Encoded messages are position independent and self contained", "statement": "The bytes produced by encode at one address decode to the same value when they are copied to any other address; nothing outside the message's own bytes (head plus the reported size) is consulted.", "quantifier": "every wire type, every encoded value, every pair of base addresses", "why_tests_cant": "relocation to every address and absence of any out-of-message read cannot be sampled", "anchors": ["pj/llvm_gen2.cpp: StoreRefOpLowering, VectorIndexOpLowering", "pj/wire_layout.cpp: WireLayout::visit(VectorType)"]}
{"id": "C03", "title": "The size function is exact and encode stays inside it", "statement": "The non-rounded size function returns exactly the number of bytes encode uses: encode modifies no byte outside [buf, buf+size) and leaves its write cursor at buf+size.", "quantifier": "every host type / protocol pair accepted by the compiler without an outline-variant default, every value", "why_tests_cant": "a heap overflow by one byte only shows for particular shapes and values", "anchors": ["pj/generate_ir.cpp: SizeFunctionLowering, EncodeFunctionLowering", "pj/sizing.cpp: GenSizeFunctionsPass::convertRegion"]}
{"id": "C04", "title": "The rounded size function never under-reports", "statement": "The round_up size function returns at least the exact size for every value, so a buffer allocated with it never overflows; and it depends only on the parts of the value that have no maximum size.", "quantifier": "every host type / protocol pair, every value whose bounded vectors respect their maximum length", "why_tests_cant": "needs all values of all bounded vectors, including nested ones", "anchors": ["pj/sizing.cpp: convertRegion (round_up)", "pj/types.hpp: hasMaxSize"]}
{"id": "C05", "title": "Decode writes only into the destination and the supplied buffer", "statement": "Whatever bytes the message contains, decode writes no byte outside the destination object and the buffer [ptr, ptr+size) it was given.", "quantifier": "every wire type, every host type, every message content including hostile ones, every buffer size", "why_tests_cant": "hostile length words range over 2^64 values; the interesting ones need arithmetic wrap-around", "anchors": ["pj/llvm_gen2.cpp: AllocateOpLowering, VectorIndexOpLowering", "pj/generate_ir.cpp: transcodeInlineVector, transcodeOutlineVector"]}
{"id": "C06", "title": "Decode succeeds exactly when the buffer is large enough", "statement": "Decode succeeds if and only if the buffer has room for the out-of-line data (with alignment padding); on success the returned buffer starts at the first unused byte and its size is the number of bytes left; otherwise the returned size is -1.", "quantifier": "every well-formed message, every wire/host type pair, every buffer size", "why_tests_cant": "the threshold is value dependent; tests check one too-small buffer", "anchors": ["pj/llvm_gen2.cpp: AllocateOpLowering, DecodeCatchOpLowering, CallOpLowering", "pj/generate_ir.cpp: DecodeFunctionLowering"]}
{"id": "C07", "title": "A failed decode never invokes a callback", "statement": "If decode runs out of buffer (or otherwise throws) no handler is called, as documented for ThrowOp.", "quantifier": "every type pair, every handler set, every message, every buffer size", "why_tests_cant": "requires the failure to happen after the handler has been chosen, for every field order", "anchors": ["pj/ir.td: ThrowOp", "pj/llvm_gen2.cpp: DecodeCatchOpLowering, InvokeCallbackOpLowering, CallOpLowering"]}
{"id": "C08", "title": "Exactly the right handler is called, at most once", "statement": "After a successful decode at most one handler is invoked; it is the one registered for the path of the variant term the decoder stored in the destination object, and if no handler is registered for that term none is invoked. Whatever the message and the outcome, only a handler that was given can be invoked.", "quantifier": "every handler list, every destination type with the variant on the handlers' path, every message", "why_tests_cant": "handler sets and nested struct paths are unbounded", "anchors": ["pj/generate_ir.cpp: transcodeTerm, getOrCreateStructTranscodeFn", "pj/llvm_gen2.cpp: SetCallbackOpLowering, InvokeCallbackOpLowering", "pj/context.cpp: addDecodeFunction"]}
{"id": "C09", "title": "Struct evolution", "statement": "When sender and receiver structs differ, every receiver field that exists in the sender under the same name receives the converted sender value regardless of field order and offsets, every receiver field missing in the sender is set to its default, and sender-only fields have no effect.", "quantifier": "every pair of struct types, every value", "why_tests_cant": "pairs of schemas are unbounded", "anchors": ["pj/generate_ir.cpp: getOrCreateStructTranscodeFn", "README.md"]}
{"id": "C10", "title": "Variant evolution", "statement": "When the sender's term is known to the receiver by name the receiver sees that term whatever the numeric tags are; when it is unknown (or the stored tag is not a tag of the sender's schema) the receiver sees its own default term.", "quantifier": "every pair of variant types, every tag value", "why_tests_cant": "tag assignments and term sets are unbounded", "anchors": ["pj/generate_ir.cpp: getOrCreateVariantTranscodeFn, transcodeTerm"]}
{"id": "C11", "title": "Enum fast path agrees with the name based mapping", "statement": "Copying an enum through the tag table gives the receiver tag of the same-named term, or the receiver's default tag when the term (or the raw tag) is unknown.", "quantifier": "every pair of enum types that selects the fast path, every stored tag value", "why_tests_cant": "all tag values times all enum pairs; gaps and widths matter", "anchors": ["pj/llvm_gen2.cpp: CopyTagOpLowering", "pj/generate_ir.cpp: TranscodeOpLowering"]}
{"id": "C12", "title": "Integer conversion", "statement": "Transcoding an integer to a type at least as wide preserves its numeric value (two's complement for signed, plain for unsigned sources); transcoding to a narrower type keeps the value modulo 2^width, hence preserves it whenever it fits.", "quantifier": "all width pairs, all signs, all values", "why_tests_cant": "2^64 values per pair", "anchors": ["pj/llvm_gen2.cpp: TranscodePrimitiveOpLowering"]}
{"id": "C13", "title": "Array evolution", "statement": "Transcoding an array of length n to one of length m transfers the first min(n,m) elements in order and fills the remaining m-n with the element default.", "quantifier": "all lengths, all element types, all values", "why_tests_cant": "unbounded lengths and element types", "anchors": ["pj/generate_ir.cpp: getOrCreateArrayTranscodeFn"]}
{"id": "C14", "title": "Vector transfer is representation independent", "statement": "Transcoding a vector transfers the first min(length, receiver max) elements in order, stored length equal to that number, for every combination of inline, partially outlined and fully outlined representations on either side.", "quantifier": "all source/destination vector layouts, all lengths, all element values", "why_tests_cant": "the loops have six layouts with data-dependent split points", "anchors": ["pj/generate_ir.cpp: generateVectorCopyLoop, transcodeInlineVector, transcodeOutlineVector, getOrCreateVectorTranscodeFn"]}
{"id": "C15", "title": "Planned layouts never overlap", "statement": "In a planned protocol the fields of every struct are disjoint, inside the struct and packed without gaps; variant tag and payload are disjoint and inside the variant; array and vector elements do not overlap; every alignment is one byte.", "quantifier": "every input type and tag path", "why_tests_cant": "all schemas", "anchors": ["pj/wire_layout.cpp: WireLayout"]}
{"id": "C16", "title": "Planned vectors can hold what they promise", "statement": "A planned vector's length word can represent every allowed length, min_length elements fit in the inline payload, and in the outlined representation the reference and the partial payload fit in the head without overlapping each other or the length.", "quantifier": "every element type with non-zero size, every min and max length", "why_tests_cant": "parameter space is unbounded", "anchors": ["pj/wire_layout.cpp: WireLayout::visit(VectorType)"]}
{"id": "C17", "title": "Variant tag field is wide enough", "statement": "The tag width planned for a variant is enough to store the tag of every one of its terms.", "quantifier": "every set of 64-bit tags", "why_tests_cant": "2^64 tag values, boundary behaviour of floating point log2", "anchors": ["pj/types.hpp: compute_tag_width", "pj/util.hpp: RoundUpToPowerOfTwo"]}
{"id": "C18", "title": "Vector hoisting terminates and keeps the schema", "statement": "Planning terminates; in the hoisted variant no eligible vector is left, all tags are distinct, every original term keeps its name and tag, new terms carry the name of the term they were split from, and the default term keeps its name and tag.", "quantifier": "every variant with distinct tags and any number of vectors in its terms", "why_tests_cant": "number of terms grows exponentially in the number of vectors", "anchors": ["pj/vector_hoisting.cpp: hoistVectors, splitFirstEligibleVector, findVariantAndHoist", "pj/types.hpp: internVariant"]}
{"id": "C19", "title": "Split terms partition the values", "statement": "For every value of an original term exactly one of the terms split from it is selected by the encoder, and the value fits into that term's types.", "quantifier": "every variant term, every combination of vector lengths", "why_tests_cant": "all length combinations", "anchors": ["pj/vector_hoisting.cpp: hoistVectors", "pj/generate_ir.cpp: generateTermCondition, transcodeTerm"]}
{"id": "C20", "title": "Outlined payload sits right after the message head", "statement": "For a protocol planned with a tag path the payload of the selected variant starts at message offset headSize+buffer_offset for every term, and the encoder puts it there; only the variant named by the path is outlined.", "quantifier": "every struct nesting around the variant, every field order", "why_tests_cant": "all nestings and positions", "anchors": ["pj/variant_outlining.cpp: VariantOutlining, OutlineVariantOffsetGeneration", "pj/generate_ir.cpp: getOrCreateStructTranscodeFn, EncodeFunctionLowering"]}
{"id": "C21", "title": "Tag dispatch selects the block of the matching term", "statement": "Decoding a variant dispatches on the stored tag to the code of the term having exactly this tag, and to the default code for any other tag.", "quantifier": "every list of distinct 64-bit tags, every stored tag", "why_tests_cant": "the two sorts involved disagree only for tags with the top bit set", "anchors": ["pj/generate_ir.cpp: getOrCreateVariantTranscodeFn", "pj/llvm_gen2.cpp: MatchOpLowering"]}
{"id": "C22", "title": "Binary compatibility is sound and reflexive", "statement": "Every wire type is binary compatible with itself, and two binary compatible protocols interpret every message identically.", "quantifier": "every pair of types, every message", "why_tests_cant": "all type pairs times all messages", "anchors": ["pj/types.cpp: isBinaryCompatible*", "pj/types.hpp: UnitTypeStorage::isBinaryCompatibleWith"]}
{"id": "C23", "title": "Path strings round-trip", "statement": "Parsing the printed form of a path gives the path back, and printing a parsed path gives the string back.", "quantifier": "every list of non-empty dot-free components; every string not ending in a dot", "why_tests_cant": "all strings", "anchors": ["pj/type_support.cpp: PathAttr::fromString, toString", "pj/type_support.hpp: PathAttr::print"]}
{"id": "C24", "title": "Variant interning is order independent", "statement": "The interned variant has the same terms whatever order they were declared in, sorted by name, and its default index designates the term originally designated.", "quantifier": "every list of terms with distinct names, every permutation, every default index", "why_tests_cant": "all permutations", "anchors": ["pj/types.hpp: internVariant"]}
{"id": "C25", "title": "Schema tag assignment", "statement": "The parser gives every term of a variant a distinct tag, honours explicit tags, terminates, and never gives a term other than the implicit undef the reserved tag 0.", "quantifier": "every list of term names with optional explicit tags and optional default", "why_tests_cant": "all mixtures of explicit and implicit tags", "anchors": ["pj/parse.cpp: handleVariant, handleVariantField, ExplicitTag"]}
{"id": "C26", "title": "Name resolution is innermost first", "statement": "A scoped name resolves to the definition in the innermost enclosing namespace that defines it, and fails exactly when no enclosing namespace defines it.", "quantifier": "every namespace stack, every definition table, every name", "why_tests_cant": "all tables and nestings", "anchors": ["pj/parse.cpp: ParseState::resolve"]}
{"id": "C27", "title": "Imports terminate and cycles are reported", "statement": "Parsing a set of files terminates; it reports a cycle exactly when the import graph reachable from the root contains a cycle, otherwise every reachable file is processed after its imports.", "quantifier": "every finite import graph", "why_tests_cant": "all graphs", "anchors": ["pj/parse.cpp: parseProtoFile, ImportDecl"]}
{"id": "C28", "title": "Protocol framing round trip", "statement": "encodeProto writes exactly getProtoSize bytes, its first word is that size, and decodeProto on these bytes recovers the payload of the newest version both sides know, or reports incompatibility exactly when there is none.", "quantifier": "every list of writer versions in increasing order, every list of reader versions, every payload", "why_tests_cant": "all version histories", "anchors": ["pj/context.cpp: getProtoSize, encodeProto, decodeProto", "pj/schema/versions.hpp"]}
{"id": "C29", "title": "Reflecting and unreflecting a protocol preserves it", "statement": "Decoding an encoded protocol yields a protocol with the same names, tags, attributes, lengths and layout numbers at every node, hence the same interpretation of every message.", "quantifier": "every wire type (with arbitrary sharing of sub-types)", "why_tests_cant": "all types, pool indices up to any size", "anchors": ["pj/reflect.cpp: reflect, unreflect"]}
{"id": "C30", "title": "The reflected type pool is well founded", "statement": "Every child reference in a reflected pool is a negative relative index that stays inside the pool, so unreflecting terminates, and every distinct type appears once.", "quantifier": "every wire type", "why_tests_cant": "all types", "anchors": ["pj/reflect.cpp: reflect (struct, terms, array, vector)"]}
{"id": "C31", "title": "Decoding into Any loses nothing", "statement": "Decoding a message into Any and reading it with the reflection classes gives the same kinds, names, tags, numbers, lengths and elements as the value that was encoded.", "quantifier": "every wire type without Any, every value", "why_tests_cant": "all types and values", "anchors": ["pj/generate_ir.cpp: getOrCreateReflectFn", "pj/reflect.cpp: reflectableTypeFor", "pj/include/pj/any.hpp"]}
{"id": "C32", "title": "Self-relative spans survive copying", "statement": "Copying or assigning an offset_span (to any address) keeps it pointing at the same elements with the same size.", "quantifier": "all source and destination addresses, all chains of copies", "why_tests_cant": "all address pairs and copy histories", "anchors": ["pj/include/pj/offset_span.hpp"]}
{"id": "C33", "title": "Self-describing record files", "statement": "Reading a file written as protocol followed by length-prefixed messages returns exactly the written protocol and messages in order; a file cut inside the protocol block or inside a record is reported as invalid after the complete records before the cut, and the decode retry loop only writes into memory it owns.", "quantifier": "every protocol block, every message list, every truncation point", "why_tests_cant": "all truncation points and message lists", "anchors": ["pj/pjcat.cpp: main", "README.md"]}
{"id": "C34", "title": "Effect analysis is exact", "statement": "The set of functions that receive the failure/callback slots is exactly the set of functions from which a failing allocation, throw or callback operation is reachable through calls.", "quantifier": "every call graph", "why_tests_cant": "all call graphs incl. recursive ones", "anchors": ["pj/side_effect_analysis.cpp: SideEffectAnalysis::SideEffectAnalysis"]}
{"id": "C35", "title": "Copy coalescing preserves memory", "statement": "Merging reordered copies into wider copies leaves destination memory equal to that of the original sequence, except for bytes the original program left undefined.", "quantifier": "every sequence of copies and poisons in a block, every memory", "why_tests_cant": "all copy sequences", "anchors": ["pj/copy_coalescing.cpp: CopySet, Copy"]}
{"id": "C36", "title": "Source identifiers are strictly ordered", "statement": "The ordering used to index definitions is a strict total order on qualified names (irreflexive, transitive, total), so two different names never collide.", "quantifier": "all qualified names", "why_tests_cant": "all names", "anchors": ["pj/protogen.hpp: SourceIdLess", "pj/type_support.hpp: operator<(Name, Name)"]}
{"id": "C37", "title": "Defaulting never consumes buffer", "statement": "Filling a missing field with its default consumes no buffer space and writes only the field's own bytes.", "quantifier": "every destination type", "why_tests_cant": "all types", "anchors": ["pj/generate_ir.cpp: DefaultOpLowering", "pj/llvm_gen2.cpp: DefaultOpLowering"]}
{"id": "C38", "title": "Validation accepts exactly well-formed declarations", "statement": "A struct or variant declaration is rejected exactly when two fields/terms share a name or two terms share a tag; an int exactly when its width is not 8, 16, 32 or 64; a vector exactly when its minimum exceeds its maximum.", "quantifier": "every declaration", "why_tests_cant": "all declarations", "anchors": ["pj/validate.cpp"]}
{"id": "C39", "title": "Results do not depend on previous memory contents", "statement": "The value read from the decoded object (or encoded message) is independent of what destination object and buffer contained before the call and of padding bytes of the source.", "quantifier": "every type pair, every value, every pair of prior memories", "why_tests_cant": "all prior memories", "anchors": ["pj/generate_ir.cpp: PoisonOp uses", "pj/llvm_gen2.cpp: PoisonOpLowering"]}
{"id": "C40", "title": "Encoding with a known term equals generic encoding", "statement": "Encoding through a tag path that names the term the object actually holds produces the same message as the generic encoder for that object.", "quantifier": "every type, path and value", "why_tests_cant": "all types, paths and values", "anchors": ["pj/generate_ir.cpp: getOrCreateVariantTranscodeFn (path branch)"]}
{"id": "C41", "title": "Decoded out-of-line data is aligned", "statement": "Every out-of-line vector payload written by decode starts at an address that is a multiple of the element alignment, padding is less than the alignment, and the padding is accounted for in the bounds check.", "quantifier": "every start address, every element alignment 1, 2, 4, 8", "why_tests_cant": "2^64 addresses", "anchors": ["pj/llvm_gen2.cpp: AlignOpLowering"]}
{"id": "C42", "title": "Extending copies over poison preserves the function", "statement": "After CopyExtending the function does the same steps with the same results: a copy is made longer only where the additional bytes are still poison, so that every byte and value that is defined in the original execution is the same in the extended one.", "quantifier": "every control flow graph, every execution (also endless ones), every answer of sound alias, dominance and range analyses", "why_tests_cant": "all control flow graphs and all executions; a wrong byte shows only on particular ways through the function", "anchors": ["pj/copy_extending.cpp: PoisonRegion::findFrontier, CopyExtending::runOnFunction"]}
{"id": "C43", "title": "Schema evolution works from end to end", "statement": "An object encoded with the protocol planned from the sender's schema, and decoded from a copy of the message into the receiver's type of another version of the schema, arrives as the sender's value converted field by field and term by term: same name keeps the value, missing fields get their default, unknown terms become the default term, integers are converted by width and sign. The same holds for a sender that encodes with the protocol planned from another version of the schema: the message holds the sender's value converted to that version.", "quantifier": "every pair (or triple) of schemas, every tag path, every object, every place of the message, every receiving memory", "why_tests_cant": "all pairs of schemas and all values; planning may split terms and outline variants between the two", "anchors": ["pj/plan.cpp: plan_protocol", "pj/generate_ir.cpp: GeneratePass::getOrCreate*TranscodeFn"]}
{"id": "C44", "title": "A newer program hands an older program's data back unchanged", "statement": "If a newer schema has room for every value of the older one, then an object of the older program sent to the newer one, and sent back by it with its own protocol, has the value it had.", "quantifier": "every pair of schemas, every tag path of each, every object, every place of the messages", "why_tests_cant": "all pairs of schemas and all values", "anchors": ["pj/plan.cpp: plan_protocol", "pj/generate_ir.cpp: GeneratePass::getOrCreate*TranscodeFn"]}
{"id": "C45", "title": "Generated host types are what they are described as", "statement": "For every schema type that the compiler accepts, the description which the generated C++ code hands to the runtime (sizes, offsets, strides, alignments, tags) agrees with the layout the C++ compiler gives to the generated class: it is a well formed host type, planning is defined for it, reading a C++ object as described gives the value of the object, and a C++ object that is encoded and decoded elsewhere keeps its value.", "quantifier": "every accepted schema type of any depth, every memory, every object, every tag path", "why_tests_cant": "all schemas; agreement of two separate computations of a layout, one by the code generator and one by the C++ compiler", "anchors": ["pj/sourcegen.cpp: SourceGenerator::addStructBuilder, addVariantBuilder, printTypeRef, printIntTypeRef", "pj/include/pj/array.hpp: BuildPJType", "pj/include/pj/float.hpp: BuildPJType", "pj/include/pj/integer.hpp: BuildPJType", "pj/include/pj/span.hpp: BuildPJType", "pj/runtime.cpp: PJCreateVectorType"]}
{"id": "C46", "title": "Generated wire protocols are the planned ones", "statement": "The C++ code that the compiler writes for a protocol (--gen-proto) compiles, and when it runs it builds the protocol that was planned: decoding with either gives the same result for every message, encoding with it keeps the value of the object, and the two are binary compatible.", "quantifier": "every host type, every tag path, every object, every message (also malformed ones), every receiver", "why_tests_cant": "all schemas; two separate constructions of the same type, one by the planner and one through generated source text", "anchors": ["pj/sourcegen.cpp: SourceGenerator::addWireProtocol, createTypeHandle, addStructBuilder, addVariantBuilder", "pj/runtime.cpp: PJCreateTerm, PJCreateVectorType, PJCreateInlineVariantType, PJCreateOutlineVariantType, PJCreateProtocolType"]}
{"id": "C47", "title": "Schema files mean the declarations they are written as", "statement": "The parser reads a file as a list of declarations exactly if the file consists of the tokens of these declarations in order, with white space and comments next to keywords and punctuation only, and names that read as builtin types are not used as types. No file has two readings, the layout does not matter, and every list of declarations with legal names can be written in some file.", "quantifier": "every file (any characters, any length, any nesting of spaces, any numbers), every list of declarations", "why_tests_cant": "all texts and all syntax trees; the grammar is a parsing expression grammar with ordered choice and no backtracking out of must, where an alternative can hide another for some input nobody tried", "anchors": ["pj/parse.cpp: ParseFile, TopDecl and the grammar rules (lines 200-953)", "PEGTL: seq, sor, star, opt, must, not_at, until, pad"]}
{"id": "C48", "title": "Accepted schema files define what the compiler can handle", "statement": "For every set of files that the parser accepts: a name stands for one type; every type has the form that code generation and planning are correct for; every specification has a defined head and a tag path that leads to a variant; portals refer to specifications, types and terms that exist, without handling a term twice; all lookups that the driver makes afterwards succeed; the generated header declares types before it uses them; and the protocol of a specification can be planned, outlines exactly the variant at the tag path, and carries C++ objects without loss. Parsing ends, and its outcome is defined.", "quantifier": "every file system (any number of files, any import graph, any texts), with or without --gen-proto; every object of every specification", "why_tests_cant": "all schemas and import graphs; names are resolved relative to nested spaces and across files, with state shared by all files", "anchors": ["pj/parse.cpp: ParseState, the actions and parseProtoFile (lines 100-246, 392-987)", "pj/protogen.hpp: ParsingScope, ParsedProtoFile, Portal (lines 34-103)", "pj/pjc.cpp: main (lines 66-130)"]}
{"id": "C49", "title": "Functions shared within a module do what their callers need", "statement": "When a module with any encoders, decoders and size functions is generated, every conversion between two types is put into a function that is shared by all uses with the same types, path, handlers and kind of buffer. The generation ends in every order of lowering; no two functions of the module have the same name, whatever their types print as, and every function is called; and running an encoder, decoder or size function of the finished module, with calls by name, gives the result that code with everything inlined gives, for all memories and buffers.", "quantifier": "every list of encoders, decoders and size functions (all types without Any, paths, handlers), every order in which operations are lowered, every choice of suffixes, every printing of types, every memory", "why_tests_cant": "a wrong cache key or a name clash needs two uses of the same types that differ in path, handlers, buffer or hidden details; all modules and orders of lowering", "anchors": ["pj/generate_ir.cpp: FnKey, GeneratePass::getOrCreateFn (lines 17-192)", "pj/generate_ir.cpp: TranscodeOpLowering, DefaultOpLowering (lines 1068-1192)", "pj/sizing.cpp: findOrCreateConvertedFn, convertRegion (lines 39-101)"]}
{"id": "C50", "title": "Generated classes do what the portal declares", "statement": "For every set of files that the parser accepts and every portal of a file: if the class that is generated for the portal compiles and an object of it has been constructed, then each method of the object is the size function, encoder or decoder that the declaration describes: between the C++ type and the protocol of the specification (or the one the object was given), with the declared path, rounding and handlers in their order. The method of a decoder takes as many handlers as are declared, and only these are called. The same holds of precompiled portals, whose schema is the one their code uses. Every accepted portal has such a class, it compiles, and objects can be constructed.", "quantifier": "every file system and file, every portal and precompiled portal, every protocol given to a constructor, every order of lowering and printing of types, every object, message, buffer and memory", "why_tests_cant": "all schemas; names, paths and handlers go through text twice, and functions are found by names that can clash", "anchors": ["pj/sourcegen.cpp: addProtocol, addPortal, addPrecompilation (lines 233-241, 701-1085)", "pj/pjc.cpp: main (lines 115-130)", "pj/context.cpp: addEncodeFunction, addDecodeFunction, addSizeFunction, compile (lines 261-305, 341-573)", "pj/include/pj/runtime.hpp: Context, Portal"]}
{"id": "C51", "title": "What one generated class sends, another one receives", "statement": "For every two sets of files that the parser accepts, with a portal in each, objects of the generated classes (or precompiled ones), the sender's protocol planned from its specification and the receiver's being the same or transported by reflection: when the sender's encoder is called on a C++ object that has a value and holds the term the encoder was made for, it returns, and writes nothing but the message; each sizer for this type gives the size of the message, or a bound if it rounds; and each decoder of the receiver, called on any copy of the message with enough memory, returns and leaves a C++ object whose value is the sent value converted to the receiver's version of the type, having called the handler declared for the term which this value holds.", "quantifier": "every two file systems, portals, encoders, sizers and decoders, every order of lowering, every C++ object, every place and content of memory", "why_tests_cant": "all pairs of schemas and values, through parser, planner, reflection, code generation and generated classes", "anchors": ["pj/parse.cpp", "pj/sourcegen.cpp: addPortal, addPrecompilation", "pj/plan.cpp: plan_protocol", "pj/generate_ir.cpp", "pj/reflect.cpp: reflect, unreflect", "pj/context.cpp", "pj/include/pj/runtime.hpp: Context, Portal"]}
{"id": "C52", "title": "Protocols survive being sent as bytes", "statement": "For every protocol (a complete type that does not contain itself, with fewer than 2^31 types inside): encodeProto writes into a buffer of the size that getProtoSize gives, and nothing outside; decodeProto of any copy of these bytes, wherever it is and whatever follows, finds the block, ends its loop when a buffer is large enough, and the object it has decoded is the object that reflect made; the protocol that unreflect makes of it encodes, decodes and sizes every object and message exactly as the one that was sent. The format, which is checked in as source text, is the one that the planner makes from the C++ type.", "quantifier": "every context and protocol, every object that represents it, every content of memory and place of object, buffers and bytes, every number of rounds", "why_tests_cant": "all protocols, including their names, nesting and sharing, through reflection, generated code for the schema of schemas, framing and the doubling loop", "anchors": ["pj/context.cpp: getProtoSize, encodeProto, decodeProto (lines 152-259)", "pj/reflect.cpp: reflect, unreflect (lines 54-488)", "pj/reflect.pj", "pj/schema/reflect.pj.v0_1.hpp", "pj/schema/precompile.cpp"]}
{"id": "C53", "title": "pjcat prints what was written", "statement": "For every record file that consists of a protocol written by encodeProto and of messages encoded with it: pjcat splits the file into the protocol and the messages, decodes the protocol, and for every message, in order, prints one line, which is determined by the value of the object that was encoded, wherever the buffers are and whatever they held before. If no floats are in it and strings have no characters that JSON wants to be escaped, the output is one JSON text per line which says what the value is: structs as objects, variants with tag, name and data, enums without data, strings as strings and other sequences as arrays; and from the output one can tell the values.", "quantifier": "every host type and path, every list of objects, every content of memory and place of objects and buffers, every context that describes the protocol", "why_tests_cant": "all types, all values and lists of messages, and that no two lists of values of a type print alike", "anchors": ["pj/pjcat.cpp: print (lines 19-91), main (lines 94-171)", "pj/any.hpp", "pj/any.cpp", "README.md"]}
{"id": "C54", "title": "Planning types stored by name is planning trees", "statement": "For every host type of structs and variants that are stored by name in a context, every path and whatever earlier plannings have left in the internal domain: planning the protocol, with types that are looked up by name and changed in place by the passes, succeeds exactly if planning the expanded type does, and the type in the new wire domain expands to the type planned for the tree, with the same buffer offset; it is well formed, so that it can be transported, and the transported protocol encodes, decodes and sizes as the one planned for the tree. Hence plannings in one process do not disturb each other.", "quantifier": "every context, type, path, assignment of addresses to types, state of the internal domain and sequence of plannings", "why_tests_cant": "all types with any sharing of named types, all histories of a process and all addresses", "anchors": ["pj/plan.cpp: plan_protocol (lines 62-107), replaceStructField, replaceVariantTerm (lines 18-58)", "pj/convert_internal.cpp", "pj/variant_outlining.cpp", "pj/vector_hoisting.cpp: get_struct (lines 57-75), hoistVectors", "pj/wire_layout.cpp", "pj/types.hpp: setTypeData"]}
{"id": "C55", "title": "Copies are only made longer over memory that may be read", "statement": "The passes that make copies longer ask isSafeToRead, which says yes exactly if the bytes to be read are among those that one frozen projection of the function promises to be readable, at a constant distance from the same pointer; so in every run they are among the bytes of a promise. If the promises are about the source itself, then after coalescing and extending of copies, as before, no copy reads beyond its source: nothing outside of the object that is encoded, or of the message that is decoded, is read.", "quantifier": "every function of pointers, casts and offsets with every set of promises, every block and control flow graph of copies, every source type, all addresses", "why_tests_cant": "all types and all ways in which copies can be put together; a read of a byte too many is not noticed unless the message ends at the end of a page", "anchors": ["pj/llvm_utils.cpp", "pj/copy_coalescing.cpp: generate (lines 257-343)", "pj/copy_extending.cpp: runOnFunction (lines 183-232)", "pj/llvm_gen2.cpp: ProjectOpLowering (lines 339-366)", "pj/generate_ir.cpp: projectPath (line 207), transcodeTerm (line 249), field projections (line 373), entry points (lines 925, 990)"]}
{"id": "C56", "title": "Straight-line conversions survive copy coalescing", "statement": "For a destination type made of structs, integers and floats, encoding and decoding compile to one block of loads, stores, conversions, defaults and poisons. Running that block, or what copy coalescing makes of it, leaves the converted value at the destination and changes nothing else, whatever the undefined bytes are; fields the source does not have get their default values; and no copy reads beyond the source.", "quantifier": "every destination type made of structs, integers and floats, every source type and value, every sound alias analysis, every promotion limit and answer of isSafeToRead, all addresses and memories", "why_tests_cant": "whether copies are put together or made longer depends on the offsets, widths and order of all fields on both sides, and on the target; a wrong byte appears only for particular pairs of schema versions", "anchors": ["pj/copy_coalescing.cpp", "pj/generate_ir.cpp: getOrCreateStructTranscodeFn (lines 307-393), TranscodeOpLowering (lines 1068-1148), DefaultOpLowering (lines 1159-1192)", "pj/llvm_gen2.cpp: TranscodePrimitiveOpLowering (lines 383-427), DefaultOpLowering (lines 1030-1058), PoisonOpLowering (lines 1068-1080)", "pj/context.cpp: lines 471-505"]}
{"id": "C57", "title": "The alignment told to LLVM is true", "statement": "Every load and store in the generated encoders and decoders is at an address that is a multiple of the alignment the instruction is compiled with: headAlignment() for integers and floats, the natural alignment for tags, lengths and references, for which none is given. So running with these alignments checked is the same as running without. It is so for the accesses to C++ objects and to the decoder's buffer, and for messages in which tags and lengths have one byte and there are no references.", "quantifier": "every accepted schema type and every planned protocol, all objects at addresses with the alignment of their C++ class, all messages, buffers and memories", "why_tests_cant": "x86-64 executes misaligned accesses, so that tests pass until a pass of LLVM uses the promised alignment; which offsets are misaligned depends on the whole layout", "anchors": ["pj/llvm_gen2.cpp: lines 397, 422-423 (TranscodePrimitiveOpLowering), 439 (TagOpLowering), 463, 486, 512 (CopyTagOpLowering), 566 (MatchOpLowering), 704 (VectorIndexOpLowering), 820, 841 (lengths), 861, 874 (StoreRefOpLowering), 1041-1042 (DefaultOpLowering)", "pj/wire_layout.cpp", "pj/types.hpp: headAlignment", "pj/sourcegen.cpp", "pj/include/pj/float.hpp"]}
{"id": "C58", "title": "Conversions between variants survive copy coalescing", "statement": "The function generated for two inline variants (a switch over the tag, a block for each term and one for unknown tags), after copy coalescing of every block, returns for every source value with the destination holding the converted value and with all other memory unchanged, whatever value undefined bytes have. A variant sent and received with its own protocol by coalesced code has the value that was sent.", "quantifier": "all pairs of inline variants with terms of structs, integers and floats, any number of terms and any sizes and depths; all source values, memories, addresses, copy targets and sound alias analyses", "why_tests_cant": "each pair of schema versions makes other blocks, the pass merges other copies in each, and which merge is made depends on the target; tests see a few schemas on one target", "anchors": ["pj/generate_ir.cpp: transcodeTerm (238-305), getOrCreateVariantTranscodeFn (394-500)", "pj/llvm_gen2.cpp: TagOpLowering (429-443), MatchOpLowering (544-588)", "pj/copy_coalescing.cpp: runOnFunction (389-406), runOnBlock"]}
{"id": "C59", "title": "Contexts and portals are deleted once", "statement": "In a program that makes, moves, assigns and destroys runtime contexts, portals and objects of generated classes, every context and portal is deleted exactly once by the time all variables are gone, nothing is deleted twice, and no function that runs was deleted before, nor is a null pointer followed.", "quantifier": "all programs over any number of variables: all sequences of constructions, compilations, moves, assignments (also to itself), calls and ends of scopes", "why_tests_cant": "ownership bugs need a particular sequence of moves, assignments and ends of lifetimes; tests have a few, and a leak fails no test", "anchors": ["pj/include/pj/runtime.hpp: Portal (28-67), Context (88-103)", "pj/runtime.cpp: PJGetContext, PJFreeContext (42-48), PJCompile (363-367), PJFreePortal (384-386)", "pj/sourcegen.cpp: addPortal (728-921)"]}
{"id": "C60", "title": "Spans hold no more than their type allows", "statement": "A pj::span with a bound, made from data, by copying, or from spans with other bounds, never holds more elements than its bound; it has all of the data it was made from, and making it throws exactly if the data is too long for one of the spans on the way. So the encoder never meets a span with a length that its type does not have.", "quantifier": "all bounds, all data and all chains of copies and conversions between bounds", "why_tests_cant": "conversions to larger bounds check nothing and rely on the span they start from; chains are unbounded, and each pair of bounds is another instance of the template", "anchors": ["pj/include/pj/span.hpp: constructors (18-41), validate (62-69), BuildPJType (80-110)"]}
