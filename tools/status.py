status = {
 'C11': ('partial', 'Full claim is false of the code: four C11_violated_* witnesses. Proved for known terms, and for all raw tags when the receiver default has tag 0 and tags stay in the lower half of the tag range.'),
 'C12': ('proved', ''),
 'C17': ('partial', 'Fits whenever a term has a non-zero tag and the largest tag is not 2^64-1; the exceptions are exhibited by C17_max_tag_undefined and C17_width_zero.'),
 'C21': ('partial', 'Full claim is false for tags of 2^63 and more (C21_dispatch_violated); proved for smaller tags.'),
 'C23': ('proved', ''),
 'C24': ('proved', ''),
 'C25': ('partial', 'Everything but the reserved tag 0 is proved; that part is false with an explicit default (C25_reserved_zero_violated), and proved without one.'),
 'C26': ('proved', ''),
 'C27': ('partial', 'Diamond imports are rejected by the code although acyclic (C27_diamond_rejected); acyclic tree-like imports are proved to be processed.'),
 'C28': ('partial', 'The loop stops at the first version unknown to the reader, so the full claim is false for readers that dropped an older version (C28_violated); proved when the versions known to the reader come first, in particular for a single release.'),
 'C33': ('partial', 'Round trip and truncation are proved; the retry loop claim is false for every message needing more than 1024 bytes (C33_retry_violated), proved otherwise.'),
 'C32': ('proved', ''),
 'C34': ('proved', ''),
 'C36': ('proved', ''),
 'C38': ('proved', ''),
 'C41': ('proved', ''),
 'C02': ('partial', 'Full claim is false of the code: C02_violated (encode returns without writing the tag). Proved for all protocols outside the known defects (Compat, Proto.OK), and without layout hypotheses for every protocol planned from a host type (C02_planned_partial).'),
 'C06': ('partial', 'Full claim is false of the code: C06_violated (a message that calls a null function). Proved for pairs of types outside the known defects (Compat) and host types without outlined variants; C06_planned_partial for planned protocols.'),
 'C09': ('partial', 'Full claim is false of the code: C09_violated (a field with an enum gets no term). Proved for pairs of types outside the known defects (Compat).'),
 'C10': ('partial', 'Full claim is false of the code: C10_violated_enum, C10_violated_kind and C10_violated_default; proved for types outside the known defects (Compat).'),
 'C13': ('partial', 'Full claim is false of the code: C13_violated (element with an enum gets no term). Proved for element types outside the known defects (Compat).'),
 'C14': ('partial', 'Full claim is false of the code: C14_violated (overrun when the sender keeps more elements in the head than the receiver holds); proved otherwise (Compat).'),
 'C37': ('partial', 'Full claim is false of the code for outlined variants (C37_violated); proved for every type without one.'),
 'C39': ('partial', 'Full claim is false of the code: C39_violated (encode leaves the tag unwritten). Proved for pairs of types outside the known defects (Compat); C39_planned_partial for planned protocols.'),
 'C40': ('partial', 'Proved for all host types with tags below 2^63, all paths and values; false for larger tags (C40_violated), where the generic dispatch is wrong.'),
 'C05': ('partial', 'Full claim is false of the code: C05_violated (a hostile length whose byte count wraps modulo 2^64). Proved for all message bytes when every host vector has a maximum length, and for any host type when the message asks for at most 2^63 bytes in total.'),
 'C07': ('partial', 'Full claim is false of the code: C07_violated (a later field fails after the slot was set). Proved for all message bytes when nothing after the handled variant can fail.'),
 'C08': ('partial', 'False for enums (C08_violated_enum: the fast path ignores handlers) and for handlers on two variants (C08_violated_two). Proved for other handled variants in host types outside the known defects (Compat), and for all types when there are no handlers (C08_no_handlers). That only a handler from the list is called is proved for all types, messages and outcomes (C08_index).'),
 'C03': ('partial', "Full claim is false of the code: C03_violated (inline part of a host vector longer than the protocol's maximum). Proved for every object and tag path of types outside that defect and the defaulting of outlined variants (Tame; C03_front_partial says it in terms of what the front ends produce), and for planned protocols with the size given by the value (C03_planned_partial, C03_value_partial), as long as the message does not run over the end of the address space."),
    "C04": ("partial", "upper bound and buffer safety proved for every object with a value of every type planned from its own schema (C04_planned_partial, split terms included), dependence and constancy likewise; for other senders the pair of types must be outside the known defects (Tame). False for rounded sizes of 2^64 and more, where the 64-bit counter wraps (C04_violated)"),
    "C01": ("partial", "proved for every host type with tags below 2^63 and every tag path (HostTy lists what the front ends guarantee); false for larger tags (C01_violated). Types are trees, see C20 for shared structs"),
    "C15": ("proved", "for every type for which planning is defined (no vector elements of size 0)"),
    "C16": ("proved", ""),
    "C18": ("proved", "for the hoisting loop on one variant"),
    "C19": ("proved", ""),
    "C20": ("partial", "proved for types as trees, and that exactly the variant on the path is outlined for nominal types in which no struct is used twice (C20_nominal_partial); false when a struct on the way to the variant is used twice (C20_violated: nominal types are changed in place)"),
    "C22": ("partial", "reflexivity proved for every type; same interpretation proved for planned protocols where the parts the check ignores agree (Agree), and for all types if the distances of vector elements agree, too (C22_types_partial); false otherwise (C22_violated_term, C22_violated_unit)"),
    "C29": ("partial", "reflect then unreflect gives the same protocol up to wire_min_length (and three vector numbers that are not in the model), and the same reading of every message; the transported protocol encodes, decodes, sizes and compares exactly like the original (C29_codec); wire_min_length is lost (C29_violated). The transport of the reflected protocol is a message like any other (C01)"),
    "C30": ("proved", "for pools of fewer than 2^31 types (indices are int32)"),
    "C35": ("partial", "Proved for every block (copies, poisons, load/store pairs and any other instructions, every target and answer of isSafeToRead) in which no copy reads bytes another copy of the block writes, other instructions do not overwrite bytes an earlier copy wrote, and what is between a load and its store leaves the bytes of the pending copies alone. C35_flush_partial allows instructions to overwrite what an earlier poison covers. C35_function_partial and C35_return_partial: the same for whole functions, branches and loops included, and executions of any length. Without each of these the pass is wrong: C35_violated_alias, C35_violated_overwrite, C35_violated_between. Alias analysis is assumed sound."),
    "C31": ("partial", "proved for every host type of C01 with integers of 1, 2, 4 or 8 bytes, every value, tag path and copy of the message, with the pool that reflect makes of the reflectable type, and that buffers that are too small are reported (C31_small_partial); the Any is the whole destination, and names of nominal types in the shared reflection domain are assumed to be free"),
    "C42": ("partial", "proved for every function in which the frontiers are what the comment in the source defines (C42_proper_partial), in particular for functions without joins and loops (C42_tree_partial, and what copies deliver: C42_copied_partial), for sound analyses, with alias analysis able to see that a copy behind the region does not touch it. False otherwise: the search only looks for one clean way from the poison to the copy (C42_frontier; C42_violated_join, C42_violated_loop), and the check of the room left wraps (C42_violated_behind)."),
    "C43": ("partial", "proved for every pair of host types where the receiver can take the sender's schema (Evolves, in terms of the declared types only), and for senders using the protocol of another schema if they also have the vectors and the variant the encoder looks at (Supplied, Led). Outside of it the claim is false: C43_violated, and C09_violated to C14_violated."),
    "C44": ("partial", "proved for every pair of host types that can take each other's schema (Evolves both ways) and where the new one has room for every old value (Kept). False without the former: C44_violated."),
    "C45": ("partial", "proved for every accepted schema that is Safe: no arrays of integers of more than one byte, no vectors of char16 or of elements without bytes, no maximum of 0, no tag from 2^63 on, no variant with the tag 0 only. False outside of it: C45_violated_array, C45_violated_round_trip, C45_violated_wchar, C45_violated_align."),
    "C46": ("partial", "C46_built_partial says exactly what is built. For schemas without floats: decoding agrees for all messages and receivers, encoding keeps the value, and the protocol is the same one if no term has a vector to split. False outside of it: with a float the code does not compile (C46_violated_float), with split terms it is not binary compatible and messages are longer (C46_violated_split)."),
    "C47": ("proved", "for all files and all declarations. C47_blank, C47_reserved_name, C47_never_referred, C47_text_at_end and C47_comment_at_end record what the grammar rejects that one might expect it to accept."),
    "C48": ("partial", "proved for all files, and every list of items can be written and is then defined (C48_written), but for: definedness, proved if the numbers are below 2^63 (C48_defined_partial, C48_violated_range); the way to C++ objects, proved for Safe types as in C45; and portals, which are not always what the declaration says (C48_violated_portal). C48_violated_layout, C48_violated_spec_name, C48_violated_precomp, C48_violated_import and C48_violated_items record what else is accepted or rejected unexpectedly."),
    "C49": ("proved", "for all modules of encoders, decoders and size functions (without Any), all orders of lowering and all prints of keys; progress if there are fewer than 2^31 functions."),
    "C50": ("partial", "proved for all files: the methods of a class that compiles and of an object that was constructed are what the portal declares (C50_portal, C50_precompiled), and the methods of decoders take the declared number of handlers and call only these (C50_handlers, C50_handlers_precompiled). That the class compiles and objects exist is proved for names that are free, types that the model has and fewer than 2^31 functions (C50_generates, C50_constructs_partial, C50_precompiles_partial), and false otherwise: C50_violated_class, C50_violated_memcpy, C50_violated_integer, C50_violated_head, C50_violated_symbols, C50_violated_variable."),
    "C51": ("partial", "proved for all pairs of accepted files, portals and objects whose types are outside the known defects (Safe, Small), where the encoder's type is the one the protocol is planned for, the receiver's type can take the sender's (Evolves), buffers are large enough, and the object holds the term the encoder was made for. The called handler: for handlers of one variant that is not an enum (C08_violated_two, C08_violated_enum). False for arrays of wider integers, from schema text to C++ object: C51_violated."),
    "C52": ("partial", "proved for all protocols: the value of the decoded object is that of the object sent, and unreflect of it gives a protocol that does the same (C52_sent_partial); the checked-in format is the planned one (C52_schema). Partial because the values are as the schema describes the object: the external enums Sign and ReferenceMode are four bytes wide in C++ and one byte in the schema, and decoding leaves the other three undefined (C52_violated)."),
    "C53": ("partial", "proved for all files (C53_file_partial), lists of messages (C53_messages_partial) and values (C53_json_partial, C53_injective_partial), if 1024 bytes of buffer are enough for every message (C33_retry_violated otherwise), nothing wraps around the address space, and for the last two there are no floats, which are printed with six digits, and strings need no escapes. False with a quote in a string: C53_violated."),
    "C54": ("partial", "proved for all types, paths and contents of the internal domain (C54_plan_partial), for all sequences of plannings (C54_process_partial) and with the transport (C54_sent_partial), if the structs on the path and the first variant with a vector to split are used in one place, addresses are not suffixes of each other and no struct is called like one made by splitting. False if the first variant is used twice (C54_violated), and if addresses are only different (C54_violated_names); for shared structs on the path see C20_violated."),
    "C55": ("partial", "isSafeToRead is exact (C55_exact, C55_covered), and coalescing and extending stay inside of the sources if what is promised about them is true (C55_coalesce, C55_extend), for all functions and blocks. The promises are true for sources without outlined variants (C55_types_partial, C55_source_partial), thus for all encoders (C55_encoder_partial) and for decoders of protocols whose tag path leads to no variant (C55_decoder_partial, C55_untagged_partial), false for messages with an outlined variant: C55_violated, a decoder reads beyond the end of a message."),
    "C56": ("partial", "Every conversion of structs, integers and floats, all sizes and depths: the lowered block refines the conversion (C56_lowered), coalesced blocks make the same value if all inner structs start with a copied field (C56_optimised_partial), or if there are no poisons (C56_bare_partial); sending and receiving with one's own protocol has the first (C56_round_trip_partial); no reads beyond the source (C56_inside). In general the property is violated: C56_violated. Alias analysis is assumed sound, LLVM's other passes are not modelled; arrays, vectors and variants are left out because their code has branches."),
    "C57": ("partial", "proved for all loads from and stores to C++ objects of accepted types and the decoder's buffer (C57_encoder_object_partial, C57_decoder_object_partial), for all messages without references and with tags and lengths of one byte (C57_encoder_partial, C57_decoder_partial), and for any two types with aligned layouts (C57_general); decoded objects have aligned spans, so that they can be encoded again (C57_decoded_partial, C57_relay_partial). Which alignment each access needs: C57_needed_*. Messages with anything wider violate it (C57_violated_length, C57_violated_load, C57_violated_tag; C57_vector_address says for which addresses), and decoded doubles are not aligned as C++ needs them (C57_violated_double)."),
    "C58": ("partial", "Inline variants of any number of terms, the terms structs, integers and floats of any size and depth: the function that is generated returns with the converted value and changes nothing else (C58_lowered), and so does the coalesced function if the structs inside of converted terms start with a copied field (C58_optimised_partial); between a variant that is not an enum and its own protocol there always is such a function, and values arrive unchanged (C58_round_trip_partial). Tags that the source does not have lead to the default value (C58_unknown_partial). No block reads beyond the source (C58_inside). False without the condition: C58_violated, unless the poisons are dropped before (C58_bare_partial, C58_unknown_bare_partial). The variant is the whole of source and destination; variants inside of other types, vectors and arrays, and LLVM's other passes are left out; alias analysis is assumed sound."),
    "C59": ("partial", "proved for all programs: nothing is deleted twice, and nothing deleted or null is used unless a variable is used that was moved from (C59_safe); at the end everything was deleted exactly once but for what a variable held when it was assigned to, which never is (C59_exact_partial). False in general: assigning to a handle that holds something, or to itself, leaks (C59_violated); an object of a generated class that was moved from keeps functions which dangle later (C59_moved_violated). One thread, no exceptions."),
    "C60": ("proved", "C60_bound and C60_exact for all chains. C60_object adds that a span in memory is a vector of the described type with all its elements, for the schemas of C45 and fewer than 2^63 elements."),
}
