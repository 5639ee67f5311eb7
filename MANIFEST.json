{
 "claims": [
  {
   "property": "C01",
   "status": "partial",
   "theorems": [
    "PJ.C01_round_trip_partial",
    "PJ.C01_plan",
    "PJ.C01_known_term_partial",
    "PJ.C01_violated"
   ],
   "note": "proved for every host type with tags below 2^63 and every tag path (HostTy lists what the front ends guarantee); false for larger tags (C01_violated). Types are trees, see C20 for shared structs"
  },
  {
   "property": "C02",
   "status": "partial",
   "theorems": [
    "PJ.C02_copies_partial",
    "PJ.C02_decode_copy_partial",
    "PJ.C02_violated",
    "PJ.C02_planned_partial"
   ],
   "note": "Full claim is false of the code: C02_violated (encode returns without writing the tag). Proved for all protocols outside the known defects (Compat, Proto.OK), and without layout hypotheses for every protocol planned from a host type (C02_planned_partial)."
  },
  {
   "property": "C03",
   "status": "partial",
   "theorems": [
    "PJ.C03_exact_partial",
    "PJ.C03_front_partial",
    "PJ.C03_violated",
    "PJ.C03_planned_partial",
    "PJ.C03_value_partial"
   ],
   "note": "Full claim is false of the code: C03_violated (inline part of a host vector longer than the protocol's maximum). Proved for every object and tag path of types outside that defect and the defaulting of outlined variants (Tame; C03_front_partial says it in terms of what the front ends produce), and for planned protocols with the size given by the value (C03_planned_partial, C03_value_partial), as long as the message does not run over the end of the address space."
  },
  {
   "property": "C04",
   "status": "partial",
   "theorems": [
    "PJ.C04_upper_partial",
    "PJ.C04_buffer_partial",
    "PJ.C04_constant",
    "PJ.C04_depends_partial",
    "PJ.C04_violated",
    "PJ.C04_planned_partial",
    "PJ.C04_planned_depends_partial"
   ],
   "note": "upper bound and buffer safety proved for every object with a value of every type planned from its own schema (C04_planned_partial, split terms included), dependence and constancy likewise; for other senders the pair of types must be outside the known defects (Tame). False for rounded sizes of 2^64 and more, where the 64-bit counter wraps (C04_violated)"
  },
  {
   "property": "C05",
   "status": "partial",
   "theorems": [
    "PJ.C05_total_partial",
    "PJ.C05_bounded_partial",
    "PJ.C05_violated"
   ],
   "note": "Full claim is false of the code: C05_violated (a hostile length whose byte count wraps modulo 2^64). Proved for all message bytes when every host vector has a maximum length, and for any host type when the message asks for at most 2^63 bytes in total."
  },
  {
   "property": "C06",
   "status": "partial",
   "theorems": [
    "PJ.C06_decode_buffer_partial",
    "PJ.C06_failure_iff_partial",
    "PJ.C06_violated",
    "PJ.C06_planned_partial"
   ],
   "note": "Full claim is false of the code: C06_violated (a message that calls a null function). Proved for pairs of types outside the known defects (Compat) and host types without outlined variants; C06_planned_partial for planned protocols."
  },
  {
   "property": "C07",
   "status": "partial",
   "theorems": [
    "PJ.C07_quiet_partial",
    "PJ.C07_violated"
   ],
   "note": "Full claim is false of the code: C07_violated (a later field fails after the slot was set). Proved for all message bytes when nothing after the handled variant can fail."
  },
  {
   "property": "C08",
   "status": "partial",
   "theorems": [
    "PJ.C08_handler_partial",
    "PJ.C08_no_handlers",
    "PJ.C08_index",
    "PJ.C08_violated_enum",
    "PJ.C08_violated_two"
   ],
   "note": "False for enums (C08_violated_enum: the fast path ignores handlers) and for handlers on two variants (C08_violated_two). Proved for other handled variants in host types outside the known defects (Compat), and for all types when there are no handlers (C08_no_handlers). That only a handler from the list is called is proved for all types, messages and outcomes (C08_index)."
  },
  {
   "property": "C09",
   "status": "partial",
   "theorems": [
    "PJ.C09_fields_partial",
    "PJ.C09_sender_only_partial",
    "PJ.C09_violated"
   ],
   "note": "Full claim is false of the code: C09_violated (a field with an enum gets no term). Proved for pairs of types outside the known defects (Compat)."
  },
  {
   "property": "C10",
   "status": "partial",
   "theorems": [
    "PJ.C10_known_partial",
    "PJ.C10_unknown_partial",
    "PJ.C10_raw_tag_partial",
    "PJ.C10_default_name",
    "PJ.C10_violated_enum",
    "PJ.C10_violated_kind",
    "PJ.C10_violated_default"
   ],
   "note": "Full claim is false of the code: C10_violated_enum, C10_violated_kind and C10_violated_default; proved for types outside the known defects (Compat)."
  },
  {
   "property": "C11",
   "status": "partial",
   "theorems": [
    "PJ.C11_known_partial",
    "PJ.C11_all_tags_partial",
    "PJ.C11_violated_unknown_term",
    "PJ.C11_violated_out_of_bounds",
    "PJ.C11_violated_full_table",
    "PJ.C11_violated_exact_copy"
   ],
   "note": "Full claim is false of the code: four C11_violated_* witnesses. Proved for known terms, and for all raw tags when the receiver default has tag 0 and tags stay in the lower half of the tag range."
  },
  {
   "property": "C12",
   "status": "proved",
   "theorems": [
    "PJ.C12_modular",
    "PJ.C12_preserved",
    "PJ.C12_widening"
   ],
   "note": ""
  },
  {
   "property": "C13",
   "status": "partial",
   "theorems": [
    "PJ.C13_array_partial",
    "PJ.C13_violated"
   ],
   "note": "Full claim is false of the code: C13_violated (element with an enum gets no term). Proved for element types outside the known defects (Compat)."
  },
  {
   "property": "C14",
   "status": "partial",
   "theorems": [
    "PJ.C14_vector_partial",
    "PJ.C14_violated"
   ],
   "note": "Full claim is false of the code: C14_violated (overrun when the sender keeps more elements in the head than the receiver holds); proved otherwise (Compat)."
  },
  {
   "property": "C15",
   "status": "proved",
   "theorems": [
    "PJ.C15_structs",
    "PJ.C15_variants",
    "PJ.C15_arrays",
    "PJ.C15_vectors",
    "PJ.C15_alignment"
   ],
   "note": "for every type for which planning is defined (no vector elements of size 0)"
  },
  {
   "property": "C16",
   "status": "proved",
   "theorems": [
    "PJ.C16_vectors"
   ],
   "note": ""
  },
  {
   "property": "C17",
   "status": "partial",
   "theorems": [
    "PJ.C17_tag_fits_partial",
    "PJ.C17_tag_minimal",
    "PJ.C17_max_tag_undefined",
    "PJ.C17_width_zero"
   ],
   "note": "Fits whenever a term has a non-zero tag and the largest tag is not 2^64-1; the exceptions are exhibited by C17_max_tag_undefined and C17_width_zero."
  },
  {
   "property": "C18",
   "status": "proved",
   "theorems": [
    "PJ.C18_terminates",
    "PJ.C18_none_left",
    "PJ.C18_tags",
    "PJ.C18_kept",
    "PJ.C18_names",
    "PJ.C18_default"
   ],
   "note": "for the hoisting loop on one variant"
  },
  {
   "property": "C19",
   "status": "proved",
   "theorems": [
    "PJ.C19_partition"
   ],
   "note": ""
  },
  {
   "property": "C20",
   "status": "partial",
   "theorems": [
    "PJ.C20_selected_partial",
    "PJ.C20_offset",
    "PJ.C20_nothing_outlined",
    "PJ.C20_encoder_partial",
    "PJ.C20_violated",
    "PJ.C20_nominal_partial",
    "PJ.C20_definitions"
   ],
   "note": "proved for types as trees, and that exactly the variant on the path is outlined for nominal types in which no struct is used twice (C20_nominal_partial); false when a struct on the way to the variant is used twice (C20_violated: nominal types are changed in place)"
  },
  {
   "property": "C21",
   "status": "partial",
   "theorems": [
    "PJ.C21_dispatch_partial",
    "PJ.C21_dispatch_violated"
   ],
   "note": "Full claim is false for tags of 2^63 and more (C21_dispatch_violated); proved for smaller tags."
  },
  {
   "property": "C22",
   "status": "partial",
   "theorems": [
    "PJ.C22_refl",
    "PJ.C22_refl_proto",
    "PJ.C22_terms",
    "PJ.C22_types_partial",
    "PJ.C22_same_partial",
    "PJ.C22_violated_term",
    "PJ.C22_violated_unit"
   ],
   "note": "reflexivity proved for every type; same interpretation proved for planned protocols where the parts the check ignores agree (Agree), and for all types if the distances of vector elements agree, too (C22_types_partial); false otherwise (C22_violated_term, C22_violated_unit)"
  },
  {
   "property": "C23",
   "status": "proved",
   "theorems": [
    "PJ.C23_parse_print",
    "PJ.C23_reparse",
    "PJ.C23_print_injective",
    "PJ.C23_print_parse_all",
    "PJ.C23_print_parse",
    "PJ.C23_parse_nonempty",
    "PJ.C23_into_expand"
   ],
   "note": ""
  },
  {
   "property": "C24",
   "status": "proved",
   "theorems": [
    "PJ.C24_sorted",
    "PJ.C24_default",
    "PJ.C24_order_independent"
   ],
   "note": ""
  },
  {
   "property": "C25",
   "status": "partial",
   "theorems": [
    "PJ.C25_accepted",
    "PJ.C25_default",
    "PJ.C25_complete",
    "PJ.C25_reserved_zero_violated",
    "PJ.C25_reserved_zero_partial"
   ],
   "note": "Everything but the reserved tag 0 is proved; that part is false with an explicit default (C25_reserved_zero_violated), and proved without one."
  },
  {
   "property": "C26",
   "status": "proved",
   "theorems": [
    "PJ.C26_innermost",
    "PJ.C26_fails_iff",
    "PJ.C26_define"
   ],
   "note": ""
  },
  {
   "property": "C27",
   "status": "partial",
   "theorems": [
    "PJ.C27_cycle_sound",
    "PJ.C27_cycle_complete",
    "PJ.C27_success",
    "PJ.C27_diamond_rejected",
    "PJ.C27_acyclic_partial"
   ],
   "note": "Diamond imports are rejected by the code although acyclic (C27_diamond_rejected); acyclic tree-like imports are proved to be processed."
  },
  {
   "property": "C28",
   "status": "partial",
   "theorems": [
    "PJ.C28_size",
    "PJ.C28_roundtrip_partial",
    "PJ.C28_position",
    "PJ.C28_same_release",
    "PJ.C28_violated"
   ],
   "note": "The loop stops at the first version unknown to the reader, so the full claim is false for readers that dropped an older version (C28_violated); proved when the versions known to the reader come first, in particular for a single release."
  },
  {
   "property": "C29",
   "status": "partial",
   "theorems": [
    "PJ.C29_round_trip_partial",
    "PJ.C29_interpretation",
    "PJ.C29_violated",
    "PJ.C29_codec"
   ],
   "note": "reflect then unreflect gives the same protocol up to wire_min_length (and three vector numbers that are not in the model), and the same reading of every message; the transported protocol encodes, decodes, sizes and compares exactly like the original (C29_codec); wire_min_length is lost (C29_violated). The transport of the reflected protocol is a message like any other (C01)"
  },
  {
   "property": "C30",
   "status": "proved",
   "theorems": [
    "PJ.C30_reflect_total",
    "PJ.C30_indices",
    "PJ.C30_once",
    "PJ.C30_unreflect_total",
    "PJ.C30_unreflect_inside"
   ],
   "note": "for pools of fewer than 2^31 types (indices are int32)"
  },
  {
   "property": "C31",
   "status": "partial",
   "theorems": [
    "PJ.C31_any_partial",
    "PJ.C31_small_partial"
   ],
   "note": "proved for every host type of C01 with integers of 1, 2, 4 or 8 bytes, every value, tag path and copy of the message, with the pool that reflect makes of the reflectable type, and that buffers that are too small are reported (C31_small_partial); the Any is the whole destination, and names of nominal types in the shared reflection domain are assumed to be free"
  },
  {
   "property": "C32",
   "status": "proved",
   "theorems": [
    "PJ.C32_construct",
    "PJ.C32_copy",
    "PJ.C32_chain"
   ],
   "note": ""
  },
  {
   "property": "C33",
   "status": "partial",
   "theorems": [
    "PJ.C33_encodeProto_selfSized",
    "PJ.C33_roundtrip",
    "PJ.C33_truncated_proto",
    "PJ.C33_truncated_record",
    "PJ.C33_retry_partial",
    "PJ.C33_retry_violated",
    "PJ.C33_retry_later_violated"
   ],
   "note": "Round trip and truncation are proved; the retry loop claim is false for every message needing more than 1024 bytes (C33_retry_violated), proved otherwise."
  },
  {
   "property": "C34",
   "status": "proved",
   "theorems": [
    "PJ.C34_exact"
   ],
   "note": ""
  },
  {
   "property": "C35",
   "status": "partial",
   "theorems": [
    "PJ.C35_block_partial",
    "PJ.C35_copies_partial",
    "PJ.C35_violated_alias",
    "PJ.C35_violated_overwrite",
    "PJ.C35_violated_between",
    "PJ.C35_flush_partial",
    "PJ.C35_function_partial",
    "PJ.C35_return_partial"
   ],
   "note": "Proved for every block (copies, poisons, load/store pairs and any other instructions, every target and answer of isSafeToRead) in which no copy reads bytes another copy of the block writes, other instructions do not overwrite bytes an earlier copy wrote, and what is between a load and its store leaves the bytes of the pending copies alone. C35_flush_partial allows instructions to overwrite what an earlier poison covers. C35_function_partial and C35_return_partial: the same for whole functions, branches and loops included, and executions of any length. Without each of these the pass is wrong: C35_violated_alias, C35_violated_overwrite, C35_violated_between. Alias analysis is assumed sound."
  },
  {
   "property": "C36",
   "status": "proved",
   "theorems": [
    "PJ.C36_irreflexive",
    "PJ.C36_transitive",
    "PJ.C36_total",
    "PJ.C36_name_order_agrees"
   ],
   "note": ""
  },
  {
   "property": "C37",
   "status": "partial",
   "theorems": [
    "PJ.C37_default_partial",
    "PJ.C37_frame_partial",
    "PJ.C37_numbers",
    "PJ.C37_violated"
   ],
   "note": "Full claim is false of the code for outlined variants (C37_violated); proved for every type without one."
  },
  {
   "property": "C38",
   "status": "proved",
   "theorems": [
    "PJ.C38_int",
    "PJ.C38_struct",
    "PJ.C38_variant",
    "PJ.C38_array",
    "PJ.C38_vector"
   ],
   "note": ""
  },
  {
   "property": "C39",
   "status": "partial",
   "theorems": [
    "PJ.C39_transcode_partial",
    "PJ.C39_decode_partial",
    "PJ.C39_violated",
    "PJ.C39_planned_partial"
   ],
   "note": "Full claim is false of the code: C39_violated (encode leaves the tag unwritten). Proved for pairs of types outside the known defects (Compat); C39_planned_partial for planned protocols."
  },
  {
   "property": "C40",
   "status": "partial",
   "theorems": [
    "PJ.C40_known_term_partial",
    "PJ.C40_size_partial",
    "PJ.C40_violated",
    "PJ.C40_unknown_term"
   ],
   "note": "Proved for all host types with tags below 2^63, all paths and values; false for larger tags (C40_violated), where the generic dispatch is wrong."
  },
  {
   "property": "C41",
   "status": "proved",
   "theorems": [
    "PJ.C41_align",
    "PJ.C41_minimal",
    "PJ.C41_size"
   ],
   "note": ""
  },
  {
   "property": "C42",
   "status": "partial",
   "theorems": [
    "PJ.C42_proper_partial",
    "PJ.C42_tree_partial",
    "PJ.C42_copied_partial",
    "PJ.C42_frontier",
    "PJ.C42_violated_join",
    "PJ.C42_violated_loop",
    "PJ.C42_violated_behind"
   ],
   "note": "proved for every function in which the frontiers are what the comment in the source defines (C42_proper_partial), in particular for functions without joins and loops (C42_tree_partial, and what copies deliver: C42_copied_partial), for sound analyses, with alias analysis able to see that a copy behind the region does not touch it. False otherwise: the search only looks for one clean way from the poison to the copy (C42_frontier; C42_violated_join, C42_violated_loop), and the check of the room left wraps (C42_violated_behind)."
  },
  {
   "property": "C43",
   "status": "partial",
   "theorems": [
    "PJ.C43_receiver_partial",
    "PJ.C43_sender_partial",
    "PJ.C43_violated"
   ],
   "note": "proved for every pair of host types where the receiver can take the sender's schema (Evolves, in terms of the declared types only), and for senders using the protocol of another schema if they also have the vectors and the variant the encoder looks at (Supplied, Led). Outside of it the claim is false: C43_violated, and C09_violated to C14_violated."
  },
  {
   "property": "C44",
   "status": "partial",
   "theorems": [
    "PJ.C44_there_and_back_partial",
    "PJ.C44_violated"
   ],
   "note": "proved for every pair of host types that can take each other's schema (Evolves both ways) and where the new one has room for every old value (Kept). False without the former: C44_violated."
  },
  {
   "property": "C45",
   "status": "partial",
   "theorems": [
    "PJ.C45_host_partial",
    "PJ.C45_value_partial",
    "PJ.C45_size_partial",
    "PJ.C45_align_partial",
    "PJ.C45_plan_partial",
    "PJ.C45_round_trip_partial",
    "PJ.C45_violated_array",
    "PJ.C45_violated_round_trip",
    "PJ.C45_violated_wchar",
    "PJ.C45_violated_align",
    "PJ.C45_evolution_partial"
   ],
   "note": "proved for every accepted schema that is Safe: no arrays of integers of more than one byte, no vectors of char16 or of elements without bytes, no maximum of 0, no tag from 2^63 on, no variant with the tag 0 only. False outside of it: C45_violated_array, C45_violated_round_trip, C45_violated_wchar, C45_violated_align."
  },
  {
   "property": "C46",
   "status": "partial",
   "theorems": [
    "PJ.C46_built_partial",
    "PJ.C46_same_partial",
    "PJ.C46_decode_partial",
    "PJ.C46_round_trip_partial",
    "PJ.C46_violated_float",
    "PJ.C46_violated_split"
   ],
   "note": "C46_built_partial says exactly what is built. For schemas without floats: decoding agrees for all messages and receivers, encoding keeps the value, and the protocol is the same one if no term has a vector to split. False outside of it: with a float the code does not compile (C46_violated_float), with split terms it is not binary compatible and messages are longer (C46_violated_split)."
  },
  {
   "property": "C47",
   "status": "proved",
   "theorems": [
    "PJ.C47_accepts",
    "PJ.C47_unambiguous",
    "PJ.C47_layout",
    "PJ.C47_written",
    "PJ.C47_blank",
    "PJ.C47_characters",
    "PJ.C47_reserved_name",
    "PJ.C47_never_referred",
    "PJ.C47_text_at_end",
    "PJ.C47_comment_at_end"
   ],
   "note": "for all files and all declarations. C47_blank, C47_reserved_name, C47_never_referred, C47_text_at_end and C47_comment_at_end record what the grammar rejects that one might expect it to accept."
  },
  {
   "property": "C48",
   "status": "partial",
   "theorems": [
    "PJ.C48_nominal",
    "PJ.C48_types",
    "PJ.C48_order",
    "PJ.C48_decls",
    "PJ.C48_specs",
    "PJ.C48_portals",
    "PJ.C48_handlers",
    "PJ.C48_driver",
    "PJ.C48_terminates",
    "PJ.C48_defined_partial",
    "PJ.C48_round_trip_partial",
    "PJ.C48_sample_ok",
    "PJ.C48_violated_range",
    "PJ.C48_violated_layout",
    "PJ.C48_violated_portal",
    "PJ.C48_violated_spec_name",
    "PJ.C48_violated_precomp",
    "PJ.C48_violated_import",
    "PJ.C48_violated_items",
    "PJ.C48_char_tags",
    "PJ.C48_violated_char",
    "PJ.C48_import_in_space",
    "PJ.C48_written"
   ],
   "note": "proved for all files, and every list of items can be written and is then defined (C48_written), but for: definedness, proved if the numbers are below 2^63 (C48_defined_partial, C48_violated_range); the way to C++ objects, proved for Safe types as in C45; and portals, which are not always what the declaration says (C48_violated_portal). C48_violated_layout, C48_violated_spec_name, C48_violated_precomp, C48_violated_import and C48_violated_items record what else is accepted or rejected unexpectedly."
  },
  {
   "property": "C49",
   "status": "proved",
   "theorems": [
    "PJ.C49_encode",
    "PJ.C49_decode",
    "PJ.C49_size",
    "PJ.C49_unique",
    "PJ.C49_sequences",
    "PJ.C49_ends"
   ],
   "note": "for all modules of encoders, decoders and size functions (without Any), all orders of lowering and all prints of keys; progress if there are fewer than 2^31 functions."
  },
  {
   "property": "C50",
   "status": "partial",
   "theorems": [
    "PJ.C50_handlers",
    "PJ.C50_handlers_precompiled",
    "PJ.C50_portal",
    "PJ.C50_precompiled",
    "PJ.C50_generates",
    "PJ.C50_constructs_partial",
    "PJ.C50_precompiles_partial",
    "PJ.C50_violated_class",
    "PJ.C50_violated_memcpy",
    "PJ.C50_violated_integer",
    "PJ.C50_violated_head",
    "PJ.C50_violated_symbols",
    "PJ.C50_violated_variable",
    "PJ.C50_sample_gen"
   ],
   "note": "proved for all files: the methods of a class that compiles and of an object that was constructed are what the portal declares (C50_portal, C50_precompiled), and the methods of decoders take the declared number of handlers and call only these (C50_handlers, C50_handlers_precompiled). That the class compiles and objects exist is proved for names that are free, types that the model has and fewer than 2^31 functions (C50_generates, C50_constructs_partial, C50_precompiles_partial), and false otherwise: C50_violated_class, C50_violated_memcpy, C50_violated_integer, C50_violated_head, C50_violated_symbols, C50_violated_variable."
  },
  {
   "property": "C51",
   "status": "partial",
   "theorems": [
    "PJ.C51_end_to_end_partial",
    "PJ.C51_violated"
   ],
   "note": "proved for all pairs of accepted files, portals and objects whose types are outside the known defects (Safe, Small), where the encoder's type is the one the protocol is planned for, the receiver's type can take the sender's (Evolves), buffers are large enough, and the object holds the term the encoder was made for. The called handler: for handlers of one variant that is not an enum (C08_violated_two, C08_violated_enum). False for arrays of wider integers, from schema text to C++ object: C51_violated."
  },
  {
   "property": "C52",
   "status": "partial",
   "theorems": [
    "PJ.C52_schema",
    "PJ.C52_host",
    "PJ.C52_sent_partial",
    "PJ.C52_violated"
   ],
   "note": "proved for all protocols: the value of the decoded object is that of the object sent, and unreflect of it gives a protocol that does the same (C52_sent_partial); the checked-in format is the planned one (C52_schema). Partial because the values are as the schema describes the object: the external enums Sign and ReferenceMode are four bytes wide in C++ and one byte in the schema, and decoding leaves the other three undefined (C52_violated)."
  },
  {
   "property": "C53",
   "status": "partial",
   "theorems": [
    "PJ.C53_json_partial",
    "PJ.C53_injective_partial",
    "PJ.C53_messages_partial",
    "PJ.C53_file_partial",
    "PJ.C53_violated"
   ],
   "note": "proved for all files (C53_file_partial), lists of messages (C53_messages_partial) and values (C53_json_partial, C53_injective_partial), if 1024 bytes of buffer are enough for every message (C33_retry_violated otherwise), nothing wraps around the address space, and for the last two there are no floats, which are printed with six digits, and strings need no escapes. False with a quote in a string: C53_violated."
  },
  {
   "property": "C54",
   "status": "partial",
   "theorems": [
    "PJ.C54_plan_partial",
    "PJ.C54_outlined",
    "PJ.C54_process_partial",
    "PJ.C54_sent_partial",
    "PJ.C54_violated",
    "PJ.C54_violated_names"
   ],
   "note": "proved for all types, paths and contents of the internal domain (C54_plan_partial), for all sequences of plannings (C54_process_partial) and with the transport (C54_sent_partial), if the structs on the path and the first variant with a vector to split are used in one place, addresses are not suffixes of each other and no struct is called like one made by splitting. False if the first variant is used twice (C54_violated), and if addresses are only different (C54_violated_names); for shared structs on the path see C20_violated."
  },
  {
   "property": "C55",
   "status": "partial",
   "theorems": [
    "PJ.C55_root",
    "PJ.C55_exact",
    "PJ.C55_covered",
    "PJ.C55_coalesce",
    "PJ.C55_extend",
    "PJ.C55_types_partial",
    "PJ.C55_source_partial",
    "PJ.C55_violated",
    "PJ.C55_encoder_partial",
    "PJ.C55_decoder_partial",
    "PJ.C55_untagged_partial"
   ],
   "note": "isSafeToRead is exact (C55_exact, C55_covered), and coalescing and extending stay inside of the sources if what is promised about them is true (C55_coalesce, C55_extend), for all functions and blocks. The promises are true for sources without outlined variants (C55_types_partial, C55_source_partial), thus for all encoders (C55_encoder_partial) and for decoders of protocols whose tag path leads to no variant (C55_decoder_partial, C55_untagged_partial), false for messages with an outlined variant: C55_violated, a decoder reads beyond the end of a message."
  },
  {
   "property": "C56",
   "status": "partial",
   "theorems": [
    "PJ.C56_lowered",
    "PJ.C56_optimised_partial",
    "PJ.C56_bare_partial",
    "PJ.C56_inside",
    "PJ.C56_round_trip_partial",
    "PJ.C56_violated"
   ],
   "note": "Every conversion of structs, integers and floats, all sizes and depths: the lowered block refines the conversion (C56_lowered), coalesced blocks make the same value if all inner structs start with a copied field (C56_optimised_partial), or if there are no poisons (C56_bare_partial); sending and receiving with one's own protocol has the first (C56_round_trip_partial); no reads beyond the source (C56_inside). In general the property is violated: C56_violated. Alias analysis is assumed sound, LLVM's other passes are not modelled; arrays, vectors and variants are left out because their code has branches."
  },
  {
   "property": "C57",
   "status": "partial",
   "theorems": [
    "PJ.C57_general",
    "PJ.C57_unchecked",
    "PJ.C57_layout_partial",
    "PJ.C57_encoder_object_partial",
    "PJ.C57_decoder_object_partial",
    "PJ.C57_encoder_partial",
    "PJ.C57_decoder_partial",
    "PJ.C57_vector_address",
    "PJ.C57_needed_int",
    "PJ.C57_needed_float",
    "PJ.C57_needed_default",
    "PJ.C57_needed_length",
    "PJ.C57_needed_tag",
    "PJ.C57_needed_term",
    "PJ.C57_needed_reference",
    "PJ.C57_needed_load",
    "PJ.C57_decoded_partial",
    "PJ.C57_relay_partial",
    "PJ.C57_violated_length",
    "PJ.C57_violated_load",
    "PJ.C57_violated_tag",
    "PJ.C57_violated_double"
   ],
   "note": "proved for all loads from and stores to C++ objects of accepted types and the decoder's buffer (C57_encoder_object_partial, C57_decoder_object_partial), for all messages without references and with tags and lengths of one byte (C57_encoder_partial, C57_decoder_partial), and for any two types with aligned layouts (C57_general); decoded objects have aligned spans, so that they can be encoded again (C57_decoded_partial, C57_relay_partial). Which alignment each access needs: C57_needed_*. Messages with anything wider violate it (C57_violated_length, C57_violated_load, C57_violated_tag; C57_vector_address says for which addresses), and decoded doubles are not aligned as C++ needs them (C57_violated_double)."
  },
  {
   "property": "C58",
   "status": "partial",
   "theorems": [
    "PJ.C58_inside",
    "PJ.C58_unknown_partial",
    "PJ.C58_unknown_bare_partial",
    "PJ.C58_lowered",
    "PJ.C58_optimised_partial",
    "PJ.C58_bare_partial",
    "PJ.C58_round_trip_partial",
    "PJ.C58_violated"
   ],
   "note": "Inline variants of any number of terms, the terms structs, integers and floats of any size and depth: the function that is generated returns with the converted value and changes nothing else (C58_lowered), and so does the coalesced function if the structs inside of converted terms start with a copied field (C58_optimised_partial); between a variant that is not an enum and its own protocol there always is such a function, and values arrive unchanged (C58_round_trip_partial). Tags that the source does not have lead to the default value (C58_unknown_partial). No block reads beyond the source (C58_inside). False without the condition: C58_violated, unless the poisons are dropped before (C58_bare_partial, C58_unknown_bare_partial). The variant is the whole of source and destination; variants inside of other types, vectors and arrays, and LLVM's other passes are left out; alias analysis is assumed sound."
  },
  {
   "property": "C59",
   "status": "partial",
   "theorems": [
    "PJ.C59_safe",
    "PJ.C59_exact_partial",
    "PJ.C59_violated",
    "PJ.C59_moved_violated"
   ],
   "note": "proved for all programs: nothing is deleted twice, and nothing deleted or null is used unless a variable is used that was moved from (C59_safe); at the end everything was deleted exactly once but for what a variable held when it was assigned to, which never is (C59_exact_partial). False in general: assigning to a handle that holds something, or to itself, leaks (C59_violated); an object of a generated class that was moved from keeps functions which dangle later (C59_moved_violated). One thread, no exceptions."
  },
  {
   "property": "C60",
   "status": "proved",
   "theorems": [
    "PJ.C60_bound",
    "PJ.C60_exact",
    "PJ.C60_object"
   ],
   "note": "C60_bound and C60_exact for all chains. C60_object adds that a span in memory is a vector of the described type with all its elements, for the schemas of C45 and fewer than 2^63 elements."
  }
 ]
}