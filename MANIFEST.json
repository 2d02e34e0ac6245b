{
 "claims": [
  {
   "property": "C01",
   "status": "proved",
   "theorems": [
    "Buzz.Props.C01_array_refines_list",
    "Buzz.Props.C01_array_clone",
    "Buzz.Props.C01_set_beyond_end_grows",
    "Buzz.Props.C01_from_buffer",
    "Buzz.Props.C01_from_empty_buffer"
   ],
   "note": "Every operation sequence refines a list; every buffer access is inside the allocation. An array made from an empty buffer has capacity 0 and its first growth aborts (C01_from_empty_buffer)."
  },
  {
   "property": "C02",
   "status": "proved",
   "theorems": [
    "Buzz.Props.C02_sort_ordered_permutation"
   ],
   "note": ""
  },
  {
   "property": "C03",
   "status": "proved",
   "theorems": [
    "Buzz.Props.C03_dict_is_finite_map"
   ],
   "note": "Hash and key equality are parameters with a lawfulness hypothesis."
  },
  {
   "property": "C04",
   "status": "proved",
   "theorems": [
    "Buzz.Props.C04_foreach_exact",
    "Buzz.Props.C04_dispose_exact"
   ],
   "note": ""
  },
  {
   "property": "C05",
   "status": "proved",
   "theorems": [
    "Buzz.Props.C05_set_is_a_set",
    "Buzz.Props.C05_remove_destroys_a_live_member"
   ],
   "note": "The second theorem records that removal can hand a live payload to the destroy callback."
  },
  {
   "property": "C06",
   "status": "proved",
   "theorems": [
    "Buzz.Props.C06_ids_injective",
    "Buzz.Props.C06_register",
    "Buzz.Props.C06_exhaustion_hangs"
   ],
   "note": ""
  },
  {
   "property": "C07",
   "status": "proved",
   "theorems": [
    "Buzz.Props.C07_string_collection_exact",
    "Buzz.Props.C07_protected_survives"
   ],
   "note": ""
  },
  {
   "property": "C08",
   "status": "proved",
   "theorems": [
    "Buzz.Props.C08_collection_exact",
    "Buzz.Props.C08_idle"
   ],
   "note": "Any heap graph and any roots; marking shown to terminate within the number of objects. C stack depth of the recursion is not modelled."
  },
  {
   "property": "C09",
   "status": "proved",
   "theorems": [
    "Buzz.Props.C09_every_collection_exact",
    "Buzz.Props.C09_no_dangling",
    "Buzz.Props.C09_marker_wraps"
   ],
   "note": "Histories of valid actions (allocations, table writes, clones, registrations, root changes, collections) of any length."
  },
  {
   "property": "C10",
   "status": "proved",
   "theorems": [
    "Buzz.Props.C10_clone_copies",
    "Buzz.Props.C10_independent"
   ],
   "note": "Tables with keys on which comparison is equality; objects in a closure's activation record are shared (shown by example)."
  },
  {
   "property": "C11",
   "status": "proved",
   "theorems": [
    "Buzz.Props.C11_int",
    "Buzz.Props.C11_float",
    "Buzz.Props.C11_string",
    "Buzz.Props.C11_mixed",
    "Buzz.Props.C11_float_print_overflow",
    "Buzz.Props.C11_not_transitive_int_float",
    "Buzz.Props.C11_nil",
    "Buzz.Props.C11_table",
    "Buzz.Props.C11_eq",
    "Buzz.Props.C11_eq_types",
    "Buzz.Props.C11_eq_strings"
   ],
   "note": "strcmp is any function with the sign the C standard prescribes. Also records defects: buffer overflow on large floats, no transitivity across int and float, and buzzobj_eq (not used anywhere) never finds strings equal."
  },
  {
   "property": "C12",
   "status": "proved",
   "theorems": [
    "Buzz.Props.C12_integers",
    "Buzz.Props.C12_trichotomy",
    "Buzz.Props.C12_floats",
    "Buzz.Props.C12_strings",
    "Buzz.Props.C12_tables",
    "Buzz.Props.C12_one_nil",
    "Buzz.Props.C12_both_nil",
    "Buzz.Props.C12_nan",
    "Buzz.Props.C12_strcmp_two"
   ],
   "note": "Stated on one step of a machine with valid memory. Records the defects that a strcmp result of 2 makes different strings equal and that NaN equals every float."
  },
  {
   "property": "C13",
   "status": "proved",
   "theorems": [
    "Buzz.Props.C13_table_laws",
    "Buzz.Props.C13_int_keys",
    "Buzz.Props.C13_string_keys",
    "Buzz.Props.C13_mixed_keys_collide",
    "Buzz.Props.C13_write_bad_key",
    "Buzz.Props.C13_read_bad_key",
    "Buzz.Props.C13_float_key",
    "Buzz.Props.C13_read_defined",
    "Buzz.Props.C13_nil_key"
   ],
   "note": ""
  },
  {
   "property": "C14",
   "status": "proved",
   "theorems": [
    "Buzz.Props.C14_u8",
    "Buzz.Props.C14_u16",
    "Buzz.Props.C14_u32",
    "Buzz.Props.C14_truncated",
    "Buzz.Props.C14_big_endian_host_broken"
   ],
   "note": "Round trip on little-endian hosts; refuted on big-endian ones."
  },
  {
   "property": "C15",
   "status": "proved",
   "theorems": [
    "Buzz.Props.C15_string_roundtrip",
    "Buzz.Props.C15_long_string_lost"
   ],
   "note": ""
  },
  {
   "property": "C16",
   "status": "proved",
   "theorems": [
    "Buzz.Props.C16_float_exact",
    "Buzz.Props.C16_nonfinite_undefined"
   ],
   "note": "-0 and +0 are one value in the model."
  },
  {
   "property": "C17",
   "status": "proved",
   "theorems": [
    "Buzz.Props.C17_value_roundtrip",
    "Buzz.Props.C17_distinct_keys",
    "Buzz.Props.C17_large_table_lost",
    "Buzz.Props.C17_nested_closure_lost"
   ],
   "note": ""
  },
  {
   "property": "C18",
   "status": "proved",
   "theorems": [
    "Buzz.Props.C18_deserialise_safe",
    "Buzz.Props.C18_remote_defects",
    "Buzz.Props.C18_heap_safe"
   ],
   "note": "Four defects reachable from the network are named outcomes with witnesses; C18_heap_safe is the same for deserialisation into the heap."
  },
  {
   "property": "C19",
   "status": "proved",
   "theorems": [
    "Buzz.Props.C19_swarm_queue"
   ],
   "note": "ids other than 65535 (with that id a list of 65536 ids wraps the 16-bit size)"
  },
  {
   "property": "C20",
   "status": "proved",
   "theorems": [
    "Buzz.Props.C20_one_newest"
   ],
   "note": ""
  },
  {
   "property": "C21",
   "status": "proved",
   "theorems": [
    "Buzz.Props.C21_first_next",
    "Buzz.Props.C21_drain",
    "Buzz.Props.C21_fifo_broadcast",
    "Buzz.Props.C21_fifo_vstig",
    "Buzz.Props.C21_fifo_swarm"
   ],
   "note": ""
  },
  {
   "property": "C22",
   "status": "proved",
   "theorems": [
    "Buzz.Props.C22_exactly_once",
    "Buzz.Props.C22_empty_iff",
    "Buzz.Props.C22_lifo",
    "Buzz.Props.C22_not_fifo"
   ],
   "note": "C22_not_fifo is the counterexample to the documented order"
  },
  {
   "property": "C23",
   "status": "proved",
   "theorems": [
    "Buzz.Props.C23_merge",
    "Buzz.Props.C23_order_total",
    "Buzz.Props.C23_needs_coherence"
   ],
   "note": "Data are values; the default conflict manager is assumed as in the statement."
  },
  {
   "property": "C24",
   "status": "proved",
   "theorems": [
    "Buzz.Props.C24_monotone",
    "Buzz.Props.C24_agree",
    "Buzz.Props.C24_converge"
   ],
   "note": "Any number of robots, lossy, duplicating, reordering network; up to 65535 writes per key."
  },
  {
   "property": "C25",
   "status": "proved",
   "theorems": [
    "Buzz.Props.C25_resurrection",
    "Buzz.Props.C25_divergence",
    "Buzz.Props.C25_timestamp_wraps"
   ],
   "note": "Refutations by concrete executions."
  },
  {
   "property": "C26",
   "status": "proved",
   "theorems": [
    "Buzz.Props.C26_default_conflict"
   ],
   "note": ""
  },
  {
   "property": "C27",
   "status": "proved",
   "theorems": [
    "Buzz.Props.C27_put",
    "Buzz.Props.C27_put_nil",
    "Buzz.Props.C27_get",
    "Buzz.Props.C27_size"
   ],
   "note": ""
  },
  {
   "property": "C28",
   "status": "proved",
   "theorems": [
    "Buzz.Props.C28_membership_follows_news",
    "Buzz.Props.C28_silence_forgets",
    "Buzz.Props.C28_short_silence",
    "Buzz.Props.C28_repeated_id"
   ],
   "note": "lists must be non-empty and without repetition; C28_repeated_id shows why"
  },
  {
   "property": "C29",
   "status": "proved",
   "theorems": [
    "Buzz.Props.C29_step",
    "Buzz.Props.C29_runs",
    "Buzz.Props.C29_select_truncates",
    "Buzz.Props.C29_setop_unknown",
    "Buzz.Props.C29_others_silent",
    "Buzz.Props.C29_id_zero",
    "Buzz.Props.C29_id"
   ],
   "note": "ids below 65535; deviations: select keeps 8 bits, others and set operations announce no departure, swarm.id(0,..) reads out of bounds"
  },
  {
   "property": "C30",
   "status": "proved",
   "theorems": [
    "Buzz.Props.C30_exec"
   ],
   "note": ""
  },
  {
   "property": "C31",
   "status": "proved",
   "theorems": [
    "Buzz.Props.C31_partition",
    "Buzz.Props.C31_no_swarm"
   ],
   "note": "keys of the neighbour table are robot ids, as buzzneighbors_add makes them"
  },
  {
   "property": "C32",
   "status": "proved",
   "theorems": [
    "Buzz.Props.C32_step",
    "Buzz.Props.C32_always",
    "Buzz.Props.C32_argument",
    "Buzz.Props.C32_closure_call_unchecked"
   ],
   "note": "holds for step; calling a closure from C performs no check before the first fetch (witness C32_closure_call_unchecked)"
  },
  {
   "property": "C33",
   "status": "proved",
   "theorems": [
    "Buzz.Props.C33_final",
    "Buzz.Props.C33_error_stays",
    "Buzz.Props.C33_done_revived"
   ],
   "note": "a machine in the done state is deliberately revived by function_call"
  },
  {
   "property": "C34",
   "status": "proved",
   "theorems": [
    "Buzz.Props.C34_too_few",
    "Buzz.Props.C34_call_too_few",
    "Buzz.Props.C34_wrong_type",
    "Buzz.Props.C34_exceptions",
    "Buzz.Props.C34_lremove"
   ],
   "note": "two exceptions are defects of the code: a negative argument count and a return outside a function (witness C34_exceptions)"
  },
  {
   "property": "C35",
   "status": "proved",
   "theorems": [
    "Buzz.Props.C35_call",
    "Buzz.Props.C35_return"
   ],
   "note": "registered C functions are required to return to their caller (CReturns)"
  },
  {
   "property": "C36",
   "status": "proved",
   "theorems": [
    "Buzz.Props.C36_script_closure",
    "Buzz.Props.C36_c_closure",
    "Buzz.Props.C36_arguments"
   ],
   "note": "for closures of C functions the claim is false: one further instruction of the caller is executed (C36_c_closure) closure calls of a named function with arguments (buzzvm_function_call with argc > 0) are undefined: C36_arguments."
  },
  {
   "property": "C37",
   "status": "proved",
   "theorems": [
    "Buzz.Props.C37_add_sub_mul",
    "Buzz.Props.C37_div",
    "Buzz.Props.C37_mod",
    "Buzz.Props.C37_undefined",
    "Buzz.Props.C37_type_error",
    "Buzz.Props.C37_neg",
    "Buzz.Props.C37_negative_divisor"
   ],
   "note": "Stated on one step of a machine with valid memory. Negative divisors are shown to leave the divisor's range."
  },
  {
   "property": "C38",
   "status": "proved",
   "theorems": [
    "Buzz.Props.C38_logic",
    "Buzz.Props.C38_jumps",
    "Buzz.Props.C38_filter"
   ],
   "note": "Jumps outside the bytecode end in an error, as stated by Next."
  },
  {
   "property": "C39",
   "status": "proved",
   "theorems": [
    "Buzz.Props.C39_store_global",
    "Buzz.Props.C39_load_global",
    "Buzz.Props.C39_global_roundtrip",
    "Buzz.Props.C39_store_local",
    "Buzz.Props.C39_load_local",
    "Buzz.Props.C39_only"
   ],
   "note": ""
  },
  {
   "property": "C40",
   "status": "proved",
   "theorems": [
    "Buzz.Props.C40_assembles",
    "Buzz.Props.C40_unknown",
    "Buzz.Props.C40_readback",
    "Buzz.Props.C40_targets",
    "Buzz.Props.C40_deasm_any"
   ],
   "note": "File grammar with free layout; strtof is a parameter; 32-bit size of the buffer assumed not to wrap (below 2^31 bytes in the property)."
  },
  {
   "property": "C41",
   "status": "proved",
   "theorems": [
    "Buzz.Props.C41_numbering",
    "Buzz.Props.C41_push",
    "Buzz.Props.C41_newline",
    "Buzz.Props.C41_count_wraps",
    "Buzz.Props.C41_too_many"
   ],
   "note": "Programs as in C65; strings without newlines, since the assembly format is line based (a string with a newline breaks the file). C functions are assumed to leave protected strings alone."
  },
  {
   "property": "C42",
   "status": "proved",
   "theorems": [
    "Buzz.Props.C42_expression",
    "Buzz.Props.C42_arithmetic",
    "Buzz.Props.C42_eager",
    "Buzz.Props.C42_minus"
   ],
   "note": "Any expression of the grammar against the meaning in Verif/Sem.lean; C42_arithmetic against a separate direct evaluator. C42_eager, C42_minus are defects (both sides of and/or are evaluated; unary minus binds differently before constants and variables)."
  },
  {
   "property": "C43",
   "status": "proved",
   "theorems": [
    "Buzz.Props.C43_statement",
    "Buzz.Props.C43_statements",
    "Buzz.Props.C43_seq",
    "Buzz.Props.C43_ite",
    "Buzz.Props.C43_if",
    "Buzz.Props.C43_while",
    "Buzz.Props.C43_while_forever",
    "Buzz.Props.C43_for"
   ],
   "note": "Statements against the meaning, and the equations of the meaning for sequences, conditionals and loops."
  },
  {
   "property": "C44",
   "status": "proved",
   "theorems": [
    "Buzz.Props.C44_terminates",
    "Buzz.Props.C44_progress",
    "Buzz.Props.C44_cycles"
   ],
   "note": "For file systems with finitely many files."
  },
  {
   "property": "C45",
   "status": "proved",
   "theorems": [
    "Buzz.Props.C45_plain",
    "Buzz.Props.C45_escapes",
    "Buzz.Props.C45_wrong"
   ],
   "note": "The code reads beyond literals with escapes; the exact value is proved, including where it is undefined."
  },
  {
   "property": "C46",
   "status": "proved",
   "theorems": [
    "Buzz.Props.C46_length",
    "Buzz.Props.C46_concat",
    "Buzz.Props.C46_sub_from",
    "Buzz.Props.C46_sub_range",
    "Buzz.Props.C46_length_concat",
    "Buzz.Props.C46_sub_whole",
    "Buzz.Props.C46_sub_empty",
    "Buzz.Props.C46_sub_split",
    "Buzz.Props.C46_concat_assoc",
    "Buzz.Props.C46_length_errors",
    "Buzz.Props.C46_negative_start"
   ],
   "note": "The empty string is an exception to sub(s,0,length(s)) = s (result nil, proved); a negative start is undefined (proved)."
  },
  {
   "property": "C47",
   "status": "proved",
   "theorems": [
    "Buzz.Props.C47_index",
    "Buzz.Props.C47_register",
    "Buzz.Props.C47_range",
    "Buzz.Props.C47_top",
    "Buzz.Props.C47_range_one",
    "Buzz.Props.C47_plain",
    "Buzz.Props.C47_wide",
    "Buzz.Props.C47_negative_range",
    "Buzz.Props.C47_negative",
    "Buzz.Props.C47_range_float",
    "Buzz.Props.C47_range_floats",
    "Buzz.Props.C47_float_above",
    "Buzz.Props.C47_float_infinite",
    "Buzz.Props.largest_drawn"
   ],
   "note": "Index never outside the state over any mixture of calls; integer and float ranges as the code has them. Violations: ranges of 2^31 and more are undefined, the pair (1,-1) gives 1, two float bounds can be exceeded by rounding, huge float bounds give infinity."
  },
  {
   "property": "C48",
   "status": "proved",
   "theorems": [
    "Buzz.Props.C48_offset",
    "Buzz.Props.C48_script",
    "Buzz.Props.C48_breakpoints"
   ],
   "note": "Any history of recordings; any history of breakpoint changes."
  },
  {
   "property": "C49",
   "status": "proved",
   "theorems": [
    "Buzz.Props.C49_packets",
    "Buzz.Props.C49_receive_safe",
    "Buzz.Props.C49_short_packet_undefined"
   ],
   "note": ""
  },
  {
   "property": "C50",
   "status": "proved",
   "theorems": [
    "Buzz.Props.C50_foreach",
    "Buzz.Props.C50_map",
    "Buzz.Props.C50_neighbors_map",
    "Buzz.Props.C50_filter",
    "Buzz.Props.C50_reduce",
    "Buzz.Props.C50_error_stops"
   ],
   "note": "callbacks are functions on an abstract machine state; the visited table is not changed by them"
  },
  {
   "property": "C51",
   "status": "proved",
   "theorems": [
    "Buzz.Props.C51_lists",
    "Buzz.Props.C51_every_ten",
    "Buzz.Props.C51_never"
   ],
   "note": ""
  },
  {
   "property": "C52",
   "status": "proved",
   "theorems": [
    "Buzz.Props.C52_history",
    "Buzz.Props.C52_runs",
    "Buzz.Props.C52_functions",
    "Buzz.Props.C52_ignored",
    "Buzz.Props.C52_called",
    "Buzz.Props.C52_script_closure",
    "Buzz.Props.C52_malformed_topic",
    "Buzz.Props.C52_cut_value"
   ],
   "note": "A well-formed message reaches exactly the registered closure; for a C closure closure_call executes one more instruction (see C36); a message whose topic is no string is undefined (proved)."
  },
  {
   "property": "C53",
   "status": "proved",
   "theorems": [
    "Buzz.Props.C53_slots",
    "Buzz.Props.C53_in_range",
    "Buzz.Props.C53_program",
    "Buzz.Props.C53_capture",
    "Buzz.Props.C53_enter",
    "Buzz.Props.C53_names",
    "Buzz.Props.C53_conditional_declaration",
    "Buzz.Props.C53_conditional_declaration_ub",
    "Buzz.Props.C53_shadowing_parameter",
    "Buzz.Props.C53_block_variable",
    "Buzz.Props.C53_block_function"
   ],
   "note": "Proved for functions that declare nothing in conditional or repeated parts outside of blocks (tidy), called with as many arguments as parameters and with parameter names that are not variables of the function around them. Without the first and the last condition the property fails in the code: witnesses."
  },
  {
   "property": "C54",
   "status": "proved",
   "theorems": [
    "Buzz.Props.C54_joinleave",
    "Buzz.Props.C54_list",
    "Buzz.Props.C54_empty_list_ignored",
    "Buzz.Props.C54_total",
    "Buzz.Props.C54_truncated_list_claims_zero"
   ],
   "note": ""
  },
  {
   "property": "C55",
   "status": "proved",
   "theorems": [
    "Buzz.Props.C55_string_objects_registered"
   ],
   "note": ""
  },
  {
   "property": "C56",
   "status": "proved",
   "theorems": [
    "Buzz.Props.C56_memory",
    "Buzz.Props.C56_causes",
    "Buzz.Props.C56_registered",
    "Buzz.Props.C56_string_count"
   ],
   "note": ""
  },
  {
   "property": "C57",
   "status": "proved",
   "theorems": [
    "Buzz.Props.C57_transfer"
   ],
   "note": "For objects all of whose trees the wire format supports (C17 lists the others)."
  },
  {
   "property": "C58",
   "status": "proved",
   "theorems": [
    "Buzz.Props.C58_tostring",
    "Buzz.Props.C58_roundtrip",
    "Buzz.Props.C58_wraps",
    "Buzz.Props.C58_tostring_nil"
   ],
   "note": "Text outside the 32-bit range wraps around instead of being refused, and tostring of a non-number is undefined (both proved)."
  },
  {
   "property": "C59",
   "status": "proved",
   "theorems": [
    "Buzz.Props.C59_sequence",
    "Buzz.Props.C59_exists",
    "Buzz.Props.C59_reproducible",
    "Buzz.Props.C59_seed_deviates",
    "Buzz.Props.C59_temper",
    "Buzz.Props.C59_untemper",
    "Buzz.Props.C59_setseed",
    "Buzz.Props.C59_seed_word"
   ],
   "note": "The seeding shifts a signed number, so it differs from the published generator (C59_seed_deviates)."
  },
  {
   "property": "C60",
   "status": "proved",
   "theorems": [
    "Buzz.Props.C60_round_int",
    "Buzz.Props.C60_floor",
    "Buzz.Props.C60_ceil",
    "Buzz.Props.C60_round",
    "Buzz.Props.C60_abs",
    "Buzz.Props.C60_min_max_int",
    "Buzz.Props.C60_min_max_float",
    "Buzz.Props.C60_min_strings",
    "Buzz.Props.C60_abs_special"
   ],
   "note": "Results outside 32 bits are shown undefined."
  },
  {
   "property": "C61",
   "status": "proved",
   "theorems": [
    "Buzz.Props.C61_gaussian_one",
    "Buzz.Props.C61_gaussian_two",
    "Buzz.Props.C61_exponential"
   ],
   "note": "Shown violated: gaussian(s) fails, gaussian(s,m) uses one argument for both, exponential(m) reads an empty stack."
  },
  {
   "property": "C62",
   "status": "proved",
   "theorems": [
    "Buzz.Props.C62_roundtrip",
    "Buzz.Props.C62_adds",
    "Buzz.Props.C62_name_512",
    "Buzz.Props.C62_result"
   ],
   "note": "Names of exactly 512 bytes are terminated outside the buffer; the result value is inverted with respect to the header."
  },
  {
   "property": "C63",
   "status": "proved",
   "theorems": [
    "Buzz.Props.C63_continue",
    "Buzz.Props.C63_other",
    "Buzz.Props.C63_stuck"
   ],
   "note": "Continuing from a breakpoint makes no progress (C63_stuck)."
  },
  {
   "property": "C64",
   "status": "proved",
   "theorems": [
    "Buzz.Props.C64_tokens",
    "Buzz.Props.C64_lines"
   ],
   "note": "Literals with backslashes are treated separately in C45."
  },
  {
   "property": "C65",
   "status": "proved",
   "theorems": [
    "Buzz.Props.C65_program",
    "Buzz.Props.C65_empty"
   ],
   "note": "Meaning in Verif/Sem.lean; cases the meaning calls odd (assumptions of the compiler broken, such as wrong argument counts) are excluded."
  },
  {
   "property": "C66",
   "status": "proved",
   "theorems": [
    "Buzz.Props.C66_ends",
    "Buzz.Props.C66_accepts",
    "Buzz.Props.C66_means",
    "Buzz.Props.C66_ignored",
    "Buzz.Props.C66_truncated",
    "Buzz.Props.C66_message",
    "Buzz.Props.C66_redeclared",
    "Buzz.Props.C66_newline",
    "Buzz.Props.C66_parentheses"
   ],
   "note": "Undefined behaviour and ignored rests of texts are defects of the code, shown by concrete texts (C66_ignored, C66_message, C66_redeclared). C66_means assumes what C65 does about numbers, strings and positions."
  },
  {
   "property": "C67",
   "status": "proved",
   "theorems": [
    "Buzz.Props.C67_library",
    "Buzz.Props.C67_program"
   ],
   "note": "library registration by buzzvm_set_bcode for every state; whole programs with the library functions of types, string (but tofloat) and math (abs, floor, ceil, round, min, max), neighbors.get and neighbors.count; the other functions are registered but have no meaning in the specification"
  },
  {
   "property": "C68",
   "status": "proved",
   "theorems": [
    "Buzz.Props.C68_load",
    "Buzz.Props.C68_charat",
    "Buzz.Props.C68_indexoffirst",
    "Buzz.Props.C68_indexoflast",
    "Buzz.Props.C68_indexoflast_short",
    "Buzz.Props.C68_indexoffirst_two",
    "Buzz.Props.C68_split",
    "Buzz.Props.C68_source",
    "Buzz.Props.C68_machine"
   ],
   "note": "Deviations proved: indexoflast with a text of at most one character (C68_indexoflast_short) and strcmp answering 2 (C68_indexoffirst_two). C68_machine carries the alternative of more than 65533 strings."
  },
  {
   "property": "C69",
   "status": "proved",
   "theorems": [
    "Buzz.Props.C69_rounds",
    "Buzz.Props.C69_exact",
    "Buzz.Props.C69_arith",
    "Buzz.Props.C69_pow",
    "Buzz.Props.C69_mod",
    "Buzz.Props.C69_mod_range",
    "Buzz.Props.C69_mod_float",
    "Buzz.Props.C69_mod_divisor",
    "Buzz.Props.C69_mod_mixed",
    "Buzz.Props.C69_mod_wrong",
    "Buzz.Props.C69_neg",
    "Buzz.Props.C69_literal"
   ],
   "note": "Stated on one step of a machine with valid memory, against a definition of rounding to the nearest float. powf is a parameter. Records two deviations of the modulo operator."
  },
  {
   "property": "C70",
   "status": "proved",
   "theorems": [
    "Buzz.Props.C70_load",
    "Buzz.Props.C70_swap",
    "Buzz.Props.C70_swap_end",
    "Buzz.Props.C70_cmp_integers",
    "Buzz.Props.C70_cmp_floats",
    "Buzz.Props.C70_sort",
    "Buzz.Props.C70_sort_leaks",
    "Buzz.Props.C70_sort_integers",
    "Buzz.Props.C70_sort_floats",
    "Buzz.Props.C70_source",
    "Buzz.Props.C70_machine"
   ],
   "note": "table.bzz byte for byte. swap, cmp_number and sort are proved in the meaning of programs, for every comparison function whose results are total and transitive on the elements; C70_machine carries the loading of the script to the machine with any schedule of the collector. C70_swap_end is the negation for the call that shuffle may make. The bodies of max, maxkey, min, minkey, print and shuffle are not described."
  },
  {
   "property": "C71",
   "status": "proved",
   "theorems": [
    "Buzz.Props.C71_robot",
    "Buzz.Props.C71_stopped",
    "Buzz.Props.C71_sum"
   ],
   "note": "Messages are not processed during the rounds (C49, C52, C54 and C73 treat them separately). init and step must be strings of the program, and the name neighbors too if the host's commands add neighbors. Calls to functions of the controller itself have no meaning (odd). C71_sum is a concrete robot with arbitrary readings. The exception follows the actual execution: some state reached on the way has more than 65533 strings, or too many for a command."
  },
  {
   "property": "C72",
   "status": "proved",
   "theorems": [
    "Buzz.Props.C72_before",
    "Buzz.Props.C72_readings",
    "Buzz.Props.C72_watch",
    "Buzz.Props.C72_stopped"
   ],
   "note": "C72_readings is about the meaning of programs; C71_robot carries it to the machine for every program that mentions neighbors, C72_watch does so for a concrete robot with arbitrary readings. The messages in the packets are not processed here."
  },
  {
   "property": "C73",
   "status": "proved",
   "theorems": [
    "Buzz.Props.C73_snapshot",
    "Buzz.Props.C73_delivered",
    "Buzz.Props.C73_functions"
   ],
   "note": "C functions of the host are a parameter: they must not write into objects they have no way to (FApart), which C73_functions proves for all modelled ones. Tables of the value must be proper (one kind of keys). Between call and sending everything is allowed except received stigmergy and swarm messages. How the payload gets into a packet and out of it is C49."
  },
  {
   "property": "C74",
   "status": "proved",
   "theorems": [
    "Buzz.Props.C74_life",
    "Buzz.Props.C74_refines",
    "Buzz.Props.C74_step",
    "Buzz.Props.C74_start",
    "Buzz.Props.C74_create",
    "Buzz.Props.C74_put",
    "Buzz.Props.C74_get",
    "Buzz.Props.C74_size",
    "Buzz.Props.C74_gossip",
    "Buzz.Props.C74_alias",
    "Buzz.Props.C74_manager_twice"
   ],
   "note": "The view of a key (known, entry, waiting message) is a small separate specification (View.after); C74_life relates it to the machine for all lists of events. C74_alias and C74_manager_twice are deviations: a stored table is the script's own object while the message has a copy; setting a conflict manager twice frees an object the heap still has."
  },
  {
   "property": "C75",
   "status": "proved",
   "theorems": [
    "Buzz.Props.C75_converge",
    "Buzz.Props.C75_real"
   ],
   "note": ""
  },
  {
   "property": "C76",
   "status": "proved",
   "theorems": [
    "Buzz.Props.C76_life",
    "Buzz.Props.C76_members_known",
    "Buzz.Props.C76_known",
    "Buzz.Props.C76_list_repairs",
    "Buzz.Props.C76_step",
    "Buzz.Props.C76_create",
    "Buzz.Props.C76_unknown",
    "Buzz.Props.C76_forgotten",
    "Buzz.Props.C76_setop_type_error",
    "Buzz.Props.C76_methods",
    "Buzz.Props.C76_here"
   ],
   "note": "On the machine: `SwLife` is any life, `Tale` the specification. Swarm number 65535 is left out (C19); swarm.id and exec are in the machine of C76_step but not events of a life. C76_known needs all messages received in order, none of them an empty list. C76_forgotten and C76_setop_type_error are deviations, by concrete runs."
  },
  {
   "property": "C77",
   "status": "proved",
   "theorems": [
    "Buzz.Props.C77_foreach",
    "Buzz.Props.C77_reduce",
    "Buzz.Props.C77_map",
    "Buzz.Props.C77_filter",
    "Buzz.Props.C77_foreach_stops",
    "Buzz.Props.C77_reduce_stops",
    "Buzz.Props.C77_map_stops",
    "Buzz.Props.C77_filter_stops",
    "Buzz.Props.C77_runs",
    "Buzz.Props.C77_error",
    "Buzz.Props.C77_removing",
    "Buzz.Props.C77_adding",
    "Buzz.Props.C77_assigning"
   ],
   "note": "C functions called by the callback must return, reach only what they are given and change no objects but tables; proved of the modelled library (std_all). Higher-order functions nested in callbacks and C functions as callbacks are outside the general theorems; C77_removing, C77_adding and C77_assigning are the limits, by compiled programs."
  },
  {
   "property": "C78",
   "status": "proved",
   "theorems": [
    "Buzz.Props.C78_foreach",
    "Buzz.Props.C78_foreach_stops",
    "Buzz.Props.C78_reduce",
    "Buzz.Props.C78_reduce_stops",
    "Buzz.Props.C78_map",
    "Buzz.Props.C78_filter",
    "Buzz.Props.C78_kin",
    "Buzz.Props.C78_nonkin",
    "Buzz.Props.C78_nonkin_no_swarm",
    "Buzz.Props.C78_runs",
    "Buzz.Props.C78_nil",
    "Buzz.Props.C78_error",
    "Buzz.Props.C78_removing",
    "Buzz.Props.C78_count",
    "Buzz.Props.C78_methods",
    "Buzz.Props.C78_missing_foreach",
    "Buzz.Props.C78_missing_reduce",
    "Buzz.Props.C78_missing_count",
    "Buzz.Props.C78_missing_get",
    "Buzz.Props.C78_missing_map",
    "Buzz.Props.C78_missing_kin",
    "Buzz.Props.C78_nonkin_bare"
   ],
   "note": "On the machine, with real calls of closures. The conclusion has the alternative that a call has changed the table visited; compiled scripts show what happens then."
  },
  {
   "property": "C79",
   "status": "proved",
   "theorems": [
    "Buzz.Props.C79_foreach",
    "Buzz.Props.C79_foreach_stops",
    "Buzz.Props.C79_foreach_unknown",
    "Buzz.Props.C79_foreach_errors",
    "Buzz.Props.C79_methods",
    "Buzz.Props.C79_runs",
    "Buzz.Props.C79_changing",
    "Buzz.Props.C79_error",
    "Buzz.Props.C79_removing"
   ],
   "note": "The alternative StigDisturbed is a call after which the stigmergy is not what it was. C functions called by the callback as in C77. C79_removing states the defects."
  },
  {
   "property": "C80",
   "status": "proved",
   "theorems": [
    "Buzz.Props.C80_manager",
    "Buzz.Props.C80_lost",
    "Buzz.Props.C80_nothing",
    "Buzz.Props.C80_stored",
    "Buzz.Props.C80_lost_called",
    "Buzz.Props.C80_runs",
    "Buzz.Props.C80_stack",
    "Buzz.Props.C80_error",
    "Buzz.Props.C80_changing"
   ],
   "note": "The local entry must be in the stigmergy after the manager returns; if it is gone the code uses freed memory (C80_changing). C80_stack states a defect. C functions called by the manager as in C77."
  },
  {
   "property": "C81",
   "status": "proved",
   "theorems": [
    "Buzz.Props.C81_call",
    "Buzz.Props.C81_plain",
    "Buzz.Props.C81_other",
    "Buzz.Props.C81_hidden",
    "Buzz.Props.C81_function",
    "Buzz.Props.C81_function_other"
   ],
   "note": "buzzdebug_closure_call and buzzdebug_function_call; C81_hidden and the second part of C81_function are defects"
  },
  {
   "property": "C82",
   "status": "proved",
   "theorems": [
    "Buzz.Props.C82_write",
    "Buzz.Props.C82_read",
    "Buzz.Props.C82_write_read",
    "Buzz.Props.C82_step_write",
    "Buzz.Props.C82_step_read",
    "Buzz.Props.C82_writes"
   ],
   "note": "keys from a set on which the comparison is an equality (C13); a value equal to the table itself is included"
  }
 ]
}