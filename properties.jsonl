{"id": "C01", "title": "Dynamic array behaves as a list and never touches memory outside its buffer", "statement": "Starting from a fresh array, after any sequence of push, insert at a position not beyond the end, in-range set, remove, pop and clear, reading positions 0..size-1 returns exactly what the same operations on a mathematical list would give, and no operation reads or writes outside the allocated buffer, as long as the buffer stays below the 32-bit size limit.", "quantifier": "all operation sequences, all element values, all positions, all initial capacities >= 1", "why_tests_cant": "growth and shrink thresholds interact with every interleaving of insertions and removals; a test fixes one history", "anchors": ["src/buzz/buzzdarray.c: buzzdarray_new, buzzdarray_makeslot, buzzdarray_insert, buzzdarray_remove, buzzdarray_set, buzzdarray_clear", "src/buzz/buzzdarray.h: buzzdarray_push, buzzdarray_pop"]}
{"id": "C02", "title": "Array sort returns an ordered permutation", "statement": "Sorting an array with a comparison function that is a total preorder leaves the same elements with the same multiplicities, in non-decreasing order, and terminates.", "quantifier": "all array contents and lengths, all total-preorder comparison functions", "why_tests_cant": "ordering and permutation must hold for every input, including duplicates and already sorted arrays; tests sample inputs", "anchors": ["src/buzz/buzzdarray.c: buzzdarray_part, buzzdarray_qsort, buzzdarray_sort"]}
{"id": "C03", "title": "Dictionary is a finite map", "statement": "After any sequence of set and remove, get(k) returns the data of the latest set of a key equal to k that was not removed afterwards, exists agrees with get, and size is the number of distinct keys present, for any hash that gives equal keys the same value and any comparison whose zero set is an equivalence.", "quantifier": "all operation sequences, all keys and data, all numbers of buckets >= 1, all lawful hash/compare pairs", "why_tests_cant": "collisions depend on hash values and bucket counts; no finite set of histories covers them", "anchors": ["src/buzz/buzzdict.c: buzzdict_rawget, buzzdict_set, buzzdict_remove", "src/buzz/buzzdict.h: buzzdict_exists, buzzdict_size"]}
{"id": "C04", "title": "Dictionary iteration and disposal are exact", "statement": "foreach visits every present entry exactly once and nothing else; over the life of a dictionary the entry destructor is called exactly once for each entry ever stored once the dictionary has been destroyed, and never for an entry that is still present.", "quantifier": "all operation sequences followed by foreach or destroy", "why_tests_cant": "a double free or leak shows only on particular collision histories", "anchors": ["src/buzz/buzzdict.c: buzzdict_foreach, buzzdict_destroy, buzzdict_set, buzzdict_remove"]}
{"id": "C05", "title": "Tree set is a mathematical set", "statement": "After any sequence of insert and remove, find(x) succeeds exactly when x was inserted and not removed since, size is the cardinality, and foreach visits every member exactly once.", "quantifier": "all operation sequences over any strict total order", "why_tests_cant": "two-child deletion reshapes the tree; correctness depends on an ordering invariant over all shapes", "anchors": ["src/buzz/buzzset.c: buzzset_insert, buzzset_remove, buzzset_find, buzzset_foreach"]}
{"id": "C06", "title": "String interning is a bijection", "statement": "While fewer than 65534 distinct strings are live, registering a string returns an id whose content is that string; equal contents get equal ids, different live contents different ids, and ids of live strings never change; registration terminates.", "quantifier": "all interleavings of register and string garbage collection", "why_tests_cant": "id reuse after wraparound of the 16-bit counter needs tens of thousands of registrations in a precise order", "anchors": ["src/buzz/buzzstrman.c: buzzstrman_register, buzzstrman_get, buzzstrman_gc_prune"]}
{"id": "C07", "title": "String collection keeps exactly protected or marked strings", "statement": "After a gc_clear / gc_mark* / gc_prune cycle the live strings are exactly the previously live ones that are protected or were marked, each with its id and content unchanged.", "quantifier": "all string tables and all mark sequences", "why_tests_cant": "depends on tree deletions in arbitrary order", "anchors": ["src/buzz/buzzstrman.c: buzzstrman_gc_clear, buzzstrman_gc_mark, buzzstrman_gc_prune, buzzidtree_insert, buzzidtree_remove"]}
{"id": "C08", "title": "Garbage collection frees exactly the unreachable objects", "statement": "A collection removes an object from the heap if and only if it cannot be reached from the global symbols, stacks, local symbol tables, virtual stigmergies, listeners or queued messages; the contents of surviving objects are unchanged; marking terminates on cyclic structures.", "quantifier": "all heaps, including cyclic graphs, and all root sets", "why_tests_cant": "premature frees show up as rare corruption depending on heap shape", "anchors": ["src/buzz/buzzheap.c: buzzheap_gc, buzzheap_obj_mark, buzzheap_dictobj_mark, buzzheap_darrayobj_mark"]}
{"id": "C09", "title": "Collection stays correct across any history, including marker wraparound", "statement": "Over any sequence of allocations, mutations and collections the exactness of C08 holds for each collection, although the 16-bit mark counter wraps around.", "quantifier": "all execution histories of any length", "why_tests_cant": "wraparound needs 65536 collections with a stale object", "anchors": ["src/buzz/buzzheap.c: buzzheap_newobj, buzzheap_gc"]}
{"id": "C10", "title": "Cloning copies values deeply", "statement": "clone(v) of an acyclic value yields a value structurally equal to v in which every table is a fresh object, so later writes to the clone's tables are not visible through v and conversely.", "quantifier": "all acyclic values", "why_tests_cant": "aliasing depends on nesting depth and sharing", "anchors": ["src/buzz/buzzheap.c: buzzheap_clone", "src/buzz/buzztype.c: buzzobj_clone"]}
{"id": "C11", "title": "Value comparison obeys order laws on numbers and on strings", "statement": "On integers and on strings the comparison is reflexive, swaps sign when the operands are swapped, and is transitive; equality of mixed string/number operands compares the printed number.", "quantifier": "all integers and all strings", "why_tests_cant": "laws quantify over triples of values", "anchors": ["src/buzz/buzztype.c: buzzobj_cmp"]}
{"id": "C12", "title": "Comparison operators are mutually consistent", "statement": "For two integers exactly one of <, ==, > yields 1, <= and >= are their unions and != is the complement of ==. The same holds for numbers of which one is a float, an integer being converted, except that NaN is equal to every float; for strings in the order of strcmp, unless strcmp answers 2; two tables are equal exactly if they are the same table. For one nil operand every operator, including == and !=, yields 1.", "quantifier": "all operand pairs", "why_tests_cant": "tests check a few operands; the nil rule makes x == nil true for every x", "anchors": ["src/buzz/buzzvm.c: buzzvm_binary_op_cmp, buzzvm_eq, buzzvm_neq, buzzvm_lt, buzzvm_lte, buzzvm_gt, buzzvm_gte"]}
{"id": "C13", "title": "Table put/get laws", "statement": "After t[k]=v reading t[k] gives v (nil if v is nil, and the entry disappears), other keys are unaffected and size(t) counts the keys, when all keys are integers or all are strings. With mixed keys \"1\" and 1 the law fails.", "quantifier": "all tables with homogeneous keys and all operation sequences", "why_tests_cant": "key equality and hash interact (strings hash by id, numbers by value)", "anchors": ["src/buzz/buzzvm.c: buzzvm_tput, buzzvm_tget", "src/buzz/buzztype.c: buzzobj_table_hash, buzzobj_table_keycmp, buzzobj_size"]}
{"id": "C14", "title": "Integer wire format round-trips", "statement": "Deserialising at the position where an 8, 16 or 32-bit integer was serialised returns that integer and the position just after it; the bytes are in network order; a truncated buffer gives -1.", "quantifier": "all integers of each width and all buffer prefixes and suffixes", "why_tests_cant": "2^32 values times all buffer contexts", "anchors": ["src/buzz/buzzmsg.c: buzzmsg_serialize_u8/u16/u32, buzzmsg_deserialize_u8/u16/u32"]}
{"id": "C15", "title": "String wire format round-trips", "statement": "A string shorter than 65536 bytes without embedded NUL is read back unchanged and the position advances to just after it; a longer string is not read back.", "quantifier": "all strings and all buffer contexts", "why_tests_cant": "the 16-bit length truncation is invisible on short strings", "anchors": ["src/buzz/buzzmsg.c: buzzmsg_serialize_string, buzzmsg_deserialize_string"]}
{"id": "C16", "title": "Float wire format is exact", "statement": "Every finite single-precision number, including subnormals, is read back with exactly the same value.", "quantifier": "all finite binary32 values", "why_tests_cant": "2^32 values; rounding of the mantissa constant must be shown harmless for each", "anchors": ["src/buzz/buzzmsg.c: buzzmsg_serialize_float, buzzmsg_deserialize_float"]}
{"id": "C17", "title": "Values survive the wire", "statement": "A value made of nil, integers, finite floats, strings shorter than 65536 bytes, plain closures and tables (nested, at most 255 entries each, with lawful keys) is deserialised to an equal value with the position just after it. A table with 256 or more entries is not.", "quantifier": "all such values and buffer contexts", "why_tests_cant": "unbounded nesting and sizes", "anchors": ["src/buzz/buzztype.c: buzzobj_serialize, buzzobj_deserialize"]}
{"id": "C18", "title": "Deserialisation is memory safe and terminates on any input", "statement": "On an arbitrary byte buffer and start position deserialising a value terminates, reads only bytes inside the buffer, and returns either failure or a position strictly after the start and at most the buffer size, unless a table key of unsupported type (process abort) or an unknown type byte (out-of-range read in the error message) occurs.", "quantifier": "all byte buffers and start positions", "why_tests_cant": "adversarial buffers cannot be enumerated", "anchors": ["src/buzz/buzztype.c: buzzobj_deserialize", "src/buzz/buzzmsg.c: buzzmsg_deserialize_*"]}
{"id": "C19", "title": "Swarm messages in the output queue stay consistent", "statement": "At any time at most one list message is queued; if one is queued there is no join or leave message; no swarm id is queued twice as join or twice as leave; and no id is queued both as join and as leave. The queued information always tells receivers the sender's latest join/leave decision for each id.", "quantifier": "all sequences of join, leave, list broadcast and dequeue operations", "why_tests_cant": "interleavings of application calls and radio steps", "anchors": ["src/buzz/buzzoutmsg.c: buzzoutmsg_queue_append_swarm_list, buzzoutmsg_queue_append_swarm_joinleave, buzzoutmsg_queue_next"]}
{"id": "C20", "title": "At most one stigmergy message per key, the newest", "statement": "For every stigmergy id and key at most one put or query message is queued, and its timestamp is the maximum of those appended since the last one for that key was sent.", "quantifier": "all sequences of append and dequeue operations", "why_tests_cant": "depends on the bookkeeping dictionary staying in step with two queues over every history", "anchors": ["src/buzz/buzzoutmsg.c: buzzoutmsg_queue_append_vstig, buzzoutmsg_queue_next"]}
{"id": "C21", "title": "Output queue drains in priority order", "statement": "first always shows the message that next removes; messages leave in the order broadcast, list, put, query, join, leave, first-in first-out inside each class; repeating first/next empties the queue after exactly size steps.", "quantifier": "all queue states", "why_tests_cant": "needs all combinations of six queues", "anchors": ["src/buzz/buzzoutmsg.c: buzzoutmsg_queue_first, buzzoutmsg_queue_next, buzzoutmsg_queue_size"]}
{"id": "C22", "title": "Input queue delivers every message exactly once", "statement": "Extracting until empty yields every appended (sender, payload) pair exactly once, with the right sender, and terminates. Messages of one sender come out last-in first-out, not first-in first-out as documented.", "quantifier": "all sequences of append and extract", "why_tests_cant": "depends on sender ids colliding in buckets", "anchors": ["src/buzz/buzzinmsg.c: buzzinmsg_queue_append, buzzinmsg_queue_extract"]}
{"id": "C23", "title": "Stigmergy merge is commutative, associative and idempotent", "statement": "With the default conflict manager, the entry a robot holds for a key after receiving a set of put messages does not depend on their order or duplication: it is the maximum in the order (timestamp, non-nil, robot id), provided messages with equal timestamp and robot carry equal data.", "quantifier": "all finite multisets of entries and all delivery orders", "why_tests_cant": "factorially many orders", "anchors": ["src/buzz/buzzvm.c: buzzvm_process_inmsgs (BUZZMSG_VSTIG_PUT)", "src/buzz/buzzvstig.c: buzzvstig_onconflict_call"]}
{"id": "C24", "title": "Stigmergy replicas agree without deletions", "statement": "In any execution of any number of robots doing non-nil puts and receiving puts over a network that may lose, duplicate, delay and reorder messages, timestamps of a key never decrease at a robot, two entries with the same timestamp and robot have the same data, and whenever two robots have each received every message for a key they hold the same value, provided fewer than 65534 updates are made to the key.", "quantifier": "all executions, all numbers of robots, all schedules", "why_tests_cant": "distributed schedules cannot be enumerated", "anchors": ["src/buzz/buzzvstig.c: buzzvstig_put", "src/buzz/buzzvm.c: buzzvm_process_inmsgs"]}
{"id": "C25", "title": "Stigmergy deletion is not safe from resurrection", "statement": "Putting nil removes the local entry without a tombstone, so a late or repeated older put message restores the deleted value; a delete followed by a new put restarts at timestamp 1 and loses against older values elsewhere.", "quantifier": "existence of executions (refutation of delete convergence)", "why_tests_cant": "needs a specific late delivery", "anchors": ["src/buzz/buzzvstig.c: buzzvstig_put", "src/buzz/buzzvm.c: buzzvm_process_inmsgs"]}
{"id": "C26", "title": "Default conflict decision and lost-conflict hook", "statement": "On equal timestamps from different robots, if exactly one value is nil the non-nil one wins, otherwise the higher robot id; the lost-conflict hook is invoked exactly when the replaced local entry was written by this robot and the winner was not; the winner is stored and forwarded.", "quantifier": "all pairs of entries and robot ids", "why_tests_cant": "complete decision table", "anchors": ["src/buzz/buzzvstig.c: buzzvstig_onconflict_call, buzzvstig_onconflictlost_call", "src/buzz/buzzvm.c: buzzvm_process_inmsgs"]}
{"id": "C27", "title": "Stigmergy local semantics", "statement": "After put(k,v) with v not nil a local get(k) returns v until a newer entry arrives, put(k,nil) makes get(k) return nil, other keys are unaffected, size counts keys, each effective put queues one put message with a timestamp one above the previous one, and each get queues a query.", "quantifier": "all stores and operation sequences", "why_tests_cant": "quantifies over all histories of a key", "anchors": ["src/buzz/buzzvstig.c: buzzvstig_put, buzzvstig_get, buzzvstig_size, buzzvstig_create"]}
{"id": "C28", "title": "Neighbour swarm membership table follows the news", "statement": "A robot is reported in a swarm exactly when the latest relevant news from it (join, leave, or list) says so and no 51 consecutive updates without a message from it came after that news.", "quantifier": "all sequences of join, leave, list and update events from all robots", "why_tests_cant": "aging interacts with every message order", "anchors": ["src/buzz/buzzswarm.c: buzzswarm_members_join, buzzswarm_members_leave, buzzswarm_members_refresh, buzzswarm_members_update, buzzswarm_members_isrobotin"]}
{"id": "C29", "title": "Own swarm membership API", "statement": "join makes in() true, leave makes it false, select(c) sets it to c, create keeps existing membership, others is the complement, union, intersection and difference are the Boolean combinations (an unknown swarm counts as one the robot is not in); join, leave, select, in and others on an unknown swarm are errors; each change that makes the robot a member queues an announcement.", "quantifier": "all membership states and operation sequences", "why_tests_cant": "all combinations of ids and states", "anchors": ["src/buzz/buzzswarm.c: buzzswarm_create, buzzswarm_join, buzzswarm_leave, buzzswarm_select, buzzswarm_in, buzzswarm_others, buzzswarm_union, buzzswarm_intersection, buzzswarm_difference"]}
{"id": "C30", "title": "Swarm execution is scoped", "statement": "exec runs the closure exactly when the robot is a member; while it runs the swarm's id is on top of the swarm stack, and after it returns the swarm stack is as before.", "quantifier": "all membership states, all nestings of exec", "why_tests_cant": "unbounded nesting", "anchors": ["src/buzz/buzzswarm.c: buzzswarm_exec, buzzswarm_id", "src/buzz/buzzvm.c: buzzvm_call, buzzvm_ret0, buzzvm_ret1"]}
{"id": "C31", "title": "kin and nonkin partition the neighbours", "statement": "Inside a swarm context every neighbour appears in exactly one of kin() and nonkin(), with unchanged pose data, and kin() holds exactly those known to be in the current swarm; with no swarm context kin() is everything and nonkin() is empty.", "quantifier": "all neighbour tables, membership tables and swarm stacks", "why_tests_cant": "all combinations of tables", "anchors": ["src/buzz/buzzneighbors.c: buzzneighbors_kin, buzzneighbors_nonkin"]}
{"id": "C32", "title": "Instruction fetch stays inside the bytecode", "statement": "If the machine is ready with its program counter inside the bytecode, then after any step either it is not ready or the program counter is again inside the bytecode, and instruction arguments are read only inside the bytecode.", "quantifier": "all bytecodes and machine states", "why_tests_cant": "arbitrary, including malicious, bytecode", "anchors": ["src/buzz/buzzvm.c: buzzvm_step, assert_pc, inc_pc, get_arg"]}
{"id": "C33", "title": "Error and completion are sticky", "statement": "Once a script is done or in error, further steps change nothing; function_call revives a done machine but not one in error.", "quantifier": "all machine states and numbers of steps", "why_tests_cant": "all states", "anchors": ["src/buzz/buzzvm.c: buzzvm_step, buzzvm_execute_script, buzzvm_function_call"]}
{"id": "C34", "title": "Instructions never underflow the operand stack", "statement": "Every instruction that finds too few operands or operands of the wrong type puts the machine in error instead of reading outside the stack, except a call with a negative argument count and a return or local access outside any function.", "quantifier": "all bytecodes and stack contents", "why_tests_cant": "arbitrary programs", "anchors": ["src/buzz/buzzvm.c: buzzvm_step and the instruction functions", "src/buzz/buzzvm.h: buzzvm_stack_assert, buzzvm_type_assert"]}
{"id": "C35", "title": "Call and return discipline", "statement": "Calling a script closure with n arguments makes the callee see self and the arguments as locals 0..n, and on return the caller continues at the next instruction with the operands replaced by exactly one result and its own locals and lower stacks untouched.", "quantifier": "all closures, argument lists and callee bodies that return normally", "why_tests_cant": "unbounded call depth", "anchors": ["src/buzz/buzzvm.c: buzzvm_call, buzzvm_ret0, buzzvm_ret1"]}
{"id": "C36", "title": "Calling back into the machine from C", "statement": "closure_call on a script closure runs until that closure returns and leaves exactly one result; on a C closure one further bytecode instruction of the interrupted program is executed.", "quantifier": "all closures and programs", "why_tests_cant": "the fault depends on what instruction follows", "anchors": ["src/buzz/buzzvm.c: buzzvm_closure_call, buzzvm_function_call"]}
{"id": "C37", "title": "Integer arithmetic is exact or undefined", "statement": "For integer operands +, -, * give the mathematical result when it fits in 32 bits and are undefined otherwise; / truncates; % lies in [0,b) for b > 0 and is congruent to a; division by zero and INT_MIN / -1 are undefined. Non-number operands are a type error; +, -, *, / leave the operands in place, % and ^ remove them.", "quantifier": "all pairs of 32-bit integers", "why_tests_cant": "2^64 pairs", "anchors": ["src/buzz/buzzvm.c: buzzvm_binary_op_arith, buzzvm_mod, buzzvm_unm"]}
{"id": "C38", "title": "Truth is judged the same everywhere", "statement": "jumpz, jumpnz, and, or, not and filter agree on which values are false: nil and integer 0 only.", "quantifier": "all values", "why_tests_cant": "all values and all instructions", "anchors": ["src/buzz/buzzvm.c: buzzvm_binary_op_logic, buzzvm_lnot, buzzvm_step (JUMPZ, JUMPNZ)", "src/buzz/buzztype.c: buzzobj_filter_entry"]}
{"id": "C39", "title": "Variables hold what was stored", "statement": "Loading a global or local after a store yields the stored value; other variables are unaffected; a global never stored is nil.", "quantifier": "all states and all variable names", "why_tests_cant": "aliasing between ids", "anchors": ["src/buzz/buzzvm.c: buzzvm_gload, buzzvm_gstore, buzzvm_lload, buzzvm_lstore"]}
{"id": "C40", "title": "Assembler output decodes to the source program", "statement": "Assembling a program and reading the bytecode back instruction by instruction gives the same instructions with each label replaced by the position of the instruction it marks; every jump target is inside the bytecode and on an instruction boundary; an unknown label is an error.", "quantifier": "all assembly programs below 2^31 bytes", "why_tests_cant": "unbounded programs and label layouts", "anchors": ["src/buzz/buzzasm.c: buzz_asm, buzz_asm_labsub, buzz_deasm"]}
{"id": "C41", "title": "String constants keep their identity from compiler to machine", "statement": "The compiler numbers string literals by first occurrence, writes them in that order, and the loader registers them so that pushing constant i yields the i-th string.", "quantifier": "all programs with at most 65535 distinct NUL-free strings loaded in a fresh machine", "why_tests_cant": "relies on agreement of three components", "anchors": ["src/buzz/buzzparser.c: string_add", "src/buzz/buzzasm.c: buzz_asm", "src/buzz/buzzvm.c: buzzvm_set_bcode, buzzvm_pushs"]}
{"id": "C42", "title": "Compiled expressions compute the expression", "statement": "Running the code emitted for an arithmetic/logic expression pushes exactly one value, the one given by direct evaluation with the language's precedence, and leaves the rest of the stack untouched.", "quantifier": "all expressions and all initial stacks", "why_tests_cant": "unbounded expressions", "anchors": ["src/buzz/buzzparser.c: parse_condition, parse_comparison, parse_expression, parse_product, parse_modulo, parse_power, parse_operand", "src/buzz/buzzvm.c: buzzvm_step"]}
{"id": "C43", "title": "Compiled control flow follows the source", "statement": "Code emitted for if/else, while and for executes the bodies exactly as the structured semantics prescribes, with balanced stacks.", "quantifier": "all statements and all executions", "why_tests_cant": "unbounded loops", "anchors": ["src/buzz/buzzparser.c: parse_if, parse_for, parse_while, parse_block"]}
{"id": "C44", "title": "The lexer makes progress", "statement": "Every token request consumes at least one character or ends the input, so lexing any file terminates; include cycles are cut.", "quantifier": "all source texts and include graphs", "why_tests_cant": "termination over all inputs", "anchors": ["src/buzz/buzzlex.c: buzzlex_nexttok"]}
{"id": "C45", "title": "String literals denote their characters", "statement": "A literal without backslashes yields exactly the characters between the quotes. With an escape the result also contains characters beyond the closing quote.", "quantifier": "all source texts", "why_tests_cant": "test programs rarely look past the literal", "anchors": ["src/buzz/buzzlex.c: buzzlex_newstring, buzzlex_nexttok"]}
{"id": "C46", "title": "String library laws", "statement": "length(concat(a,b)) = length(a)+length(b); sub(s,0,length(s)) = s; concat(sub(s,0,n), sub(s,n)) = s for 0<n<length; results depend on contents only.", "quantifier": "all strings and in-range positions", "why_tests_cant": "all strings", "anchors": ["src/buzz/buzzstring.c: buzzstring_length, buzzstring_sub, buzzstring_concat"]}
{"id": "C47", "title": "Uniform random integers are in range", "statement": "rng.uniform(a,b) with a <= b and b-a < 2^31 returns an integer between a and b inclusive, for every generator state; the generator index stays inside its table.", "quantifier": "all generator states and bounds", "why_tests_cant": "2^19937 states", "anchors": ["src/buzz/buzzmath.c: buzzmath_rng_uniform, mt_uniform32, mt_setseed"]}
{"id": "C48", "title": "Debug information is a consistent two-way map", "statement": "After recording any sequence of (offset, position) pairs, the position of an offset is the last recorded one and the offset of a position is the smallest recorded for it; breakpoints behave as a set.", "quantifier": "all recording sequences", "why_tests_cant": "all histories", "anchors": ["src/buzz/buzzdebug.c: buzzdebug_info_set, buzzdebug_breakpoint_set, buzzdebug_breakpoint_remove"]}
{"id": "C49", "title": "Radio packets carry messages intact", "statement": "The receiver of a packet built by the controller queues exactly the payloads put into it, in order, with the sender's id; messages that do not fit stay queued and only oversize ones are dropped.", "quantifier": "all queues and packet sizes from 5 to 65535 bytes", "why_tests_cant": "all fill levels of the packet including 1 or 2 spare bytes", "anchors": ["src/buzz/argos/buzz_controller.cpp: ProcessInMsgs, ProcessOutMsgs"]}
{"id": "C50", "title": "Table higher-order functions", "statement": "map, filter, reduce and foreach visit each entry once in the same order: map keeps the non-nil results under their keys, filter keeps entries judged true unchanged, reduce folds.", "quantifier": "all tables and all pure closures", "why_tests_cant": "all table shapes", "anchors": ["src/buzz/buzztype.c: buzzobj_foreach, buzzobj_map, buzzobj_filter, buzzobj_reduce"]}
{"id": "C51", "title": "Swarm list broadcast period", "statement": "A robot that knows at least one swarm queues a membership list every ten calls of process_outmsgs, and never otherwise.", "quantifier": "all numbers of steps and membership states", "why_tests_cant": "long runs", "anchors": ["src/buzz/buzzvm.c: buzzvm_process_outmsgs"]}
{"id": "C52", "title": "Topic dispatch", "statement": "A received broadcast invokes exactly the closure last registered with listen for that topic and not ignored since, with topic, value and sender id; other topics are ignored.", "quantifier": "all sequences of listen, ignore and receive", "why_tests_cant": "all histories", "anchors": ["src/buzz/buzzneighbors.c: buzzneighbors_listen, buzzneighbors_ignore", "src/buzz/buzzvm.c: buzzvm_process_inmsgs (BUZZMSG_BROADCAST)"]}
{"id": "C53", "title": "Local variable slots agree between compiler and machine", "statement": "At every point of a compiled function the number of local slots at run time equals the number of symbols the compiler has in scope, so that each name reads the slot it was written to, also after blocks remove their variables. This needs that variables in skipped or repeated parts are declared in blocks, that calls have as many arguments as parameters and that no parameter has the name of a variable of the function around it; a declaration as the sole body of an if leaves the machine with fewer slots than symbols, and a parameter that repeats an outer name reads the outer variable.", "quantifier": "all nestings of blocks and declarations", "why_tests_cant": "all programs", "anchors": ["src/buzz/buzzparser.c: parse_block, parse_var, sym_add", "src/buzz/buzzvm.c: buzzvm_lstore, buzzvm_lremove"]}
{"id": "C54", "title": "Swarm messages are understood as sent", "statement": "The payload queued for a join, leave or non-empty list message, when received, changes the receiver's membership table exactly as the news says; an empty list is ignored; every non-empty payload has a defined effect.", "quantifier": "all ids, lists of up to 65535 ids, membership tables and byte strings", "why_tests_cant": "all payloads", "anchors": ["src/buzz/buzzoutmsg.c: buzzoutmsg_queue_first", "src/buzz/buzzvm.c: buzzvm_process_inmsgs"]}
{"id": "C55", "title": "String objects keep their characters", "statement": "Over any sequence of allocations, table writes, clones, registrations and collections, every string object in the heap refers to characters that are registered in the string manager under its id.", "quantifier": "all execution histories", "why_tests_cant": "the characters are freed by a different collection than the object; a mismatch shows only as corrupted text", "anchors": ["src/buzz/buzzheap.c: buzzheap_gc, buzzheap_obj_mark", "src/buzz/buzzstrman.c: buzzstrman_gc_mark, buzzstrman_gc_prune"]}
{"id": "C56", "title": "Memory safety of a whole run", "statement": "From loading any bytecode on, after any number of steps every reference held by the machine (stacks, symbols, closures, tables, listeners, queues) is to an existing object of the heap, and a step ends other than normally only for one of a short list of named causes.", "quantifier": "all bytecode of up to 2^31-1 bytes, all run lengths, all registered C functions that keep the machine's references valid", "why_tests_cant": "all bytecode and all histories of allocation and collection", "anchors": ["src/buzz/buzzvm.c: buzzvm_set_bcode, buzzvm_step, buzzvm_gc", "src/buzz/buzzheap.c: buzzheap_gc"]}
{"id": "C57", "title": "Objects travel between robots unchanged", "statement": "An object serialised from one robot's heap and deserialised into another robot's heap stands for exactly the same value, and nothing already in the receiver's heap or string table changes.", "quantifier": "all heaps, all acyclic objects the wire format supports, all surrounding bytes", "why_tests_cant": "all object graphs, and all states of the receiver", "anchors": ["src/buzz/buzztype.c: buzzobj_serialize, buzzobj_deserialize", "src/buzz/buzzstrman.c: buzzstrman_register"]}
{"id": "C58", "title": "Numbers as text", "statement": "tostring of an integer is its decimal text (minus sign, no leading zeros), and toint of that text is the integer again.", "quantifier": "all 32-bit integers", "why_tests_cant": "all integers", "anchors": ["src/buzz/buzzstring.c: buzzstring_tostring, buzzstring_toint"]}
{"id": "C59", "title": "The random generator follows its recurrence", "statement": "From any state of the generator the words drawn are the tempered values of the Mersenne Twister recurrence, whatever mixture of calls draws them; a state set from the same seed gives the same sequence of results, and the sequence continues for ever.", "quantifier": "all generator states of 624 words, all seeds, all numbers of draws and mixtures of library calls", "why_tests_cant": "the state is regenerated only every 624 draws, and sequences are infinite", "anchors": ["src/buzz/buzzmath.c: buzzmath_rng_setseed, buzzmath_rng_uniform"]}
{"id": "C60", "title": "Rounding, absolute value, minimum and maximum", "statement": "floor, ceil and round of a number give the integer that mathematics says, whenever it fits 32 bits; abs gives the absolute value except for the smallest integer; min and max of two numbers give the smaller and the larger of them.", "quantifier": "all 32-bit integers and all finite single-precision numbers", "why_tests_cant": "rounding is exact arithmetic over all floats, and ties and large values are rare", "anchors": ["src/buzz/buzzmath.c: buzzmath_floor, buzzmath_ceil, buzzmath_round, buzzmath_abs, buzzmath_min, buzzmath_max"]}
{"id": "C61", "title": "Distribution parameters come from the arguments", "statement": "gaussian(s), gaussian(s,m) and exponential(m) take each parameter from the argument documented for it, whether it is an integer or a float.", "quantifier": "all numeric arguments and generator states", "why_tests_cant": "a wrong argument index yields plausible random numbers", "anchors": ["src/buzz/buzzmath.c: buzzmath_rng_gaussian, buzzmath_rng_exponential"]}
{"id": "C62", "title": "Debug files restore debug information", "statement": "Reading the file written from debug information into a fresh structure gives every offset the position it had; names of up to 511 bytes are read inside the buffer; reading into existing information adds to it.", "quantifier": "all sets of entries, in any order of writing", "why_tests_cant": "all file contents, and the buffer boundary is hit by one length only", "anchors": ["src/buzz/buzzdebug.c: buzzdebug_tofile, buzzdebug_fromfile"]}
{"id": "C63", "title": "Running to a breakpoint", "statement": "buzzdebug_continue executes instructions up to the first breakpoint or the end of the run; it is then stopped exactly if it is at a breakpoint; continuing from a breakpoint makes progress.", "quantifier": "all programs, breakpoints and machine states", "why_tests_cant": "all programs and all placements of breakpoints", "anchors": ["src/buzz/buzzdebug.c: buzzdebug_continue"]}
{"id": "C64", "title": "Lexing yields the tokens of the text", "statement": "The lexer's tokens are those of the source text in order, with their lines and columns: blanks and comments are skipped, the longest mark or word is taken, an included file's tokens take the place of the include, and a file being read already is not read again. Something unreadable ends the tokens exactly like the end of the file.", "quantifier": "all source texts of the token grammar and all file systems", "why_tests_cant": "token boundaries depend on all neighbouring characters", "anchors": ["src/buzz/buzzlex.c: buzzlex_nexttok, buzzlex_file_new"]}
{"id": "C65", "title": "Compiled programs do what they mean", "statement": "Compiling a source text that is a program, assembling the result, loading it on a new machine and executing it ends in the state that the meaning of the program gives (all global variables, tables and functions), or stops with the error the meaning gives, or goes on as long as the meaning does; the size of the bytecode is linear in the size of the program.", "quantifier": "all programs of the grammar with at most 65535 strings without newlines, all host environments", "why_tests_cant": "all programs and all executions; a compiler bug shows only in particular combinations of phrases", "anchors": ["src/buzz/buzzparser.c: buzzparser_parse", "src/buzz/buzzasm.c: buzz_asm", "src/buzz/buzzvm.c: buzzvm_set_bcode, buzzvm_execute_script"]}
{"id": "C66", "title": "The compiler accepts exactly the language", "statement": "Compilation ends on every source text. A file is written exactly if the text is empty or its tokens form a list of statements allowed by the grammar and the scope rules, ended by the end of the text or by a closing brace that closes nothing; the file written then does what the statements mean. Undefined behaviour is possible only in reporting an error at the end of the text or if a function's name is later declared as a variable.", "quantifier": "all source texts and file systems", "why_tests_cant": "all texts, well-formed or not, of any length and nesting", "anchors": ["src/buzz/buzzparser.c: parse_script and all parsing functions, buzzparser_parse"]}
{"id": "C67", "title": "Programs find and use the machine's library", "statement": "When buzzvm_set_bcode has loaded a compiled program, every function of the library is where its name says: the functions type, int, float, clone, size, foreach, map, reduce, filter, isnil, isint, ... are global variables, and those of neighbors, stigmergy, swarm, math, math.rng, io and string are fields of these tables with the table as their self; id is the robot's number, math.pi and io.errno have their values, and all variables with other names and all objects of the script are as before. A function of the script that has the name of a library global is replaced. A program that calls functions of types, string and math, neighbors.get and neighbors.count then does what it means, as for programs without library: it ends in the state it means, stops with the error it means, or goes on, unless the machine gets more than 65533 different strings.", "quantifier": "for all program texts that the compiler accepts with at most 65000 strings, all robot ids, all initial states, all other C functions that keep the machine's invariant, and all numbers of steps", "why_tests_cant": "the registration runs after arbitrary script definitions and the calls happen in arbitrary programs; the interplay of tables, self, string numbers and garbage collection cannot be enumerated", "anchors": ["src/buzz/buzzvm.c:653-705", "src/buzz/buzztype.c:222-310", "src/buzz/buzztype.c:620-684", "src/buzz/buzzstring.c:9-225", "src/buzz/buzzmath.c:76-200", "src/buzz/buzzmath.c:400-460", "src/buzz/buzzneighbors.c:23-62", "src/buzz/buzzio.c:9-64", "src/buzz/buzzswarm.c:275-288", "src/buzz/buzzvstig.c:31-43"]}
{"id": "C68", "title": "The script library string.bzz does what its comments say", "statement": "Executing include/string.bzz after buzzvm_set_bcode has registered the library adds the functions charat, indexoffirst, indexoflast and split to the table string and changes nothing else. Then string.charat(s, n) is the character at place n, nil behind the end; string.indexoffirst(s, m) and string.indexoflast(s, m) are the first and the last place where m occurs in s, nil if there is none; string.split(s, d) is a new table of the non-empty parts of s between characters of d, in order. Two deviations hold as stated: indexoflast with a text of at most one character always answers the place behind the last one where it fits, whether it occurs or not, and with a strcmp that answers the difference of the first different characters, texts whose difference is 2 are found although they do not occur. The file, compiled, assembled and run on the machine, reaches the state described.", "quantifier": "for all strings, places and delimiters (length + 1 below 2^31, strcmp that never answers 2 where occurrence is claimed), all states in which the library is registered, all states of the machine's memory", "why_tests_cant": "the scripts loop over strings of every length and rely on comparison, string.sub and table semantics; the two deviations appear only for special texts and are invisible on the usual examples", "anchors": ["src/include/string.bzz:1-94", "src/buzz/buzzstring.c:39-120", "src/buzz/buzzvm.c:120-140", "src/buzz/buzztype.c:136-260"]}
{"id": "C69", "title": "Float arithmetic is that of the standard, except for the modulo operator", "statement": "For operands of which at least one is a float, +, -, *, / convert integers to floats and yield the exact result rounded to the nearest float, ties to even, beyond the largest float infinity; infinities and NaN follow the IEEE rules (zero without sign). ^ yields powf of the operands. a % b of two floats is the remainder of the division towards zero, with b added if it is negative; for b > 0 it lies between 0 and b and is a float; for a = -2^-149, b = 1 it is b itself. For mixed operands the same holds if a is not negative; otherwise the number added is the float with the bits of the integer or the integer with the bits of the float. Unary minus negates. A float literal has the value of its sign, exponent and digits.", "quantifier": "all pairs of floats and integers, all bit patterns of literals, all machines with valid memory", "why_tests_cant": "2^64 pairs of operands; rounding, ties, subnormal numbers and the mixed case with negative operands are not in the test scripts", "anchors": ["src/buzz/buzzvm.c: buzzvm_binary_op_arith, buzzvm_mod, buzzvm_pow, buzzvm_unm, BUZZVM_INSTR_PUSHF", "src/buzz/buzzvm.c:1430-1536"]}
{"id": "C70", "title": "The sorting functions of the table script sort", "statement": "Running the script table.bzz on a machine with the library defines the functions of the table `table`. table.swap(t,i,j) exchanges two elements of a list and changes nothing else. table.cmp_number(a,b) is 1 if a is not greater than b, else 0, for two integers and for two floats. table.sort(t,c) ends for every list of fewer than 2^31-1 elements and every comparison function c that is total and transitive on them: the table then holds a permutation of the elements in ascending order, and no other table that existed changes; with cmp_number it sorts integers and floats other than NaN. Of the globals it changes only partition, qsort and pivot; it leaves its helper functions in the first two. table.swap(t,i,size(t)), which table.shuffle may perform, leaves a table that holds no list. The compiler accepts the text of the script, and the machine that executes the bytecode, whenever the garbage collector runs, ends with these functions in place, unless it interns more than 65533 strings on the way.", "quantifier": "all lists of all lengths below 2^31-1, all comparison functions, all states in which the script is loaded, all compilers' string tables and all schedules of the collector", "why_tests_cant": "termination and sortedness for all lists and comparators need an induction over the recursion of the script; tests sort a few lists", "anchors": ["src/include/table.bzz:1-60", "src/buzz/buzzvm.c: buzzvm_tget, buzzvm_tput", "src/buzz/buzzvm.c: buzzvm_call"]}
{"id": "C71", "title": "A robot does in every round what its program means", "statement": "The controller loads the bytecode of a program with the library, carries out the host's commands that set up functions and variables, executes the script, calls its function init, and then in every round carries out the host's commands of that round, which write sensor readings into variables, calls the function step and drops its value. For every program, every set-up and every sequence of rounds: if the meaning of the program is that all of this ends, the machine is ready for the next round after it, its stacks are empty, and its variables, tables and functions are those of the meaning; if the script, init or the call in some round fails, the machine is in the error state with that error and stays exactly as it is in all later rounds; if a call does not end in the meaning, it does not end on the machine. The exception is a machine that comes to have more than 65533 different strings, or has no room for those of a command. For the program `function init() { n=0 } function step() { n=n+v }` and any readings v that are not negative with a sum below 2^31, n is their sum after the rounds.", "quantifier": "all source texts in the grammar, all set-ups, all numbers of rounds and all readings, all schedules of the collector, all robot ids", "why_tests_cant": "the number of rounds is unbounded and a value left on a stack or a collected object in round k shows only later; tests run a few rounds of a few controllers", "anchors": ["src/buzz/argos/buzz_controller.cpp:534-569", "src/buzz/argos/buzz_controller.cpp:582-633", "src/buzz/buzzvm.c:1006-1067"]}
{"id": "C72", "title": "A robot knows its neighbors by the readings of the round", "statement": "Before the first readings neighbors.count() is 0 and neighbors.get(i) is nil. At the start of a round the controller forgets the neighbors and adds every reading of the range-and-bearing sensor (the robot's number, distance, azimuth, elevation). Afterwards neighbors.count() is the number of different robots among the readings of this round, neighbors.get(i) is nil if there is none of robot i and otherwise a table whose fields distance, azimuth and elevation are those of the last reading of i; nothing of earlier rounds is left, no global variable and no function has changed, and the other entries of the table neighbors are as before. In a program these two functions and the readings do on the machine what they mean (C71). For the program `function init() { n=0 } function step() { n=neighbors.count(); p=neighbors.get(7); if(p) d=p.distance }` and any readings in any number of rounds, n is in the end the number of different robots of the last round and d the distance in the last reading of robot 7 in all rounds.", "quantifier": "all states in which neighbors is a table with string keys, all lists of readings in all rounds, all numbers of rounds, all robot ids below 65536", "why_tests_cant": "the readings, their number and the number of rounds are unbounded, tables grow and are collected between rounds; tests use a few robots for a few rounds", "anchors": ["src/buzz/buzzneighbors.c:67-131", "src/buzz/buzzneighbors.c:319-338", "src/buzz/buzzneighbors.c:613-626", "src/buzz/argos/buzz_controller.cpp:745-759"]}
{"id": "C73", "title": "A broadcast carries the value as it was when broadcast was called", "statement": "neighbors.broadcast(topic, value) with a string and a value that can be sent returns nil, changes no existing object and no variable and appends one message to the queue of broadcasts. From then on, as long as this message is in the queue, whatever the script does (assignments into the tables of the value included), whatever the host does through the interface, whatever broadcasts arrive and are read, and whatever is garbage collected, the payload made of the message consists of the serialised topic and the serialised value as it was at the time of the call. On a machine that receives this payload and on which a closure listens to the topic, this closure and nothing else is called, with the topic, an object that stands for exactly what the value stood for at the sender at the time of the call, and the sender's id.", "quantifier": "all machine states in which broadcast is entered, all values without cycles whose tables are proper and that can be sent, all later executions of arbitrary bytecode and actions of the host, all receiving machines", "why_tests_cant": "the value may be any nested table, the script may change it in any way before the message is sent, and collections may happen at any instruction in between; tests look at a few values and schedules", "anchors": ["src/buzz/buzzneighbors.c:136-150", "src/buzz/buzzoutmsg.c:143-153", "src/buzz/buzzoutmsg.c:365-378", "src/buzz/buzzheap.c:61-125", "src/buzz/buzzvm.c:251-275"]}
{"id": "C74", "title": "A robot's stigmergies over its whole life are what the events say", "statement": "Take a machine without stigmergies and any sequence of events: instructions of the script that do not call stigmergy functions, stigmergy.create, put, get and size called by the script, put and query messages received as bytes, and messages taken from the queue and sent. Then for each key of each stigmergy: every get gives the value that the events before it leave under the key, at the end the machine holds exactly the entry (value, timestamp, robot) that the events leave, every message about the key that is sent carries exactly the entry that the events leave waiting, and the messages about the key in the queues at the end are exactly what the events leave waiting. What events leave is defined per key: create empties, put writes with the next timestamp and tells the others, the more recent of two entries wins (timestamp, then a value before nil, then the larger robot number) and is passed on, a message replaces only an older waiting one. Strings are compared by their characters, whatever numbers they have on a machine. A message sent by one robot is received by another as the event with the same stigmergy, key, value, timestamp and robot.", "quantifier": "all lives of a machine (lists of events of any length), all keys that are all integers or all strings, all values that are numbers, strings or nil, all bytecode between the events; without conflict managers", "why_tests_cant": "the number of interleavings of local writes, received gossip and sending is unbounded, and the tie-breaking, replacement of queued messages, string numbers and garbage collection interact; tests fix a few schedules", "anchors": ["src/buzz/buzzvstig.c:155-240", "src/buzz/buzzvstig.c:286-345", "src/buzz/buzzoutmsg.c:311-363", "src/buzz/buzzoutmsg.c:395-475", "src/buzz/buzzvm.c:276-430"]}
{"id": "C75", "title": "A swarm of machines with a stigmergy converges", "statement": "Take any number of robots, each a machine that has created a stigmergy, and any execution in which at each moment one robot runs instructions, calls put, get or size, takes a message from its queue and sends it, or receives as bytes a message that some robot sent (messages may be lost, delayed, repeated or reordered). Nobody deletes the key or creates the stigmergy again, and at most 65535 values are put under the key. When nothing about the key is left in any robot's queues, any two robots that received what the others sent about the key have the same value, timestamp and robot stored under it, and this entry is the greatest (timestamp, then robot number) of all entries written. At every moment, what a robot has stored was written by some robot, and two robots' entries with equal timestamp and robot have equal values.", "quantifier": "all numbers of robots, all executions (interleavings, losses, repetitions, delays), all keys that are all numbers or all strings and all values that are numbers, strings or nil, whatever numbers strings have on the machines; without conflict managers", "why_tests_cant": "the swarm's executions are unboundedly many and long, and convergence depends on every robot's queue, merge and resend decision together; tests run a few robots on one schedule", "anchors": ["src/buzz/buzzvstig.c:286-345", "src/buzz/buzzvm.c:276-430", "src/buzz/buzzoutmsg.c:311-475"]}
{"id": "C76", "title": "What a robot and its peers know of swarms, over its whole life", "statement": "A robot runs its script and in any order calls swarm.create, union, intersection, difference and the methods join, leave, in, select, others of swarms, ends control steps, sends swarm messages and receives them as bytes. At every moment the robot is in exactly the swarms the calls so far put it in; in() answers that; the messages it sends are those the calls and control steps require, a list every ten control steps among them; and it believes another robot to be in a swarm exactly if the messages received say so. Nothing else the script does changes any of this. A robot that received all messages, in order and never more than 50 updates apart, believes, with what still waits, every member to be in; and exactly the truth about a swarm if the robot never left it silently since the last list was made. Calls on unknown swarms end the script and change nothing. Departures by others and by set operations are silent, an empty list is ignored and can leave a departure unknown for ever, and a set operation of things that are not swarms makes the robot a member before the error.", "quantifier": "all scripts, all sequences of calls, control steps, sends and receptions, all swarm numbers below 65535, all interleavings with the rest of the machine", "why_tests_cant": "membership, its announcements and the beliefs of the others come from queues, counters and tables whose interplay over time has unboundedly many histories; tests look at a few calls", "anchors": ["src/buzz/buzzswarm.c:41-620", "src/buzz/buzzoutmsg.c:160-305", "src/buzz/buzzvm.c:433-501"]}
{"id": "C77", "title": "Higher-order functions call the script's function once per entry", "statement": "foreach, map, reduce and filter, called with a table and a function of the script, call that function exactly once for each entry of the table, in the order of the table, with the entry's key and value (reduce also with the accumulator, the result of the call before), each time on the machine left by the call before. foreach returns nil, reduce the last result, map a new table with the result of each call that is not nil under the key of its entry and nothing else, filter a new table with the entries whose call did not return nil or 0 and nothing else; the caller's stack, symbols and place in the program are as before. If a call fails there are no further calls and the failure is what the caller sees. This holds as long as no call changes the table that is visited, and for callbacks that call functions of the library in turn. A callback that removes entries makes the loop undefined or skip entries, one that assigns to the entry visited makes it visit that one twice and others never, one that adds entries may see them as well.", "quantifier": "all tables, all functions of the script, whatever they do, all machines in the middle of a program, all C functions that return properly", "why_tests_cant": "the loop runs in C while the callback runs arbitrary code that collects garbage and can reach the same table; tests see a few tables and harmless callbacks", "anchors": ["src/buzz/buzztype.c:297-513", "src/buzz/buzzdict.c:163-178", "src/buzz/buzzvm.c:1006-1026"]}
{"id": "C78", "title": "The functions of neighbors visit each neighbor once and return tables that work like neighbors", "statement": "neighbors.foreach, map, reduce and filter, called with a function of the script, call it exactly once for each neighbor of which there are data, in the order of the table, with the neighbor's id and data (reduce also with the accumulator), each time on the machine left by the call before. foreach returns nil and reduce the last result. map and filter return a new table with all the methods of neighbors; its data are, for map, the result of each call under the id of the neighbor (also if it is nil) and nothing else, and, for filter, the neighbors whose call did not return nil or 0 and nothing else. kin and nonkin return such a table with exactly the neighbors that are, respectively are not, known to be members of the swarm on top of the swarm stack; outside any swarm kin has all neighbors and nonkin a table without data. The caller's stack, symbols and place in the program are as before. If a call fails there are no further calls. All this holds as long as no call changes the table visited. A callback that removes a neighbor makes the loop undefined, and so does count() if the script has put something else than a table into the field of the data.", "quantifier": "all tables of neighbors, all functions of the script, whatever they do, all machines in the middle of a program with room for the names of the methods, all C functions that return properly, all memberships", "why_tests_cant": "a new table with its closures is built on the garbage-collected heap while callbacks run arbitrary code; tests see a few neighbors and harmless callbacks", "anchors": ["src/buzz/buzzneighbors.c:22-46", "src/buzz/buzzneighbors.c:206-314", "src/buzz/buzzneighbors.c:343-626", "src/buzz/buzzdict.c:163-178"]}
{"id": "C79", "title": "foreach of a virtual stigmergy calls the script's function once for each entry", "statement": "s.foreach(f) for a stigmergy s and a function f of the script calls f exactly once for each entry of the robot's copy of the stigmergy, in the order of its dictionary, with the key, the value and the robot that wrote it, each time on the machine left by the call before, and returns nil to the caller, whose stack, symbols and place in the program are as before. If a call fails there are no further calls. All this holds as long as no call changes the stigmergy. If there is no stigmergy with the number of s nothing is called and nil is returned; an argument that is no function and any other number of arguments than one are errors. The methods of the table made by stigmergy.create are the functions with those names. A callback may write the entry it is called for and add entries; one that removes entries makes the loop undefined or leave out entries, and one that creates the stigmergy again makes it undefined.", "quantifier": "all stigmergies, all functions of the script, whatever they do, all machines in the middle of a program with room for the name of the field, all C functions that return properly", "why_tests_cant": "the dictionary is walked while arbitrary code runs that can write to it, with results piling up on the stack; tests see a few entries and harmless callbacks", "anchors": ["src/buzz/buzzvstig.c:249-281", "src/buzz/buzzvstig.c:155-187", "src/buzz/buzzdict.c:163-178"]}
{"id": "C80", "title": "A conflict manager of a virtual stigmergy gets both entries, and its answer is stored", "statement": "When a put or a query is in conflict with the local entry (same timestamp, different robot) and the script has set a conflict manager, the manager is called with the key and two fresh tables that hold robot, value and timestamp of the local and of the received entry; stack, symbols and place in the program are otherwise as before. If it returns a table with an integer field robot, an entry with that robot (modulo 65536), the value of the field data (nil if missing) and the timestamp of the local entry is stored under the key, other keys, other stigmergies and the managers staying as they are, and is queued for sending. If it returns anything else nothing is stored or queued. If the robot's own entry loses against another robot the function set with onconflictlost is called with the key and a table of the lost entry, after the winner has been stored. The stack grows by one object for each lost conflict with such a function and for each invalid answer. A manager that removes the entry makes the program undefined.", "quantifier": "all managers of the script, whatever they do, all entries and values, all machines with room for the names of the fields, all C functions that return properly", "why_tests_cant": "the manager is arbitrary code run in the middle of the handling of a message; a growing stack and memory used after it was freed do not show in short runs", "anchors": ["src/buzz/buzzvstig.c:406-471", "src/buzz/buzzvstig.c:476-494", "src/buzz/buzzvm.c:306-334", "src/buzz/buzzvm.c:395-424"]}
{"id": "C81", "title": "Calling a function under the debugger", "statement": "buzzdebug_closure_call on a ready or stopped machine with a closure of the script and its arguments on the stack enters the closure and executes instructions up to the first breakpoint, the return of the call or the end of the run; it is then stopped exactly if it has come to a breakpoint. Without breakpoints it does what a call without debugger does from there. The null pointer it puts below the closure has no effect. In other states nothing happens. Calling something that is no closure leaves a type error, but the state is stopped if there is a breakpoint at the current place, and the null pointer stays on the stack. buzzdebug_function_call does the same for the closure a name stands for; with arguments it is undefined.", "quantifier": "all programs, breakpoints, closures, numbers of arguments and machine states", "why_tests_cant": "all programs and all placements of breakpoints; the wrong pointer is invisible unless the call fails", "anchors": ["src/buzz/buzzdebug.c: buzzdebug_closure_call", "src/buzz/buzzdebug.c: buzzdebug_function_call"]}
{"id": "C82", "title": "Writing and reading entries of tables on the machine", "statement": "With a value, a key that is an integer, a float or a string, and a table on the stack, buzzvm_tput takes the three off the stack and changes only that table: a nil value erases the entry of the key, a closure is stored as a new closure with the same code and symbols but the table as first symbol, any other value is stored as it is; entries of other keys stay. buzzvm_tget then gives the object stored under a key, or a new nil. The instructions tput and tget of buzzvm_step do the same on all objects that survive the garbage collection before them, and go on to the next instruction.", "quantifier": "all machine states that satisfy the invariant, all tables with keys that can be compared with each other, all keys and values, also a table stored in itself", "why_tests_cant": "all tables, keys and heaps cannot be enumerated; that nothing else changes is a statement about every object", "anchors": ["src/buzz/buzzvm.c: buzzvm_tput", "src/buzz/buzzvm.c: buzzvm_tget", "src/buzz/buzzvm.c: buzzvm_step"]}
