# Design

Subject: the Buzz language runtime, compiler and radio framing in `/repo/src/buzz` (C, plus one C++ controller). The sources are
read as text; nothing is built or run.

## Trusted base

* Lean 4.33.0's kernel; the Mathlib modules that are imported, all checked by the same kernel.
* Axioms: at most `propext`, `Classical.choice`, `Quot.sound`. No axiom is declared here, there is no `sorry`/`admit`, no
  `native_decide`, no `bv_decide`. The appendix lists the axioms of every theorem in `MANIFEST.json`, as printed by `#print axioms`.
* The model is a hand translation: each definition cites the C lines it renders. That the translation is faithful is trusted, as is a
  C implementation with 32-bit `int`, 64-bit pointers and `long`, two's complement, arithmetic right shift, IEEE-754 binary32 `float` under
  round-to-nearest-even with `FLT_EVAL_METHOD == 0`, and unaligned reads of 16 and 32 bits that work.
* `malloc`/`realloc` never return NULL. libc functions (`strcmp`, `memmove`, `frexpf`, ...) behave as the C standard says; character
  classes are those of the C locale.

## Outcomes

C code that has undefined behaviour on an input is modelled with an explicit outcome `Res.ub` (`Verif/Basic.lean`), `abort()` with
`Res.abort`, and a loop that does not terminate with `Res.hang`. A theorem that says an operation succeeds therefore also says it has
no undefined behaviour. Functions whose loops need not terminate take fuel; `hang` then means that the fuel was used up, and theorems
quantify over the fuel ("for all sufficiently large m").

## Layers

1. Containers: `Darray`, `Sort`, `Dict`, `Tree`, `Strman`. Above them, arrays are lists and dictionaries finite maps (`FMap`),
   which C01-C05 justify.
2. Values and messages: `F32`, `F32Round`, `F32Near`, `Msg`, `MsgFloat`, `Obj`, `Value`, `Table`.
3. Heap: `Heap` (objects at addresses, mark and sweep), `HeapClone`, `HeapWire`.
4. Queues and shared state: `OutMsg`, `InMsg`, `Packet`, `Vstig`, `Swarm`, `Period`, `Listen`, `Broadcast` (with `Apart`, `ApartLib`: what the script cannot reach stays as it is), `Stig` (stigmergies on the machine, with `StigSim`, `StigStory`, `StigCreate`, `StigRun`, `StigView`, `StigNet`, `StigEach`, `StigMgr`), `SwarmRun` (swarms on the machine, with `SwarmTale`, `SwarmSim`, `SwarmLife`).
5. Machine: `VM` (instructions, loading), with `VMInv`, `VMSafe`, `VMStep`, `VMCalls`, `PcFlow` about it; `SwarmExec`, `StringLib`, `MathLib`,
   `Hof`, `HofRun` (with `Fixed`, `Callback`, `HofSim`, `HomeLib`: functions of the script called from C), `Debug` for the functions called from scripts and the debugger.
6. Tool chain: `Lex`, `Parser`, `Asm`.
7. Meaning of programs and correctness of the tool chain: `Syntax` (grammar), `Sem`, `SemShape`, `SemVals` (interpreter of the abstract
   syntax); `Comp*` (what the compiler does on a phrase), `Place`, `Sim*` (compiled code follows the meaning), `Emit`, `Link`, `Whole`,
   `Boot`, `Run` (from text to the end of execution), `SemLib`, `TypeLib`, `NbrLib`, `LibSim`, `Install*`, `Equip` (the library in programs), `Slots*` (local slots), `Parse*` (what the compiler accepts is the grammar).

Property theorems are in `Verif/Props/*.lean`; everything else is model or lemma.

## What is modelled, file by file

| file | modelled | not modelled |
|------|----------|--------------|
| buzzdarray.c | all operations, on the raw buffer; quicksort | element destruction is a log of calls |
| buzzdict.c, buzzset.c | all operations; destruction as a log | string hash (`buzzdict_strkeyhash`): hashes are parameters |
| buzzstrman.c | register, get, gc | printing |
| buzzheap.c | allocation, clone, mark, sweep, thresholds | C stack depth of the recursive mark |
| buzztype.c | comparison, hashing, serialisation, clone, foreach/map/reduce/filter, type, int, float, size, is*, registration | printing of objects |
| buzzmsg.c | all | - |
| buzzoutmsg.c, buzzinmsg.c | queues, priorities, serialised sizes | - |
| buzzvstig.c | create, put, get, size, receiving puts and queries, on values (`Vstig`) and on the machine (`Stig`); `onconflict`, `onconflictlost`; `foreach` (`StigEach`); calls of the managers (`StigMgr`) | - |
| buzzneighbors.c | reset, add, get, count (in programs); kin, nonkin, foreach, map, reduce, filter (abstract callbacks in `Hof`, on the machine in `NbrRun`); listen, ignore, broadcast, dispatch | - |
| buzzswarm.c | membership table, create, id, join, leave, in, select, others, exec, broadcast of membership | printing |
| buzzvm.c | every instruction, loading, calls from C, garbage collection, message processing | `buzzvm_dump`, `buzzvm_strerror`, destruction |
| buzzstring.c | length, sub, concat, toint, tostring | tofloat |
| buzzmath.c | abs, floor, ceil, round, min, max, rng.* | functions that only call libm (log, exp, sin, ...) |
| buzzio.c | registration | the functions (file I/O) |
| buzzdebug.c | offset maps, breakpoints, reading and writing debug files, the stepping loop, `buzzdebug_closure_call`, `buzzdebug_function_call` (`Verif/DebugCall.lean`) | stack dump, backtrace |
| buzzlex.c | all of the character level, includes | `fopen`/`realpath`/`BUZZ_INCLUDE_PATH` are a function; `strncat` into a fixed buffer (25-67) is not bounded in the code and not modelled |
| buzzparser.c | all parsing functions, symbol tables, string numbering, chunks, assembly text, registration of functions | error messages, except that the one which reads an empty lexer stack is `ub` |
| buzzasm.c | assembling, disassembling | error messages; text layout of the disassembler |
| argos/buzz_controller.cpp | `ProcessInMsgs`, `ProcessOutMsgs`, `SetBytecode` from `buzzvm_set_bcode` on, `ControlStep` | everything about robots and the simulator |
| include/string.bzz | the whole text (`Bzz.stringBzz`) | - |
| include/table.bzz | the whole text (`tableBzz`) | the bodies of `max`, `maxkey`, `min`, `minkey`, `print`, `shuffle` |
| other include/*.bzz | - | all |
| other argos/*, *_main.c, buzzrun.c | - | all |

## Simplifications and parameters

* `float`: exact rationals with rounding, infinities and NaN. `+0` and `-0` are one value, so a division by -0 gives the sign of +0.
* Addresses are never reused, so a dangling pointer is always recognised. Objects are collected at the beginning of an instruction only
  (as in the code).
* Reading a local slot that was never written (a gap left by `lstore` beyond the end) is undefined already when the gap is made.
* `strcmp`, `powf`, `strtof`, the integer with the bits of a float, and the byte order of the host are parameters.
* C functions called from scripts are a parameter `F`. Where needed it is assumed that they keep the memory invariant (`FOk`), return to their
  caller (`CReturns`, `FBack`), and leave protected strings alone (`FFixed`). Scripts themselves are arbitrary bytecode.
* The random number generator is passed beside the machine.
* `buzzdict_foreach` order: that of the buckets in the container layer; in the assembler and compiler, where only the result matters, an
  arbitrary permutation (`order`).
* Inserting the self object for a call from C on a stack without closure and arguments, where the unsigned position wraps, is `hang`.
* Positions in message buffers are natural numbers: buffers are taken to be shorter than 2^32 - 65536 bytes, bytecode below 2^31 bytes.
* In C20 to C27 stigmergy entries hold values and conflict managers are pure functions. In C74 entries are objects of the machine; conflict managers are
  a parameter of the function that receives messages (`onStig`), given by `stigMgr` and `stigLost` in C80. A manager that removes the entry in conflict is `ub`; one that removes it and
  puts it back in the same call is not noticed, though the C code then uses the freed entry.
* Callbacks of foreach, map, reduce and filter act on an abstract machine state in `Hof` and do not change the table visited; on the machine (`HofRun`, `NbrRun`, `StigEach`) they can. In `StigEach` a callback that creates the stigmergy again is noticed only when the new one has no entry where the loop is. There, an
  entry that is removed and put back with the same objects during a call of `map` or `filter` is not noticed, and the loop over a bucket and each call are bounded by `m`.
* `qsort` in the assembler is a stable sort; the keys are distinct positions.
* The lexer is given to the compiler as its list of tokens and a flag whether all files are closed at the end; C64/C65 connect the two.
* Labels are numbers; the symbol file (`.bst`) lines are given.
* `swarm.exec` and its undo are modelled at the level of the machine's swarm stack (`SwarmExec`).
* ARGoS `CByteArray`: `<<` and `PopFront` of 16-bit integers are taken to be inverse.
* The interpreter of the abstract syntax (`Sem`) calls `odd` what it leaves open: undefined operations of C, calls with a wrong number of arguments,
  tables with mixed key types, objects of the host, functions made in blocks outside functions, shadowing parameters.
* A truncated string in a message makes the code create an object with a NULL string; the model reports `ub` before the object exists.
* C65 is about machines that execute only the program; C67 is about all of `buzzvm_set_bcode` (653-705), which registers the libraries after the
  script's functions. There the functions of neighbors other than `get` and `count`, of stigmergy, swarm, io, `clone`, `foreach`, `map`, `reduce`, `filter`, `tofloat`, the random numbers and the wrappers of
  libm are `odd` in the meaning: programs that call them are not covered by C67 from that call on.

## Property by property

"M" = what is modelled, "P" = how it is proved.

| id | plan |
|----|------|
| C01 | M: the array as a raw buffer with capacity, size and element width, 32-bit wrap of the allocation size, uninitialised slots. P: each operation refines the list operation under a representation relation; induction over operation sequences. |
| C02 | M: the Lomuto partition and quicksort on index ranges. P: loop invariant, well-founded recursion, permutation and sortedness. |
| C03 | M: buckets as optional association lists, generic hash/compare. P: refinement to a function key -> option data, induction over operations. |
| C04 | M: C03's model with a log of destructor calls. P: conservation invariant: stored = present + destroyed as multisets. |
| C05 | M: the unbalanced tree. P: search-tree invariant, refinement to a finite set. |
| C06 | M: id counter, two maps, protection flag. P: bijection invariant over register/collect; the pigeonhole argument gives termination. |
| C07 | M: the id tree and the mark/prune cycle. P: equality of the live set with a set-builder specification. |
| C08 | M: object graph with addresses, recursive mark with the marker test, sweep loop. P: mark computes exactly the reachability relation; sweep keeps exactly marked objects. |
| C09 | M: histories of allocation/mutation/collection. P: invariant "all markers equal the current one". |
| C10 | M: clone as a recursive function on the heap graph. P: structural equality and freshness by induction on the value. |
| C11, C12 | M: the comparison function on values and the six operators. P: laws by case analysis over Int and lists of bytes; refutation witnesses for nil. |
| C13 | M: tables as C03 dictionaries with the value hash/compare. P: instance of C03 after proving lawfulness for homogeneous keys; refuted for mixed keys. |
| C14-C16 | M: byte-level serialisers. P: round trip in any context; floats through an exact rational model of binary32 with round-to-nearest-even. |
| C17, C18 | M: recursive value (de)serialiser. P: round trip by induction on values; safety and progress for all buffers by well-founded induction on remaining bytes. |
| C19-C21 | M: the six queues and the stigmergy dictionary. P: invariants over all operation sequences. |
| C22 | M: the sender dictionary of payload arrays. P: multiset conservation. |
| C23-C27 | M: store, put, get, receive put/query, default conflict handling. P: merge is max of a total order (semilattice); distributed transition system with a lossy, duplicating, reordering network and inductive invariants; refutation traces for deletion. |
| C28 | M: membership table with ages. P: refinement to a spec computed from the event history. |
| C29, C30 | M: swarm dictionary operations and swarm stack. P: direct plus induction over operation sequences. |
| C31 | M: the two filters. P: partition theorem over all tables. |
| C32-C39 | M: the bytecode interpreter, one function per instruction, with undefined behaviour explicit. P: invariants of `step`. |
| C40, C41 | M: assembler and decoder on byte lists; string section. P: round trip by induction. |
| C42, C43, C53 | M: code generation of the parser on abstract syntax with its emission order. P: compiler correctness by induction on syntax against a big-step semantics. |
| C44, C45 | M: character-level lexer. P: progress lemma; refutation witness for escapes. |
| C46 | M: string functions on byte lists. P: list laws. |
| C47 | M: the generator index and the range computation. P: arithmetic bounds. |
| C48 | M: debug maps and breakpoints. P: refinement. |
| C49 | M: packet builder and reader over bytes. P: round trip. |
| C50 | M: loops over table entries with a pure closure. P: equality to list functions. |
| C51 | M: counter. P: induction on the number of calls. |
| C52 | M: listener dictionary and dispatch. P: refinement over histories. |
| C54 | M: the bytes of join, leave and list messages and their reading. P: round trip; safety for all bytes. |
| C55 | M: string objects and the string manager over histories. P: invariant of the histories of C09. |
| C56 | M: the interpreter. P: memory invariant `VInv` of `step`; `Outcome` lists the only ways to leave it; C functions are called by their number only if registered (`C56_registered`). |
| C57 | M: serialisation of heap objects. P: C17 lifted to heap graphs. |
| C58 | M: `toint`, `tostring`. P: decimal digits as lists. |
| C59-C61 | M: the Mersenne twister on 32-bit numbers, rounding, uniform/gaussian/exponential. P: arithmetic; witnesses. |
| C62, C63 | M: reading and writing debug files; the debugging interpreter loop. P: round trip; fixpoint. |
| C64 | M: the lexer. P: every text of lexemes gives their tokens. |
| C65 | M: lexer, compiler, assembler, loader, interpreter. P: composition of the simulation theorems. |
| C66 | M: the same. P: weakest preconditions of the parsing functions by induction on the fuel: success means a phrase of the grammar (soundness); C65 gives the converse. |
| C67 | M: the registration at the end of `set_bcode`, the functions of types, strings and numbers. P: the registration is evaluated once for the empty state and moved to any state; the simulation of C65 with functions of the host. |
| C68 | M: the text of `include/string.bzz` with the lexer, compiler, machine and library of C67. P: the syntax tree is computed by a parser proved sound; loops by induction over the string in the meaning of programs (`Sem`). |
| C69 | M: `binV`, `modV`, `unV`, `ofBits` of the machine, floats as rationals with rounding. P: against the definition of rounding to nearest even; the remainder is unique. |
| C70 | M: the text of `include/table.bzz` with the lexer, compiler, machine and library of C67; `table.max`, `maxkey`, `min`, `minkey`, `print` and `shuffle` are defined but their bodies are not described (`reduce`, `foreach` and the random numbers are outside `Sem`). P: quicksort in the meaning of programs (`Sem`) by induction over the length of the part, the partition loop by an invariant; the comparison function is a parameter of which only its results and that it leaves the tables alone are assumed (`Compares`). |
| C71 | M: `CBuzzController::SetBytecode` and `ControlStep` with `buzzvm_function_call` and `buzzvm_closure_call`; what `RegisterFunctions` and `UpdateSensors` do to the machine is any list of the commands of `Install` (push, store, register). Not modelled: messages during a round, functions of the controller in the meaning (`odd`), the printed error. P: the simulation of C65 with a floor of stacks below the call, one call at a time, induction over the rounds; `C71_sum` by an invariant on the meaning. |
| C72 | M: `buzzneighbors_reset`, `buzzneighbors_add`, `get` and `count`, called by the controller before `step` in the order of `ProcessInMsgs` (745-759). Not modelled: the messages in the packets. Restriction: a program for which the controller adds neighbors has to contain the name `neighbors` (otherwise it could not use them by name). P: the simulation of C67 and C71 extended by these commands and functions; in the meaning an invariant relates the table to the list of readings. |
| C73 | M: `buzzneighbors_broadcast` with `buzzoutmsg_queue_append_broadcast`, the payload of `buzzoutmsg_queue_first`, the host's actions on the machine (`Act`). Not modelled between call and sending: received stigmergy and swarm messages. P: no way leads from the script to the addresses of the clone (`Apart`, an invariant of every instruction and C function), the queue is a root of the collector, and the serialiser reads only these addresses; cloning gives an object that stands for the same trees. |
| C74 | M: `buzzvstig_create`, `put`, `get`, `size`, `onconflict`, `onconflictlost` on the machine, receiving of stigmergy messages as bytes, the queues of puts and queries with `buzzoutmsg_queue_append_vstig`, the payload and `buzzoutmsg_queue_next` for them. Restrictions of the theorem about lives: keys all integers or all strings, values no tables or closures, no conflict manager, fewer than 65534 strings. Not part of a life: `foreach` of a stigmergy (C79); broadcasts and swarm messages, which go before stigmergy messages in the queue, are not part of the sending event. P: the machine's dictionaries and queues are related to the finite maps of `Vstig` (`Mirror`), each function by symbolic execution, then an abstraction to one key (`View`) with strings by their characters. |
| C75 | M: the machines of C74, several of them. `Swarm` has one act of one robot at a time; a received message must have been sent before (`Heard`), otherwise the network is free to lose, repeat and reorder. Same restrictions as C74; the robots begin after the stigmergy was created, and the key is not deleted. P: the execution is followed, for the key alone, by the robots of C24 (`swarm_net`), whose events agree with those of the machines (`Agree`); then C24. |
| C76 | M: the C functions of buzzswarm.c on the machine (`Verif/SwarmRun.lean`), `buzzvm_process_outmsgs`'s list, sending of swarm messages, receiving them as bytes, ageing. `SwLife` is any sequence of these with any other work in between; C functions are entered with the arguments they ask for, succeed, and have room for their strings; swarm number 65535 is left out (C19). `swarm.id` and `exec` are in the machine (`swFuns`, `C76_step`) but not events of a life; the swarm stack is not part of it (`SwarmExec` has it, C29). `C76_known` assumes that all messages arrive, in order, none of them an empty list, with at most 50 updates between two. Other messages in the queues go first and are not in the life. P: `Tale` (`Verif/SwarmTale.lean`) says what the calls make of memberships and of what waits; `life_is` follows a life by it; `truth_told` is about tales alone. |
| C77 | M: `foreach`, `map`, `reduce`, `filter` of buzztype.c and `buzzdict_foreach` on the machine with real calls of closures (`Verif/HofRun.lean`); the bucket is read again in each iteration, as in C. The function must be one of the script (C functions: C36) and the machine must have entered the C function with the arguments it asks for. C functions called by the callback must keep memory valid (`FOk`), return (`FHome`), reach nothing they are not given (`FApart`) and change no objects but tables (`FFirm`): `std_all` for the modelled library with room for strings; higher-order functions called by a callback are not covered by this, only by examples. The alternative `Disturbed` is a call after which the table is not what it was. P: what a callback can and cannot change (`Apart`, `Fixed`, `Callback`), the loop by induction over buckets and positions (`HofSim`). |
| C78 | M: `make_table` and `foreach`, `map`, `reduce`, `filter`, `kin`, `nonkin` of buzzneighbors.c on the machine with real calls of closures (`Verif/NbrRun.lean`). The machine must have entered the method with the arguments it asks for; the field `poses` must be a table; there must be room for ten more strings. C functions as in C77. `Prepared` is the machine with more objects and strings and another stack; `own` are the objects of the new table, which callbacks cannot reach. P: the new table step by step (`NbrMake`), then as C77; kin and nonkin from C31. Tables without `poses` (`nonkin` outside of swarms returns one) are in `C78_missing_*`: no calls, 0, nil, or again such a table. |
| C79 | M: `foreach` of buzzvstig.c on the machine with real calls of closures (`Verif/StigEach.lean`); the loop as in C77, over the dictionary of the stigmergy. The machine must have entered the method with one argument, the table must have its number and there must be room for one more string. C functions as in C77. `StigDisturbed` is a call after which the stigmergy is not what it was. P: as C77. |
| C80 | M: `buzzvstig_onconflict_call` and `buzzvstig_onconflictlost_call` with real calls of closures (`Verif/StigMgr.lean`), put in place of the parameters of `stigConflict`. `FieldAt`, `NoField` and `EntryTable` say what a table made of an entry holds, `MgrBack` what there is after the call, `StoredIn` what storing changes. Room for six more strings before the manager and two after it. C functions as in C77. P: as C77, and the byte order of messages. |
| C81 | M: `buzzdebug_closure_call` and `buzzdebug_function_call` (`Verif/DebugCall.lean`); the null pointer they put below the closure is a parameter `x` of the model. P: induction on the rounds of the loop; the pointer is dropped on entering the closure. |
| C82 | M: `tput` and `tget` (`Verif/VM.lean`). P: the dictionary laws behind C13 lifted to the heap (`Verif/Props/TableInstr.lean`); induction on the writes for `C82_writes`. Keys are from a set on which the comparison is an equality; mixed keys are in C13. |

## Where the code deviates from what a user would expect

With theorem names where there is one; "not proved" marks observations made while reading.

Containers and heap
* `buzzdarray_set` beyond the end enlarges the array, contrary to its header (`C01_set_beyond_end_grows`). An array made from an empty buffer has capacity 0 and
  its first growth aborts (`C01_from_empty_buffer`).
* Removing a set member whose node has two children also destroys another member that stays in the set (`C05_remove_destroys_a_live_member`).
* Registering a string when all 65536 numbers are taken never returns (`C06_exhaustion_hangs`).
* Comparing a large float with a string overflows a buffer (`C11_float_print_overflow`); comparison is not transitive across int and float
  (`C11_not_transitive_int_float`); nil against anything gives 2, so all six operators yield 1 (`C11_nil`, `C12_one_nil`); a `strcmp` result of 2 makes
  different strings equal (`C12_strcmp_two`); NaN equals every float (`C12_nan`). `buzzobj_eq`, which nothing calls, never finds two strings equal (`C11_eq_strings`). Tables with keys of mixed types lose entries (`C13_mixed_keys_collide`).

Messages
* Big-endian hosts cannot read their own messages (`C14_big_endian_host_broken`). Strings of 65536 characters, tables of 256 entries and closures in a table do not
  survive (`C15_long_string_lost`, `C17_large_table_lost`, `C17_nested_closure_lost`). Infinity and NaN are undefined (`C16_nonfinite_undefined`).
* Four defects are reachable from the network (`C18_remote_defects`); a topic that is no string is undefined (`C52_malformed_topic`); packets shorter than their
  header are read past the end (`C49_short_packet_undefined`); a truncated list claims swarm 0 (`C54_truncated_list_claims_zero`). A truncated
  broadcast value is passed on (`C52_cut_value`).
* The input queue delivers last in, first out (`C22_not_fifo`). With id 65535 a list of all ids would wrap (excluded in C19).
* Deleting from a stigmergy is undone by old messages, replicas can diverge after it, and timestamps wrap (`C25_*`). Setting `onconflict` twice
  is undefined (`C74_manager_twice`). A table that was put is the script's object: changing it changes the robot's entry without a new timestamp, while the message
  has a copy (`C74_alias`).

Swarms
* `select` keeps eight bits (`C29_select_truncates`); `others` announces no departure (`C29_others_silent`); set operations accept unknown swarms
  (`C29_setop_unknown`); `swarm.id(0, ..)` reads out of bounds (`C29_id_zero`), and `swarm.id(n)` ignores its argument unless there is a second one (`C76_here`). One leave does not undo a repeated id (`C28_repeated_id`). Set operations are carried out
  before the type error of their arguments ends the script, and count them as swarms the robot is in (`C76_setop_type_error`). Set operations announce no departure either. A list without
  swarms is ignored by receivers (buzzvm.c 441), so that a departure can stay unknown (`C76_forgotten`).

Higher-order functions
* A callback that removes the only entry of a bucket from the table visited makes `buzzdict_foreach` undefined; if there are more, the next one is skipped, and `map` and `filter` use the freed
  key (`C77_removing`). Assigning to the entry visited moves it to the end of its bucket: it is visited twice and another one never (`C77_assigning`). Entries added are visited if they
  come later in the order of the table (`C77_adding`). The same loop is used by `neighbors` (`C78_removing`). `neighbors.map` keeps nil results, unlike `map` (`C78_nil`).
  `foreach` of a stigmergy: a callback that removes the only entry of a bucket or creates the stigmergy again makes the loop undefined, removing another entry leaves one out; writing the entry
  visited is fine, unlike with tables (`C79_removing`, `C79_changing`).
  A conflict manager that removes the entry it is called for makes the program undefined (`C80_changing`). What the function for lost conflicts returns, and any answer of a manager that is no entry, stays
  on the stack, one object per message (`C80_stack`).

Machine
* A closure called from C is not checked before the first fetch (`C32_closure_call_unchecked`); a done machine is revived by a function call
  (`C33_done_revived`); negative argument counts and a return outside a function are undefined (`C34_exceptions`); for closures of C functions a call from C
  executes one more instruction (`C36_c_closure`); `%` leaves the divisor's range for negative divisors (`C37_negative_divisor`); overflow and division by zero are undefined
  (`C37_undefined` for the divisions).
* `%` with a negative operand and mixed int and float reads the wrong member of a union (`C69_mod_wrong`); with floats it can yield the divisor itself (`C69_mod_divisor`).
* `lremove` of too many slots reports an error but removes them (`C34_lremove`); `buzzvm_function_call` with arguments uses the wrong pointer (`C36_arguments`);
  `set_bcode` trusts the string count (`C56_string_count`).

Libraries
* `sub` of the whole empty string is nil and a negative start undefined (`C46_sub_empty`, `C46_negative_start`); numbers out of range wrap and `tostring` of a
  non-number is undefined (`C58_wraps`, `C58_tostring_nil`).
* Random ranges of 2^31 and more are undefined, (1,-1) gives 1, float bounds are exceeded by rounding or become infinite (`C47_wide`, `C47_negative`, `C47_float_above`,
  `C47_float_infinite`); seeding differs from the published generator (`C59_seed_deviates`); gaussian and exponential mishandle their arguments (`C61_*`).
* Debug files: names of 512 bytes are terminated outside the buffer, the result is inverted (`C62_name_512`, `C62_result`); continuing from a breakpoint makes no
  progress (`C63_stuck`); calling what is no closure at a breakpoint is reported as a stop, with a null pointer left on the stack (`C81_hidden`); functions cannot be
  called by name with arguments (`C81_function`).
* `string.indexoflast(s, m)` with at most one character in `m` always gives the length of `s` plus one minus that of `m` (`C68_indexoflast_short`);
  `string.indexoffirst("c", "a")` is 0 with a `strcmp` that gives differences (`C68_indexoffirst_two`).
* `table.sort` assigns the globals `partition`, `qsort` and `pivot`, so it replaces variables of these names (`C70_sort_leaks`); `table.cmp_number` returns 0 where
  its comment promises nil (`C70_cmp_integers`); `table.shuffle` may ask for `table.swap(t, i, size(t))` because `math.rng.uniform` includes its upper bound
  (`C47_top`), which takes the element `i` out of the list (`C70_swap_end`).
* `neighbors.count()` after a script has put something else than a table into `neighbors.poses` reads it as a table (`C78_count`).
* Scripts cannot define functions with the names of the library: the registration silently replaces them (`C67_library`, example in `Props/Library.lean`).

Language
* Literals with escapes contain characters beyond the closing quote (`C45_wrong`).
* A declaration as sole body of an `if` breaks the numbering of slots, a parameter with the name of an outer variable reads the outer one
  (`C53_conditional_declaration`, `C53_conditional_declaration_ub`, `C53_shadowing_parameter`).
* A lexer error after a complete statement, or a stray `}` at top level, silently ends the program (`C66_truncated`, `C66_ignored`); some error messages at the end of the
  text read an empty stack (`C66_message`); declaring a function's name as a variable afterwards reads freed memory (`C66_redeclared`). Newlines and semicolons have no
  significance at all (in C66 they are not among the tokens that count), so `return` takes an expression on the next line as its value.
* Concrete programs in `Props/Pitfalls.lean`, compiled, assembled and run by the model: the empty script ends in an error (`C65_empty`); `x = a and b` needs parentheses
  (`C66_parentheses`); the end of a line ends no statement (`C66_newline`); unary minus binds tighter than `&` before a constant and looser before a variable (`C42_minus`);
  `and`/`or` evaluate both sides (`C42_eager`); multi-line literals do not advance the line number (`C64_lines`); a function made in a block outside functions takes `self` for
  its first parameter (`C53_block_function`) and variables of such blocks are undefined (`C53_block_variable`); the assembler rejects what the compiler writes for a string with
  a newline (`C41_newline`).
* With more than 65535 strings the assembler writes the count modulo 65536 and the machine executes the characters of strings (`C41_count_wraps`, `C41_too_many`).
* Reading a table with a key that is no number or string is undefined, since the message formats a number as a string, while writing is an error (`C13_read_bad_key`,
  `C13_write_bad_key`, `C13_nil_key`); float keys of at most -1 or at least 2^32 are undefined (`C13_float_key`).

## Testing the theorems

`seeded/LOG.jsonl` records wrong programs: edits of model definitions, the claim each breaks, and the theorems whose proofs failed.

## Appendix: axioms

* `propext`, `Classical.choice`, `Quot.sound`: C01_array_refines_list, C01_set_beyond_end_grows, C01_from_buffer, C02_sort_ordered_permutation, C03_dict_is_finite_map, C04_foreach_exact, C04_dispose_exact, C05_set_is_a_set, C06_ids_injective, C06_register, C07_string_collection_exact, C07_protected_survives, C08_collection_exact, C09_every_collection_exact, C09_no_dangling, C09_marker_wraps, C10_clone_copies, C10_independent, C11_int, C11_float, C11_string, C11_mixed, C11_float_print_overflow, C11_not_transitive_int_float, C11_nil, C11_table, C11_eq, C11_eq_types, C12_integers, C12_trichotomy, C12_floats, C12_strings, C12_tables, C12_one_nil, C12_both_nil, C12_nan, C12_strcmp_two, C13_table_laws, C13_int_keys, C13_string_keys, C13_mixed_keys_collide, C13_write_bad_key, C13_read_bad_key, C13_float_key, C13_read_defined, C13_nil_key, C14_u32, C15_long_string_lost, C16_float_exact, C16_nonfinite_undefined, C17_value_roundtrip, C17_distinct_keys, C17_large_table_lost, C17_nested_closure_lost, C18_deserialise_safe, C18_remote_defects, C18_heap_safe, C19_swarm_queue, C20_one_newest, C21_first_next, C21_drain, C21_fifo_broadcast, C21_fifo_vstig, C21_fifo_swarm, C22_exactly_once, C22_empty_iff, C22_lifo, C23_merge, C23_order_total, C24_monotone, C24_agree, C24_converge, C26_default_conflict, C27_put, C27_put_nil, C27_get, C28_membership_follows_news, C28_silence_forgets, C28_short_silence, C29_step, C29_runs, C30_exec, C31_partition, C31_no_swarm, C32_step, C32_always, C32_closure_call_unchecked, C33_final, C33_error_stays, C33_done_revived, C34_too_few, C34_call_too_few, C34_wrong_type, C34_exceptions, C34_lremove, C35_call, C35_return, C36_script_closure, C36_c_closure, C36_arguments, C37_add_sub_mul, C37_div, C37_mod, C37_undefined, C37_type_error, C37_neg, C37_negative_divisor, C38_logic, C38_jumps, C39_store_global, C39_load_global, C39_global_roundtrip, C39_store_local, C39_load_local, C39_only, C40_assembles, C40_unknown, C40_readback, C40_targets, C40_deasm_any, C41_numbering, C41_push, C41_newline, C41_too_many, C42_expression, C42_arithmetic, C42_eager, C42_minus, C43_statement, C43_statements, C43_seq, C43_ite, C43_if, C43_while, C43_while_forever, C43_for, C44_terminates, C44_progress, C44_cycles, C46_length, C46_concat, C46_sub_from, C46_sub_range, C46_length_concat, C46_sub_whole, C46_sub_empty, C46_sub_split, C46_concat_assoc, C46_length_errors, C46_negative_start, C47_index, C47_range, C47_top, C47_range_one, C47_plain, C47_wide, C47_negative_range, C47_range_float, C47_range_floats, C47_float_above, C47_float_infinite, C48_script, C49_packets, C49_receive_safe, C50_map, C50_neighbors_map, C50_filter, C51_lists, C52_history, C52_runs, C52_functions, C52_ignored, C52_called, C52_script_closure, C52_malformed_topic, C52_cut_value, C53_slots, C53_in_range, C53_program, C53_capture, C53_enter, C53_names, C53_conditional_declaration_ub, C53_shadowing_parameter, C53_block_variable, C53_block_function, C54_list, C55_string_objects_registered, C56_memory, C56_causes, C56_registered, C57_transfer, C58_tostring, C58_roundtrip, C58_wraps, C58_tostring_nil, C59_exists, C59_temper, C59_untemper, C59_setseed, C59_seed_word, C60_round_int, C60_floor, C60_ceil, C60_round, C60_abs, C60_min_max_int, C60_min_max_float, C60_min_strings, C60_abs_special, C61_gaussian_one, C61_gaussian_two, C61_exponential, C62_roundtrip, C62_adds, C62_name_512, C63_continue, C63_other, C63_stuck, C64_tokens, C64_lines, C65_program, C65_empty, C66_ends, C66_accepts, C66_means, C66_ignored, C66_truncated, C66_message, C66_redeclared, C66_newline, C66_parentheses, C67_library, C67_program, C68_load, C68_charat, C68_indexoffirst, C68_indexoflast, C68_indexoflast_short, C68_indexoffirst_two, C68_split, C68_source, C68_machine, C69_rounds, C69_exact, C69_arith, C69_pow, C69_mod, C69_mod_range, C69_mod_float, C69_mod_divisor, C69_mod_mixed, C69_mod_wrong, C69_neg, C69_literal, C70_load, C70_swap, C70_swap_end, C70_cmp_integers, C70_cmp_floats, C70_sort, C70_sort_leaks, C70_sort_integers, C70_sort_floats, C70_source, C70_machine, C71_robot, C71_stopped, C71_sum, C72_before, C72_readings, C72_watch, C72_stopped, C73_snapshot, C73_delivered, C73_functions, C74_life, C74_refines, C74_step, C74_start, C74_create, C74_put, C74_get, C74_size, C74_gossip, C74_alias, C74_manager_twice, C75_converge, C75_real, C76_life, C76_members_known, C76_known, C76_list_repairs, C76_step, C76_create, C76_unknown, C76_forgotten, C76_setop_type_error, C76_methods, C76_here, C77_foreach, C77_reduce, C77_map, C77_filter, C77_foreach_stops, C77_reduce_stops, C77_map_stops, C77_filter_stops, C77_runs, C77_error, C77_removing, C77_adding, C77_assigning, C78_foreach, C78_foreach_stops, C78_reduce, C78_reduce_stops, C78_map, C78_filter, C78_kin, C78_nonkin, C78_nonkin_no_swarm, C78_runs, C78_nil, C78_error, C78_removing, C78_count, C78_methods, C78_missing_foreach, C78_missing_reduce, C78_missing_count, C78_missing_get, C78_missing_map, C78_missing_kin, C78_nonkin_bare, C79_foreach, C79_foreach_stops, C79_foreach_unknown, C79_foreach_errors, C79_methods, C79_runs, C79_changing, C79_error, C79_removing, C80_manager, C80_lost, C80_nothing, C80_stored, C80_lost_called, C80_runs, C80_stack, C80_error, C80_changing, C81_call, C81_plain, C81_other, C81_hidden, C81_function, C81_function_other, C82_write, C82_read, C82_write_read, C82_step_write, C82_step_read, C82_writes.
* `propext`, `Quot.sound`: C01_array_clone, C01_from_empty_buffer, C05_remove_destroys_a_live_member, C06_exhaustion_hangs, C14_u8, C14_u16, C15_string_roundtrip, C23_needs_coherence, C25_timestamp_wraps, C27_size, C29_select_truncates, C29_setop_unknown, C29_others_silent, C29_id, C32_argument, C41_count_wraps, C45_plain, C45_escapes, C45_wrong, C47_register, largest_drawn, C48_offset, C48_breakpoints, C50_foreach, C50_reduce, C50_error_stops, C51_every_ten, C54_joinleave, C54_total, C59_sequence, C59_reproducible, C59_seed_deviates.
* `propext`: C08_idle, C11_eq_strings, C14_truncated, C14_big_endian_host_broken, C22_not_fifo, C29_id_zero, C38_filter, C49_short_packet_undefined, C53_conditional_declaration, C54_empty_list_ignored, C54_truncated_list_claims_zero, C56_string_count.
* no axioms: C25_resurrection, C25_divergence, C28_repeated_id, C47_negative, C51_never, C62_result.
