# Formal model of zerotao/libzt in Lean 4 — design

Source modelled: `/repo/src/libzt` (C). Line numbers in the Lean comments refer to those files.
Layout: `lean/Verif/<Component>/Model.lean` (the code, function by function, with citations),
`Spec.lean` (small independent specification, where one is needed), `Lemmas*.lean` (helper lemmas),
`Props.lean` (only the property theorems and the examples that show their hypotheses are satisfiable).

## Conventions

* `ZT.Outcome α` = `ok a | abort | ub`. `abort` is a failed `zt_assert`/`assert` (the program stops in a
  defined way); `ub` is undefined behaviour (out-of-bounds access, NULL dereference, signed overflow,
  use after free ...). Undefined behaviour is therefore a visible outcome that safety theorems must exclude.
* Memory blocks are lists of bytes/cells with explicit capacity; every store and load is bounds-checked
  and yields `ub` outside.
* A function that mutates through pointers returns the new state. Loops are structural recursions or folds.
* Fixed-width integers are `BitVec`/`UIntN` where wrap-around matters, otherwise `Nat`/`Int` with the range
  argument stated at the definition.
* Platform assumptions: LP64 (int 32 bit, long/size_t/pointers 64 bit), two's complement, 8-bit signed `char`,
  `malloc` succeeds unless the model says otherwise, asserts enabled (no NDEBUG).
* If the code violates a property, the `_partial` theorem states what does hold and a separate theorem
  proves the violation on a concrete reachable witness.

## Trusted base

* Lean 4.33.0 kernel; axioms at most `propext`, `Classical.choice`, `Quot.sound` (checked with `#print axioms`;
  the per-theorem table is at the end of this file).
* The reading of the C code by hand: the model is not extracted. Every definition cites the lines it models.
* No axiom is added; no `native_decide`/`bv_decide`.

## Plan per property

| id | modelled code | method |
|----|---------------|--------|
| C01-C04 | zt_base.c complete (tables literal) | group-wise induction; spec = RFC 4648 as base-2^k numeral of each group; bounds-checked output buffer |
| C05 | zt_cstr.c hex functions | induction, 256-entry table lemma |
| C06-C07 | zt_uuid.c text and generation | positional numeral lemmas; bit lemmas |
| C08-C10 | zt_sha1.c | invariant "buffered state = fold over full blocks + remainder"; refinement to FIPS spec |
| C11-C14 | zt_list.h, zt_stack.h, zt_queue.h on a heap of prev/next pointers | separation-style invariant: heap represents disjoint circular lists |
| C15-C16 | zt_llist.h on a heap of cons cells | heap predicate + functional refinement, permutation and sortedness |
| C17-C19 | zt_table.c with chains | refinement to association map; counterexample for del at depth >= 3 |
| C20 | zt_set.c over the table model | refinement; counterexamples for remove and union |
| C21-C23 | zt_tree.c | tree/zipper model of the loops, RB invariant, in-order semantics |
| C24-C25 | zt_ipv4_tbl.c | invariant over insertion history; containment spec |
| C26 | zt_buf.c over a block with base/top/capacity | refinement to byte queue for histories w/o partial drain; counterexample otherwise |
| C27-C28 | zt_array.c, zt_bstream.c | byte-block model, induction over value sequence |
| C29 | zt_ptr_array.c | refinement to list |
| C30-C32 | zt_mem.c, zt_ez_mempool.c | state-machine invariant |
| C33 | zt_gc.c | treadmill invariant |
| C34-C37 | zt_itoa, zt_format.c | numeral lemmas, buffer model |
| C38-C42, C50 | zt_cstr.c | list-level specs |
| C43 | zt_int.h | integer arithmetic (omega / nonlinear) |
| C44 | zt_time.c | integer arithmetic |
| C45-C46 | zt_opts.c, zt_cfg | induction over argv; refinement to map |
| C47 | zt_atexit.c | list induction |
| C48 | zt_threads.c | interleaving transition system, invariant over all schedules |
| C49 | zt_random.c | refinement to MT19937 recurrence |
| C51 | the call loop of zt_time | induction over the count |
| C52 | zt_hash.c | FNV-1a recurrence on BitVec 32/64 |
| C53 | zt_cstr.c hex functions on bounded buffers | induction, bounds-checked stores |
| C54 | zt_sha1.c with the caller's block in memory | the transform as a store to the source block |
| C55-C56 | zt_uuid.c parser, validity check, buffer sizes | exact characterisation of accepted texts |
| C57 | zt_llist.h | heap predicate |
| C58-C60 | zt_table.c destroy, shipped callbacks, duplicates | refinement to chains of pairs |
| C61-C63 | zt_mem.c pool registry, exit handler, groups | invariants over histories |
| C64 | zt_gc.c | two complete cycles free every unreachable object; treadmill invariant |
| C65-C67 | zt_cstr.c split, cut, path prefixes | list-level specs |
| C68 | zt_opts.c validator | induction over the table |
| C69-C70 | cfg_ini.c | character-level parser against a line-level meaning |
| C71-C73 | zt_unit.c | trace of test calls, counters |
| C74-C78 | zt_log.c, zt_log/*.c | sized format buffers; state machine of loggers, levels and thread-local debug information |
| C79-C80 | zt_path.c | abstract file system; every stat/mkdir answer |
| C81-C82 | zt_ipv4_tbl.c text interface | refinement to C24 |
| C83-C84 | zt_progname.c | static buffers as bytes; PATH search for every stat |
| C85-C86 | zt_opts.c numbers and help text | strtol specification; line-breaking invariant |
| C87-C88 | zt_daemon.c | every sequence of system-call answers |
| C89-C90 | zt_mem.c: refused allocations, heaps | invariants over histories with any allocator |
| C91 | zt_set.c destruction | exact multiset semantics of the table |
| C92 | zt_threads.c pipes | interleaving model with a bounded pipe; counting invariants |
| C93 | zt_format.c cvt_f | exact rational model of doubles, the standard's texts of %e %f %g, length bounds, interleaving of the static format |
| C94 | zt_ipv4_tbl.c with zt_mem.c | histories of all tables over the pool model; invariant relating tables to registered pools |
| C95 | zt_threads.c life of pool threads | histories of all pools and callbacks; invariant on the trace of starts and joins |
| C96 | zt_threads.c, zt_threads_pthreads.c primitives | histories of registrations; interleaving model of POSIX mutexes with invariant; exact arithmetic of deadlines |
| C97 | zt_cfg memory | the functions of C46/C69 with an explicit heap (blocks never reused); simulation of the heapless model and an ownership invariant; histories of files and settings |
| C98 | zt_table.c memory | any number of tables over one node heap and the pools of C30; each table is framed (`join`/`Apart`), histories with an invariant that ties every live element to one table |
| C99 | zt_macros.h | argument expressions as state transformers; bit vectors; case analysis and induction on flag histories |
| C100 | zt_log.c zt_log_lstrerror, zt_assert.c, log_syslog.c | blocks with uninitialised bytes; strerror_r as a parameter (POSIX and GNU); exact output for every reachable state of the logger model of C76-C78 |
| C101 | zt_opts.c error reports, zt_opt_help_stdout | texts as byte lists, exit status as the low byte; injectivity of numerals; usage of C86 |
| C102 | zt_array.c, zt_bstream.c with memory | heap of numbered blocks, objects with headers; step simulation of the value model of C27/C28 with a frame lemma (`Upd`); history induction; ghost list of lost blocks |
| C103 | zt_unit.c: the printed bytes | printf macros as bytes over the event model of C71; independent line reader (indentation, key, value, quotes); structural induction over suites and tests: reading what was printed gives the report computed from the plan |
| C104-C105 | zt_mem.c: settings, release policy, growth of pools | over the exact pool model of C30: all operations keep a pool's settings (structural), the state between giving an element back and the decision on its page, counting of held and free elements |
| C106-C107 | zt_time and zt_time_calibrate over memory cells (the calibration is one of them), an arbitrary clock and an arbitrary function; the usleep macro as text | invariant over histories (the calibration is zero); induction over the calls; C44 |
| C108 | zt_uuid4 with threads: thread-specific generators, the shared pointer and flag, the steps of a call | schedules as lists of atomic steps; invariant over histories on top of the MT19937 refinement (`After`); per-thread phases for arbitrary interleavings; two counterexample families |
| C109 | the default logger with threads: zt_log_get_logger, zt_log_set_logger, zt_log_logger, zt_log_close, one step per access to the shared pointer or the mutex | invariants over all schedules (mutual exclusion, conservation counted over the events plus what the holder of the mutex carries); rank of a place for termination; concrete schedules for the violations |
| C110 | zt_hexdump_default_printer: snprintf into a bounded block, %.12s, widths in size_t | exact text per line; composition with the dump loop of C50; independent reader (address, pairs of digits) and its inverse law by induction |
| C111 | replacement asprintf over a heap of blocks; malloc, realloc and vsnprintf may fail at will, the two vsnprintf calls may see different texts | case analysis with the ownership relation `Upd`; exact condition of success |
| C112 | replacement vsyslog: percent_m over memory with bounds, vsprintf as an arbitrary function from formats to texts | induction over the format with the buffer as written part and zeros; an independent definition of %m; overruns as theorems |
| C113 | strsep, basename over memory blocks; Windows snprintf with a specified vsprintf_s | fields as an inductive relation that every string satisfies; induction over it; induction for strrchr |
| C114 | zt_malloc.c and the macros of zt.h over a heap and an arbitrary allocator | direct, with the ownership relation; size_t arithmetic modulo 2^64 |
| C115 | units, suites and tests as blocks on a heap with ownership; vasprintf may fail | refinement of a specification (handles, names, last error texts) with an invariant over histories: the live blocks are a permutation of those of the unit, the lost texts and the rest |
| C116 | zt_log_lprintf, zt_log_set_debug_info, zt_log_close of file and stderr loggers with threads, one step per access and per character written | invariants over all legal schedules: who holds which mutex, stream = finished lines + the prefix being written, lines of a thread = those its calls ask for; rank for termination; an executable checker that produces runs for the instances |
| C117 | zt_fmt_vformat with the table of conversions as a parameter, zt_fmt_register, the stream sink with arbitrary failures | equality with a separate meaning of formats (pieces) by induction; the initial table gives the model of C35-C37; tables that agree on the characters of a format give the same run |
| C118 | zt_ptr_array.c and the splitting functions of zt_cstr.c over a heap of blocks, strdup failing by an arbitrary pattern | ownership invariant (the blocks of the array, distinct and in use) preserved by every call, with a frame for all other blocks; the loops add what the loops of C65-C67 list |
| C119 | zt_log_file, zt_log_stderr, zt_log_syslog2 with their print and destructor functions, zt_log_lvprintf, zt_log_set_level, zt_log_set_opts; files as byte sequences with offsets and stream buffers flushed arbitrarily; syslog after glibc | simulation by a specification in which every logger has a destination of its own; the disk plus the buffers is the specification's file; invariant for the structures |
| C120 | the callbacks of zt_threads_pthreads.c over a system given by an arbitrary function of the history of POSIX calls, reached through the tables of C96 | case analysis against a relation that lists calls and results; invariant: blocks, initialised mutexes and condition variables computed from the history are those the caller holds |
| C121 | zt_mem_pool_display, zt_mem_pools_display, zt_mem_pool_group_display: the bytes printed, over the pools of C30 | equality with the lines of a separate report, made of facts that a second definition declares true of the pool and of what the client holds; sums over pages and the free list by the invariant of C30 |
| C122 | zt_gc_for_each with a callback that may unregister, zt_gc_print_heap with dump_elist, over the collector of C33 | induction on the rest of a list, the saved next element being its head; invariant of C33 for the colours; text by induction on the list with the count modulo ten |
| C123 | the macros zt_random_float, zt_random_float00, zt_random_float10 over the generator of C49; IEEE 754 numbers and rounding to nearest on rational numbers (Ieee) | the constant 1/(2^32-1) is computed exactly from the gap of the numbers around it; error bound of one rounding against the distance of neighbouring outputs |
| C124 | zt_time_result_to_elapsed and the text of zt_time_print_result, with double and float rounding | error bound for each of the three roundings and the sum, monotonicity of rounding, exactness of small integers; counterexamples from the gap of the floats |
| C125 | zt_sha1.c for both values of HOST_BIGENDIAN: loads and stores of the union and blk0 depend on the machine (class Host); all of C08, C09, C54, C07 are proved for every machine | the message schedule is the same because a swapped little-endian load is a big-endian load; the rest of the proof of C09 does not see the machine |
| C126 | typed writers and readers of zt_bstream.c on either kind of machine (class Host), zt_bstream_set_data of the received bytes | the stream is the concatenation of the values in one of two orders (write_spec); a reader undoes its own order; unequal orders are refuted by 0x1234 |
| C127 | zt_cfg_set and zt_cfg_get of doubles over the model of C46, with printf("%f") and strtod specified by nearest millionths and nearest doubles | error bound of one rounding below 2^33; above, doubles are more than a millionth apart, so the nearest one is the original; below, the nearest millionth to the nearest double is the number itself |
| C128 | the loops and functions of zt_threads.c 211-548, one step per memory access or synchronisation call, entries as blocks of memory that are freed and reused | a ghost place for every entry (nowhere, one queue, one thread) and mutex ownership are invariants of every step; an access to an entry needs its place, one to a queue head the mutex; the two remaining races are exhibited |
| C129 | the date branch of zt_log_gen_fmt (log_private.c 73-81) with strftime and localtime specified over the Gregorian calendar and arbitrary zones | months and years are steps of monotone sums, which gives existence and uniqueness of dates; fixed columns give the reader; lexicographic order by mixed-radix arithmetic |
| C130 | zt_table_for_each with the table as part of the state the callback changes (zt_table.c 281-300) over the exact model of set, get and del | a callback call keeps the rest of the chain being enumerated (frame lemma for set and del on a suffix), then induction over the chain and over the buckets; closed runs for the two violations |
| C131 | zt_tree.c with callbacks that have a state and answer anything (zt_tree.c 317-393), the calls noted | the search ends in a hole of the tree or at a node with answer 0, whatever the answers; the repair and removal lemmas of C21 do not use the order; all loops bounded by the height, the height by the black height |
| C132 | zt_llist_sort with callbacks that have a state and answer anything, with a function that says for each list which half is sorted first; depth of recursion apart from the fuel of the loops; the calls counted | separation of the two halves by address sets, frame lemmas, induction over the depth; the merge compares less often than it moves |
| C133 | zt_sha1_update with the address of the data and whether it can be written; `_sha1_transform` in place needs both alignment and writing | the block loop with checks equals the loop without if the first block passes (64 is a multiple of the alignment), otherwise it fails at once; then induction over the pieces with the representation of C08 |
| C134 | the pool model of C30 with its explicit addresses; an allocator that returns multiples of 16 | all live blocks are aligned (each operation only adds blocks from the allocator), elements are at page + 32 + k (24 + size); for the violations: drain the free list, then a fresh page hands out its elements in order |
| C135 | `zt_table_copy` with both arguments the same table: the walk over a chain interleaved with insertions into it, on the heap model of C130 | invariant: the walked node and its successors stay a suffix of their chain, insertions go to the front; the stored entry always belongs to the walked bucket |
| C136 | the loops of zt_tree.h with a body that is any program making insert and remove calls, on the pointer model of C21 | refinement: each round keeps "the state is what some history leaves" and the next node is the least member above; induction over rounds on sorted lists for what is visited; the excluded cases by concrete computation |
| C137 | the loops of zt_list.h with a body that is any program performing list operations, on the pointer model of C12, which is extended by insertion next to members | each operation keeps the elements before and after a node that stays (filtered by any set of elements that stay); induction over operations and rounds; the excluded cases by a two-cycle that is never left |
| C138 | zt_buf_add and zt_buf_iov_add with pointers into the buffer's own block (dead after realloc), zt_buf_add_buf with the same buffer twice | equality with the addition of a separate copy when nothing is reallocated, then C26; otherwise undefined by the model of realloc |
| C139 | the set operations with the destination equal to the first, second or both arguments, over the enumeration of a table that is inserted into (C130) | a callback that changes nothing wherever the read-only enumeration is defined gives the same enumeration; members of a set are found again, so insertions into the enumerated set change nothing |
| C140 | the decode loops of zt_base.c reading from and storing to one block | simulation: bytes stored plus characters pending never exceed characters read, so every read sees the original block |
| C141 | zt_hex_to_binary and zt_binary_to_hex on one block | simulation with the functions of C05: the part of the block not yet reached is the original |
| C142 | zt_add_time, zt_sub_time, zt_diff_time assignment by assignment on a memory of structures; programs of calls | equality with the functions of C44 for every aliasing; induction over programs against exact integers |
| C143 | zt_cstr_copy, zt_cstr_basename, zt_cstr_dirname with string and destination in one block; memcpy undefined on overlap | the string at its offset stays a string under stores elsewhere, becomes empty under memset; then the lemmas of C38, C39, C42 |
| C144 | zt_array_put and zt_array_elem_copy with pointers from zt_array_get, on one block with memcpy undefined on overlap; programs of calls | each call equals the put of a copy of the element (C27); induction over programs against assignments of values |
| C145 | the encode loops of zt_base.c reading from and storing to one block | simulation: before each group is read the text ends at or before it, so the bytes read are the original ones; then C02 |
| C146 | programs of zt_llist.h statements over variables that share pairs | simulation by immutable lists (history induction); for the writing functions the specifications of C15, C16, C57 and splicing at the first shared pair |
| C147 | set, get, del of zt_table.c with a record of the callback calls | the recorded functions are those of C17 plus a record (equality along chains); the record computed from the bag of C17; history induction |
| C148 | zt_gc_collect, register, unregister, enable of zt_gc.c with a log of the objects handed to mark_fn | the log changes nothing (equality of programs); bound by induction over the rounds in any state; each round moves exactly the scanned object out of the unscanned ones (counting with the invariant of C33) |
| C149 | zt_gc_register, zt_gc_collect, stores and zt_gc_mark after any history of C33 | one call changes the number of unscanned and of grey objects by known amounts (counting with the invariant of C33); potential function A·unscanned − (A+1)·allocations for the bound, invariant grey + A − allocations > marks for starvation; two cycles in a row for the release of unreferenced objects (invariants: none scanned, then none scanned or grey); history induction |
| C150 | the calls of one cycle of zt_gc.c, with the log of C148 | everything scanned in the cycle stays black until the cycle ends, and one call scans only what is grey or white (invariant along the calls) |

Nothing in the list is considered inexpressible; what the models leave out is stated below.

## What is modelled and what is not

Modelled, function by function (each definition cites its lines), by source file:

| source (src/libzt) | Lean | modelled | not modelled |
|---|---|---|---|
| zt_base.c | Base | all functions and tables | - |
| zt_cstr.c, zt_cstr.h | Hex, Cstr, Itoa | all string, slice, search, compare, map, trim, path, split, cut, hex and dump functions, zt_itoa | data of more than 2^32 bytes in a printed dump |
| zt_sha1.c | Sha1 | init, update, finalize, transform (both block paths), digest text, both byte orders, alignment and writability of the data | - |
| zt_uuid.c | Uuid | generation (v4, v5), the per-thread generators of v4 with interleaved calls (Uuid.Threads), text formats, parser, comparison | data races inside one step of a call |
| zt_hash.c | Hash | 32 and 64 bit hashes and folding | - |
| zt_int.h | IntTime | every checked operation | compile-time selection between widths |
| zt_time.c, zt_time.h | IntTime | all functions on time values, zt_time, zt_time_calibrate, usleep, conversion to float, text of the report | the clock itself (arbitrary readings), the WIN32 stub |
| zt_list.h, zt_stack.h, zt_queue.h | EList | all | - |
| zt_llist.h | LList | all | - |
| zt_table.c | Table | init, set, get, del, for_each, copy, destroy, callbacks; exact multiset semantics of every history; nodes, structures and blocks of all tables of a process over the pools (C98) | - |
| zt_set.c | Set | all set operations over the table model, destruction | - |
| zt_tree.c, zt_tree.h | RbTree | insert, remove, find, nearest, iteration at pointer level | - |
| zt_ipv4_tbl.c | Ipv4 | add, search, text interface; memory of all tables of a process | - |
| zt_buf.c | Buf | all | - |
| zt_array.c, zt_bstream.c | Array | all incl. typed reads and writes through one width-generic pair; memory of all objects of a process | IEEE meaning of float and double (they are bytes) |
| zt_ptr_array.c | PtrArray | all, with the memory of the array and its members | - |
| zt_mem.c | MemPool | pools, pages, registry, exit handler, groups, heaps, refused allocations, display functions | zt_mem_set_* are stubs in the code |
| zt_ez_mempool.c | EzPool | all | - |
| zt_gc.c | Gc | all | the code for DEBUG_SCAN |
| zt_atexit.c | Atexit | all | - |
| zt_format.c | Format | all conversions, flags, bounded output; the C library's sprintf for doubles is specified (Clib.lean), not modelled ; user conversions and streams (Register) | conversions with effects outside their sink |
| zt_threads.c, zt_threads/zt_threads_pthreads.c | Pool | thread pool queues and workers as an interleaving system; notification pipes, creation; callbacks and life of the threads; registration of primitives, locks, deadlines; access by access with entries as memory (Pool.Race) | the pthread functions themselves (their answers are arbitrary; mutexes after POSIX) |
| zt_random.c, zt_random.h | Random | MT19937, floating point macros | other rounding modes and extended evaluation of doubles |
| zt_opts.c | Opts | processing, built-in handlers, validation, help text, error texts and exit status | - |
| zt_cfg.c, zt_cfg/*.c | Cfg | get, set, ini parser; allocation and destruction (Own) | strtod and "%f" are parameters, specified by ISO C and IEEE 754 in C127 |
| zt_unit.c, zt_unit_cpp.cpp | Unit | registration, runs, selection, result, bytes of the report (C103), memory of names and error texts (C115) | - |
| zt_log.c, zt_log/*.c, zt_assert.c | Log | format of lines, levels, debug information, ownership, system errors, syslog priorities, assertion lines, the default logger and printing with threads (Log.Threads, Log.Lines), files, stderr and syslog over whole histories (Log.Dest), time stamps (Log.Stamp) | connection to syslogd |
| zt_path.c | Path | mkdir, base directory | - |
| zt_progname.c | Prog | name, directory, PATH and /proc search | non-Linux branches |
| zt_daemon.c | Daemon | both functions | log messages |
| zt_malloc.c, zt.h | Replace/Alloc | all functions and allocation macros | - |
| replace/*.c, zt_win32.c | Replace | asprintf, vsyslog, basename, strsep, snprintf | the one-line aliases of zt_win32.c |
| zt_macros.h | Macros | extremes, clamping, bits, indentation, containerof, sizeof_array | the macros that apply macros |

Not modelled at all: the tests and build files.

Assumed of the outside world: the C library functions used (memcpy, strlen, strtok_r, strtol, snprintf with the conversions used, ...) do what
ISO C says; they are defined in the models. System calls (stat, mkdir, fork, write, ...) are arbitrary functions of the history unless a
hypothesis of the theorem says otherwise. Thread schedules are arbitrary; the steps of the thread models are those between lock operations, in Pool.Race single accesses.

## Findings

Where the code does not have a property, the property keeps its full statement, the theorems state what does hold, and a theorem proves the violation on the model
of the code. Notes of all claims (same text as in MANIFEST.json):

| id | property | status | note |
|---|---|---|---|
| C01 | Base-N codec round trip | proved | All byte strings, six encodings; sufficiently large buffer, size-query and automatic allocation. Finding: exact-size buffers may be refused (decode_exact_buffer_refused). |
| C02 | Base-N encode output size, alphabet and size query | proved | Output equals the RFC 4648 specification text; size, refusal with -2, alphabet; definitions whose groups do not fit are refused. |
| C03 | Base-N decode never writes outside the caller's buffer | proved | All texts, all sizes. Finding outside the precondition: decode_null_buffer_ub. |
| C04 | Base-N decode rejects foreign characters and ignores whitespace | proved | Foreign characters give -1; decoding depends only on the digit characters. |
| C05 | Hex conversion round trip | proved | All byte strings. |
| C06 | UUID text round trip | proved | All 2^128 UUIDs, four formats, through caller buffer and allocated string; text equals an independent specification. powl(62, k) may be computed in any long double format of 53 bits or more (decode62_exact). |
| C07 | UUID version and variant bits | proved | All random words, both byte orders; all namespaces and names below 2^32-63 bytes (object-size bound of zt_sha1_update). |
| C08 | SHA-1 incremental update | partial | All splits into chunks below 2^32-63 bytes. Larger single chunks: the assertion admits lengths up to 2^32-2, for which buffered+len >= 2^32 overruns the context buffer (proved). |
| C09 | SHA-1 conforms to FIPS 180 | partial | Equals FIPS 180 SHA-1 for every message fed in chunks below 2^32-63 bytes (or one object up to 2^32-2 bytes). |
| C10 | SHA-1 digest text round trip | proved | All 20-byte digests. The text is not NUL-terminated by the code. |
| C100 | System errors, failed assertions and syslog messages are logged completely | partial | All reachable logger states. Assertions at full strength (file components below PATH_MAX). zt_log_strerror is proved for the POSIX strerror_r and refuted for the GNU one that zt.h selects: for known errors uninitialised memory is used as a format, for unknown ones a second line is logged; texts with percent signs are taken as formats. The GNU behaviour is specified after its manual. |
| C101 | Option errors: text and exit status | partial | All codes and messages. Texts are exact and tell reports apart. Refuted: codes that are multiples of 256 end the program with status 0; help ends it with 255; a code without a message is undefined. |
| C102 | Arrays and byte streams own their memory | partial | All histories. Agreement with values, accounting, separation and single freeing at full strength. That nothing is left over is proved when data is only given to objects without data and lengths are not set to 0, and refuted otherwise: set_data overwrites the data pointer, and growing an array of length 0 allocates anew although data is kept after truncate and set_length. Allocation failure ends the program in zt_malloc and is not modelled. |
| C103 | The report of a test program can be read back | partial | Every unit, world and test function, for names and error texts that do not break their line. Partial because the code does not escape: quotes and line breaks in error texts, figures from 2^31 on, and names longer than the column. |
| C104 | A pool keeps its settings and its release policy | partial | All histories of all pools. What a pool was created with is kept, and which page a release gives back, at full strength. Refuted: the callback of a pool made for more elements than a page has is told multiples of the true counts. |
| C105 | A pool takes memory only when it is full | partial | Growth at full strength for all histories. The reserve is proved for numbers that fit in one page or fill their pages, and refuted otherwise: the number of pages is rounded down. |
| C106 | What zt_time measures | partial | All clocks, functions and histories of calibrations and timings. Refuted for the calibration: zt_time_calibrate always records zero, because the destination of its measurement is the calibration that is then subtracted. |
| C107 | usleep waits as long as asked | partial | All times for an argument that is a single operand; refuted for sums, because the macro does not put its argument in parentheses. |
| C108 | Each thread has a UUID generator of its own | partial | All numbers of threads, all histories of calls and, for safety, all interleavings of their steps. That each thread draws from a generator of its own is proved for calls that do not overlap and refuted for calls that do: the pointer to the generator is one static variable. That threads get different UUIDs is refuted for first calls in the same second. |
| C109 | The default logger with threads | partial | All numbers of threads, all interleavings of their steps. Conservation of loggers, registration for exit, one logger for threads that only log, freedom from deadlock and the bound on steps at full strength. That a message always finds a logger is proved for schedules in which nobody takes the default logger away and refuted otherwise; zt_log_close may take out a logger other than the one it closes. |
| C11 | Hash chaining | partial | Chaining holds iff no intermediate hash is 0; counterexamples proved for both widths. |
| C110 | The printed dump | partial | All data, all sources, all contents of the buffers. The exact text of the dump, its columns and that a reader recovers positions and bytes at full strength (to 2^32 bytes); refuted for data that leaves 15 bytes for the last line, which are not printed. |
| C111 | The replacement of asprintf | proved | All texts, all failures of malloc, realloc and vsnprintf, all heaps; vsnprintf is specified (cut text, NUL, whole length or -1). |
| C112 | The replacement of vsyslog | partial | All formats, arguments and error messages. Exact message when the texts fit the buffers (twice and six times the length of the format) and %m is not part of %%m; refuted otherwise: longer error messages or texts are written past the end of the buffers for every such format ("open: %m" with EINVAL is one), and %%m is taken for %m. |
| C113 | Replacements of string functions | partial | strsep and basename at full strength (every string has fields: Fields.exist). snprintf on Windows for texts that fit; refuted for all others, for which it ends the program (vsprintf_s is specified with its default handler). |
| C114 | Allocation functions | partial | All sizes, heaps and allocators. zt_calloc and zt_strdup at full strength; zt_malloc and zt_realloc for products within size_t, refuted beyond (a block too small is returned) and for shrinking to nothing where realloc(p, 0) returns NULL (the program ends); zt_free forgets the variable, copies of it remain dangerous (violation). |
| C115 | The memory of unit tests | partial | All histories of registrations, failures and releases, refining a specification with names and texts. No double free, valid names and texts, exact number of blocks left over at full strength; that nothing is left over is proved when no error text is replaced and refuted otherwise (a test that fails in two runs loses the first text); a failed vasprintf that leaves *strp undefined makes the release undefined, because ZT_UNIT_ASSERT checks for 0. |
| C116 | Log lines of several threads are not mixed | partial | Any number of threads, loggers, messages and characters; every interleaving; nothing assumed about the locks of stdio. Proved when no two loggers print to one stream and zt_log_close is called when nobody is printing with that logger; refuted otherwise (mixed lines; writing to a closed file, destroying a held mutex, use after free). |
| C117 | User conversions and printing to streams | partial | All tables, functions, sinks, formats built of literal characters and directives (any flags, width, precision, any code that is not itself a flag, digit or lead), arguments and stream failures. Refuted: the argument types c and C named in the comment read no argument and pass NULL; the value returned by zt_fmt_printf does not tell whether writing failed. |
| C118 | Pointer arrays and lists of strings own their memory | partial | Pointer arrays: any number of additions, deletions and resizes, with and without a free callback, over a heap with arbitrary other blocks. String lists: any string and delimiter within the limits of C66 and C67, any pattern of failing strdup calls. Refuted: arrays that share members after zt_ptr_array_cat are freed twice; a failed strdup of the working copy is used as NULL; a failed strdup of a token drops the token without notice. |
| C119 | Where log messages go | partial | All histories of making, using, adjusting and closing loggers of the three kinds, all initial files, all ways of flushing, failing fopen included. Proved for one logger per file and one for syslog at a time; refuted beyond: two loggers that overwrite one file destroy each other's lines, a second syslog logger takes over the facility of the first, closing one drops the name of the other, zt_log_syslog2 forgets its options, and a file that cannot be opened costs a structure. syslog is modelled after glibc. |
| C12 | Intrusive list operations implement a sequence | proved | Arbitrary histories over any number of lists in one heap. Finding: joining an empty list splices its head element in (join_empty_splices_head). |
| C120 | zt_threads over pthreads | partial | All registrations before, all calls, all answers of the system (arbitrary functions of the history). Exact POSIX calls and results for pointers that are not NULL; memory and validity of every POSIX call at full strength for correct use. Refuted: freeing NULL is undefined, and a mutex that pthread refuses to destroy is freed all the same. |
| C121 | The display of memory pools is true | partial | All histories, allocators, levels, flags and texts for addresses; the whole output, byte for byte. size_t arithmetic: pools of less than 2^63 bytes. Refuted: the number of page frees, after zt_mem_pool_release_free_pages. |
| C122 | Visiting and printing the objects of a collector | proved | All legal histories (the obligations of C33), all callbacks that read the object, update their data and take back objects of which they are the only holder; all texts for addresses; the whole output. A callback that takes back another object than the one it is given is outside the claim (zt_elist_for_each_safe has saved the next element). Hypotheses met in the middle of a cycle: visit_case. |
| C123 | Random numbers as floating point | proved | All states of the generator, every output; IEEE 754 binary64 with rounding to nearest (any rule for ties), evaluated in double (FLT_EVAL_METHOD 0). float10 and float00 are exact; float is within 2^-53 of u/(2^32-1), takes both ends exactly and never merges two outputs. |
| C124 | Elapsed times are converted and reported correctly | partial | All times below 2^53 seconds, all names and counts; IEEE 754 with rounding to nearest (any rule for ties), %4.2f as in the C standard. Error bounds for every magnitude; the report is right to a hundredth below 2^15 seconds. Refuted beyond: a float holds 24 bits, so from 36 hours on hundredths are wrong and from 194 days on whole seconds are lost. |
| C125 | The same digest on every machine | partial | Both byte orders, all data, all splits into chunks below 2^32-63 bytes (partial only for the reason C09 is); zt_sha1_data and zt_uuid5 included. What is left in the caller data by the in-place transform does depend on the byte order (C54). |
| C126 | Byte streams move between machines | proved | All values of all widths, both kinds of machine on both sides, both settings of flipendian on both sides; exact condition. Findings beside it: an array written in one call is reversed as a whole when flipendian is on, so its elements change places. |
| C127 | Floating point settings come back to the sixth decimal | proved | All finite doubles, all configurations and variables; printf("%f") and strtod as ISO C and IEEE 754 specify them (any rule for ties); -0 is identified with 0. Finding beside it: everything below half a millionth is read back as zero. |
| C128 | No data races in the thread pool, no use of freed entries | proved | Any number of loops and clients, all interleavings of single accesses, addresses of freed entries reused. Complete for the queues and the entries. Violated for the flag that ends the loops (zt_threadpool_kill writes it under no mutex) and for the callbacks (zt_threadpool_set_callbacks on a running pool): these are the only races, and both are exhibited for every pool with a loop and a client. Sequentially consistent accesses; calloc succeeds. |
| C129 | Time stamps of log lines | proved | All instants from 1970 on (every one has exactly one date: c129_calendar), all time zones, C locale. Within a year and with one offset the stamp determines the instant and its order. Refuted beyond: the stamp has no year and no zone, so every stamp recurs, and the hour before clocks are set back comes twice; text order is not time order. |
| C13 | Stack is LIFO | proved | All histories. |
| C130 | Changing a hash table while it is enumerated | proved | All histories before, all callbacks that call set, get and del on the table (any number of calls, any state of their own), hash and compare functions and allocators arbitrary: the enumeration is exact as long as no callback deletes an entry still to be visited in the bucket. Violated otherwise: deleting the next entry is a use after free, and the defect of C17 (deletion of the third or a later entry of a bucket loses the ones before it) also hits the callback that deletes only the entry it is called for. |
| C131 | Red-black trees with any comparison function, and the cost of the calls | proved | All histories, all callbacks (with state, inconsistent, changing their answers); the bounds hold for each loop of each function and for the calls of the callback. Only nodes that are not in the tree are inserted: c131_again_violation shows that inserting a member again does not end when the callback does not answer 0 for it. |
| C132 | Sorting linked lists with any comparison function, and the cost of it | proved | All lists, callbacks with state that answer anything, each recursive pair in either order; depth, iterations of each loop and number of comparisons bounded; sortedness for answers that follow a transitive relation in every state. |
| C133 | SHA-1 of data at any address and in memory that cannot be written | partial | Violated: complete blocks after the first are read and written in place as words. The theorems say exactly for which addresses, lengths and histories (c133_exact_partial: an equivalence), for pieces of less than 2^32 - 63 bytes. |
| C134 | Alignment of the memory from pools | partial | All histories; proved for alignments 1, 2, 4, 8 that divide the element size, and for the headers if 8 divides it. Violated otherwise, for every pool after every history: objects with alignment 16 (elements begin 56 bytes after the page), and the headers themselves for other sizes (24 + size is the distance of the elements). |
| C135 | Copying a hash table onto itself | proved | All histories, tables and callbacks (for tables without duplicates: compare functions that are equivalences compatible with the hash, as in C10); the table afterwards is described by its answers to every further sequence of calls. |
| C136 | Changing a tree while it is iterated over | proved | Any number of rounds of any body (Body: state of its own, sees all pointers), after any history; Replay and ReplaySafe say exactly which node comes next, Visits what follows from it. The two excluded removals are shown to break the loops. The comparison is a total preorder. |
| C137 | Changing a list while it is iterated over | proved | Any number of rounds of any body, after any history of any number of lists, including insertion next to members; Replay and ReplaySafe say exactly which node comes next, Visits what follows from it. The excluded cases are shown to loop forever in every list. |
| C138 | Adding a buffer's own bytes to it | proved | Stated for every buffer that represents a queue (Rep), which c26_fifo_partial gives after every allowed history; c138_second_add is the case of two calls on a new buffer. Sizes below 2^30 (2^29 for doubling). |
| C139 | Set operations whose result is one of their arguments | proved | All sets (Holds, established by init_holds and insert_holds), all good match functions; the enumeration runs over the table it inserts into (forEachM of C130). Allocation is assumed to succeed. |
| C14 | Queue is FIFO | proved | All histories. zt_queue_dequeue on an empty queue returns the head itself, not NULL (dequeue_empty). |
| C140 | zt_base_decode works in place | proved | All definitions (for invalid dictionaries too), texts, offsets and sizes with the output at or before the text; memory outside the block is not touched by construction (a store outside is undefined behaviour in the model and the equality excludes it unless the separate call has it). |
| C141 | Hex conversion within one buffer | proved | All blocks, texts, offsets and lengths; undefined behaviour of the call with a separate buffer (text that ends before its terminator) corresponds to undefined behaviour in place. |
| C142 | Time arithmetic with shared operands | proved | c142_alias holds for all operands, also not normalized or overflowing ones (both sides are then undefined); the programs are any lists of calls, the bound is on the exact instants (Throughout). |
| C143 | Strings copied and paths named within one block | proved | The exact behaviour for every placement described in the statement; the names that C42 excepts (paths ending in "/", the root) are excepted here too, and basename with a separate destination is stated without suffix. |
| C144 | Moving elements within an array | proved | All programs over one array that the constructors can produce (WF of C27) and any number of temporaries with room for one element. |
| C145 | Base-N encoding within one block | proved | All data, offsets and sizes for the six shipped definitions; also when the buffer is too small (undefined exactly when the separate call is). |
| C146 | Linked lists that share their ends | proved | The merge of a list with itself is shown for lists of one item, every heap and comparison function. |
| C147 | Which keys a hash table gives to its callbacks | proved | All histories for which bucket indices are in range (C18); Bag is the exact specification of histories of C17. |
| C148 | Work of one collector call | proved | The bound and the exact count hold in any state, reachable or not; the rest for the legal histories of C33. Objects found dead at the end of a cycle are released in the call that ends it, and zt_gc_free_white walks all of them: the bound is on mark_fn, not on release_fn. |
| C149 | Collection keeps up with allocation | proved | The code documents no relation between the two settings; the claim is the exact behaviour of both cases (the threshold is sharp). Legal is the set of obligations of C33; counters are unbounded integers. zt_gc_unregister, zt_gc_protect and full collections in between are outside the continuations considered. |
| C15 | Linked-list sort | proved | All lists, all total preorders given as a less-or-equal style comparison the code expects; a strcmp-style three-way comparison is not what the code expects (sort_threeway_wrong). |
| C150 | One scan per object and cycle | proved | Loop bounds of the model may differ from call to call. A call that completes a cycle ends the sequence, since the next call may scan the same objects in the next cycle (cycle_sample). |
| C16 | Linked-list reverse | proved | All lists and heaps. |
| C17 | Hash table is a finite map | partial | Exact for all histories (history_exact gives what the code does, for any callbacks and flags); it is a finite map at every point if and only if no deletion finds its key in third or later place of its bucket (history_map_iff). Otherwise violated: zt_table_del never advances prev, so entries between the bucket head and the deleted one are lost (del_exact, del_loses_entries). |
| C18 | Hash table bucket index in range | partial | Proved for hints below 32768, [65535, 2^31) and power-of-two USE_HINT sizes; violated (out-of-bounds bucket access, proved) for hints in [32768, 65535), non-power-of-two USE_HINT sizes and hints >= UINT_MAX. |
| C19 | Hash table enumeration and copy | proved | Enumeration and copy after all histories, also those that lose entries in deletions (for_each_is_get, copy_exact); all iterators; copy between tables of different size, hash and flags. In terms of finite maps for tables that stand for one. |
| C20 | Set algebra | partial | insert/member/length, intersection, difference, subset, equality, traversal at full strength. union exactly (union_exact): it is right for disjoint sets and otherwise stops at the first common element; removal removes nothing: the code violates both (proved). |
| C21 | Red-black tree keeps search order and membership | proved | All histories at pointer level, any total preorder comparison. Finding: the zt_rbt_empty macro answers "empty" for every non-empty tree (empty_macro_wrong). |
| C22 | Red-black tree stays balanced | proved | All histories. |
| C23 | Red-black tree iteration and nearest search | proved | All histories; for_each and for_each_safe with a removing body. |
| C24 | IPv4 table search is network containment | partial | All histories and addresses as long as some prefix length is unused (or a /0 was added) and the table is the first one in the process or no larger than it. Otherwise violated, proved: a miss on a table using all 32 prefix lengths reads past in[31]; a second, larger table overflows the block of the first; adding a node twice makes searches loop. |
| C25 | IPv4 network parsing | partial | Well-formed text at full strength. Violated for malformed prefix lengths (negative_prefix, huge_prefix) and for addresses without a prefix in short strings (plain_overreads). |
| C26 | Buffer is a byte FIFO and stays in its allocation | partial | Exact characterisation: an addition is honoured iff nothing was skipped by a partial removal or the bytes still fit behind; otherwise it is undefined (c26_add_ub, c26_overflow, c26_realloc_interior). Histories over any number of buffers within that condition are byte FIFOs. |
| C27 | Array element access | partial | All arrays whose byte size fits size_t. Findings: length*size overflow is unchecked (new_overflow); set_length makes unbacked elements accessible (set_length_beyond); array_with_cstr of "" aborts. |
| C28 | Byte-stream round trip | proved | Blocks and typed values of any width, any stream array, totals below 2^60 bytes. Findings: clone forgets flipendian; write after truncate aborts. |
| C29 | Pointer array is a bag/sequence | partial | Sequence behaviour at full strength except deletion of a pointer that occurs several times, where the code leaves copies (del_leaves_copy). Self-concatenation never returns; move_idx accepts index count. |
| C30 | Memory pool never hands out a live element | proved | All histories over any number of pools, an arbitrary non-failing system allocator, pages released by any callback. Findings: page allocation failure dereferences NULL (alloc_oom), page size computation wraps (init_overflow), elements misaligned for sizes not multiple of 8 (misaligned). |
| C31 | Memory pool accounting and destruction | partial | All histories. Finding: zt_mem_pool_release_free_pages and a refused destroy do not count the pages they free, so page_allocs = pages + page_frees only holds without them (stats_after_release_free). |
| C32 | Easy memory pool frees everything exactly once | partial | All trees and histories in which the pools destroyed are roots or only children. Violated when a sub-pool with siblings is destroyed: the siblings are lost (sibling_lost) and destroying them later is a use after free (orphan_use_after_free). |
| C33 | Garbage collector safety | partial | All graphs and histories of legal calls. Violated without the obligations of Legal: protecting, rooting or storing a reference to a white object in the middle of a cycle loses objects reachable from protected ones (the *_violation theorems); between cycles there is no obligation (idle_legal). |
| C34 | Integer to text | partial | All ints, all buffers with room for the text and its terminator; refusal when the text does not fit. Violated: when the text fits exactly the terminator is stored one byte past the buffer (c34_overrun_violation). |
| C35 | Formatter integer conversions | partial | %u %x %o: all values. %d: all values but two: INT_MAX prints 2147483648 and INT_MIN overflows (proved violations). |
| C36 | Formatter width and flags | partial | All formats made of ordinary characters and %c %d %o %u %x %p %s %e %f %g conversions with flags, width and precision (numbers or *): equal to the C standard meaning in the cases Agrees. The excluded cases are deviations, proved as violations.. |
| C37 | Bounded formatting never overruns | proved | All formats, arguments (any bytes) and buffers. Finding: the return value of zt_fmt_format/fprint is the sum of the character codes, not the number of characters. |
| C38 | String slice positions | partial | All non-empty strings, all index pairs. Violated for the empty string (its slice holds the terminator: concatenations are cut there, the length is 1) and for dup sizes of 2^64 and more (size computation wraps, heap overflow). |
| C39 | String searches | partial | find, rfind, upto, any, rupto at full strength for non-empty strings. Violated: chr/rchr report failure as 0, rany counts from the slice start, chars above 127 given as codes are not found. |
| C40 | String comparison | partial | Exact characterisation for all non-empty strings and slices. Violated for slices of the same length: the last character is not compared. |
| C41 | String character mapping | partial | All strings, slices and from/to pairs. Violated for characters 226..255 not in from: they become NUL. |
| C42 | Trimming and path names | partial | Holds outside of the edge cases refuted by the _violation theorems: chomp and dirname of the empty string, strip of one character and of texts with inner newlines, paths ending in or consisting of separators, suffixes without a dot. |
| C43 | Checked integer arithmetic | partial | add/mul/udiv/ssub proved at full strength. The code violates the property for unsigned x-x and for negative/negative division; violations proved. |
| C44 | Time arithmetic | proved | All normalized times whose seconds stay within +-2^62 (no 64-bit overflow). |
| C45 | Command-line option processing | partial | c45_general: every argv, table, handler, validator and callbacks. Exact result for all well-formed command lines in six option forms. Refuted: values attached to short names, valued options at the end of a cluster, valued short options without long name (NULL to strcmp), missing values with a handler that returns, unknown options behind known ones. |
| C46 | Configuration: last write wins | partial | All histories of writes, links included. Refuted: a link to itself makes zt_cfg_get run forever; zt_cfg_set of a bool given as int fails; strings that look like other values cannot be read back as strings; strings of more than 1023 bytes are cut; the result of reading a bool is 0, the documented failure. strtod and the text of %f are parameters. |
| C47 | atexit callbacks run in LIFO order exactly once | proved | All registration histories, callbacks and other exit functions that register further callbacks included. Finding: relative to functions given to the host's atexit the order is not LIFO (host_order_violation). |
| C48 | Thread pool processes each job exactly once | partial | Any number of threads and clients, every schedule. Partial: zt_threadpool_kill is proved to end all threads only if no thread is between finding `kill` clear and waiting (otherwise it can block forever, refuted), and drains the input queue but not the output queue (refuted). |
| C49 | Random generator determinism and safety | partial | All seeds, keys and numbers of outputs. Partial only in that an empty key is read out of bounds (refuted). For the floating point macros see C123. |
| C50 | Hex dump completeness | partial | Every source and output callback. False (and refuted) when 15 bytes remain for the last line, and for bytes above 127 in zt_hexdump_str. The printed form is C110. |
| C51 | Timed repetition count | partial | Violated by the code for every n > 0: n + 1 calls, and an overflow of the counter for n = 2^31-1. |
| C52 | Hash functions are FNV-1a | proved | FNV-1a conformance, folding range. |
| C53 | Hex conversion stays in the caller's buffers | partial | Violated for odd hlen (encode) and unterminated odd text (decode). |
| C54 | SHA-1 does not modify the hashed data | partial | Violated by the code as soon as a block is hashed directly from the caller data. |
| C55 | UUID validity check and parser agree with the text formats | partial | isvalid is exact. The parser violates the rest: non-hex 32-character text is accepted, base62 numbers wrap modulo 2^64. |
| C56 | UUID functions treat caller buffers as documented | partial | Violated: base62 formats abort for buffers above 23 bytes; names of 112 bytes or more are overwritten. |
| C57 | Linked list push, pop, nth and free | proved | All lists and heaps. |
| C58 | Table destruction releases every node once | partial | Exact for all histories: destruction is defined and leaves exactly the entries lost by deletions; none without deletions or after histories that stand for a map. Refuted otherwise: entries lost by zt_table_del stay allocated (destroy_leak_violation). |
| C59 | Shipped table callbacks agree | partial | int and string pairs at full strength; buffer pair only without NUL bytes; violated for buffers with NUL and for the case-insensitive pair. |
| C60 | Tables with duplicate keys | partial | All histories in which no deletion loses entries (chain defect of C17); exact semantics for the others (history_exact); refuted by dup_loses_violation. |
| C61 | Memory pool lookup by name | proved | All histories, all names. |
| C62 | Exit handler releases unused pools | proved | All histories. |
| C63 | Memory pool groups | partial | All groups whose descriptions all have names. Finding: a nameless description leaves NULL pools that are dereferenced (group_null_entries). When the allocator fails: see C89. |
| C64 | Garbage collector completeness | proved | All legal histories. |
| C65 | Splitting at delimiters | proved | strtok_r and strdup are modelled by their C specification. |
| C66 | Cutting at a delimiter | partial | All strings, every delimiter but NUL (refuted). |
| C67 | Path prefixes | partial | All non-empty strings and delimiters other than NUL given as char; the rest refuted. |
| C68 | Validation of option tables | proved | All tables. |
| C69 | Configuration files mean their lines | partial | All well-formed files. Refuted: a one-byte value at the end of a file without newline is reported as an error. |
| C70 | Reading a configuration file is memory safe | partial | All files in which every '[' is closed within 1023 bytes and every '=' is followed by a value. Refuted for files with an empty value (out of bounds read) and with overlong section names (NULL block name). |
| C71 | Every registered unit test runs once | proved | All units, worlds and test functions; only C++ tests may throw. |
| C72 | Exit status of a test program | proved | All units (fewer than 2^32 test runs) and all lists of proper names. |
| C73 | Test selection and counters are consistent | partial | Holds for runs of the whole unit. Refuted: the empty name and suite names with a leading or trailing dot dereference NULL; tests run by name are not counted as tests; a second run counts the assertions of the first one again. |
| C74 | Format of a log line | proved | All inputs with line < 2^31 (an int), whatever the contents of fresh memory. |
| C75 | Text of a log line | partial | Holds when no '%' occurs in the header and location. Refuted otherwise: the names are part of the printf format, so a '%' in the program, host, file or function name is a conversion (undefined behaviour, or changed text). vfprintf is modelled for %%, %s and %d. |
| C76 | Log levels filter messages | proved | All reachable states and histories; calls are atomic. |
| C77 | Debug information belongs to one message | proved | All histories of any number of threads; calls are atomic. |
| C78 | Ownership of loggers | proved | All histories of legal calls. c78_close_forced shows that the rule is needed: closing a library-created logger is a use after free at exit. |
| C79 | Recursive directory creation | partial | Frame and success at full strength for paths below PATH_MAX on a file system without symbolic links. Refuted: it never returns when the parents exist and mkdir fails (no permission, read-only, empty path); a file in place of the directory counts as success; a parent created meanwhile by another process is a failure; overlong components read past a local buffer. |
| C80 | Search for the base directory | partial | All paths of at most PATH_MAX bytes, every stat that fails for texts of PATH_MAX bytes or more. Refuted for longer paths (unterminated local copy). |
| C81 | IPv4 addresses as text | proved | inet_ntoa is modelled; inet_addr is any function that understands dotted decimal addresses. |
| C82 | IPv4 tables used through texts | partial | Result at full strength except for tables with all 32 prefix lengths. Refuted: every search leaves one address record allocated, and every refused text one node. |
| C83 | The program name shown is the last one set | partial | All histories of calls with names that lie outside the buffer and, with STRIP_DIR, do not end in '/'. Refuted otherwise: of a name ending in '/' nothing but '/' is kept, and a name obtained from zt_progname itself is lost. |
| C84 | zt_progpath gives the directory of the program | partial | Absolute and relative paths with a directory, PATH entries followed by a colon, missing PATH; every behaviour of stat, getcwd and readlink. Refuted: the last entry of PATH is never tried; './x' is looked up in PATH; for '/x' the program itself is the directory; an empty entry stands for the whole PATH; without PATH and /proc memory before a buffer is read. |
| C85 | Number options store exactly the number given | partial | All texts. Storing at full strength; rejection for non-empty texts with a handler that does not return. Refuted: the empty text is stored as 0; with a handler that returns, wrong numbers are stored and a missing one is a NULL dereference. |
| C86 | The help shows every option, wrapped between words | partial | All tables whose help texts have words below 50 bytes. Refuted: a longer first word reads in front of the text, a longer later word is printed forever. |
| C87 | The pid file is complete or the call fails | partial | Every sequence of answers of the system. Result and closing at full strength; an interrupted close is repeated, which may close a descriptor of another thread (refuted). |
| C88 | A daemon is detached from everything | partial | Every answer of the system to fork, setsid, getrlimit, chdir and open. Which process returns at full strength; the descriptors for limits up to 2^31 with none open above the limit. Refuted: an infinite limit makes the call endless; descriptors above the limit stay open. |
| C89 | Memory pools when memory runs out | partial | All histories and all allocators, whatever they refuse. No damage, no leak, and the NULL of zt_mem_pool_init at full strength. Refuted: a refused page is used (NULL dereference); a failing group creation leaves its first pool behind, or uses entries before its array. |
| C90 | Memory heaps | partial | All histories and allocators, sizes up to 2^64-17. Refuted for larger sizes: the header size is added without a check. |
| C91 | Set destruction | partial | All histories of insertion, query and removal, with and without callback, all lawful match functions and allocators: the callback is called once for each member. That everything is given back is proved without removals and refuted with them: zt_set_remove can lose another element of the same bucket, which is neither given to the callback nor released. |
| C92 | Notification pipes of the thread pool | partial | All schedules, roles, capacities and failures of write and pipe. Proved as long as the queue fits the pipe; refuted beyond: insert writes with the mutex held, so a full pipe deadlocks the pool even with a correct consumer. Also refuted: the last byte of the input pipe (min_threads modulo 256 may be 0), and the clean-up of zt_threadpool_init when the second pipe fails (descriptor 0 is closed, the first pipe leaks). |
| C93 | Floating numbers print as C prints them | partial | Every double and every precision. Refuted: %g of a short number and infinities are padded with zeros in front, %.99f of x <= -1e308 overflows the buffer by one byte, precisions above 99 abort, the flag 0 is ignored, and two threads formatting at once mix their formats (static array). The C library's sprintf is specified after C11 (Clib.lean). |
| C94 | IPv4 tables of one process do not disturb each other and give their memory back | partial | All histories over the exact pool model. Validity of nodes and records at full strength. Room for slot arrays is proved when no table is larger than an earlier one and refuted otherwise (the pool is found by name, so the first table's is used, even after it was destroyed); that memory is given back is proved for tables never used and refuted for all others. |
| C95 | Every thread of a pool is started once and waited for once | partial | All histories of correct use with any number of pools. Proved as long as each pool is started and killed under the callbacks it was made with; refuted otherwise: init, start and kill each look at the global callbacks, so changing them in between stores through NULL, joins a NULL handle, or leaves all threads unjoined; a failed thread creation is ignored and the handle joined; set_callbacks(NULL) keeps finalize. |
| C96 | Thread primitives: registration, mutual exclusion, deadlines | partial | Registration at full strength. Mutual exclusion for all schedules while the pthreads functions are registered (POSIX mutexes modelled); refuted while none are: zt_threads_lock then returns 0 to everybody. Deadlines exact for all timeouts without negative microseconds; refuted for the others. zt_threads_join of an accepted table without join returns 0 without waiting. |
| C97 | Configurations own their memory | partial | All well-formed files and all histories, simulating the model of C46 and C69. No double free, valid strings and exact accounting of what is left over at full strength; that nothing is left over is refuted: every overwritten string, three copies for each refused zt_cfg_set, and everything read before a syntax error are lost. |
| C98 | Hash tables give their memory back and do not disturb each other | partial | All histories with any number of tables over the exact pool model. Independence of tables, no overlap, no double free and the exact number of elements, pools and blocks in use at full strength. That all is given back is proved for tables that never lost nodes and refuted for the others: deleting an entry that is not near the head of its chain drops the entries between (C17), and zt_table_destroy then neither frees them nor the pool. A NULL name is undefined. |
| C99 | Common macros: extremes, clamping, flags, indentation | partial | All values, widths and flag histories for arguments without side effects and of one type. Refuted: ABS of the least value, arguments with side effects (evaluated twice), mixed signedness, unsetting 64 bit flags with an unsigned int mask (all upper flags are lost), INDENT_TO when the cursor is past the column, and an unparenthesised step. |

## Axioms per theorem

Output of `#print axioms` (p = propext, c = Classical.choice, q = Quot.sound; - = none).

* C01: Base.roundtrip_alloc (pcq), Base.roundtrip_buf (pcq), Base.roundtrip_query (pcq)
* C02: Base.encode_buf (pcq), Base.encode_alloc (pcq), Base.encode_query (pq), Base.encode_length (pcq), Base.encode_chars (pcq), Base.definition_refused (pcq), Base.definition_used (pq)
* C03: Base.decode_safe (pcq), Base.decode_alloc_safe (pcq)
* C04: Base.decode_foreign (pcq), Base.decode_ignores_whitespace (pcq), Base.digitsOf_insert (pcq)
* C05: Hex.encode_exact (pcq), Hex.text_shape (pq), Hex.encode_query (pcq), Hex.decode_exact (pcq), Hex.roundtrip (pcq), Hex.decode_query (pcq), Hex.decode_refuses (pcq)
* C06: Uuid.fillstr_exact (pcq), Uuid.tostr_exact (pcq), Uuid.fillstr_query (pq), Uuid.fromstr_text (pcq), Uuid.roundtrip (pcq), Uuid.text_injective (pcq), Uuid.text_wellFormed (pcq), Uuid.cmp_zero_iff (pcq), Uuid.cmp_sign (pcq), Uuid.decode62_exact (pcq), Uuid.long_formats (-)
* C07: Uuid.uuid4_bits (pq), Uuid.uuid5_bits (pcq), Uuid.uuid5_deterministic (pcq)
* C08: Sha1.split_independent_partial (pcq), Sha1.update_wraps_ub (pcq), Sha1.update_wraps_reachable (pcq), Sha1.update_huge_aborts (pq), Sha1.finalize_wipes (pcq)
* C09: Sha1.sha1_conforms_partial (pcq), Sha1.sha1_data (pcq), Sha1.sha1_length (pq)
* C10: Hex.sha1_tostr (pcq), Hex.sha1_text_roundtrip (pcq), Hex.text_injective (pcq)
* C100: Log.c100_exact (pcq), Log.c100_strerror_partial (pcq), Log.c100_assertion (pcq), Log.c100_macro (pcq), Log.c100_syslog_partial (pcq), Log.c100_gnu_violation (pcq), Log.c100_unknown_violation (pcq), Log.c100_percent_violation (pq)
* C101: Opts.c101_text (pcq), Opts.c101_distinct (pcq), Opts.c101_exit_partial (pcq), Opts.c101_warning (pcq), Opts.c101_help_partial (pcq), Opts.c101_nameless (pcq), Opts.c101_help_violation (pcq), Opts.c101_status_violation (pcq), Opts.c101_null_violation (pcq)
* C102: Arr.Own.c102_calls (pcq), Arr.Own.c102_accounting (pcq), Arr.Own.c102_apart (pcq), Arr.Own.c102_clean_partial (pcq), Arr.Own.c102_once (pcq), Arr.Own.c102_set_data_violation (pq), Arr.Own.c102_truncate_violation (pq), Arr.Own.c102_foreign_violation (pq), Arr.Own.c102_handed_over_violation (pq)
* C103: Unit.Report.c103_report_partial (pcq), Unit.Report.c103_tells (pcq), Unit.Report.c103_list (pcq), Unit.Report.c103_help (pcq), Unit.Report.c103_column (pq), Unit.Report.c103_column_violation (pq), Unit.Report.c103_quote_violation (pcq), Unit.Report.c103_forged_violation (pcq), Unit.Report.c103_negative_violation (pq)
* C104: MemPool.c104_settings (pcq), MemPool.c104_release (pcq), MemPool.c104_default (pq), MemPool.c104_counts_partial (pcq), MemPool.c104_counts_violation (p)
* C105: MemPool.c105_growth (pcq), MemPool.c105_reserve_partial (pcq), MemPool.c105_reserve_violation (p)
* C106: Time.c106_elapsed_partial (pcq), Time.c106_empty_partial (pcq), Time.c106_calibration_violation (pcq)
* C107: Time.c107_usleep_partial (pcq), Time.c107_parentheses_violation (pcq)
* C108: Uuid.Threads.c108_stream_partial (pcq), Uuid.Threads.c108_any_schedule (pcq), Uuid.Threads.any_start (pq), Uuid.Threads.sched_racing (-), Uuid.Threads.racing_calls (p), Uuid.Threads.c108_same_second_violation (pcq), Uuid.Threads.c108_race_violation (pcq)
* C109: Log.Threads.c109_conserved (pcq), Log.Threads.c109_registered (pcq), Log.Threads.c109_answers (pq), Log.Threads.c109_closed (pcq), Log.Threads.c109_same (pcq), Log.Threads.c109_progress (pcq), Log.Threads.c109_bounded (pq), Log.Threads.c109_keep_partial (pcq), Log.Threads.c109_null_violation (p), Log.Threads.c109_close_violation (p)
* C11: Hash.hash32_chain_partial (pq), Hash.hash64_chain_partial (pq), Hash.hash32_chain_many_partial (pq), Hash.hash32_cstr_eq_buff (pq), Hash.hash64_cstr_eq_buff (pq), Hash.hash32_chain_fails (pq), Hash.hash64_chain_fails (pq)
* C110: Cstr.c110_dump_partial (pcq), Cstr.c110_str_partial (pcq), Cstr.c110_read (pcq), Cstr.c110_columns (pcq), Cstr.c110_address (pcq), Cstr.c110_tail_violation (pcq)
* C111: Replace.c111_text (pcq), Replace.c111_always (pcq), Replace.c111_fails (pcq)
* C112: Replace.c112_plain_partial (pq), Replace.c112_null (-), Replace.c112_error_partial (pcq), Replace.c112_text_violation (pq), Replace.c112_error_violation (pq), Replace.c112_percent_violation (pq)
* C113: Replace.c113_strsep (pq), Replace.c113_basename (pq), Replace.c113_snprintf_partial (pq), Replace.c113_snprintf_violation (pq)
* C114: Alloc.c114_calloc (p), Alloc.c114_calloc_abort (pq), Alloc.c114_malloc_partial (p), Alloc.c114_malloc_violation (pq), Alloc.c114_realloc_partial (pcq), Alloc.c114_realloc_violation (pq), Alloc.c114_strdup (p), Alloc.c114_free (pcq), Alloc.c114_free_violation (pcq)
* C115: Unit.Own.c115_calls (pcq), Unit.Own.c115_texts (pcq), Unit.Own.c115_release (pcq), Unit.Own.c115_release_partial (pcq), Unit.Own.c115_twice_violation (pcq), Unit.Own.c115_printf_violation (pcq), Unit.Own.c115_null (pq), Unit.Own.c115_released_violation (pq)
* C116: Log.Lines.c116_whole (pcq), Log.Lines.c116_lines (pcq), Log.Lines.c116_safe (pcq), Log.Lines.c116_progress (pcq), Log.Lines.c116_bounded (pcq), Log.Lines.c116_closed (pcq), Log.Lines.c116_two_violation (pq), Log.Lines.c116_close_violation (p)
* C117: Format.c117_meaning (pcq), Format.c117_initial (pq), Format.c117_others (pq), Format.c117_register (pcq), Format.c117_restore (pq), Format.c117_end (pcq), Format.c117_fprintf (pcq), Format.c117_printed (pcq), Format.c117_return_violation (p), Format.c117_char_violation (p)
* C118: PtrArray.Own.c118_history (pcq), PtrArray.Own.c118_values (pq), PtrArray.Own.c118_cat_violation (pcq), Cstr.Own.c118_split_partial (pcq), Cstr.Own.c118_cut_partial (pcq), Cstr.Own.c118_tok_partial (pcq), Cstr.Own.c118_split_null (pq), Cstr.Own.c118_copy_violation (pq), Cstr.Own.c118_token_violation (pcq)
* C119: Log.Dest.c119_exact_partial (pcq), Log.Dest.c119_memory_partial (pcq), Log.Dest.c119_leak_violation (pcq), Log.Dest.c119_two_violation (pcq), Log.Dest.c119_facility_violation (pcq), Log.Dest.c119_closelog_violation (pcq), Log.Dest.c119_options_violation (pcq)
* C12: EList.history (pcq), EList.frame (pcq), EList.for_each_safe_remove (pcq), EList.for_each_safe (pcq), EList.join_empty_splices_head (pcq)
* C120: Pool.Posix.c120_exact_partial (pcq), Pool.Posix.c120_memory (pcq), Pool.Posix.c120_null_violation (p), Pool.Posix.c120_null_args_violation (p), Pool.Posix.c120_busy_violation (pcq)
* C121: MemPool.c121_pool (pcq), MemPool.c121_all (pcq), MemPool.c121_group (pcq), MemPool.c121_frees_violation (pcq)
* C122: Gc.c122_each (pcq), Gc.c122_collect (pcq), Gc.c122_print (pcq), Gc.c122_heads (pcq)
* C123: Random.c123_closed (pcq), Random.c123_half_open (pcq), Random.c123_open (pcq), Random.c123_order (pcq), Random.c123_seeded (pcq)
* C124: Time.c124_accuracy (pcq), Time.c124_total (pcq), Time.c124_order (pcq), Time.c124_whole (pcq), Time.c124_zero (pcq), Time.c124_report (pcq), Time.c124_seconds_violation (pcq), Time.c124_hundredths_violation (pcq)
* C125: Sha1.c125_same_digest_partial (pcq), Sha1.c125_data (pcq), Uuid.uuid5_deterministic (pcq)
* C126: Arr.c126_wire (pcq), Arr.c126_read (pcq), Arr.c126_travel (pcq), Arr.c126_iff (pcq), Arr.c126_array_order_violation (pcq), Arr.c126_array_swap_violation (p)
* C127: Cfg.c127_close (pcq), Cfg.c127_decimal (pcq), Cfg.c127_settles (pcq), Cfg.c127_order (pcq), Cfg.c127_text (pcq), Cfg.c127_small_violation (pcq), Cfg.exists_clib (pcq)
* C128: Pool.Race.c128_race (pcq), Pool.Race.c128_valid (pcq), Pool.Race.c128_kept (pcq), Pool.Race.c128_once (pcq), Pool.Race.c128_kill_violation (p), Pool.Race.c128_cbs_violation (p)
* C129: Log.Stamp.c129_form (pcq), Log.Stamp.c129_columns (pcq), Log.Stamp.c129_read (pcq), Log.Stamp.c129_instant (pcq), Log.Stamp.c129_order (pcq), Log.Stamp.c129_line (pcq), Log.Stamp.c129_calendar (pcq), Log.Stamp.c129_year_violation (pcq), Log.Stamp.c129_zone_violation (pq), Log.Stamp.c129_sort_violation (pcq)
* C13: EList.stack_lifo (pcq), EList.pop_spec (pcq)
* C130: Table.c130_exact (pcq), Table.c130_insert (pcq), Table.c130_insert_all (pcq), Table.c130_delete_own (pcq), Table.c130_clear (pcq), Table.c130_next_violation (pq), Table.c130_filter_violation (pq)
* C131: RbTree.c131_shape (pcq), RbTree.c131_insert (pcq), RbTree.c131_remove (pcq), RbTree.c131_search (pcq), RbTree.c131_for_each (pcq), RbTree.any_of_history (pcq), RbTree.any_exists (pcq), RbTree.c131_again_violation (pq)
* C132: LList.c132_any (pcq)
* C133: Sha1.c133_exact_partial (pcq), Sha1.c133_small (pcq), Sha1.c133_data (pcq), Sha1.c133_uuid5 (pcq), Sha1.c133_violation (pcq)
* C134: MemPool.c134_partial (pcq), MemPool.c134_headers (pcq), MemPool.c134_sixteen_violation (pcq), MemPool.c134_header_violation (pcq)
* C135: Table.c135_dup (pcq), Table.c135_nodup (pcq)
* C136: RbTree.c136_for_each (pcq), RbTree.c136_for_each_safe (pcq), RbTree.c136_inserted (pcq), RbTree.c136_holds (pcq), RbTree.c136_current_violation (p), RbTree.c136_next_violation (p)
* C137: EList.c137_history (pcq), EList.c137_for_each (pcq), EList.c137_for_each_safe (pcq), EList.c137_move (pcq), EList.c137_current_violation (pcq), EList.c137_next_violation (pcq)
* C138: Buf.c138_room (pcq), Buf.c138_no_room (-), Buf.c138_no_fit (pcq), Buf.c138_iov_room (pcq), Buf.c138_iov_no_room (pq), Buf.c138_add_buf_self (pcq), Buf.c138_second_add (pcq)
* C139: Set.c139_union (pcq), Set.c139_union_disjoint (pcq), Set.c139_unchanged (pcq), Set.c139_difference_second (pcq), Set.c139_compare_self (pcq)
* C14: EList.queue_fifo (pcq), EList.dequeue_spec (pcq), EList.dequeue_empty (p)
* C140: Base.c140_decode (pcq), Base.c140_roundtrip (pcq), Base.c140_behind_violation (pcq)
* C141: Hex.c141_decode (pq), Hex.c141_roundtrip (pcq), Hex.c141_encode (pq), Hex.c141_encode_end (pcq), Hex.c141_near_violation (pcq)
* C142: Time.c142_alias (pq), Time.c142_program (pcq), Time.c142_total (pcq)
* C143: Cstr.c143_copy (pcq), Cstr.c143_basename (pcq), Cstr.c143_dirname (pcq), Cstr.c143_basename_violation (pcq), Cstr.c143_dirname_violation (pq)
* C144: Arr.c144_program (pq), Arr.c144_swaps (pq), Arr.c144_self_violation (pq)
* C145: Base.c145_encode (pcq), Base.c145_text (pcq), Base.c145_near_violation (pcq)
* C146: LList.shared_lists_are_values (pq), LList.nreverse_shared (pq), LList.sort_shared (pcq), LList.pop_shared (pcq), LList.free_shared (pq), LList.nmerge_self_violation (pcq)
* C147: Table.c147_calls (pcq), Table.c147_cost (pq), Table.c147_stored (pq), Table.c147_deleted (pcq), Table.c147_once (pcq)
* C148: Gc.c148_bound (pcq), Gc.c148_exact (pcq), Gc.c148_once (pcq), Gc.c148_full_exact (pcq), Gc.c148_log_only (pq)
* C149: Gc.c149_keeps_up (pcq), Gc.c149_releases (pcq), Gc.c149_starves_violation (pcq)
* C15: LList.sort_sorts (pcq), LList.sort_stable (pcq), LList.sort_threeway_wrong (pq)
* C150: Gc.c150_once_per_cycle (pcq), Gc.c150_every_object (pcq)
* C16: LList.nreverse_reverses (pq), LList.reverse_reverses (pq), LList.nreverse_twice (pq), LList.reverse_twice (pq)
* C17: Table.history_map_iff (pcq), Table.history_lossless_partial (pcq), Table.history_exact (pcq), Table.history_partial (pcq), Table.history_no_del (pcq), Table.del_exact (pcq), Table.del_loses_entries (pq)
* C18: Table.in_range_small_partial (pcq), Table.in_range_big_partial (pcq), Table.in_range_hint_partial (pcq), Table.out_of_range_65535 (pq), Table.out_of_range_hint (pq), Table.no_buckets (pq)
* C19: Table.for_each_visits (pq), Table.for_each_collects (pq), Table.for_each_is_get (pcq), Table.copy_adds (pcq), Table.copy_exact (pcq), Table.history_stands (pcq)
* C20: Set.set_history_partial (pcq), Set.intersection_exact (pcq), Set.difference_exact (pcq), Set.isSubset_iff (pcq), Set.isEqual_iff (pcq), Set.for_each_members (pq), Set.union_exact (pcq), Set.union_disjoint_partial (pcq), Set.union_stops_early (pcq), Set.remove_removes_nothing (pcq)
* C21: RbTree.c21_sorted_members (pcq), RbTree.c21_insert (pcq), RbTree.c21_remove (pcq), RbTree.c21_find (pcq), RbTree.history_exists (pcq), RbTree.empty_macro_wrong (pcq)
* C22: RbTree.c22_balanced (pcq), RbTree.c22_search_steps (pcq)
* C23: RbTree.c23_min (pcq), RbTree.c23_max (pcq), RbTree.c23_nfind (pcq), RbTree.c23_next (pcq), RbTree.c23_for_each (pcq), RbTree.c23_drain (pcq)
* C24: Ipv4.c24_search_partial (pcq), Ipv4.c24_full_table (pcq), Ipv4.add_twice_loops (pcq), Ipv4.second_table_overflows (pcq)
* C25: Ipv4.c25_parse (pcq), Ipv4.c25_plain (pcq), Ipv4.c25_range (pcq), Ipv4.plain_overreads (p), Ipv4.negative_prefix (p), Ipv4.huge_prefix (p), Ipv4.garbage_accepted (p), Ipv4.inetRef_ok (pq)
* C26: Buf.c26_fifo_partial (pcq), Buf.c26_add_ub (pq), Buf.c26_reserved_partial (pcq), Buf.c26_fill_drain_partial (pcq), Buf.c26_overflow (pcq), Buf.c26_realloc_interior (pcq)
* C27: Arr.c27_put (pq), Arr.c27_get (pq), Arr.c27_out_of_range (pq), Arr.c27_new (pcq), Arr.c27_resize (pcq), Arr.c27_resize_zero (-), Arr.c27_copy (pcq), Arr.c27_with (pq), Arr.c27_with_cstr (pq), Arr.with_cstr_empty_aborts (pq), Arr.new_overflow (-), Arr.set_length_beyond (pq)
* C28: Arr.c28_roundtrip (pcq), Arr.c28_typed (pcq), Arr.c28_read_past (pq), Arr.c28_is_empty (pcq), Arr.clone_loses_flip (p), Arr.write_after_truncate (-)
* C29: PtrArray.c29_init (pq), PtrArray.c29_add (pcq), PtrArray.c29_add_null (p), PtrArray.c29_get (pq), PtrArray.c29_get_outside (pq), PtrArray.c29_del (pcq), PtrArray.c29_del_once (pcq), PtrArray.c29_del_null (p), PtrArray.c29_cat (pcq), PtrArray.c29_resize (pcq), PtrArray.c29_move (pq), PtrArray.c29_free (pq), PtrArray.c29_history_partial (pcq), PtrArray.del_leaves_copy (pcq), PtrArray.self_cat_never_ends (pcq), PtrArray.move_reads_past (pq)
* C30: MemPool.c30_total (pcq), MemPool.c30_disjoint (pcq), MemPool.c30_alloc (pcq), MemPool.c30_bookkeeping (pcq), MemPool.alloc_oom (pq), MemPool.init_overflow (p), MemPool.misaligned (p)
* C31: MemPool.c31_counters (pcq), MemPool.c31_destroy (pcq), MemPool.c31_blocks (pcq), MemPool.c31_no_leak (pcq), MemPool.c31_release_free (pcq), MemPool.stats_after_release_free (p)
* C32: EzPool.history_exact_partial (pcq), EzPool.all_destroyed_partial (pcq), EzPool.destroy_root_exact (pcq), EzPool.sibling_lost (p), EzPool.orphan_use_after_free (p), EzPool.add_result (pcq), EzPool.strdup_empty_not_attached (p)
* C33: Gc.c33_total_partial (pcq), Gc.c33_safe_partial (pcq), Gc.c33_protected_stays_partial (pcq), Gc.sample_legal (pq), Gc.mid_legal (pq), Gc.idle_legal (p), Gc.protect_mid_cycle_violation (p), Gc.root_mid_cycle_violation (p), Gc.store_mid_cycle_violation (p), Gc.store_with_mark_safe (p), Gc.mark_at_scan_violation (p), Gc.unregister_at_scan_violation (p), Gc.unregister_threshold (p)
* C34: Itoa.c34_display_len (pcq), Itoa.c34_itoa_partial (pcq), Itoa.c34_refuse (pcq), Itoa.c34_null (pcq), Itoa.c34_overrun_violation (pcq), Itoa.c34_wrap_violation (pcq)
* C35: Format.c35_d_partial (pcq), Format.c35_u (pcq), Format.c35_intmax_violation (p), Format.c35_intmin_violation (p)
* C36: Format.c36_format_partial (pcq), Format.c36_hash (pcq), Format.c36_hash_num (pcq), Format.c36_minus_s_violation (p), Format.c36_sign_violation (p), Format.c36_zero_violation (p), Format.c36_space_violation (p), Format.c36_plus_violation (p), Format.c36_emptyprec_violation (p)
* C37: Format.c37_sprintf (pcq), Format.c37_sprintf_abort (pcq), Format.c37_strprintf (pq), Format.c37_return_violation (p)
* C38: Cstr.c38_sub (pcq), Cstr.c38_dup_partial (pcq), Cstr.c38_cat (pcq), Cstr.c38_catv (pcq), Cstr.c38_reverse (pcq), Cstr.c38_len (pcq), Cstr.c38_pos (pcq), Cstr.c38_copy (pcq), Cstr.c38_outside (pcq), Cstr.c38_sub_empty (pq), Cstr.c38_cat_empty_violation (p), Cstr.c38_len_empty_violation (p), Cstr.c38_dup_wrap_violation (pq)
* C39: Cstr.c39_find (pcq), Cstr.c39_rfind (pcq), Cstr.c39_find_empty (pcq), Cstr.c39_upto (pcq), Cstr.c39_any (pcq), Cstr.c39_rupto (pcq), Cstr.c39_rany_partial (pcq), Cstr.c39_chr_partial (pcq), Cstr.c39_rchr_partial (pcq), Cstr.c39_chr_violation (p), Cstr.c39_rany_violation (p), Cstr.c39_char_violation (p), Cstr.c39_upto_empty_violation (p)
* C40: Cstr.c40_cmp_partial (pcq), Cstr.c40_reflexive (pcq), Cstr.c40_antisymmetric (pcq), Cstr.lex_eq_zero (pq), Cstr.lex_antisymm (pq), Cstr.lex_trans (pq), Cstr.c40_equal_violation (p), Cstr.c40_transitive_violation (p)
* C41: Cstr.c41_map_partial (pcq), Cstr.c41_lengths (p), Cstr.c41_null (p), Cstr.c41_high_violation (p)
* C42: Cstr.c42_chomp_partial (pq), Cstr.c42_chomp_empty_violation (pq), Cstr.c42_rspn_partial (pcq), Cstr.c42_rspn_violation (-), Cstr.c42_rcspn_partial (pcq), Cstr.c42_rcspn_violation (-), Cstr.c42_strip_partial (pcq), Cstr.c42_strip_violation (-), Cstr.c42_basename_partial (pcq), Cstr.c42_suffix_partial (pcq), Cstr.c42_suffix_absent (pcq), Cstr.c42_basename_violation (p), Cstr.c42_suffix_violation (p), Cstr.c42_dirname_partial (pcq), Cstr.c42_dirname_dot (pcq), Cstr.c42_dirname_violation (p), Cstr.c42_append_partial (pcq), Cstr.c42_append_violation (p), Cstr.c42_abspath (pcq)
* C43: IntOps.uadd_exact (pq), IntOps.sadd_exact (pcq), IntOps.ssub_exact (pcq), IntOps.umul_exact (pq), IntOps.smul_exact (pcq), IntOps.udiv_exact (pq), IntOps.usub_exact_partial (pq), IntOps.sdiv_exact_partial (pcq), IntOps.usub_equal_aborts (p), IntOps.sdiv_negative_aborts (pq), IntOps.sdiv_counterexample (pq)
* C44: Time.add_exact (pcq), Time.sub_exact (pcq), Time.diff_exact (pcq), Time.sub_add (pcq), Time.cmp_order (pcq)
* C45: Opts.c45_general (pcq), Opts.c45_calls_partial (pcq), Opts.c45_values_partial (pcq), Opts.c45_builtin_safe_partial (pcq), Opts.c45_unknown (pcq), Opts.c45_attached_violation (p), Opts.c45_cluster_violation (p), Opts.c45_no_long_violation (pcq), Opts.c45_missing_violation (p), Opts.c45_missing_bool_violation (p), Opts.c45_unknown_violation (p)
* C46: Cfg.c46_get_partial (pcq), Cfg.c46_total (pcq), Cfg.c46_last (pcq), Cfg.c46_link (pcq), Cfg.c46_set_int (pcq), Cfg.c46_set_string_partial (pcq), Cfg.c46_set_float_partial (pcq), Cfg.c46_set_bool_partial (pcq), Cfg.c46_cut_violation (pcq), Cfg.c46_loop_violation (pcq), Cfg.c46_bool_violation (p), Cfg.c46_string_violation (pq), Cfg.c46_result_violation (pcq), Cfg.getType_denotes (pcq), Cfg.denotes_unique (pcq)
* C47: Atexit.c47_lifo (pcq), Atexit.c47_reverse (pcq), Atexit.c47_ends (pcq), Atexit.c47_null (-), Atexit.demo_allocates (pq), Atexit.demo_runs (p), Atexit.host_order_violation (p)
* C48: Pool.c48_exclusion (pcq), Pool.c48_fifo (p), Pool.c48_once (pcq), Pool.c48_results (pcq), Pool.c48_finals (pcq), Pool.c48_gets (pcq), Pool.c48_rest (pq), Pool.c48_no_lost_entry (pcq), Pool.c48_all_processed (pcq), Pool.c48_kill_partial (pcq), Pool.c48_drain_partial (pcq), Pool.c48_lost_kill_violation (pq), Pool.c48_output_left_violation (pq)
* C49: Random.c49_seeded (pcq), Random.c49_keyed (pcq), Random.c49_unseeded (pcq), Random.c49_safe (pcq), Random.c49_empty_key_violation (pcq)
* C50: Cstr.dump_exact (pcq), Cstr.c50_dump_partial (pcq), Cstr.c50_tail_violation (pcq), Cstr.c50_lines_complete (pcq), Cstr.c50_str_partial (pcq), Cstr.c50_str_violation (p)
* C51: Time.c51_none_partial (pq), Time.c51_count_violation (pq), Time.c51_overflow_violation (pq)
* C52: Hash.hash32_is_fnv1a (pq), Hash.hash64_is_fnv1a (pq), Hash.sub32Mask_lt (pcq), Hash.fixed_masks (pq)
* C53: Hex.decode_safe (pcq), Hex.encode_truncates (pcq), Hex.encode_odd_overflow (pcq), Hex.decode_odd_unterminated (p)
* C54: Sha1.update_preserves_data_partial (pcq), Sha1.update_clobbers (pcq)
* C55: Uuid.isvalid_iff (pcq), Uuid.isvalid_text (pcq), Uuid.fromstr_wrong_length_partial (p), Uuid.fromstr_accepts_garbage (pcq), Uuid.fromstr_base62_unterminated (pq), Uuid.fromstr_base62_wraps (pcq)
* C56: Uuid.fillstr_exact (pcq), Uuid.fillstr_base62_aborts (pq), Uuid.uuid5_preserves_name_partial (pcq), Uuid.uuid5_clobbers_name (pcq)
* C57: LList.push_spec (pq), LList.pop_spec (pcq), LList.nth_spec (p), LList.nthtail_spec (pq), LList.free_spec (pq), LList.split_halves (pcq)
* C58: Table.destroy_releases_all (pcq), Table.destroy_exact (pcq), Table.destroy_leak_violation (pcq)
* C59: Table.int_callbacks (pq), Table.string_callbacks (pq), Table.buff_callbacks_partial (pq), Table.ptrBytes_inj (pq), Table.buff_nul_equal (p), Table.case_hash_differs (pq), Table.string_case_exact (pcq), Table.lower_ascii (p), Table.string_len0_equal (p), Table.int_long_ub (pq)
* C60: Table.dup_lossless_partial (pcq), Table.dup_history_partial (pcq), Table.history_exact (pcq), Table.dup_loses_violation (pq)
* C61: MemPool.c61_get (pcq)
* C62: MemPool.c62_exit (pcq), MemPool.c62_exit_clean (pcq)
* C63: MemPool.c63_group_init (pcq), MemPool.c63_group_alloc (pcq), MemPool.c63_group_room (pcq), MemPool.c63_group_destroy (pcq), MemPool.group_null_entries (p)
* C64: Gc.c64_two_collections (pcq), Gc.c64_destroy (pcq)
* C65: Cstr.c65_split (pcq), Cstr.c65_null (p)
* C66: Cstr.c66_cut_partial (pcq), Cstr.c66_cut_violation (p)
* C67: Cstr.c67_tok_partial (pcq), Cstr.c67_tok_violation (p)
* C68: Opts.c68_validate (pcq), Opts.c68_exits (pcq), Opts.c68_count (pcq)
* C69: Cfg.c69_file (pcq), Cfg.c69_get (pcq), Cfg.c69_last_partial (pcq), Cfg.c69_error (pcq), Cfg.c69_long (pcq), Cfg.exampleLines_ok (pq), Cfg.c69_last_violation (p)
* C70: Cfg.c70_safe_partial (pcq), Cfg.c70_empty_violation (pq), Cfg.c70_comment_violation (pq), Cfg.c70_section_violation (pcq)
* C71: Unit.c71_run (pq), Unit.c71_assertions (pcq), Unit.c71_errors (pq), Unit.Report.c71_registered (pq), Unit.Report.c71_registered_run (pq)
* C72: Unit.c72_all (pcq), Unit.c72_names (pcq), Unit.c72_selects (pcq)
* C73: Unit.c73_consistent (pq), Unit.c73_empty_violation (p), Unit.c73_dot_violation (pcq), Unit.c73_single_dot_violation (p), Unit.c73_tests_violation (p), Unit.c73_assertions_violation (p)
* C74: Log.c74_genFmt (pcq)
* C75: Log.c75_line_partial (pcq), Log.c75_percent_violation (pcq), Log.c75_file_violation (pcq)
* C76: Log.c76_level (pcq), Log.c76_new (pcq), Log.c76_default (pq)
* C77: Log.c77_next (pq), Log.c77_once (pcq)
* C78: Log.c78_safe (pcq), Log.c78_exit (pcq), Log.c78_returned (pcq), Log.c78_own (pcq), Log.c78_close_forced (p)
* C79: Path.c79_create_partial (pcq), Path.c79_frame (pcq), Path.c79_never_returns (pcq), Path.c79_readonly_violation (pcq), Path.c79_empty_violation (pcq), Path.c79_file_violation (p), Path.c79_race_violation (pcq), Path.c79_long_violation (pcq)
* C80: Path.c80_basedir_partial (pcq), Path.c80_exists (p), Path.c80_long_violation (pq)
* C81: Ipv4.c81_text (pcq), Ipv4.c81_parse (pq), Ipv4.c81_roundtrip (pcq), Ipv4.inetAddrRef_ok (pcq)
* C82: Ipv4.c82_search_partial (pcq), Ipv4.c82_refused (pcq), Ipv4.c82_leak_violation (pcq), Ipv4.c82_refused_violation (p)
* C83: Prog.c83_set (pcq), Prog.c83_strip (pcq), Prog.c83_ask (p), Prog.c83_calls (pcq), Prog.c83_slash_violation (pcq), Prog.c83_self_violation (pcq)
* C84: Prog.c84_abs_partial (pcq), Prog.c84_rel_partial (pcq), Prog.c84_search_partial (pcq), Prog.c84_exe_partial (pcq), Prog.c84_ask (p), Prog.c84_last_violation (pcq), Prog.c84_dot_violation (pcq), Prog.c84_root_violation (pcq), Prog.c84_empty_violation (p), Prog.c84_exe_violation (pcq)
* C85: Opts.c85_stores (pcq), Opts.c85_checks (pcq), Opts.c85_rejects_partial (pcq), Opts.c85_empty_violation (pq), Opts.c85_stored_violation (p), Opts.c85_missing_violation (p)
* C86: Opts.Help.c86_usage_partial (pcq), Opts.Help.c86_nameless (pcq), Opts.Help.c86_long_violation (pq), Opts.Help.c86_endless_violation (pq)
* C87: Daemon.c87_result (pcq), Daemon.c87_closes (pcq), Daemon.c87_refused (p), Daemon.c87_returns (pq), Daemon.c87_reclose_violation (-)
* C88: Daemon.c88_ends (pq), Daemon.c88_descriptors_partial (pcq), Daemon.c88_endless_violation (pq), Daemon.c88_endless_call_violation (pq), Daemon.c88_above_violation (pcq)
* C89: MemPool.c89_disjoint (pcq), MemPool.c89_no_leak (pcq), MemPool.c89_init_null (pq), MemPool.c89_alloc (pcq), MemPool.c89_alloc_violation (pq), MemPool.c89_init_violation (pq), MemPool.c89_group_left_violation (pcq), MemPool.c89_group_first_violation (pq)
* C90: MemPool.Heaps.c90_data (pcq), MemPool.Heaps.c90_private (pcq), MemPool.Heaps.c90_name (pcq), MemPool.Heaps.c90_steady (pcq), MemPool.Heaps.c90_init (pcq), MemPool.Heaps.c90_destroy (pcq), MemPool.Heaps.c90_size_violation (pq)
* C91: Set.c91_destroy (pcq), Set.destroy_all (pcq), Set.c91_leak_violation (pcq)
* C92: Pool.Pipe.c92_insert (pcq), Pool.Pipe.c92_never_null (pcq), Pool.Pipe.c92_delivered_partial (pcq), Pool.Pipe.c92_kill_byte (p), Pool.Pipe.c92_init (pq), Pool.Pipe.c92_init_fails_partial (pq), Pool.Pipe.c92_demo (pq), Pool.Pipe.c92_deadlock_violation (pq), Pool.Pipe.c92_unread_violation (pq), Pool.Pipe.c92_kill_byte_violation (p), Pool.Pipe.c92_init_fails_violation (pq)
* C93: Format.c93_prints (pcq), Format.c93_fits (pcq), Format.c93_f_partial (pcq), Format.c93_e_partial (pcq), Format.c93_e_zero (pcq), Format.c93_g_partial (pcq), Format.Race.c93_alone (pq), Format.Race.c93_threads_partial (pcq), Format.c93_g_violation (pcq), Format.c93_inf_violation (p), Format.c93_overflow_violation (pcq), Format.c93_precision_violation (pcq), Format.c93_zeroflag_violation (p), Format.Race.c93_race_violation (p)
* C94: Ipv4.Proc.c94_total (pcq), Ipv4.Proc.c94_valid (pcq), Ipv4.Proc.c94_room_partial (pcq), Ipv4.Proc.c94_clean_partial (pcq), Ipv4.Proc.c94_leak_violation (pcq), Ipv4.Proc.c94_small_violation (pcq), Ipv4.Proc.c94_stale_violation (pcq), Ipv4.Proc.c94_overflow_violation (p)
* C95: Pool.Life.c95_threads_partial (pcq), Pool.Life.c95_total_partial (pcq), Pool.Life.c95_start_violation (pq), Pool.Life.c95_join_null_violation (pq), Pool.Life.c95_create_violation (pq), Pool.Life.c95_leak_violation (pcq), Pool.Life.c95_callbacks (pq), Pool.Life.c95_finalize_violation (pq), Pool.Life.c95_reset_violation (p), Pool.Life.c95_ready_violation (pq)
* C96: Pool.Prim.c96_dispatch (pcq), Pool.Prim.c96_registered (pq), Pool.Prim.c96_exclusion_partial (p), Pool.Prim.c96_progress_partial (p), Pool.Prim.c96_deadline_partial (pcq), Pool.Prim.c96_unregistered_violation (p), Pool.Prim.c96_removed_violation (p), Pool.Prim.c96_join_violation (-), Pool.Prim.c96_negative_violation (pq)
* C97: Cfg.Own.c97_load (pcq), Cfg.Own.c97_set (pcq), Cfg.Own.c97_close_partial (pcq), Cfg.Own.c97_overwrites (pcq), Cfg.Own.c97_clean (pcq), Cfg.Own.c97_get (pcq), Cfg.Own.c97_get_fails (pcq), Cfg.Own.c97_stable (pcq), Cfg.Own.c97_overwrite_violation (pcq), Cfg.Own.c97_refused_violation (pcq), Cfg.Own.c97_error_violation (pcq)
* C98: Table.Proc.c98_calls (pcq), Table.Proc.c98_accounting (pcq), Table.Proc.c98_clean_partial (pcq), Table.Proc.c98_apart (pcq), Table.Proc.c98_anonymous_violation (pq), Table.Proc.c98_anonymous_ub_violation (pq), Table.Proc.c98_lost_violation (pcq)
* C99: Macros.c99_abs_partial (pq), Macros.c99_max (pq), Macros.c99_min (pq), Macros.c99_clamp (pq), Macros.c99_ceiling_floor (pq), Macros.c99_isset (pcq), Macros.c99_flags (pcq), Macros.c99_narrow_partial (pcq), Macros.c99_indent_to (pq), Macros.c99_indent (pq), Macros.c99_containerof (pq), Macros.c99_sizeof_array (p), Macros.c99_abs_violation (pq), Macros.c99_twice_violation (-), Macros.c99_mixed_violation (-), Macros.c99_narrow_violation (pq), Macros.c99_past_violation (-), Macros.c99_parentheses_violation (-)
