{
 "claims": [
  {
   "property": "C01",
   "status": "proved",
   "theorems": [
    "ZT.Base.roundtrip_alloc",
    "ZT.Base.roundtrip_buf",
    "ZT.Base.roundtrip_query"
   ],
   "note": "All byte strings, six encodings; sufficiently large buffer, size-query and automatic allocation. Finding: exact-size buffers may be refused (decode_exact_buffer_refused)."
  },
  {
   "property": "C02",
   "status": "proved",
   "theorems": [
    "ZT.Base.encode_buf",
    "ZT.Base.encode_alloc",
    "ZT.Base.encode_query",
    "ZT.Base.encode_length",
    "ZT.Base.encode_chars",
    "ZT.Base.definition_refused",
    "ZT.Base.definition_used"
   ],
   "note": "Output equals the RFC 4648 specification text; size, refusal with -2, alphabet; definitions whose groups do not fit are refused."
  },
  {
   "property": "C03",
   "status": "proved",
   "theorems": [
    "ZT.Base.decode_safe",
    "ZT.Base.decode_alloc_safe"
   ],
   "note": "All texts, all sizes. Finding outside the precondition: decode_null_buffer_ub."
  },
  {
   "property": "C04",
   "status": "proved",
   "theorems": [
    "ZT.Base.decode_foreign",
    "ZT.Base.decode_ignores_whitespace",
    "ZT.Base.digitsOf_insert"
   ],
   "note": "Foreign characters give -1; decoding depends only on the digit characters."
  },
  {
   "property": "C05",
   "status": "proved",
   "theorems": [
    "ZT.Hex.encode_exact",
    "ZT.Hex.text_shape",
    "ZT.Hex.encode_query",
    "ZT.Hex.decode_exact",
    "ZT.Hex.roundtrip",
    "ZT.Hex.decode_query",
    "ZT.Hex.decode_refuses"
   ],
   "note": "All byte strings."
  },
  {
   "property": "C06",
   "status": "proved",
   "theorems": [
    "ZT.Uuid.fillstr_exact",
    "ZT.Uuid.tostr_exact",
    "ZT.Uuid.fillstr_query",
    "ZT.Uuid.fromstr_text",
    "ZT.Uuid.roundtrip",
    "ZT.Uuid.text_injective",
    "ZT.Uuid.text_wellFormed",
    "ZT.Uuid.cmp_zero_iff",
    "ZT.Uuid.cmp_sign",
    "ZT.Uuid.decode62_exact",
    "ZT.Uuid.long_formats"
   ],
   "note": "All 2^128 UUIDs, four formats, through caller buffer and allocated string; text equals an independent specification. powl(62, k) may be computed in any long double format of 53 bits or more (decode62_exact)."
  },
  {
   "property": "C07",
   "status": "proved",
   "theorems": [
    "ZT.Uuid.uuid4_bits",
    "ZT.Uuid.uuid5_bits",
    "ZT.Uuid.uuid5_deterministic"
   ],
   "note": "All random words, both byte orders; all namespaces and names below 2^32-63 bytes (object-size bound of zt_sha1_update)."
  },
  {
   "property": "C08",
   "status": "partial",
   "theorems": [
    "ZT.Sha1.split_independent_partial",
    "ZT.Sha1.update_wraps_ub",
    "ZT.Sha1.update_wraps_reachable",
    "ZT.Sha1.update_huge_aborts",
    "ZT.Sha1.finalize_wipes"
   ],
   "note": "All splits into chunks below 2^32-63 bytes. Larger single chunks: the assertion admits lengths up to 2^32-2, for which buffered+len >= 2^32 overruns the context buffer (proved)."
  },
  {
   "property": "C09",
   "status": "partial",
   "theorems": [
    "ZT.Sha1.sha1_conforms_partial",
    "ZT.Sha1.sha1_data",
    "ZT.Sha1.sha1_length"
   ],
   "note": "Equals FIPS 180 SHA-1 for every message fed in chunks below 2^32-63 bytes (or one object up to 2^32-2 bytes)."
  },
  {
   "property": "C10",
   "status": "proved",
   "theorems": [
    "ZT.Hex.sha1_tostr",
    "ZT.Hex.sha1_text_roundtrip",
    "ZT.Hex.text_injective"
   ],
   "note": "All 20-byte digests. The text is not NUL-terminated by the code."
  },
  {
   "property": "C100",
   "status": "partial",
   "theorems": [
    "ZT.Log.c100_exact",
    "ZT.Log.c100_strerror_partial",
    "ZT.Log.c100_assertion",
    "ZT.Log.c100_macro",
    "ZT.Log.c100_syslog_partial",
    "ZT.Log.c100_gnu_violation",
    "ZT.Log.c100_unknown_violation",
    "ZT.Log.c100_percent_violation"
   ],
   "note": "All reachable logger states. Assertions at full strength (file components below PATH_MAX). zt_log_strerror is proved for the POSIX strerror_r and refuted for the GNU one that zt.h selects: for known errors uninitialised memory is used as a format, for unknown ones a second line is logged; texts with percent signs are taken as formats. The GNU behaviour is specified after its manual."
  },
  {
   "property": "C101",
   "status": "partial",
   "theorems": [
    "ZT.Opts.c101_text",
    "ZT.Opts.c101_distinct",
    "ZT.Opts.c101_exit_partial",
    "ZT.Opts.c101_warning",
    "ZT.Opts.c101_help_partial",
    "ZT.Opts.c101_nameless",
    "ZT.Opts.c101_help_violation",
    "ZT.Opts.c101_status_violation",
    "ZT.Opts.c101_null_violation"
   ],
   "note": "All codes and messages. Texts are exact and tell reports apart. Refuted: codes that are multiples of 256 end the program with status 0; help ends it with 255; a code without a message is undefined."
  },
  {
   "property": "C102",
   "status": "partial",
   "theorems": [
    "ZT.Arr.Own.c102_calls",
    "ZT.Arr.Own.c102_accounting",
    "ZT.Arr.Own.c102_apart",
    "ZT.Arr.Own.c102_clean_partial",
    "ZT.Arr.Own.c102_once",
    "ZT.Arr.Own.c102_set_data_violation",
    "ZT.Arr.Own.c102_truncate_violation",
    "ZT.Arr.Own.c102_foreign_violation",
    "ZT.Arr.Own.c102_handed_over_violation"
   ],
   "note": "All histories. Agreement with values, accounting, separation and single freeing at full strength. That nothing is left over is proved when data is only given to objects without data and lengths are not set to 0, and refuted otherwise: set_data overwrites the data pointer, and growing an array of length 0 allocates anew although data is kept after truncate and set_length. Allocation failure ends the program in zt_malloc and is not modelled."
  },
  {
   "property": "C103",
   "status": "partial",
   "theorems": [
    "ZT.Unit.Report.c103_report_partial",
    "ZT.Unit.Report.c103_tells",
    "ZT.Unit.Report.c103_list",
    "ZT.Unit.Report.c103_help",
    "ZT.Unit.Report.c103_column",
    "ZT.Unit.Report.c103_column_violation",
    "ZT.Unit.Report.c103_quote_violation",
    "ZT.Unit.Report.c103_forged_violation",
    "ZT.Unit.Report.c103_negative_violation"
   ],
   "note": "Every unit, world and test function, for names and error texts that do not break their line. Partial because the code does not escape: quotes and line breaks in error texts, figures from 2^31 on, and names longer than the column."
  },
  {
   "property": "C104",
   "status": "partial",
   "theorems": [
    "ZT.MemPool.c104_settings",
    "ZT.MemPool.c104_release",
    "ZT.MemPool.c104_default",
    "ZT.MemPool.c104_counts_partial",
    "ZT.MemPool.c104_counts_violation"
   ],
   "note": "All histories of all pools. What a pool was created with is kept, and which page a release gives back, at full strength. Refuted: the callback of a pool made for more elements than a page has is told multiples of the true counts."
  },
  {
   "property": "C105",
   "status": "partial",
   "theorems": [
    "ZT.MemPool.c105_growth",
    "ZT.MemPool.c105_reserve_partial",
    "ZT.MemPool.c105_reserve_violation"
   ],
   "note": "Growth at full strength for all histories. The reserve is proved for numbers that fit in one page or fill their pages, and refuted otherwise: the number of pages is rounded down."
  },
  {
   "property": "C106",
   "status": "partial",
   "theorems": [
    "ZT.Time.c106_elapsed_partial",
    "ZT.Time.c106_empty_partial",
    "ZT.Time.c106_calibration_violation"
   ],
   "note": "All clocks, functions and histories of calibrations and timings. Refuted for the calibration: zt_time_calibrate always records zero, because the destination of its measurement is the calibration that is then subtracted."
  },
  {
   "property": "C107",
   "status": "partial",
   "theorems": [
    "ZT.Time.c107_usleep_partial",
    "ZT.Time.c107_parentheses_violation"
   ],
   "note": "All times for an argument that is a single operand; refuted for sums, because the macro does not put its argument in parentheses."
  },
  {
   "property": "C108",
   "status": "partial",
   "theorems": [
    "ZT.Uuid.Threads.c108_stream_partial",
    "ZT.Uuid.Threads.c108_any_schedule",
    "ZT.Uuid.Threads.any_start",
    "ZT.Uuid.Threads.sched_racing",
    "ZT.Uuid.Threads.racing_calls",
    "ZT.Uuid.Threads.c108_same_second_violation",
    "ZT.Uuid.Threads.c108_race_violation"
   ],
   "note": "All numbers of threads, all histories of calls and, for safety, all interleavings of their steps. That each thread draws from a generator of its own is proved for calls that do not overlap and refuted for calls that do: the pointer to the generator is one static variable. That threads get different UUIDs is refuted for first calls in the same second."
  },
  {
   "property": "C109",
   "status": "partial",
   "theorems": [
    "ZT.Log.Threads.c109_conserved",
    "ZT.Log.Threads.c109_registered",
    "ZT.Log.Threads.c109_answers",
    "ZT.Log.Threads.c109_closed",
    "ZT.Log.Threads.c109_same",
    "ZT.Log.Threads.c109_progress",
    "ZT.Log.Threads.c109_bounded",
    "ZT.Log.Threads.c109_keep_partial",
    "ZT.Log.Threads.c109_null_violation",
    "ZT.Log.Threads.c109_close_violation"
   ],
   "note": "All numbers of threads, all interleavings of their steps. Conservation of loggers, registration for exit, one logger for threads that only log, freedom from deadlock and the bound on steps at full strength. That a message always finds a logger is proved for schedules in which nobody takes the default logger away and refuted otherwise; zt_log_close may take out a logger other than the one it closes."
  },
  {
   "property": "C11",
   "status": "partial",
   "theorems": [
    "ZT.Hash.hash32_chain_partial",
    "ZT.Hash.hash64_chain_partial",
    "ZT.Hash.hash32_chain_many_partial",
    "ZT.Hash.hash32_cstr_eq_buff",
    "ZT.Hash.hash64_cstr_eq_buff",
    "ZT.Hash.hash32_chain_fails",
    "ZT.Hash.hash64_chain_fails"
   ],
   "note": "Chaining holds iff no intermediate hash is 0; counterexamples proved for both widths."
  },
  {
   "property": "C110",
   "status": "partial",
   "theorems": [
    "ZT.Cstr.c110_dump_partial",
    "ZT.Cstr.c110_str_partial",
    "ZT.Cstr.c110_read",
    "ZT.Cstr.c110_columns",
    "ZT.Cstr.c110_address",
    "ZT.Cstr.c110_tail_violation"
   ],
   "note": "All data, all sources, all contents of the buffers. The exact text of the dump, its columns and that a reader recovers positions and bytes at full strength (to 2^32 bytes); refuted for data that leaves 15 bytes for the last line, which are not printed."
  },
  {
   "property": "C111",
   "status": "proved",
   "theorems": [
    "ZT.Replace.c111_text",
    "ZT.Replace.c111_always",
    "ZT.Replace.c111_fails"
   ],
   "note": "All texts, all failures of malloc, realloc and vsnprintf, all heaps; vsnprintf is specified (cut text, NUL, whole length or -1)."
  },
  {
   "property": "C112",
   "status": "partial",
   "theorems": [
    "ZT.Replace.c112_plain_partial",
    "ZT.Replace.c112_null",
    "ZT.Replace.c112_error_partial",
    "ZT.Replace.c112_text_violation",
    "ZT.Replace.c112_error_violation",
    "ZT.Replace.c112_percent_violation"
   ],
   "note": "All formats, arguments and error messages. Exact message when the texts fit the buffers (twice and six times the length of the format) and %m is not part of %%m; refuted otherwise: longer error messages or texts are written past the end of the buffers for every such format (\"open: %m\" with EINVAL is one), and %%m is taken for %m."
  },
  {
   "property": "C113",
   "status": "partial",
   "theorems": [
    "ZT.Replace.c113_strsep",
    "ZT.Replace.c113_basename",
    "ZT.Replace.c113_snprintf_partial",
    "ZT.Replace.c113_snprintf_violation"
   ],
   "note": "strsep and basename at full strength (every string has fields: Fields.exist). snprintf on Windows for texts that fit; refuted for all others, for which it ends the program (vsprintf_s is specified with its default handler)."
  },
  {
   "property": "C114",
   "status": "partial",
   "theorems": [
    "ZT.Alloc.c114_calloc",
    "ZT.Alloc.c114_calloc_abort",
    "ZT.Alloc.c114_malloc_partial",
    "ZT.Alloc.c114_malloc_violation",
    "ZT.Alloc.c114_realloc_partial",
    "ZT.Alloc.c114_realloc_violation",
    "ZT.Alloc.c114_strdup",
    "ZT.Alloc.c114_free",
    "ZT.Alloc.c114_free_violation"
   ],
   "note": "All sizes, heaps and allocators. zt_calloc and zt_strdup at full strength; zt_malloc and zt_realloc for products within size_t, refuted beyond (a block too small is returned) and for shrinking to nothing where realloc(p, 0) returns NULL (the program ends); zt_free forgets the variable, copies of it remain dangerous (violation)."
  },
  {
   "property": "C115",
   "status": "partial",
   "theorems": [
    "ZT.Unit.Own.c115_calls",
    "ZT.Unit.Own.c115_texts",
    "ZT.Unit.Own.c115_release",
    "ZT.Unit.Own.c115_release_partial",
    "ZT.Unit.Own.c115_twice_violation",
    "ZT.Unit.Own.c115_printf_violation",
    "ZT.Unit.Own.c115_null",
    "ZT.Unit.Own.c115_released_violation"
   ],
   "note": "All histories of registrations, failures and releases, refining a specification with names and texts. No double free, valid names and texts, exact number of blocks left over at full strength; that nothing is left over is proved when no error text is replaced and refuted otherwise (a test that fails in two runs loses the first text); a failed vasprintf that leaves *strp undefined makes the release undefined, because ZT_UNIT_ASSERT checks for 0."
  },
  {
   "property": "C116",
   "status": "partial",
   "theorems": [
    "ZT.Log.Lines.c116_whole",
    "ZT.Log.Lines.c116_lines",
    "ZT.Log.Lines.c116_safe",
    "ZT.Log.Lines.c116_progress",
    "ZT.Log.Lines.c116_bounded",
    "ZT.Log.Lines.c116_closed",
    "ZT.Log.Lines.c116_two_violation",
    "ZT.Log.Lines.c116_close_violation"
   ],
   "note": "Any number of threads, loggers, messages and characters; every interleaving; nothing assumed about the locks of stdio. Proved when no two loggers print to one stream and zt_log_close is called when nobody is printing with that logger; refuted otherwise (mixed lines; writing to a closed file, destroying a held mutex, use after free)."
  },
  {
   "property": "C117",
   "status": "partial",
   "theorems": [
    "ZT.Format.c117_meaning",
    "ZT.Format.c117_initial",
    "ZT.Format.c117_others",
    "ZT.Format.c117_register",
    "ZT.Format.c117_restore",
    "ZT.Format.c117_end",
    "ZT.Format.c117_fprintf",
    "ZT.Format.c117_printed",
    "ZT.Format.c117_return_violation",
    "ZT.Format.c117_char_violation"
   ],
   "note": "All tables, functions, sinks, formats built of literal characters and directives (any flags, width, precision, any code that is not itself a flag, digit or lead), arguments and stream failures. Refuted: the argument types c and C named in the comment read no argument and pass NULL; the value returned by zt_fmt_printf does not tell whether writing failed."
  },
  {
   "property": "C118",
   "status": "partial",
   "theorems": [
    "ZT.PtrArray.Own.c118_history",
    "ZT.PtrArray.Own.c118_values",
    "ZT.PtrArray.Own.c118_cat_violation",
    "ZT.Cstr.Own.c118_split_partial",
    "ZT.Cstr.Own.c118_cut_partial",
    "ZT.Cstr.Own.c118_tok_partial",
    "ZT.Cstr.Own.c118_split_null",
    "ZT.Cstr.Own.c118_copy_violation",
    "ZT.Cstr.Own.c118_token_violation"
   ],
   "note": "Pointer arrays: any number of additions, deletions and resizes, with and without a free callback, over a heap with arbitrary other blocks. String lists: any string and delimiter within the limits of C66 and C67, any pattern of failing strdup calls. Refuted: arrays that share members after zt_ptr_array_cat are freed twice; a failed strdup of the working copy is used as NULL; a failed strdup of a token drops the token without notice."
  },
  {
   "property": "C119",
   "status": "partial",
   "theorems": [
    "ZT.Log.Dest.c119_exact_partial",
    "ZT.Log.Dest.c119_memory_partial",
    "ZT.Log.Dest.c119_leak_violation",
    "ZT.Log.Dest.c119_two_violation",
    "ZT.Log.Dest.c119_facility_violation",
    "ZT.Log.Dest.c119_closelog_violation",
    "ZT.Log.Dest.c119_options_violation"
   ],
   "note": "All histories of making, using, adjusting and closing loggers of the three kinds, all initial files, all ways of flushing, failing fopen included. Proved for one logger per file and one for syslog at a time; refuted beyond: two loggers that overwrite one file destroy each other's lines, a second syslog logger takes over the facility of the first, closing one drops the name of the other, zt_log_syslog2 forgets its options, and a file that cannot be opened costs a structure. syslog is modelled after glibc."
  },
  {
   "property": "C12",
   "status": "proved",
   "theorems": [
    "ZT.EList.history",
    "ZT.EList.frame",
    "ZT.EList.for_each_safe_remove",
    "ZT.EList.for_each_safe",
    "ZT.EList.join_empty_splices_head"
   ],
   "note": "Arbitrary histories over any number of lists in one heap. Finding: joining an empty list splices its head element in (join_empty_splices_head)."
  },
  {
   "property": "C120",
   "status": "partial",
   "theorems": [
    "ZT.Pool.Posix.c120_exact_partial",
    "ZT.Pool.Posix.c120_memory",
    "ZT.Pool.Posix.c120_null_violation",
    "ZT.Pool.Posix.c120_null_args_violation",
    "ZT.Pool.Posix.c120_busy_violation"
   ],
   "note": "All registrations before, all calls, all answers of the system (arbitrary functions of the history). Exact POSIX calls and results for pointers that are not NULL; memory and validity of every POSIX call at full strength for correct use. Refuted: freeing NULL is undefined, and a mutex that pthread refuses to destroy is freed all the same."
  },
  {
   "property": "C121",
   "status": "partial",
   "theorems": [
    "ZT.MemPool.c121_pool",
    "ZT.MemPool.c121_all",
    "ZT.MemPool.c121_group",
    "ZT.MemPool.c121_frees_violation"
   ],
   "note": "All histories, allocators, levels, flags and texts for addresses; the whole output, byte for byte. size_t arithmetic: pools of less than 2^63 bytes. Refuted: the number of page frees, after zt_mem_pool_release_free_pages."
  },
  {
   "property": "C122",
   "status": "proved",
   "theorems": [
    "ZT.Gc.c122_each",
    "ZT.Gc.c122_collect",
    "ZT.Gc.c122_print",
    "ZT.Gc.c122_heads"
   ],
   "note": "All legal histories (the obligations of C33), all callbacks that read the object, update their data and take back objects of which they are the only holder; all texts for addresses; the whole output. A callback that takes back another object than the one it is given is outside the claim (zt_elist_for_each_safe has saved the next element). Hypotheses met in the middle of a cycle: visit_case."
  },
  {
   "property": "C123",
   "status": "proved",
   "theorems": [
    "ZT.Random.c123_closed",
    "ZT.Random.c123_half_open",
    "ZT.Random.c123_open",
    "ZT.Random.c123_order",
    "ZT.Random.c123_seeded"
   ],
   "note": "All states of the generator, every output; IEEE 754 binary64 with rounding to nearest (any rule for ties), evaluated in double (FLT_EVAL_METHOD 0). float10 and float00 are exact; float is within 2^-53 of u/(2^32-1), takes both ends exactly and never merges two outputs."
  },
  {
   "property": "C124",
   "status": "partial",
   "theorems": [
    "ZT.Time.c124_accuracy",
    "ZT.Time.c124_total",
    "ZT.Time.c124_order",
    "ZT.Time.c124_whole",
    "ZT.Time.c124_zero",
    "ZT.Time.c124_report",
    "ZT.Time.c124_seconds_violation",
    "ZT.Time.c124_hundredths_violation"
   ],
   "note": "All times below 2^53 seconds, all names and counts; IEEE 754 with rounding to nearest (any rule for ties), %4.2f as in the C standard. Error bounds for every magnitude; the report is right to a hundredth below 2^15 seconds. Refuted beyond: a float holds 24 bits, so from 36 hours on hundredths are wrong and from 194 days on whole seconds are lost."
  },
  {
   "property": "C125",
   "status": "partial",
   "theorems": [
    "ZT.Sha1.c125_same_digest_partial",
    "ZT.Sha1.c125_data",
    "ZT.Uuid.uuid5_deterministic"
   ],
   "note": "Both byte orders, all data, all splits into chunks below 2^32-63 bytes (partial only for the reason C09 is); zt_sha1_data and zt_uuid5 included. What is left in the caller data by the in-place transform does depend on the byte order (C54)."
  },
  {
   "property": "C126",
   "status": "proved",
   "theorems": [
    "ZT.Arr.c126_wire",
    "ZT.Arr.c126_read",
    "ZT.Arr.c126_travel",
    "ZT.Arr.c126_iff",
    "ZT.Arr.c126_array_order_violation",
    "ZT.Arr.c126_array_swap_violation"
   ],
   "note": "All values of all widths, both kinds of machine on both sides, both settings of flipendian on both sides; exact condition. Findings beside it: an array written in one call is reversed as a whole when flipendian is on, so its elements change places."
  },
  {
   "property": "C127",
   "status": "proved",
   "theorems": [
    "ZT.Cfg.c127_close",
    "ZT.Cfg.c127_decimal",
    "ZT.Cfg.c127_settles",
    "ZT.Cfg.c127_order",
    "ZT.Cfg.c127_text",
    "ZT.Cfg.c127_small_violation",
    "ZT.Cfg.exists_clib"
   ],
   "note": "All finite doubles, all configurations and variables; printf(\"%f\") and strtod as ISO C and IEEE 754 specify them (any rule for ties); -0 is identified with 0. Finding beside it: everything below half a millionth is read back as zero."
  },
  {
   "property": "C128",
   "status": "proved",
   "theorems": [
    "ZT.Pool.Race.c128_race",
    "ZT.Pool.Race.c128_valid",
    "ZT.Pool.Race.c128_kept",
    "ZT.Pool.Race.c128_once",
    "ZT.Pool.Race.c128_kill_violation",
    "ZT.Pool.Race.c128_cbs_violation"
   ],
   "note": "Any number of loops and clients, all interleavings of single accesses, addresses of freed entries reused. Complete for the queues and the entries. Violated for the flag that ends the loops (zt_threadpool_kill writes it under no mutex) and for the callbacks (zt_threadpool_set_callbacks on a running pool): these are the only races, and both are exhibited for every pool with a loop and a client. Sequentially consistent accesses; calloc succeeds."
  },
  {
   "property": "C129",
   "status": "proved",
   "theorems": [
    "ZT.Log.Stamp.c129_form",
    "ZT.Log.Stamp.c129_columns",
    "ZT.Log.Stamp.c129_read",
    "ZT.Log.Stamp.c129_instant",
    "ZT.Log.Stamp.c129_order",
    "ZT.Log.Stamp.c129_line",
    "ZT.Log.Stamp.c129_calendar",
    "ZT.Log.Stamp.c129_year_violation",
    "ZT.Log.Stamp.c129_zone_violation",
    "ZT.Log.Stamp.c129_sort_violation"
   ],
   "note": "All instants from 1970 on (every one has exactly one date: c129_calendar), all time zones, C locale. Within a year and with one offset the stamp determines the instant and its order. Refuted beyond: the stamp has no year and no zone, so every stamp recurs, and the hour before clocks are set back comes twice; text order is not time order."
  },
  {
   "property": "C13",
   "status": "proved",
   "theorems": [
    "ZT.EList.stack_lifo",
    "ZT.EList.pop_spec"
   ],
   "note": "All histories."
  },
  {
   "property": "C130",
   "status": "proved",
   "theorems": [
    "ZT.Table.c130_exact",
    "ZT.Table.c130_insert",
    "ZT.Table.c130_insert_all",
    "ZT.Table.c130_delete_own",
    "ZT.Table.c130_clear",
    "ZT.Table.c130_next_violation",
    "ZT.Table.c130_filter_violation"
   ],
   "note": "All histories before, all callbacks that call set, get and del on the table (any number of calls, any state of their own), hash and compare functions and allocators arbitrary: the enumeration is exact as long as no callback deletes an entry still to be visited in the bucket. Violated otherwise: deleting the next entry is a use after free, and the defect of C17 (deletion of the third or a later entry of a bucket loses the ones before it) also hits the callback that deletes only the entry it is called for."
  },
  {
   "property": "C131",
   "status": "proved",
   "theorems": [
    "ZT.RbTree.c131_shape",
    "ZT.RbTree.c131_insert",
    "ZT.RbTree.c131_remove",
    "ZT.RbTree.c131_search",
    "ZT.RbTree.c131_for_each",
    "ZT.RbTree.any_of_history",
    "ZT.RbTree.any_exists",
    "ZT.RbTree.c131_again_violation"
   ],
   "note": "All histories, all callbacks (with state, inconsistent, changing their answers); the bounds hold for each loop of each function and for the calls of the callback. Only nodes that are not in the tree are inserted: c131_again_violation shows that inserting a member again does not end when the callback does not answer 0 for it."
  },
  {
   "property": "C132",
   "status": "proved",
   "theorems": [
    "ZT.LList.c132_any"
   ],
   "note": "All lists, callbacks with state that answer anything, each recursive pair in either order; depth, iterations of each loop and number of comparisons bounded; sortedness for answers that follow a transitive relation in every state."
  },
  {
   "property": "C133",
   "status": "partial",
   "theorems": [
    "ZT.Sha1.c133_exact_partial",
    "ZT.Sha1.c133_small",
    "ZT.Sha1.c133_data",
    "ZT.Sha1.c133_uuid5",
    "ZT.Sha1.c133_violation"
   ],
   "note": "Violated: complete blocks after the first are read and written in place as words. The theorems say exactly for which addresses, lengths and histories (c133_exact_partial: an equivalence), for pieces of less than 2^32 - 63 bytes."
  },
  {
   "property": "C134",
   "status": "partial",
   "theorems": [
    "ZT.MemPool.c134_partial",
    "ZT.MemPool.c134_headers",
    "ZT.MemPool.c134_sixteen_violation",
    "ZT.MemPool.c134_header_violation"
   ],
   "note": "All histories; proved for alignments 1, 2, 4, 8 that divide the element size, and for the headers if 8 divides it. Violated otherwise, for every pool after every history: objects with alignment 16 (elements begin 56 bytes after the page), and the headers themselves for other sizes (24 + size is the distance of the elements)."
  },
  {
   "property": "C135",
   "status": "proved",
   "theorems": [
    "ZT.Table.c135_dup",
    "ZT.Table.c135_nodup"
   ],
   "note": "All histories, tables and callbacks (for tables without duplicates: compare functions that are equivalences compatible with the hash, as in C10); the table afterwards is described by its answers to every further sequence of calls."
  },
  {
   "property": "C136",
   "status": "proved",
   "theorems": [
    "ZT.RbTree.c136_for_each",
    "ZT.RbTree.c136_for_each_safe",
    "ZT.RbTree.c136_inserted",
    "ZT.RbTree.c136_holds",
    "ZT.RbTree.c136_current_violation",
    "ZT.RbTree.c136_next_violation"
   ],
   "note": "Any number of rounds of any body (Body: state of its own, sees all pointers), after any history; Replay and ReplaySafe say exactly which node comes next, Visits what follows from it. The two excluded removals are shown to break the loops. The comparison is a total preorder."
  },
  {
   "property": "C137",
   "status": "proved",
   "theorems": [
    "ZT.EList.c137_history",
    "ZT.EList.c137_for_each",
    "ZT.EList.c137_for_each_safe",
    "ZT.EList.c137_move",
    "ZT.EList.c137_current_violation",
    "ZT.EList.c137_next_violation"
   ],
   "note": "Any number of rounds of any body, after any history of any number of lists, including insertion next to members; Replay and ReplaySafe say exactly which node comes next, Visits what follows from it. The excluded cases are shown to loop forever in every list."
  },
  {
   "property": "C138",
   "status": "proved",
   "theorems": [
    "ZT.Buf.c138_room",
    "ZT.Buf.c138_no_room",
    "ZT.Buf.c138_no_fit",
    "ZT.Buf.c138_iov_room",
    "ZT.Buf.c138_iov_no_room",
    "ZT.Buf.c138_add_buf_self",
    "ZT.Buf.c138_second_add"
   ],
   "note": "Stated for every buffer that represents a queue (Rep), which c26_fifo_partial gives after every allowed history; c138_second_add is the case of two calls on a new buffer. Sizes below 2^30 (2^29 for doubling)."
  },
  {
   "property": "C139",
   "status": "proved",
   "theorems": [
    "ZT.Set.c139_union",
    "ZT.Set.c139_union_disjoint",
    "ZT.Set.c139_unchanged",
    "ZT.Set.c139_difference_second",
    "ZT.Set.c139_compare_self"
   ],
   "note": "All sets (Holds, established by init_holds and insert_holds), all good match functions; the enumeration runs over the table it inserts into (forEachM of C130). Allocation is assumed to succeed."
  },
  {
   "property": "C14",
   "status": "proved",
   "theorems": [
    "ZT.EList.queue_fifo",
    "ZT.EList.dequeue_spec",
    "ZT.EList.dequeue_empty"
   ],
   "note": "All histories. zt_queue_dequeue on an empty queue returns the head itself, not NULL (dequeue_empty)."
  },
  {
   "property": "C140",
   "status": "proved",
   "theorems": [
    "ZT.Base.c140_decode",
    "ZT.Base.c140_roundtrip",
    "ZT.Base.c140_behind_violation"
   ],
   "note": "All definitions (for invalid dictionaries too), texts, offsets and sizes with the output at or before the text; memory outside the block is not touched by construction (a store outside is undefined behaviour in the model and the equality excludes it unless the separate call has it)."
  },
  {
   "property": "C141",
   "status": "proved",
   "theorems": [
    "ZT.Hex.c141_decode",
    "ZT.Hex.c141_roundtrip",
    "ZT.Hex.c141_encode",
    "ZT.Hex.c141_encode_end",
    "ZT.Hex.c141_near_violation"
   ],
   "note": "All blocks, texts, offsets and lengths; undefined behaviour of the call with a separate buffer (text that ends before its terminator) corresponds to undefined behaviour in place."
  },
  {
   "property": "C142",
   "status": "proved",
   "theorems": [
    "ZT.Time.c142_alias",
    "ZT.Time.c142_program",
    "ZT.Time.c142_total"
   ],
   "note": "c142_alias holds for all operands, also not normalized or overflowing ones (both sides are then undefined); the programs are any lists of calls, the bound is on the exact instants (Throughout)."
  },
  {
   "property": "C143",
   "status": "proved",
   "theorems": [
    "ZT.Cstr.c143_copy",
    "ZT.Cstr.c143_basename",
    "ZT.Cstr.c143_dirname",
    "ZT.Cstr.c143_basename_violation",
    "ZT.Cstr.c143_dirname_violation"
   ],
   "note": "The exact behaviour for every placement described in the statement; the names that C42 excepts (paths ending in \"/\", the root) are excepted here too, and basename with a separate destination is stated without suffix."
  },
  {
   "property": "C144",
   "status": "proved",
   "theorems": [
    "ZT.Arr.c144_program",
    "ZT.Arr.c144_swaps",
    "ZT.Arr.c144_self_violation"
   ],
   "note": "All programs over one array that the constructors can produce (WF of C27) and any number of temporaries with room for one element."
  },
  {
   "property": "C145",
   "status": "proved",
   "theorems": [
    "ZT.Base.c145_encode",
    "ZT.Base.c145_text",
    "ZT.Base.c145_near_violation"
   ],
   "note": "All data, offsets and sizes for the six shipped definitions; also when the buffer is too small (undefined exactly when the separate call is)."
  },
  {
   "property": "C146",
   "status": "proved",
   "theorems": [
    "ZT.LList.shared_lists_are_values",
    "ZT.LList.nreverse_shared",
    "ZT.LList.sort_shared",
    "ZT.LList.pop_shared",
    "ZT.LList.free_shared",
    "ZT.LList.nmerge_self_violation"
   ],
   "note": "The merge of a list with itself is shown for lists of one item, every heap and comparison function."
  },
  {
   "property": "C147",
   "status": "proved",
   "theorems": [
    "ZT.Table.c147_calls",
    "ZT.Table.c147_cost",
    "ZT.Table.c147_stored",
    "ZT.Table.c147_deleted",
    "ZT.Table.c147_once"
   ],
   "note": "All histories for which bucket indices are in range (C18); Bag is the exact specification of histories of C17."
  },
  {
   "property": "C148",
   "status": "proved",
   "theorems": [
    "ZT.Gc.c148_bound",
    "ZT.Gc.c148_exact",
    "ZT.Gc.c148_once",
    "ZT.Gc.c148_full_exact",
    "ZT.Gc.c148_log_only"
   ],
   "note": "The bound and the exact count hold in any state, reachable or not; the rest for the legal histories of C33. Objects found dead at the end of a cycle are released in the call that ends it, and zt_gc_free_white walks all of them: the bound is on mark_fn, not on release_fn."
  },
  {
   "property": "C149",
   "status": "proved",
   "theorems": [
    "ZT.Gc.c149_keeps_up",
    "ZT.Gc.c149_releases",
    "ZT.Gc.c149_starves_violation"
   ],
   "note": "The code documents no relation between the two settings; the claim is the exact behaviour of both cases (the threshold is sharp). Legal is the set of obligations of C33; counters are unbounded integers. zt_gc_unregister, zt_gc_protect and full collections in between are outside the continuations considered."
  },
  {
   "property": "C15",
   "status": "proved",
   "theorems": [
    "ZT.LList.sort_sorts",
    "ZT.LList.sort_stable",
    "ZT.LList.sort_threeway_wrong"
   ],
   "note": "All lists, all total preorders given as a less-or-equal style comparison the code expects; a strcmp-style three-way comparison is not what the code expects (sort_threeway_wrong)."
  },
  {
   "property": "C150",
   "status": "proved",
   "theorems": [
    "ZT.Gc.c150_once_per_cycle",
    "ZT.Gc.c150_every_object"
   ],
   "note": "Loop bounds of the model may differ from call to call. A call that completes a cycle ends the sequence, since the next call may scan the same objects in the next cycle (cycle_sample)."
  },
  {
   "property": "C16",
   "status": "proved",
   "theorems": [
    "ZT.LList.nreverse_reverses",
    "ZT.LList.reverse_reverses",
    "ZT.LList.nreverse_twice",
    "ZT.LList.reverse_twice"
   ],
   "note": "All lists and heaps."
  },
  {
   "property": "C17",
   "status": "partial",
   "theorems": [
    "ZT.Table.history_map_iff",
    "ZT.Table.history_lossless_partial",
    "ZT.Table.history_exact",
    "ZT.Table.history_partial",
    "ZT.Table.history_no_del",
    "ZT.Table.del_exact",
    "ZT.Table.del_loses_entries"
   ],
   "note": "Exact for all histories (history_exact gives what the code does, for any callbacks and flags); it is a finite map at every point if and only if no deletion finds its key in third or later place of its bucket (history_map_iff). Otherwise violated: zt_table_del never advances prev, so entries between the bucket head and the deleted one are lost (del_exact, del_loses_entries)."
  },
  {
   "property": "C18",
   "status": "partial",
   "theorems": [
    "ZT.Table.in_range_small_partial",
    "ZT.Table.in_range_big_partial",
    "ZT.Table.in_range_hint_partial",
    "ZT.Table.out_of_range_65535",
    "ZT.Table.out_of_range_hint",
    "ZT.Table.no_buckets"
   ],
   "note": "Proved for hints below 32768, [65535, 2^31) and power-of-two USE_HINT sizes; violated (out-of-bounds bucket access, proved) for hints in [32768, 65535), non-power-of-two USE_HINT sizes and hints >= UINT_MAX."
  },
  {
   "property": "C19",
   "status": "proved",
   "theorems": [
    "ZT.Table.for_each_visits",
    "ZT.Table.for_each_collects",
    "ZT.Table.for_each_is_get",
    "ZT.Table.copy_adds",
    "ZT.Table.copy_exact",
    "ZT.Table.history_stands"
   ],
   "note": "Enumeration and copy after all histories, also those that lose entries in deletions (for_each_is_get, copy_exact); all iterators; copy between tables of different size, hash and flags. In terms of finite maps for tables that stand for one."
  },
  {
   "property": "C20",
   "status": "partial",
   "theorems": [
    "ZT.Set.set_history_partial",
    "ZT.Set.intersection_exact",
    "ZT.Set.difference_exact",
    "ZT.Set.isSubset_iff",
    "ZT.Set.isEqual_iff",
    "ZT.Set.for_each_members",
    "ZT.Set.union_exact",
    "ZT.Set.union_disjoint_partial",
    "ZT.Set.union_stops_early",
    "ZT.Set.remove_removes_nothing"
   ],
   "note": "insert/member/length, intersection, difference, subset, equality, traversal at full strength. union exactly (union_exact): it is right for disjoint sets and otherwise stops at the first common element; removal removes nothing: the code violates both (proved)."
  },
  {
   "property": "C21",
   "status": "proved",
   "theorems": [
    "ZT.RbTree.c21_sorted_members",
    "ZT.RbTree.c21_insert",
    "ZT.RbTree.c21_remove",
    "ZT.RbTree.c21_find",
    "ZT.RbTree.history_exists",
    "ZT.RbTree.empty_macro_wrong"
   ],
   "note": "All histories at pointer level, any total preorder comparison. Finding: the zt_rbt_empty macro answers \"empty\" for every non-empty tree (empty_macro_wrong)."
  },
  {
   "property": "C22",
   "status": "proved",
   "theorems": [
    "ZT.RbTree.c22_balanced",
    "ZT.RbTree.c22_search_steps"
   ],
   "note": "All histories."
  },
  {
   "property": "C23",
   "status": "proved",
   "theorems": [
    "ZT.RbTree.c23_min",
    "ZT.RbTree.c23_max",
    "ZT.RbTree.c23_nfind",
    "ZT.RbTree.c23_next",
    "ZT.RbTree.c23_for_each",
    "ZT.RbTree.c23_drain"
   ],
   "note": "All histories; for_each and for_each_safe with a removing body."
  },
  {
   "property": "C24",
   "status": "partial",
   "theorems": [
    "ZT.Ipv4.c24_search_partial",
    "ZT.Ipv4.c24_full_table",
    "ZT.Ipv4.add_twice_loops",
    "ZT.Ipv4.second_table_overflows"
   ],
   "note": "All histories and addresses as long as some prefix length is unused (or a /0 was added) and the table is the first one in the process or no larger than it. Otherwise violated, proved: a miss on a table using all 32 prefix lengths reads past in[31]; a second, larger table overflows the block of the first; adding a node twice makes searches loop."
  },
  {
   "property": "C25",
   "status": "partial",
   "theorems": [
    "ZT.Ipv4.c25_parse",
    "ZT.Ipv4.c25_plain",
    "ZT.Ipv4.c25_range",
    "ZT.Ipv4.plain_overreads",
    "ZT.Ipv4.negative_prefix",
    "ZT.Ipv4.huge_prefix",
    "ZT.Ipv4.garbage_accepted",
    "ZT.Ipv4.inetRef_ok"
   ],
   "note": "Well-formed text at full strength. Violated for malformed prefix lengths (negative_prefix, huge_prefix) and for addresses without a prefix in short strings (plain_overreads)."
  },
  {
   "property": "C26",
   "status": "partial",
   "theorems": [
    "ZT.Buf.c26_fifo_partial",
    "ZT.Buf.c26_add_ub",
    "ZT.Buf.c26_reserved_partial",
    "ZT.Buf.c26_fill_drain_partial",
    "ZT.Buf.c26_overflow",
    "ZT.Buf.c26_realloc_interior"
   ],
   "note": "Exact characterisation: an addition is honoured iff nothing was skipped by a partial removal or the bytes still fit behind; otherwise it is undefined (c26_add_ub, c26_overflow, c26_realloc_interior). Histories over any number of buffers within that condition are byte FIFOs."
  },
  {
   "property": "C27",
   "status": "partial",
   "theorems": [
    "ZT.Arr.c27_put",
    "ZT.Arr.c27_get",
    "ZT.Arr.c27_out_of_range",
    "ZT.Arr.c27_new",
    "ZT.Arr.c27_resize",
    "ZT.Arr.c27_resize_zero",
    "ZT.Arr.c27_copy",
    "ZT.Arr.c27_with",
    "ZT.Arr.c27_with_cstr",
    "ZT.Arr.with_cstr_empty_aborts",
    "ZT.Arr.new_overflow",
    "ZT.Arr.set_length_beyond"
   ],
   "note": "All arrays whose byte size fits size_t. Findings: length*size overflow is unchecked (new_overflow); set_length makes unbacked elements accessible (set_length_beyond); array_with_cstr of \"\" aborts."
  },
  {
   "property": "C28",
   "status": "proved",
   "theorems": [
    "ZT.Arr.c28_roundtrip",
    "ZT.Arr.c28_typed",
    "ZT.Arr.c28_read_past",
    "ZT.Arr.c28_is_empty",
    "ZT.Arr.clone_loses_flip",
    "ZT.Arr.write_after_truncate"
   ],
   "note": "Blocks and typed values of any width, any stream array, totals below 2^60 bytes. Findings: clone forgets flipendian; write after truncate aborts."
  },
  {
   "property": "C29",
   "status": "partial",
   "theorems": [
    "ZT.PtrArray.c29_init",
    "ZT.PtrArray.c29_add",
    "ZT.PtrArray.c29_add_null",
    "ZT.PtrArray.c29_get",
    "ZT.PtrArray.c29_get_outside",
    "ZT.PtrArray.c29_del",
    "ZT.PtrArray.c29_del_once",
    "ZT.PtrArray.c29_del_null",
    "ZT.PtrArray.c29_cat",
    "ZT.PtrArray.c29_resize",
    "ZT.PtrArray.c29_move",
    "ZT.PtrArray.c29_free",
    "ZT.PtrArray.c29_history_partial",
    "ZT.PtrArray.del_leaves_copy",
    "ZT.PtrArray.self_cat_never_ends",
    "ZT.PtrArray.move_reads_past"
   ],
   "note": "Sequence behaviour at full strength except deletion of a pointer that occurs several times, where the code leaves copies (del_leaves_copy). Self-concatenation never returns; move_idx accepts index count."
  },
  {
   "property": "C30",
   "status": "proved",
   "theorems": [
    "ZT.MemPool.c30_total",
    "ZT.MemPool.c30_disjoint",
    "ZT.MemPool.c30_alloc",
    "ZT.MemPool.c30_bookkeeping",
    "ZT.MemPool.alloc_oom",
    "ZT.MemPool.init_overflow",
    "ZT.MemPool.misaligned"
   ],
   "note": "All histories over any number of pools, an arbitrary non-failing system allocator, pages released by any callback. Findings: page allocation failure dereferences NULL (alloc_oom), page size computation wraps (init_overflow), elements misaligned for sizes not multiple of 8 (misaligned)."
  },
  {
   "property": "C31",
   "status": "partial",
   "theorems": [
    "ZT.MemPool.c31_counters",
    "ZT.MemPool.c31_destroy",
    "ZT.MemPool.c31_blocks",
    "ZT.MemPool.c31_no_leak",
    "ZT.MemPool.c31_release_free",
    "ZT.MemPool.stats_after_release_free"
   ],
   "note": "All histories. Finding: zt_mem_pool_release_free_pages and a refused destroy do not count the pages they free, so page_allocs = pages + page_frees only holds without them (stats_after_release_free)."
  },
  {
   "property": "C32",
   "status": "partial",
   "theorems": [
    "ZT.EzPool.history_exact_partial",
    "ZT.EzPool.all_destroyed_partial",
    "ZT.EzPool.destroy_root_exact",
    "ZT.EzPool.sibling_lost",
    "ZT.EzPool.orphan_use_after_free",
    "ZT.EzPool.add_result",
    "ZT.EzPool.strdup_empty_not_attached"
   ],
   "note": "All trees and histories in which the pools destroyed are roots or only children. Violated when a sub-pool with siblings is destroyed: the siblings are lost (sibling_lost) and destroying them later is a use after free (orphan_use_after_free)."
  },
  {
   "property": "C33",
   "status": "partial",
   "theorems": [
    "ZT.Gc.c33_total_partial",
    "ZT.Gc.c33_safe_partial",
    "ZT.Gc.c33_protected_stays_partial",
    "ZT.Gc.sample_legal",
    "ZT.Gc.mid_legal",
    "ZT.Gc.idle_legal",
    "ZT.Gc.protect_mid_cycle_violation",
    "ZT.Gc.root_mid_cycle_violation",
    "ZT.Gc.store_mid_cycle_violation",
    "ZT.Gc.store_with_mark_safe",
    "ZT.Gc.mark_at_scan_violation",
    "ZT.Gc.unregister_at_scan_violation",
    "ZT.Gc.unregister_threshold"
   ],
   "note": "All graphs and histories of legal calls. Violated without the obligations of Legal: protecting, rooting or storing a reference to a white object in the middle of a cycle loses objects reachable from protected ones (the *_violation theorems); between cycles there is no obligation (idle_legal)."
  },
  {
   "property": "C34",
   "status": "partial",
   "theorems": [
    "ZT.Itoa.c34_display_len",
    "ZT.Itoa.c34_itoa_partial",
    "ZT.Itoa.c34_refuse",
    "ZT.Itoa.c34_null",
    "ZT.Itoa.c34_overrun_violation",
    "ZT.Itoa.c34_wrap_violation"
   ],
   "note": "All ints, all buffers with room for the text and its terminator; refusal when the text does not fit. Violated: when the text fits exactly the terminator is stored one byte past the buffer (c34_overrun_violation)."
  },
  {
   "property": "C35",
   "status": "partial",
   "theorems": [
    "ZT.Format.c35_d_partial",
    "ZT.Format.c35_u",
    "ZT.Format.c35_intmax_violation",
    "ZT.Format.c35_intmin_violation"
   ],
   "note": "%u %x %o: all values. %d: all values but two: INT_MAX prints 2147483648 and INT_MIN overflows (proved violations)."
  },
  {
   "property": "C36",
   "status": "partial",
   "theorems": [
    "ZT.Format.c36_format_partial",
    "ZT.Format.c36_hash",
    "ZT.Format.c36_hash_num",
    "ZT.Format.c36_minus_s_violation",
    "ZT.Format.c36_sign_violation",
    "ZT.Format.c36_zero_violation",
    "ZT.Format.c36_space_violation",
    "ZT.Format.c36_plus_violation",
    "ZT.Format.c36_emptyprec_violation"
   ],
   "note": "All formats made of ordinary characters and %c %d %o %u %x %p %s %e %f %g conversions with flags, width and precision (numbers or *): equal to the C standard meaning in the cases Agrees. The excluded cases are deviations, proved as violations.."
  },
  {
   "property": "C37",
   "status": "proved",
   "theorems": [
    "ZT.Format.c37_sprintf",
    "ZT.Format.c37_sprintf_abort",
    "ZT.Format.c37_strprintf",
    "ZT.Format.c37_return_violation"
   ],
   "note": "All formats, arguments (any bytes) and buffers. Finding: the return value of zt_fmt_format/fprint is the sum of the character codes, not the number of characters."
  },
  {
   "property": "C38",
   "status": "partial",
   "theorems": [
    "ZT.Cstr.c38_sub",
    "ZT.Cstr.c38_dup_partial",
    "ZT.Cstr.c38_cat",
    "ZT.Cstr.c38_catv",
    "ZT.Cstr.c38_reverse",
    "ZT.Cstr.c38_len",
    "ZT.Cstr.c38_pos",
    "ZT.Cstr.c38_copy",
    "ZT.Cstr.c38_outside",
    "ZT.Cstr.c38_sub_empty",
    "ZT.Cstr.c38_cat_empty_violation",
    "ZT.Cstr.c38_len_empty_violation",
    "ZT.Cstr.c38_dup_wrap_violation"
   ],
   "note": "All non-empty strings, all index pairs. Violated for the empty string (its slice holds the terminator: concatenations are cut there, the length is 1) and for dup sizes of 2^64 and more (size computation wraps, heap overflow)."
  },
  {
   "property": "C39",
   "status": "partial",
   "theorems": [
    "ZT.Cstr.c39_find",
    "ZT.Cstr.c39_rfind",
    "ZT.Cstr.c39_find_empty",
    "ZT.Cstr.c39_upto",
    "ZT.Cstr.c39_any",
    "ZT.Cstr.c39_rupto",
    "ZT.Cstr.c39_rany_partial",
    "ZT.Cstr.c39_chr_partial",
    "ZT.Cstr.c39_rchr_partial",
    "ZT.Cstr.c39_chr_violation",
    "ZT.Cstr.c39_rany_violation",
    "ZT.Cstr.c39_char_violation",
    "ZT.Cstr.c39_upto_empty_violation"
   ],
   "note": "find, rfind, upto, any, rupto at full strength for non-empty strings. Violated: chr/rchr report failure as 0, rany counts from the slice start, chars above 127 given as codes are not found."
  },
  {
   "property": "C40",
   "status": "partial",
   "theorems": [
    "ZT.Cstr.c40_cmp_partial",
    "ZT.Cstr.c40_reflexive",
    "ZT.Cstr.c40_antisymmetric",
    "ZT.Cstr.lex_eq_zero",
    "ZT.Cstr.lex_antisymm",
    "ZT.Cstr.lex_trans",
    "ZT.Cstr.c40_equal_violation",
    "ZT.Cstr.c40_transitive_violation"
   ],
   "note": "Exact characterisation for all non-empty strings and slices. Violated for slices of the same length: the last character is not compared."
  },
  {
   "property": "C41",
   "status": "partial",
   "theorems": [
    "ZT.Cstr.c41_map_partial",
    "ZT.Cstr.c41_lengths",
    "ZT.Cstr.c41_null",
    "ZT.Cstr.c41_high_violation"
   ],
   "note": "All strings, slices and from/to pairs. Violated for characters 226..255 not in from: they become NUL."
  },
  {
   "property": "C42",
   "status": "partial",
   "theorems": [
    "ZT.Cstr.c42_chomp_partial",
    "ZT.Cstr.c42_chomp_empty_violation",
    "ZT.Cstr.c42_rspn_partial",
    "ZT.Cstr.c42_rspn_violation",
    "ZT.Cstr.c42_rcspn_partial",
    "ZT.Cstr.c42_rcspn_violation",
    "ZT.Cstr.c42_strip_partial",
    "ZT.Cstr.c42_strip_violation",
    "ZT.Cstr.c42_basename_partial",
    "ZT.Cstr.c42_suffix_partial",
    "ZT.Cstr.c42_suffix_absent",
    "ZT.Cstr.c42_basename_violation",
    "ZT.Cstr.c42_suffix_violation",
    "ZT.Cstr.c42_dirname_partial",
    "ZT.Cstr.c42_dirname_dot",
    "ZT.Cstr.c42_dirname_violation",
    "ZT.Cstr.c42_append_partial",
    "ZT.Cstr.c42_append_violation",
    "ZT.Cstr.c42_abspath"
   ],
   "note": "Holds outside of the edge cases refuted by the _violation theorems: chomp and dirname of the empty string, strip of one character and of texts with inner newlines, paths ending in or consisting of separators, suffixes without a dot."
  },
  {
   "property": "C43",
   "status": "partial",
   "theorems": [
    "ZT.IntOps.uadd_exact",
    "ZT.IntOps.sadd_exact",
    "ZT.IntOps.ssub_exact",
    "ZT.IntOps.umul_exact",
    "ZT.IntOps.smul_exact",
    "ZT.IntOps.udiv_exact",
    "ZT.IntOps.usub_exact_partial",
    "ZT.IntOps.sdiv_exact_partial",
    "ZT.IntOps.usub_equal_aborts",
    "ZT.IntOps.sdiv_negative_aborts",
    "ZT.IntOps.sdiv_counterexample"
   ],
   "note": "add/mul/udiv/ssub proved at full strength. The code violates the property for unsigned x-x and for negative/negative division; violations proved."
  },
  {
   "property": "C44",
   "status": "proved",
   "theorems": [
    "ZT.Time.add_exact",
    "ZT.Time.sub_exact",
    "ZT.Time.diff_exact",
    "ZT.Time.sub_add",
    "ZT.Time.cmp_order"
   ],
   "note": "All normalized times whose seconds stay within +-2^62 (no 64-bit overflow)."
  },
  {
   "property": "C45",
   "status": "partial",
   "theorems": [
    "ZT.Opts.c45_general",
    "ZT.Opts.c45_calls_partial",
    "ZT.Opts.c45_values_partial",
    "ZT.Opts.c45_builtin_safe_partial",
    "ZT.Opts.c45_unknown",
    "ZT.Opts.c45_attached_violation",
    "ZT.Opts.c45_cluster_violation",
    "ZT.Opts.c45_no_long_violation",
    "ZT.Opts.c45_missing_violation",
    "ZT.Opts.c45_missing_bool_violation",
    "ZT.Opts.c45_unknown_violation"
   ],
   "note": "c45_general: every argv, table, handler, validator and callbacks. Exact result for all well-formed command lines in six option forms. Refuted: values attached to short names, valued options at the end of a cluster, valued short options without long name (NULL to strcmp), missing values with a handler that returns, unknown options behind known ones."
  },
  {
   "property": "C46",
   "status": "partial",
   "theorems": [
    "ZT.Cfg.c46_get_partial",
    "ZT.Cfg.c46_total",
    "ZT.Cfg.c46_last",
    "ZT.Cfg.c46_link",
    "ZT.Cfg.c46_set_int",
    "ZT.Cfg.c46_set_string_partial",
    "ZT.Cfg.c46_set_float_partial",
    "ZT.Cfg.c46_set_bool_partial",
    "ZT.Cfg.c46_cut_violation",
    "ZT.Cfg.c46_loop_violation",
    "ZT.Cfg.c46_bool_violation",
    "ZT.Cfg.c46_string_violation",
    "ZT.Cfg.c46_result_violation",
    "ZT.Cfg.getType_denotes",
    "ZT.Cfg.denotes_unique"
   ],
   "note": "All histories of writes, links included. Refuted: a link to itself makes zt_cfg_get run forever; zt_cfg_set of a bool given as int fails; strings that look like other values cannot be read back as strings; strings of more than 1023 bytes are cut; the result of reading a bool is 0, the documented failure. strtod and the text of %f are parameters."
  },
  {
   "property": "C47",
   "status": "proved",
   "theorems": [
    "ZT.Atexit.c47_lifo",
    "ZT.Atexit.c47_reverse",
    "ZT.Atexit.c47_ends",
    "ZT.Atexit.c47_null",
    "ZT.Atexit.demo_allocates",
    "ZT.Atexit.demo_runs",
    "ZT.Atexit.host_order_violation"
   ],
   "note": "All registration histories, callbacks and other exit functions that register further callbacks included. Finding: relative to functions given to the host's atexit the order is not LIFO (host_order_violation)."
  },
  {
   "property": "C48",
   "status": "partial",
   "theorems": [
    "ZT.Pool.c48_exclusion",
    "ZT.Pool.c48_fifo",
    "ZT.Pool.c48_once",
    "ZT.Pool.c48_results",
    "ZT.Pool.c48_finals",
    "ZT.Pool.c48_gets",
    "ZT.Pool.c48_rest",
    "ZT.Pool.c48_no_lost_entry",
    "ZT.Pool.c48_all_processed",
    "ZT.Pool.c48_kill_partial",
    "ZT.Pool.c48_drain_partial",
    "ZT.Pool.c48_lost_kill_violation",
    "ZT.Pool.c48_output_left_violation"
   ],
   "note": "Any number of threads and clients, every schedule. Partial: zt_threadpool_kill is proved to end all threads only if no thread is between finding `kill` clear and waiting (otherwise it can block forever, refuted), and drains the input queue but not the output queue (refuted)."
  },
  {
   "property": "C49",
   "status": "partial",
   "theorems": [
    "ZT.Random.c49_seeded",
    "ZT.Random.c49_keyed",
    "ZT.Random.c49_unseeded",
    "ZT.Random.c49_safe",
    "ZT.Random.c49_empty_key_violation"
   ],
   "note": "All seeds, keys and numbers of outputs. Partial only in that an empty key is read out of bounds (refuted). For the floating point macros see C123."
  },
  {
   "property": "C50",
   "status": "partial",
   "theorems": [
    "ZT.Cstr.dump_exact",
    "ZT.Cstr.c50_dump_partial",
    "ZT.Cstr.c50_tail_violation",
    "ZT.Cstr.c50_lines_complete",
    "ZT.Cstr.c50_str_partial",
    "ZT.Cstr.c50_str_violation"
   ],
   "note": "Every source and output callback. False (and refuted) when 15 bytes remain for the last line, and for bytes above 127 in zt_hexdump_str. The printed form is C110."
  },
  {
   "property": "C51",
   "status": "partial",
   "theorems": [
    "ZT.Time.c51_none_partial",
    "ZT.Time.c51_count_violation",
    "ZT.Time.c51_overflow_violation"
   ],
   "note": "Violated by the code for every n > 0: n + 1 calls, and an overflow of the counter for n = 2^31-1."
  },
  {
   "property": "C52",
   "status": "proved",
   "theorems": [
    "ZT.Hash.hash32_is_fnv1a",
    "ZT.Hash.hash64_is_fnv1a",
    "ZT.Hash.sub32Mask_lt",
    "ZT.Hash.fixed_masks"
   ],
   "note": "FNV-1a conformance, folding range."
  },
  {
   "property": "C53",
   "status": "partial",
   "theorems": [
    "ZT.Hex.decode_safe",
    "ZT.Hex.encode_truncates",
    "ZT.Hex.encode_odd_overflow",
    "ZT.Hex.decode_odd_unterminated"
   ],
   "note": "Violated for odd hlen (encode) and unterminated odd text (decode)."
  },
  {
   "property": "C54",
   "status": "partial",
   "theorems": [
    "ZT.Sha1.update_preserves_data_partial",
    "ZT.Sha1.update_clobbers"
   ],
   "note": "Violated by the code as soon as a block is hashed directly from the caller data."
  },
  {
   "property": "C55",
   "status": "partial",
   "theorems": [
    "ZT.Uuid.isvalid_iff",
    "ZT.Uuid.isvalid_text",
    "ZT.Uuid.fromstr_wrong_length_partial",
    "ZT.Uuid.fromstr_accepts_garbage",
    "ZT.Uuid.fromstr_base62_unterminated",
    "ZT.Uuid.fromstr_base62_wraps"
   ],
   "note": "isvalid is exact. The parser violates the rest: non-hex 32-character text is accepted, base62 numbers wrap modulo 2^64."
  },
  {
   "property": "C56",
   "status": "partial",
   "theorems": [
    "ZT.Uuid.fillstr_exact",
    "ZT.Uuid.fillstr_base62_aborts",
    "ZT.Uuid.uuid5_preserves_name_partial",
    "ZT.Uuid.uuid5_clobbers_name"
   ],
   "note": "Violated: base62 formats abort for buffers above 23 bytes; names of 112 bytes or more are overwritten."
  },
  {
   "property": "C57",
   "status": "proved",
   "theorems": [
    "ZT.LList.push_spec",
    "ZT.LList.pop_spec",
    "ZT.LList.nth_spec",
    "ZT.LList.nthtail_spec",
    "ZT.LList.free_spec",
    "ZT.LList.split_halves"
   ],
   "note": "All lists and heaps."
  },
  {
   "property": "C58",
   "status": "partial",
   "theorems": [
    "ZT.Table.destroy_releases_all",
    "ZT.Table.destroy_exact",
    "ZT.Table.destroy_leak_violation"
   ],
   "note": "Exact for all histories: destruction is defined and leaves exactly the entries lost by deletions; none without deletions or after histories that stand for a map. Refuted otherwise: entries lost by zt_table_del stay allocated (destroy_leak_violation)."
  },
  {
   "property": "C59",
   "status": "partial",
   "theorems": [
    "ZT.Table.int_callbacks",
    "ZT.Table.string_callbacks",
    "ZT.Table.buff_callbacks_partial",
    "ZT.Table.ptrBytes_inj",
    "ZT.Table.buff_nul_equal",
    "ZT.Table.case_hash_differs",
    "ZT.Table.string_case_exact",
    "ZT.Table.lower_ascii",
    "ZT.Table.string_len0_equal",
    "ZT.Table.int_long_ub"
   ],
   "note": "int and string pairs at full strength; buffer pair only without NUL bytes; violated for buffers with NUL and for the case-insensitive pair."
  },
  {
   "property": "C60",
   "status": "partial",
   "theorems": [
    "ZT.Table.dup_lossless_partial",
    "ZT.Table.dup_history_partial",
    "ZT.Table.history_exact",
    "ZT.Table.dup_loses_violation"
   ],
   "note": "All histories in which no deletion loses entries (chain defect of C17); exact semantics for the others (history_exact); refuted by dup_loses_violation."
  },
  {
   "property": "C61",
   "status": "proved",
   "theorems": [
    "ZT.MemPool.c61_get"
   ],
   "note": "All histories, all names."
  },
  {
   "property": "C62",
   "status": "proved",
   "theorems": [
    "ZT.MemPool.c62_exit",
    "ZT.MemPool.c62_exit_clean"
   ],
   "note": "All histories."
  },
  {
   "property": "C63",
   "status": "partial",
   "theorems": [
    "ZT.MemPool.c63_group_init",
    "ZT.MemPool.c63_group_alloc",
    "ZT.MemPool.c63_group_room",
    "ZT.MemPool.c63_group_destroy",
    "ZT.MemPool.group_null_entries"
   ],
   "note": "All groups whose descriptions all have names. Finding: a nameless description leaves NULL pools that are dereferenced (group_null_entries). When the allocator fails: see C89."
  },
  {
   "property": "C64",
   "status": "proved",
   "theorems": [
    "ZT.Gc.c64_two_collections",
    "ZT.Gc.c64_destroy"
   ],
   "note": "All legal histories."
  },
  {
   "property": "C65",
   "status": "proved",
   "theorems": [
    "ZT.Cstr.c65_split",
    "ZT.Cstr.c65_null"
   ],
   "note": "strtok_r and strdup are modelled by their C specification."
  },
  {
   "property": "C66",
   "status": "partial",
   "theorems": [
    "ZT.Cstr.c66_cut_partial",
    "ZT.Cstr.c66_cut_violation"
   ],
   "note": "All strings, every delimiter but NUL (refuted)."
  },
  {
   "property": "C67",
   "status": "partial",
   "theorems": [
    "ZT.Cstr.c67_tok_partial",
    "ZT.Cstr.c67_tok_violation"
   ],
   "note": "All non-empty strings and delimiters other than NUL given as char; the rest refuted."
  },
  {
   "property": "C68",
   "status": "proved",
   "theorems": [
    "ZT.Opts.c68_validate",
    "ZT.Opts.c68_exits",
    "ZT.Opts.c68_count"
   ],
   "note": "All tables."
  },
  {
   "property": "C69",
   "status": "partial",
   "theorems": [
    "ZT.Cfg.c69_file",
    "ZT.Cfg.c69_get",
    "ZT.Cfg.c69_last_partial",
    "ZT.Cfg.c69_error",
    "ZT.Cfg.c69_long",
    "ZT.Cfg.exampleLines_ok",
    "ZT.Cfg.c69_last_violation"
   ],
   "note": "All well-formed files. Refuted: a one-byte value at the end of a file without newline is reported as an error."
  },
  {
   "property": "C70",
   "status": "partial",
   "theorems": [
    "ZT.Cfg.c70_safe_partial",
    "ZT.Cfg.c70_empty_violation",
    "ZT.Cfg.c70_comment_violation",
    "ZT.Cfg.c70_section_violation"
   ],
   "note": "All files in which every '[' is closed within 1023 bytes and every '=' is followed by a value. Refuted for files with an empty value (out of bounds read) and with overlong section names (NULL block name)."
  },
  {
   "property": "C71",
   "status": "proved",
   "theorems": [
    "ZT.Unit.c71_run",
    "ZT.Unit.c71_assertions",
    "ZT.Unit.c71_errors",
    "ZT.Unit.Report.c71_registered",
    "ZT.Unit.Report.c71_registered_run"
   ],
   "note": "All units, worlds and test functions; only C++ tests may throw."
  },
  {
   "property": "C72",
   "status": "proved",
   "theorems": [
    "ZT.Unit.c72_all",
    "ZT.Unit.c72_names",
    "ZT.Unit.c72_selects"
   ],
   "note": "All units (fewer than 2^32 test runs) and all lists of proper names."
  },
  {
   "property": "C73",
   "status": "partial",
   "theorems": [
    "ZT.Unit.c73_consistent",
    "ZT.Unit.c73_empty_violation",
    "ZT.Unit.c73_dot_violation",
    "ZT.Unit.c73_single_dot_violation",
    "ZT.Unit.c73_tests_violation",
    "ZT.Unit.c73_assertions_violation"
   ],
   "note": "Holds for runs of the whole unit. Refuted: the empty name and suite names with a leading or trailing dot dereference NULL; tests run by name are not counted as tests; a second run counts the assertions of the first one again."
  },
  {
   "property": "C74",
   "status": "proved",
   "theorems": [
    "ZT.Log.c74_genFmt"
   ],
   "note": "All inputs with line < 2^31 (an int), whatever the contents of fresh memory."
  },
  {
   "property": "C75",
   "status": "partial",
   "theorems": [
    "ZT.Log.c75_line_partial",
    "ZT.Log.c75_percent_violation",
    "ZT.Log.c75_file_violation"
   ],
   "note": "Holds when no '%' occurs in the header and location. Refuted otherwise: the names are part of the printf format, so a '%' in the program, host, file or function name is a conversion (undefined behaviour, or changed text). vfprintf is modelled for %%, %s and %d."
  },
  {
   "property": "C76",
   "status": "proved",
   "theorems": [
    "ZT.Log.c76_level",
    "ZT.Log.c76_new",
    "ZT.Log.c76_default"
   ],
   "note": "All reachable states and histories; calls are atomic."
  },
  {
   "property": "C77",
   "status": "proved",
   "theorems": [
    "ZT.Log.c77_next",
    "ZT.Log.c77_once"
   ],
   "note": "All histories of any number of threads; calls are atomic."
  },
  {
   "property": "C78",
   "status": "proved",
   "theorems": [
    "ZT.Log.c78_safe",
    "ZT.Log.c78_exit",
    "ZT.Log.c78_returned",
    "ZT.Log.c78_own",
    "ZT.Log.c78_close_forced"
   ],
   "note": "All histories of legal calls. c78_close_forced shows that the rule is needed: closing a library-created logger is a use after free at exit."
  },
  {
   "property": "C79",
   "status": "partial",
   "theorems": [
    "ZT.Path.c79_create_partial",
    "ZT.Path.c79_frame",
    "ZT.Path.c79_never_returns",
    "ZT.Path.c79_readonly_violation",
    "ZT.Path.c79_empty_violation",
    "ZT.Path.c79_file_violation",
    "ZT.Path.c79_race_violation",
    "ZT.Path.c79_long_violation"
   ],
   "note": "Frame and success at full strength for paths below PATH_MAX on a file system without symbolic links. Refuted: it never returns when the parents exist and mkdir fails (no permission, read-only, empty path); a file in place of the directory counts as success; a parent created meanwhile by another process is a failure; overlong components read past a local buffer."
  },
  {
   "property": "C80",
   "status": "partial",
   "theorems": [
    "ZT.Path.c80_basedir_partial",
    "ZT.Path.c80_exists",
    "ZT.Path.c80_long_violation"
   ],
   "note": "All paths of at most PATH_MAX bytes, every stat that fails for texts of PATH_MAX bytes or more. Refuted for longer paths (unterminated local copy)."
  },
  {
   "property": "C81",
   "status": "proved",
   "theorems": [
    "ZT.Ipv4.c81_text",
    "ZT.Ipv4.c81_parse",
    "ZT.Ipv4.c81_roundtrip",
    "ZT.Ipv4.inetAddrRef_ok"
   ],
   "note": "inet_ntoa is modelled; inet_addr is any function that understands dotted decimal addresses."
  },
  {
   "property": "C82",
   "status": "partial",
   "theorems": [
    "ZT.Ipv4.c82_search_partial",
    "ZT.Ipv4.c82_refused",
    "ZT.Ipv4.c82_leak_violation",
    "ZT.Ipv4.c82_refused_violation"
   ],
   "note": "Result at full strength except for tables with all 32 prefix lengths. Refuted: every search leaves one address record allocated, and every refused text one node."
  },
  {
   "property": "C83",
   "status": "partial",
   "theorems": [
    "ZT.Prog.c83_set",
    "ZT.Prog.c83_strip",
    "ZT.Prog.c83_ask",
    "ZT.Prog.c83_calls",
    "ZT.Prog.c83_slash_violation",
    "ZT.Prog.c83_self_violation"
   ],
   "note": "All histories of calls with names that lie outside the buffer and, with STRIP_DIR, do not end in '/'. Refuted otherwise: of a name ending in '/' nothing but '/' is kept, and a name obtained from zt_progname itself is lost."
  },
  {
   "property": "C84",
   "status": "partial",
   "theorems": [
    "ZT.Prog.c84_abs_partial",
    "ZT.Prog.c84_rel_partial",
    "ZT.Prog.c84_search_partial",
    "ZT.Prog.c84_exe_partial",
    "ZT.Prog.c84_ask",
    "ZT.Prog.c84_last_violation",
    "ZT.Prog.c84_dot_violation",
    "ZT.Prog.c84_root_violation",
    "ZT.Prog.c84_empty_violation",
    "ZT.Prog.c84_exe_violation"
   ],
   "note": "Absolute and relative paths with a directory, PATH entries followed by a colon, missing PATH; every behaviour of stat, getcwd and readlink. Refuted: the last entry of PATH is never tried; './x' is looked up in PATH; for '/x' the program itself is the directory; an empty entry stands for the whole PATH; without PATH and /proc memory before a buffer is read."
  },
  {
   "property": "C85",
   "status": "partial",
   "theorems": [
    "ZT.Opts.c85_stores",
    "ZT.Opts.c85_checks",
    "ZT.Opts.c85_rejects_partial",
    "ZT.Opts.c85_empty_violation",
    "ZT.Opts.c85_stored_violation",
    "ZT.Opts.c85_missing_violation"
   ],
   "note": "All texts. Storing at full strength; rejection for non-empty texts with a handler that does not return. Refuted: the empty text is stored as 0; with a handler that returns, wrong numbers are stored and a missing one is a NULL dereference."
  },
  {
   "property": "C86",
   "status": "partial",
   "theorems": [
    "ZT.Opts.Help.c86_usage_partial",
    "ZT.Opts.Help.c86_nameless",
    "ZT.Opts.Help.c86_long_violation",
    "ZT.Opts.Help.c86_endless_violation"
   ],
   "note": "All tables whose help texts have words below 50 bytes. Refuted: a longer first word reads in front of the text, a longer later word is printed forever."
  },
  {
   "property": "C87",
   "status": "partial",
   "theorems": [
    "ZT.Daemon.c87_result",
    "ZT.Daemon.c87_closes",
    "ZT.Daemon.c87_refused",
    "ZT.Daemon.c87_returns",
    "ZT.Daemon.c87_reclose_violation"
   ],
   "note": "Every sequence of answers of the system. Result and closing at full strength; an interrupted close is repeated, which may close a descriptor of another thread (refuted)."
  },
  {
   "property": "C88",
   "status": "partial",
   "theorems": [
    "ZT.Daemon.c88_ends",
    "ZT.Daemon.c88_descriptors_partial",
    "ZT.Daemon.c88_endless_violation",
    "ZT.Daemon.c88_endless_call_violation",
    "ZT.Daemon.c88_above_violation"
   ],
   "note": "Every answer of the system to fork, setsid, getrlimit, chdir and open. Which process returns at full strength; the descriptors for limits up to 2^31 with none open above the limit. Refuted: an infinite limit makes the call endless; descriptors above the limit stay open."
  },
  {
   "property": "C89",
   "status": "partial",
   "theorems": [
    "ZT.MemPool.c89_disjoint",
    "ZT.MemPool.c89_no_leak",
    "ZT.MemPool.c89_init_null",
    "ZT.MemPool.c89_alloc",
    "ZT.MemPool.c89_alloc_violation",
    "ZT.MemPool.c89_init_violation",
    "ZT.MemPool.c89_group_left_violation",
    "ZT.MemPool.c89_group_first_violation"
   ],
   "note": "All histories and all allocators, whatever they refuse. No damage, no leak, and the NULL of zt_mem_pool_init at full strength. Refuted: a refused page is used (NULL dereference); a failing group creation leaves its first pool behind, or uses entries before its array."
  },
  {
   "property": "C90",
   "status": "partial",
   "theorems": [
    "ZT.MemPool.Heaps.c90_data",
    "ZT.MemPool.Heaps.c90_private",
    "ZT.MemPool.Heaps.c90_name",
    "ZT.MemPool.Heaps.c90_steady",
    "ZT.MemPool.Heaps.c90_init",
    "ZT.MemPool.Heaps.c90_destroy",
    "ZT.MemPool.Heaps.c90_size_violation"
   ],
   "note": "All histories and allocators, sizes up to 2^64-17. Refuted for larger sizes: the header size is added without a check."
  },
  {
   "property": "C91",
   "status": "partial",
   "theorems": [
    "ZT.Set.c91_destroy",
    "ZT.Set.destroy_all",
    "ZT.Set.c91_leak_violation"
   ],
   "note": "All histories of insertion, query and removal, with and without callback, all lawful match functions and allocators: the callback is called once for each member. That everything is given back is proved without removals and refuted with them: zt_set_remove can lose another element of the same bucket, which is neither given to the callback nor released."
  },
  {
   "property": "C92",
   "status": "partial",
   "theorems": [
    "ZT.Pool.Pipe.c92_insert",
    "ZT.Pool.Pipe.c92_never_null",
    "ZT.Pool.Pipe.c92_delivered_partial",
    "ZT.Pool.Pipe.c92_kill_byte",
    "ZT.Pool.Pipe.c92_init",
    "ZT.Pool.Pipe.c92_init_fails_partial",
    "ZT.Pool.Pipe.c92_demo",
    "ZT.Pool.Pipe.c92_deadlock_violation",
    "ZT.Pool.Pipe.c92_unread_violation",
    "ZT.Pool.Pipe.c92_kill_byte_violation",
    "ZT.Pool.Pipe.c92_init_fails_violation"
   ],
   "note": "All schedules, roles, capacities and failures of write and pipe. Proved as long as the queue fits the pipe; refuted beyond: insert writes with the mutex held, so a full pipe deadlocks the pool even with a correct consumer. Also refuted: the last byte of the input pipe (min_threads modulo 256 may be 0), and the clean-up of zt_threadpool_init when the second pipe fails (descriptor 0 is closed, the first pipe leaks)."
  },
  {
   "property": "C93",
   "status": "partial",
   "theorems": [
    "ZT.Format.c93_prints",
    "ZT.Format.c93_fits",
    "ZT.Format.c93_f_partial",
    "ZT.Format.c93_e_partial",
    "ZT.Format.c93_e_zero",
    "ZT.Format.c93_g_partial",
    "ZT.Format.Race.c93_alone",
    "ZT.Format.Race.c93_threads_partial",
    "ZT.Format.c93_g_violation",
    "ZT.Format.c93_inf_violation",
    "ZT.Format.c93_overflow_violation",
    "ZT.Format.c93_precision_violation",
    "ZT.Format.c93_zeroflag_violation",
    "ZT.Format.Race.c93_race_violation"
   ],
   "note": "Every double and every precision. Refuted: %g of a short number and infinities are padded with zeros in front, %.99f of x <= -1e308 overflows the buffer by one byte, precisions above 99 abort, the flag 0 is ignored, and two threads formatting at once mix their formats (static array). The C library's sprintf is specified after C11 (Clib.lean)."
  },
  {
   "property": "C94",
   "status": "partial",
   "theorems": [
    "ZT.Ipv4.Proc.c94_total",
    "ZT.Ipv4.Proc.c94_valid",
    "ZT.Ipv4.Proc.c94_room_partial",
    "ZT.Ipv4.Proc.c94_clean_partial",
    "ZT.Ipv4.Proc.c94_leak_violation",
    "ZT.Ipv4.Proc.c94_small_violation",
    "ZT.Ipv4.Proc.c94_stale_violation",
    "ZT.Ipv4.Proc.c94_overflow_violation"
   ],
   "note": "All histories over the exact pool model. Validity of nodes and records at full strength. Room for slot arrays is proved when no table is larger than an earlier one and refuted otherwise (the pool is found by name, so the first table's is used, even after it was destroyed); that memory is given back is proved for tables never used and refuted for all others."
  },
  {
   "property": "C95",
   "status": "partial",
   "theorems": [
    "ZT.Pool.Life.c95_threads_partial",
    "ZT.Pool.Life.c95_total_partial",
    "ZT.Pool.Life.c95_start_violation",
    "ZT.Pool.Life.c95_join_null_violation",
    "ZT.Pool.Life.c95_create_violation",
    "ZT.Pool.Life.c95_leak_violation",
    "ZT.Pool.Life.c95_callbacks",
    "ZT.Pool.Life.c95_finalize_violation",
    "ZT.Pool.Life.c95_reset_violation",
    "ZT.Pool.Life.c95_ready_violation"
   ],
   "note": "All histories of correct use with any number of pools. Proved as long as each pool is started and killed under the callbacks it was made with; refuted otherwise: init, start and kill each look at the global callbacks, so changing them in between stores through NULL, joins a NULL handle, or leaves all threads unjoined; a failed thread creation is ignored and the handle joined; set_callbacks(NULL) keeps finalize."
  },
  {
   "property": "C96",
   "status": "partial",
   "theorems": [
    "ZT.Pool.Prim.c96_dispatch",
    "ZT.Pool.Prim.c96_registered",
    "ZT.Pool.Prim.c96_exclusion_partial",
    "ZT.Pool.Prim.c96_progress_partial",
    "ZT.Pool.Prim.c96_deadline_partial",
    "ZT.Pool.Prim.c96_unregistered_violation",
    "ZT.Pool.Prim.c96_removed_violation",
    "ZT.Pool.Prim.c96_join_violation",
    "ZT.Pool.Prim.c96_negative_violation"
   ],
   "note": "Registration at full strength. Mutual exclusion for all schedules while the pthreads functions are registered (POSIX mutexes modelled); refuted while none are: zt_threads_lock then returns 0 to everybody. Deadlines exact for all timeouts without negative microseconds; refuted for the others. zt_threads_join of an accepted table without join returns 0 without waiting."
  },
  {
   "property": "C97",
   "status": "partial",
   "theorems": [
    "ZT.Cfg.Own.c97_load",
    "ZT.Cfg.Own.c97_set",
    "ZT.Cfg.Own.c97_close_partial",
    "ZT.Cfg.Own.c97_overwrites",
    "ZT.Cfg.Own.c97_clean",
    "ZT.Cfg.Own.c97_get",
    "ZT.Cfg.Own.c97_get_fails",
    "ZT.Cfg.Own.c97_stable",
    "ZT.Cfg.Own.c97_overwrite_violation",
    "ZT.Cfg.Own.c97_refused_violation",
    "ZT.Cfg.Own.c97_error_violation"
   ],
   "note": "All well-formed files and all histories, simulating the model of C46 and C69. No double free, valid strings and exact accounting of what is left over at full strength; that nothing is left over is refuted: every overwritten string, three copies for each refused zt_cfg_set, and everything read before a syntax error are lost."
  },
  {
   "property": "C98",
   "status": "partial",
   "theorems": [
    "ZT.Table.Proc.c98_calls",
    "ZT.Table.Proc.c98_accounting",
    "ZT.Table.Proc.c98_clean_partial",
    "ZT.Table.Proc.c98_apart",
    "ZT.Table.Proc.c98_anonymous_violation",
    "ZT.Table.Proc.c98_anonymous_ub_violation",
    "ZT.Table.Proc.c98_lost_violation"
   ],
   "note": "All histories with any number of tables over the exact pool model. Independence of tables, no overlap, no double free and the exact number of elements, pools and blocks in use at full strength. That all is given back is proved for tables that never lost nodes and refuted for the others: deleting an entry that is not near the head of its chain drops the entries between (C17), and zt_table_destroy then neither frees them nor the pool. A NULL name is undefined."
  },
  {
   "property": "C99",
   "status": "partial",
   "theorems": [
    "ZT.Macros.c99_abs_partial",
    "ZT.Macros.c99_max",
    "ZT.Macros.c99_min",
    "ZT.Macros.c99_clamp",
    "ZT.Macros.c99_ceiling_floor",
    "ZT.Macros.c99_isset",
    "ZT.Macros.c99_flags",
    "ZT.Macros.c99_narrow_partial",
    "ZT.Macros.c99_indent_to",
    "ZT.Macros.c99_indent",
    "ZT.Macros.c99_containerof",
    "ZT.Macros.c99_sizeof_array",
    "ZT.Macros.c99_abs_violation",
    "ZT.Macros.c99_twice_violation",
    "ZT.Macros.c99_mixed_violation",
    "ZT.Macros.c99_narrow_violation",
    "ZT.Macros.c99_past_violation",
    "ZT.Macros.c99_parentheses_violation"
   ],
   "note": "All values, widths and flag histories for arguments without side effects and of one type. Refuted: ABS of the least value, arguments with side effects (evaluated twice), mixed signedness, unsetting 64 bit flags with an unsigned int mask (all upper flags are lost), INDENT_TO when the cursor is past the column, and an unparenthesised step."
  }
 ]
}