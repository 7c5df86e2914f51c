{"id": "C01", "title": "Base-N codec round trip", "statement": "For every byte string and every one of the six shipped encodings (base64 rfc / rfc_nopad / uri, base32 rfc / hex, base16 rfc), zt_base_encode into a sufficiently large buffer followed by zt_base_decode of the produced text into a sufficiently large buffer succeeds and yields exactly the original bytes.", "quantifier": "all byte strings of any length, all six encoding definitions, all sufficiently large output buffers", "why_tests_cant": "Unbounded input lengths and 256^n contents; length residues mod 3/5 interact with padding and with the decoder's size estimate.", "anchors": ["src/libzt/zt_base.c: zt_base_encode, zt_base_decode, _encode64, _decode64, _encode32, _decode32, _encode16, _decode16"]}
{"id": "C02", "title": "Base-N encode output size, alphabet and size query", "statement": "zt_base_encode reports in *out_bytes exactly the number of characters it writes; that number is the standard padded/unpadded length for the definition; every character written is a character of the alphabet or '='; calling with a NULL output pointer reports the same size and a buffer smaller than that size is refused with -2 and nothing is written.", "quantifier": "all byte strings, all six definitions, all buffer sizes", "why_tests_cant": "Needs the exact length formula for every residue and every length; tests sample a few.", "anchors": ["src/libzt/zt_base.c: zt_base_encode"]}
{"id": "C03", "title": "Base-N decode never writes outside the caller's buffer", "statement": "For any text whatsoever (hostile or malformed), zt_base_decode with a non-NULL buffer of *out_bytes bytes writes only inside that buffer, whatever result code it returns.", "quantifier": "all input texts over all 256 byte values, all buffer sizes, all six definitions", "why_tests_cant": "Memory safety under adversarial input quantifies over all texts, including misplaced padding, whitespace and truncated groups.", "anchors": ["src/libzt/zt_base.c: zt_base_decode, _decode64, _decode32, _decode16"]}
{"id": "C04", "title": "Base-N decode rejects foreign characters and ignores whitespace", "statement": "zt_base_decode returns -1 for any text containing a character that is neither in the alphabet, nor '=', nor whitespace; and inserting whitespace anywhere in a text does not change the bytes decoded.", "quantifier": "all texts, all positions of foreign characters or whitespace, all six definitions", "why_tests_cant": "All positions and all byte values must be covered.", "anchors": ["src/libzt/zt_base.c: _decode64, _decode32, _decode16"]}
{"id": "C05", "title": "Hex conversion round trip", "statement": "zt_binary_to_hex followed by zt_hex_to_binary returns the original bytes, for every byte string; the hex text has exactly two lower-case hex digits per byte.", "quantifier": "all byte strings", "why_tests_cant": "Unbounded contents.", "anchors": ["src/libzt/zt_cstr.c: zt_binary_to_hex, zt_hex_to_binary, hex_to_char"]}
{"id": "C06", "title": "UUID text round trip", "statement": "For every 16-byte UUID and each of the four text formats (std, short, base62, base62 hashable), zt_uuid_fromstr applied to the text produced by zt_uuid_fillstr/zt_uuid_tostr yields the same UUID; the text has the documented length and only alphabet characters.", "quantifier": "all 2^128 UUIDs, all four formats", "why_tests_cant": "2^128 values; base62 carries and leading zeros must all be right.", "anchors": ["src/libzt/zt_uuid.c: zt_uuid_fillstr, zt_uuid_fromstr, base62_encode_int64, base62_decode_int64"]}
{"id": "C07", "title": "UUID version and variant bits", "statement": "Every UUID produced by zt_uuid4 (for every sequence of random numbers) and zt_uuid5 (for every namespace and name) carries the RFC 4122 variant bits and the version nibble 4 resp. 5, and all other bits are those of the random numbers / SHA-1 digest.", "quantifier": "all random sequences, all digests", "why_tests_cant": "Depends on all random outputs.", "anchors": ["src/libzt/zt_uuid.c: zt_uuid4, zt_uuid5, zt_uuid_isvalid"]}
{"id": "C08", "title": "SHA-1 incremental update", "statement": "The digest obtained by zt_sha1_init, any number of zt_sha1_update calls and zt_sha1_finalize depends only on the concatenation of the data, not on how it was split into calls.", "quantifier": "all byte strings and all ways of splitting them into chunks", "why_tests_cant": "Infinitely many splits; buffering boundary cases at every residue mod 64.", "anchors": ["src/libzt/zt_sha1.c: zt_sha1_update, zt_sha1_finalize"]}
{"id": "C09", "title": "SHA-1 conforms to FIPS 180", "statement": "The digest of a message shorter than 2^61 bytes equals the FIPS 180-1 SHA-1 of it: pad with 0x80, zeros and the 64-bit big-endian bit length, then iterate the 80-round compression function over 512-bit blocks.", "quantifier": "all messages", "why_tests_cant": "Test vectors sample a handful of lengths; the padding must be right for every length.", "anchors": ["src/libzt/zt_sha1.c: zt_sha1_transform, zt_sha1_update, zt_sha1_finalize"]}
{"id": "C10", "title": "SHA-1 digest text round trip", "statement": "zt_sha1_tosha1(zt_sha1_tostr(d)) = d for every 20-byte digest, and the text is 40 hex digits.", "quantifier": "all 2^160 digests", "why_tests_cant": "2^160 values.", "anchors": ["src/libzt/zt_sha1.c: zt_sha1_tostr, zt_sha1_tosha1"]}
{"id": "C11", "title": "Hash chaining", "statement": "Feeding a buffer to the 32/64-bit hash in pieces, passing each result as the seed of the next call, gives the same result as hashing the whole buffer at once; the string variant equals the buffer variant on the string's bytes.", "quantifier": "all byte strings, all splits, all seeds", "why_tests_cant": "Unbounded inputs; the seed 0 special case makes the law fail on rare intermediate values.", "anchors": ["src/libzt/zt_hash.c: zt_hash32_buff, zt_hash64_buff, zt_hash32_cstr, zt_hash64_cstr"]}
{"id": "C12", "title": "Intrusive list operations implement a sequence", "statement": "Any history of zt_elist_add / add_tail / remove on a set of lists keeps every list a well-formed circular doubly linked list, and its forward (and reversed backward) traversal equals the sequence obtained by the corresponding list operations; elements of other lists are unaffected.", "quantifier": "all histories of operations, all numbers of lists and elements", "why_tests_cant": "Pointer-structure invariant over unbounded histories.", "anchors": ["src/libzt/zt_list.h: zt_elist_add, zt_elist_add_tail, zt_elist_remove, zt_elist_for_each"]}
{"id": "C13", "title": "Stack is LIFO", "statement": "Any history of zt_stack_push / zt_stack_pop behaves as a LIFO stack: pop returns the most recently pushed, not yet popped, element and NULL exactly when the stack is empty.", "quantifier": "all histories", "why_tests_cant": "Unbounded histories.", "anchors": ["src/libzt/zt_stack.h: zt_stack_push, zt_stack_pop"]}
{"id": "C14", "title": "Queue is FIFO", "statement": "Any history of zt_queue_enqueue / zt_queue_dequeue behaves as a FIFO queue: dequeue returns the oldest element not yet dequeued.", "quantifier": "all histories", "why_tests_cant": "Unbounded histories.", "anchors": ["src/libzt/zt_queue.h: zt_queue_enqueue, zt_queue_dequeue"]}
{"id": "C15", "title": "Linked-list sort", "statement": "zt_llist_sort returns a permutation of the input list in which no element precedes one that compares smaller than it, for every total preorder given as comparison function, and terminates on every list.", "quantifier": "all lists of any length, all total-preorder comparison functions", "why_tests_cant": "Unbounded lists and arbitrary comparison functions.", "anchors": ["src/libzt/zt_llist.h: zt_llist_sort, zt_llist_split, zt_llist_nmerge"]}
{"id": "C16", "title": "Linked-list reverse", "statement": "zt_llist_reverse and zt_llist_nreverse return the elements in opposite order; reverse leaves the original list intact; reversing twice is the identity.", "quantifier": "all lists", "why_tests_cant": "Unbounded lists; in-place pointer mutation.", "anchors": ["src/libzt/zt_llist.h: zt_llist_reverse, zt_llist_nreverse"]}
{"id": "C17", "title": "Hash table is a finite map", "statement": "Any history of zt_table_set / zt_table_get / zt_table_del on a table without duplicate keys behaves like a finite map: get returns the datum of the last effective set of that key that was not deleted, set on a present key reports 1 and changes nothing, del removes exactly that key and returns its datum.", "quantifier": "all histories, all keys, all hash functions", "why_tests_cant": "Depends on collision chains of every length; unbounded histories.", "anchors": ["src/libzt/zt_table.c: zt_table_set, zt_table_get, zt_table_del"]}
{"id": "C18", "title": "Hash table bucket index in range", "statement": "For every size hint and flag combination accepted by zt_table_init, every key's bucket index lies inside the allocated bucket array.", "quantifier": "all hints, all flags, all hash values", "why_tests_cant": "All 2^32 hash values times all hints.", "anchors": ["src/libzt/zt_table.c: zt_table_init, powers_of_2, ZT_HASH_SUB32_MASK"]}
{"id": "C19", "title": "Hash table enumeration and copy", "statement": "zt_table_for_each visits every stored entry exactly once (unless the callback stops it) and zt_table_copy adds every entry of the source to the destination.", "quantifier": "all tables", "why_tests_cant": "All table shapes.", "anchors": ["src/libzt/zt_table.c: zt_table_for_each, zt_table_copy"]}
{"id": "C20", "title": "Set algebra", "statement": "zt_set_insert/remove/is_member/size behave as a finite set; union, intersection, difference produce exactly the set-theoretic results; is_subset and is_equal decide inclusion and equality.", "quantifier": "all histories, all sets", "why_tests_cant": "Unbounded sets; early termination of the iteration depends on the element order.", "anchors": ["src/libzt/zt_set.c: zt_set_insert, zt_set_remove, zt_set_union, zt_set_intersection, zt_set_difference, zt_set_is_subset, zt_set_is_equal"]}
{"id": "C21", "title": "Red-black tree keeps search order and membership", "statement": "After any history of zt_rbt_insert / zt_rbt_remove the in-order sequence of the tree is strictly sorted and contains exactly the elements inserted and not removed; insert of an equal key returns the existing node and leaves the tree unchanged; zt_rbt_find finds exactly the members.", "quantifier": "all histories, all total-order comparison functions", "why_tests_cant": "Unbounded histories and tree shapes, dozens of rebalancing cases.", "anchors": ["src/libzt/zt_tree.c: zt_rbt_insert, zt_rbt_remove, zt_rbt_find"]}
{"id": "C22", "title": "Red-black tree stays balanced", "statement": "After any history of inserts and removals the tree satisfies the red-black rules (black root, no red-red edge, equal black count on all paths), hence height <= 2*log2(n+1).", "quantifier": "all histories", "why_tests_cant": "Invariant over unbounded histories; a wrong recolouring only shows up as slow degradation.", "anchors": ["src/libzt/zt_tree.c: zt_rbt_insert_colour, zt_rbt_remove_colour"]}
{"id": "C23", "title": "Red-black tree iteration and nearest search", "statement": "Starting from zt_rbt_min and repeatedly applying zt_rbt_next enumerates every element exactly once in increasing order, min/max return the extremes, and zt_rbt_nfind returns the least element >= the key.", "quantifier": "all trees", "why_tests_cant": "All tree shapes.", "anchors": ["src/libzt/zt_tree.c: zt_rbt_next, zt_rbt_minmax, zt_rbt_nfind"]}
{"id": "C24", "title": "IPv4 table search is network containment", "statement": "After any sequence of additions to an IPv4 table, zt_ipv4_tbl_search returns a node for an address if and only if one of the added networks contains the address, and the node returned is one of the networks that contain it.", "quantifier": "all histories of insertions, all addresses, all table sizes", "why_tests_cant": "2^32 addresses times unbounded insertion histories.", "anchors": ["src/libzt/zt_ipv4_tbl.c: zt_ipv4_tbl_add, zt_ipv4_tbl_search, zt_ipv4_tbl_search_node"]}
{"id": "C25", "title": "IPv4 network parsing", "statement": "Parsing 'a.b.c.d/n' yields network address, netmask and broadcast such that exactly the addresses sharing the first n bits with a.b.c.d are between network and broadcast; malformed prefix lengths are rejected without reading outside the netmask table.", "quantifier": "all address strings and prefix lengths", "why_tests_cant": "All strings; negative and huge prefix lengths.", "anchors": ["src/libzt/zt_ipv4_tbl.c: zt_ipv4_str2net, netmask_tbl"]}
{"id": "C26", "title": "Buffer is a byte FIFO and stays in its allocation", "statement": "Any history of zt_buf_add / zt_buf_remove / zt_buf_drain / zt_buf_add_buf behaves as a byte FIFO: the concatenation of bytes removed and still readable equals the concatenation of the bytes added, and no access leaves the allocated block.", "quantifier": "all histories of operations with any lengths", "why_tests_cant": "Memory safety over all interleavings of partial drains and growth.", "anchors": ["src/libzt/zt_buf.c: zt_buf_add, zt_buf_drain, zt_buf_remove, zt_buf_expand"]}
{"id": "C27", "title": "Array element access", "statement": "zt_array_put followed by zt_array_get at the same index returns the element, other indices are unaffected, indices outside the length abort instead of touching memory, resize preserves the common prefix and zero-fills growth, copy yields an equal independent array.", "quantifier": "all arrays, indices and element sizes", "why_tests_cant": "All sizes and histories.", "anchors": ["src/libzt/zt_array.c: zt_array_put, zt_array_get, zt_array_resize, zt_array_copy"]}
{"id": "C28", "title": "Byte-stream round trip", "statement": "Writing any sequence of typed values to a bstream, rewinding and reading with the same types yields the same values, with or without endian flipping, whatever the initial array size.", "quantifier": "all sequences of typed values, both endian settings", "why_tests_cant": "Unbounded sequences; growth boundaries at every offset.", "anchors": ["src/libzt/zt_bstream.c: zt_bstream_write, zt_bstream_read, zt_bstream_rewind"]}
{"id": "C29", "title": "Pointer array is a bag/sequence", "statement": "Any history of zt_ptr_array_add / get_idx / del / cat behaves as a sequence of non-NULL pointers: add appends, get_idx(i) returns the i-th, del removes the pointer, count is right and no access leaves the allocation.", "quantifier": "all histories", "why_tests_cant": "Unbounded histories, all indices.", "anchors": ["src/libzt/zt_ptr_array.c: zt_ptr_array_add, zt_ptr_array_del, zt_ptr_array_get_idx, zt_ptr_array_cat"]}
{"id": "C30", "title": "Memory pool never hands out a live element", "statement": "Over any history of zt_mem_pool_alloc / zt_mem_pool_release on a pool, an element returned by alloc is not currently allocated, belongs to exactly one page of the pool, and distinct live elements never overlap.", "quantifier": "all histories of allocations and releases in any order", "why_tests_cant": "Unbounded histories in any release order.", "anchors": ["src/libzt/zt_mem.c: zt_mem_pool_alloc, zt_mem_pool_release, zt_mem_page_alloc"]}
{"id": "C31", "title": "Memory pool accounting and destruction", "statement": "The pool's counters agree with its contents at every point (pages = allocated - freed, free elements per page), and zt_mem_pool_destroy succeeds exactly when no element is live and then frees every page once.", "quantifier": "all histories", "why_tests_cant": "Invariant over unbounded histories.", "anchors": ["src/libzt/zt_mem.c: zt_mem_pool_get_stats, zt_mem_pool_destroy, zt_mem_pool_release_free_pages"]}
{"id": "C32", "title": "Easy memory pool frees everything exactly once", "statement": "zt_ez_mempool_destroy releases every chunk obtained through the pool and every sub-pool exactly once, and nothing else.", "quantifier": "all trees of pools and allocation histories", "why_tests_cant": "Unbounded nesting and histories.", "anchors": ["src/libzt/zt_ez_mempool.c: zt_ez_mempool_destroy, zt_ez_mempool_add_buffer"]}
{"id": "C33", "title": "Garbage collector safety", "statement": "Incremental collection never releases an object that is protected or reachable from a root, under any interleaving of registration, protection and partial scans.", "quantifier": "all object graphs, all histories of collector calls", "why_tests_cant": "All graphs and schedules of incremental steps.", "anchors": ["src/libzt/zt_gc.c: zt_gc_collect, zt_gc_register, zt_gc_protect, zt_gc_unregister"]}
{"id": "C34", "title": "Integer to text", "statement": "zt_itoa writes the canonical decimal text of every int and returns its length, refuses when the buffer is too small and never writes outside it.", "quantifier": "all ints and all buffer sizes", "why_tests_cant": "2^32 values times all sizes.", "anchors": ["src/libzt/zt_cstr.c: zt_itoa, zt_cstr_int_display_len"]}
{"id": "C35", "title": "Formatter integer conversions", "statement": "The %d %u %x %o conversions of the formatter print the canonical numeral of every argument value.", "quantifier": "all argument values", "why_tests_cant": "2^32/2^64 values.", "anchors": ["src/libzt/zt_format.c: cvt_d, cvt_u, cvt_x, cvt_o, zt_fmt_putd"]}
{"id": "C36", "title": "Formatter width and flags", "statement": "A field width w pads the conversion to at least w characters, on the side selected by the '-' flag, for every string and number.", "quantifier": "all widths, flags and values", "why_tests_cant": "All combinations of width, precision, flags and lengths.", "anchors": ["src/libzt/zt_format.c: zt_fmt_puts, zt_fmt_putd"]}
{"id": "C37", "title": "Bounded formatting never overruns", "statement": "zt_fmt_sprintf/vsprintf never stores outside the caller's buffer: it either writes the formatted text and a terminator inside it or aborts; zt_fmt_strprintf returns exactly the formatted text.", "quantifier": "all formats, arguments and buffer sizes", "why_tests_cant": "Memory safety over all inputs.", "anchors": ["src/libzt/zt_format.c: zt_fmt_vsprintf, insert, append, zt_fmt_vstrprintf"]}
{"id": "C38", "title": "String slice positions", "statement": "The slice [i..j] used by all zt_cstr functions denotes the same substring for negative, positive, reversed and out-of-range indices according to one documented rule, never reads outside the string, and zt_cstr_sub / dup / reverse / cat return exactly the content determined by it.", "quantifier": "all strings, all index pairs", "why_tests_cant": "All index combinations including negative and swapped.", "anchors": ["src/libzt/zt_cstr.c: CONVERT, zt_cstr_sub, zt_cstr_dup, zt_cstr_reverse, zt_cstr_cat"]}
{"id": "C39", "title": "String searches", "statement": "zt_cstr_chr / rchr / find / rfind / upto / rupto / any / rany return the first (last) position in the slice where the character or pattern occurs, and report failure exactly when there is none.", "quantifier": "all strings, patterns and slices", "why_tests_cant": "All strings and index pairs.", "anchors": ["src/libzt/zt_cstr.c: zt_cstr_chr, zt_cstr_rchr, zt_cstr_find, zt_cstr_rfind, zt_cstr_upto, zt_cstr_any"]}
{"id": "C40", "title": "String comparison", "statement": "zt_cstr_cmp returns 0 exactly when the two slices are equal, and its sign is an order (antisymmetric, transitive) on slices.", "quantifier": "all strings and slices", "why_tests_cant": "All pairs of strings.", "anchors": ["src/libzt/zt_cstr.c: zt_cstr_cmp"]}
{"id": "C41", "title": "String character mapping", "statement": "zt_cstr_map replaces every character that occurs in `from` by the corresponding character of `to` and leaves every other character unchanged.", "quantifier": "all strings, all from/to sets, all byte values", "why_tests_cant": "All byte values.", "anchors": ["src/libzt/zt_cstr.c: zt_cstr_map"]}
{"id": "C42", "title": "Trimming and path names", "statement": "zt_cstr_chomp removes exactly the trailing newline characters, zt_cstr_strip the leading and trailing whitespace; basename and dirname split a path into its last component and the rest.", "quantifier": "all strings", "why_tests_cant": "All strings including empty and all-separator strings.", "anchors": ["src/libzt/zt_cstr.c: zt_cstr_chomp, zt_cstr_strip, zt_cstr_basename, zt_cstr_dirname"]}
{"id": "C43", "title": "Checked integer arithmetic", "statement": "Each checked operation of zt_int.h returns the exact mathematical result when it is representable and aborts exactly when it is not (or the divisor is zero).", "quantifier": "all pairs of operands of all eight integer types", "why_tests_cant": "2^128 operand pairs.", "anchors": ["src/libzt/zt_int.h: UNSIGNED_ADD, UNSIGNED_SUB, UNSIGNED_MUL, SIGNED_ADD, SIGNED_SUB, SIGNED_MUL, SIGNED_DIV"]}
{"id": "C44", "title": "Time arithmetic", "statement": "zt_add_time, zt_sub_time and zt_diff_time compute exact microsecond sums and differences of normalized times and return normalized results; zt_cmp_time is the order of the represented instants.", "quantifier": "all normalized time values", "why_tests_cant": "All pairs of values.", "anchors": ["src/libzt/zt_time.c: zt_add_time, zt_sub_time, zt_diff_time, zt_cmp_time"]}
{"id": "C45", "title": "Command-line option processing", "statement": "zt_opt_process_args consumes exactly the leading option arguments and their values, in order, never reads past argv, calls the callback of each option once at its position, stores the values the options say, reports unknown options, and leaves *argc at the first argument that is not an option.", "quantifier": "all argv vectors and option tables", "why_tests_cant": "All argument vectors.", "anchors": ["src/libzt/zt_opts.c: zt_opt_process_args, zt_opt_get_value, zt_opt_flag, zt_opt_bool, zt_opt_string, zt_opt_string_array"]}
{"id": "C46", "title": "Configuration: last write wins", "statement": "zt_cfg_get returns the value most recently stored for (block, variable), unaffected by writes to other names; references resolve to the current value of the target.", "quantifier": "all histories of set/get", "why_tests_cant": "Unbounded histories and reference graphs.", "anchors": ["src/libzt/zt_cfg/cfg_private.c: zt_cfg_priv_set, zt_cfg_priv_get, cfg_insert_bvv, get_type, add_block, add_variable"]}
{"id": "C47", "title": "atexit callbacks run in LIFO order exactly once", "statement": "Callbacks registered with zt_atexit run exactly once each, most recent first, with their own data.", "quantifier": "all registration histories", "why_tests_cant": "Unbounded histories.", "anchors": ["src/libzt/zt_atexit.c: zt_atexit, _atexit_cb"]}
{"id": "C48", "title": "Thread pool processes each job exactly once", "statement": "Under every interleaving of producers, workers and consumers, each item put on the input queue is handed to at most one worker, results come out once each, queues are FIFO, and zt_threadpool_kill leads to termination of all workers.", "quantifier": "all thread schedules, any number of workers", "why_tests_cant": "All interleavings.", "anchors": ["src/libzt/zt_threads.c: zt_threadpool_insert_iput, zt_threadpool_insert_oput, zt_threadpool_get_oput, zt_threadpool_kill, _zt_threadpool_iput_loop, _zt_threadpool_oput_loop"]}
{"id": "C49", "title": "Random generator determinism and safety", "statement": "The generator's output sequence after seeding is a function of the seed only, every state access is inside the state array, and the sequence equals the MT19937 reference recurrence.", "quantifier": "all seeds, any number of outputs", "why_tests_cant": "All seeds and unbounded output counts.", "anchors": ["src/libzt/zt_random.c: zt_random_srandom, zt_random_initstate, zt_random_uint32"]}
{"id": "C50", "title": "Hex dump completeness", "statement": "zt_cstr_hexdump output shows every byte of the data exactly once, in order.", "quantifier": "all data of all lengths", "why_tests_cant": "All lengths mod 16.", "anchors": ["src/libzt/zt_cstr.c: zt_hexdump"]}
{"id": "C51", "title": "Timed repetition count", "statement": "zt_time(n, tv, test, data) calls test exactly n times (never for n <= 0).", "quantifier": "all n", "why_tests_cant": "All counts.", "anchors": ["src/libzt/zt_time.c: zt_time"]}
{"id": "C52", "title": "Hash functions are FNV-1a", "statement": "Unseeded zt_hash32/64_buff equal the published FNV-1a function, and folding a hash to x bits gives a value below 2^x.", "quantifier": "all byte strings, all x <= 32", "why_tests_cant": "All inputs.", "anchors": ["src/libzt/zt_hash.c: zt_hash32_buff, zt_hash64_buff", "src/libzt/zt_hash.h: ZT_HASH_SUB32_MASK"]}
{"id": "C53", "title": "Hex conversion stays in the caller's buffers", "statement": "zt_binary_to_hex writes at most hlen bytes of hex, zt_hex_to_binary reads at most hlen bytes of hex (and not past a NUL) and writes at most dlen bytes.", "quantifier": "all data, all buffer sizes", "why_tests_cant": "All sizes, in particular odd ones.", "anchors": ["src/libzt/zt_cstr.c: zt_binary_to_hex, zt_hex_to_binary"]}
{"id": "C54", "title": "SHA-1 does not modify the hashed data", "statement": "zt_sha1_update and zt_sha1_data leave the caller's data unchanged, so hashing the same buffer twice gives the same digest.", "quantifier": "all data, all context states", "why_tests_cant": "All lengths and offsets.", "anchors": ["src/libzt/zt_sha1.c: zt_sha1_update, _sha1_transform"]}
{"id": "C55", "title": "UUID validity check and parser agree with the text formats", "statement": "zt_uuid_isvalid returns 0 exactly for NUL-terminated texts of the documented length and alphabet of the format, -1 otherwise; zt_uuid_fromstr refuses (non-zero) every text zt_uuid_isvalid refuses and maps distinct valid texts to distinct UUIDs.", "quantifier": "all NUL-terminated strings, four formats", "why_tests_cant": "All strings.", "anchors": ["src/libzt/zt_uuid.c: zt_uuid_isvalid, zt_uuid_fromstr, base62_decode_int64"]}
{"id": "C56", "title": "UUID functions treat caller buffers as documented", "statement": "zt_uuid_fillstr works for any buffer at least as large as the text and its NUL; zt_uuid5 leaves the name it hashes unchanged.", "quantifier": "all UUIDs, all buffer sizes, all names", "why_tests_cant": "All sizes and lengths.", "anchors": ["src/libzt/zt_uuid.c: zt_uuid_fillstr, _zt_uuid_fillstr, zt_uuid5"]}
{"id": "C57", "title": "Linked list push, pop, nth and free", "statement": "zt_llist_push prepends the item and returns the new list; zt_llist_pop returns the first item and frees exactly its cell, NULL on an empty list; zt_llist_nth returns the item at the index and aborts past the end; zt_llist_free frees every cell of the list exactly once and nothing else.", "quantifier": "every list content, every item and every index", "why_tests_cant": "the number of cells and the heap they live in are unbounded; a test sees a few short lists", "anchors": ["src/libzt/zt_llist.h: zt_llist_push, zt_llist_pop, zt_llist_nth, zt_llist_free"]}
{"id": "C58", "title": "Table destruction releases every node once", "statement": "zt_table_destroy releases every node of the table back to its pool exactly once and leaves none allocated.", "quantifier": "every table built by any history of operations", "why_tests_cant": "double release or leak depends on the bucket chains, of unbounded number and length", "anchors": ["src/libzt/zt_table.c: zt_table_destroy"]}
{"id": "C59", "title": "Shipped table callbacks agree", "statement": "For each shipped pair of hash and comparison callback (int, string, buffer, case-insensitive string), the comparison decides equality of the keys it is meant for and equal keys hash equally, so a table using the pair is a finite map.", "quantifier": "all keys of the kind the pair is meant for", "why_tests_cant": "keys range over all byte strings", "anchors": ["src/libzt/zt_table.c: zt_table_hash_int, zt_table_compare_int, zt_table_hash_string, zt_table_compare_string, zt_table_compare_string_case, zt_table_hash_buff, zt_table_compare_buff"]}
{"id": "C60", "title": "Tables with duplicate keys", "statement": "With ZT_TABLE_ALLOW_DUP_KEYS every zt_table_set adds an entry, zt_table_get returns the datum most recently added for the key and zt_table_del removes that one only.", "quantifier": "all histories, hints and callbacks", "why_tests_cant": "histories are unbounded", "anchors": ["src/libzt/zt_table.c: zt_table_set, zt_table_get, zt_table_del"]}
{"id": "C61", "title": "Memory pool lookup by name", "statement": "zt_mem_pool_get returns the oldest pool still existing that was created with exactly that name, and NULL when there is none, after any history of creating and destroying pools.", "quantifier": "all histories, all names", "why_tests_cant": "Unbounded histories of creations and destructions.", "anchors": ["src/libzt/zt_mem.c: zt_mem_pool_get, zt_mem_pool_init, zt_mem_pool_destroy"]}
{"id": "C62", "title": "Exit handler releases unused pools", "statement": "The exit handler registered by the pools ends without undefined behaviour, destroys every pool from which no element is held, keeps the others intact, and returns all memory when nothing is held.", "quantifier": "all histories", "why_tests_cant": "Depends on every history of pools and live elements.", "anchors": ["src/libzt/zt_mem.c: zt_mem_release, zt_mem_pool_destroy"]}
{"id": "C63", "title": "Memory pool groups", "statement": "zt_mem_pool_group_init makes one pool per description; zt_mem_pool_group_alloc takes an element from the first pool with large enough elements, the element has room for the size asked for and overlaps no element held; zt_mem_pool_group_destroy succeeds exactly when no element of the group is held.", "quantifier": "all groups of named descriptions, all sizes, all histories", "why_tests_cant": "Unbounded number of pools, sizes and histories.", "anchors": ["src/libzt/zt_mem.c: zt_mem_pool_group_init, zt_mem_pool_group_alloc, zt_mem_pool_group_destroy"]}
{"id": "C64", "title": "Garbage collector completeness", "statement": "Two complete collections in a row, with no other call in between, leave exactly the objects reachable from protected ones; destroying the collector releases every object it still knows exactly once.", "quantifier": "all object graphs, all histories of collector calls before", "why_tests_cant": "All graphs, and all half-finished incremental cycles in which the collections may start.", "anchors": ["src/libzt/zt_gc.c: zt_gc_collect, zt_gc_destroy"]}
{"id": "C65", "title": "Splitting at delimiters", "statement": "zt_cstr_split returns copies of exactly the maximal non-empty runs of characters of the string that are not in the delimiter set, in order; NULL arguments give NULL.", "quantifier": "all strings and delimiter sets", "why_tests_cant": "All strings and all sets.", "anchors": ["src/libzt/zt_cstr.c: zt_cstr_split"]}
{"id": "C66", "title": "Cutting at a delimiter", "statement": "zt_cstr_cut returns, for every occurrence of the delimiter other than at the end of the string, in order, the rest of the string behind it (or from it on when the delimiter is kept).", "quantifier": "all strings and delimiters", "why_tests_cant": "All strings.", "anchors": ["src/libzt/zt_cstr.c: zt_cstr_cut"]}
{"id": "C67", "title": "Path prefixes", "statement": "zt_cstr_tok drops one trailing delimiter and returns the string followed by its prefixes before each delimiter (other than a leading one), longest first.", "quantifier": "all strings and delimiters", "why_tests_cant": "All strings.", "anchors": ["src/libzt/zt_cstr.c: zt_cstr_tok"]}
{"id": "C68", "title": "Validation of option tables", "statement": "zt_opt_validate_default reports an error exactly for the tables in which a definition has neither a short nor a long name, has no help, has a short name that is not a letter or digit, or shares a name with another definition; the default handler then exits.", "quantifier": "all option tables", "why_tests_cant": "Tests try a few bad tables.", "anchors": ["src/libzt/zt_opts.c: zt_opt_validate_default, _zt_opt_error_wrapper"]}
{"id": "C69", "title": "Configuration files mean their lines", "statement": "zt_cfg_ini of a file of blank lines, comments, section headers and assignments yields exactly the variables assigned, each in the block of the last header before it (Global before the first), with the value between '=' and the end of line or comment without surrounding blanks; the last line may lack its newline. A line that is none of these, or an assignment too long for the buffer, makes it return NULL.", "quantifier": "all files", "why_tests_cant": "The set of files is infinite; line lengths interact with a fixed buffer.", "anchors": ["src/libzt/zt_cfg/cfg_ini.c: zt_cfg_ini, parse_cfg, parse_file, parse_block, parse_line", "src/libzt/zt_cfg/cfg_private.c: cfg_discard_line, cfg_discard_whitespace, cfg_insert_bvv"]}
{"id": "C70", "title": "Reading a configuration file is memory safe", "statement": "zt_cfg_ini of any file, well-formed or not, has no undefined behaviour: it returns a configuration or NULL.", "quantifier": "all byte sequences as files", "why_tests_cant": "Needs every file, including those with NULs, overlong lines and missing values.", "anchors": ["src/libzt/zt_cfg/cfg_ini.c: parse_file, parse_block, parse_line"]}
{"id": "C71", "title": "Every registered unit test runs once", "statement": "zt_unit_run runs every test of every suite exactly once, in the order of registration, after the setup and before the teardown function of its suite. It reports each test with its result; a test succeeds exactly if its function returns. The unit's counters of suites, tests, successes and failures grow by the corresponding numbers (modulo 2^32), and in the first run the assertions counted are those that held. The unit keeps its suites and tests, so it can be run again.", "quantifier": "all units, test functions (also failing and, in C++, throwing ones) and initial counters", "why_tests_cant": "The set of test functions and registrations is unbounded.", "anchors": ["src/libzt/zt_unit.c: zt_unit_run, zt_unit_run_suite, zt_unit_run_test, zt_unit_try_c", "src/libzt/zt_unit_cpp.cpp: zt_unit_try_cpp"]}
{"id": "C72", "title": "Exit status of a test program", "statement": "zt_unit_main without arguments returns 0 if every test passed and -1 otherwise. With names as arguments it runs, for each in turn, all tests of the first suite with this name or (suite.test) the first such test of the first such suite; it returns 0 exactly if every name denotes something and every test run passed, and reports the names that denote nothing.", "quantifier": "all units and argument lists whose names have non-empty parts", "why_tests_cant": "Needs every unit and every list of names.", "anchors": ["src/libzt/zt_unit.c: zt_unit_main, zt_unit_run_by_name, str_split"]}
{"id": "C73", "title": "Test selection and counters are consistent", "statement": "zt_unit_run_by_name reports any name that denotes no suite or test with -1; tests = successes + failures, and assertions counts the assertions that held, whatever is run.", "quantifier": "all names, units and sequences of runs", "why_tests_cant": "Needs every name and every history of runs.", "anchors": ["src/libzt/zt_unit.c: zt_unit_run_by_name, zt_unit_run_suite, str_split"]}
{"id": "C74", "title": "Format of a log line", "statement": "For every combination of options, level and debug information, zt_log_gen_fmt returns a string made of the chosen header parts (date, host up to the first dot, program, [pid], level), \": \", the caller's format, the location \": in function at (file:line)\" if debug information was given, and a newline; it never writes outside the block it allocates, however long the names are.", "quantifier": "all formats, file, function, host and program names, line numbers, levels and options", "why_tests_cant": "Buffer sizes are computed separately from what is written: needs every length of every part.", "anchors": ["src/libzt/zt_log/log_private.c: zt_log_gen_fmt"]}
{"id": "C75", "title": "Text of a log line", "statement": "The line that a logger writes is the header, the message (the caller's format with its arguments substituted), the location and a newline, whatever the program, host, file and function are called.", "quantifier": "all formats and arguments, environments, debug information, levels and options", "why_tests_cant": "Names outside the caller's control become part of a format string: needs every name.", "anchors": ["src/libzt/zt_log/log_private.c: zt_log_gen_fmt", "src/libzt/zt_log/log_stderr.c: print", "src/libzt/zt_log/log_file.c: print"]}
{"id": "C76", "title": "Log levels filter messages", "statement": "After zt_log_set_level(l, v) exactly the messages of level at most v are written to l, once each and to no other logger, until its level is set again; a new logger writes everything. After zt_log_logger(l), calls without a logger mean l.", "quantifier": "all histories of calls on any number of loggers", "why_tests_cant": "Needs every history of calls.", "anchors": ["src/libzt/zt_log.c: zt_log_lprintf, zt_log_lvprintf, zt_log_set_level, zt_log_get_level, zt_log_logger, zt_log_get_logger"]}
{"id": "C77", "title": "Debug information belongs to one message", "statement": "File, line and function set by zt_log_set_debug_info are attached to the next message of the same thread and to no later one, whatever other threads log in between and whether or not the message is written.", "quantifier": "all histories of calls of any number of threads, each call being atomic", "why_tests_cant": "Needs every interleaving of calls.", "anchors": ["src/libzt/zt_log.c: zt_log_set_debug_info, zt_log_get_debug_info, zt_log_lvprintf, zt_log_lprintf"]}
{"id": "C78", "title": "Ownership of loggers", "statement": "A program that uses only loggers it has not closed, and closes only loggers it opened itself, never makes the library use a closed logger, neither as the default logger nor at exit; the loggers the library created are closed at exit, once each, those of the program never.", "quantifier": "all histories of legal calls, followed by exit", "why_tests_cant": "Needs every history of calls.", "anchors": ["src/libzt/zt_log.c: zt_log_get_logger, zt_log_logger, zt_log_close, log_atexit"]}
{"id": "C79", "title": "Recursive directory creation", "statement": "zt_mkdir(path, mode, zt_mkdir_create_parent) returns; when no file is in the way and the missing directories can be created it returns 0 and has created exactly the missing directories on the path. It never removes or changes anything, never creates anything that the path does not lead through, and returns 0 only if the path is a directory afterwards; without the flag a failure changes nothing.", "quantifier": "all file systems, paths (with empty, . and .. components) and modes", "why_tests_cant": "Needs every path and every state of the file system.", "anchors": ["src/libzt/zt_path.c: zt_mkdir"]}
{"id": "C80", "title": "Search for the base directory", "statement": "zt_find_basedir returns the longest of the path and its ancestors that contains the trigger, with one separator behind it, or NULL if none does; zt_path_exists returns 0 exactly for existing paths.", "quantifier": "all paths, triggers and file systems", "why_tests_cant": "Needs every path and every state of the file system.", "anchors": ["src/libzt/zt_path.c: zt_find_basedir, zt_path_exists"]}
{"id": "C81", "title": "IPv4 addresses as text", "statement": "zt_ipv4_int2ip gives the dotted decimal text of a 32-bit address, most significant byte first, on hosts of either byte order; zt_ipv4_ip2int gives the number of such a text; the two are inverse.", "quantifier": "all 2^32 addresses, both byte orders", "why_tests_cant": "2^32 inputs; a test runs on one byte order.", "anchors": ["src/libzt/zt_ipv4_tbl.c: zt_ipv4_ip2int, zt_ipv4_int2ip"]}
{"id": "C82", "title": "IPv4 tables used through texts", "statement": "After any zt_ipv4_tbl_add_frm_str calls with texts a.b.c.d/n, zt_ipv4_tbl_search_from_str of such a text returns NULL iff no added network contains it and otherwise the node of one that does; searching does not consume memory that stays allocated.", "quantifier": "all table sizes, networks and histories of additions, all texts searched", "why_tests_cant": "Needs every history of additions.", "anchors": ["src/libzt/zt_ipv4_tbl.c: zt_ipv4_tbl_add_frm_str, zt_ipv4_tbl_search_from_str, zt_ipv4_node_str_init"]}
{"id": "C83", "title": "The program name shown is the last one set", "statement": "zt_progname(name, opts) with a non-empty name sets the program name, to its last path component if opts is STRIP_DIR, and returns it; NULL or an empty name only returns the name set last. Names longer than PATH_MAX are cut, and the result is always a terminated string within the static buffer.", "quantifier": "all histories of calls, all names, every PATH_MAX", "why_tests_cant": "names of every length and histories of every length", "anchors": ["src/libzt/zt_progname.c: zt_progname"]}
{"id": "C84", "title": "zt_progpath gives the directory of the program", "statement": "zt_progpath(prog) gives the directory of the given program: for a path with a directory that directory, made absolute with the current directory; for a bare name the first entry of PATH in which it exists, otherwise the current directory; without PATH the directory of the running executable. NULL or the empty text only returns the directory found last. The result is a terminated string within the static buffer.", "quantifier": "all programs, values of PATH, current directories, and answers of stat", "why_tests_cant": "PATH, directory names and file systems are unbounded", "anchors": ["src/libzt/zt_progname.c: zt_progpath, zt_os_progpath"]}
{"id": "C85", "title": "Number options store exactly the number given", "statement": "zt_opt_long and zt_opt_intmax store the value of a text that is a decimal, octal or hexadecimal integer of 64 bits in the variable of the option and leave every other variable; every other text, the empty one included, and a missing value are reported to the error handler and not stored.", "quantifier": "all option tables, texts, variables and error handlers", "why_tests_cant": "texts are unbounded", "anchors": ["src/libzt/zt_opts.c: zt_opt_long, zt_opt_intmax, zt_opt_get_value"]}
{"id": "C86", "title": "The help shows every option, wrapped between words", "statement": "zt_opt_usage prints the banner and for each option, in order, its names and its help text, wrapped between words into lines of at most 50 bytes that begin in the same column, without losing, splitting or repeating a word, and returns 0; an option without a name ends the list with -1. It reads nothing outside of the texts and returns for every table.", "quantifier": "all option tables and help texts", "why_tests_cant": "help texts and tables are unbounded", "anchors": ["src/libzt/zt_opts.c: zt_opt_usage, _zt_opt_help_stdout_printer", "src/libzt/zt_macros.h: INDENT_TO"]}
{"id": "C87", "title": "The pid file is complete or the call fails", "statement": "zt_writepid returns 0 exactly if the file was opened, the pid in decimal and a newline were written as a whole and the file was closed without error, and -1 otherwise, a NULL path included. Whatever it opened is closed exactly once, also after errors, and interrupted calls are made up for.", "quantifier": "all paths, pids and sequences of results of creat, write and close", "why_tests_cant": "interruptions and short writes come in any order", "anchors": ["src/libzt/zt_daemon.c: zt_writepid"]}
{"id": "C88", "title": "A daemon is detached from everything", "statement": "zt_daemonize returns, with 0, only in a process that is the child of the child of the caller, in a session of its own, with the given directory and umask, and with /dev/null as descriptors 0, 1 and 2 and no other descriptor open. All other processes exit: with 0 after a successful fork and 1 after an error.", "quantifier": "all results of fork, setsid, getrlimit, chdir and open, descriptor tables and limits", "why_tests_cant": "needs failures of system calls and every limit of descriptors", "anchors": ["src/libzt/zt_daemon.c: zt_daemonize"]}
{"id": "C89", "title": "Memory pools when memory runs out", "statement": "Whatever requests the system allocator refuses during a history of pool operations, elements handed out stay distinct and inside blocks of their pools, and nothing leaks; a call that cannot get memory (zt_mem_pool_init, zt_mem_pool_alloc, zt_mem_pool_group_init) returns NULL and leaves everything as it was.", "quantifier": "all histories, all allocators and all patterns of refusals", "why_tests_cant": "Refusals can hit any allocation of any history, and each pattern has its own clean-up path.", "anchors": ["src/libzt/zt_mem.c: zt_mem_pool_init, zt_mem_pool_alloc, zt_mem_page_alloc, zt_mem_pool_group_init"]}
{"id": "C90", "title": "Memory heaps", "statement": "zt_mem_heap_init returns NULL, having changed nothing, or a heap whose data has the size asked for and overlaps nothing else that is allocated; its name is the one given; zt_mem_heap_destroy gives everything back.", "quantifier": "all sizes, names, allocators and histories of creation and destruction", "why_tests_cant": "Sizes range over size_t and the results depend on the whole history of the allocator.", "anchors": ["src/libzt/zt_mem.c: zt_mem_heap_init, zt_mem_heap_destroy, zt_mem_heap_get_data, zt_mem_heap_get_name"]}
{"id": "C91", "title": "Set destruction", "statement": "zt_set_destroy calls the destroy callback exactly once for every member of the set and gives back all memory of the set.", "quantifier": "all sets built by the operations, all match functions and allocations", "why_tests_cant": "Sets of every content and bucket layout.", "anchors": ["src/libzt/zt_set.c: zt_set_destroy, _destroy"]}
{"id": "C92", "title": "Notification pipes of the thread pool", "statement": "With pipes, every zt_threadpool_insert_iput/oput queues its entry and writes one zero byte, returning 0, or reports -1; a consumer that calls zt_threadpool_get_oput once for each zero byte it reads never gets NULL and, if it keeps reading, gets every entry whose insert returned 0, until zt_threadpool_kill writes a byte other than zero; zt_threadpool_init opens exactly the pipes asked for, or fails and leaves the descriptors as they were.", "quantifier": "all numbers of threads, schedules, pipe capacities, write failures and answers of pipe()", "why_tests_cant": "Deadlocks and mismatches between bytes and entries depend on the interleaving and on the fill level of the pipe.", "anchors": ["src/libzt/zt_threads.c: zt_threadpool_insert_iput, zt_threadpool_insert_oput, zt_threadpool_get_oput, zt_threadpool_kill, zt_threadpool_init, zt_threadpool_oput_fd_reader"]}
{"id": "C93", "title": "Floating numbers print as C prints them", "statement": "zt_fmt with %e, %f and %g, with or without a precision, prints a double as the C standard says: correctly rounded to the requested number of digits, whatever other threads format at the same time, and never writes outside its buffer", "quantifier": "all doubles (finite, infinite, NaN), precisions, schedules of threads", "why_tests_cant": "there are 2^64 doubles times all precisions; overflow needs the extreme exponents, the race a particular schedule", "anchors": ["src/libzt/zt_format.c: cvt_f"]}
{"id": "C94", "title": "IPv4 tables of one process do not disturb each other and give their memory back", "statement": "However many IPv4 tables a program makes, uses and destroys: every call completes; nodes and address records stay valid and never overlap, also after other tables were destroyed; each slot array has room for all the slots of its table and overlaps nothing else; and when all tables have been destroyed, their memory has been given back.", "quantifier": "all histories of creating tables of any sizes, making nodes from texts that are or are not understood, taking slot arrays, searching, and destroying tables, in any order; all allocators that succeed", "why_tests_cant": "The tables share pools found by name in a registry of the whole process, so that what one table gets depends on the creation and destruction of all others; tests use one table.", "anchors": ["src/libzt/zt_ipv4_tbl.c: zt_ipv4_tbl_init, zt_ipv4_tbl_destroy, zt_ipv4_node_str_init, zt_ipv4_tbl_add_node, zt_ipv4_tbl_search_from_str", "src/libzt/zt_mem.c: zt_mem_pool_get, zt_mem_pool_group_init, zt_mem_pool_group_destroy"]}
{"id": "C95", "title": "Every thread of a pool is started once and waited for once", "statement": "zt_threadpool_start starts min_threads threads for each loop that is enabled, all with handles of their own, and zt_threadpool_kill waits for each of them exactly once and for no other thread, whatever callbacks are set at other times and whatever other pools do; callbacks can be changed at any time, and a thread that could not be started is never waited for.", "quantifier": "all histories of setting, disabling and restoring callbacks, making, starting and killing any number of pools of any sizes; all outcomes of thread creation", "why_tests_cant": "The callbacks are global and every function looks at them when it is called, so the threads of a pool depend on the order of calls about all pools; tests use one pool and set the callbacks once.", "anchors": ["src/libzt/zt_threads.c: zt_threadpool_set_callbacks, zt_threadpool_disable_iput_loop, zt_threadpool_disable_oput_loop, zt_threadpool_init, zt_threadpool_start, zt_threadpool_kill, zt_threads_join"]}
{"id": "C96", "title": "Thread primitives: registration, mutual exclusion, deadlines", "statement": "Every thread primitive calls the function of the last table that was accepted, with the caller's arguments, and returns its result; incomplete tables are refused and change nothing. If zt_threads_lock returns 0 the caller holds the lock alone, whatever the schedule; with ZT_THREADS_LOCK_NONBLOCKING it never waits. A timed wait ends at exactly the present time plus the timeout and tells waking, timeout and error apart.", "quantifier": "all histories of registrations of the three tables; all schedules of locking threads, modes and mutexes; all times and timeouts", "why_tests_cant": "Whether a lock excludes depends on the interleaving and on what was registered before; a deadline off by a carry shows only for particular fractions of a second.", "anchors": ["src/libzt/zt_threads.c: zt_threads_set_lock_callbacks, zt_threads_set_cond_callbacks, zt_threads_set_cntrl_callbacks, zt_threads_lock, zt_threads_unlock, zt_threads_cond_wait, zt_threads_join, zt_threads_detach", "src/libzt/zt_threads/zt_threads_pthreads.c: zt_threads_use_pthreads, zt_threads_pthreads_lock, zt_threads_pthreads_cond_wait"]}
{"id": "C97", "title": "Configurations own their memory", "statement": "Opening a well-formed configuration file, any number of zt_cfg_set and zt_cfg_get calls and zt_cfg_close never free memory twice or memory of others, and after zt_cfg_close all memory the configuration took is given back, also when a file is refused. A string that zt_cfg_get hands out has the value of the variable and stays valid and unchanged until zt_cfg_close, whatever is set meanwhile.", "quantifier": "all well-formed files, all histories of setting variables with accepted and refused values (including values that become references), all heaps of the rest of the program", "why_tests_cant": "Whether a string is lost or freed twice depends on the types and order of all earlier writes to the variables and on references between them; tests read one file and never look at the heap.", "anchors": ["src/libzt/zt_cfg/cfg_private.c: zt_cfg_priv_set, zt_cfg_priv_get, zt_cfg_priv_destructor, cfg_insert_bvv, get_type, add_block, add_variable", "src/libzt/zt_cfg/cfg_ini.c: zt_cfg_ini, parse_file, parse_block, parse_line", "src/libzt/zt_cfg.c: zt_cfg_close"]}
{"id": "C98", "title": "Hash tables give their memory back and do not disturb each other", "statement": "Any number of hash tables can be in use at the same time, made with the same or different names and sizes, filled, copied into each other, emptied and destroyed in any order: every call returns what it would return if the other tables did not exist, no node or table structure overlaps another one, nothing is freed twice, and when a table has been destroyed all its nodes, its node pool, its bucket array and its names are given back. A NULL name makes an anonymous table.", "quantifier": "all histories of making, filling, looking up, deleting, copying and destroying any number of tables, all hash and compare callbacks whose values are in range, all allocators", "why_tests_cant": "All tables share one pool for their structures and find node pools by constructed names; whether a table disturbs another one or leaks a node depends on the order of the calls about all of them, tests use one table at a time.", "anchors": ["src/libzt/zt_table.c: zt_table_init, zt_table_destroy, zt_table_set, zt_table_del, zt_table_copy, zt_table_pool_init", "src/libzt/zt_mem.c: zt_mem_pool_init, zt_mem_pool_alloc, zt_mem_pool_release, zt_mem_pool_destroy, zt_mem_pool_get"]}
{"id": "C99", "title": "Common macros: extremes, clamping, flags, indentation", "statement": "ABS, MIN, MAX, CLAMP, CEILING and FLOOR give the absolute value, the extremes and the nearest value of the interval for all arguments of their type, evaluating each argument once; after any history of ZT_BIT_SET and ZT_BIT_UNSET every flag has the value given by the last operation whose mask contains it, and ZT_BIT_ISSET and ZT_BIT_ISUNSET report it; INDENT_TO moves the cursor from column start to column tgt for every step; zt_containerof finds the structure of a member and sizeof_array the number of elements.", "quantifier": "all integer values and widths, all argument expressions, all histories of flag operations and masks of all widths, all columns and steps", "why_tests_cant": "Macros paste expressions: their meaning depends on the types, side effects and operators of all arguments; tests call them with small constants.", "anchors": ["src/libzt/zt_macros.h: ABS, CLAMP, CEILING, FLOOR, MAX, MIN, sizeof_array, zt_containerof, BLANK, INDENT, INDENT_TO, INDENT_PAD, ZT_BIT_SET, ZT_BIT_UNSET, ZT_BIT_ISSET, ZT_BIT_ISUNSET"]}
{"id": "C100", "title": "System errors, failed assertions and syslog messages are logged completely", "statement": "zt_log_strerror logs one line with the caller's message, a colon and the system's text for the error, if the logger takes messages of this level, and nothing else. A failed zt_assert, zt_assert_nf, zt_assert_return or zt_abort logs one line with the condition or message, the last component of the file name, the line and the function, then aborts, returns or goes on; a condition that holds has no effect but its own. Messages of the syslog logger arrive with the priority of their level.", "quantifier": "all states of the loggers, all messages, arguments, error texts and numbers, condition texts, file and function names, levels and options", "why_tests_cant": "Error texts depend on the C library and the locale, and texts with percent signs or unusual lengths do not occur in tests.", "anchors": ["src/libzt/zt_log.c: zt_log_lstrerror, zt_log_lprintf, zt_log_lvprintf", "src/libzt/zt_assert.c: _zt_log_assertion, _zt_log_abort", "src/libzt/zt_assert.h: zt_assert, zt_assert_always, zt_assert_nf, zt_assert_return, zt_assert_returnV, zt_abort", "src/libzt/zt_log/log_syslog.c: print"]}
{"id": "C101", "title": "Option errors: text and exit status", "statement": "Every error reported to the default error handler of zt_opt_process writes one line with its code, the system's text for it and the message to the standard error output, different errors have different texts, and the program then ends with a status that tells the parent of a failure; reports without a code are printed and the program goes on. Asking for help prints the usage and ends the program successfully.", "quantifier": "all codes, messages (any bytes), error texts of the system, option tables and help texts", "why_tests_cant": "Codes and messages come from option callbacks of the program and from errno; exit statuses are truncated by the system, so only particular codes show a wrong status.", "anchors": ["src/libzt/zt_opts.c: zt_opt_error_str, zt_opt_verror_str, zt_opt_verror_default, zt_opt_error_default, _zt_opt_error_wrapper, zt_opt_help_stdout"]}
{"id": "C102", "title": "Arrays and byte streams own their memory", "statement": "Every history of calls that create, adopt, copy, clone, fill, resize, truncate, hand over and free arrays and byte streams behaves as if each object were an independent value; the memory in use is at every moment exactly that of the objects not yet freed; two objects never share memory; what was freed is never used or freed again; and after all objects have been freed nothing is in use.", "quantifier": "all histories of calls on any number of arrays and byte streams, all lengths, element sizes and contents, with data copied or handed over", "why_tests_cant": "Ownership depends on the whole history; a leak or a shared block has no effect on any value a test looks at.", "anchors": ["src/libzt/zt_array.c: zt_array_new, zt_array_free, zt_array_set_data, zt_array_with, zt_array_resize, zt_array_copy, zt_array_set_length, zt_array_put, zt_array_elem_copy", "src/libzt/zt_bstream.c: zt_bstream_new, zt_bstream_clone, zt_bstream_free, zt_bstream_set_data, zt_bstream_set_array, zt_bstream_truncate, zt_bstream_write, zt_bstream_read"]}
{"id": "C103", "title": "The report of a test program can be read back", "statement": "What a test program prints when it runs its tests is, line for line, the report that belongs to them: a document per suite, and for each test in order its name, the number of assertions that held, its exceptions and its result; the failed tests with their texts; the figures of the whole run; the tests without assertions. A reader that takes lines apart by indentation, key and value recovers all of it. --list prints every suite and test and runs nothing. Values stand in one column.", "quantifier": "all sets of suites and tests, all behaviours of the test functions, all names and texts", "why_tests_cant": "Output is checked by eye or not at all; escaping and number formats go wrong for texts and counts no test uses.", "anchors": ["src/libzt/zt_unit.c: zt_unit_run, zt_unit_run_suite, zt_unit_run_test, zt_unit_list, zt_unit_test_global_stats, yaml_dict, yaml_value, yaml_list_elt", "src/libzt/zt_macros.h: INDENT_TO"]}
{"id": "C104", "title": "A pool keeps its settings and its release policy", "statement": "As long as a pool exists zt_mem_pool_get_stats reports what zt_mem_pool_init was given (elements, element size, flags) and the page geometry that follows from it, whatever happens to this and other pools. Releasing an element gives at most its own page back to the system, exactly if no other element of the page is held and the pool's release callback, told the elements asked for and the numbers of elements in unused and used pages, agrees; without a callback it agrees unless POOL_NEVER_FREE was given.", "quantifier": "all pools, settings, callbacks and histories of all pools", "why_tests_cant": "The decision depends on the whole history of allocations and releases and on an arbitrary callback.", "anchors": ["src/libzt/zt_mem.c: zt_mem_pool_init, zt_mem_pool_release, zt_default_release_test, zt_mem_pool_get_stats"]}
{"id": "C105", "title": "A pool takes memory only when it is full", "statement": "zt_mem_pool_alloc asks the system for memory exactly when every element of the pool's pages is held, and then for one page. A pool created for n elements gives out the first n without asking for memory.", "quantifier": "all histories; all element counts and sizes", "why_tests_cant": "Unbounded histories; every combination of element size and count.", "anchors": ["src/libzt/zt_mem.c: zt_mem_pool_alloc, zt_mem_pool_init, x_calculate_page_data"]}
{"id": "C106", "title": "What zt_time measures", "statement": "zt_time leaves in the structure it is given the user and the system time the process used between the reading of the clock before the first call of the function and the one after the last, less the overhead recorded by zt_time_calibrate, as normalized times; it returns the result of the last call (NULL when there is none) and changes nothing else.", "quantifier": "all clocks, functions, counts and histories of calibrations and measurements", "why_tests_cant": "Clocks and histories are unbounded; the calibration subtracts from itself through an alias.", "anchors": ["src/libzt/zt_time.c: zt_time, zt_time_calibrate"]}
{"id": "C107", "title": "usleep waits as long as asked", "statement": "The usleep of zt_time.h waits for exactly the number of microseconds its argument denotes, whatever expression it is.", "quantifier": "all arguments", "why_tests_cant": "All values and expressions.", "anchors": ["src/libzt/zt_time.h: usleep"]}
{"id": "C108", "title": "Each thread has a UUID generator of its own", "statement": "Every call of zt_uuid4 returns, in whatever way the calls of several threads interleave, and fills in a version 4 UUID. The random bits of the k-th UUID a thread asks for are words 4k to 4k+3 of the MT19937 sequence seeded with the time of that thread's first call; no thread draws from the generator of another, so that no thread is given the same UUID twice; different threads get different UUIDs.", "quantifier": "every number of threads, every history of calls and every interleaving of their steps, every clock", "why_tests_cant": "a race needs one particular interleaving of two calls, and equal seeds need two threads starting within one second", "anchors": ["src/libzt/zt_uuid.c: zt_uuid4, zt_uuid4_get_ctx", "src/libzt/zt_random.c: zt_random_uint32, zt_random_srandom"]}
{"id": "C109", "title": "The default logger with threads", "statement": "Threads that log without a logger of their own all get the same default logger, made once, however many of them need it first at the same moment; a call always finds one. Every logger that is made the default logger is handed back by exactly one later zt_log_logger (or taken out by zt_log_close of that logger) unless it is still the default logger; every logger the library made by itself is registered for being closed at exit exactly once. No call deadlocks and each ends after a bounded number of steps.", "quantifier": "every number of threads, every sequence of calls and every interleaving of their steps", "why_tests_cant": "double-checked locking fails only in particular interleavings", "anchors": ["src/libzt/zt_log.c: zt_log_get_logger, zt_log_set_logger, zt_log_logger, zt_log_close"]}
{"id": "C110", "title": "The printed dump", "statement": "zt_hexdump without an output function prints, for every 16 bytes of data, one line with the position in hexadecimal, the bytes in four groups of four and the bytes as text, the texts starting in the same column in all lines, and then an empty line; whoever reads the dump can recover the data with its positions. The printer never writes outside its buffer.", "quantifier": "all data of all lengths up to 2^32, all sources, whatever the buffers contain before", "why_tests_cant": "every length modulo 16, every byte value and both address widths matter", "anchors": ["src/libzt/zt_cstr.c: zt_hexdump_default_printer, zt_hexdump, zt_hexdump_str"]}
{"id": "C111", "title": "The replacement of asprintf", "statement": "On systems without asprintf, asprintf gives the caller a new block with the whole text and a NUL, whatever its length, and returns the length; if it cannot, it returns -1, sets *str to NULL and errno to ENOMEM, and leaves no memory behind. It never writes outside its block, even if the arguments change between its two attempts.", "quantifier": "all texts of all lengths, all failures of malloc, realloc and vsnprintf in any combination, all contents of the heap", "why_tests_cant": "texts of every length around 128 and INT_MAX with every combination of failures cannot be tried; the branch of a failing second attempt is not reachable from a test", "anchors": ["src/libzt/replace/asprintf.c: vasprintf, asprintf"]}
{"id": "C112", "title": "The replacement of vsyslog", "statement": "On systems without vsyslog, a message is sent to syslog with its severity as the C library prints it, %m standing for the message of errno and %%m for a percent sign and an m; no buffer is overrun.", "quantifier": "all formats, all argument lists (any text they print), all error numbers and messages", "why_tests_cant": "whether a buffer is overrun depends on the lengths of format, error message and arguments together", "anchors": ["src/libzt/replace/vsyslog.c: percent_m, vsyslog"]}
{"id": "C113", "title": "Replacements of string functions", "statement": "strsep called again and again returns the fields of a string between delimiters, in order, empty ones too, as C strings inside the string, changes nothing outside of it, and then returns NULL for ever. basename returns what follows the last slash. snprintf prints what fits and cuts the rest.", "quantifier": "all strings, all sets of delimiters, all memory around the string, all numbers of further calls; all texts and buffer sizes", "why_tests_cant": "the set of strings and delimiters is infinite", "anchors": ["src/libzt/zt_win32.c: strsep, snprintf", "src/libzt/replace/basename.c: basename"]}
{"id": "C114", "title": "Allocation functions", "statement": "zt_calloc, zt_malloc, zt_realloc and zt_strdup never return NULL: they give a block with room for as many elements as asked, zeroed, with the old contents, or with the copy, and leave all other blocks alone, or they end the program because there is no memory. zt_free gives a block back and forgets it, so that freeing a variable twice does nothing.", "quantifier": "all element sizes and numbers, all heaps, all allocators (which sizes they find memory for, what fresh memory contains, what realloc does with size 0)", "why_tests_cant": "products that exceed size_t and allocators that return NULL for size 0 do not occur in tests", "anchors": ["src/libzt/zt_malloc.c: zt_calloc_p, zt_malloc_p, zt_realloc_p, zt_strdup_p", "src/zt.h: zt_calloc, zt_malloc, zt_realloc, zt_free"]}
{"id": "C115", "title": "The memory of unit tests", "statement": "A unit keeps copies of the names of its suites and tests, so that the caller's strings may change, and the text of the last failed assertion of each test. Tests and suites can be released one by one, in any order, before the unit; zt_unit_release then gives back every block of the unit exactly once and touches nothing else.", "quantifier": "all sequences of registrations, failed assertions and releases, all names and texts, all heaps", "why_tests_cant": "double frees and leaks do not change the results of a test program; the histories are unbounded", "anchors": ["src/libzt/zt_unit.c: zt_unit_init, zt_unit_register_suite_, zt_unit_register_test, zt_unit_release_test, zt_unit_release_suite, zt_unit_release, zt_unit_printf", "src/libzt/zt_unit.h: ZT_UNIT_ASSERT, ZT_UNIT_SET_ERROR"]}
{"id": "C116", "title": "Log lines of several threads are not mixed", "statement": "When threads print with the same logger at the same time, the file holds their lines whole, none lost and none twice, those of each thread in the order of its calls and each with the debug information (file, line, function) that the same thread set; messages above the level leave no trace. No call blocks for ever and nothing undefined happens, provided each stream has one logger and a logger is closed when nobody is using it", "quantifier": "all numbers of threads and loggers, all programs of the threads, all interleavings, all messages", "why_tests_cant": "the interleavings are unbounded and tests see a few of them", "anchors": ["src/libzt/zt_log/log_file.c: print, destructor", "src/libzt/zt_log/log_stderr.c: print, destructor", "src/libzt/zt_log.c: zt_log_lprintf, zt_log_lvprintf, zt_log_set_debug_info, zt_log_close, zt_log_get_ctx"]}
{"id": "C117", "title": "User conversions and printing to streams", "statement": "zt_fmt_register installs a conversion for any of the codes 1 to 255 and returns the one before, with which the old state can be restored. A directive with that code then calls the function with the code, the next argument of the registered type, the flags, width and precision as given (counts of flags; missing ones recognizable), adds up its results and goes on; formats in which the code does not occur are unaffected; a code without conversion aborts. zt_fmt_printf and zt_fmt_fprintf append exactly the formatted text to the stream", "quantifier": "all tables of conversions and sequences of registrations, all functions, formats, arguments, sinks and failures of the stream", "why_tests_cant": "functions, formats and tables are unbounded", "anchors": ["src/libzt/zt_format.c: zt_fmt_register, zt_fmt_vformat, zt_fmt_printf, zt_fmt_fprintf, zt_fmt_outc", "src/libzt/zt_format.h: zt_fmt_ty, zt_fmt_put_f"]}
{"id": "C118", "title": "Pointer arrays and lists of strings own their memory", "statement": "However blocks are added to and deleted from a pointer array and however it is resized, the members stay allocated and unchanged and no block is freed twice: a deleted member is freed exactly once by an array with a free callback and is left to the caller otherwise, the old pointer block is freed when the array grows, releasing the array with its members gives back everything it used and releasing it without them leaves exactly the members. zt_cstr_split, zt_cstr_cut and zt_cstr_tok return a list whose strings are separate blocks with exactly the tokens, leave no working copy behind, change no other memory, and zt_cstr_split_free or zt_cstr_cut_free gives back exactly the memory there was before; when memory runs out they fail instead of returning a list that is too short.", "quantifier": "all heaps, arrays, call sequences, strings, delimiters and patterns of failing strdup calls", "why_tests_cant": "leaks, double frees and lost tokens depend on the sequence of calls, on when the array grows and on which allocation fails", "anchors": ["src/libzt/zt_ptr_array.c: zt_ptr_array_init, zt_ptr_array_add, zt_ptr_array_del, zt_ptr_array_resize, zt_ptr_array_cat, zt_ptr_array_free", "src/libzt/zt_cstr.c: zt_cstr_split, zt_cstr_cut, zt_cstr_tok, zt_cstr_split_free, zt_cstr_cut_free"]}
{"id": "C119", "title": "Where log messages go", "statement": "Over any history of loggers made with zt_log_file, zt_log_stderr, zt_log_syslog and zt_log_syslog2, printed to, adjusted (zt_log_set_level, zt_log_set_opts, zt_progname) and closed: every message at or below its logger's level reaches exactly that logger's destination, in order, rendered with that logger's options; syslog receives it with the facility and options of that logger, the priority of its level and the program's name; an overwriting file logger starts from an empty file, an appending one from what was there; a closed file has all its lines, a crash leaves a beginning of them, exit leaves all; a file that cannot be opened is reported on stderr and changes nothing; the structures in use are those of the open loggers.", "quantifier": "all histories of calls, all initial file systems, all messages, levels and options, all ways in which the C library flushes, all failing fopen calls, every point of crash or exit", "why_tests_cant": "tests look at a few files after a clean run; crash points, flush patterns and interplay of several loggers are unbounded", "anchors": ["src/libzt/zt_log/log_file.c: zt_log_file, print, destructor", "src/libzt/zt_log/log_stderr.c: zt_log_stderr", "src/libzt/zt_log/log_syslog.c: zt_log_syslog2, print, destructor", "src/libzt/zt_log.c: zt_log_lvprintf, zt_log_close"]}
{"id": "C120", "title": "zt_threads over pthreads", "statement": "After zt_threads_use_pthreads, whatever callbacks were registered before, every function of zt_threads (locks, conditions, threads) makes exactly the POSIX calls it stands for and reports their outcome: blocking or trying to lock by the mode, waking one or all waiters by the flag, with or without deadline by the pointer, 0/1/-1 for woken/timed out/error, 0/-1 for started or not, NULL for a lock or condition that could not be allocated or initialised. Every mutex and condition variable is initialised once before use, destroyed before its memory is freed; a failed initialisation leaves nothing allocated; giving everything back leaves nothing.", "quantifier": "all earlier registrations, all sequences of calls, all answers of calloc and of the pthread functions", "why_tests_cant": "failing pthread_mutex_init and pthread_cond_init cannot be provoked by tests; the order of calls is not visible", "anchors": ["src/libzt/zt_threads/zt_threads_pthreads.c: zt_threads_use_pthreads and all callbacks", "src/libzt/zt_threads.c: zt_threads_alloc_lock, zt_threads_lock, zt_threads_cond_wait, zt_threads_start, zt_threads_join"]}
{"id": "C121", "title": "The display of memory pools is true", "statement": "After any correct use of pools, zt_mem_pool_display prints, line for line and at the level given, facts that hold for the pool: its name and sizes, how many elements there are and how many of them the caller does not hold, how many pages there are and in how many of them the caller holds nothing, pages obtained and given back; with DISPLAY_POOL_FREE_LIST exactly the elements the caller does not hold, each once with its page; with DISPLAY_POOL_PAGES every page with its number of free elements. zt_mem_pools_display shows every pool in the order of creation, zt_mem_pool_group_display those of the group.", "quantifier": "all histories of pool operations, all pools, levels, flags, system allocators", "why_tests_cant": "figures come from counters kept up to date by every operation; a test sees a few histories", "anchors": ["src/libzt/zt_mem.c: zt_mem_pool_display", "src/libzt/zt_mem.c: zt_mem_pools_display", "src/libzt/zt_mem.c: zt_mem_pool_group_display", "src/libzt/zt_mem.c: zt_mem_elt_list_display", "src/libzt/zt_mem.c: zt_mem_page_display"]}
{"id": "C122", "title": "Visiting and printing the objects of a collector", "statement": "After any legal history, zt_gc_for_each hands every object the collector knows to the callback exactly once: first those already scanned (kind 0), then those found or new (kind 1), then those not found so far (kind 2). Protected objects always have kind 1, no object of kind 0 refers to one of kind 2, and between cycles there is no kind 0. The callback may take the object it is given back from the collector (zt_gc_unregister, if nothing refers to it and it is not the one to be scanned next); the remaining visits are not affected and the collector is then as after those calls alone. A full collection, if enabled, releases exactly the objects of kind 2 not reachable from one of kind 0 or 1. zt_gc_print_heap prints the addresses of the lists and the scan pointer and then the same objects in the same order, protected ones as p(...), separated by \", \", with a line break after each tenth.", "quantifier": "all legal histories of collector calls (including visits during a cycle), all callbacks of that form, all numbers of objects, all texts for addresses", "why_tests_cant": "the lists depend on the whole history and on where the incremental scan stands; removal during the visit is the classical place for a stale pointer, and the break after ten objects and the missing comma after the last interact", "anchors": ["src/libzt/zt_gc.c: zt_gc_for_each", "src/libzt/zt_gc.c: zt_gc_print_heap", "src/libzt/zt_gc.c: dump_elist", "src/libzt/zt_gc.c: zt_gc_unregister", "src/libzt/zt_list.h: zt_elist_for_each_safe"]}
{"id": "C123", "title": "Random numbers as floating point", "statement": "zt_random_float gives a double between 0 and 1, both included, zt_random_float10 one from 0 on and below 1, zt_random_float00 one above 0 and below 1; each takes exactly one output u of the generator. float10 is exactly u/2^32, float00 exactly (u+1/2)/2^32, float differs from u/(2^32-1) by less than 2^-53, is 0 only for u=0 and 1 only for u=2^32-1, and keeps the order of the outputs without ever merging two of them. After seeding, the numbers of float10 are those of MT19937 divided by 2^32.", "quantifier": "all states of the generator, all outputs, all seeds and numbers of calls, every rounding to nearest", "why_tests_cant": "Whether the bounds of the intervals are reached or crossed depends on single outputs among 2^32 (the quotient 1/4294967295 is rounded, and rounded again in the product); sampling the generator never meets them.", "anchors": ["src/libzt/zt_random.h: zt_random_float, zt_random_float00, zt_random_float10", "src/libzt/zt_random.c: zt_random_uint32"]}
{"id": "C124", "title": "Elapsed times are converted and reported correctly", "statement": "zt_time_result_to_elapsed stores the user time, the system time and their sum in seconds; zt_time_print_result logs them with the name and, for more than one call, the number of calls, with two decimals. The figures are right to the precision reported, longer times never give smaller figures, the total is at least each part, a figure is 0 only if no time was used.", "quantifier": "all pairs of times, all names and numbers of calls, every rounding to nearest", "why_tests_cant": "Three roundings in two formats over 2^63 times a million values; errors appear only for long times.", "anchors": ["src/libzt/zt_time.c: zt_time_result_to_elapsed, zt_time_print_result"]}
{"id": "C125", "title": "The same digest on every machine", "statement": "zt_sha1 digests and name-based UUIDs do not depend on the byte order of the machine: data hashed on a big-endian machine has the digest it has on a little-endian one, however it is split.", "quantifier": "all data, all ways of splitting it, both byte orders, all contents of uninitialised buffers", "why_tests_cant": "Tests run on one machine.", "anchors": ["src/libzt/zt_sha1.c: blk0, _sha1_transform, zt_sha1_update, zt_sha1_finalize, zt_sha1_data", "src/libzt/zt_uuid.c: zt_uuid5"]}
{"id": "C126", "title": "Byte streams move between machines", "statement": "Typed values written to a byte stream on one machine, sent as bytes and read with the same types from a stream on another machine come back unchanged, for every sequence of values, exactly when the two machines agree on the order of bytes once flipendian is taken into account (same byte order and same setting, or different byte orders and flipendian on exactly one side); otherwise each value arrives with its bytes exchanged, and nothing else is affected. The bytes sent depend on the machine only through that order.", "quantifier": "all sequences of values of all widths, both byte orders and both settings on each side", "why_tests_cant": "A test runs on one machine and never sees the other byte order; the statement is for every sequence of values.", "anchors": ["src/libzt/zt_bstream.c: zt_bstream_write_*, zt_bstream_read_*, zt_bstream_write, zt_bstream_read, zt_bstream_set_data, _array_put, _array_get"]}
{"id": "C127", "title": "Floating point settings come back to the sixth decimal", "statement": "A finite double stored with zt_cfg_set and read with zt_cfg_get comes back as a double less than a millionth away; exactly if its absolute value is 2^33 or more or if it is the double nearest to a number of at most six decimals; storing what was read changes nothing any more; the order of values is kept; a number with a decimal point in a configuration text is read as a nearest double.", "quantifier": "all finite doubles, all configurations, blocks and variables, all rules for ties", "why_tests_cant": "There are 2^64 doubles and the rounding errors of printing and reading interact; tests show a few.", "anchors": ["src/libzt/zt_cfg/cfg_private.c: zt_cfg_priv_set, get_type, zt_cfg_priv_get"]}
{"id": "C128", "title": "No data races in the thread pool, no use of freed entries", "statement": "While threads run the loops of a thread pool and others insert, fetch results and call functions from within callbacks, no two of them access the same memory of the pool at the same time with one of them writing; no entry is read, written or freed after it was freed or before it was allocated; every allocated entry is in exactly one queue or with exactly one thread, so none is lost. Exceptions in the code: zt_threadpool_kill writes the kill flag without a mutex while loops read it, and zt_threadpool_set_callbacks on a running pool writes callbacks the loops read.", "quantifier": "all numbers of threads, all interleavings of single accesses, all programs of clients and callbacks that call insert, get_oput, kill and set_callbacks", "why_tests_cant": "A race or a use after free depends on a particular interleaving; tests see a few.", "anchors": ["src/libzt/zt_threads.c: _zt_threadpool_iput_loop", "src/libzt/zt_threads.c: _zt_threadpool_oput_loop", "src/libzt/zt_threads.c: zt_threadpool_insert_iput", "src/libzt/zt_threads.c: zt_threadpool_insert_oput", "src/libzt/zt_threads.c: zt_threadpool_get_oput", "src/libzt/zt_threads.c: zt_threadpool_kill", "src/libzt/zt_threads.c: zt_threadpool_set_callbacks"]}
{"id": "C129", "title": "Time stamps of log lines", "statement": "With ZT_LOG_WITH_DATE every line begins with the local time of the call as month name, day, hour, minute and second in 16 bytes; the stamp never overflows its buffer, never breaks the line and is never taken for a conversion; from it month, day, hour, minute and second can be read back, and lines of the same year and zone offset are in the order of their stamps. Exceptions in the code: the year and the zone are missing, so stamps of different instants can be equal, and sorting lines as text is not sorting by time.", "quantifier": "all instants from 1970 on, all time zones including daylight saving time, all messages", "why_tests_cant": "Tests run at one instant in one zone.", "anchors": ["src/libzt/zt_log/log_private.c: zt_log_gen_fmt"]}
{"id": "C130", "title": "Changing a hash table while it is enumerated", "statement": "The callback given to zt_table_for_each may itself look up, insert and delete in the table: each bucket is enumerated as it is when its turn comes, the results of the callback's calls and the table afterwards are those of the same calls made one after the other, every entry that was there before is visited exactly once if the callback only inserts, and a callback that deletes every entry it is called for visits each entry once and leaves the table empty. Exceptions in the code: deleting the entry that comes next is a use after free, and deleting the visited entry alone can lose another one.", "quantifier": "all tables, all callbacks making any calls of set, get and del, all hash and compare functions", "why_tests_cant": "Tests enumerate tables that do not change.", "anchors": ["src/libzt/zt_table.c: zt_table_for_each, zt_table_set, zt_table_del, zt_table_get"]}
{"id": "C131", "title": "Red-black trees with any comparison function, and the cost of the calls", "statement": "Whatever the comparison callback answers (inconsistently, differently each time), after any history the tree holds exactly the nodes inserted and not removed, each once, with correct links, and is balanced; every call ends, with at most 2*log2(n+1) calls of the callback and 2*log2(n+1)+2 iterations of any loop; insertion returns a member for which the callback answered 0 or makes the node a member; iteration meets every member once.", "quantifier": "all histories, all callbacks with states of their own, all numbers of members", "why_tests_cant": "Tests use one consistent comparison and a few sizes; a bound on the cost is about all of them.", "anchors": ["src/libzt/zt_tree.c: zt_rbt_insert, zt_rbt_remove, zt_rbt_find, zt_rbt_nfind, zt_rbt_next, zt_rbt_minmax", "src/libzt/zt_tree.h: zt_rbt_for_each"]}
{"id": "C132", "title": "Sorting linked lists with any comparison function, and the cost of it", "statement": "Whatever the comparison callback answers (inconsistently, differently each time) and whichever half is sorted first, zt_llist_sort of n <= 2^d items ends, with at most d + 1 calls of it active at a time and at most (d - 1) n + 1 comparisons; the result is a list of the same cells and items, no other memory is changed, none allocated or freed; if the answers follow a transitive relation the result is ordered by it.", "quantifier": "all lists, all callbacks with any state of their own, both orders of evaluation of the two recursive calls, for each list independently", "why_tests_cant": "The answers of the callback and the unspecified order of evaluation branch without bound; depth and cost are statements about all lengths.", "anchors": ["src/libzt/zt_llist.h: zt_llist_sort", "src/libzt/zt_llist.h: zt_llist_nmerge", "src/libzt/zt_llist.h: zt_llist_split"]}
{"id": "C133", "title": "SHA-1 of data at any address and in memory that cannot be written", "statement": "zt_sha1_update, zt_sha1_data and zt_uuid5 hash data wherever it is in memory, aligned or not, and also constant data: they only read it, byte by byte. In any case pieces of at most 64 bytes can be hashed at any address in any memory, with the right digest and without being changed.", "quantifier": "all data, all addresses, writable or not, all ways of splitting the data into calls, all alignment requirements of the machine for 32 bit words", "why_tests_cant": "Machines on which tests run tolerate unaligned words, and tests hash writable buffers; whether a block is used in place depends on address, length and all earlier calls.", "anchors": ["src/libzt/zt_sha1.c: zt_sha1_update", "src/libzt/zt_sha1.c: _sha1_transform", "src/libzt/zt_sha1.c: zt_sha1_data", "src/libzt/zt_uuid.c: zt_uuid5"]}
{"id": "C134", "title": "Alignment of the memory from pools", "statement": "Memory from zt_mem_pool_alloc is aligned for every object that fits, as memory from malloc is; in any case for objects of the size of the elements whose alignment is at most 8, after any history; and the library's own structures in the pages are aligned for the pointers in them.", "quantifier": "all histories of all pools of a process, all element sizes, all allocators that return multiples of 16", "why_tests_cant": "Where an element lies depends on element size, page and position in the page; misaligned accesses do not fail on the machines tests run on.", "anchors": ["src/libzt/zt_mem.c: zt_mem_pool_alloc", "src/libzt/zt_mem.c: zt_mem_page_alloc", "src/libzt/zt_mem.c: struct zt_mem_elt"]}
{"id": "C135", "title": "Copying a hash table onto itself", "statement": "zt_table_copy(t, t) always ends, although it stores into the chains it is running through: in a table that allows duplicates every entry is there twice afterwards, in a table that does not nothing changes; the answer tells whether the table had an entry.", "quantifier": "all tables, after every history, all hash and compare functions, both modes", "why_tests_cant": "Whether the loop meets the entries it is adding depends on where new entries go in each chain; tests copy between different tables.", "anchors": ["src/libzt/zt_table.c: zt_table_copy, zt_table_set"]}
{"id": "C136", "title": "Changing a tree while it is iterated over", "statement": "The body of zt_rbt_for_each and zt_rbt_for_each_safe may insert and remove nodes: as long as it does not remove the visited node (zt_rbt_for_each) or the node that was next when its round began (zt_rbt_for_each_safe), every call is defined, no node is visited twice, nodes are visited in increasing order, only members are visited, every node that stays in the tree is visited, the tree afterwards is the one the calls leave when made one after the other, and the loop ends if insertions end. zt_rbt_for_each goes on with the least member above the visited one in the tree as the body leaves it, so it also visits nodes inserted there. Removing the excluded node makes the loops leave out members or visit removed ones.", "quantifier": "all trees, after every history, all bodies with states of their own making any calls of insert and remove, all total preorders", "why_tests_cant": "Each rotation during a round changes the pointers the loop follows; tests iterate over trees that do not change.", "anchors": ["src/libzt/zt_tree.h: zt_rbt_for_each, zt_rbt_for_each_safe", "src/libzt/zt_tree.c: zt_rbt_next, zt_rbt_insert, zt_rbt_remove, zt_rbt_minmax"]}
{"id": "C137", "title": "Changing a list while it is iterated over", "statement": "The body of zt_elist_for_each and zt_elist_for_each_safe may insert nodes at either end and next to any member, remove nodes, move them to other lists and join lists: as long as it does not remove the visited node (zt_elist_for_each) or the node that was next when its round began (zt_elist_for_each_safe), nor empty the list or give it away, the elements that stay are visited exactly once, in their order, nothing else than elements and inserted nodes is visited, all lists are afterwards what the operations make of them one after the other, and the loop ends if insertions end. zt_elist_for_each goes on with what follows the visited node after the body, zt_elist_for_each_safe with what followed it before. Moving every node to the end of another list this way works. Moving the excluded node to another list makes the loop run forever.", "quantifier": "all lists, after every history, all bodies with states of their own performing any operations on any number of lists, all numbers of rounds", "why_tests_cant": "The loop follows pointers the body changes; tests iterate over lists that do not change or remove the current element.", "anchors": ["src/libzt/zt_list.h: zt_elist_for_each, zt_elist_for_each_safe, zt_elist_add, zt_elist_add_tail, zt_elist_remove, zt_elist_join"]}
{"id": "C138", "title": "Adding a buffer's own bytes to it", "statement": "zt_buf_add(b, p, n) where p points into the buffer's own contents (from zt_buf_get), zt_buf_iov_add with several such parts: if the bytes to add are at most zt_buf_unused_sz(b) and fit behind earlier partial removals, the contents become the old contents followed by copies of the parts as they were; otherwise the call is undefined (the parts are read after the block they lie in was reallocated). zt_buf_add_buf(b, b) never doubles the contents: it empties the buffer, or is undefined.", "quantifier": "all buffers after all allowed histories, all positions and lengths inside the contents, any number of parts", "why_tests_cant": "a test adds a few bytes to a fresh buffer, where 1024 bytes of room hide the reallocation; whether a reallocation moves the block depends on the allocator", "anchors": ["src/libzt/zt_buf.c: zt_buf_add, zt_buf_iov_add, zt_buf_add_buf, zt_buf_expand, zt_buf_drain"]}
{"id": "C139", "title": "Set operations whose result is one of their arguments", "statement": "zt_set_union(s, s, t) and zt_set_union(s, t, s) add to s the elements of t that zt_set_for_each(t) visits before the first one that is already in s, so the result is the union if the sets have nothing in common; zt_set_intersection(s, s, t) and zt_set_intersection(s, t, s) leave s unchanged and return 1 if there is a common element, else 0; zt_set_difference(s, s, t) leaves s unchanged and returns 1 if some element of s is not in t, else 0; zt_set_difference(s, t, s) turns s into the union and returns 0; with three times the same set nothing changes; zt_set_is_subset(s, s) and zt_set_is_equal(s, s) return true. No call is undefined.", "quantifier": "all sets, all elements up to pointer size, all match functions that are equivalences compatible with the hash", "why_tests_cant": "the outcome depends on the order in which the hash table is enumerated while it is being inserted into, hence on addresses", "anchors": ["src/libzt/zt_set.c: zt_set_union, zt_set_intersection, zt_set_difference, zt_set_is_subset, zt_set_is_equal", "src/libzt/zt_table.c: zt_table_for_each"]}
{"id": "C140", "title": "zt_base_decode works in place", "statement": "zt_base_decode whose output buffer lies in the same memory block as the text, at or before the beginning of the text, gives the same return value, the same *out_bytes and the same bytes as with a separate output buffer, for every definition, text (also malformed) and size, and changes no other byte of the block. In particular the text of any data can be decoded onto itself. An output that begins behind the beginning of the text can destroy characters not yet read.", "quantifier": "all definitions, texts, offsets and sizes; all data for the round trip", "why_tests_cant": "a test runs a few texts; whether a write can overtake a read depends on the ratio of bytes written to characters read at every point of every text, with ignored characters and padding anywhere", "anchors": ["src/libzt/zt_base.c: zt_base_decode, _decode64, _decode32, _decode16"]}
{"id": "C141", "title": "Hex conversion within one buffer", "statement": "zt_hex_to_binary whose output lies in the same block as the text, at or before its beginning, gives the same result and bytes as with a separate buffer, for every text and all lengths; hex text can be converted onto itself. zt_binary_to_hex within one block gives the same as with a separate buffer if the data begin at least (length - 1) bytes behind the output, for instance when they lie at the end of the room for the text. Two bytes converted onto themselves give a wrong text.", "quantifier": "all blocks, texts, data, offsets and lengths", "why_tests_cant": "the outcome depends on which of the bytes still to be read have been overwritten at each step, for every length and distance", "anchors": ["src/libzt/zt_cstr.c: zt_hex_to_binary, zt_binary_to_hex"]}
{"id": "C142", "title": "Time arithmetic with shared operands", "statement": "zt_add_time, zt_sub_time and zt_diff_time may be given the same structure as destination and as one or both arguments: the destination receives what it would with three different structures and no other structure changes. Any program of such calls on any number of variables that starts with normalized times leaves in every variable the normalized structure of its exact instant, as long as the exact instants stay within 2^61 seconds of zero; a running total is the exact sum.", "quantifier": "all sequences of calls, all ways of sharing operands, all normalized times within the bound", "why_tests_cant": "a test runs a few sums; wrong intermediate stores show only for particular ways of sharing operands together with carries and borrows", "anchors": ["src/libzt/zt_time.c: zt_add_time, zt_sub_time, zt_diff_time"]}
{"id": "C143", "title": "Strings copied and paths named within one block", "statement": "zt_cstr_copy to another place of the block that holds the string copies exactly the slice and changes nothing else when the bytes written do not overlap the bytes read, and is undefined otherwise. zt_cstr_basename and zt_cstr_dirname with a destination in the same block that touches neither the path nor its terminator give the name padded with zeros and leave the path alone. With a destination that covers the beginning of the path (such as the path's own buffer) the path is erased before it is read: zt_cstr_basename gives an empty name, whatever the path (or is undefined, when the destination is the path), and zt_cstr_dirname reads before the path.", "quantifier": "all blocks, strings, slices, offsets, sizes and suffixes", "why_tests_cant": "a test tries a few placements; the result depends on the distance of the two places and the lengths of every slice", "anchors": ["src/libzt/zt_cstr.c: zt_cstr_copy, zt_cstr_basename, zt_cstr_dirname"]}
{"id": "C144", "title": "Moving elements within an array", "statement": "zt_array_put and zt_array_elem_copy may be given pointers obtained by zt_array_get from the same array: any program of such moves, and of copies to and from temporaries of the caller, with indices in range and no element copied onto itself, does to the elements what the corresponding assignments of values do. Any sequence of exchanges therefore leaves a permutation of the elements. Copying an element onto itself is undefined.", "quantifier": "all arrays, element sizes, programs of moves and exchanges", "why_tests_cant": "a test exchanges a few elements; a wrong offset or length shows only for particular indices and element sizes, and an overlap may go unnoticed on one machine", "anchors": ["src/libzt/zt_array.c: zt_array_put, zt_array_get, zt_array_elem_copy"]}
{"id": "C145", "title": "Base-N encoding within one block", "statement": "zt_base_encode whose output lies in the same memory block as the data gives the same return value, *out_bytes and characters as with a separate buffer and changes nothing else, if the output begins so far before the data that the text does not reach the last group before it is read: (number of groups - 1) times (characters minus bytes of a group). In particular data that lie at the end of the room for their text can be encoded to its beginning. Data encoded onto themselves give a wrong text.", "quantifier": "all shipped definitions, data, offsets and sizes", "why_tests_cant": "whether a write overtakes a read depends on the length of the data and the distance; tests use separate buffers", "anchors": ["src/libzt/zt_base.c: zt_base_encode, _encode64, _encode32, _encode16"]}
{"id": "C146", "title": "Linked lists that share their ends", "statement": "Programs that use only zt_llist_cons, push, ppop, nthtail, reverse and assignment can treat lists as immutable values, however many pairs the lists share. zt_llist_nreverse and zt_llist_sort leave a list that shares an end with their argument finite and its own part intact, but from the first shared pair on it continues in the new order of the argument. zt_llist_pop leaves every list alone that does not contain the popped pair, and makes the position of that pair unreadable in the others. Freeing two lists that share an end reads freed memory, and merging a list with itself can give a list without an end.", "quantifier": "every program of these statements over any number of variables, every heap, every way two lists share an end, every comparison function", "why_tests_cant": "sharing arises from the history of a whole program; a test shows one arrangement and one order", "anchors": ["src/libzt/zt_llist.h: zt_llist_cons, zt_llist_push, zt_llist_ppop, zt_llist_nthtail, zt_llist_reverse, zt_llist_nreverse, zt_llist_sort, zt_llist_pop, zt_llist_free, zt_llist_nmerge"]}
{"id": "C147", "title": "Which keys a hash table gives to its callbacks", "statement": "Each call of zt_table_set, zt_table_get and zt_table_del calls the hash function once, with the key given, and the comparison function only with keys the table holds whose hash equals that of the given key: stored key first, newest first, each entry once, and not beyond the first one accepted (zt_table_set of a table that allows duplicates compares nothing). So a call makes at most as many comparisons as there are stored keys with the same hash, and one when no two keys of the program have the same hash; and after zt_table_del no call touches the deleted key again until it is set again, so that its memory can be reused.", "quantifier": "all histories of set, get and del, all callbacks, table sizes and flags with indices in range; the last two parts for lawful callbacks and tables without duplicates", "why_tests_cant": "a test with a counting callback sees the calls of one history; which entries share a bucket and a hash depends on everything stored before", "anchors": ["src/libzt/zt_table.c: zt_table_set, zt_table_get, zt_table_del"]}
{"id": "C148", "title": "Work of one collector call", "statement": "In any state of the collector, no call except a full collection hands more than marks_per_scan (zt_gc_init; at least one) objects to the client's mark_fn, and an incremental collection that is due and does not complete the cycle hands over exactly that many: the pause of a call does not grow with the heap. After any history that keeps the obligations of C33, one call (full collections included) never hands the same object to mark_fn twice, and every object it hands over is known before the call (the one it registers included) and not released by it; a full collection that starts between cycles calls mark_fn exactly once for every object left afterwards, and for no other.", "quantifier": "all collector states, settings, calls and legal histories", "why_tests_cant": "Tests scan small heaps with a few settings; a bound on each call and at-most-once scanning concern every heap, phase of a cycle and history.", "anchors": ["src/libzt/zt_gc.c: zt_gc_collect, zt_gc_register, zt_gc_unregister, zt_gc_enable, zt_gc_init"]}
{"id": "C149", "title": "Collection keeps up with allocation", "statement": "Whether garbage is ever released by allocation alone depends on the two settings of zt_gc_init. If marks_per_scan is greater than allocs_before_scan A (taken as at least 1), then from any state after legal calls with collection enabled and at most N objects known, a cycle is complete at some point before A*(N+A) more objects are registered, whatever references the client stores and marks in between. If no cycle is under way, every set of unprotected objects that no other object refers to is released before A*(A+2)*(N+A) more objects are registered, as long as the client takes up no reference to them again. If marks_per_scan is at most allocs_before_scan, then from the first root on (no allocations counted yet, an object protected or a cycle under way) no object is ever released however many are registered, and a cycle under way never ends: only a full collection helps.", "quantifier": "all settings, legal histories, and continuations by any number of registrations, stores and marks", "why_tests_cant": "Tests allocate a few objects with one pair of settings; starvation and the bound are statements about every continuation of every history.", "anchors": ["src/libzt/zt_gc.c: zt_gc_init, zt_gc_register, zt_gc_collect, zt_gc_mark"]}
{"id": "C150", "title": "One scan per object and cycle", "statement": "After any history of collector calls that keeps the obligations of C33: within one collection cycle, however many calls it takes and whatever the client registers, stores and marks between them, no object is handed to the mark_fn of the client twice, and when the cycle is complete the objects handed over are exactly those that are left (those registered meanwhile included).", "quantifier": "all legal histories, and all sequences of legal registrations, stores, marks and collections that belong to one cycle", "why_tests_cant": "Tests let a cycle finish in one or two calls; that no interleaving of mutator and collector scans an object again within the cycle concerns every sequence of calls.", "anchors": ["src/libzt/zt_gc.c: zt_gc_collect, zt_gc_register, zt_gc_mark"]}
