{"id": "C01", "title": "Map behaves as a finite map under every operation history", "statement": "With a comparator that is a total order (equality = cmp 0), after any sequence of cee_map_add / cee_map_add_e / cee_map_remove / cee_map_rename calls, every return value (old value on overwrite or removal, NULL on a fresh key or an absent key), every cee_map_find result and every cee_map_size result is the one given by an abstract finite map from key classes to values. NULL keys change nothing and return NULL.", "quantifier": "every total-order comparator, every finite sequence of operations with every key and value, every reachable map", "why_tests_cant": "The tree is rebalanced differently for each history; the number of shapes is exponential and a bug in one rotation shows only for some insertion/deletion orders.", "anchors": ["map.c: cee_map_add_e, cee_map_add, cee_map_find, cee_map_remove, cee_map_rename, cee_map_size", "musl-tsearch.c: musl_tsearch, musl_tfind, musl_tdelete, rot, __tsearch_balance"]}
{"id": "C02", "title": "Insertion order of map keys", "statement": "cee_map_insertion_ordered_keys lists every live key exactly once, ordered by the time at which the key was last added while absent: overwriting the value of a live key does not move it, removing and re-adding it moves it to the end.", "quantifier": "every total-order comparator and every finite history of map operations", "why_tests_cant": "Tests sample a few short histories; the claim relates the tree and a separate list for all interleavings of add, overwrite, remove and rename.", "anchors": ["map.c: cee_map_add_e, cee_map_ordered_key_delete, cee_map_insertion_ordered_keys"]}
{"id": "C03", "title": "Enumeration of a map is exact", "statement": "cee_map_keys and cee_map_values return every binding exactly once, in the same relative order, with length cee_map_size; cee_map_iterate calls the callback on exactly those bindings in that order, stops after the first non-zero return and returns that value (0 if none).", "quantifier": "every reachable map and every callback", "why_tests_cant": "Whether a node is visited depends on its stored height (h==1 means leaf); a wrong height anywhere in any reachable tree would drop subtrees.", "anchors": ["map.c: cee_map_keys, cee_map_values, cee_map_iterate", "musl-tsearch.c: walk"]}
{"id": "C04", "title": "The fixed path array of the search tree never overflows", "statement": "In every reachable tree with fewer than 2^64 nodes, insertion records at most MAXH=96 path pointers and deletion at most MAXH+1=97, so the stack arrays in musl_tsearch and musl_tdelete are never written out of bounds; stored heights equal real heights and sibling heights differ by at most one.", "quantifier": "every history of insertions and deletions with every comparator result sequence, every key searched", "why_tests_cant": "Needs trees of astronomically many nodes to hit the bound; only an invariant argument reaches it.", "anchors": ["musl-tsearch.c: MAXH, musl_tsearch, musl_tdelete, __tsearch_balance, rot"]}
{"id": "C05", "title": "Map merge and clone", "statement": "After cee_map_merge(dest, src, ctx, merge): src is unchanged; dest maps a key k to merge(old,new) if both had it (new if merge is NULL), to the value of whichever had it otherwise. cee_map_clone yields a map with the same bindings; the original is unchanged.", "quantifier": "every pair of distinct reachable maps over one comparator and every merge function", "why_tests_cant": "Quantifies over all pairs of trees and over functions.", "anchors": ["map.c: cee_map_merge, cee_map_clone, _add_kv"]}
{"id": "C06", "title": "Clone preserves the insertion order", "statement": "A clone is a copy: cee_map_insertion_ordered_keys of the clone equals that of the source.", "quantifier": "every reachable map", "why_tests_cant": "Depends on the tree shape, i.e. on the whole history. (The claim is false of the code: the clone is ordered by tree preorder.)", "anchors": ["map.c: cee_map_clone, cee_map_insertion_ordered_keys", "cee-json/snprint.c: push"]}
{"id": "C07", "title": "Set behaves as a finite set", "statement": "After any sequence of cee_set_add / cee_set_remove / cee_set_clear, cee_set_find returns the member equal to the key or NULL, cee_set_remove returns and removes it, cee_set_values lists each member exactly once, and (when no pointer that is already stored is added again) cee_set_size is the number of members. The first of two equal elements is kept.", "quantifier": "every total-order comparator and every finite history of set operations", "why_tests_cant": "All histories, all tree shapes.", "anchors": ["set.c: cee_set_add, cee_set_find, cee_set_remove, cee_set_clear, cee_set_size, cee_set_values, cee_set_empty"]}
{"id": "C08", "title": "Adding a member twice does not change a set", "statement": "cee_set_add of an element that is already in the set leaves cee_set_size unchanged.", "quantifier": "every reachable set and every member", "why_tests_cant": "Universal claim over histories. (False of the code when the very same pointer is added again.)", "anchors": ["set.c: cee_set_add"]}
{"id": "C09", "title": "Set union and clone", "statement": "cee_set_union_set returns a set whose members are exactly the members of both arguments up to cmp equality (elements of the first win) and cee_set_clone has exactly the members of its argument; size equals the number of classes.", "quantifier": "every pair of reachable sets with the same comparator", "why_tests_cant": "All pairs of trees.", "anchors": ["set.c: cee_set_union_set, cee_set_clone, cee_set_iterate"]}
{"id": "C10", "title": "List behaves as a growable array", "statement": "Any sequence of cee_list_append, cee_list_insert (0<=index<=size), cee_list_remove yields the same contents, size and return values as an abstract sequence; size<=capacity always; no access is outside the allocated array; capacity never shrinks. cee_list_remove with a negative or too large index (or NULL) returns false and changes nothing.", "quantifier": "every initial capacity (including 0), every history, every index", "why_tests_cant": "Reallocation happens at history-dependent points; off-by-one errors show only at particular capacity/size combinations.", "anchors": ["list.c: cee_list_mk_e, cee_list_append, cee_list_insert, cee_list_remove, cee_list_size, cee_list_capacity"]}
{"id": "C11", "title": "List iterate and merge", "statement": "cee_list_iterate on a non-empty list calls f on elements 0,1,2,... until the first non-zero result and returns that result (0 if none). cee_list_merge(dest,src) with distinct lists appends all elements of src in order and leaves src unchanged.", "quantifier": "every list, every callback", "why_tests_cant": "Quantifies over functions and unbounded lists.", "anchors": ["list.c: cee_list_iterate, cee_list_merge"]}
{"id": "C12", "title": "List merge terminates for every pair of lists", "statement": "cee_list_merge(dest, src) returns for all arguments.", "quantifier": "every pair of lists, including dest == src", "why_tests_cant": "Non-termination cannot be settled by running. (False of the code: merging a non-empty list with itself never terminates.)", "anchors": ["list.c: cee_list_merge"]}
{"id": "C13", "title": "Stack is a bounded LIFO", "statement": "For a stack of capacity n, any sequence of push/pop/top/size/empty/full behaves as an abstract LIFO of at most n elements: push on a full stack returns 0 and changes nothing, pop on an empty stack returns NULL, top(k) is the k-th element from the top or NULL.", "quantifier": "every capacity, every history", "why_tests_cant": "The top index wraps through the unsigned -1 for the empty stack; all histories must be covered.", "anchors": ["stack.c: cee_stack_mk_e, cee_stack_push, cee_stack_pop, cee_stack_top, cee_stack_size, cee_stack_empty, cee_stack_full"]}
{"id": "C14", "title": "Dict behaves as an insert-only map, first write wins", "statement": "After any sequence of cee_dict_add calls, cee_dict_find(k) returns the value of the first add with that key, NULL if there was none, across every internal resize.", "quantifier": "every sequence of keys and values, every initial size hint, every key (hash collisions included)", "why_tests_cant": "Collisions and resizes depend on the hash of the whole key set.", "anchors": ["dict.c: cee_dict_add, cee_dict_find, cee_dict_mk_e", "musl-hsearch.c: musl_hsearch_r, lookup, resize, keyhash"]}
{"id": "C15", "title": "Hash probing always terminates", "statement": "Every lookup and every insertion into the hash table terminates within the number of slots of the table, because the table always keeps an empty slot and the probe sequence visits every slot.", "quantifier": "every reachable table, every key", "why_tests_cant": "The absence of an infinite probe loop is a universal claim over all table contents.", "anchors": ["musl-hsearch.c: lookup, musl_hcreate_r, musl_hsearch_r, resize"]}
{"id": "C16", "title": "Deleting a state frees every block exactly once", "statement": "After any history of allocations, individual deletions and resizes under a state, cee_del(state) frees every block still alive exactly once, in reverse chain order, touches no freed block and terminates.", "quantifier": "every history of chain / de_chain / resize (malloc and realloc variants) operations", "why_tests_cant": "Double frees and leaks depend on the history of the intrusive list.", "anchors": ["cee-resize.h: chain, de_chain, resize", "state.c: trace (CEE_TRACE_DEL_FOLLOW), cee_state_mk"]}
{"id": "C17", "title": "The block chain can be walked forward from the state to its end", "statement": "At any time following trace_next from the state visits every live block exactly once and ends at NULL (this is what the collector's sweep relies on).", "quantifier": "every history of allocations, deletions and resizes", "why_tests_cant": "Holds for most short histories. (False of the code: after a resize of a block that is not the newest one the chain is cyclic until the next allocation.)", "anchors": ["cee-resize.h: chain, resize", "state.c: cee_state_gc, sweep"]}
{"id": "C18", "title": "Garbage collection never frees a reachable object", "statement": "If the object graph reachable from roots, stack and contexts is acyclic and made of containers that mark their children, then after cee_state_gc every block reachable from the roots is still alive, and every block that was allocated before the previous collection and is unreachable has been freed.", "quantifier": "every heap graph, every history of collections", "why_tests_cant": "All graphs and all toggling histories of the mark value.", "anchors": ["state.c: cee_state_gc, trace, sweep", "list.c: trace (CEE_TRACE_MARK)", "map.c: trace (CEE_TRACE_MARK)", "set.c: trace (CEE_TRACE_MARK)", "tuple.c: trace (CEE_TRACE_MARK)"]}
{"id": "C19", "title": "Collector keeps the private parts of a live container alive", "statement": "If a map (or closure) is reachable from a gc root then after cee_state_gc it is still fully usable.", "quantifier": "every heap, every rooted container", "why_tests_cant": "(False of the code: marking a map does not mark its list of ordered keys; marking a closure marks neither itself nor its environment.) Universal over heaps.", "anchors": ["map.c: trace", "closure.c: trace", "state.c: cee_state_gc"]}
{"id": "C20", "title": "Collection terminates on every heap", "statement": "cee_state_gc terminates whatever the shape of the object graph.", "quantifier": "every heap graph including cyclic ones", "why_tests_cant": "(False of the code: the mark phase has no visited check and loops on a cycle.) Termination is not testable.", "anchors": ["state.c: cee_state_gc", "list.c: trace"]}
{"id": "C21", "title": "Reference counted deletion is exact on acyclic ownership", "statement": "If every block's count equals the number of live references to it and ownership is acyclic, then deleting a reference (cee_del_ref) frees exactly the blocks that become unreferenced, each once, never touches a freed block, and leaves the counts of all survivors equal to the number of remaining references.", "quantifier": "every acyclic heap graph with multi-edges, every block deleted", "why_tests_cant": "Quantifies over all graphs; a test sees a handful of shapes.", "anchors": ["cee-common.c: cee_del_ref, cee_del, cee_del_e, cee_incr_indegree, cee_decr_indegree", "list.c: trace (CEE_TRACE_DEL_FOLLOW)", "tuple.c: trace (CEE_TRACE_DEL_FOLLOW)", "tagged.c: trace (CEE_TRACE_DEL_FOLLOW)"]}
{"id": "C22", "title": "Reference counts never lose references", "statement": "An object inserted in n containers with policy CEE_DP_DEL_RC is freed only when the last one is deleted.", "quantifier": "every n", "why_tests_cant": "(False of the code for n = 65536: in_degree is a uint16_t and wraps to 0.) Needs tens of thousands of containers and undefined behaviour to observe.", "anchors": ["cee.h: struct cee_sect in_degree", "cee-common.c: _cee_common_incr_rc, cee_del_ref"]}
{"id": "C23", "title": "Retained objects survive reference counting", "statement": "While an object is owned through CEE_DP_DEL (retained), no sequence of cee_del_ref / incr / decr under CEE_DP_DEL_RC frees it; only its owner's deletion does.", "quantifier": "every sequence of reference operations", "why_tests_cant": "All sequences.", "anchors": ["cee-common.c: _cee_common_retain, _cee_common_release, cee_del_ref"]}
{"id": "C24", "title": "String append never writes outside its buffer", "statement": "cee_str_add and cee_str_catf return a NUL terminated string equal to the old contents followed by the added text, with every write inside the allocated block and capacity > length, for any sequence of appends.", "quantifier": "every initial string, every sequence of appended characters/strings, both resize methods", "why_tests_cant": "Boundary cases occur exactly when length meets capacity; histories are unbounded.", "anchors": ["str.c: cee_str_mkv, cee_str_add, cee_str_catf, cee_str_replace"]}
{"id": "C25", "title": "Trimming removes exactly the surrounding white space", "statement": "cee_str_rtrim removes all trailing and cee_str_ltrim all leading white space and nothing else.", "quantifier": "every string", "why_tests_cant": "(False of the code: an all-blank string keeps one blank under rtrim, ltrim leaves one leading blank.) All strings, including the all-blank boundary.", "anchors": ["str.c: cee_str_rtrim, cee_str_ltrim", "cee.h:226-236"]}
{"id": "C26", "title": "Replacement at an offset", "statement": "str_replace_at_offset(str, off, len, s) with off+len <= strlen(str) returns str[0,off) ++ s ++ str[off+len..) and writes only inside its allocation.", "quantifier": "every string, offset, length and replacement", "why_tests_cant": "Universal over four unbounded parameters.", "anchors": ["str.c: str_replace_at_offset"]}
{"id": "C27", "title": "Replace-all is textually correct and memory safe", "statement": "str_replace_all(str, old, new) returns str with every non-overlapping left-to-right occurrence of old replaced by new and never writes outside the allocated buffer.", "quantifier": "every str, every non-empty old, every new", "why_tests_cant": "(Memory safety is false of the code for some inputs: the allocation lacks room for the terminator.) The set of bad inputs is a sparse arithmetic condition on lengths.", "anchors": ["str.c: str_replace_all, str_replace_all_ext"]}
{"id": "C28", "title": "String views never read outside the viewed text", "statement": "trim, chop, index_of, chop_by_delim, starts_with, ends_with and the while-variants return a view (and leave a remainder) that together are exactly the original text in order; chop_by_delim splits at the first delimiter and drops it; to_u64 reads the maximal decimal prefix.", "quantifier": "every byte string, every delimiter and predicate", "why_tests_cant": "All texts, all predicates.", "anchors": ["strview.c: sv_trim_left, sv_trim_right, sv_chop_left, sv_chop_right, sv_index_of, sv_try_chop_by_delim, sv_chop_by_delim, sv_starts_with, sv_ends_with, sv_to_u64, sv_take_left_while"]}
{"id": "C29", "title": "Splitting by a string delimiter", "statement": "sv_chop_by_sv returns the text before the first occurrence of the delimiter and leaves the text after it.", "quantifier": "every text and every non-empty delimiter", "why_tests_cant": "(False of the code when the only occurrence is at the very end of the text, and undefined when the delimiter is longer than the text.)", "anchors": ["strview.c: sv_chop_by_sv"]}
{"id": "C30", "title": "UTF-8 encode / decode round trip", "statement": "Encoding any Unicode scalar value and decoding the bytes gives the same scalar value and consumes exactly those bytes; decoding accepts exactly the well-formed UTF-8 sequences (no overlong forms, no surrogates, nothing above U+10FFFF). With the html flag it accepts exactly those without the control characters, except tab, line feed and carriage return.", "quantifier": "every code point and every byte string", "why_tests_cant": "1.1 million code points and unbounded byte strings with arbitrary suffixes.", "anchors": ["cee-json/tokenizer.c: next, utf8_encode, utf8_validate, utf_valid"]}
{"id": "C31", "title": "JSON string escapes decode correctly and fit the buffer", "statement": "Decoding a JSON string literal never produces more bytes than it consumed, never accepts raw control characters, and decoding the printer's escaping of any valid text gives the text back.", "quantifier": "every byte string", "why_tests_cant": "Unbounded texts; buffer bound is a universal claim.", "anchors": ["cee-json/tokenizer.c: json_string_unescape, parse_string", "cee-json/snprint.c: str_append"]}
{"id": "C32", "title": "Printing fits the computed size", "statement": "For any JSON value the length returned by cee_json_snprint(buf=NULL) equals the number of bytes (without the terminator) that the second pass writes, so cee_json_asprint never writes outside the block it allocates (block slack holds the terminator).", "quantifier": "every JSON value, every depth, both formats (pretty up to 127 levels)", "why_tests_cant": "All trees of all depths.", "anchors": ["cee-json/snprint.c: cee_json_snprint, cee_json_asprint, delimiter, pad, str_append", "block.c: cee_block_mk_nonzero"]}
{"id": "C33", "title": "The explicit-stack printer prints the whole value", "statement": "For every JSON value whose nesting is below the stack bound, compact output equals the recursive definition of JSON text with keys in insertion order.", "quantifier": "every JSON value of nesting < 500", "why_tests_cant": "Loop with explicit stack against a recursive specification over all trees.", "anchors": ["cee-json/snprint.c: cee_json_snprint, push", "cee-json/snprint.c: cee_json_dprintf"]}
{"id": "C34", "title": "Printing never silently drops data", "statement": "For every JSON value that the parser accepts, the printed text is the complete document.", "quantifier": "every parsable document", "why_tests_cant": "(False of the code: at nesting 500..511 the parser accepts and the printer silently stops.) Needs the exact boundary of two unrelated constants.", "anchors": ["cee-json/snprint.c: cee_json_snprint", "cee-json/parser.c: cee_json_max_depth", "cee-json/snprint.c: cee_json_dprintf"]}
{"id": "C35", "title": "Parse after compact print is the identity", "statement": "For every JSON value made of objects, arrays, strings of valid UTF-8 without NUL, booleans, null and 64-bit integers with nesting < 500, parsing the compact text gives back an equal value and reaches end of input.", "quantifier": "every such value", "why_tests_cant": "All values; composition of printer, tokenizer and parser.", "anchors": ["cee-json/snprint.c: cee_json_snprint", "cee-json/parser.c: cee_json_parsex", "cee-json/tokenizer.c: cee_json_next_token"]}
{"id": "C36", "title": "Parser terminates and is bounded", "statement": "cee_json_parsex terminates on every NUL terminated input, consumes each byte at most once, never pops an empty stack or pushes on a full one, and its result is never deeper than the stack bound; deeper input is rejected with an error.", "quantifier": "every byte string", "why_tests_cant": "Termination and stack discipline over all inputs.", "anchors": ["cee-json/parser.c: cee_json_parsex", "cee-json/tokenizer.c: cee_json_next_token"]}
{"id": "C37", "title": "The parser accepts exactly the documented JSON grammar (plus trailing commas)", "statement": "On token level, cee_json_parsex succeeds exactly on the token sequences of the JSON grammar extended with an optional trailing comma in arrays and objects (nesting below the bound), and the value built is the one denoted by the grammar, the last of duplicate keys winning at the position of the first.", "quantifier": "every token sequence", "why_tests_cant": "State machine against grammar for all token sequences.", "anchors": ["cee-json/parser.c: cee_json_parsex"]}
{"id": "C38", "title": "Invalid JSON is rejected", "statement": "Text with a trailing comma (\"[1,]\") or a number with a leading zero (\"01.5\") is rejected with EINVAL.", "quantifier": "every text of these shapes", "why_tests_cant": "(False of the code.) Universal claim about a language.", "anchors": ["cee-json/parser.c: st_array_value_or_close_expected", "cee-json/tokenizer.c: parse_number"]}
{"id": "C39", "title": "Deep key search", "statement": "cee_json_has(j, key) returns non-NULL iff some object anywhere inside j has that key with a non-NULL value, and the returned value is the value of such a key.", "quantifier": "every JSON value and key", "why_tests_cant": "All trees.", "anchors": ["cee-json/value.c: cee_json_has"]}
{"id": "C40", "title": "JSON merge", "statement": "cee_json_merge(dest, src) for distinct trees returns true iff both are objects or both are arrays; objects are merged key-wise (recursively where both values are mergeable, otherwise src wins), arrays are concatenated.", "quantifier": "every pair of JSON values", "why_tests_cant": "All pairs of trees.", "anchors": ["cee-json/value.c: cee_json_merge"]}
{"id": "C41", "title": "JSON path selection", "statement": "cee_json_select with a path of keys and indices returns exactly the value found by following them, NULL if any step is missing, and never reads outside the path string.", "quantifier": "every JSON value and every well-formed path", "why_tests_cant": "All values and paths.", "anchors": ["cee-json/value.c: cee_json_select"]}
{"id": "C42", "title": "JSON array access is bounds-checked", "statement": "cee_json_array_get / cee_json_array_remove with any int index either address the element at that index or do nothing / return NULL.", "quantifier": "every array and every int", "why_tests_cant": "All indices including negatives.", "anchors": ["cee-json/value.c: cee_json_array_get, cee_json_array_remove"]}
{"id": "C43", "title": "Boxed primitives round-trip", "statement": "cee_boxed_from_T followed by cee_boxed_to_T returns the same value for each of the ten primitive types, and reading with another type is detected (segfault) and never returns a value.", "quantifier": "every value of every type", "why_tests_cant": "2^64 values per type.", "anchors": ["boxed.c: cee_boxed_from_*, cee_boxed_to_*"]}
{"id": "C44", "title": "Lexical environments", "statement": "cee_env_find returns the binding of the innermost environment that binds the key, NULL if none does.", "quantifier": "every chain of environments and every key", "why_tests_cant": "All chain lengths.", "anchors": ["env.c: cee_env_find"]}
{"id": "C45", "title": "Text conversion to integer", "statement": "cee_json_object_convert_to_i64 replaces a decimal string value by the integer it denotes.", "quantifier": "every object, every key whose value is a decimal string", "why_tests_cant": "(False of the code: it tests the type of the object instead of the value, so no string is ever converted.)", "anchors": ["cee-json/value.c: cee_json_object_convert_to_i64"]}
{"id": "C46", "title": "Escaping into a caller buffer never overflows it", "statement": "cee_json_escape_string never writes outside dest[0..dest_size) and, when it succeeds, writes the JSON escape of the input.", "quantifier": "every input string and every destination size", "why_tests_cant": "All sizes; off-by-n errors show only near the boundary.", "anchors": ["cee-json/value.c: cee_json_escape_string"]}
{"id": "C47", "title": "SQL binding precedence", "statement": "For each named variable present in a statement the value bound is the caller's data if it has one, otherwise the info's own data, otherwise (for INSERT on a not-null column) the type's default, otherwise nothing; each variable is bound at most once.", "quantifier": "every table of bindings and every statement", "why_tests_cant": "All combinations of flags and table lengths.", "anchors": ["sqlite3/cee-sqlite3.c: cee_sqlite3_bind_run_sql"]}
{"id": "C48", "title": "Linear search and intrusive queue primitives", "statement": "musl_lfind returns the first matching element or NULL; musl_lsearch appends exactly when absent; musl_insque/musl_remque keep a doubly linked list consistent (next/prev inverse) and only add/remove the given element.", "quantifier": "every array, every list, every position", "why_tests_cant": "All lists.", "anchors": ["musl-lsearch.c: musl_lsearch, musl_lfind", "musl-insque.c: musl_insque, musl_remque"]}
{"id": "C49", "title": "Tuples own what they store", "statement": "cee_tuple_mk, cee_triple_mk, cee_quadruple_mk and cee_n_tuple_mk store their arguments in order and take one reference of each according to its policy; deleting them drops exactly these references.", "quantifier": "every arity up to the supported bound, every policy vector, every argument", "why_tests_cant": "All policy vectors and aliasing patterns among arguments.", "anchors": ["tuple.c: cee_tuple_mk_e", "triple.c: cee_triple_mk_e", "quadruple.c: cee_quadruple_mk_e", "n_tuple.c: cee_n_tuple_v, cee_n_tuple_mk"]}
{"id": "C50", "title": "Database start-up decision logic", "statement": "cee_dbm_db_init applies the creation script iff the file is missing or recreation is requested, restores data only into a new database, and migrates only when the migration script of the current version exists; it reports whether the database is new.", "quantifier": "every combination of existing files, flags and versions", "why_tests_cant": "All combinations, including script effects on the version.", "anchors": ["sqlite3/cee_dbm.c: cee_dbm_db_init"]}
{"id": "C51", "title": "A set can be deleted", "statement": "cee_del on any set releases the set and, according to its policy, its members, without undefined behaviour.", "quantifier": "every reachable set, empty or not, every policy", "why_tests_cant": "Whether the NULL context handed to musl_tdestroy is dereferenced depends on the tree being non-empty; a test deleting an empty set (or letting the state delete it without following) passes.", "anchors": ["set.c: S(trace), S(free_pair_follow)", "musl-tsearch.c: musl_tdestroy"]}
{"id": "C52", "title": "Iterating over an empty list reports success", "statement": "cee_list_iterate on an empty list calls nothing and returns 0, as it does for a NULL list.", "quantifier": "every empty list, every callback", "why_tests_cant": "The returned variable is uninitialised; a run usually sees whatever the register held, often 0, so a test passes by luck.", "anchors": ["list.c: cee_list_iterate"]}
{"id": "C53", "title": "A failed hash insertion leaves the table unchanged", "statement": "When the enlarged entry array cannot be allocated, musl_hsearch_r(ENTER) reports failure and the table is exactly as before: every earlier key is still found with its value, and later insertions work; when it succeeds the key is found and no earlier binding is lost.", "quantifier": "every reachable table, every pattern of allocation failures, every key", "why_tests_cant": "Allocation failure at exactly the moment of a resize is practically never produced by a test.", "anchors": ["musl-hsearch.c: musl_hsearch_r, resize"]}
{"id": "C54", "title": "cee_str_mk_e allocates the requested size", "statement": "cee_str_mk_e(st, n, fmt, ...) returns a buffer of at least n bytes holding the formatted, NUL terminated text.", "quantifier": "every n, every format with its arguments", "why_tests_cant": "(False of the code: n is ignored when a format is given.) Writing beyond the 64 bytes really allocated usually goes unnoticed.", "anchors": ["str.c: cee_str_mk_e", "cee.h:173-192"]}
{"id": "C55", "title": "Multi-needle replacement is correct and memory safe", "statement": "str_replace_all_ext(str, len, &size, n, old1, new1, ...) returns the text with needles replaced left to right (the first matching pair wins at each place), its length in *size, and never writes outside its allocation.", "quantifier": "every text, every list of pairs", "why_tests_cant": "(False of the code for sparse combinations of lengths, and a division by zero when all replacements are empty.) The size estimate is rounded down, so the failing inputs are an arithmetic condition.", "anchors": ["str.c: str_replace_all_ext"]}
{"id": "C56", "title": "Accepted string literals denote well-formed text", "statement": "A string literal is accepted only if it denotes a sequence of Unicode scalar values (no lone surrogate, valid UTF-8), and the decoded cee_str holds all of it.", "quantifier": "every byte string", "why_tests_cant": "Needs the set of all accepted inputs, not samples.", "anchors": ["cee-json/tokenizer.c: json_string_unescape, parse_string"]}
{"id": "C57", "title": "cee_json_snprint respects the buffer size", "statement": "cee_json_snprint(buf, size) writes at most size bytes into buf, like snprintf.", "quantifier": "every JSON value and size", "why_tests_cant": "The overflow depends on the relation between value and size; a test with a large enough buffer never sees it.", "anchors": ["cee-json/snprint.c: cee_json_snprint"]}
{"id": "C58", "title": "Pretty printing works at every depth below the stack bound", "statement": "For every JSON value of nesting < 500 the pretty output is the indented text of the whole value.", "quantifier": "every JSON value of nesting < 500", "why_tests_cant": "Tests do not nest 128 deep.", "anchors": ["cee-json/snprint.c: struct counter (char tabs), pad"]}
{"id": "C59", "title": "Integers outside 64 bits are refused or kept", "statement": "A JSON integer that does not fit in int64 (or, for unsigned values, uint64) is either rejected or read back exactly.", "quantifier": "every integer literal", "why_tests_cant": "Needs literals of 20 digits; strtol reports overflow only in errno.", "anchors": ["cee-json/tokenizer.c: parse_number"]}
{"id": "C60", "title": "The parser reads only the given text", "statement": "cee_json_parsex(buf, len, ...) reads no byte outside buf[0..len), and cee_json_load_from_fileno no byte outside the loaded file.", "quantifier": "every text and length", "why_tests_cant": "The overread is invisible unless the byte behind the block is unmapped or happens to be a digit.", "anchors": ["cee-json/tokenizer.c: parse_number, parse_string, check", "cee-json/value.c: cee_json_load_from_fileno"]}
{"id": "C61", "title": "Save then load gives the value back", "statement": "For every value as in C35, cee_json_save_fileno followed by cee_json_load_from_fileno gives back an equal value.", "quantifier": "every such value, both formats", "why_tests_cant": "All values; composition of printer, file and parser.", "anchors": ["cee-json/value.c: cee_json_save_fileno, cee_json_load_from_fileno"]}
{"id": "C62", "title": "Merging leaves the sources alone", "statement": "After merging several sources into one destination each source still has the value it had.", "quantifier": "every sequence of merges of separate values", "why_tests_cant": "Needs a second merge that meets an object taken over by reference from the first source.", "anchors": ["cee-json/value.c: cee_json_merge, merge_json_value", "map.c: cee_map_merge"]}
{"id": "C63", "title": "An own key is preferred in deep search", "statement": "If an object itself has the key, cee_json_has returns the value of that own key.", "quantifier": "every object and key", "why_tests_cant": "Depends on the order in which the keys were inserted.", "anchors": ["cee-json/value.c: cee_json_has, match_key"]}
{"id": "C64", "title": "An array can be appended to itself", "statement": "cee_json_array_concat(a, a) and cee_json_merge(a, a) double the array.", "quantifier": "every array", "why_tests_cant": "The loop never ends; a test of it would hang.", "anchors": ["cee-json/value.c: cee_json_array_concat, cee_json_merge", "list.c: cee_list_merge"]}
{"id": "C65", "title": "Appending to an object key", "statement": "cee_json_object_append(j, key, v) makes the value of key an array of the old value (its elements if an array) followed by v (its elements if an array), or v itself if the key was absent.", "quantifier": "every object, key and value", "why_tests_cant": "All types of old and new values.", "anchors": ["cee-json/value.c: cee_json_object_append, cee_json_listify"]}
{"id": "C66", "title": "Field name from the arguments", "statement": "In a path of cee_json_select \".*\" stands for the key given as the next string argument.", "quantifier": "every value, path and name", "why_tests_cant": "The copy is made from an uninitialised buffer; what is found depends on the stack.", "anchors": ["cee-json/value.c: cee_json_select"]}
{"id": "C67", "title": "Path selection reads only the path", "statement": "cee_json_select never reads beyond the terminating NUL of the path.", "quantifier": "every value and every NUL-terminated path", "why_tests_cant": "A read of one byte too many goes unnoticed in nearly every test.", "anchors": ["cee-json/value.c: cee_json_select"]}
{"id": "C68", "title": "Number check in a path", "statement": "The check \":n\" at the end of a path accepts exactly the numbers.", "quantifier": "every JSON value", "why_tests_cant": "All kinds and values of numbers.", "anchors": ["cee-json/value.c: cee_json_select"]}
{"id": "C69", "title": "Numbers as int", "statement": "cee_json_to_intx and cee_json_select_as_int give the exact number or report an error.", "quantifier": "every value", "why_tests_cant": "2^64 numbers.", "anchors": ["cee-json/value.c: cee_json_to_intx, cee_json_select_as_int"]}
{"id": "C70", "title": "JSON array insertion is bounds-checked", "statement": "cee_json_array_insert with any int index inserts at that index or does nothing.", "quantifier": "every array and every int", "why_tests_cant": "All indices including negative ones and ones between size and capacity.", "anchors": ["cee-json/value.c: cee_json_array_insert", "list.c: cee_list_insert"]}
{"id": "C71", "title": "Printing boxed primitives", "statement": "cee_boxed_snprint returns the length of the decimal representation of a boxed integer (the text of the C library for floating point numbers) and writes exactly that text, cut to size-1 bytes, and a NUL.", "quantifier": "every value of every type, every buffer and size up to the length of the buffer", "why_tests_cant": "2^64 values times all sizes.", "anchors": ["boxed.c: cee_boxed_snprint"]}
{"id": "C72", "title": "Statements with missing values are not run", "statement": "A statement is only run if every one of its parameters was given a value; otherwise an error names the first parameter without one.", "quantifier": "every statement, table and data", "why_tests_cant": "All tables and statements.", "anchors": ["sqlite3/cee-sqlite3.c: cee_sqlite3_bind_run_sql"]}
{"id": "C73", "title": "Prepared statements are finalized", "statement": "A prepared statement that is not handed to the caller is finalized exactly once, after it was run.", "quantifier": "every statement, table and data", "why_tests_cant": "Paths through the function, with any table.", "anchors": ["sqlite3/cee-sqlite3.c: cee_sqlite3_bind_run_sql"]}
{"id": "C74", "title": "Kind of a statement", "statement": "A statement is a SELECT, INSERT, UPDATE or DELETE exactly if it begins with this word, in any case, after any white space.", "quantifier": "every text", "why_tests_cant": "Infinitely many texts.", "anchors": ["sqlite3/cee-sqlite3.c: get_stmt_type"]}
{"id": "C75", "title": "Values from a JSON object", "statement": "Reading a JSON object into the data of a table gives every row the value of its column (null, number, text), reports the keys without a row and the values of a wrong type, and the values are what is bound to the parameters.", "quantifier": "every table, object and earlier data", "why_tests_cant": "All tables and objects, sequences of objects with the same data.", "anchors": ["sqlite3/cee-sqlite3.c: populate_usage", "sqlite3/cee-sqlite3.c: cee_sqlite3_bind_data_from_json"]}
{"id": "C76", "title": "Table from a JSON object", "statement": "cee_json_to_bind_info gives a table with one row for each key that is not null, in the order of iteration.", "quantifier": "every object", "why_tests_cant": "All objects.", "anchors": ["sqlite3/cee-sqlite3.c: cee_json_to_bind_info", "sqlite3/cee-sqlite3.c: f"]}
{"id": "C77", "title": "Dynamic statements", "statement": "The dynamic UPDATE lists column=variable for exactly the rows whose column is in the object, that may be updated and that have a value, the dynamic INSERT the columns and variables of exactly the rows that have a value or must not be null; every variable listed has a value when the INSERT is run.", "quantifier": "every table, data and object", "why_tests_cant": "All tables and flags.", "anchors": ["sqlite3/cee-sqlite3.c: compose_dyn_stmts"]}
{"id": "C78", "title": "Insertion of JSON objects", "statement": "cee_sqlite3_insert_json_array makes for every object an INSERT of all its keys and binds each value that is not null to the variable of its key.", "quantifier": "every object of texts, integers and nulls", "why_tests_cant": "Objects with any number of keys.", "anchors": ["sqlite3/cee-sqlite3.c: collect_colums_values", "sqlite3/cee-sqlite3.c: insert_one_json_object"]}
{"id": "C79", "title": "$HOME in paths", "statement": "$HOME in a path of the settings is replaced by the home directory, the rest of the path is kept, and paths without it are left alone.", "quantifier": "every path of at most 127 bytes and home directory", "why_tests_cant": "All paths and lengths.", "anchors": ["sqlite3/cee_dbm.c: replace_home_env", "sqlite3/cee_dbm.c: cee_dbm_path_info_normalize"]}
{"id": "C80", "title": "Descriptions of settings", "statement": "The functions that describe settings write the whole description if it fits, and never write outside of the buffer.", "quantifier": "all settings, every buffer and size", "why_tests_cant": "All sizes and texts.", "anchors": ["sqlite3/cee_dbm.c: cee_dbm_path_info2str", "sqlite3/cee_dbm.c: cee_dbm_db_info2str", "sqlite3/cee_dbm.c: cee_dbm_path_info_snprint", "sqlite3/cee_dbm.c: cee_dbm_settings_snprint"]}
{"id": "C81", "title": "Backup", "statement": "A backup runs the dump script of the database into the file that start-up restores from, and returns true exactly if it succeeded.", "quantifier": "all paths, settings and databases", "why_tests_cant": "All paths; failing commands.", "anchors": ["sqlite3/cee_dbm.c: cee_dbm_db_backup"]}
{"id": "C82", "title": "Rows", "statement": "A row of a result becomes an object with exactly the columns that are returned, under their names, with their values; the flags of the table of columns are honoured.", "quantifier": "every table of columns and every row", "why_tests_cant": "Any number of columns, repeated names, texts with NUL bytes.", "anchors": ["sqlite3/cee-sqlite3.c: cee_sqlite3_select", "sqlite3/cee-sqlite3.c: dont_return_colum"]}
{"id": "C83", "title": "Selection", "statement": "A selection adds all rows of its result, in order, to the array in the status; failures are reported in the status and leave no statement behind.", "quantifier": "every database engine, statement, number of rows and status", "why_tests_cant": "Any number of rows; failing engines.", "anchors": ["sqlite3/cee-sqlite3.c: cee_sqlite3_select_iter", "sqlite3/cee-sqlite3.c: cee_sqlite3_select"]}
{"id": "C84", "title": "Selection of one row", "statement": "The selection of one row gives the first row, merged into the status; nothing if there is no row; an error if it failed.", "quantifier": "every database engine, statement and status", "why_tests_cant": "All results and statuses.", "anchors": ["sqlite3/cee-sqlite3.c: cee_sqlite3_select1"]}
{"id": "C85", "title": "Update or insertion", "statement": "Update-or-insert runs the update if the selection finds a row, the insertion if it finds none, and nothing else; the code and number of the row are those of what was run.", "quantifier": "every database engine, statements and status", "why_tests_cant": "All engines and orders of failures.", "anchors": ["sqlite3/cee-sqlite3.c: cee_sqlite3_update_or_insert"]}
{"id": "C86", "title": "Errors of statements are reported", "statement": "After an insertion, a deletion or an update the status has an error exactly if the statement was not run to its end.", "quantifier": "every database engine, statement and status", "why_tests_cant": "All engines and failures.", "anchors": ["sqlite3/cee-sqlite3.c: cee_sqlite3_insert", "sqlite3/cee-sqlite3.c: cee_sqlite3_delete", "sqlite3/cee-sqlite3.c: cee_sqlite3_update", "sqlite3/cee-sqlite3.c: cee_sqlite3_update_if_exists"]}
{"id": "C87", "title": "Operations with JSON", "statement": "An operation with an object stores the values of the object in the columns of their names, reports an error exactly if it failed, gives the id of a new row, and reports which keys were used, which have no column, and the statements it made.", "quantifier": "every database engine, table of columns and object", "why_tests_cant": "Any number of columns and keys; all statuses.", "anchors": ["sqlite3/cee-sqlite3.c: cee_sqlite3_generic_opcode", "sqlite3/cee-sqlite3.c: cee_sqlite3_insert_op", "sqlite3/cee-sqlite3.c: cee_sqlite3_select_op"]}
{"id": "C88", "title": "Results under a key", "statement": "The result of a selection is put under the given key of the status and nothing else in the status changes; failures are reported.", "quantifier": "every database engine, statement, key and status", "why_tests_cant": "All engines, results and statuses.", "anchors": ["sqlite3/cee-sqlite3.c: cee_sqlite3_select_as", "sqlite3/cee-sqlite3.c: cee_sqlite3_select1_as"]}
{"id": "C89", "title": "Next number", "statement": "The next number of a column is one more than its largest number.", "quantifier": "every database engine, column and clause", "why_tests_cant": "Numbers of all sizes, clauses of every length.", "anchors": ["sqlite3/cee-sqlite3.c: cee_sqlite3_next_int"]}
{"id": "C90", "title": "Joins", "statement": "Joining objects with a table selects, for each object, the rows for its own values, puts them into this object and changes nothing else.", "quantifier": "every database engine, array of objects, table of columns and statement", "why_tests_cant": "Arrays of every length; data of one object must not influence the next.", "anchors": ["sqlite3/join.c: join_one", "sqlite3/join.c: cee_sqlite3_json_array_join_table", "sqlite3/join.c: cee_sqlite3_json_object_join_table"]}
{"id": "C91", "title": "Formatted strings", "statement": "Making, extending and replacing a string with a format gives the text that the format and its arguments mean.", "quantifier": "every format of characters, %%, %s and %d, and all arguments", "why_tests_cant": "All formats and arguments; the undefined use of a used-up argument list may seem to work.", "anchors": ["str.c: cee_str_mkv", "str.c: cee_str_mk", "str.c: cee_str_mk_e", "str.c: cee_str_catf", "str.c: cee_str_replace"]}
{"id": "C92", "title": "The language of the JSON parser, byte by byte", "statement": "The texts the parser accepts, and the values it gives them, are exactly those of a grammar on bytes: documents of RFC 8259 with the deviations listed (a trailing comma, leading zeros before a fraction or an exponent, strings without escapes that are not UTF-8, a lone high surrogate at the end of a string, nesting at most 511); every RFC 8259 text with strings of Unicode text without NUL is among them.", "quantifier": "every text without NUL and whatever follows its NUL", "why_tests_cant": "The language is infinite; tests try single texts and cannot show that nothing else is accepted.", "anchors": ["cee-json/tokenizer.c: cee_json_next_token", "cee-json/tokenizer.c: parse_number", "cee-json/tokenizer.c: parse_string", "cee-json/tokenizer.c: check", "cee-json/parser.c: cee_json_parsex"]}
{"id": "C93", "title": "Ownership of environments and closures", "statement": "An environment owns its variables and its outer environment: deleting an environment frees exactly the chain of environments and variables it reaches, and nothing that something else still uses; a closure keeps its environment alive.", "quantifier": "every chain of environments of any length, every heap around it", "why_tests_cant": "Reference-count errors show only for particular sharings and orders of deletion.", "anchors": ["env.c: cee_env_mk", "env.c: S(trace)", "closure.c: cee_closure_mk", "closure.c: S(trace)"]}
{"id": "C94", "title": "The JSON interface refines plain lists and association lists", "statement": "Every program made of calls of the interface of value.c (making values, setting, getting, removing and renaming keys, appending, indexing and removing elements, length, kind and conversions), however it shares or nests values, gives the results that plain lists and association lists in memory give, and fails exactly where these say; setting a key changes exactly that key of that object.", "quantifier": "every sequence of fewer than 2^31 interface calls, with any sharing and any nesting (also cyclic)", "why_tests_cant": "The sequences and the ways values are shared are unboundedly many; one call may disturb another value through sharing or through the balanced tree.", "anchors": ["cee-json/value.c: cee_json_object_set", "cee-json/value.c: cee_json_object_get", "cee-json/value.c: cee_json_object_remove", "cee-json/value.c: cee_json_object_rename", "cee-json/value.c: cee_json_array_append", "cee-json/value.c: cee_json_array_get", "cee-json/value.c: cee_json_array_remove", "cee-json/value.c: cee_json_empty", "cee-json/value.c: cee_json_to_intx", "map.c: cee_map_add"]}
{"id": "C95", "title": "Booleans are recognised by address", "statement": "cee_json_to_boolx and the predicates on booleans, which compare the address with the two static values, give a boolean for exactly the values of boolean type, with the right truth value.", "quantifier": "every value in the heap after every program of interface calls", "why_tests_cant": "That no other node of boolean type ever comes into being is an invariant over all programs.", "anchors": ["cee-json/value.c: cee_json_to_boolx", "cee-json/value.c: cee_json_true", "cee-json/value.c: cee_json_false", "cee-json/value.c: cee_json_bool"]}
{"id": "C96", "title": "Merging JSON files", "statement": "cee_json_merge_all (merged, n, originals) leaves in the file merged a JSON text that loads to the objects of the given files merged one after the other into the first one, with the names of the files under the key originals, and returns 0; whenever an input cannot be read or parsed or the output cannot be written, it returns a nonzero number and leaves merged as it was.", "quantifier": "every number of files with any contents, every outcome of opening and writing", "why_tests_cant": "The claim composes parser, merging, map insertion, printer and parser again over unboundedly many files; failures of write are not produced by ordinary tests.", "anchors": ["cee-json/cee_json_merge.c: cee_json_merge_all", "cee-json/value.c: cee_json_merge", "cee-json/value.c: cee_json_load_from_fileno", "cee-json/value.c: cee_json_save"]}
{"id": "C97", "title": "mkdir_p makes the missing directories", "statement": "mkdir_p (path, mode) does what mkdir -p does: afterwards every directory of the path exists, nothing else has changed and 0 is returned; if that is not possible, a nonzero number is returned.", "quantifier": "every tree of directories and files, every path", "why_tests_cant": "Paths and trees are unbounded, and the recursion over dirname has special cases for slashes and dots.", "anchors": ["sqlite3/cee_dbm.c: mkdir_p_ext", "sqlite3/cee_dbm.c: mkdir_p"]}
{"id": "C98", "title": "Initializing a database is all or nothing", "statement": "cee_sqlite3_init_db runs the given statements in a transaction, if asked to, as a whole or not at all; it leaves the connection open for the caller in *db_p, closes it if db_p is NULL, and reports every failure.", "quantifier": "every script, every content of the database, every combination of failing calls", "why_tests_cant": "Failures of opening, beginning and committing do not occur in ordinary tests; the claim is about what is on disk after each.", "anchors": ["sqlite3/cee-sqlite3.c: cee_sqlite3_init_db"]}
{"id": "C99", "title": "Databases are found by their names", "statement": "cee_dbm_db_exist, cee_dbm_open_db and cee_dbm_attach_db ask for, open and attach the database with the given name in the configured directory, under the given alias.", "quantifier": "every directory, file name and alias", "why_tests_cant": "Names are cut silently at 127 or 255 bytes.", "anchors": ["sqlite3/cee_dbm.c: cee_dbm_db_exist", "sqlite3/cee_dbm.c: cee_dbm_open_db", "sqlite3/cee_dbm.c: cee_dbm_attach_db", "sqlite3/cee-sqlite3.c: cee_sqlite3_init"]}
{"id": "C100", "title": "Attaching and detaching name the right database", "statement": "The statement made by cee_sqlite3_attach_db names exactly the given file in the directory of the main database and the given alias; that of cee_sqlite3_detach_db the given alias.", "quantifier": "every file name, alias and main database", "why_tests_cant": "The statement is composed by text: quotes in names and main databases without a directory change its meaning.", "anchors": ["sqlite3/cee-sqlite3.c: cee_sqlite3_attach_db", "sqlite3/cee-sqlite3.c: cee_sqlite3_detach_db"]}
{"id": "C101", "title": "Variables of a database", "statement": "cee_sqlite3_get_pragma_variable gives the value of the variable, and failures can be told from values.", "quantifier": "every name and every state of the database", "why_tests_cant": "Failures of preparing are ignored, the result is an ordinary number.", "anchors": ["sqlite3/cee-sqlite3.c: cee_sqlite3_get_pragma_variable", "sqlite3/cee_dbm.c: get_user_version"]}
{"id": "C102", "title": "Maps count their keys and values", "statement": "A map holds a reference to each of its keys and values according to its policies: they stay in memory as long as the map holds them, and what is overwritten, removed or deleted with the map is freed with its last reference.", "quantifier": "every sequence of operations on maps, tuples and lists; every equality of keys", "why_tests_cant": "Counts go wrong only for particular sharing between maps and other containers, over unbounded sequences of operations.", "anchors": ["map.c: cee_map_mk_e", "map.c: cee_map_add_e", "map.c: cee_map_remove", "map.c: cee_map_rename", "map.c: cee_map_ordered_key_delete", "map.c: cee_map_merge", "map.c: cee_map_clone", "map.c: S(trace)"]}
{"id": "C103", "title": "Sets, dictionaries and stacks count what they hold", "statement": "A set, a dictionary or a stack holds a reference to each of its members according to its policy: they stay in memory as long as the container holds them, and what is removed, cleared or deleted with the container is freed with its last reference. The union and the clone of sets hold references of their own.", "quantifier": "every sequence of operations on sets, dictionaries, stacks, tuples and lists; every equality of members; every memory with correct counts", "why_tests_cant": "Counts go wrong only for particular sharing between containers, over unbounded sequences of operations.", "anchors": ["set.c: cee_set_add", "set.c: cee_set_clear", "set.c: cee_set_remove", "set.c: cee_set_values", "set.c: cee_set_union_set", "set.c: cee_set_clone", "set.c: S(trace)", "dict.c: cee_dict_add", "stack.c: cee_stack_push", "stack.c: cee_stack_pop"]}
{"id": "C104", "title": "Start-up makes the directories and records each step", "statement": "cee_dbm_db_init makes the missing directories of the database and records each of its steps in the log database: that the database is opened, created or made anew, and every script that is run, in order, with its name and that of the database. Nothing but the database, its directories and the log is changed. A start-up after one that was interrupted completes the initialization.", "quantifier": "every file system without links, every database and log content, every setting, every table of scripts (also failing ones)", "why_tests_cant": "The outcome depends on which directories, databases and scripts exist together; the log can be checked only on particular configurations.", "anchors": ["sqlite3/cee_dbm.c: cee_dbm_db_init", "sqlite3/cee_dbm.c: open_dbm_log", "sqlite3/cee_dbm.c: add_log", "sqlite3/cee_dbm.c: my_apply_script", "sqlite3/cee_dbm.c: get_user_version", "sqlite3/cee_dbm.c: mkdir_p"]}
{"id": "C105", "title": "JSON values count their parts", "statement": "Every program that makes JSON values, puts them into objects and arrays, replaces, renames, inserts, removes and concatenates them, takes and drops references, runs without undefined behaviour. At every moment what is in a JSON value that is in memory is in memory too, and the count of every block that is not static is the number of references to it. Dropping a reference frees exactly what loses its last reference, so that a document does not outlive its last reference, nor anything that only this document held or used to hold. The four static values are never freed.", "quantifier": "all programs over nineteen operations of the JSON interface, all addresses, all key equalities that are equivalence relations, any number of static blocks", "why_tests_cant": "Which counts go wrong depends on how values are shared between documents and on the order of operations; a leak or an early release shows only later, in another document.", "anchors": ["cee-json/value.c: cee_json_object_set", "cee-json/value.c: cee_json_object_rename", "cee-json/value.c: cee_json_object_remove", "cee-json/value.c: cee_json_array_append", "cee-json/value.c: cee_json_array_insert", "cee-json/value.c: cee_json_array_remove", "cee-json/value.c: cee_json_array_concat", "cee-json/value.c: cee_json_true", "tagged.c: cee_tagged_mk_e", "singleton.c", "map.c: cee_map_add"]}
{"id": "C106", "title": "Parsing a document in memory, and deleting it", "statement": "cee_json_parsex, over any source of tokens and on any memory whose counts are correct, builds the value that the tokens denote: reading back the memory from the pointer returned gives that value, every part is in memory, and the counts are again correct. Blocks that were in memory before are not changed or freed. When the tokens are those of a document, deleting the document frees all that was allocated, so that memory is as before. On all other input the answer is EINVAL, no freed block is used, and nothing is left in memory.", "quantifier": "all memories with correct counts, all allocators that give unused addresses, all token sources and all texts, all documents up to the nesting limit", "why_tests_cant": "The parser keeps pointers on its own stack which it does not count, while containers under construction are already linked; whether a block is freed too early or never depends on the document, on repeated keys, and on where the input goes wrong.", "anchors": ["cee-json/parser.c: cee_json_parsex", "cee-json/tokenizer.c: cee_json_next_token", "stack.c: cee_stack_push", "map.c: cee_map_add", "list.c: cee_list_append", "cee-json/value.c: cee_json_null"]}
{"id": "C107", "title": "Counting references and collecting garbage", "statement": "A program may mix reference counting and garbage collection: make containers, add and remove elements, take and drop references, add and remove roots, and collect. A collection frees exactly the blocks that no root reaches. After it, the count of every block left is the number of references to it, no block left holds a freed one, and dropping the last reference of a block frees it. No freed block is ever used.", "quantifier": "all programs over the operations of C21, roots and collections, all addresses, all shapes of memory without cycles, any number of collections", "why_tests_cant": "Whether a collection leaves a count or a pointer behind depends on what was shared between garbage and live blocks and on the parity of the collection; the damage shows when the survivor is dropped, perhaps much later.", "anchors": ["state.c: cee_state_gc", "state.c: S(sweep)", "state.c: cee_state_add_gc_root", "state.c: cee_state_remove_gc_root", "cee-common.c: cee_del_ref", "list.c: S(trace)", "tuple.c: S(trace)"]}
{"id": "C108", "title": "Documents that are cut off", "statement": "A document of which only a part was written or read is never taken for another document. Of the text of an array or object every beginning that lacks the closing bracket is refused, and so is every text that goes on after the document with anything but white space. cee_json_save returns true exactly if the whole text is in the file; what is loaded after a save that failed is the value saved or nothing. A file that cannot be read is reported by a null pointer. The answer of the parser depends only on the bytes it reads.", "quantifier": "all texts that spell an array or object, all places to cut, all answers of write, fstat and read, both formats", "why_tests_cant": "Where a write stops depends on the system; whether the part left is accepted depends on the text at the cut, of which a test tries a few.", "anchors": ["cee-json/value.c: cee_json_save_fileno", "cee-json/value.c: cee_json_load_from_fileno", "cee-json/value.c: cee_json_load_from_file_path", "cee-json/value.c: cee_json_load_from_buffer", "cee-json/parser.c: cee_json_parsex", "cee-json/tokenizer.c: cee_json_next_token"]}
{"id": "C109", "title": "Merging documents in counted memory", "statement": "cee_json_merge puts the members of one object into another, following nested objects and arrays, and cee_json_merge_or_return does so unless there is no destination. It returns true exactly for two objects or two arrays and changes nothing otherwise. The destination then has the keys of both, with the values of the source where both have a key; an array gets the elements of the source after its own. No block is freed, and afterwards the count of every block is the number of references to it.", "quantifier": "all memories in which counts are right, all values, depths and numbers of entries with counters that are wide enough, all equalities of keys", "why_tests_cant": "An extra or missing count shows only when the documents are deleted much later, as a leak or a use of freed memory; it depends on which keys coincide and on which values are shared.", "anchors": ["cee-json/value.c:211-260", "map.c:117-148", "map.c:310-330", "list.c:134-155", "tuple.c:71"]}
{"id": "C110", "title": "Values never become SQL", "statement": "Operations with a JSON object, the insertion of an array of objects and joins give SQLite only statements that do not depend on the values of the JSON: the text is fixed by the table, the keys that are columns and the types of the values, and the values reach SQLite only by bind calls. Inserting an array of objects gives every object to SQLite once, in order, with its values bound, and the number returned tells whether all of them were stored.", "quantifier": "all engines, tables, objects, arrays and states; every two databases that treat the statements in question in the same way", "why_tests_cant": "An injection needs a hostile value, and tests use friendly ones; that no value at all changes the text is a statement about all values. The ignored errors of an array need a statement that fails.", "anchors": ["sqlite3/cee-sqlite3.c:618-725", "sqlite3/cee-sqlite3.c:776-866", "sqlite3/cee-sqlite3.c:1102-1192", "sqlite3/join.c:11-94", "list.c:134-145"]}
{"id": "C111", "title": "Contexts of a state", "statement": "cee_state_add_context(s, key, val) keeps val under the text of key: until the key is added again or removed, cee_state_get_context(s, key) gives val for every string with this text, and val stays in memory whatever else the program lets go of; without such a context it gives NULL.", "quantifier": "all histories of making, linking and deleting blocks and of adding and removing contexts; all keys", "why_tests_cant": "A test uses a few keys that happen to be cee_str blocks or whose preceding bytes happen to be writable; counting a reference in the bytes in front of a literal often goes unnoticed.", "anchors": ["state.c:120-138", "state.c:101", "map.c:106-165"]}
{"id": "C112", "title": "The search tree in memory", "statement": "musl_tsearch, musl_tfind and musl_tdelete, working on nodes and pointers in memory, never read, write or free through NULL or through a pointer to a freed node, never write beyond their path arrays and always end. They answer as a set does, with one node in use per member; musl_tdestroy frees every node exactly once. A pointer to the node of a key stays valid while the key is a member, and musl_tdelete returns NULL exactly when the key is absent.", "quantifier": "all histories of calls, all total-order comparators, all allocators (failing or reusing freed addresses)", "why_tests_cant": "Whether a rotation stores the right pointer in the right order shows only in some shapes of the tree; a stale pointer usually still reads the old bytes; leaks and double frees of nodes show in no result.", "anchors": ["musl-tsearch.c:20-209", "map.c:57-71", "map.c:124", "map.c:184-190", "set.c:49-62", "set.c:114", "set.c:144", "set.c:181-192"]}
{"id": "C113", "title": "Private memory of lists, dictionaries, sets and maps", "statement": "Lists, dictionaries, sets and maps of a state keep their arrays, table headers, table entries and tree nodes in private blocks next to the blocks of the chain; a dictionary has two lists of its own in the chain, a map a list of its keys and a tuple for every binding. However arrays and tables grow and move and trees are rotated, every call returns what the list, the history of additions, the members or the bindings say, touches no freed or foreign block, and every private block in use belongs to exactly one live container. Deleting a container frees its private blocks, its lists and its tuples; deleting the state frees every block of the chain and every private block, each exactly once. Also when the table of a new dictionary cannot be allocated, the state can still be used and deleted.", "quantifier": "all histories of calls on any number of lists, dictionaries, sets, maps and plain blocks of a state; all allocators (reusing freed addresses, tested allocations failing at any time); all key texts; all comparison functions that are total preorders", "why_tests_cant": "Leaks, double frees and use of a moved array show in no result; which addresses are reused depends on the allocator, and failing allocations are not simulated by tests.", "anchors": ["list.c:26-119", "dict.c:28-108", "set.c:23-156", "map.c:31-200", "tuple.c:20-63", "musl-hsearch.c:24-158", "musl-tsearch.c:13-209", "cee-resize.h:5-34", "state.c:28-35", "str.c:29-42"]}
{"id": "C114", "title": "Laws of merging", "statement": "Merging documents in turn gives the same as merging the later ones first; merging the same document again changes nothing; documents without a common entry can be merged in any order; an empty object is neutral.", "quantifier": "all objects in memory, of together fewer than 2^31 nodes", "why_tests_cant": "All triples of documents; the failing ones need a value that changes its kind twice.", "anchors": ["cee-json/value.c: cee_json_merge", "cee-json/value.c: merge_json_value", "cee-json/cee_json_merge.c: cee_json_merge_all"]}
{"id": "C115", "title": "Number of comparisons", "statement": "Finding, adding, renaming and removing an entry of a map or a set of n entries calls the comparison function at most about 1.44 log2 n times, always with the given key and a key of the map; merging a map of m entries into one of n makes at most m times as many calls as a search in one of m + n.", "quantifier": "all sequences of operations, all comparison functions that order the keys, all sizes", "why_tests_cant": "A wrong balance is only seen as time, and only on large maps built in an unlucky order; a test looks at results.", "anchors": ["map.c: cee_map_add_e", "map.c: cee_map_find", "map.c: cee_map_remove", "map.c: cee_map_ordered_key_delete", "map.c: cee_map_rename", "map.c: cee_map_merge", "set.c: cee_set_add", "set.c: cee_set_find", "set.c: cee_set_remove", "musl-tsearch.c: musl_tsearch", "musl-tsearch.c: musl_tfind", "musl-tsearch.c: musl_tdelete"]}
{"id": "C116", "title": "Cost of growing", "statement": "The memory of a list, string or dictionary is in proportion to what it holds, and all the copying done while it grows is in proportion to what was added: at most two copied cells for each element added to a list, copies of a string and tables of a dictionary that are together smaller than the present one.", "quantifier": "all histories of operations, all initial sizes, for tables also all patterns of allocation failures", "why_tests_cant": "Growth by a constant instead of a factor gives the same results; that memory is never given back is only seen after a large content was removed.", "anchors": ["list.c: cee_list_append", "list.c: cee_list_insert", "list.c: cee_list_remove", "str.c: cee_str_add", "str.c: cee_str_catf", "str.c: cee_str_replace", "cee-resize.h: resize", "musl-hsearch.c: resize", "musl-hsearch.c: musl_hsearch_r", "dict.c: cee_dict_add"]}
{"id": "C117", "title": "Plain blocks", "statement": "A block of n bytes has n bytes that the client may write, reads back what was written (zeros where nothing was written, except for the nonzero constructors), answers n when asked for its size, and no write of the client changes its header; this holds also for the empty block, for blobs (a copy of the source) and for the bind data of database operations (one empty record per bind info).", "quantifier": "all sizes, all sequences of writes inside the block, all sources", "why_tests_cant": "Header and data lie in one allocation, so a wrong offset shows only for certain sizes; the sizes that overflow cannot be allocated in a test; the read in front of the static empty block gives some number on every platform.", "anchors": ["block.c: cee_block_mk", "block.c: cee_block_mk_nonzero", "block.c: cee_block_mk_e", "block.c: cee_block_size", "str.c: cee_block_empty", "cee-json/value.c: cee_json_blob_mk", "sqlite3/cee-sqlite3.c: new_cee_sqlite3_db_op"]}
{"id": "C118", "title": "Line of an error", "statement": "If a JSON text is refused, the line that is reported is the number of lines that end before the first place where the text cannot be continued to a document (the white space before a token counts as before it): what is before that place spells the beginning of a document, and with the token that follows no document begins.", "quantifier": "all texts up to 2^31 bytes without NUL, all depths of nesting, all refusals", "why_tests_cant": "Whether the parser sees an error at the first token that can be one, and not some tokens later, depends on every state of the parser and every token; tests take a few broken texts, most of them of one line.", "anchors": ["cee-json/tokenizer.c: cee_json_next_token", "cee-json/parser.c: cee_json_parsex"]}
{"id": "C119", "title": "Walks while memory changes", "statement": "From any state a program can reach, the walks over a tree that allocate and change other trees on the way meet every node as it was: the lists of keys, values and members hold each of them once (keys and values in one order, the ordered keys in order of insertion), a merge adds every binding of the source and changes nothing but the destination, a map merged into itself is as before, a clone has the same bindings or members, and a union has the members of the first set and those of the second that equal none of them, with its two lists deleted again. A call that does not end this way ends in cee_segfault because an allocation failed.", "quantifier": "all histories of calls on containers of one state, all allocators, all placements of blocks (an address just freed may be used at once), all sizes below 2^31, all comparison functions that are orders", "why_tests_cant": "The tree is read again after every action, which moves arrays, makes nodes and rebalances another tree; that no action reaches into the tree being walked depends on who owns which block after an arbitrary history, and tests see one allocator and a few histories.", "anchors": ["map.c: cee_map_keys, cee_map_values, cee_map_insertion_ordered_keys, cee_map_iterate, cee_map_merge, cee_map_clone", "set.c: cee_set_values, cee_set_union_set, cee_set_iterate, cee_set_clone", "musl-tsearch.c: walk, musl_twalk"]}
{"id": "C120", "title": "Callbacks that change other containers", "statement": "cee_map_iterate and cee_set_iterate meet every binding or member exactly once even if the callback changes memory: if the callback only looks things up, or makes calls that are not about the container being iterated (it may make, change and delete any other container), the iteration equals calling it on the bindings one after the other (for maps until it returns something else than 0, which is returned), a crash can only be one of the callback, and the container is as it was. No legal call changes a container it is not about, nor what belongs to that container. A map callback may also give keys of the map new values: every key is still met once, with the value it has at that moment. A callback that removes the member it is given is not safe: for no set of two members does the iteration visit both and end. Nor is one that adds members: for any set of two members, a callback that adds a greater member when given the smaller one and a smaller member when given the greater one is called with one of the two only.", "quantifier": "all histories of calls on containers of one state, all callbacks (any function of its own data and of memory) whose calls are legal, all data and invariants of the callback, all allocators and placements of blocks, all sizes below 2^31", "why_tests_cant": "The tree is read again after each callback, and the callback is arbitrary code; tests use a few callbacks, mostly ones that only read, on an allocator that rarely gives out an address again.", "anchors": ["map.c: cee_map_iterate, apply_each", "set.c: cee_set_iterate, apply_each", "musl-tsearch.c: walk, musl_twalk, musl_tdelete", "map.c: cee_map_add"]}
{"id": "C121", "title": "Keys changed in place", "statement": "Maps and sets compare what their keys point to, so changing the bytes of a key in place changes the comparison while the tree stays as it is. After any history all members of a set are still found, and all keys of a map still have their values, exactly if the order of the keys is the same as before; in that case every further history gives what it gives on the abstract container. A key that is removed first can be changed in any way and added again.", "quantifier": "all histories before and after the change, all pairs of comparison functions that are total orders (so all changes to any number of keys)", "why_tests_cant": "Which keys are lost depends on the shape of the tree; a test of one edit can find all keys by luck.", "anchors": ["map.c: S(cmp), cee_map_find, cee_map_remove, cee_map_add", "set.c: S(cmp), cee_set_find", "musl-tsearch.c: musl_tfind"]}
{"id": "C122", "title": "Strings that grow in counted memory", "statement": "Programs that build, share and delete reference-counted structures keep exact counts and touch nothing freed also if strings in them grow (cee_str_add, cee_str_catf, cee_str_replace), by either of the two methods of growing.", "quantifier": "all programs of the calls of C21 and growth of strings to any address, from every reachable memory", "why_tests_cant": "A copied count or a stale address shows only when containers are deleted later, and realloc often does not move the block at all.", "anchors": ["cee-resize.h: S(resize)", "str.c: cee_str_add, cee_str_catf, cee_str_replace", "cee-common.c: cee_del_e, cee_del_ref, cee_decr_indegree"]}
{"id": "C123", "title": "What is stored can be read again", "statement": "If JSON objects are inserted into a table one after the other and the table is selected, the selection gives the objects back in their order, each with its own values in the columns of the table.", "quantifier": "every database that keeps the rows of a table, every table of columns, every sequence of objects, whatever the table contained before", "why_tests_cant": "Any number of objects, columns and rows; the values travel through parsing, binding, the database and the conversion of rows.", "anchors": ["sqlite3/cee-sqlite3.c: cee_sqlite3_insert_op, cee_sqlite3_select, cee_sqlite3_bind_run_sql, get_a_row"]}
{"id": "C124", "title": "Selection of one row, or insertion", "statement": "If the selection finds rows, the first one is given to the caller and nothing is inserted. If it finds none, the insertion is run, and nothing else, and the number of the row is given. If the selection fails, nothing is inserted and the error is reported.", "quantifier": "every database engine, statements, status and result of the selection", "why_tests_cant": "All results of the selection and all statuses; whether a statement is run is a decision over both.", "anchors": ["sqlite3/cee-sqlite3.c: cee_sqlite3_select1_or_insert"]}
{"id": "C125", "title": "Reformatting", "statement": "Printing the value of a text that was read, and reading what is printed, gives the same value again; the compact text is not longer than the text that was read.", "quantifier": "every text the parser accepts, both formats, whatever follows in memory", "why_tests_cant": "All texts of the grammar with all escapes, repeated keys, trailing commas and clamped integers; the claim joins printer and parser.", "anchors": ["cee-json/parser.c: cee_json_parsex", "cee-json/snprint.c: cee_json_snprint, cee_json_asprint", "cee-json/tokenizer.c"]}
{"id": "C126", "title": "What is printed is JSON", "statement": "The printed text is a JSON text of RFC 8259, compact and pretty.", "quantifier": "every value the printer can be given, both formats", "why_tests_cant": "All values of all shapes; a text that is not JSON fails only in another program.", "anchors": ["cee-json/snprint.c: cee_json_snprint, cee_json_asprint, str_append"]}
{"id": "C127", "title": "Changing the policy of an element of a tuple", "statement": "The deletion policy of an element of a tuple can be changed at any time (cee_tuple_update_del_policy): afterwards the tuple treats the element as the new policy says, what others still hold stays in memory, and what loses its last reference is freed.", "quantifier": "every program that makes, fills, changes and deletes containers and tuples, every element, old and new policy", "why_tests_cant": "All histories and all sharing between containers; a wrong count shows only when the last or last but one reference goes.", "anchors": ["tuple.c: cee_tuple_update_del_policy", "cee-common.c: cee_incr_indegree, cee_decr_indegree, cee_del_e", "map.c: cee_map_remove"]}
{"id": "C128", "title": "Storing objects by a key", "statement": "If JSON objects are stored one after the other with update-or-insert, the table behaves like a map from keys to objects: a selection gives one object per key, in the order in which the keys came first, and every column has the newest value that was given for that key.", "quantifier": "every database that keeps rows and finds them by the value of one column, every table of columns, every sequence of objects with keys", "why_tests_cant": "Any number of objects, keys and repetitions; whether an operation updates or inserts depends on all operations before it.", "anchors": ["sqlite3/cee-sqlite3.c: cee_sqlite3_update_or_insert_op, cee_sqlite3_update_or_insert, cee_sqlite3_generic_opcode, cee_sqlite3_select"]}
{"id": "C129", "title": "A table changed by operations", "statement": "For every sequence of insertions, updates, updates of rows that may be missing, and updates or insertions with JSON objects, the table contains exactly the rows that the operations mean one after the other: an insertion adds a row, an update changes the given columns in the rows with its key and nothing else.", "quantifier": "every database that keeps rows and finds them by the value of one column, every table of columns, every sequence of operations with objects that have a key", "why_tests_cant": "Any number and order of operations; each one sees the result of all before it.", "anchors": ["sqlite3/cee-sqlite3.c: cee_sqlite3_insert_op, cee_sqlite3_update_op, cee_sqlite3_update_if_exists_op, cee_sqlite3_update_or_insert_op, cee_sqlite3_generic_opcode, cee_sqlite3_select"]}
{"id": "C130", "title": "A JSON text through the database", "statement": "If a text that is an array of objects is read, its objects are inserted into an empty table, the table is selected and the selection is printed, then the printed text is read as the same array.", "quantifier": "every database that keeps rows, every table of columns, every text the parser accepts as an array of objects, whatever follows the text in memory", "why_tests_cant": "Any number of objects and columns and every spelling of the text; the claim joins the parser, the insertion, the conversion of rows and the printer.", "anchors": ["cee-json/parser.c: cee_json_parsex", "cee-json/snprint.c: cee_json_asprint", "sqlite3/cee-sqlite3.c: cee_sqlite3_insert_op, cee_sqlite3_select, cee_sqlite3_bind_run_sql, get_a_row"]}
{"id": "C131", "title": "Printing leaves memory as it was", "statement": "Printing a JSON value frees every block that it allocates (the stack, the counters, the tuples, the lists of keys), changes no count and no block of the value, and gives the text of the value; `cee_json_asprint` adds exactly the block of the text.", "quantifier": "every JSON value in memory, every allocator that gives free addresses, every buffer, both formats", "why_tests_cant": "A leak or a count that is off by one changes no output; whether a block is freed depends on the shape of the value, its depth and who else counts its keys.", "anchors": ["cee-json/snprint.c: push, cee_json_snprint, cee_json_asprint", "map.c: cee_map_insertion_ordered_keys, cee_map_find", "cee-common.c: cee_del, cee_del_ref"]}
{"id": "C132", "title": "A document is read, printed and deleted", "statement": "When a document is parsed in memory, printed with `cee_json_asprint`, the text deleted and then the document deleted, the text is that of the value, no block of the parser or of the printer stays in memory, and all that was in memory before is as it was. The printed text can be read into memory again and gives the same value.", "quantifier": "all memories with correct counts, all allocators that give unused addresses, all token sources and texts, all documents, both formats", "why_tests_cant": "Parser and printer share the blocks of the document: the printer counts and uncounts its keys while the containers of the parser hold them. Whether the two leave memory clean together depends on the shape of the document; output shows nothing of it.", "anchors": ["cee-json/parser.c: cee_json_parsex", "cee-json/snprint.c: cee_json_snprint, cee_json_asprint", "cee-common.c: cee_del, cee_del_ref", "map.c: cee_map_add, cee_map_insertion_ordered_keys"]}
{"id": "C133", "title": "A document is saved to a file and loaded from it, in memory", "statement": "Saving a document with `cee_json_save_fileno` writes the text of its value and leaves no block behind and no count changed. Loading the file with `cee_json_load_from_fileno` gives a second document with the same value beside the first one; deleting each of the two frees exactly what was allocated for it.", "quantifier": "all memories with correct counts, all allocators that give unused addresses, all documents, both formats, all answers of `write`", "why_tests_cant": "Blocks that the printer forgets, or a count that it changes, do not show in the file; that the two documents do not share blocks that are then freed twice depends on their shapes.", "anchors": ["cee-json/value.c: cee_json_save_fileno, cee_json_load_from_fileno", "cee-json/snprint.c: cee_json_snprint", "cee-json/parser.c: cee_json_parsex"]}
{"id": "C134", "title": "Any number of documents can be read, printed and deleted", "statement": "A caller that reads texts one after the other, prints each document that it has read and deletes the text and the document, gets the text of the value for each document and no response for a text that is no document. However many texts there are, memory at the end holds exactly the blocks that it held at the start, unchanged.", "quantifier": "all memories with correct counts, all allocators that give unused addresses, all lists of texts of any length", "why_tests_cant": "A leak of one block for each request shows only after very many of them, and only for some kinds of texts; that nothing adds up is a statement about all lists of texts.", "anchors": ["cee-json/parser.c: cee_json_parsex", "cee-json/snprint.c: cee_json_asprint", "cee-common.c: cee_del"]}
{"id": "C135", "title": "Whatever texts come, the right answers are given and only bounded memory is lost", "statement": "A caller reads texts one after the other, prints each document that it has read and deletes the text and the document. For every text without NUL (below 2^31 bytes, not a document nested 499 to 511 deep) the response is the compact text of the value if the text is a document, with keys given twice or not, and there is none otherwise (documents nested deeper than 511 are taken as none). Nothing undefined happens, and what was in memory at the start is unchanged at the end. Blocks are lost only to texts that are no documents or have a key twice, at most 3 + 4 * N for each when texts are shorter than N bytes, and at least one, to which nothing refers, is lost to each text that is no document. Reading and deleting a document frees its root and loses at most 2 + 4 * N blocks, none if no key was given twice.", "quantifier": "all memories with correct counts, all allocators that give unused addresses, all lists of texts (all token sources for the deletion)", "why_tests_cant": "A server meets texts that no test contains, in orders that no test has; that no text, whatever it is, harms what was in memory before or loses more than a bounded number of blocks is a statement about all lists of all texts.", "anchors": ["cee-json/parser.c: cee_json_parsex", "cee-json/snprint.c: cee_json_asprint", "cee-common.c: cee_del", "map.c: cee_map_add"]}
{"id": "C136", "title": "Any number of documents can be held at the same time, without effect on one another", "statement": "A caller reads any texts without NUL (below 2^31 bytes) one after the other and keeps every document. At the end all documents are in memory at the same time, each with the value that its own text has, and there is none for a text that is no document. No two documents have the same root, except the static blocks for true, false and null, and no other root was in memory at the start. Printing all of them then (none nested 499 to 511 deep) gives each the compact text of its own value and leaves memory as it was. Any of them may then be deleted, in any order, each once: their roots are gone unless static, and every other document still has its value. If all texts are documents without keys given twice and all documents are deleted, exactly the blocks of the start are in memory. What was in memory at the start is unchanged throughout, and nothing undefined happens.", "quantifier": "all memories with correct counts, all allocators that give unused addresses, all lists of texts, all choices and orders of documents to delete", "why_tests_cant": "The number of documents, of texts and of orders in which documents may be deleted is unbounded; a block shared by mistake between two documents shows only for the particular pair that shares it and the particular order in which they are deleted.", "anchors": ["cee-json/parser.c: cee_json_parsex", "cee-json/snprint.c: cee_json_asprint", "cee-common.c: cee_del"]}
{"id": "C137", "title": "Documents can be read, printed and deleted in any order", "statement": "A caller reads texts without NUL (below 2^31 bytes, none nested 499 to 511 deep), prints documents (compactly, or in readable form if no text is nested more than 127 deep) and deletes documents (each at most once), in any order and as often as it likes. Each time a document is printed that has not been deleted, the result is the compact or the readable text of the value of its own text, whatever was read, printed or deleted in between; for a text that is no document nothing is printed. At the end each document that was not deleted still has its value, what was in memory at the start is unchanged, and nothing undefined has happened. If all texts are documents without a key given twice, and all documents have been deleted, in whatever order, then the blocks in memory are those of the start. For each text that is no document a block stays in memory for good, whatever is deleted: it was not there at the start, nothing refers to it, and it is none of the documents. And however many commands there are, the blocks in memory exceed those of the start by at most 3 + 4 * N for each text read, where N is greater than the lengths of all texts: printing adds none.", "quantifier": "all memories with correct counts, all allocators that give unused addresses, all sequences of commands, all texts", "why_tests_cant": "The sequences of commands are unbounded; a block that is freed too early, or never, or changed by printing another document, may show only after a particular sequence of reads, prints and deletions.", "anchors": ["cee-json/parser.c: cee_json_parsex", "cee-json/snprint.c: cee_json_asprint", "cee-common.c: cee_del"]}
{"id": "C138", "title": "Boxed values are totally ordered", "statement": "The comparison functions of the ten boxed types give the sign of the difference of two values of the type: the result in the other order is the opposite, being less is transitive, and the result is 0 exactly for equal values (for floating point numbers: the same bits, or two zeros).", "quantifier": "all pairs and triples of values of each type", "why_tests_cant": "There are 2^128 pairs of 64-bit values; the sign bit, the ends of the ranges, denormal numbers, infinities and NaN are single points in it.", "anchors": ["boxed.c: S(cmp_double), S(cmp_float)", "boxed.c: S(cmp_u64), S(cmp_u32), S(cmp_u16), S(cmp_u8)", "boxed.c: S(cmp_i64), S(cmp_i32), S(cmp_i16), S(cmp_i8)"]}
{"id": "C139", "title": "The end of a string", "statement": "cee_str_end gives the first NUL of the block of a string, and NULL if there is none. After any history of appends and replacements this is inside the block, and it is where the next text that is appended will be: the bytes before it stay, the text and a terminator follow, and the new end is after the text.", "quantifier": "all blocks; all histories of appends and replacements, all texts", "why_tests_cant": "A read behind a block that has no terminator shows only with particular contents of the memory behind it; the histories are unbounded.", "anchors": ["str.c: cee_str_end", "str.c: cee_str_catf"]}
