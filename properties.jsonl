{"id": "C01", "title": "vec behaves as a sequence", "statement": "Starting from an empty vec, after any history of push, pop, insert_n, erase_n, resize, reserve, shrink_to_fit, clear and clone calls, the elements read back with at/size are exactly those of the mathematical list obtained by the corresponding list edits, and no call reads or writes outside the allocated block or reads an uninitialised slot.", "quantifier": "all element types and values, all finite histories of calls with in-range indices, all outcomes (success/failure) of every allocation", "why_tests_cant": "growth, shifting and shrinking interact over unbounded histories; tests only sample a few histories and sizes", "anchors": ["include/stc/vec.h:_push,_reserve,_resize,_insert_uninit,_insert_n,_erase_n,_clear,_pop,_shrink_to_fit,_clone"]}
{"id": "C02", "title": "Failed allocation leaves vec unchanged", "statement": "If an allocation inside vec push, reserve, resize or insert_n fails, the call reports failure (NULL / false / null iterator) and the vec still holds exactly its previous elements with its previous capacity.", "quantifier": "all vec states reachable by any history, all calls, every allocation that may fail", "why_tests_cant": "malloc failures are practically never exercised by unit tests, and must be safe at every point of every history", "anchors": ["include/stc/vec.h:_push,_reserve,_resize,_insert_uninit"]}
{"id": "C03", "title": "Iterating a vec or stack visits each element once, in order", "statement": "Looping begin/next until the iterator's ref is NULL visits the elements at index 0,1,..,size-1, each exactly once, and the loop ends; in particular an empty container is visited zero times.", "quantifier": "all vec/stack states reachable by any history, including those that have become empty after holding elements", "why_tests_cant": "requires every reachable (data,size,capacity) combination; emptiness after growth is a corner tests miss", "anchors": ["include/stc/vec.h:_begin,_next", "include/stc/stack.h:_begin,_next", "include/stc/common.h:c_each"]}
{"id": "C04", "title": "Fixed-capacity stack never exceeds its buffer", "statement": "A stack declared with a fixed capacity N never writes outside its N slots; push returns NULL and changes nothing exactly when the stack already holds N elements; otherwise it behaves as a list.", "quantifier": "all N >= 0, all histories of push, pop, pull, clear", "why_tests_cant": "holds for all N and all histories", "anchors": ["include/stc/stack.h:_push,_reserve,_pop,_clear"]}
{"id": "C05", "title": "deque behaves as a double-ended sequence", "statement": "After any history of push_front, push_back, pop_front, pop_back, insert_n, erase_n, reserve, shrink_to_fit, clear and clone on a deque, at(i)/size read back exactly the mathematical list produced by the same edits, regardless of how the contents wrap inside the ring buffer; no access outside the buffer happens.", "quantifier": "all element types, all wrap positions, all histories with in-range indices, all allocation outcomes of the single-element pushes", "why_tests_cant": "wrap-around positions times sizes times growth steps is an unbounded space; a test sees only some rotations", "anchors": ["include/stc/priv/queue_prv.h:_reserve,_push,_pop,_pull,_shrink_to_fit,_clone,_size", "include/stc/deque.h:_push_front,_insert_uninit,_insert_n,_erase_n,_pop_back"]}
{"id": "C06", "title": "queue is FIFO", "statement": "Elements pulled from a queue come out in exactly the order they were pushed, with nothing lost or duplicated, under any interleaving of push and pull and any growth of the buffer.", "quantifier": "all interleavings of push/pull/pop of any length", "why_tests_cant": "unbounded interleavings and buffer rotations", "anchors": ["include/stc/priv/queue_prv.h:_push,_pull,_reserve"]}
{"id": "C07", "title": "deque iteration order", "statement": "Iterating a queue or deque with begin/next visits the elements in index order exactly once and terminates (an empty one zero times); rbegin/rnext visits them in the reverse order; advance(n) equals n calls of next.", "quantifier": "all reachable deque states, all rotations of the ring buffer", "why_tests_cant": "iterator arithmetic is modulo the buffer size, all rotations must be right", "anchors": ["include/stc/priv/queue_prv.h:_begin,_next,_rbegin,_rnext,_advance"]}
{"id": "C08", "title": "deque insert/erase through iterators", "statement": "deque erase_range(it1,it2) removes exactly the elements from it1 up to (not including) it2, where it2 may be the end iterator; insert_at(it,v) inserts v before it, where it may be the end iterator.", "quantifier": "all deque states, all valid iterator pairs including end()", "why_tests_cant": "the end iterator and the rotation of the buffer interact", "anchors": ["include/stc/deque.h:_erase_range,_insert_at,_erase_at", "include/stc/priv/queue_prv.h:_end"]}
{"id": "C09", "title": "Failed allocation leaves deque unchanged", "statement": "If an allocation fails in deque push, push_front, reserve or insert_n, the call reports failure and the deque still holds exactly its previous elements.", "quantifier": "all reachable deque states, every allocation failing", "why_tests_cant": "allocation failure at every point of every history", "anchors": ["include/stc/deque.h:_push_front,_insert_n,_insert_uninit", "include/stc/priv/queue_prv.h:_push,_reserve"]}
{"id": "C10", "title": "priority queue top is a maximum", "statement": "After any history of push, pop, and make_heap on arbitrary contents, top() is an element such that no stored element compares greater, and the stored multiset is exactly the pushed elements minus the popped ones.", "quantifier": "all strict weak orders, all element values including equal elements, all histories", "why_tests_cant": "heap shape correctness is an invariant over all histories and all comparison functions", "anchors": ["include/stc/pqueue.h:_push,_pop,_make_heap,_sift_down_,_erase_at"]}
{"id": "C11", "title": "priority queue drains in sorted order", "statement": "Repeatedly taking top() and pop() until empty yields a permutation of the contents sorted in non-increasing order.", "quantifier": "all contents and all strict weak orders", "why_tests_cant": "needs an inductive invariant over an unbounded number of pops", "anchors": ["include/stc/pqueue.h:_pop,_top,_erase_at"]}
{"id": "C12", "title": "pqueue erase_at keeps the heap order", "statement": "erase_at(i) removes exactly the element at position i and leaves a priority queue whose top is still a maximum after any further operations.", "quantifier": "all heaps, all positions i", "why_tests_cant": "fails only for particular shapes of the heap", "anchors": ["include/stc/pqueue.h:_erase_at"]}
{"id": "C13", "title": "sort returns a sorted permutation", "statement": "After sort on a vec, stack, deque or array, the container holds a permutation of its previous elements and no element compares less than its predecessor; all accesses are in range; this holds for every size (element types whose comparison value is a copy, not a pointer into the element).", "quantifier": "all arrays of any length, all strict weak orders", "why_tests_cant": "quicksort partition correctness on all inputs, with thresholds (64) that small tests never cross", "anchors": ["include/stc/priv/sort_prv.h:_sort_lowhigh,_insertsort_lowhigh"]}
{"id": "C14", "title": "sort_lowhigh touches only its range", "statement": "sort_lowhigh(lo,hi) leaves every element outside lo..hi where it was and sorts the elements in lo..hi.", "quantifier": "all arrays, all 0 <= lo <= hi < size", "why_tests_cant": "universally quantified over sub-ranges and contents", "anchors": ["include/stc/priv/sort_prv.h:_sort_lowhigh,_insertsort_lowhigh"]}
{"id": "C15", "title": "lower_bound finds the first not-less position", "statement": "On a sorted container, lower_bound(key) is the index of the first element that is not less than key, or c_NPOS if there is none.", "quantifier": "all sorted arrays, all keys, all strict weak orders", "why_tests_cant": "mixed 1/8-step and halving search must be right for every size and position", "anchors": ["include/stc/priv/sort_prv.h:_lower_bound_range,_lower_bound"]}
{"id": "C16", "title": "binary_search is exact", "statement": "On a sorted container, binary_search(key) returns an index of an element equivalent to key if one exists and c_NPOS otherwise.", "quantifier": "all sorted arrays and keys", "why_tests_cant": "all sizes and positions", "anchors": ["include/stc/priv/sort_prv.h:_binary_search_range"]}
{"id": "C17", "title": "list behaves as a sequence", "statement": "After any history of push_back, push_front, pop_front, insert_at, erase_at, splice, split_off, reverse and clear, iterating a list visits exactly the elements of the mathematical list produced by the same edits, and the nodes always form one cycle reached from the last node.", "quantifier": "all list states, all histories, all valid iterators", "why_tests_cant": "pointer-structure invariant over unbounded histories", "anchors": ["include/stc/list.h:_push_back,_push_front,_insert_after_node,_unlink_after_node,_insert_at,_erase_at,_splice,_split_off,_reverse"]}
{"id": "C18", "title": "list remove deletes exactly the matches", "statement": "remove(v) deletes every element equal to v, keeps the others in order, and returns the number deleted.", "quantifier": "all lists, all values, all placements of matches including first, last and all", "why_tests_cant": "boundary placements in a circular structure", "anchors": ["include/stc/list.h:_remove"]}
{"id": "C19", "title": "list sort returns a sorted permutation", "statement": "sort leaves the list a sorted permutation of its elements.", "quantifier": "all lists and strict weak orders", "why_tests_cant": "all inputs", "anchors": ["include/stc/list.h:_sort,_sort_with"]}
{"id": "C20", "title": "hash map behaves as a finite map", "statement": "After any history of insert, insert_or_assign, erase, reserve and shrink on an hmap, get(k) returns exactly the value last associated to k (insert keeps the first, insert_or_assign the last) and nothing for absent keys; size is the number of distinct present keys.", "quantifier": "all key types, all hash functions (including all-colliding), all histories within the probe-length limit", "why_tests_cant": "robin-hood displacement and backward-shift deletion depend on every hash pattern and wrap-around", "anchors": ["include/stc/hmap.h:_bucket_lookup_,_bucket_insert_,_insert_entry_,_reserve,_erase_entry,_insert,_insert_or_assign,_erase"]}
{"id": "C21", "title": "hash map works for any number of colliding keys", "statement": "The finite-map behaviour of hmap holds for every hash function, however many keys collide.", "quantifier": "all hash functions, all key sets of any size", "why_tests_cant": "needs more than a thousand colliding keys in the right pattern", "anchors": ["include/stc/hmap.h:_distmask,_bucket_lookup_,_bucket_insert_"]}
{"id": "C22", "title": "hash map iteration visits every entry once", "statement": "Iterating an hmap with begin/next visits every entry exactly once and terminates.", "quantifier": "all reachable map states", "why_tests_cant": "all bucket layouts", "anchors": ["include/stc/hmap.h:_begin,_next"]}
{"id": "C23", "title": "hash map erase while iterating", "statement": "A loop it = begin; while it.ref: either it = erase_at(it) or next(it) visits every entry that was present exactly once and erases exactly those selected.", "quantifier": "all reachable map states, all erase decisions", "why_tests_cant": "backward shift can move entries across the iteration point, depends on the layout", "anchors": ["include/stc/hmap.h:_erase_at,_erase_entry"]}
{"id": "C24", "title": "hash map rehash preserves contents", "statement": "reserve(n) and shrink_to_fit never change the set of entries, keep at least one empty bucket, and afterwards the load is below the maximum so that lookups terminate.", "quantifier": "all maps, all n", "why_tests_cant": "float load-factor rounding and power-of-two rounding over all sizes", "anchors": ["include/stc/hmap.h:_reserve,_shrink_to_fit,_max_load_factor", "include/stc/common.h:c_next_pow2"]}
{"id": "C25", "title": "sorted map behaves as a finite map", "statement": "After any history of insert, insert_or_assign and erase on an smap, get(k) returns exactly the associated value, size is the number of keys, and erase returns 1 exactly when the key was present.", "quantifier": "all key orders, all histories of any length", "why_tests_cant": "AA-tree rotations over all tree shapes", "anchors": ["include/stc/smap.h:_insert_entry_i_,_insert_entry_,_skew_,_split_,_erase_r_,_erase,_find_it"]}
{"id": "C26", "title": "sorted map iterates in key order", "statement": "Iterating an smap with begin/next visits every entry exactly once in strictly increasing key order.", "quantifier": "all reachable trees", "why_tests_cant": "explicit-stack traversal over all tree shapes", "anchors": ["include/stc/smap.h:_begin,_next,_advance"]}
{"id": "C27", "title": "sorted map stays balanced and its fixed stacks never overflow", "statement": "The height of the search tree of an smap with n entries is at most 2*log2(n+1), and the fixed-size path stacks used by insertion (64) and iteration (36) are never overrun for any n representable in the size field.", "quantifier": "all histories, all sizes", "why_tests_cant": "would need adversarial shapes of billions of nodes", "anchors": ["include/stc/smap.h:_insert_entry_i_,_begin,_find_it,_lower_bound"]}
{"id": "C28", "title": "sorted map lower_bound", "statement": "lower_bound(k) returns an iterator to the entry with the least key not less than k, and iterating from it visits exactly the entries with keys >= k in order.", "quantifier": "all trees and keys", "why_tests_cant": "all shapes", "anchors": ["include/stc/smap.h:_lower_bound"]}
{"id": "C29", "title": "Cloned sorted map is independent and equal", "statement": "clone of an smap holds the same entries, and every operation valid on the original is valid on the clone without touching memory outside the clone's node array.", "quantifier": "all reachable maps (including ones with a history of erasures), all later operations on the clone", "why_tests_cant": "depends on the history of erasures before the clone", "anchors": ["include/stc/smap.h:_clone,_clone_r_,_new_node_,_shrink_to_fit"]}
{"id": "C30", "title": "sorted map erase_range / erase_at", "statement": "erase_at(it) removes exactly the entry at it and returns an iterator to its in-order successor; erase_range(it1,it2) removes exactly the entries from it1 up to not including it2.", "quantifier": "all trees and iterators", "why_tests_cant": "all shapes and positions", "anchors": ["include/stc/smap.h:_erase_at,_erase_range"]}
{"id": "C31", "title": "cbits point operations", "statement": "set, reset, flip, set_value change exactly bit i; test(i) reads it; flip_all and set_all act on every bit.", "quantifier": "all sizes, all bit positions, all prior contents", "why_tests_cant": "word boundaries for all sizes", "anchors": ["include/stc/cbits.h:_set,_reset,_flip,_set_value,_test,_set_all,_flip_all"]}
{"id": "C32", "title": "cbits count", "statement": "count() equals the number of indices i < size with test(i) true, whatever operations produced the set.", "quantifier": "all sizes (multiple of 64 or not), all histories including flip_all and set_all that dirty the unused tail bits", "why_tests_cant": "tail-word garbage depends on the history", "anchors": ["include/stc/cbits.h:_cbits_count,_count"]}
{"id": "C33", "title": "cbits set algebra", "statement": "union, intersect and xor compute bitwise or, and, xor of the two sets; disjoint(a,b) is true iff no index is in both.", "quantifier": "all equal sizes, all contents including dirty tail bits", "why_tests_cant": "all word/tail combinations", "anchors": ["include/stc/cbits.h:_intersect,_union,_xor,_disjoint,_cbits_OPR"]}
{"id": "C34", "title": "cbits subset_of", "statement": "subset_of(self, other) is true iff every bit set in self is set in other.", "quantifier": "all sizes and contents", "why_tests_cant": "argument order matters only for asymmetric contents", "anchors": ["include/stc/cbits.h:_subset_of,_cbits_subset_of"]}
{"id": "C35", "title": "cbits resize", "statement": "resize(n, v) keeps bits below min(old size, n) and gives every new bit the value v.", "quantifier": "all old and new sizes, all contents", "why_tests_cant": "word boundary and stale tail bits", "anchors": ["include/stc/cbits.h:cbits_resize"]}
{"id": "C36", "title": "string behaves as a byte sequence across short/long representation", "statement": "After any history of assign, append, insert, erase, resize, reserve, shrink_to_fit, and clear on a cstr, its bytes are exactly those of the mathematical byte string, always followed by a NUL, and never does any call write outside the 24-byte object or the heap block.", "quantifier": "all byte strings of any length, all histories, both representations and all transitions between them", "why_tests_cant": "boundary at 22/23 bytes and mixed histories", "anchors": ["include/stc/priv/cstr_prv.h:cstr_getbuf,_cstr_set_size,cstr_s_set_size,cstr_l_set_size", "include/stc/priv/cstr_prv.c:cstr_reserve,cstr_resize,cstr_assign_n,cstr_append_n,cstr_erase,cstr_shrink_to_fit,_cstr_internal_move"]}
{"id": "C37", "title": "string self-aliasing", "statement": "append_n and assign_n give the documented result when the source bytes lie inside the destination string itself.", "quantifier": "all strings, all in-range sub-ranges of themselves", "why_tests_cant": "reallocation and overlap depend on capacity and offsets", "anchors": ["include/stc/priv/cstr_prv.c:cstr_append_n,cstr_assign_n"]}
{"id": "C38", "title": "string replace", "statement": "from_replace(in, search, repl, n) replaces the leftmost non-overlapping occurrences of search, at most n of them (all if n is 0).", "quantifier": "all inputs, patterns, replacements, counts", "why_tests_cant": "universal over strings", "anchors": ["include/stc/priv/cstr_prv.c:cstr_from_replace", "include/stc/common.h:c_strnstrn"]}
{"id": "C39", "title": "Substring search is exact", "statement": "find returns the index of the leftmost occurrence of the needle or NPOS when there is none; starts_with/ends_with/contains agree with their mathematical definitions.", "quantifier": "all haystacks and needles including empty", "why_tests_cant": "universal over strings", "anchors": ["include/stc/common.h:c_strnstrn", "include/stc/priv/cstr_prv.c:cstr_find_sv", "include/stc/csview.h:csview_find_sv,csview_starts_with,csview_ends_with"]}
{"id": "C40", "title": "case conversion stays inside its buffer", "statement": "tolower, toupper and casefold of a string never write more bytes than were allocated for the result.", "quantifier": "all byte strings", "why_tests_cant": "only particular (long, possibly invalid) inputs overflow", "anchors": ["include/stc/priv/cstr_prv.c:cstr_tocase_sv", "include/stc/priv/utf8_prv.c:utf8_tolower,utf8_toupper,utf8_casefold,utf8_decode_codepoint"]}
{"id": "C41", "title": "UTF-8 encode/decode round trip", "statement": "For every Unicode scalar value c, encode(c) produces the 1-4 byte UTF-8 form of c and decoding these bytes yields c again and reports the same length.", "quantifier": "all scalar values", "why_tests_cant": "over a million values; also as table-driven DFA", "anchors": ["include/stc/priv/utf8_prv.c:utf8_encode", "include/stc/priv/utf8_prv.h:utf8_decode,utf8_peek"]}
{"id": "C42", "title": "UTF-8 validation is exact", "statement": "utf8_valid_n accepts exactly the byte strings that are concatenations of UTF-8 encodings of non-zero scalar values (no overlong forms, no surrogates, nothing above U+10FFFF).", "quantifier": "all byte strings of any length", "why_tests_cant": "infinite input space", "anchors": ["include/stc/priv/utf8_prv.h:utf8_valid_n,utf8_decode", "include/stc/priv/utf8_prv.c:utf8_dtab"]}
{"id": "C43", "title": "UTF-8 counting and indexing", "statement": "On valid UTF-8, utf8_count is the number of code points, utf8_to_index(i) is the byte offset of the i-th code point, and subview(pos,len) is exactly the encoding of code points pos..pos+len-1.", "quantifier": "all valid strings, all positions", "why_tests_cant": "infinite input space", "anchors": ["include/stc/priv/utf8_prv.h:utf8_count,utf8_at,utf8_to_index,utf8_subview"]}
{"id": "C44", "title": "UTF-8 decoding of arbitrary bytes makes progress", "statement": "decode_codepoint on any non-empty byte range consumes at least one and at most the available bytes, so iterating over arbitrary bytes terminates.", "quantifier": "all byte strings", "why_tests_cant": "infinite input space including truncated and invalid sequences", "anchors": ["include/stc/priv/utf8_prv.c:utf8_decode_codepoint"]}
{"id": "C45", "title": "UTF-8 case-insensitive comparison is an order", "statement": "icmp is antisymmetric and transitive and is 0 exactly for strings equal after case folding, so it can be used as container comparator.", "quantifier": "all pairs/triples of valid strings", "why_tests_cant": "pairs and triples of arbitrary strings", "anchors": ["include/stc/priv/utf8_prv.c:utf8_icompare", "include/stc/csview.h:csview_icmp"]}
{"id": "C46", "title": "case-insensitive prefix test", "statement": "istarts_with(s, p) is true iff the case folded form of s begins with that of p.", "quantifier": "all strings", "why_tests_cant": "universal", "anchors": ["include/stc/csview.h:csview_istarts_with", "include/stc/zsview.h:zsview_istarts_with"]}
{"id": "C47", "title": "csview trim", "statement": "trim_start/trim_end/trim remove exactly the maximal run of leading/trailing white space and control characters (bytes 0..0x20) and nothing else.", "quantifier": "all byte strings including non-ASCII UTF-8", "why_tests_cant": "depends on char signedness and all byte values", "anchors": ["include/stc/csview.h:csview_trim_start,csview_trim_end,csview_trim"]}
{"id": "C48", "title": "token splitting is lossless", "statement": "Iterating c_token over an input with a non-empty separator yields tokens that contain no separator occurrence and whose join with the separator is the input; the number of tokens is one more than the number of separators removed.", "quantifier": "all inputs and non-empty separators", "why_tests_cant": "universal over strings", "anchors": ["include/stc/csview.h:csview_token,c_token_sv"]}
{"id": "C49", "title": "views never leave their base string", "statement": "subview, slice, tail and subview_pro return a view that lies within the given view for every argument satisfying the documented preconditions, with exactly the documented bytes.", "quantifier": "all views, all positions and lengths", "why_tests_cant": "integer corner cases", "anchors": ["include/stc/csview.h:csview_subview,csview_slice,csview_tail,csview_subview_pro"]}
{"id": "C50", "title": "cspan indexing is row-major and injective", "statement": "For a span made with cspan_md, at(i,j,..) addresses the row-major position; different in-range index tuples address different elements and every address lies inside the block.", "quantifier": "all ranks, all shapes, all in-range index tuples", "why_tests_cant": "all ranks and shapes", "anchors": ["include/stc/cspan.h:_cspan_shape2stride,_cspan_index"]}
{"id": "C51", "title": "cspan slicing and transposing address the same elements", "statement": "Slicing, transposing and swapping axes give spans whose element at every index is the element of the original span at the correspondingly mapped index.", "quantifier": "all ranks, shapes, strides and slice arguments", "why_tests_cant": "all ranks and slice argument combinations", "anchors": ["include/stc/cspan.h:_cspan_slice,_cspan_transpose,_cspan_swap_axes"]}
{"id": "C52", "title": "cspan iteration visits every element once in index order", "statement": "Iterating a span of non-zero extents visits exactly the elements at all index tuples in lexicographic order, also for sliced and transposed spans.", "quantifier": "all ranks, positive shapes and strides", "why_tests_cant": "odometer carry over all ranks", "anchors": ["include/stc/cspan.h:_cspan_next1,_cspan_next2"]}
{"id": "C53", "title": "uniform distribution stays in range", "statement": "crand64_uniform returns a value in [low, high] for every random stream, for every low <= high.", "quantifier": "all low <= high, all generator outputs", "why_tests_cant": "2^64 outputs times 2^127 ranges", "anchors": ["include/stc/random.h:crand64_make_uniform,crand64_uniform_r"]}
{"id": "C54", "title": "uniform distribution is unbiased", "statement": "Among the generator outputs accepted by crand64_uniform, every value of [low,high] is produced by exactly the same number of outputs, and a rejected output only causes a redraw.", "quantifier": "all range sizes, all values", "why_tests_cant": "requires counting over 2^64 outputs", "anchors": ["include/stc/random.h:crand64_uniform_r,crand64_make_uniform"]}
{"id": "C55", "title": "shuffle permutes", "statement": "c_shuffle leaves the container a permutation of its elements for every random stream.", "quantifier": "all arrays, all random streams", "why_tests_cant": "all streams", "anchors": ["include/stc/random.h:c_shuffle,c_shuffle_array"]}
{"id": "C56", "title": "generator state period", "statement": "For any odd stream the crand64 state does not repeat before 2^64 steps, and the state transition is injective.", "quantifier": "all states, all odd streams", "why_tests_cant": "2^64 steps cannot be run", "anchors": ["include/stc/random.h:crand64_uint_r"]}
{"id": "C57", "title": "shared pointer destroys its object exactly once", "statement": "With any number of threads cloning and dropping their own arc handles in any interleaving, the object is destroyed exactly once, only after the last handle is dropped, and never accessed after being freed.", "quantifier": "all numbers of threads, all interleavings of atomic steps, all programs that drop each handle once", "why_tests_cant": "schedules", "anchors": ["include/stc/arc.h:_clone,_drop,_assign,_move,_take"]}
{"id": "C58", "title": "box ownership", "statement": "Any history of make, clone, move, take, assign, release, reset and drop on boxes keeps every object owned by at most one box; each object is freed exactly once and never used after free.", "quantifier": "all histories", "why_tests_cant": "ownership is an invariant over histories", "anchors": ["include/stc/box.h:_assign,_take,_release,_reset_to,_drop,_clone"]}
{"id": "C59", "title": "coroutine cleanup runs exactly once", "statement": "A coroutine run to completion, stopped with cco_stop, or returned from early executes its cco_finally section exactly once, and further resumes after completion do nothing.", "quantifier": "all coroutine bodies (as sequences of suspension points), all stop/resume schedules", "why_tests_cant": "schedules and crash points", "anchors": ["include/stc/coroutine.h:cco_routine,cco_yield,cco_stop,cco_return,cco_finally"]}
{"id": "C60", "title": "fiber scheduler runs every fiber", "statement": "cco_run_fiber resumes every live spawned fiber again and again (no starvation), frees each fiber exactly once after it is done, and ends when no fiber is left.", "quantifier": "all numbers of fibers, all completion times, all spawn points", "why_tests_cant": "schedules", "anchors": ["include/stc/coroutine.h:cco_resume_next,cco_spawn,cco_run_fiber,cco_resume_current"]}
{"id": "C61", "title": "semaphore counts correctly", "statement": "Under any interleaving of coroutines using cco_await_semaphore and cco_release_semaphore the count never becomes negative, and the number of completed acquires never exceeds initial count plus releases.", "quantifier": "all interleavings", "why_tests_cant": "schedules", "anchors": ["include/stc/coroutine.h:cco_await_semaphore,cco_release_semaphore,cco_acquire_semaphore"]}
{"id": "C62", "title": "option parser permutes and terminates", "statement": "Repeated coption_get calls terminate with -1, only permute argv, keep the relative order of non-option arguments and leave them last.", "quantifier": "all argument vectors and option specifications", "why_tests_cant": "unbounded argument vectors", "anchors": ["include/stc/coption.h:coption_get,coption_permute_"]}
{"id": "C63", "title": "integer ranges match their arithmetic definition", "statement": "c_range(i,start,stop,step) and crange iterate exactly start, start+step, ... up to not including stop; nothing if the range is empty.", "quantifier": "all start, stop, step != 0", "why_tests_cant": "empty and negative-step corner cases for all integers", "anchors": ["include/stc/common.h:c_range_t_5", "include/stc/sys/crange.h:crange_begin,crange_next"]}
{"id": "C64", "title": "filter pipelines", "statement": "c_filter with c_flt_skip, c_flt_take, c_flt_skipwhile, c_flt_takewhile, c_flt_map yields the same elements as the functional list pipeline drop, take, dropWhile, takeWhile, map composed in order.", "quantifier": "all inputs, all pipelines of these stages", "why_tests_cant": "composition of stateful stages", "anchors": ["include/stc/sys/filter.h:c_flt_skip,c_flt_take,c_flt_skipwhile,c_flt_takewhile"]}
{"id": "C65", "title": "erase-remove keeps exactly the others", "statement": "c_eraseremove_if removes exactly the elements satisfying the predicate from a vec, stack or deque, keeping the order of the others; c_erase_if does the same for list and maps.", "quantifier": "all contents, all predicates", "why_tests_cant": "universal over contents", "anchors": ["include/stc/sys/utility.h:c_eraseremove_if,c_erase_if"]}
{"id": "C66", "title": "next power of two", "statement": "c_next_pow2(n) is the least power of two >= n.", "quantifier": "all 1 <= n <= 2^62", "why_tests_cant": "2^62 inputs", "anchors": ["include/stc/common.h:c_next_pow2"]}
{"id": "C67", "title": "equal strings hash equally", "statement": "Strings that compare equal produce the same hash whether held as cstr (short or long), csview, zsview or C string, so lookups by any of them find the same map entry.", "quantifier": "all strings, all representations", "why_tests_cant": "universal over strings and representations", "anchors": ["include/stc/common.h:c_basehash_n,c_hash_str", "include/stc/priv/cstr_prv.c:cstr_hash", "include/stc/csview.h:csview_hash"]}
{"id": "C68", "title": "regex matches are sound", "statement": "If cregex_match reports a match of a pattern built from literals, ., classes, groups, |, *, +, ? and anchors-free, then the reported span is a substring of the input that belongs to the language of the pattern.", "quantifier": "all patterns of that fragment, all inputs", "why_tests_cant": "infinite patterns times infinite inputs", "anchors": ["include/stc/priv/cregex_prv.c:_regexec1,_renewthread,_evaluntil,_operand,_operator"]}
{"id": "C69", "title": "regex matching is complete", "statement": "If some substring of the input belongs to the language of the pattern, cregex_match reports a leftmost-longest match (and never a match error).", "quantifier": "all patterns and inputs", "why_tests_cant": "infinite patterns times infinite inputs", "anchors": ["include/stc/priv/cregex_prv.c:_regexec1,_regexec,_regexec2"]}
{"id": "C70", "title": "regex replace terminates", "statement": "cregex_replace terminates for every pattern and input, replacing each successive match.", "quantifier": "all patterns, including those matching the empty string", "why_tests_cant": "empty matches at particular positions", "anchors": ["include/stc/priv/cregex_prv.c:cregex_replace_pro"]}
{"id": "C71", "title": "regex view matching stays inside the view", "statement": "cregex_match_sv never reports a match extending outside the given input view.", "quantifier": "all patterns, buffers and sub-views", "why_tests_cant": "depends on bytes after the view", "anchors": ["include/stc/priv/cregex_prv.c:_regexec1", "include/stc/cregex.h:cregex_match_sv"]}
{"id": "C72", "title": "ownership: every stored element is dropped exactly once", "statement": "For any history on a vec (push, pop, pull, insert_n, erase_n, resize, clear, take, drop) every element ever put in is either still stored, handed back to the caller, or has been passed to the element destructor exactly once.", "quantifier": "all histories", "why_tests_cant": "leak and double-free freedom is a history property", "anchors": ["include/stc/vec.h:_clear,_drop,_pop,_pull,_erase_n,_resize", "include/stc/deque.h:_erase_n"]}
{"id": "C73", "title": "sorting containers of strings", "statement": "Sorting a vec, stack or deque of cstr leaves it a sorted permutation, also when the strings are short enough to be stored inside the elements.", "quantifier": "all sequences of strings of any lengths", "why_tests_cant": "whether the pivot element is moved during partitioning depends on the whole contents", "anchors": ["include/stc/priv/sort_prv.h:_sort_lowhigh", "include/stc/priv/cstr_prv.h:cstr_toraw", "examples/mixed/demos.c:vectordemo2"]}
{"id": "C74", "title": "pqueue pull hands out a live element", "statement": "pull() removes the top element and transfers its ownership to the caller: the returned element has not been passed to the element destructor.", "quantifier": "all non-empty priority queues and element types with a destructor", "why_tests_cant": "ownership is a property of histories; plain element types hide it", "anchors": ["include/stc/pqueue.h:_pull,_erase_at"]}
{"id": "C75", "title": "pqueue survives allocation failure", "statement": "If an allocation inside pqueue push, clone or shrink_to_fit fails, the call reports failure and the queue is unchanged; nothing is written outside the block.", "quantifier": "all reachable queues, every allocation that may fail", "why_tests_cant": "allocation failures are practically never exercised by tests", "anchors": ["include/stc/pqueue.h:_push,_reserve,_shrink_to_fit,_clone"]}
{"id": "C76", "title": "cbits text form round-trips", "statement": "to_str(start, stop) writes exactly one '0' or '1' per bit of the requested part (clamped to the size), and from() applied to the text of a whole set rebuilds a set with the same bits.", "quantifier": "all sizes, all contents, all ranges", "why_tests_cant": "all sizes and word boundaries", "anchors": ["include/stc/cbits.h:_cbits_to_str,_from"]}
{"id": "C77", "title": "portable population count", "statement": "The population count used when no compiler builtin is available returns the number of one bits of its argument.", "quantifier": "all 2^64 arguments", "why_tests_cant": "2^64 inputs cannot be enumerated", "anchors": ["include/stc/cbits.h:c_popcount"]}
{"id": "C78", "title": "Case mapping of code points", "statement": "Lower-casing, upper-casing and case-folding a code point are idempotent, keep scalar values scalar and non-zero, agree with ASCII on letters below 128, do not change the folded form (U+0130 and U+0131 excepted), and lengthen the UTF-8 form by at most one half.", "quantifier": "every 32-bit code point, for all three mappings", "why_tests_cant": "The mapping is driven by tables with ranges, parities and index lists; tests sample a few letters, but any single bad table row breaks some code point only.", "anchors": ["include/stc/priv/utf8_prv.c:utf8_casefold", "include/stc/priv/utf8_prv.c:utf8_tolower", "include/stc/priv/utf8_prv.c:utf8_toupper", "include/stc/priv/ucd_prv.c:casemappings"]}
{"id": "C79", "title": "UTF-8 iteration", "statement": "Iterating a csview, zsview or cstr visits exactly its characters in order, none for the empty string, and reads nothing outside the string (and its terminator).", "quantifier": "every valid UTF-8 string, every memory context", "why_tests_cant": "Over-reads and the empty case depend on what follows in memory.", "anchors": ["include/stc/csview.h:csview_begin", "include/stc/csview.h:csview_next", "include/stc/zsview.h:zsview_next", "include/stc/priv/cstr_prv.h:cstr_next"]}
{"id": "C80", "title": "String order agrees with equality", "statement": "The three-way comparison of views and of NUL-terminated strings is the lexicographic order of unsigned bytes, hence total and transitive, and is zero exactly when eq is true.", "quantifier": "every pair (and triple) of strings", "why_tests_cant": "An order property quantifies over all triples; signedness of char and prefixes are corner cases.", "anchors": ["include/stc/csview.h:csview_cmp", "include/stc/csview.h:csview_eq", "include/stc/zsview.h:zsview_cmp", "include/stc/priv/cstr_prv.h:cstr_cmp"]}
{"id": "C81", "title": "Case-insensitive equality and suffix", "statement": "iequals is true exactly when the case-folded strings are equal; iends_with exactly when the folded argument is a suffix of the folded string.", "quantifier": "every pair of valid UTF-8 strings", "why_tests_cant": "Depends on code points whose folded form has another encoded length, and on bytes after a view.", "anchors": ["include/stc/csview.h:csview_iequals_sv", "include/stc/csview.h:csview_iends_with", "include/stc/zsview.h:zsview_iends_with", "include/stc/priv/cstr_prv.h:cstr_ieq"]}
{"id": "C82", "title": "Editing strings by code point position", "statement": "On a string holding UTF-8 text, erasing, replacing and inserting at code point positions change exactly the selected code points: the result is the encoding of the edited sequence of code points. Pushing a character appends it and popping removes exactly one whole character.", "quantifier": "all texts, all positions and lengths, all replacement texts", "why_tests_cant": "The byte offsets depend on every preceding character's encoded length; tests try a few ASCII strings.", "anchors": ["include/stc/priv/cstr_prv.h: cstr_u8_replace, cstr_u8_insert, cstr_push, cstr_pop", "include/stc/priv/cstr_prv.c: cstr_u8_erase"]}
{"id": "C83", "title": "Strings survive allocation failure", "statement": "When growing a string fails because the allocator returns NULL, the call reports failure and the string keeps its former contents.", "quantifier": "all strings and operations, all points at which the allocator fails", "why_tests_cant": "Tests do not inject allocation failures.", "anchors": ["include/stc/priv/cstr_prv.c: cstr_reserve, cstr_resize, cstr_assign_n, cstr_append_n"]}
{"id": "C84", "title": "Joining strings", "statement": "Joining items to a string appends them with the separator between consecutive items, and also before the first item exactly when the string was nonempty; for every number of items, including none and empty items.", "quantifier": "all strings, separators and lists of items", "why_tests_cant": "The number and sizes of items, and the buffer growth they cause, are unbounded.", "anchors": ["include/stc/priv/cstr_prv.h: cstr_join_n, cstr_join_sn"]}
{"id": "C85", "title": "Reading up to a delimiter", "statement": "Reading a line returns false and changes nothing at end of input; otherwise it returns true, stores exactly the bytes before the first delimiter (or to the end of input) and consumes exactly these and the delimiter, for lines of any length.", "quantifier": "all inputs, delimiters and prior contents of the string", "why_tests_cant": "Line lengths are unbounded and cross every growth boundary of the buffer.", "anchors": ["include/stc/priv/cstr_prv.c: cstr_getdelim"]}
{"id": "C86", "title": "hash map allocation failure", "statement": "When an allocation fails, reserve reports false and leaves the map as it was; an insertion that would have had to grow returns a NULL reference, leaves the map as it was and destroys exactly the arguments it had taken over.", "quantifier": "all maps, all keys and values, all requested capacities", "why_tests_cant": "Allocation failure happens at arbitrary points; tests use an allocator that does not fail.", "anchors": ["include/stc/hmap.h: _insert_entry_", "include/stc/hmap.h: _reserve", "include/stc/hmap.h: _insert"]}
{"id": "C87", "title": "hash map / set equality", "statement": "eq on two hash sets is true exactly when they have the same keys; on two hash maps exactly when they have the same keys with the same mapped values.", "quantifier": "all pairs of reachable maps, of any bucket counts and insertion orders", "why_tests_cant": "Tests compare a few maps; equality must be independent of history and bucket layout.", "anchors": ["include/stc/hmap.h: _eq"]}
{"id": "C88", "title": "hash map clone", "statement": "clone gives a map with the same entries that can be used like any other, or, if memory is short, an empty map.", "quantifier": "all reachable maps, all allocation outcomes", "why_tests_cant": "Tests do not fail allocations and only look at a few maps.", "anchors": ["include/stc/hmap.h: _clone"]}
{"id": "C89", "title": "hash map bulk insertion", "statement": "put_n and from_n insert the pairs from first to last; for a repeated key the last value wins.", "quantifier": "all pair lists, all maps", "why_tests_cant": "Tests use lists without repeated or colliding keys.", "anchors": ["include/stc/hmap.h: _put_n", "include/stc/hmap.h: _from_n"]}
{"id": "C90", "title": "sorted map allocation failure", "statement": "When an allocation fails, an insertion into an smap that would have had to grow returns a NULL reference and leaves the entries as they were; insertions that find the key or a free node do not depend on the allocator.", "quantifier": "all reachable maps, keys and values, all allocation outcomes", "why_tests_cant": "Tests use an allocator that does not fail.", "anchors": ["include/stc/smap.h: _insert_entry_i_", "include/stc/smap.h: _new_node_", "include/stc/smap.h: _reserve"]}
{"id": "C91", "title": "sorted map / set equality", "statement": "eq on two sorted sets is true exactly when they have equal keys; on two sorted maps exactly when they also have equal mapped values.", "quantifier": "all pairs of reachable maps, whatever their histories and tree shapes", "why_tests_cant": "Tests compare a few maps; equality must be independent of history and shape.", "anchors": ["include/stc/smap.h: _eq"]}
{"id": "C92", "title": "sorted map front and back", "statement": "front refers to the entry with the least key and back to the one with the greatest.", "quantifier": "all non-empty reachable maps", "why_tests_cant": "The ends depend on the rotations of the whole history.", "anchors": ["include/stc/smap.h: _front", "include/stc/smap.h: _back"]}
{"id": "C93", "title": "sorted map bulk insertion", "statement": "put_n and from_n put the pairs from first to last; for a repeated key the last value wins and other keys are unaffected.", "quantifier": "all pair lists, all maps", "why_tests_cant": "Tests use short lists without repeated keys.", "anchors": ["include/stc/smap.h: _put_n", "include/stc/smap.h: _from_n"]}
{"id": "C94", "title": "list find and equality", "statement": "find returns the position of the first element equal to the value (end if none), find_in does so within exactly the given range, and two lists compare equal exactly if they have the same length and equal elements in order.", "quantifier": "all list states and values", "why_tests_cant": "universal over contents and positions", "anchors": ["include/stc/list.h:_find,_find_in,_eq"]}
{"id": "C95", "title": "list iterators after edits", "statement": "The iterator returned by insert_at, erase_at and splice designates the new element, the element after the erased one, or the element spliced before, and can be used for further edits exactly like one obtained by walking there from begin; iterators to later elements can still be dereferenced and advanced after erase_at; erase_range on any range returns an iterator usable in the same way and accepts the empty range of an empty list.", "quantifier": "all list states, all positions", "why_tests_cant": "stale predecessor links only show in particular follow-up edits", "anchors": ["include/stc/list.h:_insert_at,_erase_at,_erase_range,_splice"]}
{"id": "C96", "title": "Filling a span writes exactly its elements", "statement": "cspan_set_all stores the value at the address of every element of the span and changes no other memory, for sliced and transposed spans too.", "quantifier": "all ranks, positive shapes, strides, memories and values", "why_tests_cant": "every combination of strides gives a different set of addresses; a test sees a few", "anchors": ["include/stc/cspan.h:cspan_set_all"]}
{"id": "C97", "title": "Span equality is elementwise", "statement": "Span_eq and Span_equals return true exactly when the two spans have the same shape and equal elements at every index tuple, whatever their strides.", "quantifier": "all pairs of spans of positive shape, all memories", "why_tests_cant": "independent strides of both spans, unbounded shapes", "anchors": ["include/stc/cspan.h:_eq"]}
{"id": "C98", "title": "Sub-spans address the elements of the whole span", "statement": "cspan_submd2/3/4 with fixed leading indices address at the remaining indices the element of the whole span; cspan_subspan(offset, count) equals the slice {offset, offset+count}.", "quantifier": "all spans, in-range leading indices; all offsets and counts", "why_tests_cant": "unbounded shapes and strides; out-of-range counts", "anchors": ["include/stc/cspan.h:cspan_submd3", "include/stc/cspan.h:cspan_subspan"]}
{"id": "C99", "title": "Span size, front and back", "statement": "cspan_size is the product of the extents, which is the number of index tuples; cspan_front and cspan_back are the first and the last element in index order.", "quantifier": "all ranks, shapes and strides", "why_tests_cant": "unbounded shapes and strides", "anchors": ["include/stc/cspan.h:_cspan_size", "include/stc/cspan.h:cspan_back"]}
{"id": "C100", "title": "Slice arguments outside the span are rejected", "statement": "A cspan_slice argument whose index or range is not inside the extent of its axis stops the program, so a slice never reaches outside the original span.", "quantifier": "all shapes and slice arguments", "why_tests_cant": "64-bit arguments, unsigned comparisons and narrowing conversions", "anchors": ["include/stc/cspan.h:_cspan_slice"]}
{"id": "C101", "title": "Layout tests tell the layout", "statement": "cspan_is_rowmajor / cspan_is_colmajor answer true exactly for spans that address their elements in row-major / column-major order.", "quantifier": "all spans with extents at least 2", "why_tests_cant": "unbounded shapes and strides", "anchors": ["include/stc/cspan.h:_cspan_is_layout"]}
{"id": "C102", "title": "Random reals lie in [0, 1)", "statement": "For every stream and every generator state, crand64_real and crand32_real return a number in [0, 1), advance the generator by exactly one step, and every representable result of crand64_real is produced by the same number (2^11) of generator words.", "quantifier": "every stream constant, every 256-bit (128-bit) state", "why_tests_cant": "There are 2^256 states; a test samples a few streams.", "anchors": ["include/stc/random.h: crand64_real_r, crand32_real_r"]}
{"id": "C103", "title": "searching and quantifiers", "statement": "c_find_if returns the first element satisfying the predicate, or NULL exactly if there is none; with an explicit end it searches exactly the part before it; c_all_of, c_any_of and c_none_of are the corresponding quantifiers over all elements.", "quantifier": "all containers with iterators, all contents, all predicates", "why_tests_cant": "universal over contents, predicates and container states", "anchors": ["include/stc/sys/utility.h:_c_find,c_all_of,c_any_of,c_none_of"]}
{"id": "C104", "title": "conditional append", "statement": "c_append and c_append_if append clones of exactly the elements satisfying the predicate to the output container, in order, after what was there.", "quantifier": "all source sequences, all predicates, all reachable output vectors", "why_tests_cant": "universal over contents", "anchors": ["include/stc/sys/utility.h:_c_append_if"]}
{"id": "C105", "title": "reversing in place", "statement": "c_reverse and c_reverse_array reverse the sequence, destroying and duplicating nothing.", "quantifier": "all contents of any length", "why_tests_cant": "universal over length parity and contents", "anchors": ["include/stc/sys/utility.h:c_reverse,c_reverse_array"]}
{"id": "C106", "title": "bounded iteration and zipping", "statement": "c_each_n visits exactly the first n elements (all if fewer); c_filter_zip sees the pairs of elements at the same position up to the end of the shorter sequence.", "quantifier": "all sequences, all n, all pipelines", "why_tests_cant": "universal over both lengths", "anchors": ["include/stc/common.h:c_each_n", "include/stc/sys/filter.h:_c_filter_zip"]}
{"id": "C107", "title": "Shared pointer use count is exact", "statement": "When no call is in progress, use_count of a shared pointer equals the number of handles to its object in all variables and in flight, for objects from make and from from_ptr alike; two handles share a counter exactly when they share the object; and every call finishes within six steps of its own thread whatever the other threads do.", "quantifier": "all histories and interleavings of any number of threads, any layout and allocator", "why_tests_cant": "a test observes a few schedules; an off-by-one in one interleaving needs the exact preemption point", "anchors": ["include/stc/arc.h: make, from_ptr, clone, assign, take, reset_to, move, drop, use_count"]}
{"id": "C108", "title": "Boxes behave like optional values", "statement": "After any history of box calls each box variable is empty, NULL or holds exactly the value a value-level reading of the calls gives it (assign and take hand over the value and destroy the old one, clone holds i_keyclone of it), and values are destroyed in that order.", "quantifier": "all histories of legal box calls on any number of variables, any allocator", "why_tests_cant": "histories are unbounded; aliasing cases such as self-assignment and NULL sources combine", "anchors": ["include/stc/box.h: make, from_ptr, drop, move, release, reset_to, take, assign, clone"]}
{"id": "C109", "title": "awaited tasks and error unwinding", "statement": "A task that awaits another with cco_await_task is not resumed before the awaited task has completed (returned a result with no bits but the await bits, or ended with an error), however often the fiber is resumed and whatever further tasks are awaited below; it is resumed next once that happens. An error passes up the chain of awaiting tasks, each being stopped and resumed once, innermost first, until one recovers from it, and ends the program if none does.", "quantifier": "all chains of tasks, results, await bits and error points", "why_tests_cant": "unbounded call depth and resume sequences", "anchors": ["include/stc/coroutine.h:cco_await_task,cco_resume_current,cco_throw_error,cco_recover_error"]}
{"id": "C110", "title": "semaphore gives mutual exclusion", "statement": "Where every coroutine releases a semaphore of initial count n only as often as it has acquired it, at most n acquisitions are held at any time, and a coroutine waiting for it proceeds when it is resumed while the count is positive.", "quantifier": "all numbers of coroutines, programs and schedules", "why_tests_cant": "schedules", "anchors": ["include/stc/coroutine.h:cco_await_semaphore,cco_release_semaphore"]}
{"id": "C111", "title": "option parser reports each option with its argument", "statement": "For a command line without ambiguous long options, the calls of coption_get report exactly the options that a left-to-right reading of the command line gives, in order: each letter of a group, long options by name or unique abbreviation, with the argument given with it or taken from the next element, '?' for unknown options and ':' for missing arguments; ind is then the index of the first operand.", "quantifier": "all command lines, short option strings and long option tables", "why_tests_cant": "groups, arguments and operands combine without bound", "anchors": ["include/stc/coption.h:coption_get"]}
{"id": "C112", "title": "regex compilation accepts exactly the grammar", "statement": "A pattern written with literal characters, escapes, \\Q..\\E, \\x{..}, classes, named classes, anchors, groups, |, *, + and ? is compiled if and only if it is well-formed (balanced groups, operands where operators need them), unless one of the compiler's fixed limits is exceeded; the number of capture groups reported is the number of its groups, and a well-formed pattern has exactly one reading.", "quantifier": "all patterns of that syntax, all flags", "why_tests_cant": "infinitely many patterns; precedence and grouping interact at any depth", "anchors": ["include/stc/priv/cregex_prv.c:_regcomp1,_lex,_operator,_operand,_evaluntil", "include/stc/cregex.h:cregex_compile,cregex_captures"]}
{"id": "C113", "title": "regex compilation is memory safe", "statement": "cregex_compile reads the pattern only up to its terminator and writes the program only inside its allocation, for every pattern, well-formed or not.", "quantifier": "all pattern texts", "why_tests_cant": "malformed patterns of any shape; the allocation is sized by a formula in the pattern length", "anchors": ["include/stc/priv/cregex_prv.c:_nextc,_bldcclass,_newinst,_regcomp1"]}
{"id": "C114", "title": "regex character classes contain what they list", "statement": "A class [...] matches exactly the characters of its items: single characters, escapes, ranges and named classes, in any order and overlapping; [^...] matches exactly the others, without the newline.", "quantifier": "all lists of items, all characters", "why_tests_cant": "overlaps, order and merging of arbitrarily many spans", "anchors": ["include/stc/priv/cregex_prv.c:_bldcclass,_lexasciiclass,_lexutfclass,_runematch"]}
{"id": "C115", "title": "regex full match reports whole lines only", "statement": "With CREG_FULLMATCH, success means that the pattern matches a whole line of the input, and it succeeds whenever the pattern matches the whole input.", "quantifier": "all patterns and inputs", "why_tests_cant": "infinite patterns times infinite inputs", "anchors": ["include/stc/priv/cregex_prv.c:_regexec1", "include/stc/cregex.h:cregex_match_pro"]}
{"id": "C116", "title": "regex replacement texts are expanded as written", "statement": "In the replacement of cregex_replace, $d and $dd; stand for the text of the group with that number (nothing if there is no such group), $$ for a dollar sign and every other character for itself; every replacement text has exactly one reading.", "quantifier": "all replacement texts, all groups and group contents", "why_tests_cant": "the replacement is an arbitrary text; two passes, one to measure and one to write, must agree on it", "anchors": ["include/stc/priv/cregex_prv.c:_build_substitution,cregex_replace_sv_pro"]}
{"id": "C117", "title": "iterating over regex matches visits disjoint matches in order", "statement": "for (c_match(it, &re, str)) visits successive leftmost-longest matches of the rest of the text behind the previous match; they are disjoint and in order, and the iteration ends.", "quantifier": "all patterns and texts", "why_tests_cant": "infinite patterns times infinite inputs; empty matches and errors end or derail the iteration", "anchors": ["include/stc/cregex.h:c_match,cregex_match_next"]}
{"id": "C118", "title": "regex patterns that fit always get an answer", "statement": "For a pattern whose repetitions are not nested in one another without a character, and whose number of alternatives (computed from the pattern alone) is below a fixed bound, matching any text from any position terminates, never reads or writes outside its thread lists or the text, and answers 'match' or 'no match', never 'match error', as long as allocation succeeds. Searching, replacing and iterating with such a pattern then have their specified results without further conditions on the run.", "quantifier": "all patterns satisfying the computed bound; all texts, start positions and flags", "why_tests_cant": "the thread lists have fixed sizes (10 and 100) and only some text of some length fills them; no finite set of texts shows that none does", "anchors": ["include/stc/cregex.h: cregex_match, cregex_replace, c_match", "include/stc/priv/cregex_prv.c: _regexec1, _regexec2, _renewthread, _renewemptythread"]}
{"id": "C119", "title": "searching for a literal text finds its first occurrence", "statement": "For a pattern of 1 to 96 ordinary characters, or any such text quoted by \\Q..\\E, cregex_match returns the first occurrence of exactly this text at or after the start position, and 'no match' exactly if there is none.", "quantifier": "all literals of at most 96 characters (code points), all terminated UTF-8 texts, all start positions", "why_tests_cant": "it depends on every overlap of the literal with itself and with the text; tests try a few", "anchors": ["include/stc/cregex.h: cregex_match", "include/stc/priv/cregex_prv.c: _regexec1"]}
{"id": "C120", "title": "Unicode character classes contain what their tables list", "statement": "utf8_isgroup, utf8_isalpha, utf8_isalnum, utf8_isword, utf8_isblank, utf8_isspace and utf8_iscased are defined for every 32-bit code point and say exactly whether it lies in one of the listed ranges of the scripts and categories involved (by the C locale below 128); alnum contains alpha, word contains alnum, space contains blank, and no word character is white space.", "quantifier": "all code points", "why_tests_cant": "a binary decision per code point over 23 tables of ranges; a misplaced range end or an early loop exit affects single characters", "anchors": ["include/stc/priv/ucd_prv.c:utf8_isgroup,utf8_isalpha,utf8_isalnum,utf8_isword,utf8_isblank,utf8_isspace,utf8_iscased"]}
{"id": "C121", "title": "matches of a repeated character class are the maximal runs", "statement": "For an operand that stands for one character (a literal, a class, \\d \\s \\w, \\p{..}, .) followed by +, the pattern compiles, c_match visits exactly the maximal runs of such characters in the text, in order, and ends; cregex_replace without limit replaces exactly these runs, each by the expanded replacement, and keeps (or strips) all other characters. In particular \\w+ visits the words by the library's Unicode tables, and replacing \\s+ by the empty text removes exactly the white space.", "quantifier": "all such operands, all terminated UTF-8 texts, all replacement texts, any allocation size of the pattern", "why_tests_cant": "every interplay of runs, multi-byte characters and resumption points; tests try a few texts", "anchors": ["include/stc/cregex.h: c_match, cregex_replace", "include/stc/priv/cregex_prv.c: _regexec1, _runematch, cregex_replace_sv_pro", "include/stc/priv/ucd_prv.c: utf8_isword, utf8_isspace"]}
{"id": "C122", "title": "formats mean what is documented", "statement": "For every format built from characters, {{, }}, %, {} and {:MODS} (alignment, printf flags, width, precision, length and conversion) whose fields take as many arguments as are given, fmt_print, fmt_println and fmt_printd call printf with a format that printf reads as meant: each literal character for itself, each field as one conversion with the flags, width and precision written, left-aligned for text unless > is given, with the default precision for floating-point arguments, and, without an explicit conversion, the conversion that C requires for the type of the argument.", "quantifier": "all such formats, all lists of 1 to 12 argument types (and none)", "why_tests_cant": "formats combine freely; tests print a few and look at the output", "anchors": ["include/c11/fmt.h: _fmt_parse, _fc, fmt_printd"]}
{"id": "C123", "title": "malformed formats and wrong argument counts are detected", "statement": "With assertions enabled, fmt_printd is stopped by its assertion exactly if its format is malformed (a lone brace, an unterminated field, a field not beginning with : or }) or its fields (each * counted) do not take exactly as many arguments as are given; every text is a format in at most one way.", "quantifier": "all terminated texts, all lists of at most 12 argument types", "why_tests_cant": "a statement about every malformed text", "anchors": ["include/c11/fmt.h: _fmt_parse, fmt_printd"]}
{"id": "C124", "title": "formatting stays inside its buffer", "statement": "For formats of up to 127 characters and up to 12 arguments, as documented, translating the format reads and writes only inside the format, the argument list and the format buffer.", "quantifier": "all terminated texts of at most 127 characters, all lists of at most 12 argument types", "why_tests_cant": "the length of the translation depends on the whole text; an overflow may go unnoticed in a test", "anchors": ["include/c11/fmt.h: _fmt_parse, FMT_MAX"]}
{"id": "C125", "title": "a string stream holds what was printed to it", "statement": "After any sequence of prints to a fmt_stream and changes of its overwrite flag, the stream holds, terminated, the concatenation of the texts printed, starting from the last one printed in overwrite mode, and len is its length.", "quantifier": "all sequences of texts and mode changes, failures of formatting and of memory", "why_tests_cant": "depends on every history of lengths and capacities", "anchors": ["include/c11/fmt.h: _fmt_sprint, fmt_stream"]}
{"id": "C126", "title": "searching strings for C strings", "statement": "find, find_at and contains of a cstr or zsview with a C string give the leftmost occurrence in the string (for find_at: not beginning before the position), and NPOS or false exactly if there is none, for every content and position.", "quantifier": "all string contents of any length, all search texts, all positions", "why_tests_cant": "overlaps of every text with every other; contents holding NUL and positions outside the string are rarely tried", "anchors": ["include/stc/priv/cstr_prv.h:cstr_find,cstr_contains", "include/stc/priv/cstr_prv.c:cstr_find_at", "include/stc/zsview.h:zsview_find,zsview_contains"]}
{"id": "C127", "title": "prefix, suffix and equality tests of strings", "statement": "starts_with, ends_with, contains and equals of a cstr or zsview, with a C string or a csview, are true exactly if the bytes of the argument are a prefix, a suffix, a part or all of the bytes of the string; no byte outside the two is relied upon.", "quantifier": "all string contents, with or without NUL, all arguments", "why_tests_cant": "all pairs of texts of all lengths", "anchors": ["include/stc/priv/cstr_prv.h:cstr_starts_with,cstr_starts_with_sv,cstr_ends_with_sv,cstr_contains_sv,cstr_equals,cstr_equals_sv", "include/stc/zsview.h:zsview_starts_with,zsview_equals"]}
{"id": "C128", "title": "moving an iterator by characters", "statement": "cstr_advance and zsview_advance of an iterator at character i by k characters, forwards or backwards, give the iterator at character i + k, the end iterator if that is at or past the end, and never read outside the string; utf8_peek_at gives the character there.", "quantifier": "all valid UTF-8 texts, all positions, all distances of either sign", "why_tests_cant": "unbounded distances in both directions over characters of one to four bytes", "anchors": ["include/stc/priv/cstr_prv.h:cstr_advance", "include/stc/zsview.h:zsview_advance", "include/stc/priv/utf8_prv.h:utf8_offset", "include/stc/priv/utf8_prv.c:utf8_peek_at"]}
{"id": "C129", "title": "parts of zero-terminated views", "statement": "zsview_from_pos and zsview_u8_from_pos give the rest of the view from a byte or character position, empty from the end on, and still zero-terminated; zsview_u8_at and cstr_u8_at give the character at a position; positions outside are rejected or clamped, never giving bytes outside the view.", "quantifier": "all contents and positions", "why_tests_cant": "unbounded positions and contents", "anchors": ["include/stc/zsview.h:zsview_from_pos,zsview_u8_from_pos,zsview_u8_at", "include/stc/priv/cstr_prv.h:cstr_u8_at"]}
{"id": "C130", "title": "scopes release what they acquire", "statement": "c_with acquires, runs its body if the condition holds and then releases; nested c_with and c_defer scopes of any depth release exactly the resources acquired, each once, in the opposite order, however the body is left, also if acquiring one of them fails.", "quantifier": "all user code, all nesting depths, all points where acquiring fails", "why_tests_cant": "any nesting depth and any way of leaving the body", "anchors": ["include/stc/common.h:c_defer,c_with"]}
{"id": "C131", "title": "matching of sum types", "statement": "c_when runs exactly the statement of the arm for the tag of the value (of the joined alternatives with c_or_is), once, or that of c_otherwise, or nothing; if (c_is(p, Tag, x)) runs its branch exactly if the value holds the tag and else the other; return leaves the function, and break and continue act on the loop around it.", "quantifier": "all lists of arms, all values, all user code", "why_tests_cant": "any number of arms in any order, with fall-through and loops hidden in the macros", "anchors": ["include/stc/sys/sumtype.h:c_when,c_is,c_or_is,c_otherwise,c_variant,c_holds"]}
{"id": "C132", "title": "loops over maps and lists of items", "statement": "c_each_kv runs its body once for every entry in iteration order, with continue going to the next entry and break ending the loop, although it expands to three nested loops; c_items does the same for the listed items and c_drop drops every listed object once.", "quantifier": "all entries and items, all bodies", "why_tests_cant": "all lengths and all patterns of break and continue", "anchors": ["include/stc/common.h:c_each_kv,c_items,c_drop"]}
{"id": "C133", "title": "option parser is safe to call in any way", "statement": "Any number of coption_get calls after coption_init, with any specifications and also after -1 or an ambiguous option, accesses only the argument strings, keeps argv a permutation of the original beginning with argv[0], and keeps opt.ind within 1..argc; after -1 further calls return -1 and change nothing unless the command line contains --.", "quantifier": "all argument vectors, all specifications per call, all numbers of calls", "why_tests_cant": "unbounded call sequences; pointer arithmetic on argv that tests only see as crashes", "anchors": ["include/stc/coption.h:coption_get,coption_permute_"]}
{"id": "C134", "title": "After reserve(n) the allocator is not needed until there are more than n elements", "statement": "Once `reserve(n)` succeeded, the capacity is at least n and stays as it is during any further history of calls that do not concern the capacity and never leave more than n elements (bytes for cstr); each such call has the same result whether or not the allocator has memory to give, so references stay valid. vec and stack need one free place more for insert_n/append: when the elements would exactly fill the reserved room, these calls reallocate (and fail without memory).", "quantifier": "all element types, all prior histories, all n, all later histories of calls, all allocator outcomes", "why_tests_cant": "reserve is a promise about every later history; a test only sees the histories it runs and never a failing allocator", "anchors": ["include/stc/vec.h:_reserve,_insert_uninit", "include/stc/stack.h:_reserve,_append_uninit", "include/stc/deque.h:_reserve", "include/stc/pqueue.h:_reserve", "include/stc/hmap.h:_reserve", "include/stc/smap.h:_reserve", "include/stc/cstr.h:cstr_reserve", "include/stc/priv/cstr_prv.h"]}
{"id": "C135", "title": "Growing moves at most three elements per element added", "statement": "In any history of adding and removing calls on a fresh container (vec, stack, deque, queue, pqueue, hmap, hset, smap, sset, cstr), the number of elements moved because a call had to enlarge the storage is at most three times the number of elements added plus the number of range insertions (twice for deque); so adding is amortised constant.", "quantifier": "all histories of adding and removing calls of any length", "why_tests_cant": "amortised bounds are about all histories; alternating patterns around a capacity limit are the ones tests miss", "anchors": ["include/stc/vec.h:_push,_insert_uninit", "include/stc/stack.h:_push", "include/stc/deque.h:_push", "include/stc/pqueue.h:_push", "include/stc/hmap.h:_insert_entry_", "include/stc/smap.h:_new_node_", "include/stc/cstr.h:cstr_append_uninit"]}
{"id": "C136", "title": "Sorting never nests deeply", "statement": "Sorting a container of less than 66*2^d elements has at most d calls of the sort function active at once, for every input and every strict weak ordering; 57 for any container that can be indexed. The C stack cannot be exhausted by an adversarial order of elements.", "quantifier": "all lists, all strict weak orderings, all d", "why_tests_cant": "the worst case of a quicksort is an adversarial input that no test contains", "anchors": ["include/stc/priv/sort_prv.h:_sort_lowhigh,_insertsort_lowhigh"]}
{"id": "C137", "title": "Binary search asks logarithmically many comparisons", "statement": "The result of lower_bound in less than 2^b elements is settled by at most 6b answers of the comparison (6b+1 for binary_search): any other comparison that agrees on those pairs gives the same result. This holds for unsorted containers and inconsistent comparisons as well.", "quantifier": "all lists, all comparison functions, all keys", "why_tests_cant": "the probes are unevenly spaced (1/8, 7/8), so that the bound is not the textbook one; a bound for all lengths cannot be measured", "anchors": ["include/stc/priv/sort_prv.h:_lower_bound_range,_binary_search_range"]}
{"id": "C138", "title": "Heap operations ask logarithmically many comparisons, and making a heap linearly many", "statement": "The result of push on a pqueue of less than 2^(b+1)-1 elements is settled by at most b answers of the comparison, that of pop, pull and erase_at by at most twice the logarithm of the number of remaining elements, that of make_heap by at most 2n.", "quantifier": "all queues, all comparison functions (consistent or not)", "why_tests_cant": "the linear bound of make_heap is a sum over all nodes; tests can only sample sizes", "anchors": ["include/stc/pqueue.h:_push,_pop,_pull,_erase_at,_make_heap,_sift_down_"]}
{"id": "C139", "title": "Ordered-map operations ask logarithmically many comparisons", "statement": "For every smap or sset of n entries reached by any history, the results of find, get, contains, lower_bound, insert, insert_or_assign and erase are settled by at most 2*log2(n+1) answers of the comparison.", "quantifier": "all histories leading to the map, all keys, all lawful comparisons", "why_tests_cant": "the balance of the tree after every history is what the bound depends on", "anchors": ["include/stc/smap.h:_find_it,_lower_bound,_insert_entry_,_erase,_erase_r_"]}
{"id": "C140", "title": "A coroutine executes as the sequential program it is written as", "statement": "Whatever branches and loops the suspension macros (cco_yield, cco_await, cco_await_coroutine, cco_return, cco_yield_final) are placed in, calling the coroutine function again and again does what the same code would do if it were executed once from top to bottom and merely waited at its suspension points: each call returns the value of the next suspension point of that execution with the members as they are there, and every execution of the code can be obtained by calls. A coroutine that is stopped where it is suspended returns there; one that is done has executed its body up to its end or to a return, and then the code behind cco_finally, once. (break or continue outside of a loop skip the code behind cco_finally; cco_return behind cco_finally after a suspension there starts it again.)", "quantifier": "all coroutine functions built from user code, branches, loops, break, continue and the suspension macros, all histories of calls and stops, all changes of the members by others between the calls", "why_tests_cant": "there are unboundedly many ways to nest loops and branches around a suspension point and to interleave calls with other code; a test runs a few functions", "anchors": ["include/stc/coroutine.h: cco_routine, cco_finally, cco_return, cco_yield_v, cco_yield_final_v, cco_await, cco_await_coroutine, cco_stop"]}
{"id": "C141", "title": "shrink_to_fit leaves no more room than needed", "statement": "After shrink_to_fit with a working allocator the contents are the same and a vec, stack, pqueue or smap has capacity for exactly its elements, a deque or queue a block of at most twice as many places, an hmap at most 2.6 buckets for each entry and 6, a cstr a capacity of its length (22 bytes or less are stored in the object). (An empty vec, stack or deque keeps all its room instead; an empty pqueue must not be shrunk.)", "quantifier": "all reachable containers that are not empty", "why_tests_cant": "the code has several branches that silently do nothing; with which sizes they are taken cannot be settled by a few sizes", "anchors": ["include/stc/vec.h: _shrink_to_fit, _reserve", "include/stc/stack.h: _shrink_to_fit", "include/stc/priv/queue_prv.h: _shrink_to_fit", "include/stc/pqueue.h: _shrink_to_fit", "include/stc/hmap.h: _shrink_to_fit, _reserve", "include/stc/smap.h: _shrink_to_fit", "include/stc/priv/cstr_prv.c: cstr_shrink_to_fit"]}
{"id": "C142", "title": "Convenience calls amount to the calls they stand for", "statement": "put_n appends the given elements one after the other, keeping whatever fitted when allocations fail; erase_range removes exactly the elements between two positions or up to the end and returns what followed; take destroys what was held and takes over the other container's sequence; index of the i-th position is i; dropping a priority queue destroys exactly what was not handed out; unlinking the first node of a list hands it over unharmed; a span made from a pointer and a count addresses exactly the count elements and refuses every other position.", "quantifier": "all histories of the containers, all ranges, all allocation outcomes, all counts below 2^31", "why_tests_cant": "tests exercise these calls on a few sizes, and none lets allocations fail in the middle of put_n", "anchors": ["include/stc/vec.h: _put_n, _erase_range, _take", "include/stc/priv/queue_prv.h: _index", "include/stc/pqueue.h: _drop", "include/stc/list.h: _unlink_front_node", "include/stc/cspan.h: cspan_from_n"]}
{"id": "C143", "title": "Tasks behave like procedures with exceptions", "statement": "A fiber executes its task as the same code would execute as ordinary procedures: awaiting a task is calling it, however deep the awaits nest and whatever branches and loops they are in; a thrown error executes the cleanups from the inside to the outside and arrives at the await of each caller, up to a task whose cleanup recovers from it and which then goes on behind its await; an error nobody recovers from ends the program after all cleanups. This holds for tasks whose cleanups do not suspend and recover only from errors of tasks they awaited; a cleanup that suspends while an error is on its way is abandoned, and a task recovering from an error it threw itself starts again instead of going on.", "quantifier": "all task functions built from user code, branches, loops, yields, awaits, returns, throws and recovers, all call trees including recursive ones, all actions of others between the turns, any number of turns", "why_tests_cant": "the examples contain one call tree with one error; the behaviour depends on the combination of where each task of the chain is suspended and what the cleanups do", "anchors": ["include/stc/coroutine.h: cco_await_task, cco_throw_error, cco_recover_error, cco_finally, cco_resume_current"]}
{"id": "C144", "title": "Default hashes of small keys do not collide", "statement": "The default hash of an object reads exactly the bytes of the object. Two objects of the same type of at most eight bytes (all integers and pointers, small structs) have the same default hash only if their bytes are the same; C strings of at most eight characters have the same hash only if they are the same string; larger objects made of eight-byte words have different hashes if they differ in exactly one word. Keys for which == holds have the same default hash.", "quantifier": "for all keys, of every size", "why_tests_cant": "injectivity over 2^64 keys and over all lengths of larger keys cannot be enumerated", "anchors": ["include/stc/common.h:c_hash_n", "include/stc/common.h:c_basehash_n", "include/stc/common.h:c_hash_str", "include/stc/common.h:c_default_hash", "include/stc/common.h:c_default_eq"]}
{"id": "C145", "title": "Combining hashes keeps the order and every part", "statement": "c_hash_mix of the hashes of the members of a compound key is not commutative: exchanging two different hashes changes the result. Changing one of the hashes changes the result.", "quantifier": "for all lists of hashes", "why_tests_cant": "ranges over all lists of 64-bit hashes", "anchors": ["include/stc/common.h:c_hash_mix", "include/stc/common.h:_chash_mix"]}
{"id": "C146", "title": "Normally distributed numbers use every accepted point once", "statement": "Calls of crand64_normal_r with the same distribution object return, in order, both numbers of every point of the random stream that lies in the unit circle: none is skipped and none used twice, for any number of calls. The coordinates of the points are exact multiples of 2^-52 in [-1, 1).", "quantifier": "for every random stream, every pattern of rejected points and every number of calls", "why_tests_cant": "needs all streams and more than 2^31 calls", "anchors": ["include/stc/random.h:crand64_normal_r", "include/stc/random.h:crand64_normal"]}
{"id": "C147", "title": "Awaiting and transferring control make a stack of tasks", "statement": "Within a fiber the tasks behave as a stack: cco_await_task puts a task on top, completing removes the top and resumes the one below, cco_yield_to replaces the top. Tasks passing control to each other with cco_yield_to are resumed in the order of the transfers, and when the last completes, the task that awaited the first of them goes on. This holds for every sequence of awaits, transfers, errors and completions, and the fiber ends when the last task completes.", "quantifier": "for all task graphs and all sequences of moves", "why_tests_cant": "all histories of pointer updates", "anchors": ["include/stc/coroutine.h:cco_await_task", "include/stc/coroutine.h:cco_yield_to", "include/stc/coroutine.h:cco_resume_current"]}
{"id": "C148", "title": "Advancing an iterator is stepping it; pairwise filters see all neighbours", "statement": "Advancing an iterator by n steps leaves it where n single steps would, at the end if fewer elements follow, and its index is n. c_filter_pairwise over a container visits every pair of neighbouring elements, in order and each once, and passes the pairs through the filter steps as any other filter.", "quantifier": "for all containers in any state reachable by their calls, all step counts, all filter pipelines", "why_tests_cant": "all reachable states, capacities and step counts, including steps past the end", "anchors": ["include/stc/vec.h:_advance,_index", "include/stc/stack.h:_advance", "include/stc/deque.h:_advance", "include/stc/list.h:_advance", "include/stc/smap.h:_advance", "include/stc/sys/filter.h:c_filter_pairwise"]}
{"id": "C149", "title": "Container variables have value semantics", "statement": "A program with any number of container variables that initialises each before use and does not use it after drop behaves as if each variable had a sequence of its own: a clone or copy is independent of its source, moving leaves the source empty and usable, take destroys what was held, swapping exchanges. No such call accesses freed memory. Every element ever added or cloned is at any time in exactly one container in use or has left it exactly once (destroyed or handed to the caller), and every block of memory belongs to exactly one variable in use; so after all variables have been dropped, everything has been destroyed exactly once and nothing is leaked.", "quantifier": "all programs of any length over any number of variables, all addresses the allocator may return (including reuse of freed ones), refusals of the allocator", "why_tests_cant": "all histories of several variables and all patterns of address reuse; double destruction shows only with particular histories", "anchors": ["include/stc/vec.h:_clone,_copy,_move,_take,_drop,_clear", "include/stc/stack.h:_clone,_copy,_move,_take,_drop", "include/stc/priv/queue_prv.h:_clone,_copy,_move,_take", "include/stc/pqueue.h:_clone,_copy,_move,_take,_drop", "include/stc/hmap.h:_clone,_copy,_move,_take", "include/stc/smap.h:_clone,_copy,_move,_take", "include/stc/common.h:c_swap"]}
{"id": "C150", "title": "A user-supplied sized allocator is used by the rules", "statement": "When i_malloc, i_calloc, i_realloc and i_free are replaced by an allocator that is told sizes, every program over a container type only resizes and frees blocks that are in use, passes the exact size each block was last given, frees each block once, writes through no refused pointer, and has returned every block when all its variables are dropped.", "quantifier": "all programs over any number of variables of vec, stack, pqueue, deque, queue, hmap, hset, smap, sset, list, cstr, cbits or cregex; all answers of the allocator (refuse, grant in place, grant elsewhere) at every request; all element sizes", "why_tests_cant": "A test uses the system allocator, which ignores sizes and never refuses; the claim ranges over all programs and all answers of an allocator", "anchors": ["include/stc/vec.h:_vec_reserve", "include/stc/stack.h:_stack_reserve", "include/stc/pqueue.h:_pqueue_reserve", "include/stc/priv/queue_prv.h:_deque_reserve", "include/stc/hmap.h:_hmap_reserve", "include/stc/smap.h:_smap_reserve", "include/stc/list.h:_list_sort", "include/stc/priv/cstr_prv.c:cstr_reserve", "include/stc/cbits.h:cbits_resize", "include/stc/priv/cregex_prv.c:_optimize", "README.md:Per container-instance customization"]}
{"id": "C151", "title": "A container allocates from its own context", "statement": "A container instance initialised with an aux value keeps it through every call, and every block it owns is taken from and returned to the memory context in that aux, as the README's per-instance allocator relies on.", "quantifier": "all container types with i_aux, all aux values, all sequences of calls on any number of instances with different contexts, all answers of the allocator", "why_tests_cant": "Losing the context shows only with two contexts and after particular calls such as growth, reversal or shrinking; the claim is about all sequences of calls", "anchors": ["include/stc/vec.h:_vec_reserve", "include/stc/stack.h:_stack_clone", "include/stc/pqueue.h:_pqueue_clone", "include/stc/deque.h:_deque_shrink_to_fit", "include/stc/hmap.h:_hmap_reserve", "include/stc/smap.h:_smap_clear", "include/stc/list.h:_list_reverse", "include/stc/list.h:_list_split_off", "README.md:Per container-instance customization"]}
{"id": "C152", "title": "A compiled regular expression can be moved by the allocator", "statement": "Compiling gives the program's surplus memory back to the allocator. Whether the allocator refuses, shrinks the block where it is or moves it elsewhere, the compiled expression has the same instructions, successors, alternatives, character classes and start, and no pointer into the old block is left.", "quantifier": "all compiled programs, all addresses before and after, every answer of the allocator", "why_tests_cant": "a test run sees one allocator behaviour; a pointer that is not adjusted still works as long as the old block has not been reused", "anchors": ["include/stc/priv/cregex_prv.c:_optimize,_newclass,_operand"]}
{"id": "C153", "title": "Iterating over coroutine generators", "statement": "c_filter over a generator (a coroutine used as an iterator) lets through what its stages make of the generated sequence, one stage after the other, also when the generator is infinite and one of the stages ends the iteration. When the filter ends, whether by cco_flt_take, by cco_flt_takewhile or because the generator ended, the code behind cco_finally of the generator has been executed exactly once. The same holds for a c_each loop in which cco_stop is called: it visits the elements up to the one at which it was called. (As implemented, cco_flt_takewhile also lets the first failing element through, cco_flt_take(0) one element; c_flt_take and c_flt_takewhile leave the generator suspended; cco_stop at a value yielded by cco_yield_final skips the cleanup and the loop does not end.)", "quantifier": "every generator (every coroutine body), every pipeline of stages, every number of elements", "why_tests_cant": "Generators are arbitrary programs and may be infinite; whether cleanup is executed once depends on where the iteration ends.", "anchors": ["include/stc/coroutine.h: cco_flt_take, cco_flt_takewhile, cco_stop, cco_each", "include/stc/sys/filter.h: c_filter"]}
{"id": "C154", "title": "Printing a span shows its structure", "statement": "cspan_print writes the elements of a span of any shape as nested bracketed lists in index order: every row on a line of its own, blocks separated by an empty line, rows indented below the brackets that are still open, all elements right-aligned in columns as wide as the longest text, with the optional comma between any two parts, and one new line at the end. It is well-defined for every shape up to rank 8. (As implemented, an element whose text has 128 characters or more is written beyond the end of a buffer.)", "quantifier": "every shape, strides, format (every text per element) and brackets", "why_tests_cant": "Shapes and texts are unbounded; brackets, commas and new lines depend on how many trailing indices are first or last at once.", "anchors": ["include/stc/cspan.h: cspan_print, _cspan_print_assist"]}
{"id": "C155", "title": "Pointers to map entries stay valid over other calls", "statement": "An insertion into a hash map invalidates no iterator unless the table has to be extended; an insertion into a sorted map invalidates no reference to an entry; erasing from a sorted map leaves the entries of other keys where they are (as in std::map, to which the documentation refers). Equivalently: after the call, a pointer obtained before for a key that was not erased still designates the entry of that key.", "quantifier": "every history of a hash map or sorted map, every key inserted, assigned or erased, and every pointer obtained before the call", "why_tests_cant": "Whether a pointer survives depends on the collisions along the probe sequence or the shape of the tree, and a stale pointer usually still points into live memory, so that tests read a plausible wrong entry instead of crashing.", "anchors": ["include/stc/hmap.h: _c_MEMB(_bucket_insert_)", "include/stc/hmap.h: _c_MEMB(_insert_entry_)", "include/stc/smap.h: _c_MEMB(_new_node_)", "include/stc/smap.h: _c_MEMB(_insert_entry_i_)", "include/stc/smap.h: _c_MEMB(_erase_r_)", "docs/hmap_api.md", "docs/smap_api.md"]}
{"id": "C156", "title": "Bit sets of a fixed length behave as lists of booleans", "statement": "A bit set type declared with a fixed length L (#define i_type Bits, L) behaves as a list of exactly L booleans: X_size is always L; set, reset, set_value, flip, flip_all, set_all, set_pattern, intersect, union and xor change exactly the bits they name, whatever the object's memory held before it was made; test, at, count, to_str, disjoint and subset_of answer accordingly; copy, take and clone make an equal, independent set. X_from(text) sets the bits of the text and clears the rest; X_with_size(n, v) and X_from refuse more than L bits; X_with_size(n, v) makes a set with n bits of value v.", "quantifier": "every length, every history of calls on sets of that type, every previous content of the memory, every text and pattern", "why_tests_cant": "the padding bits of the last word and the uninitialised memory the set is built on must never show through, for every length and history", "anchors": ["include/stc/cbits.h: _with_size, _with_pattern, _from, _copy, _take, _clone, _count, _to_str, _subset_of, _disjoint"]}
{"id": "C157", "title": "Printing a bit set writes the requested bits", "statement": "cbits_print(self, stream, start, end) writes one character '0' or '1' for each bit from start up to but not including end, in order, the same characters to_str gives; with end == -1 or without a range it writes all bits from start. Like to_str it does not go past the last bit.", "quantifier": "every bit set reached by any history, every range", "why_tests_cant": "the range is an argument; whether padding bits or other memory show up depends on the set's length and content", "anchors": ["include/stc/cbits.h: cbits_print, cbits_print_5"]}
{"id": "C158", "title": "Advancing a view's iterator by characters", "statement": "csview_advance(it, k), for an iterator at the i-th character of a view of UTF-8 text, moves by k characters in either direction: the result is at character i + k and has that character's size, and at or past the end of the view it is the end iterator. It reads only the view's bytes.", "quantifier": "every text, every character, every distance, every position of the view in its object and every surrounding bytes", "why_tests_cant": "the loop is bounded by a pointer comparison in one direction only; whether it stays in the view depends on the text, the distance and the memory around the view", "anchors": ["include/stc/csview.h: csview_advance, csview_begin"]}
{"id": "C159", "title": "Advancing an iterator of a vector or stack equals stepping it", "statement": "For vec and stack, advance(it, n) gives the same iterator as n calls of next (the end iterator when there are fewer elements left): it refers to the element n places further, and index(it) is the position of the element the iterator refers to. This holds for every n and for iterators in either direction.", "quantifier": "every vector and stack reached by any history, every iterator on an element, every distance", "why_tests_cant": "the pointer arithmetic is compared with an end mark that differs between forward and reverse iterators, and may leave the block depending on capacity and distance", "anchors": ["include/stc/vec.h: _advance, _index, _begin, _rbegin, _next, _rnext", "include/stc/stack.h: _advance, _index"]}
{"id": "C160", "title": "regex flags in a pattern override the compile flags", "statement": "A pattern that begins with (?i), (?-i), (?s), (?-s) or a combination of them finds, in every text, what the rest of the pattern finds when it is compiled with the flags CREG_ICASE and CREG_DOTALL set or cleared accordingly, whatever flags were given to the compiler; the effect is confined to what follows the flags.", "quantifier": "all flag combinations, all patterns behind them, all texts, both compile flags", "why_tests_cant": "patterns and texts are unbounded, and whether the mode is already set when a class is tested depends on the order in which alternatives are run", "anchors": ["include/stc/priv/cregex_prv.c:_lex,_regexec1", "docs/cregex_api.md"]}
{"id": "C161", "title": "regex search has no slow patterns", "statement": "Searching takes work at most proportional to the length of the pattern times the number of bytes of the text that are left, whatever the pattern and the text are: there is no pattern for which the time explodes, as the documentation promises. Work is counted as instructions executed for a thread, characters decoded, and bytes scanned for the first character.", "quantifier": "all patterns of the described syntax, all texts, all starting positions, searching and full matching", "why_tests_cant": "A test measures some patterns on some texts; a pattern that explodes on long texts is found only by trying it.", "anchors": ["include/stc/priv/cregex_prv.c: _regexec, _regexec1, _renewthread", "docs/cregex_api.md: 'NFAs have no bad/slow RE patterns'"]}
{"id": "C162", "title": "visiting all matches of a regex is linear in the text", "statement": "Going through all matches of a pattern in a text (c_match, cregex_match_next) takes work proportional to the length of the text: the searches begin where the last match ended, so that no part of the text is read again and again.", "quantifier": "all patterns of the described syntax, all terminated texts", "why_tests_cant": "The time on long texts with many matches is not visible in tests on short texts.", "anchors": ["include/stc/cregex.h: c_match, cregex_match_next", "include/stc/priv/cregex_prv.c: _regexec1"]}
{"id": "C163", "title": "regex matching always ends", "statement": "For every pattern that compiles, every text and every position, matching comes to an end: nested repetitions of parts that match the empty text, such as (a*)* or (a?|b*)+, do not make it run forever, and the number of rounds of each of its loops is bounded by the lengths of the pattern and the text.", "quantifier": "all patterns accepted by the compiler (no condition on their form), all memory contents and positions, both sizes of thread lists", "why_tests_cant": "A test that passes says nothing about the next pattern; whether the compiled program has a cycle that reads nothing depends on how the loops of the pattern are nested.", "anchors": ["include/stc/priv/cregex_prv.c: _evaluntil, _optimize, _regexec1, _regexec2"]}
{"id": "C164", "title": "The history of a hash map leaves no trace in its layout", "statement": "Two hash maps or sets with the same keys and bucket count, however they came about, have the same costs of lookups: looking up an absent key inspects the same number of buckets (at most one more than there are keys), and the costs of looking up the present keys are the same up to their order. Iteration meets the home buckets in the same order, so if no two keys share a home bucket the iteration order depends only on the contents and the bucket count. In particular inserting a key (without growth) and erasing it again leaves no trace: there are no tombstones.", "quantifier": "all pairs of histories of calls leading to the same keys and bucket count; all lawful hash and equality functions", "why_tests_cant": "A test sees a few histories; that erased entries never slow later lookups must hold for all of them", "anchors": ["include/stc/hmap.h:_bucket_lookup_,_bucket_insert_,_erase_entry,_begin,_next"]}
{"id": "C165", "title": "Shuffling favours no order", "statement": "For distinct elements, the streams of random words by which c_shuffle produces a given order are exactly those with one prescribed remainder in each draw; so every order is produced, by at least the product of floor(2^64/k) and at most the product of floor(2^64/k)+1 streams over the n-1 draws k = 2..n. (The shares are not exactly equal, as the remainder of a word is taken.)", "quantifier": "all containers of distinct elements, all orders, all streams of random words", "why_tests_cant": "There are n! orders and 2^(64(n-1)) streams; a statistical test sees a few", "anchors": ["include/stc/random.h:c_shuffle,c_shuffle_array"]}
{"id": "C166", "title": "One-call matching and replacing, and the life of a regular expression", "statement": "cregex_match_aio(pattern, input, match) returns 0 with the leftmost longest match and its groups if the pattern matches somewhere in the input, -1 if it matches nowhere, and for a text that is not a pattern a code below -2 that names the error; cregex_replace_aio returns the text with the matches replaced. After the call all memory taken by it has been given back. A variable that is compiled several times matches, counts captures and reports errors as if only the last compilation had happened. Compilation sets the error to 0 exactly if there is a program to match with. Different errors have different codes.", "quantifier": "Every pattern of the documented grammar within the limits of the compiler, every text, every sequence of compilations into one variable, every answer of the allocator (except where stated).", "why_tests_cant": "Tests compile a few patterns with an allocator that never refuses; sequences of compilations, error paths and the answers of the allocator cannot be enumerated.", "anchors": ["include/stc/cregex.h: cregex, cregex_make, cregex_match_aio, cregex_replace_aio", "include/stc/priv/cregex_prv.c: cregex_compile_pro, cregex_match_pro, cregex_match_aio, cregex_replace_aio_pro, cregex_drop, _regexec2"]}
{"id": "C167", "title": "Sorting makes at most 2n\u00b2 comparisons, and n log n when nothing has to move", "statement": "Sorting n elements calls the comparison at most 2n\u00b2 times whatever the elements and the order relation are. When the elements already stand in strictly increasing order, sorting leaves them untouched and calls the comparison at most 2(n+1)(\u230alog2 n\u230b+1) times. When no element is less than another the bound is 2n\u230alog2 n\u230b.", "quantifier": "all element lists of any length and all strict weak orders", "why_tests_cant": "a benchmark measures some lists; the worst arrangement of a long list is not among them", "anchors": ["include/stc/priv/sort_prv.h: _sort, _sort_lowhigh, _insertsort_lowhigh"]}
{"id": "C168", "title": "Iterators of a hash map found by key", "statement": "find(k) gives the end iterator exactly if the key is absent. Otherwise the iterator is at the entry of the key, and stepping it visits exactly the entries that a full iteration visits from that entry on. erase_at(find(k)) has the same effect as erase(k), and the iterator it returns goes on with the entries after the erased one; only the entry that iteration visits first may come once more at the end.", "quantifier": "all hash maps reachable by any history of calls, all keys and hash functions", "why_tests_cant": "depends on the history through the positions of the entries and on the wrap-around of probe sequences", "anchors": ["include/stc/hmap.h: _find, _begin, _next, _erase_at"]}
{"id": "C169", "title": "The comparison functions a container derives are consistent", "statement": "A container needs an equality, a less-than and a three-way comparison, of which the user may define any. (a) A function the user defines is the one that is used. (b) When only i_cmp is defined and is a lawful three-way comparison, less-than is the same ordering and equality means that i_cmp yields 0. (c) When only i_less is defined, is a strict weak ordering and never yields a negative value, the three-way comparison is negative, zero or positive exactly as i_less says; equality remains `==` and functions that need equality exist only if asked for with i_use_cmp or i_use_eq. (d) When nothing is defined, all three are the built-in operators. (e) When the element class has `_cmp` and `_eq`, all three come from the class. (f) A less-than that the user did not write yields 0 or 1, and with such a less-than the priority queue, which adds the value to an index, behaves as with its truth value.", "quantifier": "every element type, every combination of defined macros and container options, every pair of elements", "why_tests_cant": "consistency is a statement over all pairs and triples of elements and all combinations of definitions; every test fixes one instantiation", "anchors": ["include/stc/priv/template.h:153-201", "include/stc/common.h:132-134", "include/stc/pqueue.h:_sift_down_"]}
{"id": "C170", "title": "Clone, drop and conversion functions of a container fit together", "statement": "(a) In every combination of definitions the headers accept, elements of a cloneable container are cloned by a function exactly if they are dropped by one, so that clones never share what is freed twice. Elements of a class need no further definitions: the class's functions are used. (b) A container has emplace only if elements are converted by a function, so what it stores is never the object given. (c) put_n and from_n of sequences copy cloneable elements that own something: if the caller then drops its own elements, each is freed once, and if it does not, they leak. (d) For sets the same holds exactly if they have emplace; otherwise they take over the caller's elements, which must not be dropped again. (e) For elements of a class sequences and sets agree. (f) put copies a value of a class, and stores a value as it is when neither key nor value has a conversion.", "quantifier": "every combination of i_keyclone, i_keydrop, i_keyfrom, i_keytoraw, i_keyclass, i_keyraw and i_no_clone (and the same for values), every number of elements", "why_tests_cant": "a test fixes one combination of definitions; leaks and double frees appear only for others", "anchors": ["include/stc/priv/template.h:119-278", "include/stc/vec.h:_put_n", "include/stc/hmap.h:_put_n", "include/stc/smap.h:_put_n", "include/stc/hmap.h:_put"]}
{"id": "C171", "title": "Formatted output into strings", "statement": "cstr_append_fmt appends exactly the text that the format and arguments print and returns its length; cstr_printf leaves exactly that text, whatever the string held before; cstr_from_fmt makes a string of it. When printing fails the string is left as it was and -1 is returned; the text of the string itself may be appended; a refused allocation is reported.", "quantifier": "every string reachable by any history of calls, every printed text including the empty one and texts that move the string to the heap", "why_tests_cant": "tests print a few short texts; the change from the short to the long form, failing conversions and refused memory are not exercised", "anchors": ["include/stc/priv/cstr_prv.c:194-229"]}
{"id": "C172", "title": "Coroutine timers", "statement": "cco_timer_expired holds exactly when no time remains, which is exactly when the elapsed time has reached the duration; elapsed and remaining time add up to the duration; a restart keeps the duration. cco_await_timer_sec continues the coroutine at the first resumption that comes at least the given time after the wait began, whatever the times of resumption, and a time that is not positive does not suspend it.", "quantifier": "every duration, every sequence of times at which the coroutine is resumed", "why_tests_cant": "tests run under one clock that nobody sets", "anchors": ["include/stc/coroutine.h:cco_await_timer_sec", "include/stc/coroutine.h:cco_timer_expired", "include/stc/coroutine.h:cco_time"]}
{"id": "C173", "title": "Searching part of a sequence stays inside the part", "statement": "find_in(i1, i2, x) of a vec, stack or deque reads only the elements from i1 up to, not including, i2 and answers with the iterator at the first of them that equals x, ready to be advanced to the end of the container; if none does, the answer is the end iterator. find(x) does this for the whole container, also an empty one. Stacks are equal exactly when they hold as many, pairwise equal elements, whatever their capacities.", "quantifier": "all vectors, stacks of dynamic or fixed capacity and deques reachable by any history of calls, all ranges, all values and all equality functions", "why_tests_cant": "A test searches a handful of containers; where the end of the range lies in memory depends on the history (a wrapped deque, a cleared vector with a block, no block at all).", "anchors": ["include/stc/vec.h:_find_in", "include/stc/stack.h:_find_in", "include/stc/stack.h:_find", "include/stc/stack.h:_eq", "include/stc/deque.h:_find_in", "include/stc/deque.h:_find"]}
{"id": "C174", "title": "Equality without regard to case does not depend on the type of the strings", "statement": "cstr_ieq, cstr_iequals, zsview_ieq, zsview_iequals, csview_ieq and csview_iequals give the same answer for the same two texts, namely whether they agree after folding the case of every character.", "quantifier": "all pairs of valid UTF-8 texts", "why_tests_cant": "Tests use ASCII letters, where the number of bytes does not change with the case.", "anchors": ["include/stc/priv/cstr_prv.h:cstr_iequals", "include/stc/priv/cstr_prv.h:cstr_ieq", "include/stc/zsview.h:zsview_ieq", "include/stc/zsview.h:zsview_iequals", "include/stc/csview.h:csview_iequals_sv"]}
{"id": "C175", "title": "Joining strings puts the separator between neighbours and nowhere else", "statement": "cstr_join_n, cstr_join_items, cstr_join_sn and cstr_join append the items to a string so that its text, unless it was empty, and the items follow one another with the separator between any two neighbours. Joining into an empty string and splitting with c_token and the same separator gives the items back whenever the separator cannot be found in an item or across its end. Joining in two calls gives the same text as joining in one. A refused allocation leaves a usable string.", "quantifier": "all strings reachable by any history, all separators and lists of items, all ways to cut the list in two, all allocation outcomes", "why_tests_cant": "The number of items and the places where the buffer moves are unbounded; empty items at the front are easily forgotten in tests.", "anchors": ["include/stc/priv/cstr_prv.h:cstr_join_n", "include/stc/priv/cstr_prv.h:cstr_join_sn", "include/stc/priv/cstr_prv.h:cstr_join", "include/stc/csview.h:c_token"]}
{"id": "C176", "title": "A loop over a range of iterators visits the elements between them", "statement": "c_each(it, C, start, end), c_each_reverse(it, C, start, end) and c_each_kv(key, val, C, start, end), with iterators reached from the first one by next, visit exactly the elements from the place of start up to, not including, the place of end, in iteration order, each once. Cutting a traversal at any place gives two loops that visit together what the whole loop visits. A range given the wrong way round runs off the end and is undefined.", "quantifier": "all vectors, stacks, deques, queues, lists, sorted and hash maps and sets reachable by any history, all pairs of places", "why_tests_cant": "The loop stops on equality of references, so it depends on no two iterators of one traversal sharing a reference, in every reachable layout (rotated ring buffers, reused tree nodes).", "anchors": ["include/stc/common.h:c_each", "include/stc/common.h:c_each_reverse", "include/stc/common.h:c_each_kv"]}
{"id": "C177", "title": "Objects made with c_new and c_new_n are dropped once and their memory is given back", "statement": "After any history of c_new, c_new_n, c_delete and c_delete_n in which each pointer is deleted once with its own number of elements, every deletion is defined, drops each element exactly once and gives the block back to the allocator it came from with its right size, leaving other objects alone. When all have been deleted nothing remains and everything put in has been dropped. Deleting NULL is allowed. With user-defined c_malloc, c_calloc, c_realloc and c_free the same holds, and a refused allocation loses no value.", "quantifier": "all histories of allocations and deletions, all numbers of elements, both allocators, all allocation outcomes", "why_tests_cant": "Leaks and mismatched allocators do not show in the results of a test; the number of live objects is unbounded.", "anchors": ["include/stc/common.h:c_new", "include/stc/common.h:c_new_n", "include/stc/common.h:c_delete", "include/stc/common.h:c_delete_n", "include/stc/common.h:c_free"]}
{"id": "C178", "title": "Seeding determines the random numbers, and generators do not disturb each other", "statement": "What a program takes from one generator - the hidden generator behind crand64_seed, crand64_uint, crand64_real, crand64_uniform and c_shuffle, the one behind the crand32 functions, or a crand64 variable used with the _r functions - depends only on that generator's state and on the calls made on it: calls on other generators in between change nothing. After seeding, all later results are determined by the seed and the calls made, whatever happened before. The hidden generator gives the same as the _r functions with stream 1 on a variable made by crand64_from with the same seed, and a program that never seeds gets what seeding with 1 gives. The code does not keep this across source files (each file has its own hidden generator) nor for crand64_normal (it uses the generator of the library's file, which crand64_seed in another file does not reach).", "quantifier": "all programs, as lists of calls in any number of source files, all seeds, streams and distributions, all earlier states", "why_tests_cant": "reproducibility over every program and every interleaving of calls on several generators; a test fixes one program and one seed", "anchors": ["include/stc/random.h: crand64_seed, crand64_from, crand64_uint, crand64_real, crand64_uniform, crand64_normal, crand32_seed, crand32_uint, _stc64, _stc32", "src/random.c"]}
