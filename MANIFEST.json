{
 "claims": [
  {
   "property": "C01",
   "status": "proved",
   "theorems": [
    "Verif.Vec.vec_sequence",
    "Verif.Vec.vec_find",
    "Verif.Vec.vec_eq",
    "Verif.Vec.vec_erase_returns_next",
    "Verif.Vec.vec_clone"
   ],
   "note": "Refinement of every history of calls to a mathematical list, for every allocation-failure pattern."
  },
  {
   "property": "C02",
   "status": "proved",
   "theorems": [
    "Verif.Vec.vec_alloc_failure",
    "Verif.Vec.vec_capacity"
   ],
   "note": "A call reporting failure leaves the vec unchanged; failure only on allocator failure or an empty request."
  },
  {
   "property": "C03",
   "status": "partial",
   "theorems": [
    "Verif.Vec.vec_iterate_partial",
    "Verif.Vec.vec_iterate_reverse_partial",
    "Verif.Vec.vec_iterate_empty_undefined",
    "Verif.Stack.stack_iterate_partial",
    "Verif.Stack.stack_iterate_empty_undefined"
   ],
   "note": "Holds for non-empty or never-allocated vecs; iterating an allocated empty vec reads a dead slot (refuted with a witness)."
  },
  {
   "property": "C04",
   "status": "proved",
   "theorems": [
    "Verif.Stack.fixed_stack",
    "Verif.Stack.growing_stack",
    "Verif.Stack.fixed_append_spurious_failure"
   ],
   "note": "Every history on a fixed-capacity stack refines a bounded list; also records that append_uninit can refuse a request that would fit."
  },
  {
   "property": "C05",
   "status": "proved",
   "theorems": [
    "Verif.Deque.deque_sequence",
    "Verif.Deque.deque_clone",
    "Verif.Deque.deque_eq",
    "Verif.Deque.deque_clone_failure_broken"
   ],
   "note": "Refinement of every history to a list whatever the wrap-around; a clone whose allocation fails is recorded as broken."
  },
  {
   "property": "C06",
   "status": "proved",
   "theorems": [
    "Verif.Deque.queue_fifo"
   ],
   "note": "Removed elements followed by the remaining ones are the pushed ones in order, for all interleavings."
  },
  {
   "property": "C07",
   "status": "proved",
   "theorems": [
    "Verif.Deque.deque_iterate"
   ],
   "note": "Forward, reverse and advance, by induction on the position in the ring."
  },
  {
   "property": "C08",
   "status": "partial",
   "theorems": [
    "Verif.Deque.deque_iter_edit_partial",
    "Verif.Deque.deque_end_iterator_wrong"
   ],
   "note": "Proved for iterators reached by stepping from begin; false for the iterator returned by end(), refuted with a witness."
  },
  {
   "property": "C09",
   "status": "partial",
   "theorems": [
    "Verif.Deque.deque_alloc_failure_partial",
    "Verif.Deque.deque_reserve",
    "Verif.Deque.deque_insert_failure_unchecked"
   ],
   "note": "Proved for push, push_front, reserve and all other calls; false for insert_n, refuted with a witness."
  },
  {
   "property": "C66",
   "status": "proved",
   "theorems": [
    "Verif.Common.next_pow2_least"
   ],
   "note": "Smallest power of two not below n for 1 <= n <= 2^63."
  },
  {
   "property": "C72",
   "status": "proved",
   "theorems": [
    "Verif.Vec.vec_ownership",
    "Verif.Deque.deque_ownership",
    "Verif.Hmap.map_ownership",
    "Verif.Smap.map_ownership",
    "Verif.Clist.list_ownership"
   ],
   "note": "Conservation of elements over all histories; drop destroys each stored element exactly once."
  },
  {
   "property": "C10",
   "status": "proved",
   "theorems": [
    "Verif.PQueue.pqueue_top_is_max",
    "Verif.PQueue.pqueue_make_heap",
    "Verif.PQueue.pqueue_clone"
   ],
   "note": "Heap invariant and conservation of elements over all histories, for every strict weak ordering."
  },
  {
   "property": "C11",
   "status": "proved",
   "theorems": [
    "Verif.PQueue.pqueue_drain_sorted"
   ],
   "note": "Repeated top/pop yields a non-increasing permutation of the contents."
  },
  {
   "property": "C12",
   "status": "partial",
   "theorems": [
    "Verif.PQueue.pqueue_erase_at_partial",
    "Verif.PQueue.pqueue_erase_at_breaks_order"
   ],
   "note": "erase_at removes exactly that element; order kept at the first or last position or if the last element does not exceed the parent; false otherwise, refuted with a history."
  },
  {
   "property": "C13",
   "status": "proved",
   "theorems": [
    "Verif.Sort.sort_correct"
   ],
   "note": "Quicksort with insertion sort: termination, in-range accesses, sorted permutation, every size."
  },
  {
   "property": "C14",
   "status": "partial",
   "theorems": [
    "Verif.Sort.sort_lowhigh_partial",
    "Verif.Sort.sort_lowhigh_disturbs_below"
   ],
   "note": "Proved when nothing in the range is less than an element below lo (always for lo = 0); false otherwise, refuted with a witness."
  },
  {
   "property": "C15",
   "status": "proved",
   "theorems": [
    "Verif.Sort.lower_bound_correct",
    "Verif.Sort.lower_bound_range_correct"
   ],
   "note": "First element not less than the key, for every sorted container."
  },
  {
   "property": "C16",
   "status": "proved",
   "theorems": [
    "Verif.Sort.binary_search_correct"
   ],
   "note": "Index of an equivalent element iff there is one."
  },
  {
   "property": "C73",
   "status": "partial",
   "theorems": [
    "Verif.Sort.sort_inline_raw_wrong",
    "Verif.Sort.sort_correct"
   ],
   "note": "False for strings stored inside the elements: the pivot is a pointer into an element that moves (refuted with a witness). Holds when raw values are not affected by moves (sort_correct)."
  },
  {
   "property": "C74",
   "status": "partial",
   "theorems": [
    "Verif.PQueue.pqueue_pull_returns_destroyed"
   ],
   "note": "False for every non-empty queue: the returned element has always been destroyed. The removal itself is covered by C10."
  },
  {
   "property": "C75",
   "status": "partial",
   "theorems": [
    "Verif.PQueue.pqueue_push_failure_undefined",
    "Verif.PQueue.pqueue_shrink_empty_undefined",
    "Verif.PQueue.pqueue_clone"
   ],
   "note": "False for push on a full queue, clone of a non-empty one and shrink_to_fit of an emptied one (negations proved)."
  },
  {
   "property": "C31",
   "status": "proved",
   "theorems": [
    "Verif.Cbits.cbits_list",
    "Verif.Cbits.cbits_point"
   ],
   "note": "Refinement of every history to a list of booleans; point operations change exactly one bit."
  },
  {
   "property": "C32",
   "status": "proved",
   "theorems": [
    "Verif.Cbits.cbits_count"
   ],
   "note": "Count over all sizes, including garbage past the end of the last word."
  },
  {
   "property": "C33",
   "status": "proved",
   "theorems": [
    "Verif.Cbits.cbits_algebra"
   ],
   "note": "Union, intersection, symmetric difference and disjointness for all pairs of the same size."
  },
  {
   "property": "C34",
   "status": "partial",
   "theorems": [
    "Verif.Cbits.cbits_subset_partial",
    "Verif.Cbits.cbits_subset_reversed"
   ],
   "note": "The exact meaning is proved: subset_of(self, other) tests other within self, the opposite of the documentation (refuted with a witness)."
  },
  {
   "property": "C35",
   "status": "proved",
   "theorems": [
    "Verif.Cbits.cbits_resize"
   ],
   "note": "Resize to any positive size after any history, with unspecified new memory and allocation failure."
  },
  {
   "property": "C76",
   "status": "proved",
   "theorems": [
    "Verif.Cbits.cbits_string"
   ],
   "note": "Text form of any part and round trip."
  },
  {
   "property": "C77",
   "status": "proved",
   "theorems": [
    "Verif.Cbits.popcount_portable"
   ],
   "note": "All 64-bit words, by induction over bytes plus a complete table of 256 bytes."
  },
  {
   "property": "C41",
   "status": "proved",
   "theorems": [
    "Verif.Utf8.utf8_round_trip",
    "Verif.Utf8.text_injective"
   ],
   "note": "Every scalar value, whatever follows in memory; via a complete characterisation of the decoder automaton."
  },
  {
   "property": "C42",
   "status": "proved",
   "theorems": [
    "Verif.Utf8.utf8_valid_n_exact",
    "Verif.Utf8.utf8_valid_exact"
   ],
   "note": "Exact characterisation for all byte strings (the length-limited form stops at an embedded NUL)."
  },
  {
   "property": "C43",
   "status": "partial",
   "theorems": [
    "Verif.Utf8.utf8_count_index",
    "Verif.Utf8.utf8_count_n_partial",
    "Verif.Utf8.utf8_count_n_overread",
    "Verif.Csview.u8_subview_partial",
    "Verif.Csview.u8_tail"
   ],
   "note": "Proved for NUL-terminated text and for views followed by a lead byte; counting a view that ends its object always reads past it (refuted)."
  },
  {
   "property": "C44",
   "status": "proved",
   "theorems": [
    "Verif.Utf8.utf8_decode_progress",
    "Verif.Utf8.utf8_decode_all",
    "Verif.Utf8.utf8_decoder_restarts"
   ],
   "note": "All byte strings, valid or not."
  },
  {
   "property": "C45",
   "status": "partial",
   "theorems": [
    "Verif.Utf8.icmp_view_partial",
    "Verif.Utf8.icmp_view_order_partial",
    "Verif.Utf8.icmp_string_partial",
    "Verif.Utf8.icmp_view_cycle",
    "Verif.Utf8.icmp_view_fold_equal_differs",
    "Verif.Utf8.icmp_string_not_antisymmetric"
   ],
   "note": "Order proved for views of length-stable code points; zero iff fold-equal for NUL-terminated strings; cycles and asymmetry refute the general claim."
  },
  {
   "property": "C78",
   "status": "proved",
   "theorems": [
    "Verif.Utf8.case_mapping",
    "Verif.Utf8.case_mapping_ascii",
    "Verif.Utf8.case_mapping_dotted_i"
   ],
   "note": "All code points, by a complete table check lifted to every natural number."
  },
  {
   "property": "C39",
   "status": "proved",
   "theorems": [
    "Verif.Csview.find_leftmost",
    "Verif.Csview.prefix_suffix_infix"
   ],
   "note": "Leftmost occurrence or NPOS for all haystacks and needles; prefix, suffix and infix tests."
  },
  {
   "property": "C46",
   "status": "partial",
   "theorems": [
    "Verif.Csview.istarts_with_view_partial",
    "Verif.Csview.istarts_with_string_partial",
    "Verif.Csview.istarts_with_incomplete",
    "Verif.Csview.icompare_false_equal"
   ],
   "note": "Sound for length-stable texts and NUL-terminated strings; false in general: true only when the whole strings agree (refuted), and also unsound with U+212A."
  },
  {
   "property": "C47",
   "status": "partial",
   "theorems": [
    "Verif.Csview.trim_partial",
    "Verif.Csview.trim_signed_loses_text"
   ],
   "note": "Holds with unsigned char or ASCII; with signed char non-ASCII text is trimmed away (refuted)."
  },
  {
   "property": "C48",
   "status": "proved",
   "theorems": [
    "Verif.Csview.tokens_lossless",
    "Verif.Csview.tokens_empty_separator"
   ],
   "note": "All inputs and non-empty separators; also records that an empty separator loops forever."
  },
  {
   "property": "C49",
   "status": "partial",
   "theorems": [
    "Verif.Csview.subview_partial",
    "Verif.Csview.subviews_in_base",
    "Verif.Csview.subview_npos_overflow",
    "Verif.Csview.slice_negative_end"
   ],
   "note": "Exact for all arguments whose sum does not overflow; subview(pos, NPOS) overflows for every pos > 0 and slice lets a negative end through (witnesses)."
  },
  {
   "property": "C79",
   "status": "partial",
   "theorems": [
    "Verif.Csview.u8_iterate_partial",
    "Verif.Csview.u8_iterate_empty",
    "Verif.Csview.u8_iterate_empty_view",
    "Verif.Csview.u8_iterate_overread"
   ],
   "note": "Proved for non-empty strings followed by a readable byte; refuted for empty strings and views ending their object."
  },
  {
   "property": "C80",
   "status": "proved",
   "theorems": [
    "Verif.Csview.view_order",
    "Verif.Csview.string_order"
   ],
   "note": "Lexicographic order of unsigned bytes for all strings."
  },
  {
   "property": "C81",
   "status": "partial",
   "theorems": [
    "Verif.Csview.iequals_partial",
    "Verif.Csview.iends_with_partial",
    "Verif.Csview.icompare_false_equal",
    "Verif.Csview.iends_with_view_wrong"
   ],
   "note": "Proved for length-stable texts / NUL-terminated suffixes of the same byte length; refuted otherwise."
  },
  {
   "property": "C36",
   "status": "proved",
   "theorems": [
    "Verif.Cstr.string_bytes",
    "Verif.Cstr.string_calls",
    "Verif.Cstr.string_construct",
    "Verif.Cstr.string_capacity",
    "Verif.Cstr.string_layout"
   ],
   "note": "over all histories of the listed calls; sizes do not overflow isize"
  },
  {
   "property": "C37",
   "status": "partial",
   "theorems": [
    "Verif.Cstr.string_append_self",
    "Verif.Cstr.string_assign_self_partial",
    "Verif.Cstr.string_assign_self_wrong",
    "Verif.Cstr.string_insert_self_wrong"
   ],
   "note": "append: proved; assign: the code writes the terminator before copying, so a part containing position n is corrupted (string_assign_self_wrong); insert of own bytes is undefined (string_insert_self_wrong)"
  },
  {
   "property": "C38",
   "status": "proved",
   "theorems": [
    "Verif.Cstr.string_replace",
    "Verif.Cstr.string_replace_all"
   ],
   "note": ""
  },
  {
   "property": "C40",
   "status": "partial",
   "theorems": [
    "Verif.Cstr.tocase_partial",
    "Verif.Cstr.tocase_exact",
    "Verif.Cstr.tocase_overflow"
   ],
   "note": "valid UTF-8: proved; invalid bytes can overflow the buffer (tocase_overflow), exactly when tocase_exact says"
  },
  {
   "property": "C67",
   "status": "proved",
   "theorems": [
    "Verif.Csview.hash_by_content",
    "Verif.Cstr.string_hash"
   ],
   "note": ""
  },
  {
   "property": "C82",
   "status": "proved",
   "theorems": [
    "Verif.Cstr.string_u8_edit",
    "Verif.Cstr.string_push_pop"
   ],
   "note": "pop requires a nonempty string (undefined otherwise, shown)"
  },
  {
   "property": "C83",
   "status": "partial",
   "theorems": [
    "Verif.Cstr.string_alloc_partial",
    "Verif.Cstr.string_alloc_lost",
    "Verif.Cstr.string_alloc_short"
   ],
   "note": "false for calls that must grow: contents lost (string_alloc_lost), or NULL written through (string_alloc_short)"
  },
  {
   "property": "C84",
   "status": "proved",
   "theorems": [
    "Verif.Cstr.string_join"
   ],
   "note": ""
  },
  {
   "property": "C85",
   "status": "proved",
   "theorems": [
    "Verif.Cstr.string_getdelim"
   ],
   "note": ""
  },
  {
   "property": "C20",
   "status": "proved",
   "theorems": [
    "Verif.Hmap.map_is_finite_map",
    "Verif.Hmap.map_defined",
    "Verif.Hmap.map_get_after",
    "Verif.Hmap.map_results"
   ],
   "note": "All histories of insert, emplace, insert_or_assign, emplace_or_assign, at_mut, erase, erase_at, reserve, shrink_to_fit, clear, clone; every lawful key type and hash function; within the probe-length limit (Spread)."
  },
  {
   "property": "C21",
   "status": "partial",
   "theorems": [
    "Verif.Hmap.map_any_hash_partial",
    "Verif.Hmap.map_collisions_lost"
   ],
   "note": "Holds for at most 1023 keys with any hash function (and beyond within the clustering limit); false for 1024 colliding keys, refuted with a history: the 10-bit distance wraps to 0."
  },
  {
   "property": "C22",
   "status": "proved",
   "theorems": [
    "Verif.Hmap.map_iteration",
    "Verif.Hmap.map_advance"
   ],
   "note": "begin/next visit a permutation of the entries and end; advance(begin, c) is at the c-th entry."
  },
  {
   "property": "C23",
   "status": "partial",
   "theorems": [
    "Verif.Hmap.map_erase_while_iterating_partial",
    "Verif.Hmap.map_erase_if",
    "Verif.Hmap.map_erase_revisits"
   ],
   "note": "Termination, every entry visited, exactly the selected entries erased, exactly once if the first bucket's entry is at home; the exactly-once part is false when the shift wraps around, refuted with a history."
  },
  {
   "property": "C24",
   "status": "proved",
   "theorems": [
    "Verif.Hmap.map_rehash"
   ],
   "note": "Includes the single-precision rounding of the load factor for sizes below 2^59."
  },
  {
   "property": "C86",
   "status": "proved",
   "theorems": [
    "Verif.Hmap.map_alloc_failure"
   ],
   "note": "Any map state."
  },
  {
   "property": "C87",
   "status": "partial",
   "theorems": [
    "Verif.Hmap.map_eq_partial",
    "Verif.Hmap.map_eq_ignores_values"
   ],
   "note": "Exact for sets; for maps the mapped values are not compared, refuted with a history."
  },
  {
   "property": "C88",
   "status": "partial",
   "theorems": [
    "Verif.Hmap.map_clone_partial",
    "Verif.Hmap.map_clone_failure"
   ],
   "note": "Correct when the allocations succeed; otherwise the clone of any non-empty map keeps its size without buckets and every lookup in it is undefined."
  },
  {
   "property": "C89",
   "status": "proved",
   "theorems": [
    "Verif.Hmap.map_put_n"
   ],
   "note": "Within the probe-length limit."
  },
  {
   "property": "C25",
   "status": "proved",
   "theorems": [
    "Verif.Smap.map_is_finite_map",
    "Verif.Smap.map_defined",
    "Verif.Smap.map_get_after",
    "Verif.Smap.map_results"
   ],
   "note": "All histories of insert, emplace, insert_or_assign, emplace_or_assign, put_n, at_mut, erase, erase_at, erase_range, reserve, clear (and clone, shrink_to_fit within C29); every lawful comparison; growth computed without int32 overflow (3n < 2^31)."
  },
  {
   "property": "C26",
   "status": "proved",
   "theorems": [
    "Verif.Smap.map_ordered_iteration",
    "Verif.Smap.map_advance"
   ],
   "note": ""
  },
  {
   "property": "C27",
   "status": "proved",
   "theorems": [
    "Verif.Smap.map_height",
    "Verif.Smap.map_iterator_stack",
    "Verif.Smap.map_defined"
   ],
   "note": "An overrun of up[64] or _st[36] is undefined in the model; definedness of every valid call excludes it."
  },
  {
   "property": "C28",
   "status": "proved",
   "theorems": [
    "Verif.Smap.map_lower_bound"
   ],
   "note": ""
  },
  {
   "property": "C29",
   "status": "partial",
   "theorems": [
    "Verif.Smap.map_clone_partial",
    "Verif.Smap.map_clone_insert_undefined",
    "Verif.Smap.map_clone_failure_undefined",
    "Verif.Smap.erase_leaves_free"
   ],
   "note": "The clone has the same entries; it can be used like any map if nothing was erased from the original. Otherwise false: for every original with erased entries, inserting a new key into the clone writes out of bounds; a failed allocation writes through NULL."
  },
  {
   "property": "C30",
   "status": "partial",
   "theorems": [
    "Verif.Smap.map_erase_at",
    "Verif.Smap.map_erase_range_partial",
    "Verif.Smap.map_erase_range_wrong"
   ],
   "note": "erase_at in full. erase_range in full when raw keys are independent of key objects or the range ends at end(); false otherwise, refuted."
  },
  {
   "property": "C90",
   "status": "partial",
   "theorems": [
    "Verif.Smap.map_alloc_failure_partial",
    "Verif.Smap.map_alloc_failure_loses_entries"
   ],
   "note": "False for every insertion that has to grow: all entries are lost while size keeps counting them."
  },
  {
   "property": "C91",
   "status": "partial",
   "theorems": [
    "Verif.Smap.map_eq_partial",
    "Verif.Smap.map_eq_ignores_values"
   ],
   "note": "Exact for sets; mapped values are not compared, refuted with a history."
  },
  {
   "property": "C92",
   "status": "proved",
   "theorems": [
    "Verif.Smap.map_front_back"
   ],
   "note": ""
  },
  {
   "property": "C93",
   "status": "proved",
   "theorems": [
    "Verif.Smap.map_put_n"
   ],
   "note": ""
  },
  {
   "property": "C17",
   "status": "proved",
   "theorems": [
    "Verif.Clist.list_is_sequence",
    "Verif.Clist.list_one_cycle",
    "Verif.Clist.list_queries"
   ],
   "note": "All histories over any number of lists of push, put_n, pop, insert_at, erase_at, erase_range, splice, splice_range, split_off, node moves, reverse, remove, sort, copy, move, clear; successful allocations (list_alloc_failure shows the null dereference otherwise)."
  },
  {
   "property": "C18",
   "status": "proved",
   "theorems": [
    "Verif.Clist.list_remove"
   ],
   "note": ""
  },
  {
   "property": "C19",
   "status": "proved",
   "theorems": [
    "Verif.Clist.list_sort"
   ],
   "note": "Including failed reallocation: the list is unchanged and false is returned."
  },
  {
   "property": "C94",
   "status": "proved",
   "theorems": [
    "Verif.Clist.list_find",
    "Verif.Clist.list_find_in",
    "Verif.Clist.list_eq"
   ],
   "note": ""
  },
  {
   "property": "C95",
   "status": "partial",
   "theorems": [
    "Verif.Clist.list_insert_iter",
    "Verif.Clist.list_erase_iter",
    "Verif.Clist.list_splice_iter",
    "Verif.Clist.list_later_iter",
    "Verif.Clist.list_erase_range_iter_partial",
    "Verif.Clist.list_erase_range_empty",
    "Verif.Clist.list_erase_range_iter",
    "Verif.Clist.list_insert_end_iter"
   ],
   "note": "insert_at, erase_at and splice proved; false for erase_range: undefined on an empty list with end(), and the returned iterator keeps a dangling predecessor (witnesses). insert_at(list_end()) returns an iterator that cannot be advanced."
  },
  {
   "property": "C50",
   "status": "proved",
   "theorems": [
    "Verif.Cspan.span_md",
    "Verif.Cspan.span_md_bijective",
    "Verif.Cspan.span_at",
    "Verif.Cspan.span_at_checked"
   ],
   "note": "Row- and column-major. Preconditions: positive extents below 2^31, strides fit int32_t (otherwise signed overflow, undefined), rank * size below 2^62."
  },
  {
   "property": "C51",
   "status": "proved",
   "theorems": [
    "Verif.Cspan.span_slice",
    "Verif.Cspan.span_transpose",
    "Verif.Cspan.span_swap_axes",
    "Verif.Cspan.span_swap_axes_checked"
   ],
   "note": "Slices with the documented argument forms, any strides (also negative); index tuples of the slice correspond one to one to the selected index tuples."
  },
  {
   "property": "C52",
   "status": "proved",
   "theorems": [
    "Verif.Cspan.span_each",
    "Verif.Cspan.tuples_lexicographic",
    "Verif.Cspan.span_each_null"
   ],
   "note": "Any strides. Code note: a span with an extent of 0 and non-NULL data is not iterated zero times (span_each_zero_extent_visits)."
  },
  {
   "property": "C96",
   "status": "proved",
   "theorems": [
    "Verif.Cspan.span_set_all"
   ],
   "note": ""
  },
  {
   "property": "C97",
   "status": "proved",
   "theorems": [
    "Verif.Cspan.span_eq"
   ],
   "note": ""
  },
  {
   "property": "C98",
   "status": "partial",
   "theorems": [
    "Verif.Cspan.span_submd",
    "Verif.Cspan.span_subspan_partial",
    "Verif.Cspan.span_subspan_count_unchecked"
   ],
   "note": "cspan_subspan does not check its count, so it is not equal to the slice it is documented to equal when the count is too large."
  },
  {
   "property": "C99",
   "status": "partial",
   "theorems": [
    "Verif.Cspan.span_size",
    "Verif.Cspan.span_front",
    "Verif.Cspan.span_back_partial",
    "Verif.Cspan.span_back_strided"
   ],
   "note": "cspan_back is data + size - 1, which is not the last element of a span with other strides (e.g. a slice with step 2)."
  },
  {
   "property": "C100",
   "status": "partial",
   "theorems": [
    "Verif.Cspan.span_slice_checked_partial",
    "Verif.Cspan.span_slice_negative_start"
   ],
   "note": "A negative start of a range passes the checks."
  },
  {
   "property": "C101",
   "status": "proved",
   "theorems": [
    "Verif.Cspan.span_is_layout"
   ],
   "note": ""
  },
  {
   "property": "C53",
   "status": "partial",
   "theorems": [
    "Verif.Random.uniform_in_range_partial",
    "Verif.Random.uniform_full_range_overflows"
   ],
   "note": "Proved for every generator and both ways of computing the result, when high-low+1 is representable in the signed type; for wider ranges (e.g. [0, INT64_MAX]) crand64_make_uniform overflows a signed addition, proved as the negation."
  },
  {
   "property": "C54",
   "status": "partial",
   "theorems": [
    "Verif.Random.uniform_unbiased_partial",
    "Verif.Random.uniform_redraws"
   ],
   "note": "Exact count of accepted outputs per value, for all ranges with high-low+1 representable; wider ranges overflow (see C53)."
  },
  {
   "property": "C55",
   "status": "proved",
   "theorems": [
    "Verif.Random.shuffle_permutes",
    "Verif.Random.shuffle_reaches_all"
   ],
   "note": "Permutation for every random stream, and every permutation is reached by some stream."
  },
  {
   "property": "C56",
   "status": "proved",
   "theorems": [
    "Verif.Random.crand64_period",
    "Verif.Random.crand32_period",
    "Verif.Random.streams_differ"
   ],
   "note": "Transition one to one, no repetition within 2^64 (2^32) steps for odd streams, state returns only at multiples of that."
  },
  {
   "property": "C102",
   "status": "proved",
   "theorems": [
    "Verif.Random.real_unit_interval"
   ],
   "note": "Results as exact numerators over 2^53 / 2^32; the floating point multiplication by a power of two is exact and not modelled separately."
  },
  {
   "property": "C63",
   "status": "partial",
   "theorems": [
    "Verif.Algo.c_range_partial",
    "Verif.Algo.c_range_unit_partial",
    "Verif.Algo.crange_partial",
    "Verif.Algo.crange_advance",
    "Verif.Algo.crange_empty_wrong",
    "Verif.Algo.c_range_overflow"
   ],
   "note": "c_range: full up to signed overflow (shown real: c_range_overflow). crange: the property fails for empty ranges, which yield start once (crange_empty_wrong); proved for non-empty ranges."
  },
  {
   "property": "C64",
   "status": "partial",
   "theorems": [
    "Verif.Algo.filter_pipeline_partial",
    "Verif.Algo.filter_vec_partial",
    "Verif.Algo.filter_deque_partial",
    "Verif.Algo.filter_list_partial",
    "Verif.Algo.filter_smap_partial",
    "Verif.Algo.filter_range_partial",
    "Verif.Algo.filter_counters_undefined",
    "Verif.Algo.filter_flags_undefined",
    "Verif.Algo.ffilter_partial",
    "Verif.Algo.ffilter_deque_partial",
    "Verif.Algo.ffilter_unordered_undefined"
   ],
   "note": "Proved for at most 19 counting stages, 20 flag stages and fewer than 2^32 elements; beyond, the fixed arrays overflow (filter_counters_undefined, filter_flags_undefined). Loops with a body (c_ffilter) execute it for the same values up to a break, provided the two initialisers of the loop variable are evaluated in order, which C leaves open (ffilter_unordered_undefined). Predicates and mapped expressions are pure functions of the value."
  },
  {
   "property": "C65",
   "status": "partial",
   "theorems": [
    "Verif.Algo.vec_erase_remove_partial",
    "Verif.Algo.stack_erase_remove_partial",
    "Verif.Algo.vec_erase_remove_undefined",
    "Verif.Algo.deque_erase_remove",
    "Verif.Algo.smap_erase_if",
    "Verif.Clist.list_erase_if",
    "Verif.Hmap.map_erase_if"
   ],
   "note": "Full for deque, queue, list, hash maps and sorted maps; for vec and stack it fails on an allocated empty container, which is read out of its live range (vec_erase_remove_undefined)."
  },
  {
   "property": "C103",
   "status": "proved",
   "theorems": [
    "Verif.Algo.find_if",
    "Verif.Algo.find_in",
    "Verif.Algo.quantifiers",
    "Verif.Algo.iterate_vec_partial",
    "Verif.Algo.iterate_deque",
    "Verif.Algo.iterate_deque_reverse",
    "Verif.Algo.iterate_hmap",
    "Verif.Algo.iterate_smap",
    "Verif.Algo.iterate_list"
   ],
   "note": "For every sequence an iterator goes over; the iterate_* theorems give that sequence for each container."
  },
  {
   "property": "C104",
   "status": "proved",
   "theorems": [
    "Verif.Algo.append_if_vec"
   ],
   "note": "Output container: vec, with successful allocation; any source."
  },
  {
   "property": "C105",
   "status": "proved",
   "theorems": [
    "Verif.Algo.vec_reverse",
    "Verif.Algo.deque_reverse",
    "Verif.Algo.array_reverse"
   ],
   "note": ""
  },
  {
   "property": "C106",
   "status": "partial",
   "theorems": [
    "Verif.Algo.each_n",
    "Verif.Algo.filter_zip_partial"
   ],
   "note": "c_each_n in full; c_filter_zip within the limits of C64."
  },
  {
   "property": "C57",
   "status": "proved",
   "theorems": [
    "Verif.Arc.arc_step_defined",
    "Verif.Arc.arc_call_defined",
    "Verif.Arc.arc_alive",
    "Verif.Arc.arc_destroy_last",
    "Verif.Arc.arc_conserved",
    "Verif.Arc.arc_value_stable",
    "Verif.Arc.arc_no_garbage",
    "Verif.Arc.arc_no_leak"
   ],
   "note": "Any number of threads, any interleaving of the atomic operations, destruction, frees and stores; sequentially consistent atomics. `assign` from a handle stored inside the object being replaced is outside the model (arc.h 175-179 reads `*owned` after the drop, so that call is a use after free)."
  },
  {
   "property": "C58",
   "status": "proved",
   "theorems": [
    "Verif.Box.box_step_defined",
    "Verif.Box.box_owned_once",
    "Verif.Box.box_conserved",
    "Verif.Box.box_no_leak"
   ],
   "note": ""
  },
  {
   "property": "C107",
   "status": "proved",
   "theorems": [
    "Verif.Arc.arc_use_count",
    "Verif.Arc.arc_call_finishes",
    "Verif.Arc.arc_step_progress"
   ],
   "note": "The plain (non-atomic) read in use_count is a data race if another thread is in a call; the theorem is about the value when none is."
  },
  {
   "property": "C108",
   "status": "proved",
   "theorems": [
    "Verif.Box.box_contents",
    "Verif.Box.box_destroyed"
   ],
   "note": ""
  },
  {
   "property": "C59",
   "status": "partial",
   "theorems": [
    "Verif.Coro.coroutine_cleanup_once_partial",
    "Verif.Coro.coroutine_suspending_cleanup_partial",
    "Verif.Coro.coroutine_cleanup_return_restarts",
    "Verif.Coro.coroutine_stop_cleans_up",
    "Verif.Coro.coroutine_done_inert",
    "Verif.Coro.coroutine_value_body",
    "Verif.Coro.coroutine_stop_twice_skips_cleanup",
    "Verif.Coro.coroutine_cleanup_restarts"
   ],
   "note": "For all user code and all histories of resume and stop. The code violates the claim when a stopped coroutine is stopped again before it is resumed (cleanup skipped) and when it is stopped while suspended behind cco_finally (cleanup restarted); likewise cco_return in a cleanup that has suspended restarts it; all shown with witnesses. Cleanup that yields or awaits is entered once otherwise."
  },
  {
   "property": "C60",
   "status": "partial",
   "theorems": [
    "Verif.Coro.fiber_run_safe_partial",
    "Verif.Coro.fiber_every_live_resumed_partial",
    "Verif.Coro.fiber_ring_kept",
    "Verif.Coro.fiber_spawn_joins",
    "Verif.Coro.fiber_spawned_by_last_is_lost",
    "Verif.Coro.fiber_spawned_behind_other_is_lost",
    "Verif.Coro.fiber_can_starve"
   ],
   "note": "The code violates the claim: a fiber spawned by the only fiber in the resume in which that one finishes is lost, and a fiber can starve behind one that spawns short tasks. Proved: memory safety, each fiber freed once, ends exactly when none is left (without such a spawn), and every live fiber resumed within a bound given by the numbers of fibers and spawns."
  },
  {
   "property": "C61",
   "status": "proved",
   "theorems": [
    "Verif.Coro.semaphore_bound"
   ],
   "note": "cco_acquire_semaphore called on its own (without awaiting) is not covered; overflow of the counter not modelled."
  },
  {
   "property": "C109",
   "status": "proved",
   "theorems": [
    "Verif.Coro.task_awaiting_not_resumed",
    "Verif.Coro.task_completed_resumes_parent",
    "Verif.Coro.task_error_unwinds",
    "Verif.Coro.task_error_recovered"
   ],
   "note": "A task is in the chain at most once; cco_yield_to left out."
  },
  {
   "property": "C110",
   "status": "proved",
   "theorems": [
    "Verif.Coro.semaphore_exclusion",
    "Verif.Coro.semaphore_no_lost_release"
   ],
   "note": ""
  },
  {
   "property": "C62",
   "status": "partial",
   "theorems": [
    "Verif.Coption.coption_permutes_partial",
    "Verif.Coption.parse_split",
    "Verif.Coption.coption_operands",
    "Verif.Coption.coption_ambiguous_never_ends"
   ],
   "note": "proved for every command line without an ambiguous long option; for an ambiguous abbreviation the code returns '?' without advancing, and it is proved that the loop then never ends; calls after -1 and after an ambiguous option are the subject of C133"
  },
  {
   "property": "C111",
   "status": "proved",
   "theorems": [
    "Verif.Coption.coption_reports",
    "Verif.Coption.coption_operands"
   ],
   "note": "bytes are non-negative (a byte above 127 is not sign-extended); long option values differ from -1"
  },
  {
   "property": "C68",
   "status": "partial",
   "theorems": [
    "Verif.Regex.pattern_match_sound_partial",
    "Verif.Regex.regex_match_sound_partial",
    "Verif.Regex.regex_match_results",
    "Verif.Regex.regex_fullmatch_partial",
    "Verif.Regex.regex_empty_pattern",
    "Verif.Regex.not_word_boundary_consumes",
    "Verif.Regex.word_boundary_edges"
   ],
   "note": "for every pattern text of the described syntax (pattern_*) and every sequence of symbols (regex_*), every NUL-terminated text (also a view whose end is the terminator) and starting position; \\b where the edges of the text are as it takes them (false otherwise: word_boundary_edges); \\B (refuted by not_word_boundary_consumes) is left out, and (?i) that changes the mode (C160)"
  },
  {
   "property": "C69",
   "status": "partial",
   "theorems": [
    "Verif.Regex.pattern_leftmost_longest_partial",
    "Verif.Regex.pattern_nomatch_partial",
    "Verif.Regex.pattern_head_leftmost_longest_partial",
    "Verif.Regex.regex_leftmost_longest_partial",
    "Verif.Regex.regex_nomatch_partial",
    "Verif.Regex.regex_head_leftmost_longest_partial",
    "Verif.Regex.pattern_search",
    "Verif.Regex.match_error_although_matching",
    "Verif.Regex.thread_list_overflow",
    "Verif.Regex.caret_misses_line",
    "Verif.Regex.icase_misses_kelvin",
    "Verif.Regex.fullmatch_misses",
    "Verif.Regex.fullmatch_reports_other"
   ],
   "note": "unconditional on the run for all patterns that fit the thread lists (pattern_search, a condition computed from the pattern); leftmost-longest for every pattern and text when the run stays inside its thread lists, ^ is not used on texts with newlines and no non-ASCII character folds to ASCII under ICASE; each of these conditions is needed: the witnesses refute the claim without it"
  },
  {
   "property": "C71",
   "status": "partial",
   "theorems": [
    "Verif.Regex.pattern_view_partial",
    "Verif.Regex.regex_view_partial",
    "Verif.Regex.regex_head_leftmost_longest_partial",
    "Verif.Regex.view_match_outside"
   ],
   "note": "proved for patterns that do not begin with a literal ASCII character or ^ outside a group; for those the claim fails: view_match_outside"
  },
  {
   "property": "C112",
   "status": "proved",
   "theorems": [
    "Verif.Regex.pattern_accepted",
    "Verif.Regex.pattern_compiled",
    "Verif.Regex.pattern_rejected",
    "Verif.Regex.pattern_unambiguous",
    "Verif.Regex.pattern_compiles",
    "Verif.Regex.compiled_groups",
    "Verif.Regex.nesting_limit",
    "Verif.Regex.group_limit"
   ],
   "note": "for the syntax of Syntax.lean: without \\B, inline flags, unquoted - ^ [ inside classes, \\x{..} of letters (which fails: hex_letter_wrong); the limits are 19 pending operators (Re.depth, computed from the pattern), 31 groups, 16 classes, 31 items in a class; within them every pattern is compiled (pattern_compiles)"
  },
  {
   "property": "C113",
   "status": "partial",
   "theorems": [
    "Verif.Regex.compile_in_bounds_partial",
    "Verif.Regex.compile_not_ub",
    "Verif.Regex.compile_reads_behind"
   ],
   "note": "every text without an unclosed \\Q or final backslash that is at most 32 long or has no class, and every well-formed pattern of any length (pattern_accepted); for the others it fails: compile_reads_behind"
  },
  {
   "property": "C114",
   "status": "partial",
   "theorems": [
    "Verif.Regex.class_contents_partial",
    "Verif.Regex.pattern_match_sound_partial",
    "Verif.Regex.icase_range_wrong",
    "Verif.Regex.negated_dash_is_range",
    "Verif.Regex.escaped_range_wrong",
    "Verif.Regex.class_truncated",
    "Verif.Regex.hex_letter_wrong"
   ],
   "note": "for classes of at most 31 items, with -, ^ and [ unquoted where they stand for themselves; under CREG_ICASE ranges only between lower case letters, between upper case letters or between digits (there they contain what is equal to a character of the range up to case), named classes fully; beyond that it fails: class_truncated, icase_range_wrong, negated_dash_is_range, escaped_range_wrong ([\\t-\\r] contains A)"
  },
  {
   "property": "C115",
   "status": "partial",
   "theorems": [
    "Verif.Regex.pattern_fullmatch_partial",
    "Verif.Regex.regex_fullmatch_partial",
    "Verif.Regex.fullmatch_misses",
    "Verif.Regex.fullmatch_reports_other"
   ],
   "note": "success implies a match of whole lines; the converse and the reported span fail: fullmatch_misses, fullmatch_reports_other"
  },
  {
   "property": "C70",
   "status": "partial",
   "theorems": [
    "Verif.Regex.replace_partial",
    "Verif.Regex.replace_fits",
    "Verif.Regex.replaced_all",
    "Verif.Regex.replace_empty_never_advances",
    "Verif.Regex.replace_empty_case",
    "Verif.Regex.replace_caret_again",
    "Verif.Regex.replace_boundary_again",
    "Verif.Regex.replace_hides_error"
   ],
   "note": "for every pattern text, replacement text, count, transform and input when the pattern fits the thread lists (replace_fits; replace_partial: when the matcher does not err) and the first-character shortcut is harmless (Covered), without \\b; refuted for patterns matching the empty text (replace_empty_never_advances), for ^ and \\b, which are tested as if the rest were a text of its own (replace_caret_again, replace_boundary_again), and when the matcher errs (replace_hides_error)"
  },
  {
   "property": "C116",
   "status": "proved",
   "theorems": [
    "Verif.Regex.substitution_text",
    "Verif.Regex.substitution_unambiguous"
   ],
   "note": "for every replacement text and every content of the groups"
  },
  {
   "property": "C117",
   "status": "partial",
   "theorems": [
    "Verif.Regex.iterate_partial",
    "Verif.Regex.iterate_fits",
    "Verif.Regex.walk_ordered",
    "Verif.Regex.iterate_stops_at_empty"
   ],
   "note": "same conditions as C70; the iteration ends at the first empty match, although there are more matches: iterate_stops_at_empty"
  },
  {
   "property": "C118",
   "status": "proved",
   "theorems": [
    "Verif.Regex.pattern_answers",
    "Verif.Regex.pattern_search",
    "Verif.Regex.replace_fits",
    "Verif.Regex.iterate_fits",
    "Verif.Regex.regex_answers",
    "Verif.Regex.long_literal_fails"
   ],
   "note": "the bound is Re.fits of FitsSpec.lean; the fast check of the first character must be harmless for completeness (Covered); long_literal_fails: beyond the bound there are errors"
  },
  {
   "property": "C119",
   "status": "proved",
   "theorems": [
    "Verif.Regex.literal_found",
    "Verif.Regex.quoted_found",
    "Verif.Regex.long_literal_fails"
   ],
   "note": "without ICASE; for 98 equal letters it fails: long_literal_fails"
  },
  {
   "property": "C120",
   "status": "partial",
   "theorems": [
    "Verif.Utf8.class_group",
    "Verif.Utf8.class_alpha",
    "Verif.Utf8.class_alnum",
    "Verif.Utf8.class_word",
    "Verif.Utf8.class_blank",
    "Verif.Utf8.class_space",
    "Verif.Utf8.class_cased",
    "Verif.Utf8.class_disjoint",
    "Verif.Utf8.class_word_space",
    "Verif.Utf8.class_plane",
    "Verif.Utf8.class_ascii",
    "Verif.Utf8.class_control",
    "Verif.Utf8.class_digits",
    "Verif.Utf8.class_surrogate",
    "Verif.Utf8.alpha_misses_cased",
    "Verif.Utf8.alpha_has_digits"
   ],
   "note": "the tables are those of the source, not those of the Unicode standard; the documented contents of Alpha (cased letters and letter numbers) are refuted: alpha_misses_cased, alpha_has_digits"
  },
  {
   "property": "C121",
   "status": "proved",
   "theorems": [
    "Verif.Regex.runs_visited",
    "Verif.Regex.runs_replaced",
    "Verif.Regex.words_visited",
    "Verif.Regex.space_removed",
    "Verif.Regex.tab_means",
    "Verif.Regex.tab_defined"
   ],
   "note": "without CREG_ICASE; allocation succeeds; fewer runs than the count of replacements (a count above the length of the text)"
  },
  {
   "property": "C122",
   "status": "partial",
   "theorems": [
    "Verif.Fmt.fmt_conversions_partial",
    "Verif.Fmt.fmt_types_fit",
    "Verif.Fmt.fmt_explicit",
    "Verif.Fmt.fmt_explicit_wide",
    "Verif.Fmt.fmt_plain_partial",
    "Verif.Fmt.fmt_plain_wrong"
   ],
   "note": "with at least one argument in full, while the translation fits the buffer; without arguments the untranslated text is printed, so {{, }} and % come out wrong (fmt_plain_wrong); an explicit conversion needs its length modifier (fmt_explicit); printf itself is not modelled"
  },
  {
   "property": "C123",
   "status": "proved",
   "theorems": [
    "Verif.Fmt.fmt_detects",
    "Verif.Fmt.fmt_unique"
   ],
   "note": "whenever the call does not overflow its buffer (C124)"
  },
  {
   "property": "C124",
   "status": "partial",
   "theorems": [
    "Verif.Fmt.fmt_safe_partial",
    "Verif.Fmt.fmt_conversions_partial",
    "Verif.Fmt.fmt_overflow"
   ],
   "note": "for all texts that, percent signs counted twice, leave 7 characters per argument; exact for documented formats; false for the documented limit: fmt_overflow"
  },
  {
   "property": "C125",
   "status": "partial",
   "theorems": [
    "Verif.Fmt.stream_contents_partial",
    "Verif.Fmt.stream_empty_wrong",
    "Verif.Fmt.stream_memory_wrong"
   ],
   "note": "if the first text is not empty and memory is available; otherwise the code writes through NULL; arguments do not point into the stream's own block"
  },
  {
   "property": "C126",
   "status": "partial",
   "theorems": [
    "Verif.Zstr.find_partial",
    "Verif.Zstr.find_at_partial",
    "Verif.Zstr.find_stops_at_nul",
    "Verif.Zstr.find_nul_wrong",
    "Verif.Zstr.find_at_negative"
   ],
   "note": "for contents without NUL and positions that are not negative; false otherwise: nothing behind a NUL is found (find_stops_at_nul), a negative position reads before the buffer (find_at_negative)"
  },
  {
   "property": "C127",
   "status": "partial",
   "theorems": [
    "Verif.Zstr.starts_with",
    "Verif.Zstr.ends_with_contains",
    "Verif.Zstr.equals_partial",
    "Verif.Zstr.equals_nul_wrong"
   ],
   "note": "all tests for all contents, except cstr_equals with a C string, which ignores everything behind the first NUL (equals_nul_wrong)"
  },
  {
   "property": "C128",
   "status": "partial",
   "theorems": [
    "Verif.Zstr.advance_partial",
    "Verif.Zstr.advance_before_start",
    "Verif.Zstr.advance_leaves_view"
   ],
   "note": "whenever the target is not before the first character; otherwise the walk leaves the string (advance_before_start) or the view (advance_leaves_view)"
  },
  {
   "property": "C129",
   "status": "partial",
   "theorems": [
    "Verif.Zstr.from_pos_partial",
    "Verif.Zstr.u8_from_pos",
    "Verif.Zstr.from_pos_negative",
    "Verif.Zstr.u8_at_past_end"
   ],
   "note": "for positions that are not negative; a negative byte position gives bytes before the view (from_pos_negative) and the character past the end is the terminator (u8_at_past_end)"
  },
  {
   "property": "C130",
   "status": "partial",
   "theorems": [
    "Verif.Control.with_scope",
    "Verif.Control.defer_scope",
    "Verif.Control.nested_scopes_partial",
    "Verif.Control.break_leaks"
   ],
   "note": "exact meaning for all bodies (with_scope, defer_scope); the release is skipped when the body ends by break or return (break_leaks)"
  },
  {
   "property": "C131",
   "status": "partial",
   "theorems": [
    "Verif.Control.when_groups",
    "Verif.Control.when_dispatch",
    "Verif.Control.when_variant",
    "Verif.Control.is_partial",
    "Verif.Control.is_swallows_break"
   ],
   "note": "selection in full; break and continue inside never reach a loop around it (is_swallows_break)"
  },
  {
   "property": "C132",
   "status": "proved",
   "theorems": [
    "Verif.Control.each_kv",
    "Verif.Control.items_each",
    "Verif.Control.drop_all"
   ],
   "note": "the iteration itself (begin, next) is that of the containers, C19, C27 and others; here the entries are a list"
  },
  {
   "property": "C133",
   "status": "partial",
   "theorems": [
    "Verif.Coption.coption_any_calls",
    "Verif.Coption.coption_end_again_partial",
    "Verif.Coption.coption_again_after_dashes"
   ],
   "note": "memory safety, permutation and the bounds of ind are proved for every sequence of calls; the claim on calls after -1 needs the command line to contain no -- (after it the code parses the operands as options: the documentation says -1 means argv is fully processed, and coption_again_after_dashes is the witness for the exception) and the short options not to be NULL"
  },
  {
   "property": "C134",
   "status": "partial",
   "theorems": [
    "Verif.Cost.vec_reserved_partial",
    "Verif.Cost.vec_reserved_insert_asks",
    "Verif.Cost.vec_reserved_resize_shrinks",
    "Verif.Cost.stack_reserved_partial",
    "Verif.Cost.stack_reserved_append_asks",
    "Verif.Cost.deque_reserved",
    "Verif.Cost.pqueue_reserved",
    "Verif.Cost.hmap_reserved",
    "Verif.Cost.smap_reserved",
    "Verif.Cost.cstr_reserved"
   ],
   "note": "Full for deque, queue, pqueue, hmap, hset, smap, sset and cstr. For vec and stack the claim fails for range insertions that exactly fill the reserved room (vec_reserved_insert_asks, stack_reserved_append_asks): the code reallocates when size+n >= capacity. The partial theorems hold with one more free place for these calls, and exactly for push."
  },
  {
   "property": "C135",
   "status": "proved",
   "theorems": [
    "Verif.Cost.vec_growth",
    "Verif.Cost.stack_growth",
    "Verif.Cost.deque_growth",
    "Verif.Cost.pqueue_growth",
    "Verif.Cost.hmap_growth",
    "Verif.Cost.smap_growth",
    "Verif.Cost.cstr_growth"
   ],
   "note": "For histories of calls other than reserve, resize, shrink_to_fit (and clone, put_n, clear for smap), which concern the capacity themselves. Successful calls that needed the allocator are charged with all elements present."
  },
  {
   "property": "C136",
   "status": "proved",
   "theorems": [
    "Verif.Cost.sort_nesting",
    "Verif.Cost.sort_nesting_bounded"
   ],
   "note": "The number of active calls is made visible by a version of the function with a limited number of frames, which is undefined when the frames run out."
  },
  {
   "property": "C137",
   "status": "proved",
   "theorems": [
    "Verif.Cost.lower_bound_comparisons",
    "Verif.Cost.binary_search_comparisons"
   ],
   "note": "Counts the pairs whose answers matter; repeated questions about one pair count once."
  },
  {
   "property": "C138",
   "status": "proved",
   "theorems": [
    "Verif.Cost.pqueue_push_comparisons",
    "Verif.Cost.pqueue_erase_comparisons",
    "Verif.Cost.pqueue_pop_comparisons",
    "Verif.Cost.pqueue_make_heap_comparisons"
   ],
   "note": "Counts as for C137."
  },
  {
   "property": "C139",
   "status": "proved",
   "theorems": [
    "Verif.Cost.smap_search_comparisons",
    "Verif.Cost.smap_change_comparisons"
   ],
   "note": "Counts as for C137."
  },
  {
   "property": "C140",
   "status": "proved",
   "theorems": [
    "Verif.Coro.coroutine_sequential",
    "Verif.Coro.coroutine_complete",
    "Verif.Coro.coroutine_cleanup",
    "Verif.Coro.loose_break_skips_cleanup",
    "Verif.Coro.return_in_cleanup_restarts"
   ],
   "note": "Local variables that do not survive a suspension, goto and switch statements of the user are not modelled; stops happen where the coroutine is suspended in its body."
  },
  {
   "property": "C141",
   "status": "partial",
   "theorems": [
    "Verif.Cost.vec_shrink_partial",
    "Verif.Cost.stack_shrink_partial",
    "Verif.Cost.deque_shrink_partial",
    "Verif.Cost.pqueue_shrink_partial",
    "Verif.Cost.hmap_shrink",
    "Verif.Cost.smap_shrink",
    "Verif.Cost.cstr_shrink",
    "Verif.Cost.vec_shrink_empty",
    "Verif.Cost.stack_shrink_empty",
    "Verif.Cost.deque_shrink_empty"
   ],
   "note": "False of empty vec, stack and deque, which keep their room (proved); pqueue: shrinking an empty one is undefined (pqueue_shrink_empty_undefined)."
  },
  {
   "property": "C142",
   "status": "proved",
   "theorems": [
    "Verif.Vec.vec_put_n",
    "Verif.Vec.vec_erase_range",
    "Verif.Vec.vec_take",
    "Verif.Deque.deque_index",
    "Verif.PQueue.pqueue_drop",
    "Verif.Clist.list_unlink_front",
    "Verif.Cspan.span_from_n"
   ],
   "note": ""
  },
  {
   "property": "C143",
   "status": "proved",
   "theorems": [
    "Verif.Coro.Proc.task_sequential",
    "Verif.Coro.Proc.task_complete",
    "Verif.Coro.Proc.task_sequential_plain",
    "Verif.Coro.Proc.suspended_cleanup_abandoned",
    "Verif.Coro.Proc.own_error_restarts"
   ],
   "note": "Every awaited task is freshly initialised and awaited without await bits (bits: C109); stopping tasks from outside is not part of this model."
  },
  {
   "property": "C144",
   "status": "partial",
   "theorems": [
    "Verif.Hash.hash_defined",
    "Verif.Hash.hash_injective",
    "Verif.Hash.hash_str_injective",
    "Verif.Hash.hash_one_word",
    "Verif.Hash.float_hash_partial",
    "Verif.Hash.float_zero_hash"
   ],
   "note": "All proved except that keys with == have the same hash, which fails for floating point keys: the two zeros are equal but hash differently (float_zero_hash); for all other doubles it holds (float_hash_partial)."
  },
  {
   "property": "C145",
   "status": "partial",
   "theorems": [
    "Verif.Hash.mix_not_commutative",
    "Verif.Hash.mix_last_injective",
    "Verif.Hash.mix_low_bit",
    "Verif.Hash.mix_loses_all",
    "Verif.Hash.mix_loses_top"
   ],
   "note": "Non-commutativity and dependence on the last hash are proved; dependence on the other hashes fails: a last hash with all bits set absorbs all others (mix_loses_all), and the highest bit can be lost (mix_loses_top)."
  },
  {
   "property": "C146",
   "status": "partial",
   "theorems": [
    "Verif.Random.Normal.normal_partial",
    "Verif.Random.Normal.coord_range",
    "Verif.Random.Normal.normal_counter_overflows"
   ],
   "note": "Proved for up to 2^31 - 1 calls; after that the int counter _has_next overflows, which is undefined (normal_counter_overflows). The floating point arithmetic is a parameter."
  },
  {
   "property": "C147",
   "status": "partial",
   "theorems": [
    "Verif.Coro.Link.tasks_are_stack_partial",
    "Verif.Coro.Link.transfers_in_order",
    "Verif.Coro.Link.yield_to_waiting_hangs",
    "Verif.Coro.Link.await_self_hangs",
    "Verif.Coro.Link.noop_bits_lose_task"
   ],
   "note": "Proved as long as no task is awaited or transferred to that is waiting in the chain (otherwise its parent pointer makes a cycle and the fiber never ends: yield_to_waiting_hangs, await_self_hangs) and CCO_NOOP is not among the await bits (noop_bits_lose_task)."
  },
  {
   "property": "C148",
   "status": "partial",
   "theorems": [
    "Verif.Algo.vec_advance_partial",
    "Verif.Algo.vec_advance_undefined",
    "Verif.Algo.pairwise_vec_partial",
    "Verif.Algo.pairwise_deque_partial",
    "Verif.Algo.pairwise_list_partial",
    "Verif.Algo.pairwise_smap_partial"
   ],
   "note": "For a vec or stack, advancing by more steps than there is capacity, or from an iterator at the end (as begin returns for an empty vec), computes a pointer outside the allocation, which is undefined (vec_advance_undefined); so c_filter_pairwise needs a nonempty vec. The pipelines have the limits of C64 (fewer than 20 counters, at most 20 flags, fewer than 2^32 elements). For list and smap also the empty container is covered."
  },
  {
   "property": "C149",
   "status": "partial",
   "theorems": [
    "Verif.Own.own_safe_partial",
    "Verif.Own.own_values",
    "Verif.Own.own_refused",
    "Verif.Own.own_once",
    "Verif.Own.own_fits",
    "Verif.Own.own_no_leak",
    "Verif.Own.own_end",
    "Verif.Own.fixed_move_destroys_twice"
   ],
   "note": "Proved for vec with any allocator and for stack, deque, queue, pqueue, hmap/hset and smap/sset with an allocator that grants what _clone and _copy ask for (if refused these produce a container with a size and without memory). Refuted for stacks with a fixed capacity, whose _move leaves the elements in the source as well (fixed_move_destroys_twice). A block is modelled as its capacity and its sequence of elements; the layouts are modelled in the other directories."
  },
  {
   "property": "C150",
   "status": "partial",
   "theorems": [
    "Verif.Alloc.vec_allocator_contract",
    "Verif.Alloc.stack_allocator_contract_partial",
    "Verif.Alloc.pqueue_allocator_contract_partial",
    "Verif.Alloc.pqueue_allocator_contract_granted_partial",
    "Verif.Alloc.deque_allocator_contract_partial",
    "Verif.Alloc.hmap_allocator_contract_partial",
    "Verif.Alloc.smap_allocator_contract_partial",
    "Verif.Alloc.smap_allocator_contract_granted_partial",
    "Verif.Alloc.list_allocator_contract_partial",
    "Verif.Alloc.list_allocator_contract_granted_partial",
    "Verif.Alloc.cstr_allocator_contract_partial",
    "Verif.Alloc.cbits_allocator_contract_partial",
    "Verif.Alloc.cbits_allocator_contract_granted_partial",
    "Verif.Alloc.cregex_allocator_contract_partial",
    "Verif.Alloc.pqueue_shrink_frees_twice",
    "Verif.Alloc.pqueue_push_null",
    "Verif.Alloc.smap_clone_null",
    "Verif.Alloc.list_push_null",
    "Verif.Alloc.cstr_reserve_leaks",
    "Verif.Alloc.cstr_with_null",
    "Verif.Alloc.cbits_resize_zero_frees_twice",
    "Verif.Alloc.cregex_inplace_wrong_size",
    "Verif.Alloc.cregex_drop_after_error",
    "Verif.Alloc.cregex_recompile_leaks"
   ],
   "note": "Proved for every program over any number of variables and every answer of the allocator: vec without condition; stack, deque/queue, hmap/hset without condition when there is no i_aux; pqueue, smap, list, cstr, cbits, cregex if the allocator does not refuse where the code does not check. The rest is false in the code and refuted: shrinking an emptied pqueue and cbits_resize(0) free twice, refused cstr_reserve leaks, cregex passes a wrong size after shrinking in place and reads NULL when dropped after an error, list/smap/pqueue write through refused pointers."
  },
  {
   "property": "C151",
   "status": "partial",
   "theorems": [
    "Verif.Alloc.vec_allocator_contract",
    "Verif.Alloc.vec_aux_kept",
    "Verif.Alloc.stack_allocator_contract_aux_partial",
    "Verif.Alloc.stack_aux_kept",
    "Verif.Alloc.pqueue_allocator_contract_aux_partial",
    "Verif.Alloc.pqueue_aux_kept",
    "Verif.Alloc.deque_allocator_contract_aux_partial",
    "Verif.Alloc.deque_aux_kept_partial",
    "Verif.Alloc.smap_allocator_contract_aux_partial",
    "Verif.Alloc.smap_aux_kept_partial",
    "Verif.Alloc.list_allocator_contract_aux_partial",
    "Verif.Alloc.list_aux_kept_partial",
    "Verif.Alloc.hmap_reserve_breaks_contract",
    "Verif.Alloc.hmap_growth_breaks_contract",
    "Verif.Alloc.hmap_growth_loses_aux",
    "Verif.Alloc.stack_clone_breaks_contract",
    "Verif.Alloc.pqueue_clone_breaks_contract",
    "Verif.Alloc.deque_shrink_loses_aux",
    "Verif.Alloc.deque_clone_breaks_contract",
    "Verif.Alloc.smap_clear_loses_aux",
    "Verif.Alloc.smap_shrink_breaks_contract",
    "Verif.Alloc.list_reverse_loses_aux",
    "Verif.Alloc.list_reverse_breaks_contract",
    "Verif.Alloc.list_splitOff_breaks_contract",
    "Verif.Alloc.list_splice_breaks_contract"
   ],
   "note": "Holds for vec in full. For the others it holds for programs without the calls that lose the context, which are refuted: any growth of hmap, clone of stack/pqueue/deque, shrink_to_fit of deque and smap, clear of smap, reverse/split_off of list and splicing lists of different contexts."
  },
  {
   "property": "C152",
   "status": "proved",
   "theorems": [
    "Verif.Regex.compiled_program_relocates"
   ],
   "note": "a program laid out at any address, with pointers as integers, is relocated to one that decodes to the same program; instruction addresses, class pointers, ends of classes and the start are all adjusted exactly once"
  },
  {
   "property": "C153",
   "status": "partial",
   "theorems": [
    "Verif.Coro.filter_generator_partial",
    "Verif.Coro.filter_generator_cleanup_partial",
    "Verif.Coro.each_generator_stop_partial",
    "Verif.Coro.c_flt_take_skips_cleanup",
    "Verif.Coro.cco_flt_takewhile_passes_failing",
    "Verif.Coro.cco_flt_take_zero",
    "Verif.Coro.cco_stop_at_final_yield"
   ],
   "note": "Values and cleanup proved for every generator and pipeline as the code is; the documented behaviour is refuted for cco_flt_takewhile (the failing element passes), cco_flt_take(0) and for cco_stop after cco_yield_final, and c_flt_take skips the cleanup."
  },
  {
   "property": "C154",
   "status": "partial",
   "theorems": [
    "Verif.Cspan.cspan_print_partial",
    "Verif.Cspan.cspan_print_overflow"
   ],
   "note": "Equal to a recursive rendering for every shape with positive extents up to rank 8; texts of 128 or more characters overflow a buffer (proved)."
  },
  {
   "property": "C155",
   "status": "partial",
   "theorems": [
    "Verif.Hmap.hmap_insert_moves_partial",
    "Verif.Hmap.hmap_insert_moves_others",
    "Verif.Smap.smap_insert_keeps_references_partial",
    "Verif.Smap.smap_insert_reallocates",
    "Verif.Smap.smap_erase_moves_one",
    "Verif.Smap.smap_erase_moves_another"
   ],
   "note": "False of the code, refuted in all three parts (the first two are documented): inserting into a hash map with room may move the entries behind the new one (hmap_insert_moves_others); inserting into a sorted map whose nodes are all in use reallocates the node array (smap_insert_reallocates); erasing from a sorted map may move the entry just before the erased one into its node (smap_erase_moves_another). Proved instead for every history: in a hash map with room the arrays stay and only entries in the cluster from the new entry to the next empty bucket move, none when the key was present; in a sorted map an insertion or assignment keeps every entry in its node and reallocates only when no node is free; erasing moves at most the in-order predecessor."
  },
  {
   "property": "C156",
   "status": "partial",
   "theorems": [
    "Verif.Cbits.cbits_fixed",
    "Verif.Cbits.cbits_fixed_make",
    "Verif.Cbits.cbits_fixed_size_ignored"
   ],
   "note": "Proved for all lengths and histories, except for the size argument of with_size and with_pattern: it is only compared with the declared length, and all L bits are given the value (cbits_fixed_size_ignored). subset_of has the direction refuted in C34."
  },
  {
   "property": "C157",
   "status": "partial",
   "theorems": [
    "Verif.Cbits.cbits_print_partial",
    "Verif.Cbits.cbits_print_overruns"
   ],
   "note": "Proved for ranges within the set. The full claim is false: an end past the last bit is not clamped, so padding bits are printed and then memory outside the set is read."
  },
  {
   "property": "C158",
   "status": "partial",
   "theorems": [
    "Verif.Zstr.csview_advance_partial",
    "Verif.Zstr.csview_advance_reads_past_end",
    "Verif.Zstr.csview_advance_before_start"
   ],
   "note": "Proved within the view, and at its end when a byte follows it in the object. Otherwise the byte after the view is read, and moving back past the first character leaves the view: both proved."
  },
  {
   "property": "C159",
   "status": "partial",
   "theorems": [
    "Verif.Vec.vec_advance_partial",
    "Verif.Vec.stack_advance_partial",
    "Verif.Vec.vec_advance_overflow",
    "Verif.Vec.vec_advance_reverse"
   ],
   "note": "Proved for forward iterators and distances within the capacity. Further distances form a pointer outside the block; reverse iterators are compared with the wrong end and end at once: both proved."
  },
  {
   "property": "C160",
   "status": "partial",
   "theorems": [
    "Verif.Regex.flags_search_partial",
    "Verif.Regex.flags_exec",
    "Verif.Regex.flag_misses_class",
    "Verif.Regex.flag_leaks"
   ],
   "note": "flags in front of every pattern of the described syntax, except alternatives with classes when the case mode changes, where the claim is false (flag_misses_class: (?i)x|[b] does not match B); inside of a pattern flags act on earlier alternatives (flag_leaks)"
  },
  {
   "property": "C161",
   "status": "partial",
   "theorems": [
    "Verif.Regex.search_work_partial",
    "Verif.Regex.search_linear_partial",
    "Verif.Regex.execC_fst",
    "Verif.Regex.search_reads_all"
   ],
   "note": "at most 228 units of work for every pair of a character of the pattern and a byte left, for every pattern that compiles and every search with a defined result (search_work_partial; always defined when the threads fit: search_linear_partial), on terminated texts or with a pattern that does not begin with an ASCII character or ^; in views the first character is looked for behind the end of the view"
  },
  {
   "property": "C162",
   "status": "partial",
   "theorems": [
    "Verif.Regex.matches_work_partial",
    "Verif.Regex.matches_not_linear",
    "Verif.Regex.iterC_fst"
   ],
   "note": "refuted: a search never stops before the end of the text, so that going through the n matches of a in aa..a takes at least n(n+1)/2 units (matches_not_linear); proved: at most one linear search for every match and one more"
  },
  {
   "property": "C163",
   "status": "proved",
   "theorems": [
    "Verif.Regex.matching_ends",
    "Verif.Regex.matching_ends_pattern",
    "Verif.Regex.frag_rank",
    "Verif.Regex.compile_ranked"
   ],
   "note": "the matcher with loops that may run out of rounds equals the bounded one; the memory is finite, and reading behind it or writing behind the lists of threads ends the run as undefined behaviour"
  },
  {
   "property": "C164",
   "status": "proved",
   "theorems": [
    "Verif.Hmap.absent_lookup_cost",
    "Verif.Hmap.present_lookup_cost",
    "Verif.Hmap.iteration_order",
    "Verif.Hmap.iteration_same",
    "Verif.Hmap.iteration_shared_home",
    "Verif.Hmap.erase_no_trace"
   ],
   "note": "probes counts the buckets a lookup inspects. The distance in each bucket is shown to be a function of the home buckets of the keys (Verif.Hmap.dist_iff). iteration_shared_home: keys with the same home bucket may be met in another order."
  },
  {
   "property": "C165",
   "status": "proved",
   "theorems": [
    "Verif.Random.shuffle_streams",
    "Verif.Random.shuffle_even",
    "Verif.Random.shuffle_uneven"
   ],
   "note": "Counts streams of 64-bit words (Spec.streams). shuffle_uneven: the counts of two orders of three elements differ."
  },
  {
   "property": "C166",
   "status": "partial",
   "theorems": [
    "Verif.Regex.match_aio_partial",
    "Verif.Regex.match_aio_error",
    "Verif.Regex.match_aio_refused",
    "Verif.Regex.replace_aio_partial",
    "Verif.Regex.compile_history",
    "Verif.Regex.compile_result",
    "Verif.Regex.compile_memory_partial",
    "Verif.Regex.match_memory",
    "Verif.Regex.error_codes",
    "Verif.Regex.match_aio_inplace",
    "Verif.Regex.no_program_undefined",
    "Verif.Regex.replace_aio_asserts"
   ],
   "note": "Partial because the code violates it in three places: when realloc shrinks the program where it is, the block is later freed with the size it had before (match_aio_inplace; harmless with the default allocator, which ignores the size); cregex_replace_aio of a text that is not a pattern fails an assertion or reads NULL (replace_aio_asserts); matching with and dropping an expression that did not compile read NULL (no_program_undefined). The limits on patterns are those of the compiler and of the thread lists."
  },
  {
   "property": "C167",
   "status": "proved",
   "theorems": [
    "Verif.Sort.sort_comparisons",
    "Verif.Sort.sort_ascending",
    "Verif.Sort.sort_flat"
   ],
   "note": "Counting twins of the sort functions; forgetting the count gives the modelled functions back (sortLHC_fst)."
  },
  {
   "property": "C168",
   "status": "proved",
   "theorems": [
    "Verif.Hmap.iter_each",
    "Verif.Hmap.find_iterates",
    "Verif.Hmap.find_erase_at"
   ],
   "note": "Iterators are modelled with their three pointers (ref, _end, _mref)."
  },
  {
   "property": "C169",
   "status": "partial",
   "theorems": [
    "Verif.Template.user_wins",
    "Verif.Template.from_cmp",
    "Verif.Template.from_less_partial",
    "Verif.Template.from_nothing",
    "Verif.Template.from_class",
    "Verif.Template.derived_less_01",
    "Verif.Template.from_less_eq_wrong",
    "Verif.Template.from_less_negative_wrong",
    "Verif.PQueue.siftDownI_eq",
    "Verif.PQueue.siftDown_derived",
    "Verif.PQueue.siftDown_two_undefined"
   ],
   "note": "Everything is proved except that equality agrees with the ordering when only i_less is defined: there the code uses ==, and from_less_eq_wrong shows 3 and 13 ordered by last digit being equal for i_cmp and not for i_eq. from_less_negative_wrong shows why i_less must not be negative: the derived i_cmp then orders the other way round. siftDown_two_undefined shows that an i_less yielding 2 for true makes the heap read outside its elements."
  },
  {
   "property": "C170",
   "status": "proved",
   "theorems": [
    "Verif.Template.clone_drop_paired",
    "Verif.Template.class_complete",
    "Verif.Template.emplace_converts",
    "Verif.Template.seq_put_n_copies",
    "Verif.Template.set_put_n",
    "Verif.Template.class_put_n_agrees",
    "Verif.Template.put_value_class",
    "Verif.Template.put_value_plain",
    "Verif.Template.put_n_disagrees",
    "Verif.Template.put_value_depends_on_key"
   ],
   "note": "put_n_disagrees refutes the uniform rule one would expect: with i_keyclone and i_keydrop the same call copies into a sequence and moves into a set. put_value_depends_on_key: whether put copies the value depends on the type of the key."
  },
  {
   "property": "C171",
   "status": "partial",
   "theorems": [
    "Verif.Cstr.Format.append_fmt",
    "Verif.Cstr.Format.printf_text",
    "Verif.Cstr.Format.from_fmt",
    "Verif.Cstr.Format.vfmt_text",
    "Verif.Cstr.Format.fmt_error_wrong",
    "Verif.Cstr.Format.append_fmt_self_undefined",
    "Verif.Cstr.Format.append_fmt_refused_undefined"
   ],
   "note": "Proved for texts that do not come from the string itself. Refuted: a failing conversion removes the last character or writes before the buffer (fmt_error_wrong); appending the string to itself by %s is undefined for every string (append_fmt_self_undefined; the code warns of it only for cstr_printf); refused memory is used as if it were there (append_fmt_refused_undefined). What vsnprintf prints is a parameter."
  },
  {
   "property": "C172",
   "status": "partial",
   "theorems": [
    "Verif.Coro.Timer.timer_consistent",
    "Verif.Coro.Timer.timer_started",
    "Verif.Coro.Timer.await_timer_partial",
    "Verif.Coro.Timer.await_nothing",
    "Verif.Coro.Timer.await_set_back",
    "Verif.Coro.Timer.await_set_forward"
   ],
   "note": "Proved for a clock that is not set during the wait. The code reads the calendar clock (gettimeofday): when it is set back by d the wait lasts d longer (await_set_back), when it is set forward it ends early (await_set_forward). Rounding of double is not modelled."
  },
  {
   "property": "C173",
   "status": "partial",
   "theorems": [
    "Verif.Vec.vec_find_in",
    "Verif.Vec.vec_find_iter",
    "Verif.Vec.vec_find_in_past_undefined",
    "Verif.Stack.stack_find_in",
    "Verif.Stack.stack_find",
    "Verif.Stack.stack_eq",
    "Verif.Deque.deque_find_in_partial",
    "Verif.Deque.deque_find",
    "Verif.Deque.deque_find_in_wrong"
   ],
   "note": "Proved for vec and stack ranges that start at an element, and for find of all three. Two parts are false and refuted: without a match deque_find_in answers with the second iterator of the range, which refers to an element unless the range extends to the end (deque_api.md promises the end); and vec_find_in and stack_find_in starting from an iterator already advanced to the end read through NULL."
  },
  {
   "property": "C174",
   "status": "partial",
   "theorems": [
    "Verif.Csview.cstr_iequals",
    "Verif.Csview.zsview_iequals_partial",
    "Verif.Csview.iequals_agree_partial",
    "Verif.Csview.iequals_disagree"
   ],
   "note": "cstr_iequals is right for all texts. The others also require equal numbers of bytes, and cstr_ieq and csview_ieq stop at the end of the shorter text; all agree for texts whose characters keep their number of bytes when folded (below 2 GiB). The disagreement is proved with witnesses in both directions."
  },
  {
   "property": "C175",
   "status": "partial",
   "theorems": [
    "Verif.Cstr.Join.join_items",
    "Verif.Cstr.Join.join_strings",
    "Verif.Cstr.Join.join_then_split",
    "Verif.Cstr.Join.join_inj",
    "Verif.Cstr.Join.join_twice_partial",
    "Verif.Cstr.Join.join_twice_wrong",
    "Verif.Cstr.Join.join_refused_undefined"
   ],
   "note": "The text made and the round trip through c_token are proved in full, with an allocator that grants every request. Two parts are false and refuted: joining in two calls forgets empty items at the front, because the separator is left out whenever the string is still empty; and after a refused allocation of a long string the join goes on with a NULL buffer."
  },
  {
   "property": "C176",
   "status": "partial",
   "theorems": [
    "Verif.Algo.each_range_vec_partial",
    "Verif.Algo.each_range_stack_partial",
    "Verif.Algo.each_range_vec_undefined",
    "Verif.Algo.each_range_deque",
    "Verif.Algo.each_range_deque_reverse",
    "Verif.Algo.each_range_hmap",
    "Verif.Algo.each_range_smap",
    "Verif.Algo.each_range_list"
   ],
   "note": "Proved for deque, queue, list, hash and sorted containers, and for vec and stack unless they have a buffer but no elements: then begin is not the end iterator and the loop reads a dead slot (each_range_vec_undefined). The reverse loop is proved for all containers that have it."
  },
  {
   "property": "C177",
   "status": "partial",
   "theorems": [
    "Verif.Alloc.New.delete_object_partial",
    "Verif.Alloc.New.objects_balance",
    "Verif.Alloc.New.delete_none",
    "Verif.Alloc.New.delete_null_undefined",
    "Verif.Alloc.New.new_user_undefined",
    "Verif.Alloc.New.new_refused_lost"
   ],
   "note": "Proved for histories without NULL, where c_new is used with the standard allocator only. Three parts are false and refuted: c_delete(T, NULL) calls T_drop(NULL), although the documentation says NULL is OK; c_new takes its memory from malloc but c_delete gives it to the user's c_free; and the value given to c_new is lost when malloc refuses."
  },
  {
   "property": "C178",
   "status": "partial",
   "theorems": [
    "Verif.Random.Global.generators_separate",
    "Verif.Random.Global.seeded_results_partial",
    "Verif.Random.Global.hidden_as_own",
    "Verif.Random.Global.unseeded",
    "Verif.Random.Global.seeds_differ",
    "Verif.Random.Global.seed_other_file",
    "Verif.Random.Global.normal_ignores_seeds",
    "Verif.Random.Global.normal_not_seeded"
   ],
   "note": "Proved for each generator on its own. The full claim fails in the code: hidden generators are per source file (seed_other_file) and crand64_normal takes its numbers from the generator of src/random.c, so no seed given elsewhere changes them (normal_ignores_seeds, normal_not_seeded)."
  }
 ]
}