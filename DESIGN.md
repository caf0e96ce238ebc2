# Formal model of stclib/STC in Lean 4

## Layout

* `properties.jsonl` – the semantic properties (C01 …), stated in API terms.
* `lean/Verif/Base.lean`, `Order.lean` – checked memory blocks and order facts shared by the models.
* `lean/Verif/<Component>/Model.lean` (and the files named below) – executable model of the C code,
  function by function, each definition citing file and lines under `/repo`.
* `lean/Verif/<Component>/Spec.lean` – the independent specification (lists, finite maps, sets,
  languages, numbers); it does not mention the model.
* `lean/Verif/<Component>/Props.lean` – the property theorems, with an `example` beside each one
  that exhibits a concrete non-trivial case meeting its hypotheses. Everything else in a component
  directory are helper lemmas.
* `MANIFEST.json` – property → theorem names and status.
* `seeded/LOG.jsonl` – log of the wrong-program experiments.

## Modelling conventions

* **Undefined behaviour is an outcome.** Code that touches memory is written in the `Option` monad
  (or `R = ub | err | ok` in the regex compiler): `none` is undefined behaviour or a failed
  `c_assert` (out-of-range read or write, read of an uninitialised or destroyed slot, NULL
  dereference, signed overflow, pop on empty …). A theorem that a call returns `some …` therefore
  includes memory safety. Loops have fuel; running out of fuel is `none`, so definedness also is
  termination.
* **Allocation failure is an input.** Functions that allocate take a Boolean oracle, where the code
  looks at the result of the allocation.
* **Integers.** `isize` values that the code keeps non-negative are `Nat`; where sign or wrap-around
  matters (`c_next_pow2`, hash, rng, cbits words, utf8, cspan, ranges, slices) the model uses `Int`,
  `BitVec` or explicit overflow checks. Sizes are assumed not to overflow `isize` unless a
  statement says otherwise (a block of 2^63 bytes cannot be allocated).
* **Template parameters** (`i_key`, `i_cmp`, `i_less`, `i_eq`, `i_hash`) are arbitrary Lean types and
  functions; the laws a user must guarantee (strict weak order, equality compatible with hash) are
  explicit hypotheses.
* **Elements** are values; destructor calls are recorded as the list of destroyed elements where
  ownership is the property (C57, C58, C72, C74, C108).
* **Claims that the code violates** are refuted: the negation is proved with a concrete witness, or for
  a whole class of inputs, and a theorem with the suffix `_partial` keeps what does hold, under a
  condition whose necessity the witness shows.

## Trusted base

* The Lean 4.33 kernel. Axioms: at most `propext`, `Classical.choice`, `Quot.sound`; the report at the
  end of this file lists them for each theorem of the manifest. No own axioms, no `sorry`, no
  `native_decide`, no `bv_decide`.
* The hand translation of the C text into the models. It is checked by reading only: nothing of `/repo`
  is compiled or run.
* The facts about the C abstract machine under "Modelling conventions"; sequentially consistent atomics
  for `arc`.
* The statements: the definitions in the `Spec.lean` files, read together with `properties.jsonl`.

## Status of the properties

How each property is proved: *data structures* by refinement, i.e. a relation between the memory and a
mathematical object is an invariant of every call, and theorems about whole histories follow by
induction on the list of calls; *algorithms* by induction on the data; *concurrency and coroutines* by
invariants of a small-step semantics; *automata and tables* (UTF-8, case mapping) by a complete check of
the finite table that is lifted to all inputs by a lemma; *regular expressions* by relating the program
to the expression (soundness, completeness), and the thread lists to the program (room).

| id | property | status | model | remark |
|----|----------|--------|-------|--------|
| C01 | vec behaves as a sequence | proved | Vec | Refinement of every history of calls to a mathematical list, for every allocation-failure pattern. |
| C02 | Failed allocation leaves vec unchanged | proved | Vec | A call reporting failure leaves the vec unchanged; failure only on allocator failure or an empty request. |
| C03 | Iterating a vec or stack visits each element once, in order | partial | Stack, Vec | Holds for non-empty or never-allocated vecs; iterating an allocated empty vec reads a dead slot (refuted with a witness). |
| C04 | Fixed-capacity stack never exceeds its buffer | proved | Stack | Every history on a fixed-capacity stack refines a bounded list; also records that append_uninit can refuse a request that would fit. |
| C05 | deque behaves as a double-ended sequence | proved | Deque | Refinement of every history to a list whatever the wrap-around; a clone whose allocation fails is recorded as broken. |
| C06 | queue is FIFO | proved | Deque | Removed elements followed by the remaining ones are the pushed ones in order, for all interleavings. |
| C07 | deque iteration order | proved | Deque | Forward, reverse and advance, by induction on the position in the ring. |
| C08 | deque insert/erase through iterators | partial | Deque | Proved for iterators reached by stepping from begin; false for the iterator returned by end(), refuted with a witness. |
| C09 | Failed allocation leaves deque unchanged | partial | Deque | Proved for push, push_front, reserve and all other calls; false for insert_n, refuted with a witness. |
| C10 | priority queue top is a maximum | proved | PQueue | Heap invariant and conservation of elements over all histories, for every strict weak ordering. |
| C11 | priority queue drains in sorted order | proved | PQueue | Repeated top/pop yields a non-increasing permutation of the contents. |
| C12 | pqueue erase_at keeps the heap order | partial | PQueue | erase_at removes exactly that element; order kept at the first or last position or if the last element does not exceed the parent; false otherwise, refuted with a history. |
| C13 | sort returns a sorted permutation | proved | Sort | Quicksort with insertion sort: termination, in-range accesses, sorted permutation, every size. |
| C14 | sort_lowhigh touches only its range | partial | Sort | Proved when nothing in the range is less than an element below lo (always for lo = 0); false otherwise, refuted with a witness. |
| C15 | lower_bound finds the first not-less position | proved | Sort | First element not less than the key, for every sorted container. |
| C16 | binary_search is exact | proved | Sort | Index of an equivalent element iff there is one. |
| C17 | list behaves as a sequence | proved | Clist | All histories over any number of lists of push, put_n, pop, insert_at, erase_at, erase_range, splice, splice_range, split_off, node moves, reverse, remove, sort, copy, move, clear; successful allocations (list_alloc_failure shows the null dereference otherwise). |
| C18 | list remove deletes exactly the matches | proved | Clist |  |
| C19 | list sort returns a sorted permutation | proved | Clist | Including failed reallocation: the list is unchanged and false is returned. |
| C20 | hash map behaves as a finite map | proved | Hmap | All histories of insert, emplace, insert_or_assign, emplace_or_assign, at_mut, erase, erase_at, reserve, shrink_to_fit, clear, clone; every lawful key type and hash function; within the probe-length limit (Spread). |
| C21 | hash map works for any number of colliding keys | partial | Hmap | Holds for at most 1023 keys with any hash function (and beyond within the clustering limit); false for 1024 colliding keys, refuted with a history: the 10-bit distance wraps to 0. |
| C22 | hash map iteration visits every entry once | proved | Hmap | begin/next visit a permutation of the entries and end; advance(begin, c) is at the c-th entry. |
| C23 | hash map erase while iterating | partial | Hmap | Termination, every entry visited, exactly the selected entries erased, exactly once if the first bucket's entry is at home; the exactly-once part is false when the shift wraps around, refuted with a history. |
| C24 | hash map rehash preserves contents | proved | Hmap | Includes the single-precision rounding of the load factor for sizes below 2^59. |
| C25 | sorted map behaves as a finite map | proved | Smap | All histories of insert, emplace, insert_or_assign, emplace_or_assign, put_n, at_mut, erase, erase_at, erase_range, reserve, clear (and clone, shrink_to_fit within C29); every lawful comparison; growth computed without int32 overflow (3n < 2^31). |
| C26 | sorted map iterates in key order | proved | Smap |  |
| C27 | sorted map stays balanced and its fixed stacks never overflow | proved | Smap | An overrun of up[64] or _st[36] is undefined in the model; definedness of every valid call excludes it. |
| C28 | sorted map lower_bound | proved | Smap |  |
| C29 | Cloned sorted map is independent and equal | partial | Smap | The clone has the same entries; it can be used like any map if nothing was erased from the original. Otherwise false: for every original with erased entries, inserting a new key into the clone writes out of bounds; a failed allocation writes through NULL. |
| C30 | sorted map erase_range / erase_at | partial | Smap | erase_at in full. erase_range in full when raw keys are independent of key objects or the range ends at end(); false otherwise, refuted. |
| C31 | cbits point operations | proved | Cbits | Refinement of every history to a list of booleans; point operations change exactly one bit. |
| C32 | cbits count | proved | Cbits | Count over all sizes, including garbage past the end of the last word. |
| C33 | cbits set algebra | proved | Cbits | Union, intersection, symmetric difference and disjointness for all pairs of the same size. |
| C34 | cbits subset_of | partial | Cbits | The exact meaning is proved: subset_of(self, other) tests other within self, the opposite of the documentation (refuted with a witness). |
| C35 | cbits resize | proved | Cbits | Resize to any positive size after any history, with unspecified new memory and allocation failure. |
| C36 | string behaves as a byte sequence across short/long representation | proved | Cstr | over all histories of the listed calls; sizes do not overflow isize |
| C37 | string self-aliasing | partial | Cstr | append: proved; assign: the code writes the terminator before copying, so a part containing position n is corrupted (string_assign_self_wrong); insert of own bytes is undefined (string_insert_self_wrong) |
| C38 | string replace | proved | Cstr |  |
| C39 | Substring search is exact | proved | Csview | Leftmost occurrence or NPOS for all haystacks and needles; prefix, suffix and infix tests. |
| C40 | case conversion stays inside its buffer | partial | Cstr | valid UTF-8: proved; invalid bytes can overflow the buffer (tocase_overflow), exactly when tocase_exact says |
| C41 | UTF-8 encode/decode round trip | proved | Utf8 | Every scalar value, whatever follows in memory; via a complete characterisation of the decoder automaton. |
| C42 | UTF-8 validation is exact | proved | Utf8 | Exact characterisation for all byte strings (the length-limited form stops at an embedded NUL). |
| C43 | UTF-8 counting and indexing | partial | Csview, Utf8 | Proved for NUL-terminated text and for views followed by a lead byte; counting a view that ends its object always reads past it (refuted). |
| C44 | UTF-8 decoding of arbitrary bytes makes progress | proved | Utf8 | All byte strings, valid or not. |
| C45 | UTF-8 case-insensitive comparison is an order | partial | Utf8 | Order proved for views of length-stable code points; zero iff fold-equal for NUL-terminated strings; cycles and asymmetry refute the general claim. |
| C46 | case-insensitive prefix test | partial | Csview | Sound for length-stable texts and NUL-terminated strings; false in general: true only when the whole strings agree (refuted), and also unsound with U+212A. |
| C47 | csview trim | partial | Csview | Holds with unsigned char or ASCII; with signed char non-ASCII text is trimmed away (refuted). |
| C48 | token splitting is lossless | proved | Csview | All inputs and non-empty separators; also records that an empty separator loops forever. |
| C49 | views never leave their base string | partial | Csview | Exact for all arguments whose sum does not overflow; subview(pos, NPOS) overflows for every pos > 0 and slice lets a negative end through (witnesses). |
| C50 | cspan indexing is row-major and injective | proved | Cspan | Row- and column-major. Preconditions: positive extents below 2^31, strides fit int32_t (otherwise signed overflow, undefined), rank * size below 2^62. |
| C51 | cspan slicing and transposing address the same elements | proved | Cspan | Slices with the documented argument forms, any strides (also negative); index tuples of the slice correspond one to one to the selected index tuples. |
| C52 | cspan iteration visits every element once in index order | proved | Cspan | Any strides. Code note: a span with an extent of 0 and non-NULL data is not iterated zero times (span_each_zero_extent_visits). |
| C53 | uniform distribution stays in range | partial | Random | Proved for every generator and both ways of computing the result, when high-low+1 is representable in the signed type; for wider ranges (e.g. [0, INT64_MAX]) crand64_make_uniform overflows a signed addition, proved as the negation. |
| C54 | uniform distribution is unbiased | partial | Random | Exact count of accepted outputs per value, for all ranges with high-low+1 representable; wider ranges overflow (see C53). |
| C55 | shuffle permutes | proved | Random | Permutation for every random stream, and every permutation is reached by some stream. |
| C56 | generator state period | proved | Random | Transition one to one, no repetition within 2^64 (2^32) steps for odd streams, state returns only at multiples of that. |
| C57 | shared pointer destroys its object exactly once | proved | Arc | Any number of threads, any interleaving of the atomic operations, destruction, frees and stores; sequentially consistent atomics. `assign` from a handle stored inside the object being replaced is outside the model (arc.h 175-179 reads `*owned` after the drop, so that call is a use after free). |
| C58 | box ownership | proved | Box |  |
| C59 | coroutine cleanup runs exactly once | partial | Coro | For all user code and all histories of resume and stop. The code violates the claim when a stopped coroutine is stopped again before it is resumed (cleanup skipped) and when it is stopped while suspended behind cco_finally (cleanup restarted); likewise cco_return in a cleanup that has suspended restarts it; all shown with witnesses. Cleanup that yields or awaits is entered once otherwise. |
| C60 | fiber scheduler runs every fiber | partial | Coro | The code violates the claim: a fiber spawned by the only fiber in the resume in which that one finishes is lost, and a fiber can starve behind one that spawns short tasks. Proved: memory safety, each fiber freed once, ends exactly when none is left (without such a spawn), and every live fiber resumed within a bound given by the numbers of fibers and spawns. |
| C61 | semaphore counts correctly | proved | Coro | cco_acquire_semaphore called on its own (without awaiting) is not covered; overflow of the counter not modelled. |
| C62 | option parser permutes and terminates | partial | Coption | proved for every command line without an ambiguous long option; for an ambiguous abbreviation the code returns '?' without advancing, and it is proved that the loop then never ends; calls after -1 and after an ambiguous option are the subject of C133 |
| C63 | integer ranges match their arithmetic definition | partial | Algo | c_range: full up to signed overflow (shown real: c_range_overflow). crange: the property fails for empty ranges, which yield start once (crange_empty_wrong); proved for non-empty ranges. |
| C64 | filter pipelines | partial | Algo | Proved for at most 19 counting stages, 20 flag stages and fewer than 2^32 elements; beyond, the fixed arrays overflow (filter_counters_undefined, filter_flags_undefined). Loops with a body (c_ffilter) execute it for the same values up to a break, provided the two initialisers of the loop variable are evaluated in order, which C leaves open (ffilter_unordered_undefined). Predicates and mapped expressions are pure functions of the value. |
| C65 | erase-remove keeps exactly the others | partial | Algo, Clist, Hmap | Full for deque, queue, list, hash maps and sorted maps; for vec and stack it fails on an allocated empty container, which is read out of its live range (vec_erase_remove_undefined). |
| C66 | next power of two | proved | Common | Smallest power of two not below n for 1 <= n <= 2^63. |
| C67 | equal strings hash equally | proved | Cstr, Csview |  |
| C68 | regex matches are sound | partial | Regex | for every pattern text of the described syntax (pattern_*) and every sequence of symbols (regex_*), every NUL-terminated text (also a view whose end is the terminator) and starting position; \b where the edges of the text are as it takes them (false otherwise: word_boundary_edges); \B (refuted by not_word_boundary_consumes) is left out, and (?i) that changes the mode (C160) |
| C69 | regex matching is complete | partial | Regex | unconditional on the run for all patterns that fit the thread lists (pattern_search, a condition computed from the pattern); leftmost-longest for every pattern and text when the run stays inside its thread lists, ^ is not used on texts with newlines and no non-ASCII character folds to ASCII under ICASE; each of these conditions is needed: the witnesses refute the claim without it |
| C70 | regex replace terminates | partial | Regex | for every pattern text, replacement text, count, transform and input when the pattern fits the thread lists (replace_fits; replace_partial: when the matcher does not err) and the first-character shortcut is harmless (Covered), without \b; refuted for patterns matching the empty text (replace_empty_never_advances), for ^ and \b, which are tested as if the rest were a text of its own (replace_caret_again, replace_boundary_again), and when the matcher errs (replace_hides_error) |
| C71 | regex view matching stays inside the view | partial | Regex | proved for patterns that do not begin with a literal ASCII character or ^ outside a group; for those the claim fails: view_match_outside |
| C72 | ownership: every stored element is dropped exactly once | proved | Clist, Deque, Hmap, Smap, Vec | Conservation of elements over all histories; drop destroys each stored element exactly once. |
| C73 | sorting containers of strings | partial | Sort | False for strings stored inside the elements: the pivot is a pointer into an element that moves (refuted with a witness). Holds when raw values are not affected by moves (sort_correct). |
| C74 | pqueue pull hands out a live element | partial | PQueue | False for every non-empty queue: the returned element has always been destroyed. The removal itself is covered by C10. |
| C75 | pqueue survives allocation failure | partial | PQueue | False for push on a full queue, clone of a non-empty one and shrink_to_fit of an emptied one (negations proved). |
| C76 | cbits text form round-trips | proved | Cbits | Text form of any part and round trip. |
| C77 | portable population count | proved | Cbits | All 64-bit words, by induction over bytes plus a complete table of 256 bytes. |
| C78 | Case mapping of code points | proved | Utf8 | All code points, by a complete table check lifted to every natural number. |
| C79 | UTF-8 iteration | partial | Csview | Proved for non-empty strings followed by a readable byte; refuted for empty strings and views ending their object. |
| C80 | String order agrees with equality | proved | Csview | Lexicographic order of unsigned bytes for all strings. |
| C81 | Case-insensitive equality and suffix | partial | Csview | Proved for length-stable texts / NUL-terminated suffixes of the same byte length; refuted otherwise. |
| C82 | Editing strings by code point position | proved | Cstr | pop requires a nonempty string (undefined otherwise, shown) |
| C83 | Strings survive allocation failure | partial | Cstr | false for calls that must grow: contents lost (string_alloc_lost), or NULL written through (string_alloc_short) |
| C84 | Joining strings | proved | Cstr |  |
| C85 | Reading up to a delimiter | proved | Cstr |  |
| C86 | hash map allocation failure | proved | Hmap | Any map state. |
| C87 | hash map / set equality | partial | Hmap | Exact for sets; for maps the mapped values are not compared, refuted with a history. |
| C88 | hash map clone | partial | Hmap | Correct when the allocations succeed; otherwise the clone of any non-empty map keeps its size without buckets and every lookup in it is undefined. |
| C89 | hash map bulk insertion | proved | Hmap | Within the probe-length limit. |
| C90 | sorted map allocation failure | partial | Smap | False for every insertion that has to grow: all entries are lost while size keeps counting them. |
| C91 | sorted map / set equality | partial | Smap | Exact for sets; mapped values are not compared, refuted with a history. |
| C92 | sorted map front and back | proved | Smap |  |
| C93 | sorted map bulk insertion | proved | Smap |  |
| C94 | list find and equality | proved | Clist |  |
| C95 | list iterators after edits | partial | Clist | insert_at, erase_at and splice proved; false for erase_range: undefined on an empty list with end(), and the returned iterator keeps a dangling predecessor (witnesses). insert_at(list_end()) returns an iterator that cannot be advanced. |
| C96 | Filling a span writes exactly its elements | proved | Cspan |  |
| C97 | Span equality is elementwise | proved | Cspan |  |
| C98 | Sub-spans address the elements of the whole span | partial | Cspan | cspan_subspan does not check its count, so it is not equal to the slice it is documented to equal when the count is too large. |
| C99 | Span size, front and back | partial | Cspan | cspan_back is data + size - 1, which is not the last element of a span with other strides (e.g. a slice with step 2). |
| C100 | Slice arguments outside the span are rejected | partial | Cspan | A negative start of a range passes the checks. |
| C101 | Layout tests tell the layout | proved | Cspan |  |
| C102 | Random reals lie in [0, 1) | proved | Random | Results as exact numerators over 2^53 / 2^32; the floating point multiplication by a power of two is exact and not modelled separately. |
| C103 | searching and quantifiers | proved | Algo | For every sequence an iterator goes over; the iterate_* theorems give that sequence for each container. |
| C104 | conditional append | proved | Algo | Output container: vec, with successful allocation; any source. |
| C105 | reversing in place | proved | Algo |  |
| C106 | bounded iteration and zipping | partial | Algo | c_each_n in full; c_filter_zip within the limits of C64. |
| C107 | Shared pointer use count is exact | proved | Arc | The plain (non-atomic) read in use_count is a data race if another thread is in a call; the theorem is about the value when none is. |
| C108 | Boxes behave like optional values | proved | Box |  |
| C109 | awaited tasks and error unwinding | proved | Coro | A task is in the chain at most once; cco_yield_to left out. |
| C110 | semaphore gives mutual exclusion | proved | Coro |  |
| C111 | option parser reports each option with its argument | proved | Coption | bytes are non-negative (a byte above 127 is not sign-extended); long option values differ from -1 |
| C112 | regex compilation accepts exactly the grammar | proved | Regex | for the syntax of Syntax.lean: without \B, inline flags, unquoted - ^ [ inside classes, \x{..} of letters (which fails: hex_letter_wrong); the limits are 19 pending operators (Re.depth, computed from the pattern), 31 groups, 16 classes, 31 items in a class; within them every pattern is compiled (pattern_compiles) |
| C113 | regex compilation is memory safe | partial | Regex | every text without an unclosed \Q or final backslash that is at most 32 long or has no class, and every well-formed pattern of any length (pattern_accepted); for the others it fails: compile_reads_behind |
| C114 | regex character classes contain what they list | partial | Regex | for classes of at most 31 items, with -, ^ and [ unquoted where they stand for themselves; under CREG_ICASE ranges only between lower case letters, between upper case letters or between digits (there they contain what is equal to a character of the range up to case), named classes fully; beyond that it fails: class_truncated, icase_range_wrong, negated_dash_is_range, escaped_range_wrong ([\t-\r] contains A) |
| C115 | regex full match reports whole lines only | partial | Regex | success implies a match of whole lines; the converse and the reported span fail: fullmatch_misses, fullmatch_reports_other |
| C116 | regex replacement texts are expanded as written | proved | Regex | for every replacement text and every content of the groups |
| C117 | iterating over regex matches visits disjoint matches in order | partial | Regex | same conditions as C70; the iteration ends at the first empty match, although there are more matches: iterate_stops_at_empty |
| C118 | regex patterns that fit always get an answer | proved | Regex | the bound is Re.fits of FitsSpec.lean; the fast check of the first character must be harmless for completeness (Covered); long_literal_fails: beyond the bound there are errors |
| C119 | searching for a literal text finds its first occurrence | proved | Regex | without ICASE; for 98 equal letters it fails: long_literal_fails |
| C120 | Unicode character classes contain what their tables list | partial | Utf8 | the tables are those of the source, not those of the Unicode standard; the documented contents of Alpha (cased letters and letter numbers) are refuted: alpha_misses_cased, alpha_has_digits |
| C121 | matches of a repeated character class are the maximal runs | proved | Regex | without CREG_ICASE; allocation succeeds; fewer runs than the count of replacements (a count above the length of the text) |
| C122 | formats mean what is documented | partial | Fmt | with at least one argument in full, while the translation fits the buffer; without arguments the untranslated text is printed, so {{, }} and % come out wrong (fmt_plain_wrong); an explicit conversion needs its length modifier (fmt_explicit); printf itself is not modelled |
| C123 | malformed formats and wrong argument counts are detected | proved | Fmt | whenever the call does not overflow its buffer (C124) |
| C124 | formatting stays inside its buffer | partial | Fmt | for all texts that, percent signs counted twice, leave 7 characters per argument; exact for documented formats; false for the documented limit: fmt_overflow |
| C125 | a string stream holds what was printed to it | partial | Fmt | if the first text is not empty and memory is available; otherwise the code writes through NULL; arguments do not point into the stream's own block |
| C126 | searching strings for C strings | partial | Zstr | for contents without NUL and positions that are not negative; false otherwise: nothing behind a NUL is found (find_stops_at_nul), a negative position reads before the buffer (find_at_negative) |
| C127 | prefix, suffix and equality tests of strings | partial | Zstr | all tests for all contents, except cstr_equals with a C string, which ignores everything behind the first NUL (equals_nul_wrong) |
| C128 | moving an iterator by characters | partial | Zstr | whenever the target is not before the first character; otherwise the walk leaves the string (advance_before_start) or the view (advance_leaves_view) |
| C129 | parts of zero-terminated views | partial | Zstr | for positions that are not negative; a negative byte position gives bytes before the view (from_pos_negative) and the character past the end is the terminator (u8_at_past_end) |
| C130 | scopes release what they acquire | partial | Control | exact meaning for all bodies (with_scope, defer_scope); the release is skipped when the body ends by break or return (break_leaks) |
| C131 | matching of sum types | partial | Control | selection in full; break and continue inside never reach a loop around it (is_swallows_break) |
| C132 | loops over maps and lists of items | proved | Control | the iteration itself (begin, next) is that of the containers, C19, C27 and others; here the entries are a list |
| C133 | option parser is safe to call in any way | partial | Coption | memory safety, permutation and the bounds of ind are proved for every sequence of calls; the claim on calls after -1 needs the command line to contain no -- (after it the code parses the operands as options: the documentation says -1 means argv is fully processed, and coption_again_after_dashes is the witness for the exception) and the short options not to be NULL |
| C134 | After reserve(n) the allocator is not needed until there are more than n elements | partial | Cost | Full for deque, queue, pqueue, hmap, hset, smap, sset and cstr. For vec and stack the claim fails for range insertions that exactly fill the reserved room (vec_reserved_insert_asks, stack_reserved_append_asks): the code reallocates when size+n >= capacity. The partial theorems hold with one more free place for these calls, and exactly for push. |
| C135 | Growing moves at most three elements per element added | proved | Cost | For histories of calls other than reserve, resize, shrink_to_fit (and clone, put_n, clear for smap), which concern the capacity themselves. Successful calls that needed the allocator are charged with all elements present. |
| C136 | Sorting never nests deeply | proved | Cost | The number of active calls is made visible by a version of the function with a limited number of frames, which is undefined when the frames run out. |
| C137 | Binary search asks logarithmically many comparisons | proved | Cost | Counts the pairs whose answers matter; repeated questions about one pair count once. |
| C138 | Heap operations ask logarithmically many comparisons, and making a heap linearly many | proved | Cost | Counts as for C137. |
| C139 | Ordered-map operations ask logarithmically many comparisons | proved | Cost | Counts as for C137. |
| C140 | A coroutine executes as the sequential program it is written as | proved | Coro | Local variables that do not survive a suspension, goto and switch statements of the user are not modelled; stops happen where the coroutine is suspended in its body. |
| C141 | shrink_to_fit leaves no more room than needed | partial | Cost | False of empty vec, stack and deque, which keep their room (proved); pqueue: shrinking an empty one is undefined (pqueue_shrink_empty_undefined). |
| C142 | Convenience calls amount to the calls they stand for | proved | Clist, Cspan, Deque, PQueue, Vec |  |
| C143 | Tasks behave like procedures with exceptions | proved | Coro | Every awaited task is freshly initialised and awaited without await bits (bits: C109); stopping tasks from outside is not part of this model. |
| C144 | Default hashes of small keys do not collide | partial | Hash | All proved except that keys with == have the same hash, which fails for floating point keys: the two zeros are equal but hash differently (float_zero_hash); for all other doubles it holds (float_hash_partial). |
| C145 | Combining hashes keeps the order and every part | partial | Hash | Non-commutativity and dependence on the last hash are proved; dependence on the other hashes fails: a last hash with all bits set absorbs all others (mix_loses_all), and the highest bit can be lost (mix_loses_top). |
| C146 | Normally distributed numbers use every accepted point once | partial | Random | Proved for up to 2^31 - 1 calls; after that the int counter _has_next overflows, which is undefined (normal_counter_overflows). The floating point arithmetic is a parameter. |
| C147 | Awaiting and transferring control make a stack of tasks | partial | Coro | Proved as long as no task is awaited or transferred to that is waiting in the chain (otherwise its parent pointer makes a cycle and the fiber never ends: yield_to_waiting_hangs, await_self_hangs) and CCO_NOOP is not among the await bits (noop_bits_lose_task). |
| C148 | Advancing an iterator is stepping it; pairwise filters see all neighbours | partial | Algo | For a vec or stack, advancing by more steps than there is capacity, or from an iterator at the end (as begin returns for an empty vec), computes a pointer outside the allocation, which is undefined (vec_advance_undefined); so c_filter_pairwise needs a nonempty vec. The pipelines have the limits of C64 (fewer than 20 counters, at most 20 flags, fewer than 2^32 elements). For list and smap also the empty container is covered. |
| C149 | Container variables have value semantics | partial | Own | Proved for vec with any allocator and for stack, deque, queue, pqueue, hmap/hset and smap/sset with an allocator that grants what _clone and _copy ask for (if refused these produce a container with a size and without memory). Refuted for stacks with a fixed capacity, whose _move leaves the elements in the source as well (fixed_move_destroys_twice). A block is modelled as its capacity and its sequence of elements; the layouts are modelled in the other directories. |
| C150 | A user-supplied sized allocator is used by the rules | partial | Alloc | Proved for every program over any number of variables and every answer of the allocator: vec without condition; stack, deque/queue, hmap/hset without condition when there is no i_aux; pqueue, smap, list, cstr, cbits, cregex if the allocator does not refuse where the code does not check. The rest is false in the code and refuted: shrinking an emptied pqueue and cbits_resize(0) free twice, refused cstr_reserve leaks, cregex passes a wrong size after shrinking in place and reads NULL when dropped after an error, list/smap/pqueue write through refused pointers. |
| C151 | A container allocates from its own context | partial | Alloc | Holds for vec in full. For the others it holds for programs without the calls that lose the context, which are refuted: any growth of hmap, clone of stack/pqueue/deque, shrink_to_fit of deque and smap, clear of smap, reverse/split_off of list and splicing lists of different contexts. |
| C152 | A compiled regular expression can be moved by the allocator | proved | Regex | a program laid out at any address, with pointers as integers, is relocated to one that decodes to the same program; instruction addresses, class pointers, ends of classes and the start are all adjusted exactly once |
| C153 | Iterating over coroutine generators | partial | Coro | Values and cleanup proved for every generator and pipeline as the code is; the documented behaviour is refuted for cco_flt_takewhile (the failing element passes), cco_flt_take(0) and for cco_stop after cco_yield_final, and c_flt_take skips the cleanup. |
| C154 | Printing a span shows its structure | partial | Cspan | Equal to a recursive rendering for every shape with positive extents up to rank 8; texts of 128 or more characters overflow a buffer (proved). |
| C155 | Pointers to map entries stay valid over other calls | partial | Hmap, Smap | False of the code, refuted in all three parts (the first two are documented): inserting into a hash map with room may move the entries behind the new one (hmap_insert_moves_others); inserting into a sorted map whose nodes are all in use reallocates the node array (smap_insert_reallocates); erasing from a sorted map may move the entry just before the erased one into its node (smap_erase_moves_another). Proved instead for every history: in a hash map with room the arrays stay and only entries in the cluster from the new entry to the next empty bucket move, none when the key was present; in a sorted map an insertion or assignment keeps every entry in its node and reallocates only when no node is free; erasing moves at most the in-order predecessor. |
| C156 | Bit sets of a fixed length behave as lists of booleans | partial | Cbits | Proved for all lengths and histories, except for the size argument of with_size and with_pattern: it is only compared with the declared length, and all L bits are given the value (cbits_fixed_size_ignored). subset_of has the direction refuted in C34. |
| C157 | Printing a bit set writes the requested bits | partial | Cbits | Proved for ranges within the set. The full claim is false: an end past the last bit is not clamped, so padding bits are printed and then memory outside the set is read. |
| C158 | Advancing a view's iterator by characters | partial | Zstr | Proved within the view, and at its end when a byte follows it in the object. Otherwise the byte after the view is read, and moving back past the first character leaves the view: both proved. |
| C159 | Advancing an iterator of a vector or stack equals stepping it | partial | Vec | Proved for forward iterators and distances within the capacity. Further distances form a pointer outside the block; reverse iterators are compared with the wrong end and end at once: both proved. |
| C160 | regex flags in a pattern override the compile flags | partial | Regex | flags in front of every pattern of the described syntax, except alternatives with classes when the case mode changes, where the claim is false (flag_misses_class: (?i)x\|[b] does not match B); inside of a pattern flags act on earlier alternatives (flag_leaks) |
| C161 | regex search has no slow patterns | partial | Regex | at most 228 units of work for every pair of a character of the pattern and a byte left, for every pattern that compiles and every search with a defined result (search_work_partial; always defined when the threads fit: search_linear_partial), on terminated texts or with a pattern that does not begin with an ASCII character or ^; in views the first character is looked for behind the end of the view |
| C162 | visiting all matches of a regex is linear in the text | partial | Regex | refuted: a search never stops before the end of the text, so that going through the n matches of a in aa..a takes at least n(n+1)/2 units (matches_not_linear); proved: at most one linear search for every match and one more |
| C163 | regex matching always ends | proved | Regex | the matcher with loops that may run out of rounds equals the bounded one; the memory is finite, and reading behind it or writing behind the lists of threads ends the run as undefined behaviour |
| C164 | The history of a hash map leaves no trace in its layout | proved | Hmap | probes counts the buckets a lookup inspects. The distance in each bucket is shown to be a function of the home buckets of the keys (Verif.Hmap.dist_iff). iteration_shared_home: keys with the same home bucket may be met in another order. |
| C165 | Shuffling favours no order | proved | Random | Counts streams of 64-bit words (Spec.streams). shuffle_uneven: the counts of two orders of three elements differ. |
| C166 | One-call matching and replacing, and the life of a regular expression | partial | Regex | Partial because the code violates it in three places: when realloc shrinks the program where it is, the block is later freed with the size it had before (match_aio_inplace; harmless with the default allocator, which ignores the size); cregex_replace_aio of a text that is not a pattern fails an assertion or reads NULL (replace_aio_asserts); matching with and dropping an expression that did not compile read NULL (no_program_undefined). The limits on patterns are those of the compiler and of the thread lists. |
| C167 | Sorting makes at most 2n² comparisons, and n log n when nothing has to move | proved | Sort | Counting twins of the sort functions; forgetting the count gives the modelled functions back (sortLHC_fst). |
| C168 | Iterators of a hash map found by key | proved | Hmap | Iterators are modelled with their three pointers (ref, _end, _mref). |
| C169 | The comparison functions a container derives are consistent | partial | PQueue, Template | Everything is proved except that equality agrees with the ordering when only i_less is defined: there the code uses ==, and from_less_eq_wrong shows 3 and 13 ordered by last digit being equal for i_cmp and not for i_eq. from_less_negative_wrong shows why i_less must not be negative: the derived i_cmp then orders the other way round. siftDown_two_undefined shows that an i_less yielding 2 for true makes the heap read outside its elements. |
| C170 | Clone, drop and conversion functions of a container fit together | proved | Template | put_n_disagrees refutes the uniform rule one would expect: with i_keyclone and i_keydrop the same call copies into a sequence and moves into a set. put_value_depends_on_key: whether put copies the value depends on the type of the key. |
| C171 | Formatted output into strings | partial | Cstr | Proved for texts that do not come from the string itself. Refuted: a failing conversion removes the last character or writes before the buffer (fmt_error_wrong); appending the string to itself by %s is undefined for every string (append_fmt_self_undefined; the code warns of it only for cstr_printf); refused memory is used as if it were there (append_fmt_refused_undefined). What vsnprintf prints is a parameter. |
| C172 | Coroutine timers | partial | Coro | Proved for a clock that is not set during the wait. The code reads the calendar clock (gettimeofday): when it is set back by d the wait lasts d longer (await_set_back), when it is set forward it ends early (await_set_forward). Rounding of double is not modelled. |
| C173 | Searching part of a sequence stays inside the part | partial | Deque, Stack, Vec | Proved for vec and stack ranges that start at an element, and for find of all three. Two parts are false and refuted: without a match deque_find_in answers with the second iterator of the range, which refers to an element unless the range extends to the end (deque_api.md promises the end); and vec_find_in and stack_find_in starting from an iterator already advanced to the end read through NULL. |
| C174 | Equality without regard to case does not depend on the type of the strings | partial | Csview | cstr_iequals is right for all texts. The others also require equal numbers of bytes, and cstr_ieq and csview_ieq stop at the end of the shorter text; all agree for texts whose characters keep their number of bytes when folded (below 2 GiB). The disagreement is proved with witnesses in both directions. |
| C175 | Joining strings puts the separator between neighbours and nowhere else | partial | Cstr | The text made and the round trip through c_token are proved in full, with an allocator that grants every request. Two parts are false and refuted: joining in two calls forgets empty items at the front, because the separator is left out whenever the string is still empty; and after a refused allocation of a long string the join goes on with a NULL buffer. |
| C176 | A loop over a range of iterators visits the elements between them | partial | Algo | Proved for deque, queue, list, hash and sorted containers, and for vec and stack unless they have a buffer but no elements: then begin is not the end iterator and the loop reads a dead slot (each_range_vec_undefined). The reverse loop is proved for all containers that have it. |
| C177 | Objects made with c_new and c_new_n are dropped once and their memory is given back | partial | Alloc | Proved for histories without NULL, where c_new is used with the standard allocator only. Three parts are false and refuted: c_delete(T, NULL) calls T_drop(NULL), although the documentation says NULL is OK; c_new takes its memory from malloc but c_delete gives it to the user's c_free; and the value given to c_new is lost when malloc refuses. |
| C178 | Seeding determines the random numbers, and generators do not disturb each other | partial | Random | Proved for each generator on its own. The full claim fails in the code: hidden generators are per source file (seed_other_file) and crand64_normal takes its numbers from the generator of src/random.c, so no seed given elsewhere changes them (normal_ignores_seeds, normal_not_seeded). |

## What is modelled, and what is not

| component | source | modelled | not modelled |
|-----------|--------|----------|--------------|
| Common | `common.h` | `c_next_pow2` | macros without behaviour |
| Vec | `vec.h` | all functions except text output; iterators as positions with NULL | realloc moving the block (addresses are not observable in the model) |
| Stack | `stack.h` | dynamic and fixed capacity (`i_capacity`) | |
| Deque, queue | `deque.h`, `queue.h`, `priv/queue_prv.h` | ring buffer, iterators, `insert_n`, `erase_n`, clone, reserve, shrink | |
| PQueue | `pqueue.h` | heap operations, pull, erase_at, make_heap, failing allocation | |
| Sort | `sort.h` (`priv/sort_prv.h`) | quicksort with insertion sort, `lower_bound`, `binary_search`, raw values aliasing elements, number of comparisons and stack frames | |
| Cbits | `cbits.h` | dynamic and fixed bitsets, text form, population count | printing |
| Utf8 | `utf8.h`, `priv/utf8_prv.c`, `priv/ucd_prv.c` | encoder, decoder automaton, validation, counting, case mapping, `utf8_icompare`; the tables of the character classes (`Groups`, copied from the source) and their tests (`Class`) | the relation of the tables to the Unicode standard; locales other than "C" below 128 |
| Control | `common.h`, `sys/sumtype.h` | `c_defer`, `c_with`, `c_each_kv`, `c_items`, `c_drop`, `c_when`, `c_is`, `c_or_is`, `c_otherwise` written out into `for`, `if` and `switch` over arbitrary user statements | `goto`, the preprocessor itself (the expansion is by hand) |
| Csview, zsview | `csview.h`, `zsview.h`, `priv/cstr_prv.h` | search, compare, trim, slice, token split, iteration; `strstr`-based search, `advance`, `utf8_offset`, `from_pos` (Verif/Zstr) | formatting |
| Cstr | `cstr.h`, `priv/cstr_prv.c` | short/long layout byte by byte, assign, append, insert, replace, erase, u8 editing, join, case conversion, getdelim, formatted output (`Format`) | what `vsnprintf` prints (a parameter), reading from real files (a stream is a list of characters) |
| Hmap, hset | `hmap.h` | buckets with 6+10 bit metadata, robin-hood insertion, erase with backward shift, rehash with rounded load factor, iterators, clone, eq, bulk insertion; iterators with their three pointers and `find` (`Find`); that the layout keeps no trace of the history (`History`) | |
| Smap, sset | `smap.h` | AA tree in a node array, iterators with fixed stacks, clone, erase_range, failing allocation | `memcmp` of padding |
| Clist | `list.h` | heap of nodes shared by any number of lists, splice, split, sort | failing `malloc` beyond showing the NULL dereference |
| Cspan | `cspan.h` | any rank: index, iterate, slice, transpose, subspan, layout tests, fill, eq, printing (`Print`) | MDSPAN text, the conversions of `printf` |
| Random | `random.h`, `priv/random_prv.c` | generators, uniform integers (both multiplications), reals as exact fractions, shuffle with a count of the streams that lead to each order (`Shuffle`), the drawing and call counting of the normal distribution, the hidden generators of each source file (`Global`) | `crand32` variables in programs of several generators, floating point arithmetic of the normal distribution (a parameter), weak seed entropy |
| Hash | `common.h` | `c_hash_n` (default hash), `c_hash_mix`, `==` on doubles by bit pattern | big-endian machines, 32-bit `size_t` |
| Derived | `vec.h`, `deque_prv.h`, `pqueue.h`, `list.h`, `cspan.h` | convenience calls composed of modelled ones | |
| Own | `vec.h`, `stack.h`, `priv/queue_prv.h`, `pqueue.h`, `hmap.h`, `smap.h`, `common.h` | programs over several container variables: clone, copy, move, take, swap, drop, with reuse of addresses by the allocator; a block is its capacity and its sequence of elements | layout of the blocks (modelled in the directories of the containers); list (Clist) |
| Alloc | `common.h` (`c_new`, `c_delete` and their array forms: `New`), `vec.h`, `stack.h`, `pqueue.h`, `deque.h`, `priv/queue_prv.h`, `hmap.h`, `smap.h`, `list.h`, `priv/cstr_prv.c`, `priv/cstr_prv.h`, `cbits.h`, `priv/cregex_prv.c` | the conversation between containers and a user-supplied allocator: requests, sizes, contexts (`aux`), refusals, blocks in use; programs over several variables | the contents of blocks (modelled in the directories of the containers); requests made inside element clone and drop functions; `realloc(p, 0)` that is refused is taken to free the block, as in the usual C libraries; `i_capacity` stacks and fixed-size bitsets, which do not allocate |
| Algo | `algorithm.h`, `sys/crange.h`, `sys/filter.h`, `sys/utility.h` | ranges, find/any/all, erase/remove, append, reverse, filter pipelines with their counters, filter loops with a body (`FFilter`), loops over a range of iterators (`EachRange`), zip, advancing iterators, pairwise filter | |
| Arc | `arc.h` | any number of threads, every atomic step, weak handles do not exist in this version | relaxed memory orders; counter overflow; `assign` of a handle inside the replaced object (a use after free in the code) |
| Box | `box.h` | all functions | malloc failure |
| Coro | `coroutine.h` | resume/stop/finally protocol, coroutine functions as structured programs (`Struct*`: branches and loops around the macros, the jump of the `switch` to the label), tasks as written that await, throw and recover (`Proc*`), the chain of tasks at the level of its pointers with cco_yield_to (`Link*`), generators as iterators, `c_filter` and `c_each` over them (`Gen`), fibers and scheduler ring, await bits, semaphores, timers (`Timer`) | user's own `switch`/`goto` and locals in coroutine functions, the rounding of time |
| Coption | `coption.h` | the whole parser and its permutation of `argv` | sign of bytes above 127 |
| Fmt | `c11/fmt.h` | translation of `{}` formats (`_fmt_parse`, `_fc`, `fmt_printd`), string streams (`_fmt_sprint`) | `printf` itself (its reading of formats is a specification), `fmt_time`, destinations |
| Template | `priv/template.h:119-278` | which of the user's, the class's and the default comparison, clone, drop and conversion functions a container uses | other parameters; textual effects of macro expansion |
| Cost | `Cost/`, `*/Cap.lean`, `*/Cost.lean` (no code of its own) | when the models above go to the allocator, how much that moves, how deep `sort` nests, how many comparisons decide a result | the number of machine steps; repeated comparisons of the same pair |
| Regex | `cregex.h`, `priv/cregex_prv.c` | lexer (`Lex`), parser and code generator (`Comp`), matcher with its thread lists (`Exec`), substitution, replacement, iteration (`Replace`), life of an expression with its memory and result codes (`Life`), relocation of the compiled program (`Reloc`), the matcher with a count of its work (`CostModel`, `TermModel`) | (the character-class predicates are a parameter of the matcher; `Utf8/Class` models them); `isalpha` … on code points above 255 (undefined in the code); `cregex_match_sv` iteration |

Not modelled at all: the C preprocessor template mechanism (except which functions it selects, Template), the number formatting of `printf`, time and memory beyond what
Cost counts (calls of the allocator, moved elements, comparisons), everything under `/repo/misc` and `/repo/docs`.

## Disagreements between the code and what is documented or expected

Each item with a theorem name is proved about the model; the others are noted from reading and lie
outside the model. A line number refers to the pinned commit.

**vec, stack.** Iterating an allocated empty container visits a dead element (`vec_iterate_empty_undefined`
and the like, C03). A fixed-capacity stack may refuse an `append_uninit` that would fit
(`fixed_append_spurious_failure`). `c_erase_remove_if` on an allocated empty vec reads it
(`vec_erase_remove_undefined`).

**find_in.** Without a match `deque_find_in` answers with the second iterator of the range, not with the end
(`deque_find_in_wrong`, C173; deque_api.md 60 promises the end). `vec_find_in` and `stack_find_in` read through NULL when the
search starts with an iterator that was advanced to the end (`vec_find_in_past_undefined`).

**c_new and c_delete.** `c_delete(T, NULL)` calls `T_drop(NULL)`; docs/algorithm_api.md says NULL is OK, which holds only for
types whose drop function checks it (`delete_null_undefined`). `c_new` calls `malloc` directly, also when the user has
defined `c_malloc`, while `c_delete` calls `c_free`, so the two do not fit together (`new_user_undefined`). When `malloc` refuses, the
value given to `c_new` is lost (`new_refused_lost`).

**range loops.** `begin` of a vec or stack that has a buffer but no elements is not the end iterator, so `c_each(it, C, begin, end)` reads
a dead slot (`each_range_vec_undefined`), as the plain loop does.

**join.** `cstr_join_n` decides by the emptiness of the string, not by the number of items joined so far, whether a separator
is due; joining `{""}` and then `{"a"}` gives "a", joining `{"", "a"}` gives ",a" (`join_twice_wrong`, C175). A refused
reallocation makes the rest of the join undefined (`join_refused_undefined`).

**equality without regard to case.** `cstr_iequals` compares the folded texts; `zsview_ieq`, `zsview_iequals`, `cstr_ieq` and
`csview_ieq` also require equal numbers of bytes, and the latter two stop at the end of the shorter text. KELVIN SIGN
against "k", and against "kab", separates them (`iequals_disagree`, C174).

**variables.** `_move` of a stack with a fixed capacity returns a copy and leaves the source as it is (stack.h 53-54),
so that both variables own the elements and dropping both destroys them twice (`fixed_move_destroys_twice`, C149).

**tasks, iterators.** Awaiting a task that already waits in the chain (or oneself), or transferring control to one with
`cco_yield_to`, makes the parent pointers a cycle: the fiber never ends (`await_self_hangs`, `yield_to_waiting_hangs`), and
awaiting with `CCO_NOOP` among the bits drops the task while it is suspended (`noop_bits_lose_task`, C147). Advancing
a vec or stack iterator past the capacity, or the iterator of an empty vec (`{NULL, NULL}`) at all, is undefined
(`vec_advance_undefined`, C148); `c_filter_pairwise` does the latter for an empty vec.

**hash, random.** The default hash tells +0.0 from -0.0, which compare equal (`float_zero_hash`, C144). `c_hash_mix`
ignores all earlier hashes if the last one has all bits set (`mix_loses_all`, C145). The counter of a normal
distribution object overflows after 2^31 - 1 numbers (`normal_counter_overflows`, C146).

**deque.** A clone with a failed allocation is broken (`deque_clone_failure_broken`); the iterator
returned by `end()` cannot be used for insertion in a rotated buffer (`deque_end_iterator_wrong`);
`insert_n` does not look at the result of its allocation (`deque_insert_failure_unchecked`).

**pqueue, sort.** `erase_at` in the middle breaks the heap order (C12); `pull` returns a destroyed element
(C74); allocation failures are not checked (C75); `sort_lowhigh` with `lo > 0` runs below `lo` (C14);
sorting elements whose raw value is a pointer into themselves uses a moved pivot (C73).

**cbits.** `cbits_subset_of` tests the opposite of its documentation (C34).

**macros.** Leaving a `c_with` or `c_defer` scope by `break` skips the release (C130; the documentation says to use
`continue`); `break` and `continue` in the branches of `if (c_is(..))` end the hidden loops of the macro and not the loop
around it (C131).

**utf8, csview, cstr.** When a conversion fails, `cstr_append_fmt` removes the last character of the string or writes before its buffer (`fmt_error_wrong`); appending a
string to itself by `%s` is undefined (`append_fmt_self_undefined`); refused memory is not noticed (`append_fmt_refused_undefined`, C171). Counting the characters of a view that ends its object reads past it (C43); case
insensitive comparison is not an order when folding changes lengths (C45); the case-insensitive prefix test
is true only for whole strings (C46); trimming removes non-ASCII text where `char` is signed (C47);
`subview(pos, NPOS)` overflows (C49); iteration over an empty string reads its first character (C79);
assigning a part of a string to itself corrupts it (C37); case conversion of invalid UTF-8 can overflow its
buffer (C40); a failed growth loses the contents (C83). `\p{Alpha}` is documented as cased letters and letter
numbers, but misses cased letters (`alpha_misses_cased`) and contains digits (`alpha_has_digits`). The
documented names `{Hiragani}`, `{Katakani}` are `{Hiragana}`, `{Katakana}` in the code. Searches and `cstr_equals` with a C string do not see what follows a NUL in the text, although strings may
hold NULs and the variants with views see it (C126, C127); `cstr_find_at` and `zsview_from_pos` accept negative positions
(C126, C129); moving an iterator back past the first character leaves the string (C128); `cstr_u8_at` past the end
returns the terminator, its assertion cannot fail (C129).

**hmap.** 1024 colliding keys wrap the 10-bit distance (C21); erasing while iterating can visit an entry
twice (C23); map equality ignores mapped values (C87); a failed clone keeps its size (C88).

**smap.** `clone` does not update `head`: inserting into a clone of a map with erased entries writes out of
bounds (C29); `erase_range` with raw keys inside the nodes erases a wrong key (C30); a failed growth loses
all entries (C90); equality ignores mapped values (C91). Growth computes `3 n / 2` in int32.

**list.** `erase_range` on an empty list with `end()` dereferences NULL, and returns an iterator with a
dangling predecessor; `insert_at(list_end())` returns an iterator that cannot be advanced (C95). A failed
`malloc` is dereferenced.

**cspan.** `cspan_subspan` does not check its count (C98); `cspan_back` is wrong for strided spans (C99); a
negative slice start is accepted (C100); a span with an extent 0 and non-NULL data is visited
(`span_each_zero_extent_visits`). `cspan_print` of an element whose text has 128 or more characters ("%f" of 1e300) overruns
a buffer (`cspan_print_overflow`, C154).

**random.** A uniform distribution over a range of 2^63 or more values overflows (C53). `_stc64` and `_stc32` are `static
inline`, so the "global" generators of the documentation exist once per source file, and seeding in one file does not
reach calls in another (`seed_other_file`, C178). `crand64_normal` is compiled in `src/random.c` and draws from the
generator of that file: without a call of `crand64_seed` in it, the numbers are the same in every run, whatever seed
the program sets (`normal_ignores_seeds`, `normal_not_seeded`).

**algorithm.** `crange` of an empty range yields its start (`crange_empty_wrong`); `c_range` near the limits
overflows (`c_range_overflow`); more than 19 counting stages or 20 flag stages leave the arrays of a filter
(`filter_counters_undefined`, `filter_flags_undefined`). `c_ffilter` sets up its variable by `{.iter=start, .ref=i.iter.ref}` and
relies on an order of evaluation that C leaves open (`ffilter_unordered_undefined`).

**Coroutine timers.** They read the calendar clock, so setting it back lengthens a wait and setting it forward ends it early
(`await_set_back`, `await_set_forward`, C172).

**Comparison functions.** With only `i_less` defined, equality is `==` and need not be that of the ordering
(`from_less_eq_wrong`), and an `i_less` whose true value is negative gives an `i_cmp` that orders the other
way round (`from_less_negative_wrong`, C169). The heap adds the value of `i_less` to an index, so an
`i_less` yielding 2 for true reads outside the elements (`siftDown_two_undefined`).

**Ownership of arguments.** With elements given by `i_keyclone` and `i_keydrop`, `put_n` and `from_n` copy into sequences but move into sets
(`put_n_disagrees`), and whether `put` of a map copies the value depends on the type of the key
(`put_value_depends_on_key`, C170).

**generators.** `cco_flt_takewhile` lets the element that fails its predicate pass, and `cco_flt_take(0)` one element, because
the comma expression drops the value of `c_flt_take…` (coroutine.h 383-387; `cco_flt_takewhile_passes_failing`,
`cco_flt_take_zero`). `cco_stop` at a value that was yielded by `cco_yield_final` skips the cleanup, and a `c_each` loop then
visits that value forever (`cco_stop_at_final_yield`, C153).

**coroutine.** Stopping a stopped coroutine skips its cleanup; stopping it during the cleanup restarts it
(C59). `cco_return` behind `cco_finally`, after a suspension there, restarts the cleanup forever
(`return_in_cleanup_restarts`); `break` or `continue` outside of a loop skip it
(`loose_break_skips_cleanup`). A cleanup that suspends while an error is on its way is never finished
(`suspended_cleanup_abandoned`); a task recovering from an error it threw itself starts again (`own_error_restarts`). A fiber spawned by the only fiber in its last resume is lost; a fiber can starve (C60).

**coption.** An ambiguous abbreviation is reported forever (`coption_ambiguous_never_ends`). Calling again
after the end continues parsing behind `--`.

**fmt.** Without arguments the untranslated format is given to `printf`: `{{` prints two braces and `%` starts a
conversion (`fmt_plain_wrong`). Formats within the documented 127 characters overflow the buffer
(`fmt_overflow`). An empty first text is written through NULL (`stream_empty_wrong`), as is any text when
`realloc` fails (`stream_memory_wrong`). `{:x}` for a `long` is `%x` (`fmt_explicit_wide`).

**arc.** `arc_assign` from a handle that lies inside the object being replaced reads freed memory (not
modelled).

**regex, compiling.** A pattern that ends with a backslash, `\Q` without `\E`, and an unclosed class of exactly
32 spans are read past the terminator (`compile_reads_behind`). A class of more than 32 spans is silently
split (`class_truncated`). `[^-a]` is a range (`negated_dash_is_range`). `\x{41}` is taken as `\A`
(`hex_letter_wrong`); `\x{..}` accepts white space and signs. Without regard to case only the ends of ranges are
folded (`icase_range_wrong`). `[\t-\n]` does not map the end of the range. `\Q..\E` inside a class does not suppress
mappings. `cregex_match` and `cregex_drop` after a failed compilation dereference NULL (`no_program_undefined`), and
`cregex_replace_aio` of a text that is not a pattern fails an assertion (`replace_aio_asserts`).

**regex, matching.** The thread lists can be overrun (`thread_list_overflow`): an out-of-bounds write that a
pattern such as the witness triggers. Patterns with nested empty repetitions, and literals of 98 equal
letters, give a match error although they match (`match_error_although_matching`, `long_literal_fails`).
The check of the first character runs past the end of a view (`view_match_outside`), misses lines for `^`
(`caret_misses_line`) and misses the Kelvin sign (`icase_misses_kelvin`). `\B` at a word boundary consumes a
character (`not_word_boundary_consumes`); `\b` fails at the end of a terminated text and always
matches at the beginning (`word_boundary_edges`). CREG_FULLMATCH misses
matches and reports others (`fullmatch_misses`, `fullmatch_reports_other`). `(?i)` in one alternative leaks to
the others. The documentation swaps `\z` and `\Z`; `\Z` in a view looks for a NUL.

**regex, replacing.** A pattern that matches the empty text is replaced at the same place again and again
(`replace_empty_never_advances`); `^` matches behind every replaced part (`replace_caret_again`); a match error
silently ends replacing (`replace_hides_error`); iteration stops at the first empty match
(`iterate_stops_at_empty`). The first round of `c_match_sv` ignores the end of the view (from reading).

**capacity.** `vec_insert_n` and `stack_append` (and what is built on them) reallocate whenever `size + n >=
capacity`, although the elements fit when both are equal; after `reserve(4)`, two pushes and an insertion of
two, the insertion goes to the allocator and fails when it has nothing to give (`vec_reserved_insert_asks`,
`stack_reserved_append_asks`). `vec_resize(v, size(v))` and `vec_reserve(v, size(v))` reallocate to exactly
the size, giving up reserved room (`vec_reserved_resize_shrinks`); `hmap_reserve(n)` below the present
capacity shrinks the table; `smap_reserve` answers `false` when the capacity already suffices; inserting a
key that is present into a full `hmap` enlarges the table (C134). `shrink_to_fit` does nothing to an empty vec,
stack or deque, however much room it has (`vec_shrink_empty`, `stack_shrink_empty`, `deque_shrink_empty`).

**invalidation.** "No iterators are invalidated after insert, unless the hash-table need to be extended"
(docs/hmap_api.md) is false: the entries behind a new one are shifted, and a pointer to one of them then gives
the new entry (`hmap_insert_moves_others`). "References are only invalidated after erase" (docs/smap_api.md) is
false: an insertion reallocates the nodes when none is free (`smap_insert_reallocates`). Erasing from an smap may move
the entry before the erased one, unlike `std::map` (`smap_erase_moves_another`; documented).

**fixed-length bit sets.** The size argument of `X_with_size` and `X_with_pattern` is only asserted to be at most the
declared length; all bits of the type are given the value (C156). `cbits_print` does not clamp its range as `to_str`
does (C157).

**regex flags in front.** `(?i)x|[b]` does not match `B`: the mode is set by an instruction in the first
alternative, and the last alternative is run first (`flag_misses_class`; C160). Flags inside of a pattern also act on
alternatives before them (`flag_leaks`).

**regex work.** A search does not stop when the match can no longer be improved: it runs to the end of the text (cregex_prv.c 1030-1151
have no exit for an empty list of threads after a match). Going through all matches, or replacing all of them, is
quadratic in the text (`matches_not_linear`; C162).

**iterators by distance.** `csview_advance` reads the byte after the view when it gets to its end, and has no bound
when moving back (C158). `advance` of `vec` and `stack` forms pointers outside the block for large distances, and
ends a reverse iterator at once (C159).

**allocators.** With a contextual allocator (README, "Per container-instance customization") any growth of an
hmap breaks the allocator's contract: `_reserve` swaps `self` with a fresh `Self` whose `aux` is zero, so that the old
blocks go back to context zero and the map has lost its `aux` (`hmap_reserve_breaks_contract`,
`hmap_growth_loses_aux`). `aux` is also lost by `_shrink_to_fit` of deque, `_clear` of smap, `_reverse` of list and
by the list made by `_split_off`; clones of stack, pqueue, deque, smap and list, and the map shrunk by smap
`_shrink_to_fit`, own blocks from context zero while they carry the original's `aux` (`*_breaks_contract`,
`*_loses_aux`). `_shrink_to_fit` or `_reserve(0)` of an emptied pqueue and `cbits_resize(b, 0)` call `realloc(p, 0)` and
keep the pointer when it returns NULL: with glibc the block is then freed twice (`pqueue_shrink_frees_twice`,
`cbits_resize_zero_frees_twice`). `cregex` does not update `allocsize` when the program is shrunk in place and later
passes the wrong size (`cregex_inplace_wrong_size`); a refusal while compiling anew loses the old program
(`cregex_recompile_leaks`); dropping after an error reads NULL (`cregex_drop_after_error`). A refused
`cstr_reserve` or `cstr_shrink_to_fit` loses the buffer (`cstr_reserve_leaks`).

## Experiments with wrong programs

`seeded/LOG.jsonl` has one line per experiment: the definition edited, the edit, the claim it breaks, the
theorems that failed to check, and the theorems tightened because of it. An experiment that "survived" is
either an edit without an observable effect on the claim (said in its note), or led to a stronger theorem.

## Axioms

Of the theorems in the manifest:

**no axioms** (11 theorems):
* `Verif.Csview`: `u8_iterate_overread`
* `Verif.Coro`: `coroutine_done_inert`, `coroutine_stop_twice_skips_cleanup`, `coroutine_cleanup_restarts`, `cco_stop_at_final_yield`
* `Verif.Fmt`: `stream_empty_wrong`
* `Verif.Regex`: `error_codes`
* `Verif.Template`: `from_less_negative_wrong`, `clone_drop_paired`, `class_complete`, `put_value_depends_on_key`

**propext** (84 theorems):
* `Verif.Vec`: `vec_iterate_empty_undefined`
* `Verif.Stack`: `stack_iterate_empty_undefined`, `fixed_append_spurious_failure`
* `Verif.Deque`: `deque_clone_failure_broken`, `deque_end_iterator_wrong`, `deque_insert_failure_unchecked`
* `Verif.Sort`: `sort_lowhigh_disturbs_below`
* `Verif.PQueue`: `pqueue_shrink_empty_undefined`
* `Verif.Utf8`: `utf8_decoder_restarts`, `icmp_view_cycle`, `icmp_view_fold_equal_differs`, `icmp_string_not_antisymmetric`, `case_mapping_ascii`, `case_mapping_dotted_i`, `class_ascii`, `alpha_misses_cased`, `alpha_has_digits`
* `Verif.Csview`: `icompare_false_equal`, `u8_iterate_empty`, `iends_with_view_wrong`, `iequals_disagree`
* `Verif.Cstr`: `string_insert_self_wrong`, `Join.join_twice_wrong`
* `Verif.Smap`: `map_erase_range_wrong`, `map_eq_ignores_values`, `smap_erase_moves_another`
* `Verif.Clist`: `list_erase_range_iter`
* `Verif.Cspan`: `span_each_null`, `span_back_strided`, `span_slice_negative_start`
* `Verif.Random`: `uniform_full_range_overflows`
* `Verif.Algo`: `c_range_overflow`, `filter_counters_undefined`, `vec_erase_remove_undefined`, `vec_advance_undefined`, `each_range_vec_undefined`
* `Verif.Coro`: `coroutine_suspending_cleanup_partial`, `semaphore_no_lost_release`, `Proc.suspended_cleanup_abandoned`, `c_flt_take_skips_cleanup`, `cco_flt_takewhile_passes_failing`, `cco_flt_take_zero`
* `Verif.Coption`: `parse_split`, `coption_operands`
* `Verif.Regex`: `nesting_limit`, `group_limit`, `compile_reads_behind`
* `Verif.Fmt`: `fmt_unique`
* `Verif.Zstr`: `find_nul_wrong`
* `Verif.Cost`: `vec_reserved_insert_asks`, `vec_reserved_resize_shrinks`, `stack_reserved_append_asks`, `pqueue_shrink_partial`, `vec_shrink_empty`, `stack_shrink_empty`
* `Verif.Own`: `fixed_move_destroys_twice`
* `Verif.Alloc`: `pqueue_shrink_frees_twice`, `pqueue_push_null`, `smap_clone_null`, `list_push_null`, `cstr_reserve_leaks`, `cstr_with_null`, `cbits_resize_zero_frees_twice`, `cregex_inplace_wrong_size`, `cregex_drop_after_error`, `cregex_recompile_leaks`, `stack_clone_breaks_contract`, `pqueue_clone_breaks_contract`, `deque_shrink_loses_aux`, `deque_clone_breaks_contract`, `smap_clear_loses_aux`, `smap_shrink_breaks_contract`, `list_reverse_loses_aux`, `list_reverse_breaks_contract`, `list_splitOff_breaks_contract`, `list_splice_breaks_contract`, `New.delete_none`, `New.delete_null_undefined`
* `Verif.Template`: `user_wins`, `derived_less_01`, `emplace_converts`, `class_put_n_agrees`, `put_value_class`, `put_value_plain`

**Quot.sound** (1 theorems):
* `Verif.Fmt`: `stream_memory_wrong`

**propext, Quot.sound** (141 theorems):
* `Verif.PQueue`: `pqueue_clone`, `pqueue_erase_at_breaks_order`, `pqueue_push_failure_undefined`, `siftDownI_eq`, `siftDown_derived`, `siftDown_two_undefined`
* `Verif.Sort`: `sort_inline_raw_wrong`
* `Verif.Cbits`: `cbits_subset_reversed`
* `Verif.Utf8`: `utf8_count_index`, `utf8_count_n_partial`, `utf8_count_n_overread`, `class_disjoint`, `class_plane`, `class_digits`, `class_surrogate`
* `Verif.Csview`: `u8_subview_partial`, `u8_tail`, `istarts_with_incomplete`, `trim_signed_loses_text`, `tokens_empty_separator`, `subview_npos_overflow`, `slice_negative_end`, `u8_iterate_partial`, `u8_iterate_empty_view`, `string_order`
* `Verif.Hmap`: `map_any_hash_partial`, `map_erase_revisits`, `map_alloc_failure`, `map_eq_ignores_values`, `hmap_insert_moves_others`
* `Verif.Clist`: `list_erase_range_empty`, `list_insert_end_iter`
* `Verif.Cspan`: `span_subspan_count_unchecked`, `span_size`, `span_front`
* `Verif.Random`: `uniform_redraws`, `shuffle_permutes`, `shuffle_reaches_all`, `streams_differ`, `Normal.normal_counter_overflows`, `Global.generators_separate`, `Global.seeded_results_partial`, `Global.hidden_as_own`, `Global.unseeded`, `Global.seeds_differ`, `Global.seed_other_file`, `Global.normal_ignores_seeds`, `Global.normal_not_seeded`
* `Verif.Algo`: `crange_empty_wrong`, `filter_flags_undefined`, `ffilter_unordered_undefined`
* `Verif.Arc`: `arc_call_defined`, `arc_call_finishes`, `arc_step_progress`
* `Verif.Coro`: `coroutine_cleanup_once_partial`, `coroutine_cleanup_return_restarts`, `coroutine_stop_cleans_up`, `coroutine_value_body`, `fiber_spawned_by_last_is_lost`, `fiber_spawned_behind_other_is_lost`, `semaphore_bound`, `task_awaiting_not_resumed`, `task_completed_resumes_parent`, `coroutine_complete`, `loose_break_skips_cleanup`, `return_in_cleanup_restarts`, `Proc.own_error_restarts`, `Link.tasks_are_stack_partial`, `Link.transfers_in_order`, `Link.yield_to_waiting_hangs`, `Link.await_self_hangs`, `Link.noop_bits_lose_task`, `each_generator_stop_partial`, `Timer.timer_started`, `Timer.await_nothing`, `Timer.await_set_back`, `Timer.await_set_forward`
* `Verif.Regex`: `not_word_boundary_consumes`, `word_boundary_edges`, `match_error_although_matching`, `thread_list_overflow`, `caret_misses_line`, `icase_misses_kelvin`, `fullmatch_misses`, `fullmatch_reports_other`, `view_match_outside`, `compiled_groups`, `icase_range_wrong`, `negated_dash_is_range`, `escaped_range_wrong`, `class_truncated`, `hex_letter_wrong`, `replace_empty_case`, `replace_caret_again`, `replace_boundary_again`, `replace_hides_error`, `walk_ordered`, `iterate_stops_at_empty`, `long_literal_fails`, `flag_misses_class`, `flag_leaks`, `execC_fst`, `iterC_fst`, `match_aio_refused`, `compile_history`, `compile_result`, `match_memory`, `match_aio_inplace`, `no_program_undefined`
* `Verif.Fmt`: `stream_contents_partial`
* `Verif.Zstr`: `find_at_partial`, `find_stops_at_nul`, `find_at_negative`, `advance_leaves_view`, `u8_at_past_end`, `csview_advance_reads_past_end`
* `Verif.Control`: `is_partial`, `is_swallows_break`, `each_kv`, `items_each`, `drop_all`
* `Verif.Hash`: `hash_injective`, `hash_str_injective`, `float_hash_partial`, `float_zero_hash`, `mix_not_commutative`, `mix_last_injective`, `mix_low_bit`, `mix_loses_top`
* `Verif.Own`: `own_fits`
* `Verif.Alloc`: `vec_aux_kept`, `pqueue_aux_kept`, `smap_aux_kept_partial`, `list_aux_kept_partial`, `hmap_reserve_breaks_contract`, `hmap_growth_breaks_contract`, `hmap_growth_loses_aux`, `New.new_user_undefined`
* `Verif.Cstr`: `Format.vfmt_text`, `Join.join_inj`
* `Verif.Deque`: `deque_find_in_wrong`

**propext, Classical.choice, Quot.sound** (465 theorems):
* `Verif.Vec`: `vec_sequence`, `vec_find`, `vec_eq`, `vec_erase_returns_next`, `vec_clone`, `vec_alloc_failure`, `vec_capacity`, `vec_iterate_partial`, `vec_iterate_reverse_partial`, `vec_ownership`, `vec_put_n`, `vec_erase_range`, `vec_take`, `vec_advance_partial`, `stack_advance_partial`, `vec_advance_overflow`, `vec_advance_reverse`, `vec_find_in`, `vec_find_iter`, `vec_find_in_past_undefined`
* `Verif.Stack`: `stack_iterate_partial`, `fixed_stack`, `growing_stack`, `stack_find_in`, `stack_find`, `stack_eq`
* `Verif.Deque`: `deque_sequence`, `deque_clone`, `deque_eq`, `queue_fifo`, `deque_iterate`, `deque_iter_edit_partial`, `deque_alloc_failure_partial`, `deque_reserve`, `deque_ownership`, `deque_index`, `deque_find_in_partial`, `deque_find`
* `Verif.Common`: `next_pow2_least`
* `Verif.Hmap`: `map_ownership`, `map_is_finite_map`, `map_defined`, `map_get_after`, `map_results`, `map_collisions_lost`, `map_iteration`, `map_advance`, `map_erase_while_iterating_partial`, `map_erase_if`, `map_rehash`, `map_eq_partial`, `map_clone_partial`, `map_clone_failure`, `map_put_n`, `hmap_insert_moves_partial`, `absent_lookup_cost`, `present_lookup_cost`, `iteration_order`, `iteration_same`, `iteration_shared_home`, `erase_no_trace`, `iter_each`, `find_iterates`, `find_erase_at`
* `Verif.Smap`: `map_ownership`, `map_is_finite_map`, `map_defined`, `map_get_after`, `map_results`, `map_ordered_iteration`, `map_advance`, `map_height`, `map_iterator_stack`, `map_lower_bound`, `map_clone_partial`, `map_clone_insert_undefined`, `map_clone_failure_undefined`, `erase_leaves_free`, `map_erase_at`, `map_erase_range_partial`, `map_alloc_failure_partial`, `map_alloc_failure_loses_entries`, `map_eq_partial`, `map_front_back`, `map_put_n`, `smap_insert_keeps_references_partial`, `smap_insert_reallocates`, `smap_erase_moves_one`
* `Verif.Clist`: `list_ownership`, `list_is_sequence`, `list_one_cycle`, `list_queries`, `list_remove`, `list_sort`, `list_find`, `list_find_in`, `list_eq`, `list_insert_iter`, `list_erase_iter`, `list_splice_iter`, `list_later_iter`, `list_erase_range_iter_partial`, `list_erase_if`, `list_unlink_front`
* `Verif.PQueue`: `pqueue_top_is_max`, `pqueue_make_heap`, `pqueue_drain_sorted`, `pqueue_erase_at_partial`, `pqueue_pull_returns_destroyed`, `pqueue_drop`
* `Verif.Sort`: `sort_correct`, `sort_lowhigh_partial`, `lower_bound_correct`, `lower_bound_range_correct`, `binary_search_correct`, `sort_comparisons`, `sort_ascending`, `sort_flat`
* `Verif.Cbits`: `cbits_list`, `cbits_point`, `cbits_count`, `cbits_algebra`, `cbits_subset_partial`, `cbits_resize`, `cbits_string`, `popcount_portable`, `cbits_fixed`, `cbits_fixed_make`, `cbits_fixed_size_ignored`, `cbits_print_partial`, `cbits_print_overruns`
* `Verif.Utf8`: `utf8_round_trip`, `text_injective`, `utf8_valid_n_exact`, `utf8_valid_exact`, `utf8_decode_progress`, `utf8_decode_all`, `icmp_view_partial`, `icmp_view_order_partial`, `icmp_string_partial`, `case_mapping`, `class_group`, `class_alpha`, `class_alnum`, `class_word`, `class_blank`, `class_space`, `class_cased`, `class_word_space`, `class_control`
* `Verif.Csview`: `find_leftmost`, `prefix_suffix_infix`, `istarts_with_view_partial`, `istarts_with_string_partial`, `trim_partial`, `tokens_lossless`, `subview_partial`, `subviews_in_base`, `view_order`, `iequals_partial`, `iends_with_partial`, `hash_by_content`, `cstr_iequals`, `zsview_iequals_partial`, `iequals_agree_partial`
* `Verif.Cstr`: `string_bytes`, `string_calls`, `string_construct`, `string_capacity`, `string_layout`, `string_append_self`, `string_assign_self_partial`, `string_assign_self_wrong`, `string_replace`, `string_replace_all`, `tocase_partial`, `tocase_exact`, `tocase_overflow`, `string_hash`, `string_u8_edit`, `string_push_pop`, `string_alloc_partial`, `string_alloc_lost`, `string_alloc_short`, `string_join`, `string_getdelim`, `Format.append_fmt`, `Format.printf_text`, `Format.from_fmt`, `Format.fmt_error_wrong`, `Format.append_fmt_self_undefined`, `Format.append_fmt_refused_undefined`, `Join.join_items`, `Join.join_strings`, `Join.join_then_split`, `Join.join_twice_partial`, `Join.join_refused_undefined`
* `Verif.Cspan`: `span_md`, `span_md_bijective`, `span_at`, `span_at_checked`, `span_slice`, `span_transpose`, `span_swap_axes`, `span_swap_axes_checked`, `span_each`, `tuples_lexicographic`, `span_set_all`, `span_eq`, `span_submd`, `span_subspan_partial`, `span_back_partial`, `span_slice_checked_partial`, `span_is_layout`, `span_from_n`, `cspan_print_partial`, `cspan_print_overflow`
* `Verif.Random`: `uniform_in_range_partial`, `uniform_unbiased_partial`, `crand64_period`, `crand32_period`, `real_unit_interval`, `Normal.normal_partial`, `Normal.coord_range`, `shuffle_streams`, `shuffle_even`, `shuffle_uneven`
* `Verif.Algo`: `c_range_partial`, `c_range_unit_partial`, `crange_partial`, `crange_advance`, `filter_pipeline_partial`, `filter_vec_partial`, `filter_deque_partial`, `filter_list_partial`, `filter_smap_partial`, `filter_range_partial`, `ffilter_partial`, `ffilter_deque_partial`, `vec_erase_remove_partial`, `stack_erase_remove_partial`, `deque_erase_remove`, `smap_erase_if`, `find_if`, `find_in`, `quantifiers`, `iterate_vec_partial`, `iterate_deque`, `iterate_deque_reverse`, `iterate_hmap`, `iterate_smap`, `iterate_list`, `append_if_vec`, `vec_reverse`, `deque_reverse`, `array_reverse`, `each_n`, `filter_zip_partial`, `vec_advance_partial`, `pairwise_vec_partial`, `pairwise_deque_partial`, `pairwise_list_partial`, `pairwise_smap_partial`, `each_range_vec_partial`, `each_range_stack_partial`, `each_range_deque`, `each_range_deque_reverse`, `each_range_hmap`, `each_range_smap`, `each_range_list`
* `Verif.Arc`: `arc_step_defined`, `arc_alive`, `arc_destroy_last`, `arc_conserved`, `arc_value_stable`, `arc_no_garbage`, `arc_no_leak`, `arc_use_count`
* `Verif.Box`: `box_step_defined`, `box_owned_once`, `box_conserved`, `box_no_leak`, `box_contents`, `box_destroyed`
* `Verif.Coro`: `fiber_run_safe_partial`, `fiber_every_live_resumed_partial`, `fiber_ring_kept`, `fiber_spawn_joins`, `fiber_can_starve`, `task_error_unwinds`, `task_error_recovered`, `semaphore_exclusion`, `coroutine_sequential`, `coroutine_cleanup`, `Proc.task_sequential`, `Proc.task_complete`, `Proc.task_sequential_plain`, `filter_generator_partial`, `filter_generator_cleanup_partial`, `Timer.timer_consistent`, `Timer.await_timer_partial`
* `Verif.Coption`: `coption_permutes_partial`, `coption_ambiguous_never_ends`, `coption_reports`, `coption_any_calls`, `coption_end_again_partial`, `coption_again_after_dashes`
* `Verif.Regex`: `pattern_match_sound_partial`, `regex_match_sound_partial`, `regex_match_results`, `regex_fullmatch_partial`, `regex_empty_pattern`, `pattern_leftmost_longest_partial`, `pattern_nomatch_partial`, `pattern_head_leftmost_longest_partial`, `regex_leftmost_longest_partial`, `regex_nomatch_partial`, `regex_head_leftmost_longest_partial`, `pattern_search`, `pattern_view_partial`, `regex_view_partial`, `pattern_accepted`, `pattern_compiled`, `pattern_rejected`, `pattern_unambiguous`, `pattern_compiles`, `compile_in_bounds_partial`, `compile_not_ub`, `class_contents_partial`, `pattern_fullmatch_partial`, `replace_partial`, `replace_fits`, `replaced_all`, `replace_empty_never_advances`, `substitution_text`, `substitution_unambiguous`, `iterate_partial`, `iterate_fits`, `pattern_answers`, `regex_answers`, `literal_found`, `quoted_found`, `runs_visited`, `runs_replaced`, `words_visited`, `space_removed`, `tab_means`, `tab_defined`, `compiled_program_relocates`, `flags_search_partial`, `flags_exec`, `search_work_partial`, `search_linear_partial`, `search_reads_all`, `matches_work_partial`, `matches_not_linear`, `matching_ends`, `matching_ends_pattern`, `frag_rank`, `compile_ranked`, `match_aio_partial`, `match_aio_error`, `replace_aio_partial`, `compile_memory_partial`, `replace_aio_asserts`
* `Verif.Fmt`: `fmt_conversions_partial`, `fmt_types_fit`, `fmt_explicit`, `fmt_explicit_wide`, `fmt_plain_partial`, `fmt_plain_wrong`, `fmt_detects`, `fmt_safe_partial`, `fmt_overflow`
* `Verif.Zstr`: `find_partial`, `starts_with`, `ends_with_contains`, `equals_partial`, `equals_nul_wrong`, `advance_partial`, `advance_before_start`, `from_pos_partial`, `u8_from_pos`, `from_pos_negative`, `csview_advance_partial`, `csview_advance_before_start`
* `Verif.Control`: `with_scope`, `defer_scope`, `nested_scopes_partial`, `break_leaks`, `when_groups`, `when_dispatch`, `when_variant`
* `Verif.Cost`: `vec_reserved_partial`, `stack_reserved_partial`, `deque_reserved`, `pqueue_reserved`, `hmap_reserved`, `smap_reserved`, `cstr_reserved`, `vec_growth`, `stack_growth`, `deque_growth`, `pqueue_growth`, `hmap_growth`, `smap_growth`, `cstr_growth`, `sort_nesting`, `sort_nesting_bounded`, `lower_bound_comparisons`, `binary_search_comparisons`, `pqueue_push_comparisons`, `pqueue_erase_comparisons`, `pqueue_pop_comparisons`, `pqueue_make_heap_comparisons`, `smap_search_comparisons`, `smap_change_comparisons`, `vec_shrink_partial`, `stack_shrink_partial`, `deque_shrink_partial`, `hmap_shrink`, `smap_shrink`, `cstr_shrink`, `deque_shrink_empty`
* `Verif.Hash`: `hash_defined`, `hash_one_word`, `mix_loses_all`
* `Verif.Own`: `own_safe_partial`, `own_values`, `own_refused`, `own_once`, `own_no_leak`, `own_end`
* `Verif.Alloc`: `vec_allocator_contract`, `stack_allocator_contract_partial`, `pqueue_allocator_contract_partial`, `pqueue_allocator_contract_granted_partial`, `deque_allocator_contract_partial`, `hmap_allocator_contract_partial`, `smap_allocator_contract_partial`, `smap_allocator_contract_granted_partial`, `list_allocator_contract_partial`, `list_allocator_contract_granted_partial`, `cstr_allocator_contract_partial`, `cbits_allocator_contract_partial`, `cbits_allocator_contract_granted_partial`, `cregex_allocator_contract_partial`, `stack_allocator_contract_aux_partial`, `stack_aux_kept`, `pqueue_allocator_contract_aux_partial`, `deque_allocator_contract_aux_partial`, `deque_aux_kept_partial`, `smap_allocator_contract_aux_partial`, `list_allocator_contract_aux_partial`, `New.delete_object_partial`, `New.objects_balance`, `New.new_refused_lost`
* `Verif.Template`: `from_cmp`, `from_less_partial`, `from_nothing`, `from_class`, `from_less_eq_wrong`, `seq_put_n_copies`, `set_put_n`, `put_n_disagrees`

