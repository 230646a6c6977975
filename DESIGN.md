# Formal model of TupleStore in Lean 4

Everything is in `lean/Verif`. Model files follow the C files function by function; every definition
cites the file and the lines it models. Proof files and property files (`Props*.lean`) contain no
model. `properties.jsonl` states the claims in English, `MANIFEST.json` maps them to theorems,
`seeded/LOG.jsonl` records which theorems fail when a definition is changed to something wrong.

## Approach

Memory is a byte list (`Bytes = List UInt8`). A C function that touches memory is a Lean function in
the `Option` monad. `none` is a *fault*: the code would access memory outside of the buffer it was
given, read an indeterminate value, free something that is not allocated, dereference NULL, or an
unsigned computation that is meant to be exact would wrap around. A theorem that says that a call is
`some _` therefore says that it is memory safe and computes with exact numbers. Where the code really
wraps around on inputs the properties talk about (`expand_container`, deserialisation, page headers,
traversal depth) the model has `% 2^32` instead of a fault.

Result conventions:
 * a function that returns 0 or 1 and edits a buffer gives `Option (Bytes × Bool)`;
 * a getter gives `Option (Option Datum)`, where `some none` is the return value 0;
 * a returned pointer into a buffer is the rest of the buffer from there on (`Datum.ptr`).

Specifications are independent of the code:
 * pages: `List (Option Bytes)` with ordinary list functions (`Spec.lean`, `PageSpec.lean`);
 * tuples: abstract values `Val` (null, bits, raw bytes, list of elements) and the relation `Enc` between a
   type, bytes and a value (`ContEnc.lean`);
 * comparison: the order of mathematical values, IEEE 754 numbers as rationals and infinities
   (`CmpSpec.lean`), lexicographic order;
 * traversal: the set of positions that exist, sorted lexicographically (`PropsWalk.lean`);
 * heap: the set of live addresses (`Heap.lean`).

## What is modelled

| C file | model | properties |
|--------|-------|------------|
| `inc/page_layout_util.h`, `inc/page_header_util.h`, `src/page_header.c` | `Bytes`, `SlottedModel`, `Lookup`, `Api` | C01, C02, C09, C10, C60 |
| `src/page_layout_slotted.c` | `SlottedModel` | C02-C25 |
| `src/page_layout_fixed_array.c` | `FixedModel` | C04, C06-C25 |
| `src/page_layout.c` | `Api` | C03-C25, C50, C53, C82, C88, C93, C97, C100, C101 |
| the functions of `src/page_layout*.c` that take an external tuple, with the tuple on the same page | `OnPage` | C69 |
| `src/tuple_def.c` | `SizeDef`, `SizeDefSer`, `Defaults` | C26-C28, C51, C52, C62 |
| `inc/data_type_info_defaults.h`, `src/data_type_info_defaults.c` | `Defaults` | C62 |
| `src/data_type_info.c`: finalisation | `Dti`, `FinState` (with what a refused call leaves behind), `Share` (on types in memory that share parts) | C28-C30, C62, C66, C79, C89 |
| `src/data_type_info.c`: serialisation, identity | `TypeSer`, `FinLeft` | C31-C33, C65, C78, C80 |
| `src/data_type_info.c`: clone, destroy, allocations of deserialisation, sizes of the objects | `Heap`, `TypeHeap`, `StructSize` | C56, C57, C99 |
| `src/data_type_info.c`: lookup by name | `Lookup` | C58 |
| `inc/data_type_info.h`: element access, expand, discard | `Container`, `ContApi` (the public functions with a cached position), `Expand` | C34-C41, C67 |
| `src/tuple.c`: get, set, expand, discard, counts, increments, position checks | `Container`, `Expand`, `Lookup` | C34-C41, C59, C61, C63, C74, C76, C77, C81, C94, C95, C96, C98 |
| `src/tuple.c`: copying, comparison, hashing | `Copy`, `Compare` | C45, C46, C49, C92, C97, C98 |
| `src/datum.c`, `src/tuple_hasher.c` | `Compare`, `PropsHash` (`fnv`) | C42, C44, C46, C54, C87, C90 |
| `inc/float_accesses.h` | `FloatAcc` | C91 |
| `src/primitive_numeral_types.c` | `Numeral`, `Rounding` (IEEE 754 rounding) | C43, C47, C48, C68 |
| printing functions of `src/datum.c`, `src/data_type_info.c`, `src/tuple_def.c`, `src/tuple.c`, `src/page_layout*.c` | `Print` | C64 |
| `inc/positional_accessor.h` with the documented loops | `Accessor` | C55 |

Proof techniques: a representation invariant per page layout, one simulation lemma per operation and
induction over histories (C02-C25, C53); induction over types and positions with the relation `Enc`
(C34-C41, C49, C54, C59, C61, C64), which is decidable (C81), and over histories of calls on one tuple (C63); relations between two runs, on larger memory (C74) and on memory with other bytes behind the tuple, down to single bits (C76, C77); a normal form of types for identity and interchangeability (C31-C33, C65);
equivalence with a recursive walk for the traversal (C55); induction over the type with the set of objects owned
for the heap (C56, C57); a simulation between a memory of types and the trees they unfold to (C79).

Hypotheses that occur in the theorems:
 * `Legal ps h d`: the limits of README.md:14-18 on page, header and tuple sizes;
 * `Reach ps h d pg s`: the page is the result of some history of calls after a successful `init_page`, `s` is the logical page;
 * `Usable d`: `finalize_type_info` accepted a type as a user builds it, and the type is inside of the documented limits (`Small`);
 * `Built d`, `Fits32 d`, `Limits d`: a type as a user builds it, and limits on the members the user sets; `Limits` implies `Usable` of the finalised type (C62_usable);
 * `IsTuple d m S`: the first `S` bytes of `m` are a well formed datum; all library functions that write tuples produce such bytes (C37, C41, C53);
 * `Conv.Ok`: conversions by C to `float` and `double` round to the nearest number, ties to even, and keep the sign; conversions of 256 bit integers to `double` by serint give a neighbouring number and keep the order; conversions to integers are exact when the number is representable. `Rounding.ieee` is a computable instance and `ieee_ok` proves that it meets all of this.

## Claims that are false of the code

Where a natural claim is false, the claim is stated with its exact exception, and the counterexample is a theorem:
 * C25: `init_page` can return 1 on a page on which no tuple fits, just above 256, 65536 and 16777216 bytes;
 * C29: without the 2GB limit the layout of a finalised type can overlap because sizes wrap around;
 * C32: deserialisation reads behind its data on some malformed tuple types;
 * C33: names of 64 characters are compared beyond their end; C58: likewise in the lookup of a field;
 * C34: values wider than the element are truncated (`ReadsAs` says how), and one case in which set and get differ (`PropsMin.lean`);
 * C40: a request for about 2^32 slots is accepted because its size wraps around;
 * C41: initialising minimal data is not the same as setting the EMPTY_DATUM for fixed size binaries, contrary to the comment in the header;
 * C45: positions out of bounds count as NULL and not as not comparable;
 * C46: 0.0 and -0.0 are equal but hash differently;
 * C48: a target datum that was NULL stays NULL;
 * C49: arrays of identical types are assignable, contrary to the comment in `tuple.h`;
 * C54: a NULL type pointer is dereferenced two steps below a NULL;
 * C55: the capacity of the traversal wraps around; a traversal of types from the second element of an array visits nothing;
 * C56: a stale `*allocation_error` leaks a clone, a shared allocated type is freed twice;
 * C59: each of the two position checks accepts positions that the other refuses;
 * C60: header sizes near 2^32 are declared to fit;
 * C62: `initialize_tuple_def` refuses other types than bit fields, contrary to its comment;
 * C64: printing a type with a field name, or a tuple with a type name, of 64 characters reads behind the name;
 * C65: `are_identical_type_info` ignores maximum sizes in types that are not finalised, and tells a type from its own finalised self, contrary to its comment;
 * C66: a field that a refused call of `finalize_type_info` has finalised keeps its size when it is changed afterwards; the next call accepts the type;
 * C67: a cached position of an element of an array is wrong after an expansion that makes the bitmap longer;
 * C68: casts from LARGE integers to `float` round twice; the result can differ from the cast of an equal UINT and need not be the nearest `float`;
 * C71: copying within one tuple answers 1 and is wrong, or leaves no tuple, where an element has to be moved first (the header warns of it);
 * C75: the same on a page: a string set in place to what was just read from it can read differently afterwards.
 * C77: a BINARY of fixed size keeps its old bytes behind those of a shorter datum, also those from before it was set to NULL (a STRING is filled up with zeros).
 * C78: `deserialize_type_info` does not check the result of `finalize_type_info` on a containee; `Untrusted` defines the reader with that check (`deserC`, not in the code) and proves that the check is sufficient, if it looks at sizes that wrap too. A tuple marked as of variable size with fields of fixed size only is counted 4 bytes short, so that the next field is read from the wrong place.
 * C81: nothing checks the offsets in a tuple of unknown origin; `Valid` and `ValidRead` define two checks (`check`, `safe`, not in the code) and prove what they guarantee.
 * C82: nor is a page of unknown origin checked; `ValidPage` defines a check (`okPage`, not in the code) and proves that it is the invariant that all proofs about pages use.
 * C83: the weaker check of C81 (`safe`) is enough for comparing, hashing and printing as well (`ValidCmp`). The proofs about comparison (`CmpProof`) do not use encodings but only what can be read (`Stands`), so they hold for both.
 * C84: two runs of the same calls in different memory (`Twin`, `TwinOps`: slotted pages that differ only in free space; `TwinFixed`: fixed array pages with the same header, counts and bitmap; `TwinRun`: initialisation and histories).
 * C85: `init_page` writes outside of slotted pages of 257, 258 or 65537 bytes if the header takes nearly all of the page, and the figures for pages wrap around if the header does not fit (`PageCalc` has these computations with the wrap-around, which the page model has as a fault).
 * C86: `zero_out_free_space_on_page` leaves the bytes of discarded tuples in fragmented space, tuples replaced by NULL stay in the fixed array layout, and there discarding leaves the bit of the last slot set.
 * C87: equal whole numbers of types of different sizes are hashed by different bytes.
 * C88: `get_free_space_on_page` of a fixed array page counts bytes that no tuple can take; the free space can be enough for one tuple although the append is refused.
 * C89: two types that differ in maximum sizes of the same width are related by `Widens`; a stored size of 0 means the maximum size, so the representation fixes which sizes are stored as 0 (`CRep.szP`).
 * C90: the collision-free windows of `fnv_64_update` are found with a lattice: six states are a linear function of six byte differences modulo 2^64, and integer combinations of these equations with small coefficients (`fnv_row0` to `fnv_row5`) leave only zero.
 * C91: `float_accesses.h` says that floats are stored in processor order; the code stores them little endian.
 * C92: the order on tuples is that of the lists of values at the positions (`KeyOf`, `lexOrd`); a sorted page is one whose logical page is sorted (`SortedPage`). There is no bisection in the code; C92_find is what one relies on.
 * C93: undoing restores what the page holds, its slots; writes to the page header are not part of it. A page may refuse a tuple it has just given up until it is compacted (an example shows one).
 * C94: a text into which a NUL was set by its character position is not restored by setting what was read of it (an example shows one). In C a container is read as a pointer into the tuple, so it has to be copied before the edit to be put back.
 * C95, C96: elements are put back from copies of what was read before the discard, as in C94. Arrays of bit fields whose elements take more than 64 bits are excluded, as in C38 and C39.
 * C97: splitting and merging are not functions of the library; they are sequences of its calls, as a B-tree built on it would make them.
 * C98: a copy of a tuple or array from a tuple of the former type is refused after its maximum size was raised (C98_copy_refused); sets, expansions and discards are not affected.
 * C99: with a `size_t` of 32 bits `sizeof_tuple_data_type_info` can wrap, and 7 bytes make `deserialize_type_info` write outside of the object it allocated (C99_outside32). With any `size_t`, five bytes make it ask for memory for up to 2^32 - 1 containees before it looks whether there is anything to read (C99_request).
 * C100: tuples of a full page may not fit on a larger page if values have more bytes there; up to twice the size is needed, and the occupied and allotted space of the two pages do not tell (C100_tight).
 * C101: `get_minimum_page_size` is no threshold: a page above the minimum page size for n tuples may hold fewer than n, if values have more bytes there (C101_gap).
 * C79: `finalize_type_info` has no check against types that contain themselves; it recurses without end on them.

## Simplifications

 * Buffers are disjoint: the source and the destination of a copy, the tuple given to a page function and the page do not overlap. (Copying within one tuple is modelled separately in Alias.lean, C71; storing a tuple of a page on the same page in OnPage.lean, C69; setting an element on a page to a datum on that page in AliasPage.lean, C75.)
   A datum that points into the tuple it is written to is outside of the model elsewhere.
 * `uint64_t` bit positions and 256 bit integers are unbounded naturals and integers where the code cannot leave their range.
 * `get_bits` and `set_bits` with more than 64 bits are a fault. `expand` and `discard` move a nullable bit field of 64 bits together with its
   validity bit, 65 bits in a `uint64_t`; C38 to C40 exclude these arrays, and C38_wide_bits says that this is necessary.
 * `heap_sort` inside of compaction is `List.mergeSort` with the same order; by `C14_any_sort` every function that sorts gives the same page, so nothing is assumed about it but that it sorts; `malloc` failing there is an outcome of its own (C14_no_memory).
 * Recursion of deserialisation is bounded by the number of bytes, which is no restriction since every level reads at least one byte.
   The traversal loop has a bound on its rounds, and the theorem says that there is a bound that suffices.
 * `struct data_type_info` is the inductive type `Dti`; pointers between types are a tree. Sharing and addresses are in `Heap.lean` (clone, destroy, allocations) and in `Share.lean` (finalisation), where it is proved that sharing makes no difference (C79). The other functions on types only read them.
 * Uninitialised memory is arbitrary memory: theorems quantify over the former contents of buffers.
 * Hash functions are an arbitrary function from state and byte to state; `fnv_64_update` is one of them (C90).
 * A `flt` datum is the four or eight bytes that `serialize_float` and `serialize_double` write (C91_datum).

Not modelled: how `printf` and `serialize_to_decimal` write a number (the output of the printing functions is a list of the texts, numbers and strings they are given);
`page_layout_unaltered.h` (declarations only); concurrency and I/O (the library has none).

## Trusted base

 * Lean's kernel (4.33.0), and at most the axioms `propext`, `Classical.choice` and `Quot.sound`; the list per theorem is below.
   No `sorry`, no axioms of our own, no compiled evaluation.
 * The reading of the C text by the model. Each definition cites the lines it models.
 * External libraries are assumed to do what they document: serint (little endian integers cut to their width, two's complement,
   256 bit arithmetic), cutlery (`memory_move`, `memory_set`, `memory_swap`, `memory_right_rotate`, bitmaps, array list,
   heap sort), libc (`strnlen`, `strcmp`, `malloc`, `free`).
 * IEEE 754 binary32 and binary64 for `float` and `double`, and a C implementation with 8 bit bytes and 32 bit `int`.

## Axioms per theorem

Theorem names are in the namespace `TS.Props` unless written in full. No axiom other than Lean's own three occurs.

* no axioms: C25_false_fixed, C25_window_tight

* propext: C29_needs_limit, C32_over_read_code8, C32_over_read_marked_fixed, C32_indeterminate_empty_tuple, C34_short_binary, C34_self_refused, C38_count_truncated, C40_wraps_beyond_limit, C45_zero_iff_equal, C46_boundaries_leave_no_trace, C48_null, C48_stale_null, C48_refused, C51_stream_short, C54_string_ends_at_nul, C58_not_a_tuple, C60_does_not_fit, C62_uninitialised, C66_stale_size, C67_stale_misreads, at_out, C78_misread, C83_needed, C87_same_type, C96_no_text

* propext, Quot.sound: C01_width, C101_largest, C27_no_over_read, C27_prefix_rejected, C30_idempotent, C33_long_name_fault, C38_wide_bits, C42_comparable_total, C42_not_comparable, C43_numerals_comparable, C55_depth_wraps, C55_types_second, C56_destroy, C56_shared_double_free, C60_wraps, C62_macro_results, C64_print_hex, C66_result, C67_outside, C67_slots, C69_counter, C72_replace_may_move, C74_larger, C74_larger_reads, C78_wrapped, C79_cycle, C82_needed, C85_minimum, C85_largest, C85_count, C89_read, C90_state, C90_seven, C90_word_collision, C91_mixed, C99_shallow, C99_finalised, C99_honest

* propext, Classical.choice, Quot.sound: C01_roundtrip, C02_empty_page_all_free, C02_init, C02_discard_all, C03_slotted_refinement, C03_C04_observe, refinement, C04_fixed_refinement, C05_slotted_no_fault, C05_C06_init_no_fault, tuple_inside, C06_fixed_no_fault, C07_failure_changes_nothing, C08_can_append, C08_can_insert, C08_can_update, C08_slotted_exact, C08_fixed_exact, C09_header_history, C09_call_keeps_header, C10_header_write, C100_exact, C100_same_width, C100_double, C100_figures, C100_tight, C101_count, C101_grow, C101_minimum, C101_gap, C101_shorter, C11_tomb_count_exact, C12_occupied_exact, C13_conservation, C13_fixed_no_fragmentation, C14_compaction, C14_second_compaction, C14_no_memory, C14_any_sort, C15_append_after_compaction, C15_update_after_compaction, C16_free_space_is_whole_gap, C17_not_larger_update, C18_swap_twice, C18_insert_discard, C19_trailing, C20_clone, C21_zero_out, C22_never_more, C22_fill, C23_largest, C24_sufficient, C24_necessary, C25_init_iff, C25_fits, C25_false, C26_size_def_roundtrip, C28_sizes_agree, C29_layout, C31_serialisation_round_trips, C32_truncated_rejected, C32_no_over_read_without_tuples, C33_reflexive, C33_symmetric, C33_transitive, C33_identical_types_behave_alike, C34_set_then_get, C34_exact, C34_nested, C35_others_unchanged, C36_can_set_predicts, C37_growth, C37_growth_expand, C37_growth_discard, C38_expand, C39_discard, C39_discard_iff, C40_expand_iff, C40_expand_room, C40_max_increment, C41_minimal, C41_isMin, C41_numeral, C41_as_set, C41_not_as_set, C42_comparable_symmetric, C42_comparable_reflexive, C42_compares_values, C42_compares_values2, C42_total_preorder, C42_total_preorder2, C42_total_preorder_across_types, C42_null_lowest, C42_nan_highest, C43_numbers_by_value, C43_integers_by_value, C44_compare2_agrees, C45_lexicographic, C45_reversed, C45_one_type, C45_tuple_with_data, C45_data, C45_out_of_bounds_is_null, C46_equal_data, C46_equal_tuples, C46_whole_tuple, C46_two_ways, C46_bytes, C46_zeros_differ, C46_bytes_of_leaves, C46_tells_apart, C47_min, C47_max, C47_max_float, C48_preserves, C48_total, C48_modulo, C49_identical, C49_numeral, C49_string, C49_is_set, C49_numeral_iff, C50_set_in_place, C50_in_place, C51_stream_size, C52_minimal_tuple, C53_typed_pages, C54_same_as_tuple, C54_fault_below_null, C54_count, C55_elements, C55_all_elements, C55_types, C55_moves, C56_clone, C56_clone_type, C56_destroy_clone, C56_stale_error_leaks, C57_no_leak, C57_as_without_failures, C57_serialised_type, C58_first_field, C58_over_read, C59_tuple_def, C59_tuple, C59_value_has_type, C59_independent, C60_fits, C61_set_iff, C61_no_type, C61_size, C62_finalize_iff, C62_computed, C62_tuple_def, C62_usable, C62_predefined, C62_macros, C62_first_tuple, C62_bitmap_bits, C63_history, C63_modest, C63_from_scratch, C64_print_tuple, C64_same_text, C64_print_type, C64_type_text, C64_print_page, C64_overread, C65_after, C65_before, C65_fixed, C65_max_size_ignored, C65_mixed, C66_declared, C66_partly, C66_attempts_do_not_matter, C67_hash, C67_element, C67_pointer, C67_disjoint, C67_move, C67_set_null, C67_same_as_path, C67_kept_positions, C67_stale, C68_nearest, C68_large, C68_order, C68_there_and_back, C68_rounded_twice, TS.Dti.ieee_ok, C69_same, C69_effect, C69_self, C69_elsewhere, C70_size, C70_read_alike, C70_histories, C71_fixed, C71_last, C71_null, C71_reads, C71_front, C71_front_reads, C71_value, C71_wrong, C71_wrong_nested, C71_count, C71_broken, C71_onto_itself, C72_history, C72_call, C72_fixed, C72_stride, C72_set_element, C72_replace, C72_new, C72_compact, C73_fixed, C73_moves, C73_containers, C73_ends, C73_again, C73_copy, C73_pointer, C73_pointer_fixed, C74_set_needs, C74_expand_needs, C74_discard_needs, C75_elsewhere, C75_other_tuple, C75_reads, C75_same_fixed, C75_same_front, C75_nothing, C75_onto_itself, C76_set, C76_expand, C76_discard, C76_copy, C76_call, C76_history, C76_from_scratch, C77_footprint, C77_overlay, C77_null_keeps, C77_fresh, C77_erases, C78_built, C78_usable, C78_left, C78_more_data, C78_depth, C78_check, C78_accepted, C78_overcounted, C79_shared, C79_calls, C79_strings, C80_prefix, C80_declared, C80_identical, C80_sequence, C81_fixed, C81_check, C81_announced, C81_read, C81_weaker, C82_accepts, C82_history, C82_queries, C82_typed, C83_compare, C83_hash, C83_two_ways, C83_equal_hash, C83_print, C83_page, C84_run, C84_zeroed, C84_leak, C85_minimum_agrees, C85_init, C85_init_agrees, C85_outside, C85_outside_occurs, C85_inside, C86_slotted, C86_bytes, C86_left, C86_lowest, C86_fixed, C86_tomb, C87_equal, C87_stored, C87_equal_stored, C87_content, C87_width, C88_slotted, C88_compacted, C88_fixed, C88_fixed_free, C88_fixed_free_short, C88_rebuild, C88_split, C88_batch, C88_order, C89_finalize, C89_data, C89_page, C89_history, C89_width, C90_window, C90_tuple, C91_round, C91_bytes, C91_portable, C91_mixed_foreign, C91_datum, C92_order, C92_order_across, C92_search, C92_prefix, C92_other_elements, C92_page, C92_insert, C92_history, C92_find, C93_undo, C93_log, C93_rollback, C93_redo, C94_towards, C94_undo, C94_undo_there, C94_same, C94_either_order, C95_expand_undo, C95_discard_undo, C96_rollback, C97_split, C97_merge, C97_separator, C98_replay, C98_call, C98_copy_refused, C99_inside, C99_returned, C99_outside, C99_outside32, C99_request
