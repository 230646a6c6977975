{"id": "C01", "title": "On-page integers round-trip at every page size", "statement": "For every page size P and every value v smaller than P, storing v as an on-page value and reading it back gives v; the number of bytes used depends only on P, is between 1 and 4, never decreases as P grows and is the smallest number of bytes that can tell apart all values below P.", "quantifier": "all page sizes P in [1, 2^32) and all values v < P", "why_tests_cant": "The domain of inputs is far too large (or unbounded) to enumerate; a test only samples it and the interesting failures sit at width or size boundaries.", "anchors": ["inc/tuplestore/page_layout_util.h: get_value_size_on_page, read_value_from_page, write_value_to_page"]}
{"id": "C02", "title": "The value P itself is representable where the end-of-free-space pointer needs it", "statement": "On a slotted page of any legal size P, after init_page or discard_all_tuples_on_page, get_free_space_on_page equals the space allotted to tuples, including when P is an exact power of 256 where the number P does not fit the on-page value width.", "quantifier": "all legal page sizes and header sizes", "why_tests_cant": "Fails only at exact powers of 256, depends on the truncating encoding and the 0-means-P convention.", "anchors": ["src/page_layout_slotted.c: get_offset_to_end_of_free_space, init_slotted_page, discard_all_tuples_slotted_page"]}
{"id": "C03", "title": "A slotted page behaves as a list of optional tuples (refinement over histories)", "statement": "Starting from a successfully initialised page for variable sized tuples, after any sequence of append, insert, update, discard, discard-trailing-tomb-stones, discard-all, swap, compaction and zero-out-free-space calls, the tuple count, existence of each index and the bytes of each tuple returned by get_nth_tuple_on_page are exactly those of an ordinary list of optional byte strings to which the same successful operations were applied.", "quantifier": "all legal page sizes, header sizes, tuple size definitions, all finite operation sequences with well formed tuples", "why_tests_cant": "The claim ranges over every finite history of operations on pages of every legal size; a test suite runs a handful of fixed histories on a few page sizes.", "anchors": ["src/page_layout_slotted.c: append_tuple_slotted_page, insert_tuple_slotted_page, update_tuple_slotted_page, discard_tuple_slotted_page, discard_trailing_tomb_stones_slotted_page, discard_all_tuples_slotted_page, swap_tuples_slotted_page, run_page_compaction_slotted_page, zero_out_free_space_slotted_page, get_nth_tuple_slotted_page, exists_tuple_slotted_page"]}
{"id": "C04", "title": "A fixed-array page behaves as a list of optional tuples (refinement over histories)", "statement": "The same statement for pages of fixed sized tuples.", "quantifier": "all legal page sizes, header sizes, tuple sizes, all finite operation sequences", "why_tests_cant": "The claim ranges over every finite history of operations on pages of every legal size; a test suite runs a handful of fixed histories on a few page sizes.", "anchors": ["src/page_layout_fixed_array.c: append_tuple_fixed_array_page, insert_tuple_fixed_array_page, update_tuple_fixed_array_page, discard_tuple_fixed_array_page, discard_trailing_tomb_stones_fixed_array_page, discard_all_tuples_fixed_array_page, swap_tuples_fixed_array_page, get_nth_tuple_fixed_array_page"]}
{"id": "C05", "title": "No slotted page operation accesses memory outside the page", "statement": "On a page reached by any history from a successful init_page within the documented limits, no slotted page operation reads or writes a byte at an offset >= page_size, and no offset computation wraps around 32 bits.", "quantifier": "all histories, all operations and arguments (any index, any well formed tuple)", "why_tests_cant": "Memory safety for every history; a test with a sanitizer only covers the executed paths.", "anchors": ["src/page_layout_slotted.c (all functions)"]}
{"id": "C06", "title": "No fixed-array page operation accesses memory outside the page", "statement": "The same for pages of fixed sized tuples, including the is-valid bitmap accesses.", "quantifier": "all histories, all operations and arguments", "why_tests_cant": "Memory safety for every history.", "anchors": ["src/page_layout_fixed_array.c (all functions)"]}
{"id": "C07", "title": "A failed page operation changes nothing", "statement": "If append, insert, update, discard or swap on a page returns 0, every byte of the page is the same as before the call.", "quantifier": "all reachable pages, all arguments", "why_tests_cant": "The claim ranges over every finite history of operations on pages of every legal size; a test suite runs a handful of fixed histories on a few page sizes.", "anchors": ["src/page_layout.c: append_tuple_on_page, insert_tuple_on_page, update_tuple_on_page, discard_tuple_on_page, swap_tuples_on_page"]}
{"id": "C08", "title": "can_* predicts exactly the outcome of the operation", "statement": "On every reachable page can_append_tuple_on_page, can_insert_tuple_on_page and can_update_tuple_on_page return 1 if and only if append_tuple_on_page, insert_tuple_on_page and update_tuple_on_page with the same arguments would return 1.", "quantifier": "all reachable pages, indices and tuples", "why_tests_cant": "The claim ranges over every finite history of operations on pages of every legal size; a test suite runs a handful of fixed histories on a few page sizes.", "anchors": ["src/page_layout.c: can_append_tuple_on_page, can_insert_tuple_on_page, can_update_tuple_on_page", "src/page_layout_slotted.c: can_update_tuple_slotted_page"]}
{"id": "C09", "title": "Tuple operations never disturb the page header", "statement": "No tuple operation (append, insert, update, discard, discard trailing/all, swap, compaction, zero-out) changes the header size or any byte of the user's page header, over any history; init_page makes the header all zero.", "quantifier": "all histories on slotted and fixed-array pages", "why_tests_cant": "The claim ranges over every finite history of operations on pages of every legal size; a test suite runs a handful of fixed histories on a few page sizes.", "anchors": ["src/page_header.c: init_page_header, get_page_header", "src/page_layout.c"]}
{"id": "C10", "title": "Writing the page header never disturbs tuples", "statement": "Overwriting any bytes inside the page header area leaves the logical contents of the page (count, tomb stones, all tuples) and all space figures unchanged.", "quantifier": "all reachable pages, all header contents", "why_tests_cant": "The domain of inputs is far too large (or unbounded) to enumerate; a test only samples it and the interesting failures sit at width or size boundaries.", "anchors": ["src/page_header.c: get_page_header", "inc/tuplestore/page_header_util.h"]}
{"id": "C11", "title": "Tomb stone count is exact", "statement": "On every reachable page get_tomb_stone_count_on_page equals the number of indices below get_tuple_count_on_page for which exists_tuple_on_page is 0.", "quantifier": "all histories", "why_tests_cant": "The claim ranges over every finite history of operations on pages of every legal size; a test suite runs a handful of fixed histories on a few page sizes.", "anchors": ["src/page_layout.c: get_tomb_stone_count_on_page, exists_tuple_on_page"]}
{"id": "C12", "title": "Occupied space is exact", "statement": "On every reachable page get_space_occupied_by_all_tuples_on_page equals the sum over all slots of the space each one occupies (tuple size, if any, plus the per-tuple overhead), and equals get_space_occupied_by_tuples_on_page(0, tuple_count-1) when the page is not empty.", "quantifier": "all histories", "why_tests_cant": "The claim ranges over every finite history of operations on pages of every legal size; a test suite runs a handful of fixed histories on a few page sizes.", "anchors": ["src/page_layout_slotted.c: get_space_occupied_by_all_tuples_slotted_page, get_space_occupied_by_tuples_slotted_page", "src/page_layout_fixed_array.c: get_space_occupied_by_all_tuples_fixed_array_page"]}
{"id": "C13", "title": "Space conservation", "statement": "On every reachable page allotted space = occupied space + free space + fragmentation space with no term negative (no unsigned wrap), and the version of the allotted space computed without a page agrees with the version computed from the page.", "quantifier": "all histories, both layouts", "why_tests_cant": "The claim ranges over every finite history of operations on pages of every legal size; a test suite runs a handful of fixed histories on a few page sizes.", "anchors": ["src/page_layout.c: get_fragmentation_space_on_page, get_space_allotted_to_all_tuples_on_page, get_space_to_be_allotted_to_all_tuples_on_page"]}
{"id": "C14", "title": "Compaction preserves the logical page and removes all fragmentation", "statement": "run_page_compaction changes no tuple, no index, no count and not the occupied space; afterwards fragmentation is 0 and all space not occupied is free. It returns 1 exactly when at least one tuple was moved. The outcome does not depend on the sorting algorithm: any function that reorders the collected offsets into decreasing order gives the same bytes.", "quantifier": "all reachable slotted pages", "why_tests_cant": "Depends on every possible arrangement of live tuples, with overlapping moves.", "anchors": ["src/page_layout_slotted.c: run_page_compaction_slotted_page"]}
{"id": "C15", "title": "After compaction nothing that fits is refused", "statement": "After run_page_compaction an append of a tuple succeeds if and only if the occupied space plus the space the new tuple needs is at most the allotted space; the documented sequence update-to-NULL, compact, update succeeds if and only if the new contents fit in the allotted space.", "quantifier": "all reachable slotted pages and tuples", "why_tests_cant": "The claim ranges over every finite history of operations on pages of every legal size; a test suite runs a handful of fixed histories on a few page sizes.", "anchors": ["inc/tuplestore/page_layout.h:80-85", "src/page_layout_slotted.c: run_page_compaction_slotted_page, can_update_tuple_slotted_page"]}
{"id": "C16", "title": "Free space is never leaked by discards", "statement": "On every reachable slotted page the reported free space is the whole gap between the end of the slot array and the lowest live tuple (or the end of the page if there is none); in particular removing the lowest tuple returns all the space below the next one.", "quantifier": "all histories on slotted pages", "why_tests_cant": "The claim ranges over every finite history of operations on pages of every legal size; a test suite runs a handful of fixed histories on a few page sizes.", "anchors": ["src/page_layout_slotted.c: recompute_end_of_free_space_offset, get_free_space_slotted_page"]}
{"id": "C17", "title": "Growing and shrinking a tuple in place of itself", "statement": "Updating the tuple at an index to a well formed tuple that is not larger always succeeds on every reachable page.", "quantifier": "all reachable pages, all indices holding a tuple, all not larger tuples", "why_tests_cant": "The claim ranges over every finite history of operations on pages of every legal size; a test suite runs a handful of fixed histories on a few page sizes.", "anchors": ["src/page_layout_slotted.c: update_tuple_slotted_page, can_update_tuple_slotted_page"]}
{"id": "C18", "title": "Swap, insert/discard are inverses on the logical page", "statement": "Swapping the same two indices twice restores the logical page; inserting at an index and then discarding that index restores the logical page.", "quantifier": "all reachable pages, all indices", "why_tests_cant": "The claim ranges over every finite history of operations on pages of every legal size; a test suite runs a handful of fixed histories on a few page sizes.", "anchors": ["src/page_layout.c: swap_tuples_on_page, insert_tuple_on_page, discard_tuple_on_page"]}
{"id": "C19", "title": "Trailing tomb stones", "statement": "discard_trailing_tomb_stones_on_page returns get_trailing_tomb_stones_count_on_page evaluated before the call, removes exactly that many slots from the end, leaves a page whose last slot (if any) holds a tuple, and a second call returns 0.", "quantifier": "all reachable pages", "why_tests_cant": "The claim ranges over every finite history of operations on pages of every legal size; a test suite runs a handful of fixed histories on a few page sizes.", "anchors": ["src/page_layout.c: get_trailing_tomb_stones_count_on_page, discard_trailing_tomb_stones_on_page"]}
{"id": "C20", "title": "Clone gives an indistinguishable independent page", "statement": "After clone_page every page query gives the same answer on the clone as on the source, and every subsequent operation gives the same results on both.", "quantifier": "all reachable pages, all subsequent histories", "why_tests_cant": "The claim ranges over every finite history of operations on pages of every legal size; a test suite runs a handful of fixed histories on a few page sizes.", "anchors": ["src/page_layout.c: clone_page"]}
{"id": "C21", "title": "zero_out_free_space only touches free space", "statement": "zero_out_free_space_on_page returns 0 iff free space is 0; it changes no logical content, no count, no space figure, and afterwards every byte of the free space is 0.", "quantifier": "all reachable pages", "why_tests_cant": "The claim ranges over every finite history of operations on pages of every legal size; a test suite runs a handful of fixed histories on a few page sizes.", "anchors": ["src/page_layout_slotted.c: zero_out_free_space_slotted_page", "src/page_layout_fixed_array.c: zero_out_free_space_fixed_array_page"]}
{"id": "C22", "title": "Capacity bounds", "statement": "On no reachable page does get_tuple_count_on_page minus tomb stones exceed get_maximum_tuple_count_on_page; on a fresh page that many minimum-size tuples can all be appended.", "quantifier": "all histories, page sizes, header sizes and size definitions", "why_tests_cant": "The claim ranges over every finite history of operations on pages of every legal size; a test suite runs a handful of fixed histories on a few page sizes.", "anchors": ["src/page_layout.c: get_maximum_tuple_count_on_page"]}
{"id": "C23", "title": "Largest accommodatable tuple", "statement": "A well formed tuple can be appended to a fresh page if and only if its size is at most get_maximum_tuple_size_accomodatable_on_page.", "quantifier": "all legal page sizes, header sizes, size definitions, tuples", "why_tests_cant": "The domain of inputs is far too large (or unbounded) to enumerate; a test only samples it and the interesting failures sit at width or size boundaries.", "anchors": ["src/page_layout_slotted.c: get_maximum_tuple_size_slotted_page", "src/page_layout_fixed_array.c: get_maximum_tuple_size_fixed_array_page"]}
{"id": "C24", "title": "get_minimum_page_size is the least sufficient page size", "statement": "A page of exactly get_minimum_page_size(h, def, n) bytes with an h byte header can hold n minimum sized tuples, and no smaller page can.", "quantifier": "all header sizes, size definitions and counts for which nothing wraps", "why_tests_cant": "The domain of inputs is far too large (or unbounded) to enumerate; a test only samples it and the interesting failures sit at width or size boundaries.", "anchors": ["src/page_layout_slotted.c: get_minimum_page_size_for_slotted_page", "src/page_layout_fixed_array.c: get_minimum_page_size_for_fixed_array_page"]}
{"id": "C25", "title": "init_page succeeds exactly at the minimum page size, and then one tuple fits, except just above powers of 256", "statement": "init_page returns 1 exactly if the page has at least the minimum page size for one tuple; then all page metadata lies inside the page and a tuple of minimum size can be appended to the fresh page, unless the page size is at most 5 bytes (slotted) or 2 bytes (fixed array) above 256, 65536 or 16777216, where init_page may return 1 on a page on which no tuple fits.", "quantifier": "all page sizes, header sizes and size definitions within documented limits", "why_tests_cant": "Breaks only in narrow windows just above powers of 256 where the value width grows; random sampling practically never hits the windows.", "anchors": ["src/page_layout_slotted.c: init_slotted_page", "src/page_layout_fixed_array.c: init_fixed_array_page"]}
{"id": "C26", "title": "Tuple size definition serialisation round-trips", "statement": "For every tuple_size_def, deserialising the bytes written by serialize_tuple_size_def succeeds and yields a definition that assigns the same size, minimum and maximum to every tuple; the bytes written number at most 13.", "quantifier": "all tuple size definitions", "why_tests_cant": "The domain of inputs is far too large (or unbounded) to enumerate; a test only samples it and the interesting failures sit at width or size boundaries.", "anchors": ["src/tuple_def.c: serialize_tuple_size_def, deserialize_tuple_size_def"]}
{"id": "C27", "title": "Tuple size definition deserialisation never over-reads", "statement": "deserialize_tuple_size_def on an arbitrary buffer of any length reads only bytes inside the buffer, and rejects every strict prefix of a serialised definition.", "quantifier": "all byte strings", "why_tests_cant": "The domain of inputs is far too large (or unbounded) to enumerate; a test only samples it and the interesting failures sit at width or size boundaries.", "anchors": ["src/tuple_def.c: deserialize_tuple_size_def"]}
{"id": "C28", "title": "The size definition agrees with the full type", "statement": "For every finalised type that can be a tuple type, get_tuple_size computed from the size definition equals the size computed by walking the type information, on every data.", "quantifier": "all finalised types, all data", "why_tests_cant": "The domain of inputs is far too large (or unbounded) to enumerate; a test only samples it and the interesting failures sit at width or size boundaries.", "anchors": ["src/tuple_def.c: initialize_tuple_size_def, get_tuple_size_using_tuple_size_def", "inc/tuplestore/data_type_info.h: get_size_for_type_info"]}
{"id": "C29", "title": "Finalising a type gives a sound physical layout", "statement": "For every type accepted by finalize_type_info the fixed sized fields of a tuple, the prefix (size, element count), the bitmap and the offsets of variable sized fields occupy pairwise disjoint byte or bit ranges inside the minimum size, and the minimum size is at most the maximum size.", "quantifier": "all type descriptions accepted by finalize_type_info, any nesting", "why_tests_cant": "The domain of inputs is far too large (or unbounded) to enumerate; a test only samples it and the interesting failures sit at width or size boundaries.", "anchors": ["src/data_type_info.c: finalize_type_info"]}
{"id": "C30", "title": "Finalising is idempotent", "statement": "finalize_type_info on an already finalised type succeeds and changes nothing.", "quantifier": "all types", "why_tests_cant": "The domain of inputs is far too large (or unbounded) to enumerate; a test only samples it and the interesting failures sit at width or size boundaries.", "anchors": ["src/data_type_info.c: finalize_type_info"]}
{"id": "C31", "title": "Type information serialisation round-trips", "statement": "For every finalisable type, deserialize_type_info applied to the bytes written by serialize_type_info, whatever follows them, gives a type that after finalize_type_info has the same names and is interchangeable with the original for every function on tuples, and the number of bytes written is get_byte_count_for_serialized_type_info.", "quantifier": "all finalisable types, any nesting depth", "why_tests_cant": "Types are recursive and unbounded.", "anchors": ["src/data_type_info.c: serialize_type_info, deserialize_type_info, get_byte_count_for_serialized_type_info"]}
{"id": "C32", "title": "Type deserialisation does not over-read on truncated or tuple-free data", "statement": "deserialize_type_info never reads outside the bytes it is given when these are a serialised type followed by anything, a serialised type cut off at any point (which is rejected), or any bytes at all without a tuple type code (126, 127, 128). On arbitrary bytes with tuple type codes it does read behind its data: the result of finalize_type_info on a containee is not checked, so that the byte count of a malformed containee (codes 8 and 11, a tuple marked as fixed size with a variable sized field, a tuple without fields) does not match the bytes read.", "quantifier": "all finalisable types and cut points, all byte strings without tuple codes; counterexamples for the rest", "why_tests_cant": "Adversarial input space is unbounded.", "anchors": ["src/data_type_info.c: deserialize_type_info"]}
{"id": "C33", "title": "are_identical_type_info is an equivalence", "statement": "are_identical_type_info is reflexive, symmetric and transitive on finalised types whose names are shorter than 64 characters, and identical types are interchangeable: every function that measures, reads or edits tuples gives the same result with either on all data. Two copies of a type whose name has 64 characters are compared beyond the end of the names.", "quantifier": "all types", "why_tests_cant": "Recursive unbounded domain.", "anchors": ["src/data_type_info.c: are_identical_type_info"]}
{"id": "C34", "title": "Set then get", "statement": "If set_element_in_tuple succeeds then get_value_from_element_from_tuple at the same position returns the value that was set. The tuple as a whole cannot be set to NULL.", "quantifier": "all tuple types, all well formed tuples, all positions, all values of the element's type", "why_tests_cant": "The domain of inputs is far too large (or unbounded) to enumerate; a test only samples it and the interesting failures sit at width or size boundaries.", "anchors": ["src/tuple.c: set_element_in_tuple, get_value_from_element_from_tuple", "inc/tuplestore/data_type_info.h: set_datum_to_containee_in_container"]}
{"id": "C35", "title": "Setting one element leaves all others alone", "statement": "After set_element_in_tuple, whether it returns success or failure, every element other than the one addressed (and its descendants/ancestors) reads the same as before.", "quantifier": "all tuple types, tuples, positions, values", "why_tests_cant": "The domain of inputs is far too large (or unbounded) to enumerate; a test only samples it and the interesting failures sit at width or size boundaries.", "anchors": ["src/tuple.c: set_element_in_tuple", "inc/tuplestore/data_type_info.h: move_variable_sized_containee_to_end_of_container_CONTAINITY_UNSAFE"]}
{"id": "C36", "title": "can_set predicts set", "statement": "can_set_element_in_tuple returns 1 if and only if set_element_in_tuple with the same arguments returns 1.", "quantifier": "all tuple types, tuples, positions, values, allowed increments", "why_tests_cant": "The domain of inputs is far too large (or unbounded) to enumerate; a test only samples it and the interesting failures sit at width or size boundaries.", "anchors": ["src/tuple.c: can_set_element_in_tuple, set_element_in_tuple"]}
{"id": "C37", "title": "Tuple growth stays within the allowance", "statement": "After set_element_in_tuple, expand_element_count_for_element_in_tuple or discard_elements_from_element_in_tuple the tuple is not larger than its maximum size nor larger than before by more than the allowed increment.", "quantifier": "all tuple types, tuples, positions, values, allowed increments", "why_tests_cant": "The domain of inputs is far too large (or unbounded) to enumerate; a test only samples it and the interesting failures sit at width or size boundaries.", "anchors": ["src/tuple.c: set_element_in_tuple, expand_element_count_for_element_in_tuple, discard_elements_from_element_in_tuple"]}
{"id": "C38", "title": "Expanding a container inserts NULL/zero slots and shifts the rest", "statement": "Within the documented limits, after a successful expand of an element at index i by s slots the container has s more elements, elements below i are unchanged, the s new ones are NULL (or zero if not nullable), the old ones from i on are found at index + s, and everything outside of the container reads as before. Exceptions are arrays of bit fields: the element count is cut to the width of the maximum size in bytes, and nullable bit fields of 64 bits take 65 bits, which get_bits cannot return.", "quantifier": "all variable element count containers, all contents, indices and slot counts", "why_tests_cant": "The domain of inputs is far too large (or unbounded) to enumerate; a test only samples it and the interesting failures sit at width or size boundaries.", "anchors": ["inc/tuplestore/data_type_info.h: expand_container, can_expand_container"]}
{"id": "C39", "title": "Discarding from a container removes exactly the slots asked for", "statement": "discard of elements succeeds exactly if all slots asked for are there; after a success at index i of s slots, elements below i are unchanged and the old element j >= i+s is found at j-s, and nothing outside of the container changes. (Arrays of nullable bit fields of 64 bits are excepted, see C38.)", "quantifier": "all variable element count containers", "why_tests_cant": "The domain of inputs is far too large (or unbounded) to enumerate; a test only samples it and the interesting failures sit at width or size boundaries.", "anchors": ["inc/tuplestore/data_type_info.h: discard_from_container, can_discard_from_container"]}
{"id": "C40", "title": "Expansion succeeds exactly if the result fits", "statement": "Within the documented limit (the fixed part of the expanded container is below 2^31 bytes) can_expand and expand of an element return 1 exactly if the element is a non-NULL variable element count container, the index is at most its element count, and the growth is at most the allowance and at most the distance of every container on the path from its maximum size; beyond the limit a request that can not fit is accepted.", "quantifier": "all tuple types, tuples, positions, indices, slot counts within the limit; one witness beyond it", "why_tests_cant": "The failing inputs need 32-bit products to wrap; no ordinary test uses slot counts around 2^30.", "anchors": ["inc/tuplestore/data_type_info.h: can_expand_container, expand_container"]}
{"id": "C41", "title": "Minimal data is the data with no content", "statement": "initialize_minimal_data_for_type_info writes data that is recognised as minimal, whose size is the minimum size and whose elements are all NULL/zero; numerals become 0, bit fields stay as they are. It does the same as set_datum_for_type_info with EMPTY_DATUM, except for fixed size binaries, which the latter leaves as they are.", "quantifier": "all finalised types", "why_tests_cant": "The domain of inputs is far too large (or unbounded) to enumerate; a test only samples it and the interesting failures sit at width or size boundaries.", "anchors": ["inc/tuplestore/data_type_info.h: initialize_minimal_data_for_type_info, is_minimal_data_for_type_info"]}
{"id": "C42", "title": "Comparison is a total preorder on each type and across comparable types", "statement": "compare_datum is reflexive, its sign flips when the arguments swap, and it is transitive: on the data of one type, and across any set of types that can be compared with each other; can_compare_datum is itself total, symmetric and reflexive, and compare_datum gives -2 exactly if it says no. NULL is below every non-NULL value, and NaN is above every other number and equal to NaN.", "quantifier": "all comparable types and all values", "why_tests_cant": "Transitivity is over all triples.", "anchors": ["src/datum.c: compare_datum", "src/primitive_numeral_types.c: compare_primitive_numeral_type"]}
{"id": "C43", "title": "Cross-type numeric comparison respects numeric value", "statement": "compare_datum and compare_primitive_numeral_type2 on any two primitive numeral types (bit fields, integers of 1 to 32 bytes, signed or not, FLOAT and DOUBLE) order them by their mathematical value, without rounding: an integer is compared with a floating point number as real numbers.", "quantifier": "all pairs of primitive numeral types and values", "why_tests_cant": "The domain of inputs is far too large (or unbounded) to enumerate; a test only samples it and the interesting failures sit at width or size boundaries.", "anchors": ["src/primitive_numeral_types.c: compare_primitive_numeral_type2"]}
{"id": "C44", "title": "compare_datum and compare_datum2 agree on equal types", "statement": "For two data of the same type compare_datum and compare_datum2 give the same answer.", "quantifier": "all types and values", "why_tests_cant": "The domain of inputs is far too large (or unbounded) to enumerate; a test only samples it and the interesting failures sit at width or size boundaries.", "anchors": ["src/datum.c: compare_datum, compare_datum2"]}
{"id": "C45", "title": "Tuple comparison is lexicographic with directions", "statement": "compare_tuples, compare_tuples2, compare_tuple_with_datum and compare_datums3 return the result of the first position at which the two sides differ, multiplied by that position's direction (-2 if that position is not comparable), and 0 iff they agree in all compared positions; reversing all directions negates the result. Positions that are out of bounds count as NULL (and not as -2, as the header says).", "quantifier": "all tuples, position lists, direction lists", "why_tests_cant": "The domain of inputs is far too large (or unbounded) to enumerate; a test only samples it and the interesting failures sit at width or size boundaries.", "anchors": ["src/tuple.c: compare_tuples, compare_tuples2, compare_tuple_with_datum", "src/datum.c: compare_datums3", "inc/tuplestore/tuple.h:60-75"]}
{"id": "C46", "title": "Equal values hash equally", "statement": "Two data of one type without FLOATs, or two tuples at the same positions, that compare as equal are hashed to the same value, whatever the hash function, its state and their layouts in memory; the hash of a whole tuple or array is the same through hash_datum, hash_data_for_type_info and hash_tuple, over the tuple itself or over all its fields. Bit fields are hashed by one byte per bit, the lowest first, integers by their bytes (two's complement), the lowest first, strings by their characters, NULL by nothing. (For FLOATs the first part is false: 0.0 and -0.0 compare as equal and feed different bytes. The converse is false too: NULL and the ends of strings feed nothing.) For types in which everything has a fixed size and nothing can be NULL the converse holds: tuples that are hashed by the same bytes have the same elements.", "quantifier": "all types, values, memory layouts, hash functions and hash states", "why_tests_cant": "The domain of inputs is far too large (or unbounded) to enumerate; a test only samples it and the interesting failures sit at width or size boundaries.", "anchors": ["src/data_type_info.c: hash_data_for_type_info", "src/datum.c: hash_datum", "src/tuple.c: hash_element_within_tuple, hash_tuple", "src/tuple_hasher.c"]}
{"id": "C47", "title": "Minimum and maximum of a numeral type bound all values", "statement": "For every primitive numeral type get_MIN and get_MAX return values of that type, and every value of the type compares between them. The minimum of a nullable type is NULL, which compares lowest; the maximum of a FLOAT type is NaN, which compares highest.", "quantifier": "all primitive numeral types and all values", "why_tests_cant": "The domain of inputs is far too large (or unbounded) to enumerate; a test only samples it and the interesting failures sit at width or size boundaries.", "anchors": ["src/primitive_numeral_types.c: get_MIN_value_for_primitive_numeral_type_info, get_MAX_value_for_primitive_numeral_type_info"]}
{"id": "C48", "title": "Type cast to a wide enough numeral type preserves the value", "statement": "type_cast_primitive_numeral_type between any two primitive numeral types preserves the number whenever the target type can represent it, and never faults; between integers the result is congruent modulo the width of the target member; it can only fail from FLOAT to an integer that is out of range, and then leaves the target as it was. NULL becomes NULL, or zero if the target type is not nullable. With a string, tuple or array on either side nothing but NULL is cast. A target datum that was NULL before stays NULL, whatever is cast into it.", "quantifier": "all pairs of primitive numeral types, all values", "why_tests_cant": "The domain of inputs is far too large (or unbounded) to enumerate; a test only samples it and the interesting failures sit at width or size boundaries.", "anchors": ["src/primitive_numeral_types.c: type_cast_primitive_numeral_type"]}
{"id": "C49", "title": "Copying an element between tuples", "statement": "set_element_in_tuple_from_tuple never leaves the memory of the two tuples; when it succeeds the destination reads like the source: identical types exactly and with everything inside of them, numerals with the same number if the destination can represent it, strings and binaries with the same bytes if the destination can hold them; NULL as NULL, or zero between numerals if the destination is not nullable. It refuses other pairs of types and positions that are not there; whenever it answers false every element of the destination reads as before. Between numerals it succeeds exactly if the destination is there: its container is not NULL and the index is below the element count.", "quantifier": "all pairs of types, all well formed tuples, all positions", "why_tests_cant": "The domain of inputs is far too large (or unbounded) to enumerate; a test only samples it and the interesting failures sit at width or size boundaries.", "anchors": ["src/tuple.c: set_element_in_tuple_from_tuple"]}
{"id": "C50", "title": "In-place element update on a page keeps the page sound", "statement": "set_element_in_tuple_in_place_on_page, when it succeeds, changes only the addressed tuple, keeps occupied space exact, and when it fails leaves all tuples logically unchanged.", "quantifier": "all reachable pages, all tuple types, positions, values", "why_tests_cant": "The claim ranges over every finite history of operations on pages of every legal size; a test suite runs a handful of fixed histories on a few page sizes.", "anchors": ["src/page_layout_slotted.c: set_element_in_tuple_in_place_slotted_page", "src/page_layout_fixed_array.c: set_element_in_tuple_in_place_fixed_array_page"]}
{"id": "C51", "title": "Reading a tuple's size from a stream", "statement": "get_tuple_size_using_tuple_size_def2, given a callback that delivers the first bytes of a tuple, returns the same size as get_tuple_size_using_tuple_size_def on the whole tuple, never writes outside of its 4 byte buffer, and returns 0 when the stream ends before the size is known.", "quantifier": "all size definitions, all tuples, all stream contents", "why_tests_cant": "The claim ranges over every size definition (every maximum size width, containee size and bit width) and every byte string.", "anchors": ["src/tuple_def.c: get_tuple_size_using_tuple_size_def2"]}
{"id": "C52", "title": "A minimal tuple built from a size definition is well formed", "statement": "initialize_minimal_tuple_for_tuple_size_info writes exactly the minimum size in bytes, all zero after the prefix, leaves the memory after it alone, and the result is a tuple whose size is the minimum size.", "quantifier": "all size definitions produced from finalised types, all memory contents", "why_tests_cant": "The claim ranges over every size definition and every memory content.", "anchors": ["src/tuple_def.c: initialize_minimal_tuple_for_tuple_size_info"]}
{"id": "C53", "title": "Pages of typed tuples stay sound under any history, in-place element updates included", "statement": "Starting from init_page, any history of page calls that is given only well formed tuples, and in-place element updates with values fitting the element, never faults, does what the page specification says, and leaves only well formed tuples on the page.", "quantifier": "all tuple types within the documented limits, all legal page sizes, all histories", "why_tests_cant": "The claim ranges over every finite history of operations on pages of every legal size and every type.", "anchors": ["src/page_layout.c", "src/page_layout_slotted.c: set_element_in_tuple_in_place_slotted_page", "src/page_layout_fixed_array.c: set_element_in_tuple_in_place_fixed_array_page", "src/tuple.c: set_element_in_tuple"]}
{"id": "C54", "title": "Nested elements of a datum are those of the tuple", "statement": "For a datum that points to a tuple or array, get_nested_containee_from_datum finds at every path the same value, including the same pointer, as get_value_from_element_from_tuple, together with its type, and fails on the same paths; exceptions are paths that go two or more steps below a NULL, where it dereferences a NULL type pointer, and bytes of a STRING that lie behind a NUL, which it does not find.", "quantifier": "all types, tuples and paths", "why_tests_cant": "Paths and nestings are unbounded; the fault needs a NULL container and a path two steps below it.", "anchors": ["src/datum.c: get_nested_containee_from_datum, get_containee_from_datum", "src/tuple.c: get_value_from_element_from_tuple"]}
{"id": "C55", "title": "The documented pre-order traversal visits every element once", "statement": "The loop documented in positional_accessor.h, run from a base position that exists with a relative depth, ends, does not fault and visits exactly the elements of the tuple (respectively the types of the type) from the base down to that depth, each once, in lexicographic order of their positions, nothing below a NULL, ending at the first element declared found and leaving out the children or later siblings that the caller asks to skip; exceptions: when the length of the base plus the depth reaches 2^32 the capacity wraps, and a traversal of types that starts at the second element of an array, string or binary visits nothing.", "quantifier": "all types, tuples, base positions, depths and choices of the caller", "why_tests_cant": "Nestings, depths and the choices made during the walk are unbounded; the wrap needs a depth of about 2^32.", "anchors": ["inc/tuplestore/positional_accessor.h: documented traversal loops, append_positions, point_to_next_sibling_position, point_to_first_child_position, point_to_next_uncle_position", "src/tuple.c: get_value_from_element_from_tuple"]}
{"id": "C56", "title": "Cloning and destroying types never leaks or double frees", "statement": "clone_type_info_recursively called with *allocation_error = 0 never faults; if any allocation fails it returns NULL, sets *allocation_error, and every object it allocated is freed and every callback for a static type is matched by one of the opposite kind; otherwise it returns a type with the same contents made of freshly allocated, pairwise different objects. destroy_type_info_recursively works exactly if all objects of the type are allocated and pairwise different, frees these and nothing else; destroying a clone gives back the heap before cloning. Exceptions: if *allocation_error is already 1 on entry a clone leaks, and a type that points twice to one allocated object is freed twice.", "quantifier": "all types, all states of the heap, all sets of allocations that fail", "why_tests_cant": "malloc practically never fails in a test, and every one of the unboundedly many allocations of a nested type may be the first to fail.", "anchors": ["src/data_type_info.c: clone_type_info_recursively, destroy_type_info_recursively"]}
{"id": "C57", "title": "Deserialising a type never leaks when allocations fail", "statement": "deserialize_type_info on any bytes, with any allocations failing: what is returned is the type that is read without failures, made of fresh, pairwise different objects that can be destroyed; when NULL is returned nothing stays allocated, and either an allocation failed and *allocation_error is 1, or none failed and the bytes are refused. On a serialised type it returns NULL exactly if an allocation failed.", "quantifier": "all byte strings, all states of the heap, all sets of allocations that fail", "why_tests_cant": "Inputs are unbounded and tests do not make allocations fail.", "anchors": ["src/data_type_info.c: deserialize_type_info, destroy_type_info_recursively"]}
{"id": "C58", "title": "Fields are found by name, the first match wins", "statement": "For every NUL-terminated text and every tuple type whose field names have at most 63 characters, find_containee_using_field_name_in_tuple_type_info returns the index of the first field of that name and -1 if there is none, also on types that are not tuples. Exception: it reads behind field_name exactly if a field before the first match has a name of 64 characters that is a prefix of the text.", "quantifier": "all types, field names and texts", "why_tests_cant": "Names and texts are unbounded; the over-read needs a name that fills all 64 characters.", "anchors": ["src/data_type_info.c: find_containee_using_field_name_in_tuple_type_info"]}
{"id": "C59", "title": "The position checks accept exactly the positions that exist", "statement": "are_all_positions_accessible_for_tuple_def returns 1 exactly if each of the positions given exists in the type (for variable element counts: in some value of it); are_all_positions_accessible_for_tuple returns 1 exactly if each of the positions is in the value of the tuple, counting every position below a NULL as being there; a position with a value other than NULL exists in the type. Neither of the two checks implies the other.", "quantifier": "all types, tuples and lists of positions", "why_tests_cant": "Types, values and lists of positions are unbounded.", "anchors": ["src/tuple.c: are_all_positions_accessible_for_tuple_def, are_all_positions_accessible_for_tuple, get_type_info_for_element_from_tuple_def"]}
{"id": "C60", "title": "A page header that fits is laid out as announced, one that does not leaves the page alone", "statement": "can_page_header_fit_on_page says exactly whether init_page_header will return 1; when it does, the header has the size asked for, is zeroed, ends where get_end_of_page_header points, and the rest of the page is untouched; otherwise the page is unchanged. Exception: header sizes from 2^32 minus the width of an on-page value on wrap around, are declared to fit on every page, and init_page_header then writes outside of the page.", "quantifier": "all page sizes, header sizes and page contents", "why_tests_cant": "The exception needs header sizes just below 2^32.", "anchors": ["src/page_header.c: get_space_required_for_page_header, can_page_header_fit_on_page, init_page_header, get_end_of_page_header"]}
{"id": "C61", "title": "An element can be set exactly if the value fits, and the tuple grows by exactly the difference", "statement": "set_element_in_tuple returns 1 exactly if the element is there (its container is not NULL and the index is below the element count), NULL is only given to an element that is variable sized or declared nullable and is not the tuple itself, and a value of a variable sized type is at most as large as the maximum size of its type, as the former value plus the increment allowed, and leaves every container around it within the maximum size of that container. Afterwards the size of the tuple changed by exactly the size of the new value minus the size of the former one; by nothing for a fixed sized element.", "quantifier": "all finalised types, tuples, positions, values and increments", "why_tests_cant": "The condition ranges over the sizes of all containers around the element, at any depth.", "anchors": ["src/tuple.c: can_set_element_in_tuple, set_element_in_tuple", "inc/tuplestore/data_type_info.h: can_set_datum_for_type_info, can_set_datum_to_containee_in_container, set_datum_to_containee_in_container"]}
{"id": "C62", "title": "Which types can be used, and what is computed from them", "statement": "finalize_type_info accepts a type exactly if its primitive types have one of the sizes there are, fixed element counts and field counts are not 0, and wherever data vary in size the smallest datum is not larger than the maximum size allowed. The size it computes is that of the smallest datum: prefixes, bitmap, fixed sized elements and offsets. initialize_tuple_def accepts exactly these types except for bit fields; the minimum size is at least 1 and at most the maximum size. Within the documented limits init_tuple then makes a tuple of the minimum size out of any memory. The size of the bitmap that it stores in tuple types and types of arrays of a fixed element count is the one used for their data. What a structure contained before initialize_tuple_data_type_info does not matter. There is a predefined type for exactly the sizes that can be used. The comment of initialize_tuple_def, that only bit fields are refused, is false.", "quantifier": "all types a user can build, also out of types that were finalised before", "why_tests_cant": "Types are trees of unbounded depth and width, and sizes are compared with maximum sizes at every level of them.", "anchors": ["src/data_type_info.c: finalize_type_info", "src/tuple_def.c: initialize_tuple_size_def, initialize_tuple_def", "src/data_type_info_defaults.c", "inc/tuplestore/data_type_info_defaults.h", "src/tuple.c: init_tuple"]}
{"id": "C63", "title": "Any sequence of edits of a tuple does what the same edits do to a tree of values", "statement": "Start with a tuple made by init_tuple (or any well formed tuple) in memory of the maximum size of its type and make any sequence of calls of set_element_in_tuple, expand_element_count_for_element_in_tuple, discard_elements_from_element_in_tuple and set_element_in_tuple_from_tuple with data that suit the types and slot counts within the limits. No call leaves the memory. Each call is answered with 1 exactly if the same edit of the tree of values is possible and fits all maximum sizes; the tuple then holds the edited tree, and the former one if the answer is 0. All reads and element counts at the end show the final tree, and nothing behind the maximum size is written.", "quantifier": "all finalised types, all initial memory contents, all finite sequences of calls, all positions, values, indices and slot counts within the limits", "why_tests_cant": "The sequences are unbounded and the layout of a tuple depends on its whole history.", "anchors": ["src/tuple.c: init_tuple, set_element_in_tuple, expand_element_count_for_element_in_tuple, discard_elements_from_element_in_tuple, set_element_in_tuple_from_tuple"]}
{"id": "C64", "title": "Printing shows the value and stays inside of the tuple, unless a name takes all 64 characters", "statement": "print_tuple on a well formed tuple reads nothing outside of the tuple and its type and prints the value element by element, exactly if no tuple inside of it has a type name of 64 characters; equal values print equally up to the offsets of variable sized elements. print_type_info and print_tuple_def are defined exactly if no field has a name of 64 characters, and what print_type_info prints determines the names in the type and everything the other functions see of it. print_page on a page made by any history of calls prints the figures of the page and then, index by index, each tuple or that there is none. print_page_in_hex prints every byte of the page in order and no other.", "quantifier": "all finalised types, all well formed tuples and their surrounding memory, all reachable pages, all page contents for the hexadecimal print", "why_tests_cant": "The reads depend on the type, the contents and the placement of each element; an over-read usually shows no symptom.", "anchors": ["src/datum.c: print_datum", "src/data_type_info.c: print_type_info_recursive, print_type_info, print_data_for_data_type_info", "src/tuple.c: print_tuple", "src/tuple_def.c: print_tuple_size_def, print_tuple_def", "src/page_layout.c: print_page, print_page_in_hex", "src/page_layout_slotted.c: print_slotted_page", "src/page_layout_fixed_array.c: print_fixed_array_page"]}
{"id": "C65", "title": "are_identical_type_info compares what was declared, but before finalisation it misses maximum sizes", "statement": "Of two finalised types are_identical_type_info returns 1 exactly if they were declared with the same kinds, type names, sizes, element counts and fields, the same maximum size wherever the size varies and the same nullability wherever it does not, and no type name takes all 64 characters; names of fields and whatever else was in the memory of the declarations do not count. Of two types that were built with the macros and not finalised yet, it returns 1 exactly if the same holds with maximum sizes ignored and nullability compared everywhere. The two answers agree if nothing in the type varies in size; they differ for two variable length strings of different maximum sizes. A type that is not finalised is identical to its finalised self only if it is primitive or a string or binary of fixed length.", "quantifier": "all pairs of declared types of any nesting that finalisation accepts", "why_tests_cant": "The answer depends on every node of two trees of any shape; that the comment of the function is wrong before finalisation shows only for variable sized types that differ in nothing but a maximum size.", "anchors": ["src/data_type_info.c: are_identical_type_info, finalize_type_info", "inc/data_type_info.h: are_identical_type_info", "inc/data_type_info_defaults.h: get_variable_length_string_type, initialize_tuple_data_type_info"]}
{"id": "C66", "title": "A type that was refused can be corrected and finalised again", "statement": "finalize_type_info returns 0 exactly if the type cannot be finalised; then it does not mark it as finalised, it has changed nothing that was declared, and every node is as declared or properly finalised. After any sequence of attempts to finalise, changes of declared members and replacements of nodes, the type can be finalised exactly if it can be finalised after the same changes without the attempts, and the two results behave alike, serialise alike and are identical, provided that nothing inside of a node that is already finalised is changed. Without that provision a type is accepted whose string reaches beyond its tuple.", "quantifier": "all declared types, all sequences of attempts, changes and replacements at any positions", "why_tests_cant": "Each refusal can happen at any node of the tree and leaves another mixture of finalised and half written nodes behind.", "anchors": ["src/data_type_info.c: finalize_type_info"]}
{"id": "C67", "title": "The functions on elements of a container, with cached positions", "statement": "The functions that take a container, an index and a cached position answer for an index that is not there as documented and change nothing. For an element that is there its pointer is NULL exactly if it reads as NULL, otherwise pointer and size bound a datum of its type inside of the container, disjoint from all others; moving to the end answers 1 exactly if it moves, and keeps every value; setting to NULL works exactly on nullable elements and changes nothing else; reading, setting and hashing agree with the functions on paths. Keeping a position from its first use on changes neither answers nor memory of any sequence of these calls. Across a change of the element count a kept position stays right unless the elements are fixed sized nullable ones and the bitmap changed its number of bytes; then elements are misread.", "quantifier": "all usable types, all memory holding a container of the type, all indices, all sequences of calls", "why_tests_cant": "Whether a cached position is still right depends on the type, the element count and the calls before.", "anchors": ["inc/tuplestore/data_type_info.h: get_data_positional_info_for_containee_of_container", "inc/tuplestore/data_type_info.h: get_pointer_to_containee_from_container", "inc/tuplestore/data_type_info.h: set_containee_to_NULL_in_container", "inc/tuplestore/data_type_info.h: move_variable_sized_containee_to_end_of_container"]}
{"id": "C68", "title": "Casts to floating point types round to the nearest and keep the order", "statement": "A cast to FLOAT from a numeral that is not NULL always succeeds. From BIT_FIELD, UINT, INT and FLOAT it gives the nearest number of the type, the even one of two, infinity beyond the range, and keeps infinities and NaN. From the LARGE types it gives a number of the type next to the integer. If the library compares one number as at most another, so it does after casting both, as long as both or none are of LARGE types. A float cast to double and back is the same bit for bit unless it is NaN. LARGE integers are cast to float by way of double, so the result need not be the nearest and can be smaller than that of an equal UINT.", "quantifier": "all numeral types and values, all conversions that round as IEEE 754 says", "why_tests_cant": "Double rounding shows only for integers just above the middle of two floats and within half a unit of a double of it.", "anchors": ["src/primitive_numeral_types.c: type_cast_primitive_numeral_type", "src/primitive_numeral_types.c: compare_primitive_numeral_type"]}
{"id": "C69", "title": "A tuple of a page may be written to the same page", "statement": "The pointer that get_nth_tuple_on_page returns may be given as the external tuple to append_tuple_on_page, insert_tuple_on_page, update_tuple_on_page and to the functions that check for room, for the same page. Each of them does what it does with a private copy of the tuple, byte for byte, although it reads the tuple while it changes the page. A slot can always be updated with its own tuple, which leaves the logical page as it was. The same holds of a tuple that lies in the page header, or anywhere beyond the counters, the bitmap and the slots (counting the slot to be added); it does not hold of bytes among the counters: given a pointer to the tuple count of a fixed array page, append_tuple_on_page stores the count as it is after the increment.", "quantifier": "all page sizes, header sizes and tuple definitions, all pages reachable by any sequence of operations, all pairs of slots", "why_tests_cant": "Whether the bytes are overwritten before they are read depends on where the tuple lies relative to the slot array, the bitmap, the space below the tuples and the slot that is updated.", "anchors": ["src/page_layout.c: append_tuple_on_page, insert_tuple_on_page, update_tuple_on_page", "src/page_layout_slotted.c: append_tuple_slotted_page, insert_tuple_slotted_page, update_tuple_slotted_page", "src/page_layout_fixed_array.c: append_tuple_fixed_array_page, insert_tuple_fixed_array_page, update_tuple_fixed_array_page"]}
{"id": "C70", "title": "The size of a tuple is determined by what it holds", "statement": "A tuple takes exactly the bytes that its value needs: those of the smallest tuple, plus the shares of the bitmap and the slots of further array elements, plus the bytes of the elements that vary in size and are not NULL. Two tuples of the same type of which every read gives the same result have the same size, whatever edits led to them; no bytes of former values stay behind inside of a tuple.", "quantifier": "all types within the documented limits, all well formed tuples, all pairs of edit histories", "why_tests_cant": "Leftover bytes show only for particular orders of growing, shrinking, moving and removing elements, of which there are unboundedly many.", "anchors": ["inc/tuplestore/data_type_info.h: get_size_for_type_info", "src/tuple.c: set_element_in_tuple, expand_element_count_for_element_in_tuple, discard_elements_from_element_in_tuple"]}
{"id": "C71", "title": "Copying within one tuple", "statement": "set_element_in_tuple_from_tuple with the same tuple as source and destination does exactly what it does with a separate copy of the tuple as source (answer and bytes) if the destination has a fixed size, whatever the two positions, even if one is inside of the other; also if the destination has a variable size and each of it and the containers of variable size on the way to it is NULL, or last in memory within its container, or lies behind the source; and also if the source is not a STRING, BINARY or container, or is NULL. Otherwise, as the header warns, it may be wrong: there is a tuple in which copying one string over another of the same type answers 1 and leaves other characters, one in which copying a string onto itself changes it, and one in which copying an array answers 1 and leaves something that is no tuple and cannot be read without leaving the memory.", "quantifier": "all usable types, all well formed tuples, all pairs of positions, all increments; the counterexamples are reached from a minimal tuple by at most nine ordinary calls", "why_tests_cant": "Whether the source is overwritten before it is read depends on where both elements happen to lie, which depends on the whole history of edits.", "anchors": ["inc/tuplestore/tuple.h:37", "src/tuple.c: set_element_in_tuple_from_tuple, set_element_in_tuple_INTERNAL", "inc/tuplestore/data_type_info.h: set_datum_for_type_info, move_variable_sized_containee_to_end_of_container"]}
{"id": "C72", "title": "Pointers to the tuples of a page", "statement": "The pointer get_nth_tuple_on_page returns for a tuple stays good (the same address holds the same bytes, and is what the function returns for the index the tuple has by then) through any history of calls in which, on slotted pages, the tuple itself is not discarded, replaced or edited, the page is not emptied, and no compaction answers 1; on fixed array pages, in which moreover the tuple is not renumbered. Appending, inserting, discarding, swapping and updating other tuples, zeroing free space and writing the header never disturb it. On fixed array pages the address depends on the index alone, one tuple size apart. An element update in place moves no tuple. A tuple of a slotted page replaced by one not longer stays where it is if another tuple lies lower, and not always otherwise, even at equal length. A new tuple of a slotted page is put right below all the others. Compaction moves tuples only towards the end of the page and never past one another.", "quantifier": "all page sizes, header sizes and size definitions within the documented limits, all reachable pages, all histories of legal calls, all indexes", "why_tests_cant": "Whether a call moves tuples other than the one it addresses depends on the history of the page; tests compare contents by index, not addresses over time.", "anchors": ["src/page_layout.c: get_nth_tuple_on_page", "src/page_layout_slotted.c: insert_tuple_slotted_page, update_tuple_slotted_page, discard_tuple_slotted_page, swap_tuples_slotted_page, run_page_compaction_slotted_page", "src/page_layout_fixed_array.c: get_nth_tuple_fixed_array_page"]}
{"id": "C73", "title": "Where the elements of a tuple are after one was changed", "statement": "Setting an element of a fixed size moves nothing in the tuple: every element not inside of it is where it was, with the same bytes unless it contains the changed one. Setting an element of variable size, inserting elements in it or removing elements from it, successfully or not, moves the other elements in exactly one way: at every container on the way, what lies behind the element on the way moves down by that element's size, and that element goes to the end of the container; sizes, types and bytes of the elements elsewhere are the same, the containers of the changed one change in size as the tuple does. Afterwards the element and all its containers end where the tuple ends, so that changing the same element again moves nothing at all, and copying to it from anywhere in the same tuple is safe. A pointer got from get_value_from_element_from_tuple to the characters of another element, or to another tuple or array, is what this map makes of it afterwards.", "quantifier": "all usable types, all well formed tuples, all positions, data, increments, indexes and counts within the documented limits", "why_tests_cant": "Where an element lies depends on the history of all edits before; tests read elements by position after an edit and never compare addresses.", "anchors": ["inc/tuplestore/data_type_info.h: move_variable_sized_containee_to_end_of_container, set_datum_to_containee_in_container, expand_container, discard_from_container", "src/tuple.c: set_element_in_tuple_INTERNAL, expand_element_count_for_element_in_tuple, discard_elements_from_element_in_tuple"]}
{"id": "C74", "title": "What lies behind a tuple", "statement": "Setting an element of a tuple, or adding slots to or removing slots from a container in it, depends only on the bytes of the tuple and as many bytes behind it as it was allowed to grow by (no more than to the maximum size of its type; none for tuples of fixed size and for removals): everything beyond is neither read nor written, and memory that ends there suffices. More generally, whatever a call does to some memory, be it a sound tuple or not, it does to the same bytes at the start of a larger memory, with the same answer and leaving the rest as it is; reading elements and element counts, and the checks whether an element can be set, give the same.", "quantifier": "all usable types, all well formed tuples, all positions, data, increments, indexes and counts within the documented limits; for the last part all types and all bytes", "why_tests_cant": "A test sees writes beyond the allowance only if it surrounds every tuple with guard bytes, reads of them not at all, and then only for the tuples it builds.", "anchors": ["src/tuple.c: set_element_in_tuple, expand_element_count_for_element_in_tuple, discard_elements_from_element_in_tuple, get_value_from_element_from_tuple", "inc/tuplestore/data_type_info.h: set_datum_to_containee_in_container, expand_container, discard_from_container"]}
{"id": "C75", "title": "Setting an element of a tuple on a page to a datum that lies on the same page", "statement": "`set_element_in_tuple_in_place_on_page` with a datum that points into the page itself, at bytes that are none of the tuple to be changed (what was read from any other tuple of the page, in particular), does what it does with a copy of the datum in another buffer, byte for byte and with the same answer: afterwards the element reads like the source, and C50 holds of everything else. Without a tuple at the index or an element at the position nothing is changed. The same is true of a datum read from the tuple to be changed if the element set has a fixed size, or if it and every container around it is last in its container or begins behind the source. Otherwise it need not be: a string set to what was just read from that very string can read differently afterwards, with the answer 1.", "quantifier": "all legal page sizes and both layouts, all usable types, all reachable pages of well formed tuples, all indexes, positions and data", "why_tests_cant": "Whether the source survives depends on the order of the elements in memory, which depends on the history of the tuple; tests set elements to data from separate buffers.", "anchors": ["src/page_layout.c: set_element_in_tuple_in_place_on_page", "src/page_layout_slotted.c: set_element_in_tuple_in_place_slotted_page", "src/page_layout_fixed_array.c: set_element_in_tuple_in_place_fixed_array_page", "src/tuple.c: set_element_in_tuple"]}
{"id": "C76", "title": "Nothing of what the memory held before gets into a tuple", "statement": "The bytes of a tuple after an element was set, slots were added to or removed from a container in it, or an element was copied from another tuple, and the answer of the call, depend only on the bytes the tuple had before and on the arguments: in two memories that start with the same tuple, of whatever lengths and with whatever bytes behind it, the calls give the same answers and the same tuple byte by byte, padding bits and reserved bytes included. A new tuple has the same bytes whatever the memory held before. Hence a tuple made by any sequence of calls from `init_tuple` on has the same bytes in any memory.", "quantifier": "all usable types, all well formed tuples, all positions, data, increments and sequences of calls, all two memories of sufficient length", "why_tests_cant": "Stale bytes in padding or in freshly added slots do not show in what a test reads back; they would show in comparing, hashing or checksumming the raw bytes, and only for particular contents of uninitialised memory.", "anchors": ["src/tuple.c: init_tuple", "src/tuple.c: set_element_in_tuple", "src/tuple.c: expand_element_count_for_element_in_tuple", "src/tuple.c: discard_elements_from_element_in_tuple", "src/tuple.c: set_element_in_tuple_from_tuple", "inc/tuplestore/data_type_info.h: expand_container", "inc/tuplestore/data_type_info.h: set_datum_for_type_info", "inc/tuplestore/data_type_info.h: initialize_minimal_data_for_type_info"]}
{"id": "C77", "title": "What setting an element of a fixed size writes, and what it leaves", "statement": "An element of a fixed size has a place of its own in the tuple, within its size. Setting it, to whatever and as often as you like, changes no bit of the memory but those of that place and its is-valid bit; setting it to NULL changes the is-valid bit alone. A BINARY of fixed size keeps the bytes behind those of the datum it is set to: what is read is the new bytes over the old ones, also over those it had before it was set to NULL, and all of the old ones if it is set to EMPTY_DATUM. Hence setting it to NULL does not erase it. Only in a minimal (new) tuple it is filled up with zeros. In the elements of all other types of fixed size that are not bit fields nothing of the old content stays: the bytes are the same wherever an element of the type is set to the same datum (not NULL).", "quantifier": "all usable types, all well formed tuples, all positions of elements of fixed size, all sequences of data within the documented limits", "why_tests_cant": "Tests set strings and binaries of full length or in fresh tuples, and never look at the bytes of an element that is NULL; what shows through depends on the history of the element.", "anchors": ["inc/tuplestore/data_type_info.h: set_datum_for_type_info", "inc/tuplestore/data_type_info.h: set_datum_to_containee_in_container", "src/tuple.c: set_element_in_tuple"]}
{"id": "C78", "title": "Types read from bytes of unknown origin", "statement": "Whatever bytes `deserialize_type_info` is given, a type that it returns is one that a user could have built: nothing in it claims to be finalised unless `finalize_type_info` made it so, tuples have as many fields as they say, and all numbers are 32 bit numbers. So within the documented limits `finalize_type_info` accepts it exactly if it is sound, everything proved of finalised types holds of it, and it can be written and read again. What follows the bytes has no influence on it, and the recursion is never deeper than there are bytes. One check is missing: if a containee that `finalize_type_info` refuses, or whose smallest size is no 32 bit number, were answered with NULL, no bytes at all could make the function read outside of its data, no type that is of any use would be lost, and the bytes announced by `get_byte_count_for_serialized_type_info` for the result would all be in the data. Without it the function may leave its data (C32), read fields from the wrong place without leaving it, or return types whose size wraps.", "quantifier": "all bytes of less than 2^32, all bytes behind them, all types read", "why_tests_cant": "Tests read what the library wrote; the malformed inputs that matter are nested type codes and counts near 2^32, which random bytes do not hit.", "anchors": ["src/data_type_info.c: deserialize_type_info", "src/data_type_info.c: deserialize_type_name", "src/data_type_info.c: finalize_type_info", "src/data_type_info.c: get_byte_count_for_serialized_type_info"]}
{"id": "C79", "title": "Types that share parts", "statement": "Types in memory point to their containees, and a containee may be pointed to from several places: from the same tuple twice, from different types, or from a type that is itself a part of another. `finalize_type_info` treats every type as if each of its parts were in a place of its own: it ends, returns the same value, and leaves the same finalised type. This holds for any sequence of calls on types that share parts, in any order, also after refused calls and for repeated calls. It writes only to types reachable from its argument and to the static type that strings point to, changes no pointer, changes nothing in types finalised before, and leaves every other type with the same declaration and the same fate. A finalised string always points to a finalised type. For a container that contains itself through containees not finalised yet it never returns.", "quantifier": "all memories of types, all types in them without cycles, all sequences of calls", "why_tests_cant": "Tests build a handful of types, mostly with the predefined, already finalised types as shared parts.", "anchors": ["src/data_type_info.c: finalize_type_info"]}
{"id": "C80", "title": "The bytes of a serialised type determine the type", "statement": "Two finalised types are written by `serialize_type_info` as the same bytes exactly if they were declared alike, names of types and fields included, whatever is in members that do not belong to the declaration. If no name takes all of its 64 bytes this is so exactly if `are_identical_type_info` returns 1 and the names of the fields are the same. No serialised type is the beginning of another, and types written one after another can be told apart.", "quantifier": "all pairs and sequences of types that can be finalised, all bytes that follow", "why_tests_cant": "Tests compare a few types; a collision of two encodings, or one encoding that is the beginning of another, would be between types that no test writes.", "anchors": ["src/data_type_info.c: serialize_type_info", "src/data_type_info.c: deserialize_type_info", "src/data_type_info.c: are_identical_type_info"]}
{"id": "C81", "title": "Tuples read from bytes of unknown origin", "statement": "Any bytes are a tuple of a type of fixed size, if there are enough of them. For types of variable size a check that compares the sizes, counts and offsets in the bytes with each other accepts exactly the tuples, and the size to check is the one that `get_size_for_type_info` reads. For reading elements at any position a weaker check is enough: the fixed part of every container that the offsets lead to lies within the memory; overlapping elements and wrong sizes do no harm. Without it reading leaves the memory, and with only the weaker check setting an element can change another one or compute a negative number of bytes to move.", "quantifier": "all usable types, all memory contents and lengths, all positions", "why_tests_cant": "Corrupted bytes are arbitrary; fuzzing finds some that are harmful but cannot show that a check lets none of them through, or that it refuses no tuple.", "anchors": ["inc/tuplestore/data_type_info.h: get_size_for_type_info", "inc/tuplestore/data_type_info.h: get_pointer_to_containee_from_container_CONTAINITY_UNSAFE", "src/tuple.c: get_value_from_element_from_tuple"]}
{"id": "C82", "title": "Pages read from bytes of unknown origin", "statement": "A check that looks only at the bytes of a page (header size, the words behind the header, the slots and the tuples they lead to) accepts every page that the library makes and finds the tuples on it. From any bytes that it accepts on, whoever wrote them, every history of legal calls is defined, returns what the list specification says for the tuples found, changes the page header only where it is written, and leaves a page that the check accepts again; every query stays inside of the page. With the check of C81 on every tuple the same holds with calls that set elements in place. Without the check: offsets and counts lead outside of the page, counters wrap around, a tuple is written behind the page, setting an element of one tuple changes another.", "quantifier": "all page sizes, header sizes and size definitions within the documented limits, all bytes, all histories of legal calls", "why_tests_cant": "Pages come from disks; the bytes are arbitrary. Tests corrupt some bytes, they cannot show that a check lets no harmful page through and refuses none of the pages that the library makes.", "anchors": ["src/page_layout_slotted.c", "src/page_layout_fixed_array.c", "src/page_layout.c"]}
{"id": "C83", "title": "Comparing, hashing and printing bytes of unknown origin", "statement": "If memory passes the weaker check of C81 (the fixed part of every container that offsets lead to lies within the memory; offsets may overlap or lead anywhere else), then comparing it, hashing it and printing it at any positions never reads outside of it. Each position has a value of its own, so the comparison is the lexicographic one of C45 with all of its laws, also between such memory and tuples made by the library, which have the values they were given; memory that compares as equal, without FLOATs, hashes equal; hash_datum and hash_data_for_type_info agree, and every hash function is fed the same bytes. (Printing needs type names with less than 64 characters.) On a page of unknown origin that passes the check of C82 and whose tuples pass this one, the same holds at every tuple found on the page, and printing the page stays within it. Without the check all three leave the memory.", "quantifier": "all finalised types, all bytes that pass the check, all lists of positions and directions, all hash functions", "why_tests_cant": "The bytes are arbitrary: overlapping elements, offsets into prefixes and cyclic looking layouts are not produced by the library, so no test of the library compares them.", "anchors": ["src/datum.c:25-330", "src/tuple.c:550-716", "src/data_type_info.c:1442-1505"]}
{"id": "C84", "title": "Nothing of what the memory held before gets into a page", "statement": "The same calls on pages that were initialised in two pieces of memory with different contents return the same values and leave pages with the same bytes, except in space that is in no use: the free space and, in the fixed array layout, the slots of tomb stones. After zero_out_free_space_on_page a page is determined by the calls made on it alone: always in the slotted layout, and in the fixed array layout if there is no tomb stone on it. With tomb stones it is not: NULL appended n times to a page of fixed size tuples leaves in the n slots what the memory held before init_page, and zeroing the free space does not remove it.", "quantifier": "all legal page sizes, header sizes and tuple size definitions, all contents of the memory, all histories of legal calls (in-place updates and compaction included)", "why_tests_cant": "Two whole memories have to be compared over all histories. A leak shows only if the memory held something before, at exactly the bytes an operation forgets to write; tests start on fresh memory.", "anchors": ["src/page_layout_slotted.c:152-190", "src/page_layout_slotted.c:620-716", "src/page_layout_fixed_array.c:101-125", "src/page_layout_fixed_array.c:139-227", "src/page_layout_fixed_array.c:438-447"]}
{"id": "C85", "title": "Page figures and init_page with sizes of any magnitude", "statement": "get_minimum_page_size returns the least page size below 2^32 on which the header and the tuples asked for have room, if there is one; if there is none it still returns a number. init_page, for every page size, header size and definition, returns 0 and changes nothing if the page is smaller than that number or can_page_header_fit_on_page denies the header; otherwise it makes an empty page on which all later calls do what they should if the header and the counters behind it end in the page, and writes outside of the page if they do not. The latter is excluded for headers of up to page_size - 20 bytes; for larger ones, where no sum wraps, it happens on slotted pages of exactly 257, 258 or 65537 bytes only. get_maximum_tuple_size_accomodatable_on_page and get_maximum_tuple_count_on_page are exact if the header leaves room for the counters; if it does not, they wrap around and announce tuples larger than the page, and room for at least one.", "quantifier": "all page sizes, header sizes and counts below 2^32 and all definitions (largest size and count: sizes up to 2GB)", "why_tests_cant": "The results go wrong at a few boundaries out of 2^32 sizes in each of three arguments; the page sizes 257, 258 and 65537 are not sizes a test would choose.", "anchors": ["src/page_layout_slotted.c:118-179", "src/page_layout_slotted.c:753-762", "src/page_layout_fixed_array.c:68-125", "src/page_header.c:7-46", "src/page_layout.c:20-66"]}
{"id": "C86", "title": "What is left on a page of tuples that were discarded", "statement": "After run_page_compaction and zero_out_free_space_on_page a slotted page holds nothing but what can be read from it: every byte behind the slots is zero or belongs to a tuple, and two pages with the same page header, the same tuples and the same order of these in memory have the same bytes, whatever happened to them before. Zeroing alone is not enough: the bytes of a tuple that was discarded or replaced by NULL while another lay below it are all still there; if none lay below it they are zeroed. In the fixed array layout, after zeroing, pages with the same page header and tuples and without tomb stones differ at most in bits of the bitmap behind those of the tuples, which discarding does not reset; a tuple replaced by NULL stays on the page with all of its bytes, also after compaction and zeroing.", "quantifier": "all page sizes, header sizes and size definitions within the documented limits, all reachable pages, all indexes", "why_tests_cant": "Bytes that no function shows are not looked at by tests of what the functions return, and whether they stay depends on the order of the tuples in memory, that is on the whole history.", "anchors": ["src/page_layout_slotted.c:281-526", "src/page_layout_slotted.c:627-710", "src/page_layout_fixed_array.c:229-345", "src/page_layout_fixed_array.c:438-450"]}
{"id": "C87", "title": "Hashing data of different types", "statement": "Two data that compare_datum finds equal are hashed to the same value even if their types differ, as long as the types differ only in names, nullability, fixed or variable size, maximum size, the sign of whole numbers of the same size, or in being a STRING, BINARY or ARRAY of one byte numbers, at any depth. (FLOATs are excluded, see C46.) hash_data_for_type_info on stored data gives what hash_datum gives for the datum read from there, for strings and numbers too. In particular a STRING, a variable sized STRING and an ARRAY of UINT_NON_NULLABLE[1] of the same content have the hash of the bytes of this content, as the header says. The same whole number in types of different sizes compares as equal, but is hashed by different bytes, always.", "quantifier": "all finalised types, all data of these, all hash functions and start values", "why_tests_cant": "Which pairs of types hash alike is a relation over an infinite set of nested types; tests hash data of one type.", "anchors": ["inc/tuplestore/data_type_info.h:355-361", "src/data_type_info.c:1449-1505", "src/datum.c:114-198", "src/datum.c:291-330", "src/tuple_hasher.c:1-23"]}
{"id": "C88", "title": "Moving tuples between pages", "statement": "Whether a range of the tuples of one page can be appended to another page of the same size, header size and definition is decided by the figures of the two pages, before the first tuple is moved. On slotted pages all appends succeed exactly if get_space_occupied_by_tuples of the range is at most get_free_space of the receiving page, whatever the fragmentation of either; after a compaction of the receiving page, exactly if this and its occupied space together are at most the space allotted. On fixed array pages all succeed exactly if the tuple counts together are at most the maximum tuple count; that the range occupies at most the free space is necessary, but not sufficient: the figures can promise one tuple too many, never more, and only if the maximum tuple count is a multiple of 8. A range that was accepted reads on the receiving page, behind the tuples there, as it did on the other. A page can be split anywhere: any of its tuples, in any order, can be appended to a freshly initialised page of the same size, which is then not fragmented. The same holds for a batch of any well formed tuples and NULLs, wherever they come from: on a slotted page all appends succeed exactly if their get_space_to_be_occupied_by_tuple_on_page added up is at most the free space, and on either kind of page the order of the batch makes no difference to whether something is refused.", "quantifier": "all page sizes, header sizes and size definitions within the documented limits, all pairs of reachable pages, all ranges, all selections and orders, all batches", "why_tests_cant": "The decision has to be right for every pair of histories and for every way the sizes add up, at the very last byte; where the fixed array figures mislead depends on page, header and tuple size together.", "anchors": ["src/page_layout_slotted.c:193-262", "src/page_layout_slotted.c:712-762", "src/page_layout_fixed_array.c:86-190", "src/page_layout_fixed_array.c:447-485", "src/page_layout.c:92-115", "src/page_layout.c:290-378"]}
{"id": "C89", "title": "The maximum sizes in a type can be raised while data of it exist", "statement": "If in a declared type maximum sizes, at any depth, are raised such that get_value_size_on_page of each stays the same, then the type can still be finalised and the result differs in the maximum sizes only. All data of the old type are data of the new one, with the same value and size. Reading any element from any bytes gives the same with both types. A page of tuples of the old type, after any history of calls, is a page of the same tuples of the new type: every further history of calls with the new type is defined and follows the specification. If the width changes then no string or binary of the old type is one of the new type.", "quantifier": "all types of any depth and their data, all bytes and paths, all pages and histories of calls before and after the change", "why_tests_cant": "Tests use one type per page. That a stored size of 0 stands for the maximum size makes it a question about all data, whether a larger maximum changes what they mean.", "anchors": ["src/data_type_info.c: finalize_type_info", "inc/tuplestore/data_type_info.h: get_size_for_type_info", "inc/tuplestore/page_layout_util.h: get_value_size_on_page", "src/tuple_def.c: initialize_tuple_size_def"]}
{"id": "C90", "title": "What the sample hash function tells apart", "statement": "With fnv_64_update, the same bytes never bring two different states together. Two inputs that differ only within six consecutive bytes always have different hashes, from every state and whatever bytes come before and after. Six is the best possible: from the initial state of FNV_64_TUPLE_HASHER two sequences of seven bytes have the same hash, and so have two different UINTs of eight bytes. Hence if two tuples are hashed over some positions, the bytes hashed are the same at all but one of them, and the element at this one is of fixed size, not NULL and hashed by at most six bytes, then the hashes are equal exactly if this element is.", "quantifier": "all states of the hash function, all byte sequences, all types, tuples and lists of positions", "why_tests_cant": "There are 2^96 pairs of inputs of six bytes for each of 2^64 states; collisions are too rare to be found, or shown to be absent, by sampling.", "anchors": ["src/tuple_hasher.c: fnv_64_update", "src/tuple_hasher.c: tuple_hash_bytes", "inc/tuplestore/tuple_hasher.h: FNV_64_TUPLE_HASHER", "src/tuple.c: hash_tuple"]}
{"id": "C91", "title": "Stored floating point numbers are the same on all machines with one byte order", "statement": "On a machine of any byte orders of integers and of floating point numbers, a float or double that is serialised is deserialised bit for bit, and no other byte of memory changes. If both orders are the same, big or little, the bytes stored are the little endian bit pattern, so what one such machine writes every other one reads. If the two orders differ, the bytes are stored in reverse, and a machine with one order reads the number correctly only if its bytes are the same in reverse. The getter and setter of FLOATs, as modelled for the other properties, are these functions.", "quantifier": "all bit patterns, all memories and offsets, all four combinations of byte orders on either side", "why_tests_cant": "Tests run on one machine, where any byte order reads back what it wrote, and compare values of a few numbers instead of all bit patterns.", "anchors": ["inc/tuplestore/float_accesses.h: serialize_float", "inc/tuplestore/float_accesses.h: serialize_double", "inc/tuplestore/float_accesses.h: deserialize_float", "inc/tuplestore/float_accesses.h: deserialize_double", "inc/tuplestore/data_type_info.h: set_datum_for_type_info"]}
{"id": "C92", "title": "Tuples as sort keys, and sorted pages", "statement": "compare_tuples and compare_tuples2 are total preorders on the tuples of a type, for all positions and directions, and on tuples of several types, each with its own positions, if the elements at corresponding positions can be compared. compare_tuple_with_datum is compatible with this order: of two tuples in order, the comparisons with a key are in order too; comparing by the first few positions gives the same result or 0. Setting an element that is not among those compared changes no comparison. A page that is sorted (NULLs may be anywhere) stays sorted under all calls but swaps, if tuples are only put at places where they are not below the nearest tuple before and not above the nearest one behind, and elements set in place are not among those compared; after a successful insertion the page is sorted exactly if this held. On a sorted page the tuples below a key, equal to it and above it are three consecutive ranges of indexes, so bisection finds them.", "quantifier": "all types, tuples, positions, directions and keys, all pages and all histories of calls", "why_tests_cant": "Transitivity over all combinations of types, NULLs, NaNs, nested containers and directions is a statement about triples of tuples, and sortedness of pages one about histories.", "anchors": ["src/tuple.c: compare_tuples", "src/tuple.c: compare_tuples2", "src/tuple.c: compare_tuple_with_datum", "src/page_layout.c: insert_tuple_on_page", "src/page_layout.c: set_element_in_tuple_in_place_on_page"]}
{"id": "C93", "title": "Every call on a page can be undone and redone", "statement": "For every legal call on a page there are calls that undo it: on any page that holds the result of the call, however its tuples are placed, they all succeed and leave the tuples, NULLs and their indexes as they were before the call. This needs the page to be compacted first; without it a page may refuse the tuple it has just given up. Hence the log of any history of calls, undone from its end, takes any page with the final contents back to the initial contents. A successful append, insertion or update can be repeated on any page with the contents it was made on, after compaction and giving up the tuple replaced.", "quantifier": "all page layouts, page sizes and size definitions, all pages reachable by any calls, all calls and all histories", "why_tests_cant": "It has to hold for all placements of the tuples on the page at the time of the undo, which depend on histories other than the one that is undone.", "anchors": ["src/page_layout.c: insert_tuple_on_page", "src/page_layout.c: append_tuple_on_page", "src/page_layout.c: update_tuple_on_page", "src/page_layout.c: discard_tuple_on_page", "src/page_layout.c: discard_all_tuples_on_page", "src/page_layout.c: discard_trailing_tomb_stones_on_page", "src/page_layout.c: swap_tuples_on_page", "src/page_layout.c: run_page_compaction", "src/page_layout.c: set_element_in_tuple_in_place_on_page"]}
{"id": "C94", "title": "An edit of a tuple can be undone, and unrelated edits commute", "statement": "If two tuples of a type are read alike but at one position and below it, then setting in the first what is read there in the second makes it like the second in size, element counts and all reads; this succeeds exactly if the increment allows for the size of the second, or the element is of fixed size or set to NULL. Hence a successful set_element_in_tuple is undone by setting what was read before, in the memory the tuple was in; setting what is there already succeeds with no increment and changes no read; and two sets neither of which lies within the other give the same tuple in either order, where the second call of the other order succeeds exactly if its increment allows for the final size. Excluded are texts with characters behind a NUL, of which not everything is read, and, for the order of sets, fixed size binaries given too short.", "quantifier": "all types, tuples, positions at any depth, data and increments", "why_tests_cant": "The size limits of every container around the element take part in whether a set succeeds, so that it can be undone is a statement about all nestings and sizes.", "anchors": ["src/tuple.c: set_element_in_tuple", "src/tuple.c: can_set_element_in_tuple", "src/tuple.c: get_value_from_element_from_tuple", "inc/tuplestore/data_type_info.h: set_datum_to_containee_in_container"]}
{"id": "C95", "title": "Expanding and discarding elements take each other back", "statement": "Elements added by a successful expand_element_count_for_element_in_tuple can be discarded again by one call at the same place, after which the tuple has its former size, counts and reads. Elements discarded by discard_elements_from_element_in_tuple can be put back in the memory the tuple was in: expanding at the same place succeeds, setting every new element to what was read of it before succeeds, although every call is only allowed to grow the tuple up to its former size, and at the end the tuple has its former size, counts and reads. No byte behind the larger of the two sizes changes.", "quantifier": "all types, tuples, containers at any depth, indexes and numbers of elements", "why_tests_cant": "Whether each of the calls succeeds depends on the sizes of all elements that are put back and on the limits of every container around them.", "anchors": ["src/tuple.c: expand_element_count_for_element_in_tuple", "src/tuple.c: discard_elements_from_element_in_tuple", "src/tuple.c: set_element_in_tuple"]}
{"id": "C96", "title": "Any sequence of edits of a tuple can be rolled back", "statement": "A caller that edits a tuple by any sequence of sets, copies, expansions and discards, and before each call notes what it is about to overwrite, can take all of them back: reading for the notes stays within the memory, and the notes of the calls that were answered with 1, worked off newest first by set_element_in_tuple, discard_elements_from_element_in_tuple and expand_element_count_for_element_in_tuple, are all accepted although no call may grow the tuple beyond the size noted. At the end the tuple has its former size, counts and reads, and memory behind the maximum size is as before. Types without text strings need no further care; texts must not have had characters behind a NUL when they were overwritten.", "quantifier": "all types, tuples, and finite sequences of calls, whatever their answers", "why_tests_cant": "The notes are worked off on a tuple that is not byte for byte the one they were taken on, and every size limit has to hold again in between.", "anchors": ["src/tuple.c: set_element_in_tuple", "src/tuple.c: set_element_in_tuple_from_tuple", "src/tuple.c: expand_element_count_for_element_in_tuple", "src/tuple.c: discard_elements_from_element_in_tuple", "src/tuple.c: get_value_from_element_from_tuple"]}
{"id": "C97", "title": "Splitting and merging sorted pages", "statement": "The page operations of a B-tree keep order. A sorted page can be split at any index: all its slots from there on can be appended to a freshly initialised page and then all be discarded from the old one, none of these calls fails, both pages are sorted, together they hold what the page held, and no tuple of the old page is above one of the new. The first tuple of the new page is a separator: every tuple compares as not above it, and then has a place on the old page and is above none of the new, or as not below it, and then has a place on the new page and none of the old page is above it. If the slots of one sorted page are all appended to another, the result is sorted exactly if the last tuple there before is not above the first one appended, NULLs left aside.", "quantifier": "all page sizes, definitions, types, sorted pages with tombstones, split indexes, positions and directions compared", "why_tests_cant": "It joins the layout of pages, the space accounting and the comparison of tuples over all histories of both pages.", "anchors": ["src/page_layout.c: append_tuple_on_page", "src/page_layout.c: discard_tuple_on_page", "src/tuple.c: compare_tuples2"]}
{"id": "C98", "title": "Edits after raising maximum sizes", "statement": "Raising maximum sizes of a type, as in C89, takes nothing away from its tuples: any sequence of sets, expansions and discards that are all answered with 1 on a tuple of the type is answered with 1 throughout on a tuple of the raised type that holds the same, and the two tuples have the same size, reads and element counts afterwards. The exception are copies between tuples: an element that is a tuple or array of variable size and whose maximum size was raised can no longer be copied from a tuple of the former type, not even if it is NULL there, because the types are not identical any more.", "quantifier": "all pairs of types related by raised maximum sizes, all tuples, all sequences of calls and their arguments", "why_tests_cant": "It relates the runs of the same calls with two types for all types and histories; a test compares a few.", "anchors": ["src/tuple.c: set_element_in_tuple", "src/tuple.c: expand_element_count_for_element_in_tuple", "src/tuple.c: discard_elements_from_element_in_tuple", "src/tuple.c: set_element_in_tuple_from_tuple", "src/data_type_info.c: are_identical_type_info"]}
{"id": "C99", "title": "Sizes of the objects types are kept in", "statement": "If size_t can hold the size of a tuple type of 2^32 - 1 containees, as it can with 64 bits, then reading a type from any bytes writes no containee outside of the object allocated for it. Whatever size_t is, a tuple type that is returned has all its containees inside of its object. All containees of a tuple type lie within get_shallow_copy_struct_size_for_data_type_info bytes exactly if its true size is a number of size_t, and this size is not changed by finalize_type_info. With a size_t of 32 bits the computation of the size can wrap: 7 bytes that are no type make deserialize_type_info write outside of the object it allocated. Anywhere, five bytes make deserialize_type_info ask for an object for any number of containees below 2^32 before it finds that there are none; a failure of that is reported as an allocation error, and otherwise NULL is returned with nothing left allocated. What serialize_type_info writes for a tuple type has at least two bytes for every containee, so larger counts could be refused without losing any.", "quantifier": "all bytes, all sizes of the structs and of size_t, all types, all numbers of containees, all allocators", "why_tests_cant": "The sizes wrap only for counts that no test has, and only where size_t is small.", "anchors": ["inc/tuplestore/data_type_info.h: sizeof_tuple_data_type_info", "inc/tuplestore/data_type_info.h: get_shallow_copy_struct_size_for_data_type_info", "src/data_type_info.c: deserialize_type_info", "src/data_type_info.c: clone_type_info_recursively", "src/data_type_info.c: finalize_type_info"]}
{"id": "C100", "title": "Moving tuples to pages of another size", "statement": "All slots of a page can be appended to a freshly initialised page of another size and with another header size exactly if there is room for the tuples, one value per slot, five values and the header (slotted pages), or for a tuple and a bit per slot, three values and the header (fixed array pages), and then they read there as they did. If values have as many bytes on both pages, a page that is larger by at least as much as its header takes all slots, and on slotted pages the occupied space of the one and the allotted space of the other decide. If the header has the same size, a page of at least twice the size takes all slots, even though values may have more bytes there. Less than twice is not enough in general, and the figures of the pages do not tell: the slots of a page of 256 bytes with 251 bytes of occupied space may not fit on any page of 257 to 511 bytes.", "quantifier": "all pages reached by any history of calls, all pairs of page sizes and header sizes, all definitions", "why_tests_cant": "What a page can take changes where the number of bytes of a value changes, at 256, 65536 and 16777216; the claim is for all contents and all pairs of sizes.", "anchors": ["src/page_layout.c: init_page", "src/page_layout.c: append_tuple_on_page", "src/page_layout.c: get_space_occupied_by_all_tuples_on_page", "src/page_layout.c: get_space_allotted_to_all_tuples_on_page", "inc/tuplestore/page_layout_util.h: get_value_size_on_page"]}
{"id": "C101", "title": "How many tuples fit as the page size grows", "statement": "get_maximum_tuple_count_on_page is the largest number of minimum sized tuples for which there is room on the page. It does not decrease if the page size grows while values keep their number of bytes, nor if the page size is at least doubled; likewise n tuples fit on every page of at least get_minimum_page_size for n tuples on which values have as many bytes, and on every page of at least twice that size. In between a larger page can hold fewer tuples: with a header of 8 bytes and tuples of at least two bytes the minimum page size for 81 tuples is 256, and no page of 257 to 341 bytes holds 81. The largest tuple for which get_maximum_tuple_size_accomodatable_on_page says there is room is the page without the header and six values (slotted pages), or without the header, three values and one byte (fixed array pages); on a larger page it can be shorter, by at most 5 or 2 bytes.", "quantifier": "all pairs of page sizes, all header sizes, definitions and numbers of tuples", "why_tests_cant": "The counts are monotone everywhere but just above three page sizes, and how far above depends on the tuples.", "anchors": ["src/page_layout.c: get_maximum_tuple_count_on_page", "src/page_layout.c: get_minimum_page_size", "src/page_layout_slotted.c: get_minimum_page_size_for_slotted_page", "src/page_layout_fixed_array.c: get_minimum_page_size_for_fixed_array_page"]}
