{
 "claims": [
  {
   "property": "C01",
   "status": "proved",
   "theorems": [
    "TS.Props.C01_roundtrip",
    "TS.Props.C01_width"
   ],
   "note": ""
  },
  {
   "property": "C02",
   "status": "proved",
   "theorems": [
    "TS.Props.C02_empty_page_all_free",
    "TS.Props.C02_init",
    "TS.Props.C02_discard_all"
   ],
   "note": ""
  },
  {
   "property": "C03",
   "status": "proved",
   "theorems": [
    "TS.Props.C03_slotted_refinement",
    "TS.Props.C03_C04_observe",
    "TS.Props.refinement"
   ],
   "note": "histories include element updates in place and header writes"
  },
  {
   "property": "C04",
   "status": "proved",
   "theorems": [
    "TS.Props.C04_fixed_refinement",
    "TS.Props.C03_C04_observe",
    "TS.Props.refinement"
   ],
   "note": ""
  },
  {
   "property": "C05",
   "status": "proved",
   "theorems": [
    "TS.Props.C05_slotted_no_fault",
    "TS.Props.C05_C06_init_no_fault",
    "TS.Props.tuple_inside"
   ],
   "note": ""
  },
  {
   "property": "C06",
   "status": "proved",
   "theorems": [
    "TS.Props.C06_fixed_no_fault",
    "TS.Props.C05_C06_init_no_fault",
    "TS.Props.tuple_inside"
   ],
   "note": ""
  },
  {
   "property": "C07",
   "status": "proved",
   "theorems": [
    "TS.Props.C07_failure_changes_nothing"
   ],
   "note": ""
  },
  {
   "property": "C08",
   "status": "proved",
   "theorems": [
    "TS.Props.C08_can_append",
    "TS.Props.C08_can_insert",
    "TS.Props.C08_can_update",
    "TS.Props.C08_slotted_exact",
    "TS.Props.C08_fixed_exact"
   ],
   "note": ""
  },
  {
   "property": "C09",
   "status": "proved",
   "theorems": [
    "TS.Props.C09_header_history",
    "TS.Props.C09_call_keeps_header"
   ],
   "note": ""
  },
  {
   "property": "C10",
   "status": "proved",
   "theorems": [
    "TS.Props.C10_header_write"
   ],
   "note": ""
  },
  {
   "property": "C100",
   "status": "proved",
   "theorems": [
    "TS.Props.C100_exact",
    "TS.Props.C100_same_width",
    "TS.Props.C100_double",
    "TS.Props.C100_figures",
    "TS.Props.C100_tight"
   ],
   "note": "Page sizes from 128 bytes to 2^31 - 128, as in the other claims on pages (Legal)."
  },
  {
   "property": "C101",
   "status": "proved",
   "theorems": [
    "TS.Props.C101_count",
    "TS.Props.C101_grow",
    "TS.Props.C101_minimum",
    "TS.Props.C101_gap",
    "TS.Props.C101_largest",
    "TS.Props.C101_shorter"
   ],
   "note": "Page sizes from 128 bytes to 2^31 - 128, as in the other claims on pages (Legal); minimum page sizes of any magnitude."
  },
  {
   "property": "C11",
   "status": "proved",
   "theorems": [
    "TS.Props.C11_tomb_count_exact"
   ],
   "note": ""
  },
  {
   "property": "C12",
   "status": "proved",
   "theorems": [
    "TS.Props.C12_occupied_exact"
   ],
   "note": ""
  },
  {
   "property": "C13",
   "status": "proved",
   "theorems": [
    "TS.Props.C13_conservation",
    "TS.Props.C13_fixed_no_fragmentation"
   ],
   "note": ""
  },
  {
   "property": "C14",
   "status": "proved",
   "theorems": [
    "TS.Props.C14_compaction",
    "TS.Props.C14_second_compaction",
    "TS.Props.C14_no_memory",
    "TS.Props.C14_any_sort"
   ],
   "note": ""
  },
  {
   "property": "C15",
   "status": "proved",
   "theorems": [
    "TS.Props.C15_append_after_compaction",
    "TS.Props.C15_update_after_compaction"
   ],
   "note": ""
  },
  {
   "property": "C16",
   "status": "proved",
   "theorems": [
    "TS.Props.C16_free_space_is_whole_gap"
   ],
   "note": ""
  },
  {
   "property": "C17",
   "status": "proved",
   "theorems": [
    "TS.Props.C17_not_larger_update"
   ],
   "note": ""
  },
  {
   "property": "C18",
   "status": "proved",
   "theorems": [
    "TS.Props.C18_swap_twice",
    "TS.Props.C18_insert_discard"
   ],
   "note": ""
  },
  {
   "property": "C19",
   "status": "proved",
   "theorems": [
    "TS.Props.C19_trailing"
   ],
   "note": ""
  },
  {
   "property": "C20",
   "status": "proved",
   "theorems": [
    "TS.Props.C20_clone"
   ],
   "note": ""
  },
  {
   "property": "C21",
   "status": "proved",
   "theorems": [
    "TS.Props.C21_zero_out"
   ],
   "note": ""
  },
  {
   "property": "C22",
   "status": "proved",
   "theorems": [
    "TS.Props.C22_never_more",
    "TS.Props.C22_fill"
   ],
   "note": ""
  },
  {
   "property": "C23",
   "status": "proved",
   "theorems": [
    "TS.Props.C23_largest"
   ],
   "note": ""
  },
  {
   "property": "C24",
   "status": "proved",
   "theorems": [
    "TS.Props.C24_sufficient",
    "TS.Props.C24_necessary"
   ],
   "note": ""
  },
  {
   "property": "C25",
   "status": "proved",
   "theorems": [
    "TS.Props.C25_init_iff",
    "TS.Props.C25_fits",
    "TS.Props.C25_false",
    "TS.Props.C25_false_fixed",
    "TS.Props.C25_window_tight"
   ],
   "note": "As first conjectured (without the exception for the windows) the claim is false: C25_false."
  },
  {
   "property": "C26",
   "status": "proved",
   "theorems": [
    "TS.Props.C26_size_def_roundtrip"
   ],
   "note": ""
  },
  {
   "property": "C27",
   "status": "proved",
   "theorems": [
    "TS.Props.C27_no_over_read",
    "TS.Props.C27_prefix_rejected"
   ],
   "note": ""
  },
  {
   "property": "C28",
   "status": "proved",
   "theorems": [
    "TS.Props.C28_sizes_agree"
   ],
   "note": "Under the documented 2GB limits."
  },
  {
   "property": "C29",
   "status": "proved",
   "theorems": [
    "TS.Props.C29_layout",
    "TS.Props.C29_needs_limit"
   ],
   "note": "Under the documented 2GB limits (README 14-23), which C29_needs_limit shows to be necessary: finalize_type_info does not enforce them."
  },
  {
   "property": "C30",
   "status": "proved",
   "theorems": [
    "TS.Props.C30_idempotent"
   ],
   "note": ""
  },
  {
   "property": "C31",
   "status": "proved",
   "theorems": [
    "TS.Props.C31_serialisation_round_trips"
   ],
   "note": "Any nesting, any trailing bytes; U32 says the members are 32 bit numbers, as they are in C."
  },
  {
   "property": "C32",
   "status": "proved",
   "theorems": [
    "TS.Props.C31_serialisation_round_trips",
    "TS.Props.C32_truncated_rejected",
    "TS.Props.C32_no_over_read_without_tuples",
    "TS.Props.C32_over_read_code8",
    "TS.Props.C32_over_read_marked_fixed",
    "TS.Props.C32_indeterminate_empty_tuple"
   ],
   "note": "The claim for arbitrary bytes is false of the code; the last three theorems are counterexamples."
  },
  {
   "property": "C33",
   "status": "proved",
   "theorems": [
    "TS.Props.C33_reflexive",
    "TS.Props.C33_symmetric",
    "TS.Props.C33_transitive",
    "TS.Props.C33_identical_types_behave_alike",
    "TS.Props.C33_long_name_fault"
   ],
   "note": "Field names are not compared by are_identical_type_info and do not influence any function on tuples."
  },
  {
   "property": "C34",
   "status": "proved",
   "theorems": [
    "TS.Props.C34_set_then_get",
    "TS.Props.C34_exact",
    "TS.Props.C34_nested",
    "TS.Props.C34_short_binary",
    "TS.Props.C34_self_refused"
   ],
   "note": "Values in the range of the type read back exactly; others modulo the width or cut to the capacity. A fixed size binary given too few bytes keeps old bytes at its end: C34_short_binary exhibits it."
  },
  {
   "property": "C35",
   "status": "proved",
   "theorems": [
    "TS.Props.C35_others_unchanged"
   ],
   "note": "Pointers to tuples or arrays are compared by what is read through them."
  },
  {
   "property": "C36",
   "status": "proved",
   "theorems": [
    "TS.Props.C36_can_set_predicts"
   ],
   "note": ""
  },
  {
   "property": "C37",
   "status": "proved",
   "theorems": [
    "TS.Props.C37_growth",
    "TS.Props.C37_growth_expand",
    "TS.Props.C37_growth_discard"
   ],
   "note": "Expansion under the documented limit (GrowPre); discarding bit fields of at most 64 bits including the is-valid bit."
  },
  {
   "property": "C38",
   "status": "proved",
   "theorems": [
    "TS.Props.C38_expand",
    "TS.Props.C38_count_truncated",
    "TS.Props.C38_wide_bits"
   ],
   "note": "Under the documented limit. C38_count_truncated shows the condition on the count of bit field arrays to be necessary: the count is stored truncated otherwise."
  },
  {
   "property": "C39",
   "status": "proved",
   "theorems": [
    "TS.Props.C39_discard",
    "TS.Props.C39_discard_iff",
    "TS.Props.C38_wide_bits"
   ],
   "note": "Bit fields of at most 64 bits including the is-valid bit."
  },
  {
   "property": "C40",
   "status": "proved",
   "theorems": [
    "TS.Props.C40_expand_iff",
    "TS.Props.C40_expand_room",
    "TS.Props.C40_max_increment",
    "TS.Props.C40_wraps_beyond_limit"
   ],
   "note": "Under the documented limit; C40_wraps_beyond_limit exhibits that requests beyond it are accepted because the size wraps around."
  },
  {
   "property": "C41",
   "status": "proved",
   "theorems": [
    "TS.Props.C41_minimal",
    "TS.Props.C41_isMin",
    "TS.Props.C41_numeral",
    "TS.Props.C41_as_set",
    "TS.Props.C41_not_as_set"
   ],
   "note": "The comment in the header that it equals setting the EMPTY_DATUM holds but for fixed size binaries (C41_not_as_set)."
  },
  {
   "property": "C42",
   "status": "proved",
   "theorems": [
    "TS.Props.C42_comparable_symmetric",
    "TS.Props.C42_comparable_total",
    "TS.Props.C42_comparable_reflexive",
    "TS.Props.C42_compares_values",
    "TS.Props.C42_compares_values2",
    "TS.Props.C42_not_comparable",
    "TS.Props.C42_total_preorder",
    "TS.Props.C42_total_preorder2",
    "TS.Props.C42_total_preorder_across_types",
    "TS.Props.C42_null_lowest",
    "TS.Props.C42_nan_highest"
   ],
   "note": "Floating point numbers by their IEEE 754 bits."
  },
  {
   "property": "C43",
   "status": "proved",
   "theorems": [
    "TS.Props.C43_numbers_by_value",
    "TS.Props.C43_integers_by_value",
    "TS.Props.C43_numerals_comparable"
   ],
   "note": ""
  },
  {
   "property": "C44",
   "status": "proved",
   "theorems": [
    "TS.Props.C44_compare2_agrees"
   ],
   "note": ""
  },
  {
   "property": "C45",
   "status": "proved",
   "theorems": [
    "TS.Props.C45_lexicographic",
    "TS.Props.C45_zero_iff_equal",
    "TS.Props.C45_reversed",
    "TS.Props.C45_one_type",
    "TS.Props.C45_tuple_with_data",
    "TS.Props.C45_data",
    "TS.Props.C45_out_of_bounds_is_null"
   ],
   "note": "The header announces -2 for positions out of bounds; C45_out_of_bounds_is_null shows that the code treats them as NULL."
  },
  {
   "property": "C46",
   "status": "proved",
   "theorems": [
    "TS.Props.C46_equal_data",
    "TS.Props.C46_equal_tuples",
    "TS.Props.C46_whole_tuple",
    "TS.Props.C46_two_ways",
    "TS.Props.C46_bytes",
    "TS.Props.C46_zeros_differ",
    "TS.Props.C46_boundaries_leave_no_trace",
    "TS.Props.C46_bytes_of_leaves",
    "TS.Props.C46_tells_apart"
   ],
   "note": "False of FLOATs: C46_zeros_differ. Different tuples may feed the same bytes: C46_boundaries_leave_no_trace."
  },
  {
   "property": "C47",
   "status": "proved",
   "theorems": [
    "TS.Props.C47_min",
    "TS.Props.C47_max",
    "TS.Props.C47_max_float"
   ],
   "note": "NULL is the smallest value of a nullable type; the largest value of a FLOAT type is NaN."
  },
  {
   "property": "C48",
   "status": "proved",
   "theorems": [
    "TS.Props.C48_preserves",
    "TS.Props.C48_null",
    "TS.Props.C48_total",
    "TS.Props.C48_modulo",
    "TS.Props.C48_stale_null",
    "TS.Props.C48_refused"
   ],
   "note": "The conversions between integers and floating point numbers that C and the serint library do are parameters (Conv); they are assumed exact on representable numbers (Conv.Ok). C48_stale_null: the target datum has to be non NULL before the call, otherwise it stays NULL."
  },
  {
   "property": "C49",
   "status": "proved",
   "theorems": [
    "TS.Props.C49_identical",
    "TS.Props.C49_numeral",
    "TS.Props.C49_string",
    "TS.Props.C49_is_set",
    "TS.Props.C49_numeral_iff"
   ],
   "note": "Source and destination do not overlap. Numerals under Conv.Ok. Arrays of identical types are assignable (C49_identical), contrary to a comment in tuple.h."
  },
  {
   "property": "C50",
   "status": "proved",
   "theorems": [
    "TS.Props.C50_set_in_place",
    "TS.Props.C50_in_place"
   ],
   "note": ""
  },
  {
   "property": "C51",
   "status": "proved",
   "theorems": [
    "TS.Props.C51_stream_size",
    "TS.Props.C51_stream_short"
   ],
   "note": ""
  },
  {
   "property": "C52",
   "status": "proved",
   "theorems": [
    "TS.Props.C52_minimal_tuple"
   ],
   "note": ""
  },
  {
   "property": "C53",
   "status": "proved",
   "theorems": [
    "TS.Props.C53_typed_pages"
   ],
   "note": ""
  },
  {
   "property": "C54",
   "status": "proved",
   "theorems": [
    "TS.Props.C54_same_as_tuple",
    "TS.Props.C54_fault_below_null",
    "TS.Props.C54_string_ends_at_nul",
    "TS.Props.C54_count"
   ],
   "note": "The second and third theorem mark the limits of the first: a NULL type pointer is dereferenced two steps below NULL, and bytes of a STRING after a NUL are not reached."
  },
  {
   "property": "C55",
   "status": "proved",
   "theorems": [
    "TS.Props.C55_elements",
    "TS.Props.C55_all_elements",
    "TS.Props.C55_types",
    "TS.Props.C55_depth_wraps",
    "TS.Props.C55_types_second",
    "TS.Props.C55_moves"
   ],
   "note": "C55_depth_wraps and C55_types_second mark the limits: a depth that makes the capacity wrap at 2^32, and a base that is not the first element of an array."
  },
  {
   "property": "C56",
   "status": "proved",
   "theorems": [
    "TS.Props.C56_clone",
    "TS.Props.C56_clone_type",
    "TS.Props.C56_destroy",
    "TS.Props.C56_destroy_clone",
    "TS.Props.C56_stale_error_leaks",
    "TS.Props.C56_shared_double_free"
   ],
   "note": "The heap is a set of live addresses; which allocations fail is an arbitrary function. The last two theorems mark the limits."
  },
  {
   "property": "C57",
   "status": "proved",
   "theorems": [
    "TS.Props.C57_no_leak",
    "TS.Props.C57_as_without_failures",
    "TS.Props.C57_serialised_type"
   ],
   "note": "Bytes on which deserialising itself over-reads (C32) are excluded only in that the fault is the same."
  },
  {
   "property": "C58",
   "status": "proved",
   "theorems": [
    "TS.Props.C58_first_field",
    "TS.Props.C58_over_read",
    "TS.Props.C58_not_a_tuple"
   ],
   "note": "C58_over_read gives the exact condition of the over-read."
  },
  {
   "property": "C59",
   "status": "proved",
   "theorems": [
    "TS.Props.C59_tuple_def",
    "TS.Props.C59_tuple",
    "TS.Props.C59_value_has_type",
    "TS.Props.C59_independent"
   ],
   "note": ""
  },
  {
   "property": "C60",
   "status": "proved",
   "theorems": [
    "TS.Props.C60_fits",
    "TS.Props.C60_does_not_fit",
    "TS.Props.C60_wraps"
   ],
   "note": "C60_wraps marks the limit."
  },
  {
   "property": "C61",
   "status": "proved",
   "theorems": [
    "TS.Props.C61_set_iff",
    "TS.Props.C61_no_type",
    "TS.Props.C61_size"
   ],
   "note": "Takes and Needs say what an element takes as it can be read and what a value needs."
  },
  {
   "property": "C62",
   "status": "proved",
   "theorems": [
    "TS.Props.C62_finalize_iff",
    "TS.Props.C62_computed",
    "TS.Props.C62_tuple_def",
    "TS.Props.C62_usable",
    "TS.Props.C62_uninitialised",
    "TS.Props.C62_predefined",
    "TS.Props.C62_macros",
    "TS.Props.C62_macro_results",
    "TS.Props.C62_first_tuple",
    "TS.Props.C62_bitmap_bits"
   ],
   "note": "Fits32: the size of the smallest datum is below 2^32, otherwise sizes wrap around (C29_needs_limit)."
  },
  {
   "property": "C63",
   "status": "proved",
   "theorems": [
    "TS.Props.C63_history",
    "TS.Props.C63_modest",
    "TS.Props.C63_from_scratch"
   ],
   "note": "The memory has the maximum size of the type. The answers are determined by the tree (Call.Can); the tree after a call is determined but for the tail of a fixed sized BINARY that is set to fewer bytes."
  },
  {
   "property": "C64",
   "status": "proved",
   "theorems": [
    "TS.Props.C64_print_tuple",
    "TS.Props.C64_same_text",
    "TS.Props.C64_print_type",
    "TS.Props.C64_type_text",
    "TS.Props.C64_print_page",
    "TS.Props.C64_print_hex",
    "TS.Props.C64_overread"
   ],
   "note": "The output is the sequence of texts, numbers and strings given to printf; how printf writes a number is not modelled."
  },
  {
   "property": "C65",
   "status": "proved",
   "theorems": [
    "TS.Props.C65_after",
    "TS.Props.C65_before",
    "TS.Props.C65_fixed",
    "TS.Props.C65_max_size_ignored",
    "TS.Props.C65_mixed"
   ],
   "note": "The comparison of the two pointers that the function starts with is left out: it only avoids reading behind names of 64 characters. Before finalisation the memory of a tuple type is taken to be 0 before initialize_tuple_data_type_info; with other contents the answer is arbitrary, since is_variable_sized and size are compared."
  },
  {
   "property": "C66",
   "status": "proved",
   "theorems": [
    "TS.Props.C66_result",
    "TS.Props.C66_declared",
    "TS.Props.C66_partly",
    "TS.Props.C66_attempts_do_not_matter",
    "TS.Props.C66_stale_size"
   ],
   "note": "Types are trees here: a node that several types share is finalised once for all of them in C, which finalises it to the same."
  },
  {
   "property": "C67",
   "status": "proved",
   "theorems": [
    "TS.Props.C67_outside",
    "TS.Props.C67_hash",
    "TS.Props.C67_element",
    "TS.Props.C67_pointer",
    "TS.Props.C67_disjoint",
    "TS.Props.C67_move",
    "TS.Props.C67_set_null",
    "TS.Props.C67_same_as_path",
    "TS.Props.C67_slots",
    "TS.Props.C67_kept_positions",
    "TS.Props.C67_stale",
    "TS.Props.C67_stale_misreads"
   ],
   "note": "A position is kept per element; one kept for another element or another container is the caller's error."
  },
  {
   "property": "C68",
   "status": "proved",
   "theorems": [
    "TS.Props.C68_nearest",
    "TS.Props.C68_large",
    "TS.Props.C68_order",
    "TS.Props.C68_there_and_back",
    "TS.Props.C68_rounded_twice",
    "TS.Dti.ieee_ok"
   ],
   "note": "Conversions by C are taken to round to the nearest, ties to even (Conv.Ok); those by serint to give a neighbour and to keep the order. ieee is a computable instance for which Conv.Ok is proved."
  },
  {
   "property": "C69",
   "status": "proved",
   "theorems": [
    "TS.Props.C69_same",
    "TS.Props.C69_effect",
    "TS.Props.C69_self",
    "TS.Props.C69_elsewhere",
    "TS.Props.C69_counter",
    "TS.Props.at_out"
   ],
   "note": "The functions are modelled a second time (OnPage) so that the external tuple is a pointer into the page and every read through it reads the page as it then is."
  },
  {
   "property": "C70",
   "status": "proved",
   "theorems": [
    "TS.Props.C70_size",
    "TS.Props.C70_read_alike",
    "TS.Props.C70_histories"
   ],
   "note": "Need is a function of the declared type and the value; it does not look at offsets or at anything computed by finalisation."
  },
  {
   "property": "C71",
   "status": "proved",
   "theorems": [
    "TS.Props.C71_fixed",
    "TS.Props.C71_last",
    "TS.Props.C71_null",
    "TS.Props.C71_reads",
    "TS.Props.C71_front",
    "TS.Props.C71_front_reads",
    "TS.Props.C71_value",
    "TS.Props.C71_wrong",
    "TS.Props.C71_wrong_nested",
    "TS.Props.C71_count",
    "TS.Props.C71_broken",
    "TS.Props.C71_onto_itself"
   ],
   "note": "Alias.lean models the same functions again with every read through the datum made on the tuple as it is at that moment. C71_last covers destinations of variable size that are last in memory or NULL, C71_front those behind the source (AliasFront.lean: `Moves` is where the first thing to be moved lies); destinations that have to be moved and do not lie behind the source are where C71_wrong, C71_onto_itself and C71_broken live."
  },
  {
   "property": "C72",
   "status": "proved",
   "theorems": [
    "TS.Props.C72_history",
    "TS.Props.C72_call",
    "TS.Props.C72_fixed",
    "TS.Props.C72_stride",
    "TS.Props.C72_set_element",
    "TS.Props.C72_replace",
    "TS.Props.C72_replace_may_move",
    "TS.Props.C72_new",
    "TS.Props.C72_compact"
   ],
   "note": "`follow` says for each call and answer whether a pointer to the tuple of index k must still be good, and under which index the tuple is found then; it is written without reference to the layouts' bytes. Whether a pointer that `follow` gives up is in fact still good is only treated for updates (C72_replace, C72_set_element) and compaction (C14, C72_compact)."
  },
  {
   "property": "C73",
   "status": "proved",
   "theorems": [
    "TS.Props.C73_fixed",
    "TS.Props.C73_moves",
    "TS.Props.C73_containers",
    "TS.Props.C73_ends",
    "TS.Props.C73_again",
    "TS.Props.C73_copy",
    "TS.Props.C73_pointer",
    "TS.Props.C73_pointer_fixed"
   ],
   "note": "`Spot` says where an element stored in bytes lies, `goes` where a byte of the tuple goes; both only use the functions a reader uses. The three calls are `Changed`, successful or not. BIT_FIELDs have no address of their own and are covered by C34 to C40. C73_pointer leaves out pointers to zero characters, which may lie at the end of the element."
  },
  {
   "property": "C74",
   "status": "proved",
   "theorems": [
    "TS.Props.C74_larger",
    "TS.Props.C74_larger_reads",
    "TS.Props.C74_set_needs",
    "TS.Props.C74_expand_needs",
    "TS.Props.C74_discard_needs"
   ],
   "note": "`need` is the size of the tuple plus the growth allowed, cut at the maximum size of the type. C74_discard_needs assumes what C39 does of bit fields (at most 64 bits with the is-valid bit)."
  },
  {
   "property": "C75",
   "status": "proved",
   "theorems": [
    "TS.Props.C75_elsewhere",
    "TS.Props.C75_other_tuple",
    "TS.Props.C75_reads",
    "TS.Props.C75_same_fixed",
    "TS.Props.C75_same_front",
    "TS.Props.C75_nothing",
    "TS.Props.C75_onto_itself"
   ],
   "note": "The datum is a location in the page (`Loc`); `elemEdit` of C50 is the same call with a datum of its own. For data read from tuples the types of the two elements are identical or both are STRING or BINARY. C75_onto_itself is the counterexample."
  },
  {
   "property": "C76",
   "status": "proved",
   "theorems": [
    "TS.Props.C76_set",
    "TS.Props.C76_expand",
    "TS.Props.C76_discard",
    "TS.Props.C76_copy",
    "TS.Props.C76_call",
    "TS.Props.C76_history",
    "TS.Props.C76_from_scratch"
   ],
   "note": "SameT says that two memories start with the same tuple byte by byte. C76_history and C76_from_scratch are over the histories of C63."
  },
  {
   "property": "C77",
   "status": "proved",
   "theorems": [
    "TS.Props.C77_footprint",
    "TS.Props.C77_overlay",
    "TS.Props.C77_null_keeps",
    "TS.Props.C77_fresh",
    "TS.Props.C77_erases"
   ],
   "note": "Sets is a sequence of sets of one element. C77_overlay is of an element that is not NULL at the start; C77_fresh is of tuples that are minimal in the sense of C41."
  },
  {
   "property": "C78",
   "status": "proved",
   "theorems": [
    "TS.Props.C78_built",
    "TS.Props.C78_usable",
    "TS.Props.C78_left",
    "TS.Props.C78_more_data",
    "TS.Props.C78_depth",
    "TS.Props.C78_check",
    "TS.Props.C78_accepted",
    "TS.Props.C78_misread",
    "TS.Props.C78_wrapped",
    "TS.Props.C78_overcounted"
   ],
   "note": "deserC is not in the code: it is deserialize_type_info with the missing check. C78_misread, C78_wrapped and C78_overcounted are faults shown on particular bytes."
  },
  {
   "property": "C79",
   "status": "proved",
   "theorems": [
    "TS.Props.C79_shared",
    "TS.Props.C79_calls",
    "TS.Props.C79_strings",
    "TS.Props.C79_cycle"
   ],
   "note": "The hypothesis that a type unfolds to a tree (Unf) excludes types that contain themselves; those are in C79_cycle."
  },
  {
   "property": "C80",
   "status": "proved",
   "theorems": [
    "TS.Props.C80_prefix",
    "TS.Props.C80_declared",
    "TS.Props.C80_identical",
    "TS.Props.C80_sequence"
   ],
   "note": "U32 says that the numbers in the type are 32 bit numbers, which they are in C."
  },
  {
   "property": "C81",
   "status": "proved",
   "theorems": [
    "TS.Props.C81_fixed",
    "TS.Props.C81_check",
    "TS.Props.C81_announced",
    "TS.Props.C81_read",
    "TS.Props.C81_weaker"
   ],
   "note": "The two checks, check and safe, are not in the code; the theorems say what they would guarantee."
  },
  {
   "property": "C82",
   "status": "proved",
   "theorems": [
    "TS.Props.C82_accepts",
    "TS.Props.C82_history",
    "TS.Props.C82_queries",
    "TS.Props.C82_typed",
    "TS.Props.C82_needed"
   ],
   "note": "The check, okPage, is not in the code; the theorems say what it would guarantee. It is sufficient, and necessary for being a page of the library, not for being harmless. C82_needed gives concrete pages that it refuses and what the library does on them."
  },
  {
   "property": "C83",
   "status": "proved",
   "theorems": [
    "TS.Props.C83_compare",
    "TS.Props.C83_hash",
    "TS.Props.C83_two_ways",
    "TS.Props.C83_equal_hash",
    "TS.Props.C83_print",
    "TS.Props.C83_page",
    "TS.Props.C83_needed"
   ],
   "note": "The check, safe, is not in the code (see C81); the theorems say what it would guarantee."
  },
  {
   "property": "C84",
   "status": "proved",
   "theorems": [
    "TS.Props.C84_run",
    "TS.Props.C84_zeroed",
    "TS.Props.C84_leak"
   ],
   "note": "C84_leak shows that the exception for tomb stones of the fixed array layout in C84_run and C84_zeroed is needed."
  },
  {
   "property": "C85",
   "status": "proved",
   "theorems": [
    "TS.Props.C85_minimum",
    "TS.Props.C85_minimum_agrees",
    "TS.Props.C85_init",
    "TS.Props.C85_init_agrees",
    "TS.Props.C85_outside",
    "TS.Props.C85_outside_occurs",
    "TS.Props.C85_inside",
    "TS.Props.C85_largest",
    "TS.Props.C85_count"
   ],
   "note": "PageCalc.lean models the computations with the wrap-around of uint32_t; C85_minimum_agrees and C85_init_agrees tie it to the functions the other page properties use."
  },
  {
   "property": "C86",
   "status": "proved",
   "theorems": [
    "TS.Props.C86_slotted",
    "TS.Props.C86_bytes",
    "TS.Props.C86_left",
    "TS.Props.C86_lowest",
    "TS.Props.C86_fixed",
    "TS.Props.C86_tomb"
   ],
   "note": ""
  },
  {
   "property": "C87",
   "status": "proved",
   "theorems": [
    "TS.Props.C87_equal",
    "TS.Props.C87_same_type",
    "TS.Props.C87_stored",
    "TS.Props.C87_equal_stored",
    "TS.Props.C87_content",
    "TS.Props.C87_width"
   ],
   "note": ""
  },
  {
   "property": "C88",
   "status": "proved",
   "theorems": [
    "TS.Props.C88_slotted",
    "TS.Props.C88_compacted",
    "TS.Props.C88_fixed",
    "TS.Props.C88_fixed_free",
    "TS.Props.C88_fixed_free_short",
    "TS.Props.C88_rebuild",
    "TS.Props.C88_split",
    "TS.Props.C88_batch",
    "TS.Props.C88_order"
   ],
   "note": "C88_fixed_free_short is a concrete page for the negative part of the claim."
  },
  {
   "property": "C89",
   "status": "proved",
   "theorems": [
    "TS.Props.C89_finalize",
    "TS.Props.C89_data",
    "TS.Props.C89_read",
    "TS.Props.C89_page",
    "TS.Props.C89_history",
    "TS.Props.C89_width"
   ],
   "note": "The relation Widens says which declarations are compared. The representation (CRep) requires a stored size to be the size modulo the width, so a stored size of 0 only occurs where the maximum size is a power of 256."
  },
  {
   "property": "C90",
   "status": "proved",
   "theorems": [
    "TS.Props.C90_state",
    "TS.Props.C90_window",
    "TS.Props.C90_seven",
    "TS.Props.C90_tuple",
    "TS.Props.C90_word_collision"
   ],
   "note": "C90_seven and C90_word_collision are the concrete collisions of the negative part of the claim."
  },
  {
   "property": "C91",
   "status": "proved",
   "theorems": [
    "TS.Props.C91_round",
    "TS.Props.C91_bytes",
    "TS.Props.C91_portable",
    "TS.Props.C91_mixed",
    "TS.Props.C91_mixed_foreign",
    "TS.Props.C91_datum"
   ],
   "note": "A floating point number is its bit pattern. serint is modelled as little endian, as for integers."
  },
  {
   "property": "C92",
   "status": "proved",
   "theorems": [
    "TS.Props.C92_order",
    "TS.Props.C92_order_across",
    "TS.Props.C92_search",
    "TS.Props.C92_prefix",
    "TS.Props.C92_other_elements",
    "TS.Props.C92_page",
    "TS.Props.C92_insert",
    "TS.Props.C92_history",
    "TS.Props.C92_find"
   ],
   "note": ""
  },
  {
   "property": "C93",
   "status": "proved",
   "theorems": [
    "TS.Props.C93_undo",
    "TS.Props.C93_log",
    "TS.Props.C93_rollback",
    "TS.Props.C93_redo"
   ],
   "note": "Undoing restores the slots, that is what the page holds; it does not restore the page header, and the bytes may be placed differently."
  },
  {
   "property": "C94",
   "status": "proved",
   "theorems": [
    "TS.Props.C94_towards",
    "TS.Props.C94_undo",
    "TS.Props.C94_undo_there",
    "TS.Props.C94_same",
    "TS.Props.C94_either_order"
   ],
   "note": "Data are values in the model, so what was read of a container before the edit is a copy of it. A text with characters behind a NUL is excluded (AllRead); an example shows that it is not restored."
  },
  {
   "property": "C95",
   "status": "proved",
   "theorems": [
    "TS.Props.C95_expand_undo",
    "TS.Props.C95_discard_undo"
   ],
   "note": "Arrays of bit fields whose elements take more than 64 bits are excluded, as in C38 and C39; texts with characters behind a NUL as in C94."
  },
  {
   "property": "C96",
   "status": "proved",
   "theorems": [
    "TS.Props.C96_rollback",
    "TS.Props.C96_no_text"
   ],
   "note": "The memory has the maximum size of the tuple, as in C63. Texts with characters behind a NUL as in C94."
  },
  {
   "property": "C97",
   "status": "proved",
   "theorems": [
    "TS.Props.C97_split",
    "TS.Props.C97_merge",
    "TS.Props.C97_separator"
   ],
   "note": ""
  },
  {
   "property": "C98",
   "status": "proved",
   "theorems": [
    "TS.Props.C98_replay",
    "TS.Props.C98_call",
    "TS.Props.C98_copy_refused"
   ],
   "note": "Data for fixed size binaries are given whole (Full), since a shorter one leaves the rest as it happens to be. The memory has the maximum size of the tuple, as in C63."
  },
  {
   "property": "C99",
   "status": "proved",
   "theorems": [
    "TS.Props.C99_inside",
    "TS.Props.C99_shallow",
    "TS.Props.C99_returned",
    "TS.Props.C99_finalised",
    "TS.Props.C99_outside",
    "TS.Props.C99_outside32",
    "TS.Props.C99_request",
    "TS.Props.C99_honest"
   ],
   "note": "The sizes of the structs and of size_t are parameters. C99_outside32 is a fault of the code as it is on platforms with a size_t of 32 bits."
  }
 ]
}
