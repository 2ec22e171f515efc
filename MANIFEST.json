{
 "claims": [
  {
   "property": "C01",
   "status": "proved",
   "theorems": [
    "Sorty.C01_sortSlice_ints_ascending"
   ],
   "note": ""
  },
  {
   "property": "C02",
   "status": "proved",
   "theorems": [
    "Sorty.C02_sortSlice_permutes"
   ],
   "note": ""
  },
  {
   "property": "C03",
   "status": "proved",
   "theorems": [
    "Sorty.C03_sortSlice_bytes_ascending"
   ],
   "note": ""
  },
  {
   "property": "C04",
   "status": "proved",
   "theorems": [
    "Sorty.C04_sortSlice_NaNlarge"
   ],
   "note": ""
  },
  {
   "property": "C05",
   "status": "proved",
   "theorems": [
    "Sorty.C05_sortSlice_NaNsmall"
   ],
   "note": ""
  },
  {
   "property": "C06",
   "status": "proved",
   "theorems": [
    "Sorty.C06_sortLen"
   ],
   "note": ""
  },
  {
   "property": "C07",
   "status": "proved",
   "theorems": [
    "Sorty.C07_sort_strict_weak_order"
   ],
   "note": ""
  },
  {
   "property": "C08",
   "status": "proved",
   "theorems": [
    "Sorty.C08_sort_any_comparator"
   ],
   "note": ""
  },
  {
   "property": "C09",
   "status": "proved",
   "theorems": [
    "Sorty.C09_no_race",
    "Sorty.C09_no_data_race"
   ],
   "note": ""
  },
  {
   "property": "C10",
   "status": "proved",
   "theorems": [
    "Sorty.C10_sort_no_data_race",
    "Sorty.C10_sort_no_race"
   ],
   "note": ""
  },
  {
   "property": "C11",
   "status": "proved",
   "theorems": [
    "Sorty.C11_any_comparator",
    "Sorty.C11_no_deadlock",
    "Sorty.C11_sort_no_deadlock"
   ],
   "note": ""
  },
  {
   "property": "C12",
   "status": "proved",
   "theorems": [
    "Sorty.C12_any_comparator",
    "Sorty.C12_terminates",
    "Sorty.C12_sort_terminates"
   ],
   "note": ""
  },
  {
   "property": "C13",
   "status": "proved",
   "theorems": [
    "Sorty.C13_any_comparator",
    "Sorty.C13_return_means_finished",
    "Sorty.C13_all_visible_at_return",
    "Sorty.C13_sort_all_visible_at_return",
    "Sorty.C13_sort_return_means_finished"
   ],
   "note": ""
  },
  {
   "property": "C14",
   "status": "proved",
   "theorems": [
    "Sorty.C14_any_comparator",
    "Sorty.C14_channel_not_mixed",
    "Sorty.C14_sort_channel_not_mixed"
   ],
   "note": ""
  },
  {
   "property": "C15",
   "status": "proved",
   "theorems": [
    "Sorty.C15_any_comparator",
    "Sorty.C15_no_goroutine_if_MaxGor_le_1",
    "Sorty.C15_sort_no_goroutine_if_MaxGor_le_1"
   ],
   "note": ""
  },
  {
   "property": "C16",
   "status": "proved",
   "theorems": [
    "Sorty.C16_any_comparator",
    "Sorty.C16_no_goroutine_if_short",
    "Sorty.C16_sortLen_no_goroutine_if_short",
    "Sorty.C16_sort_no_goroutine_if_short"
   ],
   "note": ""
  },
  {
   "property": "C17",
   "status": "partial",
   "theorems": [
    "Sorty.C17_any_comparator_partial",
    "Sorty.C17_MaxGor_bound_violated",
    "Sorty.C17_goroutine_bound_partial",
    "Sorty.C17_bound_is_reached",
    "Sorty.C17_len_bound_is_reached",
    "Sorty.C17_sort_bound_is_reached",
    "Sorty.C17_sort_MaxGor_bound_violated",
    "Sorty.C17_sort_goroutine_bound_partial"
   ],
   "note": "The documented bound is false: C17_MaxGor_bound_violated (SortSlice) and C17_sort_MaxGor_bound_violated (Sort) are executions with more running goroutines than MaxGor. The _partial theorems prove the bound that holds, 2*(MaxGor-1). C17_bound_is_reached, C17_len_bound_is_reached and C17_sort_bound_is_reached prove that it is reached for every MaxGor >= 2, MaxGor being constant, on equal elements: the documented bound fails for every MaxGor from 3 on."
  },
  {
   "property": "C18",
   "status": "proved",
   "theorems": [
    "Sorty.C18_MaxGor_live",
    "Sorty.C18_sort_MaxGor_live"
   ],
   "note": ""
  },
  {
   "property": "C19",
   "status": "proved",
   "theorems": [
    "Sorty.C19_isSorted_no_panic",
    "Sorty.C19_no_panic",
    "Sorty.C19_sort_no_panic"
   ],
   "note": ""
  },
  {
   "property": "C20",
   "status": "proved",
   "theorems": [
    "Sorty.C20_any_comparator",
    "Sorty.C20_log_depth",
    "Sorty.C20_sort_log_depth"
   ],
   "note": ""
  },
  {
   "property": "C21",
   "status": "proved",
   "theorems": [
    "Sorty.C21_isSortedSlice_exact"
   ],
   "note": ""
  },
  {
   "property": "C22",
   "status": "proved",
   "theorems": [
    "Sorty.C22_isSortedSlice_floats"
   ],
   "note": ""
  },
  {
   "property": "C23",
   "status": "proved",
   "theorems": [
    "Sorty.C23_isSortedLen_exact"
   ],
   "note": ""
  },
  {
   "property": "C24",
   "status": "proved",
   "theorems": [
    "Sorty.C24_isSorted_exact",
    "Sorty.C24_isSorted_order"
   ],
   "note": ""
  },
  {
   "property": "C25",
   "status": "proved",
   "theorems": [
    "Sorty.C25_sortSlice_then_check",
    "Sorty.C25_sortLen_then_check",
    "Sorty.C25_sort_then_check"
   ],
   "note": ""
  },
  {
   "property": "C26",
   "status": "proved",
   "theorems": [
    "Sorty.C26_search_boundary"
   ],
   "note": ""
  },
  {
   "property": "C27",
   "status": "proved",
   "theorems": [
    "Sorty.C27_search_safe",
    "Sorty.C27_calls_are_observable"
   ],
   "note": ""
  },
  {
   "property": "C28",
   "status": "proved",
   "theorems": [
    "Sorty.C28_floats_unique",
    "Sorty.C28_sort_unique",
    "Sorty.C28_ints_unique",
    "Sorty.C28_bytes_unique",
    "Sorty.C28_lengths_unique"
   ],
   "note": ""
  },
  {
   "property": "C29",
   "status": "proved",
   "theorems": [
    "Sorty.C29_others_panic",
    "Sorty.C29_documented_accepted"
   ],
   "note": ""
  },
  {
   "property": "C30",
   "status": "proved",
   "theorems": [
    "Sorty.C30_samples_optimal"
   ],
   "note": ""
  },
  {
   "property": "C31",
   "status": "proved",
   "theorems": [
    "Sorty.C31_four_samples"
   ],
   "note": ""
  },
  {
   "property": "C32",
   "status": "partial",
   "theorems": [
    "Sorty.C32_fewer_than_two_partial",
    "Sorty.C32_smallest_int_violated"
   ],
   "note": "False for the smallest int, where n-- wraps: C32_smallest_int_violated. Proved for all other n < 2."
  },
  {
   "property": "C33",
   "status": "proved",
   "theorems": [
    "Sorty.C33_floats_idempotent",
    "Sorty.C33_lengths_idempotent",
    "Sorty.C33_second_call_stores_nothing",
    "Sorty.C33_second_sort_swaps_nothing",
    "Sorty.C33_ints_idempotent",
    "Sorty.C33_bytes_idempotent"
   ],
   "note": ""
  },
  {
   "property": "C34",
   "status": "proved",
   "theorems": [
    "Sorty.C34_disjoint_calls",
    "Sorty.C34_sort_disjoint_calls"
   ],
   "note": ""
  },
  {
   "property": "C35",
   "status": "proved",
   "theorems": [
    "Sorty.C35_sortSlice_no_NaN"
   ],
   "note": ""
  },
  {
   "property": "C36",
   "status": "proved",
   "theorems": [
    "Sorty.C36_NaNignore_hangs"
   ],
   "note": ""
  },
  {
   "property": "C37",
   "status": "partial",
   "theorems": [
    "Sorty.C37_every_accepted_tuning_partial",
    "Sorty.C37_huge_tuning_violated",
    "Sorty.C37_default_tuning_accepted",
    "Sorty.C37_exact_arithmetic_partial"
   ],
   "note": "False with the build tag tuneparam for MaxLenRec from a quarter of the uint range on: 2*(MaxLenRec+1) wraps, the start-up check accepts it, and SortSlice on an empty slice panics (C37_huge_tuning_violated). Proved for all accepted thresholds below that (C37_every_accepted_tuning_partial, on machine ints)."
  },
  {
   "property": "C38",
   "status": "proved",
   "theorems": [
    "Sorty.C38_means"
   ],
   "note": ""
  },
  {
   "property": "C39",
   "status": "proved",
   "theorems": [
    "Sorty.C39_ints_sort_eq_sortSlice",
    "Sorty.C39_bytes_sort_eq_sortSlice",
    "Sorty.C39_floats_sort_eq_sortSlice"
   ],
   "note": ""
  },
  {
   "property": "C40",
   "status": "proved",
   "theorems": [
    "Sorty.C40_float32_order",
    "Sorty.C40_float64_order",
    "Sorty.C40_sortSlice_NaNlarge",
    "Sorty.C40_sortSlice_NaNsmall",
    "Sorty.C40_sortSlice_no_NaN",
    "Sorty.C40_isSortedSlice"
   ],
   "note": ""
  },
  {
   "property": "C41",
   "status": "partial",
   "theorems": [
    "Sorty.C41_sort_near_largest_int_violated",
    "Sorty.C41_sort_too_long_violated",
    "Sorty.C41_sort_length_partial"
   ],
   "note": "False near the largest int, where h += step wraps in pivot: C41_sort_near_largest_int_violated (concrete) and C41_sort_too_long_violated (one goroutine: every n from 10/11 of 2^63 or 2^31 on, plus 7, panics whatever the data; any MaxGor: every n from 14/15 on, plus 9). Proved to hold for n + 8 up to 10/11. Between the two with several goroutines the outcome depends on the data."
  },
  {
   "property": "C42",
   "status": "proved",
   "theorems": [
    "Sorty.C42_nonstrict_race",
    "Sorty.C42_nonstrict_unsorted"
   ],
   "note": ""
  },
  {
   "property": "C43",
   "status": "proved",
   "theorems": [
    "Sorty.C43_any_comparator",
    "Sorty.C43_one_channel",
    "Sorty.C43_sort_one_channel"
   ],
   "note": ""
  },
  {
   "property": "C44",
   "status": "proved",
   "theorems": [
    "Sorty.C44_any_comparator",
    "Sorty.C44_started_goroutines",
    "Sorty.C44_sortLen_started_goroutines",
    "Sorty.C44_sort_started_goroutines"
   ],
   "note": ""
  },
  {
   "property": "C45",
   "status": "proved",
   "theorems": [
    "Sorty.C45_search_lengths",
    "Sorty.C45_search_floats_NaNlarge",
    "Sorty.C45_search_floats_NaNsmall",
    "Sorty.C45_search_ints",
    "Sorty.C45_search_bytes"
   ],
   "note": ""
  },
  {
   "property": "C46",
   "status": "proved",
   "theorems": [
    "Sorty.C46_any_comparator",
    "Sorty.C46_sort_calls",
    "Sorty.C46_isSorted_calls",
    "Sorty.C46_accesses",
    "Sorty.C46_isSortedSlice_loads",
    "Sorty.C46_isSortedLen_loads"
   ],
   "note": ""
  },
  {
   "property": "C47",
   "status": "proved",
   "theorems": [
    "Sorty.C47_sortSlice_reproducible",
    "Sorty.C47_sortLen_reproducible",
    "Sorty.C47_sort_reproducible",
    "Sorty.C47_concurrent_arrangement_may_differ"
   ],
   "note": ""
  },
  {
   "property": "C48",
   "status": "proved",
   "theorems": [
    "Sorty.C48_isSortedSlice_undisturbed",
    "Sorty.C48_isSortedLen_undisturbed",
    "Sorty.C48_isSorted_undisturbed"
   ],
   "note": ""
  },
  {
   "property": "C49",
   "status": "proved",
   "theorems": [
    "Sorty.C49_pivot_sort",
    "Sorty.C49_pivot_ints",
    "Sorty.C49_pivot_floats",
    "Sorty.C49_pivot_bytes",
    "Sorty.C49_pivot_lengths"
   ],
   "note": ""
  },
  {
   "property": "C50",
   "status": "proved",
   "theorems": [
    "Sorty.C50_in_order_no_store",
    "Sorty.C50_in_order_no_swap"
   ],
   "note": ""
  },
  {
   "property": "C51",
   "status": "proved",
   "theorems": [
    "Sorty.C51_in_order_loads",
    "Sorty.C51_in_order_calls"
   ],
   "note": ""
  },
  {
   "property": "C52",
   "status": "proved",
   "theorems": [
    "Sorty.C52_sortSlice_parallel",
    "Sorty.C52_sortLen_parallel",
    "Sorty.C52_floats_parallel",
    "Sorty.C52_sort_parallel"
   ],
   "note": ""
  },
  {
   "property": "C53",
   "status": "proved",
   "theorems": [
    "Sorty.C53_sortSlice_machine",
    "Sorty.C53_sortLen_machine",
    "Sorty.C53_machine_sorts",
    "Sorty.C53_checks_machine",
    "Sorty.C53_sort_machine",
    "Sorty.C53_sort_machine_sorts",
    "Sorty.C53_isSorted_machine"
   ],
   "note": ""
  },
  {
   "property": "C54",
   "status": "proved",
   "theorems": [
    "Sorty.C54_any_comparator",
    "Sorty.C54_created_before_use",
    "Sorty.C54_counter_race",
    "Sorty.C54_sort_created_before_use",
    "Sorty.C54_sort_counter_race"
   ],
   "note": ""
  },
  {
   "property": "C55",
   "status": "proved",
   "theorems": [
    "Sorty.C55_sortLen_short_stable",
    "Sorty.C55_sortSlice_short_stable",
    "Sorty.C55_sort_short_stable",
    "Sorty.C55_longer_not_stable"
   ],
   "note": ""
  },
  {
   "property": "C56",
   "status": "proved",
   "theorems": [
    "Sorty.C56_sort_nothing_lost",
    "Sorty.C56_sort_panic_loses_nothing"
   ],
   "note": ""
  },
  {
   "property": "C57",
   "status": "proved",
   "theorems": [
    "Sorty.C57_any_comparator",
    "Sorty.C57_lowered_MaxGor_takes_effect",
    "Sorty.C57_bound_is_tight",
    "Sorty.C57_sort_lowered_MaxGor_takes_effect"
   ],
   "note": ""
  },
  {
   "property": "C58",
   "status": "proved",
   "theorems": [
    "Sorty.C58_weak_memory",
    "Sorty.C58_weak_memory_sorts",
    "Sorty.C58_sort_weak_memory",
    "Sorty.C58_sort_weak_memory_sorts"
   ],
   "note": ""
  },
  {
   "property": "C59",
   "status": "partial",
   "theorems": [
    "Sorty.C59_recovered_panic_partial",
    "Sorty.C59_recovered_panic_aftermath_partial",
    "Sorty.C59_recovered_panic_violated"
   ],
   "note": "False if the call has started goroutines: C59_recovered_panic_violated is an execution (1204 elements, MaxGor 3) in which after the recovery another goroutine still swaps elements and then blocks forever sending its result. Proved for MaxGor at most 1 and for collections too short for goroutines (C59_recovered_panic_partial). For every call: the remaining goroutines stop after finitely many steps, without race, panic or access outside, the collection ends as a permutation of the original, and at most one goroutine is left waiting (C59_recovered_panic_aftermath_partial)."
  },
  {
   "property": "C60",
   "status": "proved",
   "theorems": [
    "Sorty.C60_sort_can_be_quadratic"
   ],
   "note": ""
  },
  {
   "property": "C61",
   "status": "proved",
   "theorems": [
    "Sorty.C61_sortSlice_can_be_quadratic",
    "Sorty.C61_sortLen_can_be_quadratic"
   ],
   "note": ""
  },
  {
   "property": "C62",
   "status": "proved",
   "theorems": [
    "Sorty.C62_sort_two_kinds_quadratic"
   ],
   "note": ""
  },
  {
   "property": "C63",
   "status": "proved",
   "theorems": [
    "Sorty.C63_few_keys"
   ],
   "note": ""
  },
  {
   "property": "C64",
   "status": "proved",
   "theorems": [
    "Sorty.C64_sortSlice_descending",
    "Sorty.C64_sortLen_descending"
   ],
   "note": ""
  },
  {
   "property": "C65",
   "status": "proved",
   "theorems": [
    "Sorty.C65_sortSlice_average",
    "Sorty.C65_sortSlice_average_concurrent"
   ],
   "note": ""
  },
  {
   "property": "C66",
   "status": "proved",
   "theorems": [
    "Sorty.C66_sort_unrestricted_comparator",
    "Sorty.C66_sort_unrestricted_machine"
   ],
   "note": ""
  },
  {
   "property": "C67",
   "status": "proved",
   "theorems": [
    "Sorty.C67_elements_stay",
    "Sorty.C67_sort_elements_stay",
    "Sorty.C67_two_elements_out",
    "Sorty.C67_pointer_out_of_slice"
   ],
   "note": ""
  },
  {
   "property": "C68",
   "status": "proved",
   "theorems": [
    "Sorty.C68_any_comparator",
    "Sorty.C68_steps",
    "Sorty.C68_sort_steps"
   ],
   "note": ""
  },
  {
   "property": "C69",
   "status": "proved",
   "theorems": [
    "Sorty.C69_check_not_needed",
    "Sorty.C69_documented_checks",
    "Sorty.C69_unchecked_checks_race",
    "Sorty.C69_swap_needed",
    "Sorty.C69_return_needed"
   ],
   "note": ""
  },
  {
   "property": "C70",
   "status": "proved",
   "theorems": [
    "Sorty.C70_any_comparator",
    "Sorty.C70_parallel_slices",
    "Sorty.C70_no_data_race",
    "Sorty.C70_unrestricted_comparator"
   ],
   "note": ""
  },
  {
   "property": "C71",
   "status": "proved",
   "theorems": [
    "Sorty.C71_take_turns",
    "Sorty.C71_conflicts_are_synchronised",
    "Sorty.C71_sort_take_turns",
    "Sorty.C71_sort_conflicts_are_synchronised",
    "Sorty.C71_parallel_take_turns",
    "Sorty.C71_parallel_conflicts_are_synchronised"
   ],
   "note": ""
  }
 ]
}