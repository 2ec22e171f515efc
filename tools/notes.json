{
 "C17": {"status": "partial", "note": "The documented bound is false: C17_MaxGor_bound_violated (SortSlice) and C17_sort_MaxGor_bound_violated (Sort) are executions with more running goroutines than MaxGor. The _partial theorems prove the bound that holds, 2*(MaxGor-1). C17_bound_is_reached, C17_len_bound_is_reached and C17_sort_bound_is_reached prove that it is reached for every MaxGor >= 2, MaxGor being constant, on equal elements: the documented bound fails for every MaxGor from 3 on."},
 "C32": {"status": "partial", "note": "False for the smallest int, where n-- wraps: C32_smallest_int_violated. Proved for all other n < 2."},
 "C37": {"status": "partial", "note": "False with the build tag tuneparam for MaxLenRec from a quarter of the uint range on: 2*(MaxLenRec+1) wraps, the start-up check accepts it, and SortSlice on an empty slice panics (C37_huge_tuning_violated). Proved for all accepted thresholds below that (C37_every_accepted_tuning_partial, on machine ints)."},
 "C41": {"status": "partial", "note": "False near the largest int, where h += step wraps in pivot: C41_sort_near_largest_int_violated (concrete) and C41_sort_too_long_violated (one goroutine: every n from 10/11 of 2^63 or 2^31 on, plus 7, panics whatever the data; any MaxGor: every n from 14/15 on, plus 9). Proved to hold for n + 8 up to 10/11. Between the two with several goroutines the outcome depends on the data."},
 "C59": {"status": "partial", "note": "False if the call has started goroutines: C59_recovered_panic_violated is an execution (1204 elements, MaxGor 3) in which after the recovery another goroutine still swaps elements and then blocks forever sending its result. Proved for MaxGor at most 1 and for collections too short for goroutines (C59_recovered_panic_partial). For every call: the remaining goroutines stop after finitely many steps, without race, panic or access outside, the collection ends as a permutation of the original, and at most one goroutine is left waiting (C59_recovered_panic_aftermath_partial)."}
}
