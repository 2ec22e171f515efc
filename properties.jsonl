{"id": "C01", "title": "SortSlice leaves integer slices ascending", "statement": "When SortSlice returns on a slice whose element type is int, int32, int64, uint, uint32, uint64, uintptr, *T or unsafe.Pointer, the slice is in ascending order of its (signed or unsigned) values.", "quantifier": "every slice length and content, every value MaxGor takes at each moment it is read, every interleaving of the goroutines the call creates", "why_tests_cant": "tests sample random contents of one size and whatever schedules the runtime happens to pick", "anchors": ["sortySlice.go:SortSlice", "sortyI8.go:sortI8", "sortyI4.go:sortI4", "sortyU8.go:sortU8", "sortyU4.go:sortU4"]}
{"id": "C02", "title": "SortSlice permutes: nothing lost, duplicated or invented, nothing outside touched", "statement": "When SortSlice returns, the slice holds exactly the elements it held before, with the same multiplicities, bit for bit, and no memory cell outside the slice's [0,len) has been written.", "quantifier": "every supported element type, slice length, content, MaxGor history and interleaving", "why_tests_cant": "a lost or duplicated element may need one particular content and schedule; random tests compare only sampled results", "anchors": ["sortySlice.go:SortSlice", "sortyI8.go:insertionI8", "sortyI8.go:partOneI8", "sortyI8.go:partTwoI8", "sortyI8.go:partConI8"]}
{"id": "C03", "title": "SortSlice orders strings and byte slices lexicographically", "statement": "When SortSlice returns on []string or [][]byte, the elements are in ascending bytewise lexicographic order, and are a permutation of the originals.", "quantifier": "every slice of strings / byte slices of any lengths, every MaxGor history and interleaving", "why_tests_cant": "the test only sorts 12-byte bodies; prefixes, empty strings and unequal lengths are never exercised", "anchors": ["sortyS.go:sortS", "sortyB.go:sortB", "sortySlice.go:SortSlice"]}
{"id": "C04", "title": "Floats with NaNlarge: ascending numbers, then all NaNs", "statement": "With NaNoption = NaNlarge, after SortSlice on []float32 or []float64 there is a split point such that everything before it is a non-NaN in ascending order and everything after it is a NaN; the bit patterns are a permutation of the originals.", "quantifier": "every float slice (any NaN payloads, infinities, signed zeros, subnormals), every MaxGor history and interleaving", "why_tests_cant": "tests sample bit patterns and cannot reach every placement and count of NaNs", "anchors": ["sortyF8.go:sortF8", "sortyF4.go:sortF4", "sorty.go:NaNoption"]}
{"id": "C05", "title": "Floats with NaNsmall: all NaNs, then ascending numbers", "statement": "With NaNoption = NaNsmall, after SortSlice on []float32 or []float64 there is a split point such that everything before it is a NaN and everything after it is a non-NaN in ascending order; the bit patterns are a permutation of the originals.", "quantifier": "every float slice, every MaxGor history and interleaving", "why_tests_cant": "tests sample bit patterns and cannot reach every placement and count of NaNs", "anchors": ["sortyF8.go:sortF8", "sortyF4.go:sortF4", "sorty.go:NaNoption"]}
{"id": "C06", "title": "SortLen orders by length", "statement": "When SortLen returns on []string or [][]T, the lengths of the elements are in ascending order and the elements (string or slice headers) are a permutation of the originals.", "quantifier": "every slice of strings or slices, every MaxGor history and interleaving", "why_tests_cant": "infinitely many length profiles and schedules", "anchors": ["sortyLen.go:SortLen", "sortyLenS.go:sortLenS", "sortyLenB.go:sortLenB"]}
{"id": "C07", "title": "Sort via lesswap sorts any strict weak order", "statement": "If lsw follows the documented contract for a strict weak order less, then when Sort(n, lsw) returns, for all i < j in [0,n) element j is not less than element i, and the collection is a permutation of the original.", "quantifier": "every n up to about 10/11 of the largest int (larger n: see C41), every collection, strict weak order, MaxGor history and interleaving", "why_tests_cant": "the pivot is an index that concurrent phases may move (the source says the bug took days to find); only specific contents and schedules show it", "anchors": ["sortyLsw.go:Sort", "sortyLsw.go:partCon", "sortyLsw.go:pivot", "sortyLsw.go:partOne", "sortyLsw.go:partTwo"]}
{"id": "C08", "title": "Sort is safe for inconsistent comparators", "statement": "If lsw merely never reports an index less than itself, even when its answers are otherwise arbitrary or contradictory, Sort(n, lsw) still returns, calls lsw only with indices in [0,n), and leaves a permutation of the collection.", "quantifier": "every n up to about 10/11 of the largest int (larger n: see C41), every sequence of comparator answers, every MaxGor history and interleaving", "why_tests_cant": "the set of misbehaving comparators is unbounded and a hang cannot be established by a finite test", "anchors": ["sortyLsw.go:Sort", "sortyLsw.go:Lesswap", "sortyLsw.go:short", "sortyLsw.go:long"]}
{"id": "C09", "title": "No data race inside SortSlice and SortLen", "statement": "At no point of any execution of SortSlice or SortLen are two of its goroutines about to access the same slice element with at least one of them writing, and in every execution any two accesses of an element, one of them a write, are ordered by happens-before as the Go memory model defines it.", "quantifier": "every slice, MaxGor history and reachable interleaving point", "why_tests_cant": "the race detector only sees the schedules and contents that ran", "anchors": ["sortyI8.go:partConI8", "sortyI8.go:longI8", "sortyI8.go:sortI8", "sortyS.go:sortS", "sortyF8.go:sortF8", "sortyLenS.go:sortLenS"]}
{"id": "C10", "title": "Concurrent lesswap calls never conflict", "statement": "At no point of any execution of Sort(n, lsw) are two concurrent lsw calls about to access the same element with at least one of them swapping it, and any two accesses of an element, one of them a write, are ordered by the happens-before of the Go memory model, so the user's lsw needs no locking.", "quantifier": "every n up to about 10/11 of the largest int (larger n: see C41), every collection, irreflexive comparator, MaxGor history and reachable interleaving point", "why_tests_cant": "needs every schedule; the shared pivot element is read by two goroutines while both swap other elements", "anchors": ["sortyLsw.go:partCon", "sortyLsw.go:partOne", "sortyLsw.go:partTwo", "sortyLsw.go:long", "sortyLsw.go:Sort"]}
{"id": "C11", "title": "Sort* never deadlock", "statement": "In every reachable state of a Sort* call that has not returned, at least one of its goroutines can take a step.", "quantifier": "every input, MaxGor history and interleaving (for Sort: n up to about 10/11 of the largest int, see C41)", "why_tests_cant": "a deadlock may need one rare order of counter updates and channel operations", "anchors": ["sorty.go:syncVar", "sortyI8.go:gLongI8", "sortyI8.go:sortI8", "sortyLsw.go:gLong", "sortyLsw.go:Sort"]}
{"id": "C12", "title": "Sort* always terminate", "statement": "There is no infinite execution of a Sort* call: every schedule reaches the return of the call after finitely many steps.", "quantifier": "every input (with NaNs only under NaNlarge/NaNsmall), MaxGor history and interleaving (for Sort: n up to about 10/11 of the largest int, see C41)", "why_tests_cant": "non-termination cannot be observed by a finite test; quicksort loops forever if a partition is ever empty", "anchors": ["sortyI8.go:shortI8", "sortyI8.go:longI8", "sortyS.go:shortS", "sortyF8.go:shortF8", "sortyLsw.go:short", "sortyLsw.go:long"]}
{"id": "C13", "title": "Return means everything is finished", "statement": "When a Sort* call returns, every goroutine it created has finished: none of them will read or write the collection or block on the channel again, so no goroutine leaks; and everything they did to the collection happens before the return in the sense of the Go memory model, so the caller sees it.", "quantifier": "every input, MaxGor history and interleaving (for Sort: n up to about 10/11 of the largest int, see C41)", "why_tests_cant": "a late writer or a leaked goroutine shows only under particular schedules", "anchors": ["sorty.go:syncVar", "sortyI8.go:gLongI8", "sortyI8.go:sortI8", "sortyLsw.go:gLong"]}
{"id": "C14", "title": "The shared channel never mixes partition results with the end signal", "statement": "A Sort* call uses one channel for both partition results and the end signal; every receive of a partition result gets the value sent by the partition goroutine of that very partition, and the final receive gets the end signal.", "quantifier": "every input, MaxGor history and interleaving (for Sort: n up to about 10/11 of the largest int, see C41)", "why_tests_cant": "a mix-up needs a goroutine to finish in a particular window", "anchors": ["sortyI8.go:partConI8", "sortyI8.go:gPartOneI8", "sortyI8.go:gLongI8", "sortyLsw.go:partCon", "sortyLsw.go:gPartOne"]}
{"id": "C15", "title": "MaxGor <= 1 means no goroutine and no channel", "statement": "If MaxGor reads as at most 1 throughout a Sort* call, the call creates no goroutine and no channel.", "quantifier": "every input and interleaving with the environment (for Sort: n up to about 10/11 of the largest int, see C41)", "why_tests_cant": "must hold for every input size and content", "anchors": ["sorty.go:MaxGor", "sortyI8.go:sortI8", "sortyLsw.go:Sort"]}
{"id": "C16", "title": "Short input means no goroutine and no channel", "statement": "If the input has fewer than 2*(MaxLenRec+1) elements (MaxLenRecFC for strings, byte slices and Sort), the call creates no goroutine and no channel, whatever MaxGor is.", "quantifier": "every input below the threshold, every MaxGor history (for Sort: n up to about 10/11 of the largest int, see C41)", "why_tests_cant": "must hold for every content and MaxGor history", "anchors": ["maxc.go:MaxLenRec", "maxc.go:MaxLenRecFC", "sortyI8.go:sortI8", "sortyLsw.go:Sort"]}
{"id": "C17", "title": "MaxGor bounds the goroutines used", "statement": "The documentation says MaxGor is the maximum number of goroutines (including the caller) concurrently used for sorting by one Sort* call: at no time do more than MaxGor goroutines of the call work.", "quantifier": "every input, every MaxGor value and interleaving (for Sort: n up to about 10/11 of the largest int, see C41)", "why_tests_cant": "the check and the increment are separate steps, so a violation needs a particular schedule", "anchors": ["sorty.go:MaxGor", "sorty.go:gorFull", "sortyI8.go:longI8", "sortyI8.go:sortI8", "sortyI8.go:partConI8"]}
{"id": "C18", "title": "MaxGor can be changed live", "statement": "If MaxGor changes arbitrarily during a Sort* call, including to 0 or to huge values, the call still returns with a sorted permutation, without deadlock, panic or race on elements.", "quantifier": "every sequence of values MaxGor takes at the moments it is read (for Sort: n up to about 10/11 of the largest int, see C41)", "why_tests_cant": "the moments of the reads and the values are unbounded", "anchors": ["sorty.go:MaxGor", "sorty.go:gorFull"]}
{"id": "C19", "title": "No panic, no out-of-range access", "statement": "On any input of a supported type, no Sort* or IsSorted* call panics: every index and every slice expression evaluated in it is in range.", "quantifier": "every input, MaxGor history and interleaving (for Sort: n up to about 10/11 of the largest int, see C41)", "why_tests_cant": "an out-of-range index may need one particular length and content", "anchors": ["sortyI8.go:shortI8", "sortyI8.go:pivotI8", "sortyI8.go:partConI8", "sorty.go:minMaxSample", "sorty.go:minMaxFour"]}
{"id": "C20", "title": "Recursion depth is logarithmic", "statement": "In every goroutine of a Sort* call the nesting depth of recursive sorting calls is at most log2(length) + 2, for every input including adversarial ones.", "quantifier": "every input, MaxGor history and interleaving (for Sort: n up to about 10/11 of the largest int, see C41)", "why_tests_cant": "adversarial quicksort inputs are not sampled by random tests", "anchors": ["sortyI8.go:shortI8", "sortyI8.go:longI8", "sortyLsw.go:short", "sortyLsw.go:long"]}
{"id": "C21", "title": "IsSortedSlice is exact for integers, strings and byte slices", "statement": "IsSortedSlice returns 0 exactly when the slice is ascending; otherwise it returns some i > 0 inside the slice with ar[i] < ar[i-1]. It changes nothing.", "quantifier": "every slice of a supported non-float type", "why_tests_cant": "infinitely many slices", "anchors": ["sortySlice.go:IsSortedSlice", "sortyI8.go:isSortedI8", "sortyS.go:isSortedS", "sortyB.go:isSortedB"]}
{"id": "C22", "title": "IsSortedSlice is exact for floats under each NaNoption", "statement": "With NaNlarge (NaNsmall), IsSortedSlice on floats returns 0 exactly when all NaNs are at the end (start) and the rest is ascending. Whenever it returns i, i is 0 or a valid index with i > 0 and not (ar[i] >= ar[i-1]), that is ar[i] < ar[i-1] or one of the two is a NaN. With NaNignore it returns 0 exactly when every adjacent pair satisfies ar[i] >= ar[i-1].", "quantifier": "every float slice and NaNoption", "why_tests_cant": "placements of NaNs are unbounded", "anchors": ["sortyF8.go:isSortedF8", "sortyF4.go:isSortedF4"]}
{"id": "C23", "title": "IsSortedLen is exact", "statement": "IsSortedLen returns 0 exactly when the element lengths are ascending; otherwise some i > 0 with len(ar[i]) < len(ar[i-1]). It changes nothing.", "quantifier": "every slice of strings or slices", "why_tests_cant": "infinitely many slices", "anchors": ["sortyLen.go:IsSortedLen", "sortyLenS.go:isSortedLenS", "sortyLenB.go:isSortedLenB"]}
{"id": "C24", "title": "IsSorted via lesswap is exact", "statement": "For a lsw following the contract, IsSorted(n, lsw) returns 0 exactly when no adjacent pair has less(i, i-1) (for a strict weak order: exactly when the collection is sorted); otherwise some i in (0,n) with less(i, i-1). It never swaps.", "quantifier": "every n, collection and comparator", "why_tests_cant": "infinitely many collections and comparators", "anchors": ["sortyLsw.go:IsSorted"]}
{"id": "C25", "title": "Sorting then checking reports sorted", "statement": "IsSortedSlice after SortSlice, IsSortedLen after SortLen and IsSorted after Sort return 0 (floats: under the same NaNlarge or NaNsmall option).", "quantifier": "every input, MaxGor history and interleaving (for Sort: n up to about 10/11 of the largest int, see C41)", "why_tests_cant": "this is what the repository's own tests sample", "anchors": ["sortySlice.go:IsSortedSlice", "sortyLen.go:IsSortedLen", "sortyLsw.go:IsSorted"]}
{"id": "C26", "title": "Search finds the boundary", "statement": "If fn(k) implies fn(k+1) on [0,n), Search(n, fn) returns the lowest k in [0,n) with fn(k), or n if there is none.", "quantifier": "every n >= 0 and every monotone predicate", "why_tests_cant": "infinitely many predicates", "anchors": ["sorty.go:Search"]}
{"id": "C27", "title": "Search is safe for any callback", "statement": "For any fn, monotone or not, even with side effects, Search(n, fn) calls fn only with arguments in [0,n), never twice with the same one, at most floor(log2 n)+1 times, and returns a value in [0,n]; for n <= 0 it calls nothing and returns 0.", "quantifier": "every n and every callback behaviour", "why_tests_cant": "infinitely many callbacks", "anchors": ["sorty.go:Search"]}
{"id": "C28", "title": "The result does not depend on schedule or MaxGor", "statement": "For integers, strings and byte slices (as byte contents), the slice SortSlice leaves is the same for every schedule and every MaxGor history, namely the unique ascending permutation of the input; for floats the numeric value at each position, and for SortLen the length at each position, does not depend on them. The same holds for Sort with an lsw that is a strict weak order, up to elements that it does not distinguish; if it distinguishes all different elements, the result of Sort is unique.", "quantifier": "every input and every pair of executions", "why_tests_cant": "compares all pairs of executions", "anchors": ["sortyI8.go:sortI8", "sortyS.go:sortS", "sortySlice.go:SortSlice", "sortyLsw.go:Sort"]}
{"id": "C29", "title": "Exactly the documented types are accepted", "statement": "SortSlice and IsSortedSlice accept exactly []T with T of underlying kind int, int32, int64, uint, uint32, uint64, uintptr, float32, float64, string, pointer, unsafe.Pointer or []byte, and panic for anything else; SortLen and IsSortedLen accept exactly []string and [][]T and panic for anything else. Each accepted type is compared with the width and signedness of its own type, on 32-bit and 64-bit platforms.", "quantifier": "every Go type (reflect kind and element kinds) and both word sizes", "why_tests_cant": "there are unboundedly many types; tests try a handful", "anchors": ["sorty.go:extractSK", "sortySlice.go:SortSlice", "sortySlice.go:IsSortedSlice", "sortyLen.go:SortLen", "sortyLen.go:IsSortedLen"]}
{"id": "C30", "title": "Pivot samples are equidistant, in range and optimally spread", "statement": "For n >= 2 samples from a range of slen >= 2n elements, the chosen positions first, first+step, ..., last lie in the range, step >= 2, tails differ by at most one, and no other equidistant choice of n positions has a smaller maximum distance from a non-selected position to its nearest selected one. No unsigned arithmetic in the computation wraps.", "quantifier": "every n >= 2 and slen >= 2n up to the machine word", "why_tests_cant": "the test loops only up to slen = 1800 and n = 24", "anchors": ["sorty.go:minMaxSample"]}
{"id": "C31", "title": "The four-sample shortcut agrees with the general sampler", "statement": "For every 32-bit slen >= 8, the table-driven four-sample selection gives the same first and step as the general one, despite its wrap-around table entry.", "quantifier": "every slen in [8, 2^32)", "why_tests_cant": "the test loops only up to 1800", "anchors": ["sorty.go:minMaxFour", "sorty.go:firstFour", "sorty.go:stepFour"]}
{"id": "C32", "title": "Sort with fewer than two elements does nothing", "statement": "Sort(n, lsw) with n < 2 returns without calling lsw, and IsSorted(n, lsw) with n < 2 returns 0 without calling lsw.", "quantifier": "every machine integer n < 2", "why_tests_cant": "the test tries -3..1; the decrement of n wraps for the smallest int", "anchors": ["sortyLsw.go:Sort", "sortyLsw.go:IsSorted"]}
{"id": "C33", "title": "Sorting is idempotent", "statement": "Sorting a slice that is already ascending leaves it unchanged, and sorting twice equals sorting once: integers exactly, strings and byte slices as byte contents, floats as numeric values, SortLen as lengths. Moreover the second of two SortSlice, SortLen or Sort calls stores nothing at all (for Sort: never lets lsw swap).", "quantifier": "every input, MaxGor history and interleaving", "why_tests_cant": "infinitely many inputs and schedules", "anchors": ["sortySlice.go:SortSlice"]}
{"id": "C34", "title": "Calls on disjoint data do not interfere", "statement": "A Sort* call is correct even if other goroutines concurrently do anything to memory outside its slice (for example other Sort* calls on disjoint slices), and it never writes there.", "quantifier": "every input, every interleaving with arbitrary outside writes (for Sort: n up to about 10/11 of the largest int, see C41)", "why_tests_cant": "tests run four sorts at a time under sampled schedules", "anchors": ["sortyI8.go:sortI8", "sortyLsw.go:Sort", "sorty.go:syncVar"]}
{"id": "C35", "title": "NaNignore is correct for NaN-free floats", "statement": "With NaNoption = NaNignore (or any other value of the option type), SortSlice on a float slice without NaNs leaves it an ascending permutation.", "quantifier": "every NaN-free float slice, MaxGor history and interleaving", "why_tests_cant": "sorty is only tested with small/large options", "anchors": ["sortyF8.go:sortF8", "sorty.go:NaNignore"]}
{"id": "C36", "title": "NaNignore with NaNs may hang", "statement": "With NaNoption = NaNignore there is a float slice with NaNs on which SortSlice never returns (the documentation only says the result is undefined).", "quantifier": "existence of an input; for it, every number of steps", "why_tests_cant": "a hang cannot be told from slowness by a test", "anchors": ["sortyF8.go:shortF8", "sortyF8.go:partOneF8", "sorty.go:NaNoption"]}
{"id": "C37", "title": "Every tuning accepted at start-up is safe", "statement": "For all values of MaxLenIns, MaxLenInsFC, MaxLenRec, MaxLenRecFC that pass the package's start-up check, all the sorting guarantees hold; the default values pass the check.", "quantifier": "every tuple of tuning values accepted by the check", "why_tests_cant": "tuning tries a few values", "anchors": ["sorty.go:init", "maxc.go:MaxLenIns", "maxv.go:MaxLenIns"]}
{"id": "C38", "title": "Means of pivots never overflow", "statement": "The mean of two integers computed without widening lies between them for every pair of machine integers, signed or unsigned, 32 or 64 bit.", "quantifier": "every pair of machine integers", "why_tests_cant": "2^128 pairs", "anchors": ["sortyI8.go:pivotI8", "sortyI8.go:shortI8", "sorty.go:Search"]}
{"id": "C39", "title": "Sort and SortSlice agree", "statement": "Sorting with Sort and the natural lesswap gives what SortSlice gives: the same slice for integers, the same contents in the same places for strings and byte slices, and for floats, with a lesswap that puts NaNs last and NaNlarge, the same numbers and NaNs in the same places.", "quantifier": "every input and every pair of executions (for Sort: n up to about 10/11 of the largest int, see C41)", "why_tests_cant": "compares all pairs of executions of two different programs", "anchors": ["sortyLsw.go:Sort", "sortySlice.go:SortSlice"]}
{"id": "C40", "title": "Floats are put in order of their numeric values", "statement": "The order SortSlice and IsSortedSlice use on float32 and float64 is the order of the numbers the bit patterns denote in IEEE 754 (binary32, binary64): negative and positive zero are equal, subnormals and infinities are in their places, and exactly the patterns with all exponent bits set and a non-zero fraction count as NaN.", "quantifier": "every pair of float32 and float64 bit patterns", "why_tests_cant": "2^128 pairs of bit patterns", "anchors": ["sortyF4.go:isSortedF4", "sortyF8.go:isSortedF8", "sortyF8.go:sortF8", "sortySlice.go:SortSlice"]}
{"id": "C41", "title": "Sort accepts every length an int can hold", "statement": "For every collection length n representable as int, Sort(n, lsw) calls lsw only with indices in [0,n) and sorts.", "quantifier": "every n up to the largest int, on 32-bit and 64-bit platforms, every collection, MaxGor history and interleaving", "why_tests_cant": "collections with that many elements cannot be built in a test", "anchors": ["sortyLsw.go:Sort", "sortyLsw.go:pivot"]}
{"id": "C42", "title": "A strict comparator is necessary", "statement": "The documentation calls a strict comparator necessary for Sort: with the non-strict comparator <= (which also answers true for equal elements) there are an execution of Sort in which two concurrent lsw calls conflict on an element, and an execution in a single goroutine that returns with the elements out of order.", "quantifier": "existence of a collection, comparator and interleaving", "why_tests_cant": "the conflict needs a particular schedule", "anchors": ["sortyLsw.go:Sort", "sortyLsw.go:Lesswap", "sortyLsw.go:partCon"]}
{"id": "C43", "title": "At most one channel per call", "statement": "A Sort* call creates at most one channel (with its goroutine counter), in the calling goroutine and before it starts its first goroutine; a call that starts no goroutine need not create one.", "quantifier": "every input, MaxGor history and interleaving (for Sort: n up to about 10/11 of the largest int, see C41)", "why_tests_cant": "a second channel would appear only on particular sequences of partitions", "anchors": ["sorty.go:syncVar", "sortyI8.go:sortI8", "sortyS.go:sortS", "sortyLsw.go:Sort"]}
{"id": "C44", "title": "Few goroutines in total, each with a long range", "statement": "If a Sort* call starts goroutines at all, then over its whole execution it starts fewer than len/(MaxLenRec+1) that sort ranges, and each of them is given a range inside the slice with more than MaxLenRec elements (MaxLenRecFC for strings, byte slices and Sort).", "quantifier": "every input, MaxGor history and interleaving (for Sort: n up to about 10/11 of the largest int, see C41)", "why_tests_cant": "no hook counts goroutines or shows their ranges; the count depends on schedules", "anchors": ["sortyI8.go:longI8", "sortyI8.go:sortI8", "sortyLsw.go:long", "sortyLsw.go:Sort", "sorty.go:MaxLenRec"]}
{"id": "C45", "title": "Search locates elements of a sorted slice", "statement": "After SortSlice, Search with the callback 'element k is at least x' returns the number of elements of the original slice that are less than x, and x was in the original slice exactly if the element at that position now equals x. The same holds for lengths after SortLen, and for floats, where NaNs count as at least x under NaNlarge and as less than x under NaNsmall.", "quantifier": "every slice of a documented type, every x, MaxGor history and interleaving", "why_tests_cant": "all slices and all values sought", "anchors": ["sorty.go:Search", "sortySlice.go:SortSlice"]}
{"id": "C46", "title": "Worst-case work is quadratic", "statement": "A call of Sort on n elements calls lsw at most (n-1)(n+46)/2 times, whatever the comparator answers; a call of SortSlice or SortLen loads and stores slice elements at most n(7n+5) times; IsSorted calls lsw at most n-1 times; IsSortedSlice and IsSortedLen load elements at most 2(n-1) times (3n for floats). The counts are totals over all goroutines.", "quantifier": "every input (adversarial ones included), comparator, MaxGor history and interleaving (for Sort: n up to about 10/11 of the largest int, see C41)", "why_tests_cant": "the inputs that make quicksort slow are a vanishing fraction of all inputs, and the count is over all schedules", "anchors": ["sortyLsw.go:Sort", "sortyLsw.go:IsSorted", "sortySlice.go:SortSlice", "sortySlice.go:IsSortedSlice", "sortyLen.go:SortLen", "sortyLen.go:IsSortedLen"]}
{"id": "C47", "title": "With one goroutine results are reproducible", "statement": "If MaxGor is at most 1, or the slice is too short for a second goroutine, SortSlice, SortLen and Sort are functions of the contents: two calls on slices with equal contents, anywhere in memory and whatever the rest of memory holds, leave equal contents, also where the order leaves a choice (elements of equal length, elements the comparator does not distinguish, zeros of either sign and NaNs) and also for a comparator that is no order, provided it answers equal questions equally. With more goroutines this fails: there are a slice of strings and tunings where SortLen leaves different arrangements with MaxGor 1 and 2.", "quantifier": "every input, pair of addresses and rest of memory; every repeatable comparator (for Sort: n up to about 10/11 of the largest int, see C41)", "why_tests_cant": "all inputs and memory layouts; a hidden dependence on addresses or stale memory would show on few of them", "anchors": ["sortySlice.go:SortSlice", "sortyLen.go:SortLen", "sortyLsw.go:Sort", "sorty.go:MaxGor"]}
{"id": "C48", "title": "Checking needs no exclusive access", "statement": "IsSortedSlice and IsSortedLen do nothing but load elements of the given slice, and IsSorted does nothing but ask the comparator about indices below n, never asking it to swap, so that they cannot race with other readers. Their result is the one for the contents of the slice, whatever other code does to the rest of memory during the call.", "quantifier": "every input and every sequence of changes to the rest of memory", "why_tests_cant": "interference depends on the schedule of unrelated code", "anchors": ["sortySlice.go:IsSortedSlice", "sortyLen.go:IsSortedLen", "sortyLsw.go:IsSorted"]}
{"id": "C49", "title": "Ranges are split at a median of well-spread samples", "statement": "The value at which SortSlice or SortLen splits a range is a median of n samples (at least half of them are at most it and at least half at least it): 8, 6 or 4 for integers and lengths, 7, 5 or 3 for floats, strings and byte slices, for ranges partitioned concurrently, long ranges and short ranges. The samples are equidistant and no other equidistant choice leaves a smaller maximal distance to the other elements. Choosing the value changes nothing in the slice. For Sort the element a range is split by is a median of 7, 5 or 3 such samples, and choosing it only rearranges the range.", "quantifier": "every range content and length from 2n on (below 2^32 for the four-sample pivot); for Sort every strict weak order", "why_tests_cant": "the pivot is not observable, and a worse one only makes the sort slower on some inputs", "anchors": ["sortyI8.go:pivotI8", "sortyI8.go:shortI8", "sortyF8.go:pivotF8", "sortyF8.go:shortF8", "sortyS.go:pivotS", "sortyLenS.go:pivotLenS", "sortyLsw.go:pivot", "sortyLsw.go:short", "sorty.go:minMaxSample", "sorty.go:minMaxFour"]}
{"id": "C50", "title": "A collection in order is left alone", "statement": "SortSlice, SortLen and Sort on a collection that is already in order store nothing (for Sort: never let lsw swap) at any time, so that every element stays where it is, also among equal ones (strings of equal length, zeros of either sign, NaNs, elements the comparator does not distinguish). In particular a second call after a first one changes nothing at all.", "quantifier": "every collection in order (constant ones included), every comparator that is a strict weak order, MaxGor history and interleaving (for Sort: n up to about 10/11 of the largest int, see C41)", "why_tests_cant": "all collections in order and schedules; a store that puts back an equal value is invisible to tests, but races with readers", "anchors": ["sortySlice.go:SortSlice", "sortyLen.go:SortLen", "sortyLsw.go:Sort", "sortyI8.go:partOneI8", "sortyLsw.go:partOne"]}
{"id": "C51", "title": "A collection in order takes n log n work", "statement": "On n elements that are already in order (constant collections included, the classical bad cases of quicksort), Sort calls lsw at most n(log2(n)+8) times, and SortSlice and SortLen load elements at most 2n(3 log2(n)+4) times, in total over all goroutines.", "quantifier": "every collection in order of any length, every comparator that is a strict weak order, MaxGor history and interleaving; for SortSlice and SortLen MaxLenRec below 2^32 (for Sort: n up to about 10/11 of the largest int, see C41)", "why_tests_cant": "a bound for all lengths and schedules; tests measure time on a few lengths", "anchors": ["sortySlice.go:SortSlice", "sortyLen.go:SortLen", "sortyLsw.go:Sort", "sorty.go:minMaxSample", "sorty.go:minMaxFour"]}
{"id": "C52", "title": "Long inputs are sorted by several goroutines", "statement": "If MaxGor stays at least 2 during a call, SortSlice and SortLen on at least 2(MaxLenRec+1) elements, and Sort on more than 2 MaxLenRecFC + 1 elements, start at least one goroutine that works for the call, in every execution that returns. For floats with NaNlarge or NaNsmall only elements that are no NaN count.", "quantifier": "every input of such a length, every comparator (even one that is no order), every MaxGor history that stays at least 2, and every interleaving (for Sort: n up to about 10/11 of the largest int, see C41)", "why_tests_cant": "falling back to one goroutine changes no result, only the time; and all schedules", "anchors": ["sortySlice.go:SortSlice", "sortyLen.go:SortLen", "sortyLsw.go:Sort", "sortyI8.go:sortI8", "sortyLsw.go:partCon", "sorty.go:MaxGor"]}
{"id": "C53", "title": "The width of int does not matter", "statement": "SortSlice, SortLen, Sort, IsSortedSlice, IsSortedLen, IsSorted and Search, with index arithmetic that wraps as int and uint of 32 or 64 bits do, behave as if it were exact: every execution has a counterpart on unbounded integers with the same element contents, goroutine counter and next actions of all goroutines, and conversely, so documented calls sort in finitely many steps without race, panic or stack overflow.", "quantifier": "every slice (its length is an int), collection of up to MaxInt-1 elements, comparator, MaxGor history, interleaving, and thresholds with 2(MaxLenRec+1) at most MaxInt", "why_tests_cant": "wrapping shows only on inputs near the limits of int, too large to test", "anchors": ["sorty.go:minMaxSample", "sortyI8.go:partTwoI8", "sortyI8.go:partConI8", "sortyI8.go:sortI8", "sortyLsw.go:Sort", "sortyLsw.go:partCon", "sorty.go:Search"]}
{"id": "C54", "title": "The goroutine counter is ready before it is used", "statement": "Every goroutine that uses a call's shared goroutine counter or its channel does so after the call created them, in the happens-before order of the Go memory model. The plain reads of the counter are not ordered with the atomic updates: there are executions in which one goroutine is about to read it while another is about to update it. All other guarantees hold whatever values these reads return.", "quantifier": "every input, comparator (even one that is no order), MaxGor history and interleaving (for Sort: n up to about 10/11 of the largest int, see C41)", "why_tests_cant": "the race detector skips these reads (go:norace), and all schedules", "anchors": ["sorty.go:syncVar", "sorty.go:gorFull", "sortyI8.go:sortI8", "sortyLsw.go:Sort"]}
{"id": "C55", "title": "Short collections are sorted stably", "statement": "SortLen on at most MaxLenIns strings or slices, SortSlice on at most MaxLenInsFC strings or byte slices, and Sort on at most MaxLenInsFC elements keep elements that compare equal in their original order. With the default settings and one element more none of the three is stable.", "quantifier": "every collection of at most that length, every strict weak order, MaxGor history", "why_tests_cant": "all inputs: instability shows only among elements that compare equal but can be told apart", "anchors": ["sortySlice.go:SortSlice", "sortyLen.go:SortLen", "sortyLsw.go:Sort", "sortyLsw.go:insertion", "sortyLenS.go:insertionLenS", "sortyS.go:insertionS"]}
{"id": "C56", "title": "Sort only swaps, so that an interrupted call loses nothing", "statement": "At any time during Sort at which no goroutine is in the middle of a swap, the collection is a permutation of the original and nothing else has changed. In particular, if lsw panics before swapping, and MaxGor is at most 1 or the collection is short, then the panic happens in the goroutine that called Sort, no other goroutine or channel exists, and a caller that recovers finds a permutation of the original.", "quantifier": "every collection, every comparator (even one that is no order) that never says an index is less than itself, MaxGor history, interleaving and moment of the panic (for Sort: n up to about 10/11 of the largest int, see C41)", "why_tests_cant": "all moments of all executions; tests see the collection after the return only", "anchors": ["sortyLsw.go:Sort", "sortyLsw.go:Lesswap", "sortyLsw.go:insertion", "sortyLsw.go:pivot", "sortyLsw.go:partOne", "sortyLsw.go:partTwo", "sortyLsw.go:partCon", "sortyLsw.go:long"]}
{"id": "C57", "title": "Lowering MaxGor takes effect during a call", "statement": "If MaxGor falls to 1 (or 0) during a call of SortSlice, SortLen or Sort and stays there, then from that moment on the call starts at most one goroutine more than it has unfinished goroutines at that moment (the caller finishes what it has decided on: a partition goroutine and a sorter; every other goroutine at most one sorter; goroutines started later none). This bound can be reached.", "quantifier": "every input, comparator (even one that is no order) that never says an index is less than itself, MaxGor history before, moment of the change, and interleaving, as long as the plain reads of the goroutine counter return its current value (see C54) (for Sort: n up to about 10/11 of the largest int, see C41)", "why_tests_cant": "all moments and schedules; a call that ignores the change still sorts", "anchors": ["sorty.go:MaxGor", "sorty.go:gorFull", "sortyI8.go:sortI8", "sortyI8.go:longI8", "sortyLsw.go:Sort", "sortyLsw.go:long"]}
{"id": "C58", "title": "Weakly ordered memory does not matter", "statement": "If loads of elements return not what was stored last but any value the Go memory model allows (anything at all in case of a data race), SortSlice, SortLen and Sort behave as before: each such execution has the same actions and leads to the same states of goroutines, counter and channel as one on ordinary memory, every load can return only what was stored last, and whatever the caller can load after the return is sorted and a permutation of the original.", "quantifier": "every documented input, comparator, MaxGor history, interleaving and choice of loaded values (for Sort: n up to about 10/11 of the largest int, see C41)", "why_tests_cant": "stale loads need weakly ordered hardware or compiler optimizations, and occur rarely even there", "anchors": ["sortySlice.go:SortSlice", "sortyLen.go:SortLen", "sortyLsw.go:Sort", "sorty.go:syncVar", "sortyI8.go:sortI8", "sortyI8.go:partConI8"]}
{"id": "C59", "title": "A panic of lsw recovered by the caller ends the call", "statement": "If lsw panics in the goroutine that called Sort and this goroutine recovers, the call is over: no goroutine started by it remains, and the collection, which is a permutation of the original, is not changed any more.", "quantifier": "every collection, comparator (even one that is no order) that never says an index is less than itself, MaxGor history, interleaving and moment of the panic (for Sort: n up to about 10/11 of the largest int, see C41)", "why_tests_cant": "all moments of all executions; what goroutines left behind do depends on the schedule", "anchors": ["sortyLsw.go:Sort", "sortyLsw.go:Lesswap", "sortyLsw.go:partCon", "sortyLsw.go:long"]}
{"id": "C60", "title": "The quadratic worst case of Sort is real", "statement": "Whatever pairwise different elements a collection holds, in whatever positions, there is a linear order of them for which a call of Sort with MaxGor at most 1 calls lsw at least (n*n - MaxLenRecFC*MaxLenRecFC)/12 times for n elements. So no arrangement of the elements protects against a comparator chosen by an adversary, and the bound of C46 cannot be improved to less than quadratic.", "quantifier": "every collection of pairwise different elements of any length (n up to about 10/11 of the largest int, see C41)", "why_tests_cant": "an unlucky order is never met by random tests: it has to be constructed against the code, for every length", "anchors": ["sortyLsw.go:Sort", "sortyLsw.go:long", "sortyLsw.go:pivot", "sortyLsw.go:partOne", "sorty.go:minMaxSample"]}
{"id": "C61", "title": "The quadratic worst case of SortSlice and SortLen is real", "statement": "Whatever pairwise different numbers (no NaNs), strings or byte slices a slice holds, they can be arranged so that a call of SortSlice with MaxGor at most 1 loads and stores elements at least (n*n - r*r)/12 times for n elements, where r is MaxLenRecFC for strings and byte slices and MaxLenRec otherwise. The same holds for SortLen and strings or slices of pairwise different lengths, r being MaxLenRec. So the bound of C46 cannot be improved to less than quadratic, and whoever chooses the order of the input can make a call slow.", "quantifier": "every collection of pairwise different elements of any length, every element type", "why_tests_cant": "an unlucky arrangement is never met by random tests: it has to be constructed against the code, for every length and every collection of values", "anchors": ["sortySlice.go:SortSlice", "sortyLen.go:SortLen", "sortyI8.go:longI8", "sortyI8.go:pivotI8", "sortyI8.go:partOneI8", "sortyF8.go:sortF8", "sorty.go:minMaxSample"]}
{"id": "C62", "title": "Sort is slow on collections of two kinds of elements", "statement": "Let lsw order by a boolean key (elements of one kind are less than those of the other, elements of the same kind are equal), and let d be the number of places where the collection has an element of the greater kind directly followed by one of the lesser kind. Every call of Sort with MaxGor at most 1 calls lsw at least d*d/7 - MaxLenInsFC*MaxLenInsFC/28 times; with any MaxGor, some execution does. So Sort takes quadratically many calls not only on inputs made by an adversary: elements in random order sorted by a boolean key have d near n/4.", "quantifier": "every collection of any length, every boolean key (n up to about 10/11 of the largest int, see C41), every execution", "why_tests_cant": "a lower bound for all inputs of this sort; benchmarks and tests sort elements with many different keys", "anchors": ["sortyLsw.go:Sort", "sortyLsw.go:long", "sortyLsw.go:short", "sortyLsw.go:pivot", "sortyLsw.go:partOne"]}
{"id": "C63", "title": "SortSlice and SortLen are fast on slices with few different keys", "statement": "If the elements of a slice of n elements have d different keys (equal numbers, strings, byte slices or lengths; NaNs count as one key), a call of SortSlice or SortLen loads and stores elements at most n*(6*d*(log2 n rounded up + 3) + MaxLenIns + 5) times, in all its goroutines together. So neither many equal elements nor an adversary who may choose from few keys only makes it slow, unlike Sort (see C62).", "quantifier": "every slice of any length and element type, every arrangement, every MaxGor, every execution and schedule", "why_tests_cant": "a bound for all arrangements of all slices under all schedules", "anchors": ["sortySlice.go:SortSlice", "sortyLen.go:SortLen", "sortyI8.go:longI8", "sortyI8.go:shortI8", "sortyI8.go:pivotI8", "sortyI8.go:partOneI8", "sortyI8.go:partTwoI8", "sortyI8.go:partConI8", "sortyF8.go:sortF8", "sortyLenS.go:partOneLenS"]}
{"id": "C64", "title": "SortSlice and SortLen are fast on descending slices", "statement": "Cut a strictly ascending sequence of n elements (no NaNs) into parts and reverse every part; one part gives a descending slice, parts of one element an ascending one. A call of SortSlice or SortLen with MaxGor at most 1 on such a slice, or with any MaxGor if the slice has at most 2r elements (r is MaxLenRecFC for SortSlice on strings and byte slices, MaxLenRec otherwise), loads and stores elements at most n*(32*(log2 n rounded up) + MaxLenIns + 5) times, if MaxLenRec is below 2^32.", "quantifier": "every such slice of any length and element type, every way to cut it, every execution", "why_tests_cant": "a bound for all lengths and all cuts; quicksorts are known to be slow on some inputs of this kind", "anchors": ["sortySlice.go:SortSlice", "sortyLen.go:SortLen", "sortyI8.go:longI8", "sortyI8.go:shortI8", "sortyI8.go:pivotI8", "sortyI8.go:partOneI8", "sorty.go:minMaxSample", "sorty.go:minMaxFour"]}
{"id": "C65", "title": "SortSlice takes n log n steps on average for floats, strings and byte slices", "statement": "Take n pairwise different elements of a float type, of type string or of type []byte (of floats, any number may be NaNs, equal or not, if NaNoption is NaNlarge or NaNsmall; with NaNignore none is one), and consider all n! orders in which a slice can hold them. The average over these orders of the number of loads and stores of elements by SortSlice is at most n*(10*(log2 n rounded up) + MaxLenIns + 27), with MaxGor at most 1, or with any MaxGor if n is at most 2r (r is MaxLenRecFC for strings and byte slices, MaxLenRec for floats). For any n and any MaxGor, whatever the schedules, the average number of loads and stores by all goroutines together is at most 10n*(10*(log2 n rounded up) + MaxLenIns + 24). So the quadratic inputs of C61 are rare.", "quantifier": "every set of elements of any size, all orders of it, every execution for each of them", "why_tests_cant": "an average over n! orders; samples of it only estimate it for one set of elements and one length", "anchors": ["sortySlice.go:SortSlice", "sortyF8.go:longF8", "sortyF8.go:shortF8", "sortyF8.go:pivotF8", "sortyF8.go:partOneF8", "sortyS.go:longS", "sortyB.go:longB", "sorty.go:minMaxSample"]}
{"id": "C66", "title": "Sort terminates and permutes even with a comparator that is not strict", "statement": "Whatever lsw's comparison answers, even that an index is less than itself (as with <=), Sort returns: no execution is infinite or gets stuck, lsw is never called with an index outside [0, n), nothing outside the collection is accessed or changed, all goroutines have finished on return, and the collection is then a permutation of the original. The data races that such a comparator causes with MaxGor above 1 (C42) are all between a comparison and a swap: no two goroutines are ever about to store to one element.", "quantifier": "every collection and comparator, consistent or not, every MaxGor history and interleaving (n up to about 10/11 of the largest int, see C41)", "why_tests_cant": "a comparator with <= instead of < is a common mistake; what it does depends on all answers and schedules, including those with races", "anchors": ["sortyLsw.go:Sort", "sortyLsw.go:Lesswap", "sortyLsw.go:partOne", "sortyLsw.go:partTwo", "sortyLsw.go:partCon", "sortyLsw.go:gPartOne"]}
{"id": "C67", "title": "While a sort runs, all but one element per goroutine are in the slice", "statement": "At any moment of a call of SortSlice, SortLen or Sort (with an lsw that follows the contract), every original element is in the slice, except for at most one for each goroutine that is working on the slice; the slice contains nothing but original elements; whenever no goroutine is about to access the slice it is a permutation of the original; and nothing outside it has changed. So whoever looks at the slice when the process is stopped in the middle of the call (a debugger, a core dump, another process that shares the memory) finds all elements but these few. The bound is attained. In particular a pointer in a []*T can for a moment be missing from the slice, while it is only in an integer variable of a goroutine, where a garbage collector does not see it.", "quantifier": "every slice of any length and element type (with NaNignore: without NaNs), every collection, every MaxGor history, every interleaving, every moment (for Sort: n up to about 10/11 of the largest int, see C41)", "why_tests_cant": "tests look at the slice after the call; the states in between cannot be enumerated, nor observed without stopping all goroutines", "anchors": ["sortySlice.go:SortSlice", "sortyLen.go:SortLen", "sortyLsw.go:Sort", "sortyI8.go:insertionI8", "sortyI8.go:partOneI8", "sortyI8.go:partTwoI8", "sortyI8.go:partConI8", "sortyU8.go:insertionU8", "sortyF8.go:sortF8", "sorty.go:extractSK"]}
{"id": "C68", "title": "Goroutines and synchronisation cost a constant per access", "statement": "Count every step of every goroutine of a call: loads and stores of elements, calls of lsw, reads of MaxGor and of the goroutine counter, atomic additions, go statements and channel communications. An execution of SortSlice or SortLen with k loads and stores has at most 9k + 2 steps, and so at most 9n(7n+5) + 2 for n elements; an execution of Sort with k calls of lsw has at most 17k + 4 steps, and so at most 17(n-1)(n+46)/2 + 4, whatever the comparator answers. So a call returns after at most that many steps, however its goroutines are scheduled.", "quantifier": "every input, comparator, MaxGor history and interleaving (for Sort: n up to about 10/11 of the largest int, see C41)", "why_tests_cant": "a bound for all executions, including those with the most goroutines; no hook counts synchronisation steps", "anchors": ["sortySlice.go:SortSlice", "sortyLen.go:SortLen", "sortyLsw.go:Sort", "sorty.go:gorFull", "sortyI8.go:longI8", "sortyI8.go:sortI8", "sortyI8.go:partConI8", "sortyI8.go:gLongI8", "sortyI8.go:gPartOneI8"]}
{"id": "C69", "title": "The r != s check of Lesswap matters to IsSorted only; the swap and the return value matter to Sort", "statement": "The documentation says of Lesswap that its strict comparator, r != s check, swap and returns are all necessary. Of the check this is not so for Sort: with an lsw that swaps r and s even if they are equal, and a strict weak order, Sort still returns, never races, never leaves the collection and leaves it sorted and a permutation of the original. The check is necessary for calling IsSorted concurrently: with it, any number of goroutines may do so on one collection without a race and without changing anything; without it, two goroutines can race. Without the swap, or without the return of true, Sort can return with elements out of order. (C42 is about the strict comparator.)", "quantifier": "for the check: every collection, strict weak order, MaxGor history and interleaving (n up to about 10/11 of the largest int, see C41), any number of goroutines in IsSorted; for the rest: existence", "why_tests_cant": "tests run the documented lsw; that an element swapped with itself never belongs to another goroutine is a statement about all schedules", "anchors": ["sortyLsw.go:Lesswap", "sortyLsw.go:Sort", "sortyLsw.go:IsSorted", "sortyLsw.go:partOne", "sortyLsw.go:partTwo", "sortyLsw.go:partCon"]}
{"id": "C70", "title": "Sort keeps parallel slices in step", "statement": "Let the collection consist of several slices of n elements each that do not overlap, such as keys and the values that belong to them: less compares keys, and swap swaps the elements of each slice, one slice after the other. Then Sort always returns, no goroutine panics, there is never a data race on any of the slices, nothing outside them is accessed or changed, and on return the keys are sorted and all slices have been rearranged by one and the same permutation of the indices: every value is still at the index of its key. All this but the order of the keys holds for any comparator that never says that an index is less than itself. All but the order of the keys and the absence of data races holds whatever the comparator answers: even then the slices stay in step. By the Go memory model, any two conflicting accesses are ordered by happens-before, and all accesses are visible to the caller on return.", "quantifier": "every number of slices, contents, strict weak order, MaxGor history and interleaving of element loads and stores of all slices (n up to about 10/11 of the largest int, see C41)", "why_tests_cant": "while the goroutines run, the slices are out of step in the middle of every swap; that no other goroutine ever sees this is a statement about all schedules", "anchors": ["sortyLsw.go:Lesswap", "sortyLsw.go:Sort", "sortyLsw.go:insertion", "sortyLsw.go:pivot", "sortyLsw.go:partOne", "sortyLsw.go:partTwo", "sortyLsw.go:partCon", "sortyLsw.go:short", "sortyLsw.go:long"]}
{"id": "C71", "title": "Calls of lsw by different goroutines behave as if they were made one at a time", "statement": "Whatever a concurrent SortSlice, SortLen or Sort can return, it can also return in an execution in which a goroutine that has begun to work on elements is never interrupted before its next go statement, action on its counter or channel, or its end; in particular in an execution in which no call of lsw is interrupted by another. And if two goroutines access one element and one of them stores to it, both of them synchronise with other goroutines between the two accesses: while a goroutine does not synchronise, no other one stores to an element it accesses or accesses an element it stores to. All this also holds of Sort for an lsw that swaps elements of several slices, one slice after the other. So an lsw that is correct when called sequentially needs no locks for the elements it compares and swaps.", "quantifier": "every n, contents, comparator that never says an index is less than itself, MaxGor history and interleaving (for Sort: n up to about 10/11 of the largest int, see C41)", "why_tests_cant": "tests run a few of the interleavings at the granularity of the machine; that all of them amount to coarse ones is a statement about all of them", "anchors": ["sortyLsw.go:Lesswap", "sortyLsw.go:Sort", "sortyLsw.go:partCon", "sortyLsw.go:long", "sortySlice.go:SortSlice", "sortyLen.go:SortLen", "sortyI8.go:gPartOneI8", "sortyI8.go:partConI8", "sortyI8.go:longI8"]}
