#!/usr/bin/env python3
"""Writes /verif/properties.jsonl. One entry per property: id, title, statement, quantifier, why_tests_cant, anchors."""
import json
P = []
def p(title, statement, quantifier, why, anchors):
    P.append(dict(id="C%02d" % (len(P) + 1), title=title, statement=statement, quantifier=quantifier,
                  why_tests_cant=why, anchors=anchors))

INTS = ["sortyI4.go", "sortyI8.go", "sortyU4.go", "sortyU8.go"]

p("SortSlice leaves integer slices ascending",
  "When SortSlice returns on a slice whose element type is int, int32, int64, uint, uint32, uint64, uintptr, *T or unsafe.Pointer, the slice is in ascending order of its (signed or unsigned) values.",
  "every slice length and content, every value MaxGor takes at each moment it is read, every interleaving of the goroutines the call creates",
  "tests sample random contents of one size and whatever schedules the runtime happens to pick",
  ["sortySlice.go:SortSlice", "sortyI8.go:sortI8", "sortyI4.go:sortI4", "sortyU8.go:sortU8", "sortyU4.go:sortU4"])
p("SortSlice permutes: nothing lost, duplicated or invented, nothing outside touched",
  "When SortSlice returns, the slice holds exactly the elements it held before, with the same multiplicities, bit for bit, and no memory cell outside the slice's [0,len) has been written.",
  "every supported element type, slice length, content, MaxGor history and interleaving",
  "a lost or duplicated element may need one particular content and schedule; random tests compare only sampled results",
  ["sortySlice.go:SortSlice", "sortyI8.go:insertionI8", "sortyI8.go:partOneI8", "sortyI8.go:partTwoI8", "sortyI8.go:partConI8"])
p("SortSlice orders strings and byte slices lexicographically",
  "When SortSlice returns on []string or [][]byte, the elements are in ascending bytewise lexicographic order, and are a permutation of the originals.",
  "every slice of strings / byte slices of any lengths, every MaxGor history and interleaving",
  "the test only sorts 12-byte bodies; prefixes, empty strings and unequal lengths are never exercised",
  ["sortyS.go:sortS", "sortyB.go:sortB", "sortySlice.go:SortSlice"])
p("Floats with NaNlarge: ascending numbers, then all NaNs",
  "With NaNoption = NaNlarge, after SortSlice on []float32 or []float64 there is a split point such that everything before it is a non-NaN in ascending order and everything after it is a NaN; the bit patterns are a permutation of the originals.",
  "every float slice (any NaN payloads, infinities, signed zeros, subnormals), every MaxGor history and interleaving",
  "tests sample bit patterns and cannot reach every placement and count of NaNs",
  ["sortyF8.go:sortF8", "sortyF4.go:sortF4", "sorty.go:NaNoption"])
p("Floats with NaNsmall: all NaNs, then ascending numbers",
  "With NaNoption = NaNsmall, after SortSlice on []float32 or []float64 there is a split point such that everything before it is a NaN and everything after it is a non-NaN in ascending order; the bit patterns are a permutation of the originals.",
  "every float slice, every MaxGor history and interleaving",
  "tests sample bit patterns and cannot reach every placement and count of NaNs",
  ["sortyF8.go:sortF8", "sortyF4.go:sortF4", "sorty.go:NaNoption"])
p("SortLen orders by length",
  "When SortLen returns on []string or [][]T, the lengths of the elements are in ascending order and the elements (string or slice headers) are a permutation of the originals.",
  "every slice of strings or slices, every MaxGor history and interleaving",
  "infinitely many length profiles and schedules",
  ["sortyLen.go:SortLen", "sortyLenS.go:sortLenS", "sortyLenB.go:sortLenB"])
p("Sort via lesswap sorts any strict weak order",
  "If lsw follows the documented contract for a strict weak order less, then when Sort(n, lsw) returns, for all i < j in [0,n) element j is not less than element i, and the collection is a permutation of the original.",
  "every n up to about 10/11 of the largest int (larger n: see C41), every collection, strict weak order, MaxGor history and interleaving",
  "the pivot is an index that concurrent phases may move (the source says the bug took days to find); only specific contents and schedules show it",
  ["sortyLsw.go:Sort", "sortyLsw.go:partCon", "sortyLsw.go:pivot", "sortyLsw.go:partOne", "sortyLsw.go:partTwo"])
p("Sort is safe for inconsistent comparators",
  "If lsw merely never reports an index less than itself, even when its answers are otherwise arbitrary or contradictory, Sort(n, lsw) still returns, calls lsw only with indices in [0,n), and leaves a permutation of the collection.",
  "every n up to about 10/11 of the largest int (larger n: see C41), every sequence of comparator answers, every MaxGor history and interleaving",
  "the set of misbehaving comparators is unbounded and a hang cannot be established by a finite test",
  ["sortyLsw.go:Sort", "sortyLsw.go:Lesswap", "sortyLsw.go:short", "sortyLsw.go:long"])
p("No data race inside SortSlice and SortLen",
  "At no point of any execution of SortSlice or SortLen are two of its goroutines about to access the same slice element with at least one of them writing, and in every execution any two accesses of an element, one of them a write, are ordered by happens-before as the Go memory model defines it.",
  "every slice, MaxGor history and reachable interleaving point",
  "the race detector only sees the schedules and contents that ran",
  ["sortyI8.go:partConI8", "sortyI8.go:longI8", "sortyI8.go:sortI8", "sortyS.go:sortS", "sortyF8.go:sortF8", "sortyLenS.go:sortLenS"])
p("Concurrent lesswap calls never conflict",
  "At no point of any execution of Sort(n, lsw) are two concurrent lsw calls about to access the same element with at least one of them swapping it, and any two accesses of an element, one of them a write, are ordered by the happens-before of the Go memory model, so the user's lsw needs no locking.",
  "every n up to about 10/11 of the largest int (larger n: see C41), every collection, irreflexive comparator, MaxGor history and reachable interleaving point",
  "needs every schedule; the shared pivot element is read by two goroutines while both swap other elements",
  ["sortyLsw.go:partCon", "sortyLsw.go:partOne", "sortyLsw.go:partTwo", "sortyLsw.go:long", "sortyLsw.go:Sort"])
p("Sort* never deadlock",
  "In every reachable state of a Sort* call that has not returned, at least one of its goroutines can take a step.",
  "every input, MaxGor history and interleaving",
  "a deadlock may need one rare order of counter updates and channel operations",
  ["sorty.go:syncVar", "sortyI8.go:gLongI8", "sortyI8.go:sortI8", "sortyLsw.go:gLong", "sortyLsw.go:Sort"])
p("Sort* always terminate",
  "There is no infinite execution of a Sort* call: every schedule reaches the return of the call after finitely many steps.",
  "every input (with NaNs only under NaNlarge/NaNsmall), MaxGor history and interleaving",
  "non-termination cannot be observed by a finite test; quicksort loops forever if a partition is ever empty",
  ["sortyI8.go:shortI8", "sortyI8.go:longI8", "sortyS.go:shortS", "sortyF8.go:shortF8", "sortyLsw.go:short", "sortyLsw.go:long"])
p("Return means everything is finished",
  "When a Sort* call returns, every goroutine it created has finished: none of them will read or write the collection or block on the channel again, so no goroutine leaks; and everything they did to the collection happens before the return in the sense of the Go memory model, so the caller sees it.",
  "every input, MaxGor history and interleaving",
  "a late writer or a leaked goroutine shows only under particular schedules",
  ["sorty.go:syncVar", "sortyI8.go:gLongI8", "sortyI8.go:sortI8", "sortyLsw.go:gLong"])
p("The shared channel never mixes partition results with the end signal",
  "A Sort* call uses one channel for both partition results and the end signal; every receive of a partition result gets the value sent by the partition goroutine of that very partition, and the final receive gets the end signal.",
  "every input, MaxGor history and interleaving",
  "a mix-up needs a goroutine to finish in a particular window",
  ["sortyI8.go:partConI8", "sortyI8.go:gPartOneI8", "sortyI8.go:gLongI8", "sortyLsw.go:partCon", "sortyLsw.go:gPartOne"])
p("MaxGor <= 1 means no goroutine and no channel",
  "If MaxGor reads as at most 1 throughout a Sort* call, the call creates no goroutine and no channel.",
  "every input and interleaving with the environment",
  "must hold for every input size and content",
  ["sorty.go:MaxGor", "sortyI8.go:sortI8", "sortyLsw.go:Sort"])
p("Short input means no goroutine and no channel",
  "If the input has fewer than 2*(MaxLenRec+1) elements (MaxLenRecFC for strings, byte slices and Sort), the call creates no goroutine and no channel, whatever MaxGor is.",
  "every input below the threshold, every MaxGor history",
  "must hold for every content and MaxGor history",
  ["maxc.go:MaxLenRec", "maxc.go:MaxLenRecFC", "sortyI8.go:sortI8", "sortyLsw.go:Sort"])
p("MaxGor bounds the goroutines used",
  "The documentation says MaxGor is the maximum number of goroutines (including the caller) concurrently used for sorting by one Sort* call: at no time do more than MaxGor goroutines of the call work.",
  "every input, every MaxGor value and interleaving",
  "the check and the increment are separate steps, so a violation needs a particular schedule",
  ["sorty.go:MaxGor", "sorty.go:gorFull", "sortyI8.go:longI8", "sortyI8.go:sortI8", "sortyI8.go:partConI8"])
p("MaxGor can be changed live",
  "If MaxGor changes arbitrarily during a Sort* call, including to 0 or to huge values, the call still returns with a sorted permutation, without deadlock, panic or race on elements.",
  "every sequence of values MaxGor takes at the moments it is read",
  "the moments of the reads and the values are unbounded",
  ["sorty.go:MaxGor", "sorty.go:gorFull"])
p("No panic, no out-of-range access",
  "On any input of a supported type, no Sort* or IsSorted* call panics: every index and every slice expression evaluated in it is in range.",
  "every input, MaxGor history and interleaving",
  "an out-of-range index may need one particular length and content",
  ["sortyI8.go:shortI8", "sortyI8.go:pivotI8", "sortyI8.go:partConI8", "sorty.go:minMaxSample", "sorty.go:minMaxFour"])
p("Recursion depth is logarithmic",
  "In every goroutine of a Sort* call the nesting depth of recursive sorting calls is at most log2(length) + 2, for every input including adversarial ones.",
  "every input, MaxGor history and interleaving",
  "adversarial quicksort inputs are not sampled by random tests",
  ["sortyI8.go:shortI8", "sortyI8.go:longI8", "sortyLsw.go:short", "sortyLsw.go:long"])
p("IsSortedSlice is exact for integers, strings and byte slices",
  "IsSortedSlice returns 0 exactly when the slice is ascending; otherwise it returns some i > 0 inside the slice with ar[i] < ar[i-1]. It changes nothing.",
  "every slice of a supported non-float type",
  "infinitely many slices",
  ["sortySlice.go:IsSortedSlice", "sortyI8.go:isSortedI8", "sortyS.go:isSortedS", "sortyB.go:isSortedB"])
p("IsSortedSlice is exact for floats under each NaNoption",
  "With NaNlarge (NaNsmall), IsSortedSlice on floats returns 0 exactly when all NaNs are at the end (start) and the rest is ascending. Whenever it returns i, i is 0 or a valid index with i > 0 and not (ar[i] >= ar[i-1]), that is ar[i] < ar[i-1] or one of the two is a NaN. With NaNignore it returns 0 exactly when every adjacent pair satisfies ar[i] >= ar[i-1].",
  "every float slice and NaNoption",
  "placements of NaNs are unbounded",
  ["sortyF8.go:isSortedF8", "sortyF4.go:isSortedF4"])
p("IsSortedLen is exact",
  "IsSortedLen returns 0 exactly when the element lengths are ascending; otherwise some i > 0 with len(ar[i]) < len(ar[i-1]). It changes nothing.",
  "every slice of strings or slices",
  "infinitely many slices",
  ["sortyLen.go:IsSortedLen", "sortyLenS.go:isSortedLenS", "sortyLenB.go:isSortedLenB"])
p("IsSorted via lesswap is exact",
  "For a lsw following the contract, IsSorted(n, lsw) returns 0 exactly when no adjacent pair has less(i, i-1) (for a strict weak order: exactly when the collection is sorted); otherwise some i in (0,n) with less(i, i-1). It never swaps.",
  "every n, collection and comparator",
  "infinitely many collections and comparators",
  ["sortyLsw.go:IsSorted"])
p("Sorting then checking reports sorted",
  "IsSortedSlice after SortSlice, IsSortedLen after SortLen and IsSorted after Sort return 0 (floats: under the same NaNlarge or NaNsmall option).",
  "every input, MaxGor history and interleaving",
  "this is what the repository's own tests sample",
  ["sortySlice.go:IsSortedSlice", "sortyLen.go:IsSortedLen", "sortyLsw.go:IsSorted"])
p("Search finds the boundary",
  "If fn(k) implies fn(k+1) on [0,n), Search(n, fn) returns the lowest k in [0,n) with fn(k), or n if there is none.",
  "every n >= 0 and every monotone predicate",
  "infinitely many predicates",
  ["sorty.go:Search"])
p("Search is safe for any callback",
  "For any fn, monotone or not, even with side effects, Search(n, fn) calls fn only with arguments in [0,n), never twice with the same one, at most floor(log2 n)+1 times, and returns a value in [0,n]; for n <= 0 it calls nothing and returns 0.",
  "every n and every callback behaviour",
  "infinitely many callbacks",
  ["sorty.go:Search"])
p("The result does not depend on schedule or MaxGor",
  "For integers, strings and byte slices (as byte contents), the slice SortSlice leaves is the same for every schedule and every MaxGor history, namely the unique ascending permutation of the input; for floats the numeric value at each position, and for SortLen the length at each position, does not depend on them. The same holds for Sort with an lsw that is a strict weak order, up to elements that it does not distinguish; if it distinguishes all different elements, the result of Sort is unique.",
  "every input and every pair of executions",
  "compares all pairs of executions",
  ["sortyI8.go:sortI8", "sortyS.go:sortS", "sortySlice.go:SortSlice", "sortyLsw.go:Sort"])
p("Exactly the documented types are accepted",
  "SortSlice and IsSortedSlice accept exactly []T with T of underlying kind int, int32, int64, uint, uint32, uint64, uintptr, float32, float64, string, pointer, unsafe.Pointer or []byte, and panic for anything else; SortLen and IsSortedLen accept exactly []string and [][]T and panic for anything else. Each accepted type is compared with the width and signedness of its own type, on 32-bit and 64-bit platforms.",
  "every Go type (reflect kind and element kinds) and both word sizes",
  "there are unboundedly many types; tests try a handful",
  ["sorty.go:extractSK", "sortySlice.go:SortSlice", "sortySlice.go:IsSortedSlice", "sortyLen.go:SortLen", "sortyLen.go:IsSortedLen"])
p("Pivot samples are equidistant, in range and optimally spread",
  "For n >= 2 samples from a range of slen >= 2n elements, the chosen positions first, first+step, ..., last lie in the range, step >= 2, tails differ by at most one, and no other equidistant choice of n positions has a smaller maximum distance from a non-selected position to its nearest selected one. No unsigned arithmetic in the computation wraps.",
  "every n >= 2 and slen >= 2n up to the machine word",
  "the test loops only up to slen = 1800 and n = 24",
  ["sorty.go:minMaxSample"])
p("The four-sample shortcut agrees with the general sampler",
  "For every 32-bit slen >= 8, the table-driven four-sample selection gives the same first and step as the general one, despite its wrap-around table entry.",
  "every slen in [8, 2^32)",
  "the test loops only up to 1800",
  ["sorty.go:minMaxFour", "sorty.go:firstFour", "sorty.go:stepFour"])
p("Sort with fewer than two elements does nothing",
  "Sort(n, lsw) with n < 2 returns without calling lsw, and IsSorted(n, lsw) with n < 2 returns 0 without calling lsw.",
  "every machine integer n < 2",
  "the test tries -3..1; the decrement of n wraps for the smallest int",
  ["sortyLsw.go:Sort", "sortyLsw.go:IsSorted"])
p("Sorting is idempotent",
  "Sorting a slice that is already ascending leaves it unchanged, and sorting twice equals sorting once: integers exactly, strings and byte slices as byte contents, floats as numeric values, SortLen as lengths. Moreover the second of two SortSlice, SortLen or Sort calls stores nothing at all (for Sort: never lets lsw swap).",
  "every input, MaxGor history and interleaving",
  "infinitely many inputs and schedules",
  ["sortySlice.go:SortSlice"])
p("Calls on disjoint data do not interfere",
  "A Sort* call is correct even if other goroutines concurrently do anything to memory outside its slice (for example other Sort* calls on disjoint slices), and it never writes there.",
  "every input, every interleaving with arbitrary outside writes",
  "tests run four sorts at a time under sampled schedules",
  ["sortyI8.go:sortI8", "sortyLsw.go:Sort", "sorty.go:syncVar"])
p("NaNignore is correct for NaN-free floats",
  "With NaNoption = NaNignore (or any other value of the option type), SortSlice on a float slice without NaNs leaves it an ascending permutation.",
  "every NaN-free float slice, MaxGor history and interleaving",
  "sorty is only tested with small/large options",
  ["sortyF8.go:sortF8", "sorty.go:NaNignore"])
p("NaNignore with NaNs may hang",
  "With NaNoption = NaNignore there is a float slice with NaNs on which SortSlice never returns (the documentation only says the result is undefined).",
  "existence of an input; for it, every number of steps",
  "a hang cannot be told from slowness by a test",
  ["sortyF8.go:shortF8", "sortyF8.go:partOneF8", "sorty.go:NaNoption"])
p("Every tuning accepted at start-up is safe",
  "For all values of MaxLenIns, MaxLenInsFC, MaxLenRec, MaxLenRecFC that pass the package's start-up check, all the sorting guarantees hold; the default values pass the check.",
  "every tuple of tuning values accepted by the check",
  "tuning tries a few values",
  ["sorty.go:init", "maxc.go:MaxLenIns", "maxv.go:MaxLenIns"])
p("Means of pivots never overflow",
  "The mean of two integers computed without widening lies between them for every pair of machine integers, signed or unsigned, 32 or 64 bit.",
  "every pair of machine integers",
  "2^128 pairs",
  ["sortyI8.go:pivotI8", "sortyI8.go:shortI8", "sorty.go:Search"])
p("Sort and SortSlice agree",
  "Sorting with Sort and the natural lesswap gives what SortSlice gives: the same slice for integers, the same contents in the same places for strings and byte slices, and for floats, with a lesswap that puts NaNs last and NaNlarge, the same numbers and NaNs in the same places.",
  "every input and every pair of executions",
  "compares all pairs of executions of two different programs",
  ["sortyLsw.go:Sort", "sortySlice.go:SortSlice"])
p("Floats are put in order of their numeric values",
  "The order SortSlice and IsSortedSlice use on float32 and float64 is the order of the numbers the bit patterns denote in IEEE 754 (binary32, binary64): negative and positive zero are equal, subnormals and infinities are in their places, and exactly the patterns with all exponent bits set and a non-zero fraction count as NaN.",
  "every pair of float32 and float64 bit patterns",
  "2^128 pairs of bit patterns",
  ["sortyF4.go:isSortedF4", "sortyF8.go:isSortedF8", "sortyF8.go:sortF8", "sortySlice.go:SortSlice"])
p("Sort accepts every length an int can hold",
  "For every collection length n representable as int, Sort(n, lsw) calls lsw only with indices in [0,n) and sorts.",
  "every n up to the largest int, on 32-bit and 64-bit platforms, every collection, MaxGor history and interleaving",
  "collections with that many elements cannot be built in a test",
  ["sortyLsw.go:Sort", "sortyLsw.go:pivot"])
p("A strict comparator is necessary",
  "The documentation calls a strict comparator necessary for Sort: with the non-strict comparator <= (which also answers true for equal elements) there are an execution of Sort in which two concurrent lsw calls conflict on an element, and an execution in a single goroutine that returns with the elements out of order.",
  "existence of a collection, comparator and interleaving",
  "the conflict needs a particular schedule",
  ["sortyLsw.go:Sort", "sortyLsw.go:Lesswap", "sortyLsw.go:partCon"])
p("At most one channel per call",
  "A Sort* call creates at most one channel (with its goroutine counter), in the calling goroutine and before it starts its first goroutine; a call that starts no goroutine need not create one.",
  "every input, MaxGor history and interleaving",
  "a second channel would appear only on particular sequences of partitions",
  ["sorty.go:syncVar", "sortyI8.go:sortI8", "sortyS.go:sortS", "sortyLsw.go:Sort"])
p("Few goroutines in total, each with a long range",
  "If a Sort* call starts goroutines at all, then over its whole execution it starts fewer than len/(MaxLenRec+1) that sort ranges, and each of them is given a range inside the slice with more than MaxLenRec elements (MaxLenRecFC for strings, byte slices and Sort).",
  "every input, MaxGor history and interleaving",
  "no hook counts goroutines or shows their ranges; the count depends on schedules",
  ["sortyI8.go:longI8", "sortyI8.go:sortI8", "sortyLsw.go:long", "sortyLsw.go:Sort", "sorty.go:MaxLenRec"])
p("Search locates elements of a sorted slice",
  "After SortSlice, Search with the callback 'element k is at least x' returns the number of elements of the original slice that are less than x, and x was in the original slice exactly if the element at that position now equals x. The same holds for lengths after SortLen, and for floats, where NaNs count as at least x under NaNlarge and as less than x under NaNsmall.",
  "every slice of a documented type, every x, MaxGor history and interleaving",
  "all slices and all values sought",
  ["sorty.go:Search", "sortySlice.go:SortSlice"])
p("Worst-case work is quadratic",
  "A call of Sort on n elements calls lsw at most (n-1)(n+46)/2 times, whatever the comparator answers; a call of SortSlice or SortLen loads and stores slice elements at most n(7n+5) times; IsSorted calls lsw at most n-1 times; IsSortedSlice and IsSortedLen load elements at most 2(n-1) times (3n for floats). The counts are totals over all goroutines.",
  "every input (adversarial ones included), comparator, MaxGor history and interleaving",
  "the inputs that make quicksort slow are a vanishing fraction of all inputs, and the count is over all schedules",
  ["sortyLsw.go:Sort", "sortyLsw.go:IsSorted", "sortySlice.go:SortSlice", "sortySlice.go:IsSortedSlice", "sortyLen.go:SortLen", "sortyLen.go:IsSortedLen"])
p("With one goroutine results are reproducible",
  "If MaxGor is at most 1, or the slice is too short for a second goroutine, SortSlice, SortLen and Sort are functions of the contents: two calls on slices with equal contents, anywhere in memory and whatever the rest of memory holds, leave equal contents, also where the order leaves a choice (elements of equal length, elements the comparator does not distinguish, zeros of either sign and NaNs) and also for a comparator that is no order, provided it answers equal questions equally. With more goroutines this fails: there are a slice of strings and tunings where SortLen leaves different arrangements with MaxGor 1 and 2.",
  "every input, pair of addresses and rest of memory; every repeatable comparator",
  "all inputs and memory layouts; a hidden dependence on addresses or stale memory would show on few of them",
  ["sortySlice.go:SortSlice", "sortyLen.go:SortLen", "sortyLsw.go:Sort", "sorty.go:MaxGor"])
p("Checking needs no exclusive access",
  "IsSortedSlice and IsSortedLen do nothing but load elements of the given slice, and IsSorted does nothing but ask the comparator about indices below n, never asking it to swap, so that they cannot race with other readers. Their result is the one for the contents of the slice, whatever other code does to the rest of memory during the call.",
  "every input and every sequence of changes to the rest of memory",
  "interference depends on the schedule of unrelated code",
  ["sortySlice.go:IsSortedSlice", "sortyLen.go:IsSortedLen", "sortyLsw.go:IsSorted"])
p("Ranges are split at a median of well-spread samples",
  "The value at which SortSlice or SortLen splits a range is a median of n samples (at least half of them are at most it and at least half at least it): 8, 6 or 4 for integers and lengths, 7, 5 or 3 for floats, strings and byte slices, for ranges partitioned concurrently, long ranges and short ranges. The samples are equidistant and no other equidistant choice leaves a smaller maximal distance to the other elements. Choosing the value changes nothing in the slice. For Sort the element a range is split by is a median of 7, 5 or 3 such samples, and choosing it only rearranges the range.",
  "every range content and length from 2n on (below 2^32 for the four-sample pivot); for Sort every strict weak order",
  "the pivot is not observable, and a worse one only makes the sort slower on some inputs",
  ["sortyI8.go:pivotI8", "sortyI8.go:shortI8", "sortyF8.go:pivotF8", "sortyF8.go:shortF8", "sortyS.go:pivotS", "sortyLenS.go:pivotLenS", "sortyLsw.go:pivot", "sortyLsw.go:short", "sorty.go:minMaxSample", "sorty.go:minMaxFour"])
p("A collection in order is left alone",
  "SortSlice, SortLen and Sort on a collection that is already in order store nothing (for Sort: never let lsw swap) at any time, so that every element stays where it is, also among equal ones (strings of equal length, zeros of either sign, NaNs, elements the comparator does not distinguish). In particular a second call after a first one changes nothing at all.",
  "every collection in order (constant ones included), every comparator that is a strict weak order, MaxGor history and interleaving",
  "all collections in order and schedules; a store that puts back an equal value is invisible to tests, but races with readers",
  ["sortySlice.go:SortSlice", "sortyLen.go:SortLen", "sortyLsw.go:Sort", "sortyI8.go:partOneI8", "sortyLsw.go:partOne"])
p("A collection in order takes n log n work",
  "On n elements that are already in order (constant collections included, the classical bad cases of quicksort), Sort calls lsw at most n(log2(n)+8) times, and SortSlice and SortLen load elements at most 2n(3 log2(n)+4) times, in total over all goroutines.",
  "every collection in order of any length, every comparator that is a strict weak order, MaxGor history and interleaving; for SortSlice and SortLen MaxLenRec below 2^32",
  "a bound for all lengths and schedules; tests measure time on a few lengths",
  ["sortySlice.go:SortSlice", "sortyLen.go:SortLen", "sortyLsw.go:Sort", "sorty.go:minMaxSample", "sorty.go:minMaxFour"])
p("Long inputs are sorted by several goroutines",
  "If MaxGor stays at least 2 during a call, SortSlice and SortLen on at least 2(MaxLenRec+1) elements, and Sort on more than 2 MaxLenRecFC + 1 elements, start at least one goroutine that works for the call, in every execution that returns. For floats with NaNlarge or NaNsmall only elements that are no NaN count.",
  "every input of such a length, every comparator (even one that is no order), every MaxGor history that stays at least 2, and every interleaving",
  "falling back to one goroutine changes no result, only the time; and all schedules",
  ["sortySlice.go:SortSlice", "sortyLen.go:SortLen", "sortyLsw.go:Sort", "sortyI8.go:sortI8", "sortyLsw.go:partCon", "sorty.go:MaxGor"])
p("The width of int does not matter",
  "SortSlice, SortLen, Sort, IsSortedSlice, IsSortedLen, IsSorted and Search, with index arithmetic that wraps as int and uint of 32 or 64 bits do, behave as if it were exact: every execution has a counterpart on unbounded integers with the same element contents, goroutine counter and next actions of all goroutines, and conversely, so documented calls sort in finitely many steps without race, panic or stack overflow.",
  "every slice (its length is an int), collection of up to MaxInt-1 elements, comparator, MaxGor history, interleaving, and thresholds with 2(MaxLenRec+1) at most MaxInt",
  "wrapping shows only on inputs near the limits of int, too large to test",
  ["sorty.go:minMaxSample", "sortyI8.go:partTwoI8", "sortyI8.go:partConI8", "sortyI8.go:sortI8", "sortyLsw.go:Sort", "sortyLsw.go:partCon", "sorty.go:Search"])
p("The goroutine counter is ready before it is used",
  "Every goroutine that uses a call's shared goroutine counter or its channel does so after the call created them, in the happens-before order of the Go memory model. The plain reads of the counter are not ordered with the atomic updates: there are executions in which one goroutine is about to read it while another is about to update it. All other guarantees hold whatever values these reads return.",
  "every input, comparator (even one that is no order), MaxGor history and interleaving",
  "the race detector skips these reads (go:norace), and all schedules",
  ["sorty.go:syncVar", "sorty.go:gorFull", "sortyI8.go:sortI8", "sortyLsw.go:Sort"])
p("Short collections are sorted stably",
  "SortLen on at most MaxLenIns strings or slices, SortSlice on at most MaxLenInsFC strings or byte slices, and Sort on at most MaxLenInsFC elements keep elements that compare equal in their original order. With the default settings and one element more none of the three is stable.",
  "every collection of at most that length, every strict weak order, MaxGor history",
  "all inputs: instability shows only among elements that compare equal but can be told apart",
  ["sortySlice.go:SortSlice", "sortyLen.go:SortLen", "sortyLsw.go:Sort", "sortyLsw.go:insertion", "sortyLenS.go:insertionLenS", "sortyS.go:insertionS"])
p("Sort only swaps, so that an interrupted call loses nothing",
  "At any time during Sort at which no goroutine is in the middle of a swap, the collection is a permutation of the original and nothing else has changed. In particular, if lsw panics before swapping, and MaxGor is at most 1 or the collection is short, then the panic happens in the goroutine that called Sort, no other goroutine or channel exists, and a caller that recovers finds a permutation of the original.",
  "every collection, every comparator (even one that is no order) that never says an index is less than itself, MaxGor history, interleaving and moment of the panic",
  "all moments of all executions; tests see the collection after the return only",
  ["sortyLsw.go:Sort", "sortyLsw.go:Lesswap", "sortyLsw.go:insertion", "sortyLsw.go:pivot", "sortyLsw.go:partOne", "sortyLsw.go:partTwo", "sortyLsw.go:partCon", "sortyLsw.go:long"])
p("Lowering MaxGor takes effect during a call",
  "If MaxGor falls to 1 (or 0) during a call of SortSlice, SortLen or Sort and stays there, then from that moment on the call starts at most one goroutine more than it has unfinished goroutines at that moment (the caller finishes what it has decided on: a partition goroutine and a sorter; every other goroutine at most one sorter; goroutines started later none). This bound can be reached.",
  "every input, comparator (even one that is no order) that never says an index is less than itself, MaxGor history before, moment of the change, and interleaving, as long as the plain reads of the goroutine counter return its current value (see C54)",
  "all moments and schedules; a call that ignores the change still sorts",
  ["sorty.go:MaxGor", "sorty.go:gorFull", "sortyI8.go:sortI8", "sortyI8.go:longI8", "sortyLsw.go:Sort", "sortyLsw.go:long"])
p("Weakly ordered memory does not matter",
  "If loads of elements return not what was stored last but any value the Go memory model allows (anything at all in case of a data race), SortSlice, SortLen and Sort behave as before: each such execution has the same actions and leads to the same states of goroutines, counter and channel as one on ordinary memory, every load can return only what was stored last, and whatever the caller can load after the return is sorted and a permutation of the original.",
  "every documented input, comparator, MaxGor history, interleaving and choice of loaded values",
  "stale loads need weakly ordered hardware or compiler optimizations, and occur rarely even there",
  ["sortySlice.go:SortSlice", "sortyLen.go:SortLen", "sortyLsw.go:Sort", "sorty.go:syncVar", "sortyI8.go:sortI8", "sortyI8.go:partConI8"])
p("A panic of lsw recovered by the caller ends the call",
  "If lsw panics in the goroutine that called Sort and this goroutine recovers, the call is over: no goroutine started by it remains, and the collection, which is a permutation of the original, is not changed any more.",
  "every collection, comparator (even one that is no order) that never says an index is less than itself, MaxGor history, interleaving and moment of the panic",
  "all moments of all executions; what goroutines left behind do depends on the schedule",
  ["sortyLsw.go:Sort", "sortyLsw.go:Lesswap", "sortyLsw.go:partCon", "sortyLsw.go:long"])
p("The quadratic worst case of Sort is real",
  "Whatever pairwise different elements a collection holds, in whatever positions, there is a linear order of them for which a call of Sort with MaxGor at most 1 calls lsw at least (n*n - MaxLenRecFC*MaxLenRecFC)/12 times for n elements. So no arrangement of the elements protects against a comparator chosen by an adversary, and the bound of C46 cannot be improved to less than quadratic.",
  "every collection of pairwise different elements of any length (n up to about 10/11 of the largest int, see C41)",
  "an unlucky order is never met by random tests: it has to be constructed against the code, for every length",
  ["sortyLsw.go:Sort", "sortyLsw.go:long", "sortyLsw.go:pivot", "sortyLsw.go:partOne", "sorty.go:minMaxSample"])
p("The quadratic worst case of SortSlice and SortLen is real",
  "Whatever pairwise different numbers (no NaNs), strings or byte slices a slice holds, they can be arranged so that a call of SortSlice with MaxGor at most 1 loads and stores elements at least (n*n - r*r)/12 times for n elements, where r is MaxLenRecFC for strings and byte slices and MaxLenRec otherwise. The same holds for SortLen and strings or slices of pairwise different lengths, r being MaxLenRec. So the bound of C46 cannot be improved to less than quadratic, and whoever chooses the order of the input can make a call slow.",
  "every collection of pairwise different elements of any length, every element type",
  "an unlucky arrangement is never met by random tests: it has to be constructed against the code, for every length and every collection of values",
  ["sortySlice.go:SortSlice", "sortyLen.go:SortLen", "sortyI8.go:longI8", "sortyI8.go:pivotI8", "sortyI8.go:partOneI8", "sortyF8.go:sortF8", "sorty.go:minMaxSample"])
p("Sort is slow on collections of two kinds of elements",
  "Let lsw order by a boolean key (elements of one kind are less than those of the other, elements of the same kind are equal), and let d be the number of places where the collection has an element of the greater kind directly followed by one of the lesser kind. Every call of Sort with MaxGor at most 1 calls lsw at least d*d/7 - MaxLenInsFC*MaxLenInsFC/28 times; with any MaxGor, some execution does. So Sort takes quadratically many calls not only on inputs made by an adversary: elements in random order sorted by a boolean key have d near n/4.",
  "every collection of any length, every boolean key (n up to about 10/11 of the largest int, see C41), every execution",
  "a lower bound for all inputs of this sort; benchmarks and tests sort elements with many different keys",
  ["sortyLsw.go:Sort", "sortyLsw.go:long", "sortyLsw.go:short", "sortyLsw.go:pivot", "sortyLsw.go:partOne"])
p("SortSlice and SortLen are fast on slices with few different keys",
  "If the elements of a slice of n elements have d different keys (equal numbers, strings, byte slices or lengths; NaNs count as one key), a call of SortSlice or SortLen loads and stores elements at most n*(6*d*(log2 n rounded up + 3) + MaxLenIns + 5) times, in all its goroutines together. So neither many equal elements nor an adversary who may choose from few keys only makes it slow, unlike Sort (see C62).",
  "every slice of any length and element type, every arrangement, every MaxGor, every execution and schedule",
  "a bound for all arrangements of all slices under all schedules",
  ["sortySlice.go:SortSlice", "sortyLen.go:SortLen", "sortyI8.go:longI8", "sortyI8.go:shortI8", "sortyI8.go:pivotI8", "sortyI8.go:partOneI8", "sortyI8.go:partTwoI8", "sortyI8.go:partConI8", "sortyF8.go:sortF8", "sortyLenS.go:partOneLenS"])
p("SortSlice and SortLen are fast on descending slices",
  "Cut a strictly ascending sequence of n elements (no NaNs) into parts and reverse every part; one part gives a descending slice, parts of one element an ascending one. A call of SortSlice or SortLen with MaxGor at most 1 on such a slice, or with any MaxGor if the slice has at most 2r elements (r is MaxLenRecFC for SortSlice on strings and byte slices, MaxLenRec otherwise), loads and stores elements at most n*(32*(log2 n rounded up) + MaxLenIns + 5) times, if MaxLenRec is below 2^32.",
  "every such slice of any length and element type, every way to cut it, every execution",
  "a bound for all lengths and all cuts; quicksorts are known to be slow on some inputs of this kind",
  ["sortySlice.go:SortSlice", "sortyLen.go:SortLen", "sortyI8.go:longI8", "sortyI8.go:shortI8", "sortyI8.go:pivotI8", "sortyI8.go:partOneI8", "sorty.go:minMaxSample", "sorty.go:minMaxFour"])
p("SortSlice takes n log n steps on average for floats, strings and byte slices",
  "Take n pairwise different elements of a float type, of type string or of type []byte (of floats, any number may be NaNs, equal or not, if NaNoption is NaNlarge or NaNsmall; with NaNignore none is one), and consider all n! orders in which a slice can hold them. The average over these orders of the number of loads and stores of elements by SortSlice is at most n*(10*(log2 n rounded up) + MaxLenIns + 27), with MaxGor at most 1, or with any MaxGor if n is at most 2r (r is MaxLenRecFC for strings and byte slices, MaxLenRec for floats). For any n and any MaxGor, whatever the schedules, the average number of loads and stores by all goroutines together is at most 10n*(10*(log2 n rounded up) + MaxLenIns + 24). So the quadratic inputs of C61 are rare.",
  "every set of elements of any size, all orders of it, every execution for each of them",
  "an average over n! orders; samples of it only estimate it for one set of elements and one length",
  ["sortySlice.go:SortSlice", "sortyF8.go:longF8", "sortyF8.go:shortF8", "sortyF8.go:pivotF8", "sortyF8.go:partOneF8", "sortyS.go:longS", "sortyB.go:longB", "sorty.go:minMaxSample"])
p("Sort terminates and permutes even with a comparator that is not strict",
  "Whatever lsw's comparison answers, even that an index is less than itself (as with <=), Sort returns: no execution is infinite or gets stuck, lsw is never called with an index outside [0, n), nothing outside the collection is accessed or changed, all goroutines have finished on return, and the collection is then a permutation of the original. The data races that such a comparator causes with MaxGor above 1 (C42) are all between a comparison and a swap: no two goroutines are ever about to store to one element.",
  "every collection and comparator, consistent or not, every MaxGor history and interleaving (n up to about 10/11 of the largest int, see C41)",
  "a comparator with <= instead of < is a common mistake; what it does depends on all answers and schedules, including those with races",
  ["sortyLsw.go:Sort", "sortyLsw.go:Lesswap", "sortyLsw.go:partOne", "sortyLsw.go:partTwo", "sortyLsw.go:partCon", "sortyLsw.go:gPartOne"])
p("While a sort runs, all but one element per goroutine are in the slice",
  "At any moment of a call of SortSlice, SortLen or Sort (with an lsw that follows the contract), every original element is in the slice, except for at most one for each goroutine that is working on the slice; the slice contains nothing but original elements; whenever no goroutine is about to access the slice it is a permutation of the original; and nothing outside it has changed. So whoever looks at the slice when the process is stopped in the middle of the call (a debugger, a core dump, another process that shares the memory) finds all elements but these few. The bound is attained. In particular a pointer in a []*T can for a moment be missing from the slice, while it is only in an integer variable of a goroutine, where a garbage collector does not see it.",
  "every slice of any length and element type (with NaNignore: without NaNs), every collection, every MaxGor history, every interleaving, every moment",
  "tests look at the slice after the call; the states in between cannot be enumerated, nor observed without stopping all goroutines",
  ["sortySlice.go:SortSlice", "sortyLen.go:SortLen", "sortyLsw.go:Sort", "sortyI8.go:insertionI8", "sortyI8.go:partOneI8", "sortyI8.go:partTwoI8", "sortyI8.go:partConI8", "sortyU8.go:insertionU8", "sortyF8.go:sortF8", "sorty.go:extractSK"])
p("Goroutines and synchronisation cost a constant per access",
  "Count every step of every goroutine of a call: loads and stores of elements, calls of lsw, reads of MaxGor and of the goroutine counter, atomic additions, go statements and channel communications. An execution of SortSlice or SortLen with k loads and stores has at most 9k + 2 steps, and so at most 9n(7n+5) + 2 for n elements; an execution of Sort with k calls of lsw has at most 17k + 4 steps, and so at most 17(n-1)(n+46)/2 + 4, whatever the comparator answers. So a call returns after at most that many steps, however its goroutines are scheduled.",
  "every input, comparator, MaxGor history and interleaving",
  "a bound for all executions, including those with the most goroutines; no hook counts synchronisation steps",
  ["sortySlice.go:SortSlice", "sortyLen.go:SortLen", "sortyLsw.go:Sort", "sorty.go:gorFull", "sortyI8.go:longI8", "sortyI8.go:sortI8", "sortyI8.go:partConI8", "sortyI8.go:gLongI8", "sortyI8.go:gPartOneI8"])
p("The r != s check of Lesswap matters to IsSorted only; the swap and the return value matter to Sort",
  "The documentation says of Lesswap that its strict comparator, r != s check, swap and returns are all necessary. Of the check this is not so for Sort: with an lsw that swaps r and s even if they are equal, and a strict weak order, Sort still returns, never races, never leaves the collection and leaves it sorted and a permutation of the original. The check is necessary for calling IsSorted concurrently: with it, any number of goroutines may do so on one collection without a race and without changing anything; without it, two goroutines can race. Without the swap, or without the return of true, Sort can return with elements out of order. (C42 is about the strict comparator.)",
  "for the check: every collection, strict weak order, MaxGor history and interleaving (n up to about 10/11 of the largest int, see C41), any number of goroutines in IsSorted; for the rest: existence",
  "tests run the documented lsw; that an element swapped with itself never belongs to another goroutine is a statement about all schedules",
  ["sortyLsw.go:Lesswap", "sortyLsw.go:Sort", "sortyLsw.go:IsSorted", "sortyLsw.go:partOne", "sortyLsw.go:partTwo", "sortyLsw.go:partCon"])
p("Sort keeps parallel slices in step",
  "Let the collection consist of several slices of n elements each that do not overlap, such as keys and the values that belong to them: less compares keys, and swap swaps the elements of each slice, one slice after the other. Then Sort always returns, no goroutine panics, there is never a data race on any of the slices, nothing outside them is accessed or changed, and on return the keys are sorted and all slices have been rearranged by one and the same permutation of the indices: every value is still at the index of its key. All this but the order of the keys holds for any comparator that never says that an index is less than itself. All but the order of the keys and the absence of data races holds whatever the comparator answers: even then the slices stay in step. By the Go memory model, any two conflicting accesses are ordered by happens-before, and all accesses are visible to the caller on return.",
  "every number of slices, contents, strict weak order, MaxGor history and interleaving of element loads and stores of all slices (n up to about 10/11 of the largest int, see C41)",
  "while the goroutines run, the slices are out of step in the middle of every swap; that no other goroutine ever sees this is a statement about all schedules",
  ["sortyLsw.go:Lesswap", "sortyLsw.go:Sort", "sortyLsw.go:insertion", "sortyLsw.go:pivot", "sortyLsw.go:partOne", "sortyLsw.go:partTwo", "sortyLsw.go:partCon", "sortyLsw.go:short", "sortyLsw.go:long"])
p("Calls of lsw by different goroutines behave as if they were made one at a time",
  "Whatever a concurrent SortSlice, SortLen or Sort can return, it can also return in an execution in which a goroutine that has begun to work on elements is never interrupted before its next go statement, action on its counter or channel, or its end; in particular in an execution in which no call of lsw is interrupted by another. And if two goroutines access one element and one of them stores to it, both of them synchronise with other goroutines between the two accesses: while a goroutine does not synchronise, no other one stores to an element it accesses or accesses an element it stores to. All this also holds of Sort for an lsw that swaps elements of several slices, one slice after the other. So an lsw that is correct when called sequentially needs no locks for the elements it compares and swaps.",
  "every n, contents, comparator that never says an index is less than itself, MaxGor history and interleaving",
  "tests run a few of the interleavings at the granularity of the machine; that all of them amount to coarse ones is a statement about all of them",
  ["sortyLsw.go:Lesswap", "sortyLsw.go:Sort", "sortyLsw.go:partCon", "sortyLsw.go:long", "sortySlice.go:SortSlice", "sortyLen.go:SortLen", "sortyI8.go:gPartOneI8", "sortyI8.go:partConI8", "sortyI8.go:longI8"])
for x in P:
    if x["id"] in "C71 C68 C67 C59 C58 C57 C56 C54 C52 C51 C50 C47 C46 C44 C43 C11 C12 C13 C14 C15 C16 C17 C18 C19 C20 C25 C34 C39".split():
        x["quantifier"] += " (for Sort: n up to about 10/11 of the largest int, see C41)"
open("/verif/properties.jsonl", "w").write("".join(json.dumps(x, ensure_ascii=False) + "\n" for x in P))
print(len(P))
