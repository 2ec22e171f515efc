# Formal model of jfcg/sorty in Lean 4: design

## 1. Shape of the model

All sorting code is modelled as programs of a small free monad `Prog V Sp α` (`Verif/Prog.lean`):
shared-memory `read`/`write` of one element, comparator call `less`, read of the global `MaxGor`,
read / atomic increment / atomic decrement of `syncVar.nGor`, creation of the `syncVar`
(counter 1 and unbuffered channel), `go`, channel `send`/`recv`, `panic`, `overflow`
(recursion budget exhausted) and `diverge` (loop budget exhausted).

* Memory is a map from addresses to elements. A Go slice is `(off, len)`; indexing and slicing are
  bounds-checked and panic as in Go. Several slices alias the same memory.
* `goto` code is a step function on labels, iterated by one fuelled `loop` combinator; running out of
  fuel is the explicit outcome `diverge`, and the theorems show that it is never reached. The recursive
  functions (`short*`, `long*`, `sort*`) take a length budget `f` (out of budget = `diverge`) and a stack
  budget `d` (one unit per nested recursive call; out of budget = `overflow`), so that "never diverges" is
  termination and "never overflows if log2 len + 2 <= d" (`DepthFor`) is the logarithmic stack bound.
* A configuration (`Cfg`) is memory + counter + channel-created flag + list of goroutines (number 0 is the
  caller). `Step` is the interleaving small-step relation: any goroutine may do its next single access; an
  unbuffered send and receive happen together; every read of `MaxGor` may return any value up to a
  bound `M` (theorems hold for every `M`, so `MaxGor` may change at any time); with `stale` the plain read of
  the counter in `gorFull` may return anything at all. `EStep` lets the rest of the program change memory
  outside the slice at any time. `Trace` (`SemHB.lean`) records executions as sequences of actions; `HB` is the
  happens-before order of the Go memory model on them and `GoRace` its data race. `Weak` (`SemWeak.lean`) are executions on
  weakly ordered memory.
* The ten type-specific files are copies of one text up to type names, `key(x)` (x, len(x), BtoS(x)), the
  thresholds, and two kinds of pivot selection. They are one generic definition over a `Fam` record (element type,
  key, `<`, `<=`, thresholds, mean or median pivot), instantiated ten times (`fam`). `tools/families.py` checks this
  reading against /repo: after removing comments and renaming it prints, per function, the classes of equal texts
  (two for `pivot` and `short`: mean or median; `isSorted` and `sort` differ for floats, and are modelled apart).
  `sortyLsw.go` is modelled separately (index-based, calling the user's function).

## 2. Proof method

`wp` (weakest precondition, defined by recursion on programs, `Logic/WP.lean`) with ghost state: owned cells `W`, shared
read-only cells `R`, promises `P` made by forked sorters, the outstanding partition goroutine `J`, counter token `T`,
spawn permission `S`, size credit. One invariant `Inv` over configurations (pairwise disjoint footprints, each
thread satisfies its `wp`, counter = running sorters + tokens, channel protocol) is shown to hold initially and
to be preserved by every `Step` and `EStep` (`Logic/Pres.lean`, `Comm.lean`, `Safe.lean`). Safety, race freedom, deadlock
freedom, result correctness, goroutine bounds are read off from `Inv`. A second invariant `HI` (`Logic/HB.lean`) relates the
owned cells to the recording: whoever owns a cell has every earlier access to it behind it in happens-before.
Termination (`Logic/Term.lean`): multiset order on (rank, program tree). Each function of the code gets a `wp`
specification proved with loop invariants (`Proofs/*.lean`).

Specifications that the property theorems mention are in `Spec.lean`, `SpecLsw.lean`, `SpecFloat.lean`, `Sem.lean`, `SemHB.lean`, `SemCost.lean`, `SemLen.lean`, `SemHigh.lean`;
the property theorems, named after the property, with an instance beside each, in `Props/*.lean`.

## 3. Per property

| Property | Model | Proof |
|---|---|---|
| C01 C02 C03 C06 | `sortV` for the families I4 I8 U4 U8 S B LenS LenB | `Inv` at return + list view of memory: sorted, permutation, outside unchanged |
| C04 C05 C35 | `sortOf` (NaN moves, then `sortV`), IEEE-754 bit patterns with comparison defined on them | same, plus loop invariants of the NaN moves |
| C07 C08 | `SortLsw`, comparator answers constrained by a relation: strict weak order (C07) or irreflexive only (C08, C10) | same invariant; order facts conditional on strict weak order |
| C09 C10 | all, `Trace` | disjointness part of `Inv` (no two conflicting accesses enabled); `HI` (no data race by happens-before) |
| C11 | all | case analysis on `Inv` |
| C12 | all | multiset order; `diverge` unreachable |
| C13 | all, `Trace` | phase part of `Inv`; `HI` at the return |
| C14 | all | phase part of `Inv` |
| C15 C16 C43 | all, `Trace` | `Inv`: creating the syncVar needs MaxGor > 1 and a long input, and happens once |
| C45 | Search, SortSlice, SortLen | C26 with C01, C02, C03, C06, C40 |
| C46 | metered executions (`SemCost.lean`) | credits: every goroutine holds enough to pay for its own work and for what it starts (`Logic/Cost.lean`); the split of a range of n leaves n1+n2 = n, and the quadratic bound pays for the partition |
| C47 | SortSlice, SortLen, Sort on two memories | relational simulation (`Logic/Det.lean`): both runs take the same branches, with addresses shifted; for more goroutines two concrete executions that differ (kernel evaluation) |
| C48 | IsSortedSlice, IsSortedLen, IsSorted while memory changes | every effect is a load inside the slice or a comparator question, so that `watch` on changing memory equals `observe` |
| C49 | `pivot` and `shortPivot` of each family, run on any memory | `SpecMedian`: `picks`, `Half`, `WellSpread`; insertion sort of the samples gives a sorted permutation (`PivMid`), so the middle one (or mean of the middle two) has half of the samples on each side; four-sample network by cases; spread from C30; for Sort `MovesMedian`: sorting the samples in place permutes only their positions (`LPivMid`) |
| C50 C51 | calls on input in order, with a meter charging loads, stores and comparator calls | a meter that knows the memory: every load yields the initial value, so that comparisons of later with earlier elements are decided; no branch that stores is reachable (a store is charged more than the whole budget); partitions are balanced because pivots of sorted ranges are central, giving the n log n budget (`ValQuiet`, `LswQuiet`) |
| C52 | executions in which every read of MaxGor yields at least 2 (`SemHigh.lean`) | a program logic for a goroutine running alone (`mgw`): it cannot reach its end, since the concurrent partition or the goroutine for a half must have been started first (`Logic/High.lean`, `Proofs/Parallel.lean`); such executions exist (`exists_high_return`) |
| C53 | every function again with index arithmetic on `int`/`uint` words (`Model/Mach.lean`) | `Twin` (`Logic/Twin.lean`): the two programs do the same effects as long as no operation wraps; bounds of every index are invariants (`Proofs/Mach.lean`, `Proofs/MachLsw.lean`); related configurations step alike |
| C54 | all, `HB` order of traces | `Born` invariant: each goroutine using the counter or channel is a descendant of, or is, the caller after `mkSync` (`Logic/Counter.lean`); the race by a replayed execution (`CounterRace`); that values read do not matter is part of every theorem with `stale` (`Step` may return any count) |
| C55 | short calls, which are a single insertion sort | each step of the insertion sort exchanges neighbours that are not both of one class, so that the sub-list of the class stays (`Proofs/Stable.lean`); one element beyond the limit: three executions replayed by the kernel |
| C56 | Sort, all reachable states | every function of Sort is a program whose stores are those of swaps (`SwapsIn`, structural); invariant `Arr`: completing the swaps in progress gives a permutation; that swaps in progress do not overlap follows from C10 in the states to come (`Logic/Swaps.lean`) |
| C57 | all, `Steps` with a lower bound on later reads of MaxGor | every program is shown structurally to start at most one (the caller: two) goroutines before it next sees that the quota is full (`Calm`, `Alw`); the sum of these numbers over the unfinished goroutines bounds what is started (`StartBudget`); who reads the counter is counted, from `Inv` (`Logic/Calm.lean`); witness that the bound is reached |
| C58 | all, `Weak` | a load may return what any store left that happens before it and is not overwritten in between, and anything at all if there is a race; by induction on the execution the actions so far are those of an ordinary one, which has no race (C09, C10), so that the stores to an address are ordered and only the last can be seen; at return by C13 (`Logic/Weak.lean`) |
| C59 | `SortLsw`, the caller's program replaced by `ret ()` while it asks the comparator | by C56 there is no other goroutine for MaxGor at most 1 or short collections; otherwise false: concrete execution (kernel evaluation), but whatever the others do without the caller they also do while the caller is not scheduled, so C08, C10, C12, C56 apply (`Logic/Left.lean`) |
| C60 | metered executions of `SortLsw` | adversary: samples of a round become the least elements, the order of the others is chosen later (`Logic/Adv.lean`: a run is determined by the answers on the pairs it asks about; `Proofs/Killer.lean`: a round asks only about pairs with a sample, costs as much as its range is long and splits off at most 6 elements) |
| C61 | metered executions of `SortSlice` and `SortLen` | the same adversary, but it chooses the arrangement: elements are named, the pivot and the partition of a round depend only on the names of the ranks up to the middle sample (`Logic/Touch.lean`: the same code on names and on elements; `Proofs/ValKiller.lean`: a round loads its whole range and splits off at most 6 elements), so that the ranks of the other names are chosen later; NaN handling finds nothing to do (`Proofs/ValSlow.lean`) |
| C62 | metered executions of `SortLsw` | with two kinds of elements a partition swaps nothing (it swaps only elements on different sides of the pivot in order) and one part is of one kind, so the other part has all the places where the kinds decrease, except for at most 7 that pivot selection removes by moving samples; each round costs as much as its range is long (`Proofs/TwoValued.lean`) |
| C63 | metered executions of `SortSlice` and `SortLen` | a partition exchanges elements equal to the pivot (`lt` is strict on both sides), so they end up evenly divided between the parts (`Proofs/Balance.lean`: invariant on the numbers of such elements on both sides), and so does concurrent partitioning, up to two elements (`Proofs/Balance2.lean`: outer parts and gaps). The potential, the sum over the keys of about log2 of the number of occurrences in the range, falls in both parts of a round, so each element takes part in at most d(log2 n + 3) rounds (`Proofs/FewKeys.lean`). `Logic/KCost.lean` is a credit logic for executions in which the credit of a goroutine depends on the contents of what it owns and a partitioner hands over what it promised; `Proofs/FewCon.lean` applies it to the concurrent sort |
| C64 | metered executions of `SortSlice` and `SortLen` that start no goroutine | ascending sequences of descending runs are closed under partitioning by a pivot: an exchange swaps the ends of a run, which become runs of their own (`Lay.swap`, `lay_partOne`). Equidistant samples of such a sequence bound how unequal the parts are: a median of them has at least n/12 elements on each side (`Lay.mids`), so that log2(n^8) falls in both parts (`Proofs/LayeredRun.lean`). With concurrent partitioning the gap closing breaks the runs, so the claim is for one goroutine |
| C65 | metered executions of `SortSlice`, one for each order of the elements: those that start no goroutine, and all | partitioning treats elements on the same side of the pivot alike: run on names of addresses instead of elements, it does the same for all memories with the same sides (`Logic/Within.lean`, `Proofs/Names.lean`). So among the memories with the same sides all orders of the free elements of a part (those not known to be its least or greatest) occur equally often, before and after partitioning: `Exch`, kept by `Exch.part`. For such a set of memories a median of three or five samples leaves on average at least (3n-16)/20 elements on the smaller side (`Exch.fair`, a counting argument), and n·log₂ n falls by at least twice that number (`xlog_split`, convexity). `avg_round`, `avg_short`, `avg_long`. With goroutines the cost is bounded by a function of the memory, `lcost` for a range sorted by `long` or `short`, `ucost` for one sorted by the concurrent loop, in which after each partition the longer part may go either way: the credits of goroutines are these functions of the memory at their start (`Proofs/AverageCon.lean`). Concurrent partitioning too depends only on the sides (`Proofs/ConNames.lean`), and its median of seven leaves at least (2n-11)/14 on the smaller side (`Exch.fair7`), so that the costs of all the longer parts together are on average within a constant factor of the first (`Proofs/AverageCost.lean`). NaNs: moving them away treats all other elements alike, so that permuting these beforehand permutes them in the same way afterwards, and all their orders occur equally often (`num_sum` in `Proofs/ValAverageNaN.lean`). For integers and lengths the pivot is a mean of two samples, so that the order within the parts is not independent of it: no claim |
| C66 | `SortLsw`, any `cmp` | as C08, with other contracts (`lspecG ... true`): the goroutine that partitions the middle half owns all of it, the pivot included, because a comparator that is not strict may make it move the pivot. The caller compares with that pivot without owning it: the addresses `Spec.racy` may be read by anyone, and the logic then knows nothing of the value read. Indices stay in range whatever the answers are (`Proofs/LswAny.lean`, `Proofs/LswCon.lean`); all elements have the same rank, so nothing is said about the order; `C66_sort_unrestricted_machine` is the same for the machine-word model, through C53. From the same contracts `Props/AnyCmp.lean` proves, for a comparator that may answer anything, the parts of C11-C17, C20, C43, C44, C46, C54, C57 and C68 that concern Sort (guarantees about goroutines, the channel and the amount of work) |
| C67 | all reachable states of SortSlice, SortLen and Sort | a goroutine has at most one hole: an address whose element is only in a local variable (between the two stores of a swap; in insertion sort from the first shift to the store of `val`). `Prog.Hw` describes such programs, run alone on a given memory: a store puts an element of another address into the hole, which thereby moves there, or closes the hole. Invariant `Holes`: filling all holes gives a permutation of the original. That goroutines' holes differ and are not disturbed by the others follows from C09 and C10 in the states to come (`Logic/Held.lean`); the functions are such programs (`Proofs/Held.lean`). The bound is attained: concrete execution |
| C68 | executions with their number of steps (`SemLen.lean`) | every goroutine holds a budget of steps that are not accesses (for Sort: not comparisons); an access sets it to 8 (a comparison to 16), a `go` statement gives some of it to the new goroutine (`Logic/Gap.lean`); every round of every loop that synchronises selects a pivot, which accesses the slice (`Proofs/Gap.lean`). The totals follow with C46 |
| C69 | the `lsw` parameter of Sort and IsSorted is a parameter of the model (`Lesswap`, `Model/Lsw.lean`); variants without the check, the swap or the return (`Model/LswVariants.lean`) | the correctness proof of Sort is for every `lsw` that meets `Lesswap.OK` (`Proofs/LswBase.lean`); an index that is swapped with itself belongs to the goroutine because a strict comparator rules out the pivot; IsSorted only loads; concrete executions for the rest |
| C70 | an `lsw` whose collection consists of several slices, with a separate load or store for each element of each slice (`Model/LswCols.lean`) | simulation (`Logic/Rows.lean`, `Proofs/LswCols.lean`): every execution on the slices is one on a single slice of rows, in which the store to one slice is the load and the store of a row; the program on rows meets `Lesswap.OK`, so C69's results for any such `lsw` carry over; the simulation does not need that there is no race, so with the contracts of C66 the same holds for a comparator that may answer anything, but for races and order (`Props/ColumnsAny.lean`) |
| C71 | executions by turns (`SemTurn.lean`): a goroutine runs without interruption up to its next action that is not an element load or store, a comparison or a read of `MaxGor` | reduction (`Logic/Turn.lean`): without races such an action commutes with every action of another goroutine, so, by induction on the length of the execution, it can be moved to the front; from `C09`/`C10` by the Go memory model, a chain of happens-before edges between two goroutines leaves one and enters the other through actions that are not accesses; for parallel slices from C70 (`Props/TurnCols.lean`) |
| C44 | all, `LSteps` | `Inv` with a credit per goroutine: len/(MaxLenRec+1) for its range, split at each start of a sorter |
| C17 | all | the documented bound is false (check and increment are not atomic; partition goroutine is not counted): witness execution; proved bound 2*(MaxGor-1), which is MaxGor for MaxGor = 2. For every MaxGor >= 2, constant during the call, and long slices of equal elements of any type an execution that reaches the bound is constructed (Logic/Eval: runs without a store, Logic/Crowd: all goroutines pass the test of the quota before any starts another, Proofs/Flat, FlatFam, LswFlat: equal elements are halved) |
| C18 | all | `Step` lets every MaxGor read return anything |
| C19 C20 | all | `panic` and `overflow` unreachable |
| C21 C22 C23 C24 C25 | `isSorted*`, `IsSorted` | sequential `wp` with empty write footprint, reverse-scan invariant |
| C26 C27 | `Search` with stateful callback and call trace | loop invariant, log bound |
| C28 C33 C39 | corollaries | uniqueness of the sorted permutation, for Sort of the permutation of the classes of elements that the strict weak order does not distinguish; that a second call stores nothing (C33) follows from C50 |
| C29 | `extractSK` and the dispatch switches on a model of reflect kinds | case analysis over all kinds |
| C30 C31 | `minMaxSample` on machine words and on naturals, `minMaxFour` on 32-bit words | arithmetic |
| C32 | `SortLsw`, `IsSorted` entry with wrapping decrement | direct; false for the smallest int (witness) |
| C34 | `EStep` | `Inv` is stable under outside writes |
| C36 | `sortOf` with NaNignore | NaN pivot gives an empty partition: every budget is exhausted |
| C37 | thresholds are arbitrary subject to the start-up check, as computed on machine ints | theorems quantify over them; false for huge `MaxLenRec` (witness) |
| C38 | `x&y + (x^y)>>1` on machine words | bit arithmetic |
| C40 | `flt`, `fle`, `fnan` on bit patterns | against the IEEE value of a pattern as a rational or infinity |
| C41 | `lswPivot` with wrapping `h += step` | false near the largest int (witness); all Sort theorems assume `FitsInt` |
| C42 | `SortLsw` with comparator `<=` | concrete executions |

## 4. What the code does not do (violations proved)

* C17: more goroutines than MaxGor can run at once (`C17_MaxGor_bound_violated`, `C17_sort_MaxGor_bound_violated`), for every MaxGor from 3 on (`C17_bound_is_reached`, `C17_len_bound_is_reached`, `C17_sort_bound_is_reached`).
  The proved bound is in the `_partial` theorems.
* C32: `Sort(n, lsw)` and `IsSorted(n, lsw)` with n the smallest int: `n--` wraps (`C32_smallest_int_violated`).
* C36: NaNignore and NaNs: SortSlice need not return (the documentation leaves this case open).
* C37: with the build tag `tuneparam` the thresholds are variables. `MaxLenRec` from a quarter of the range of `uint` on passes
  the start-up check, but `2*(MaxLenRec+1)` wraps to a number that is not positive and SortSlice on an empty slice panics
  (`C37_huge_tuning_violated`). Below that limit every accepted tuning works (`C37_every_accepted_tuning_partial`).
* C41: n near the largest int: `h += step` in `pivot` wraps and lsw is called with indices out of range
  (`C41_sort_near_largest_int_violated`). `C41_sort_too_long_violated`: with one goroutine every length above about 10/11 of 2^63
  panics whatever the data, with any MaxGor every length above about 14/15. `C41_sort_length_partial`: up to 10/11 (less 8) it sorts.
* C59: if lsw panics in the caller of a concurrent Sort and the caller recovers, goroutines of the call go on swapping elements, and
  one can wait forever to send its result (`C59_recovered_panic_violated`). The documentation does not mention panics of lsw.
* C62: Sort takes quadratically many calls of lsw on ordinary collections whose elements have two different keys, e.g. in random order (`C62_sort_two_kinds_quadratic`).
  `partOne` skips elements equal to the pivot instead of exchanging them. The documentation promises no bound.
* C67: SortSlice on a slice of pointers reads them as integers (`extractSK` and the casts in sortySlice.go), so at times a pointer is only in an
  integer variable (`C67_pointer_out_of_slice`). A garbage collector that runs then need not see it; if there is no other reference to the
  object, it may be freed. The collector itself is not modelled.
* C69: the documentation calls the r != s check of Lesswap necessary. Sort does not need it (`C69_check_not_needed`); only concurrent calls of IsSorted do.
* Search(n, fn) with n < 0 returns 0 without calling fn.

## 5. Trusted base

* Lean 4.33.0 kernel. Axioms of every property theorem: at most `propext`, `Classical.choice`, `Quot.sound`
  (`tools/axioms.py` prints them for each theorem in MANIFEST.json). No axioms of our own, no `sorry`, no
  `native_decide`, no `bv_decide`. Concrete executions use `decide +kernel`, evaluated by the kernel.
* Reading of the Go source into the model (each definition cites file and lines; `tools/cites.py -v` prints them side by side).
* Go semantics: sequentially consistent interleaving of single accesses. This is no assumption about the elements: C58 shows
  that executions in which loads return whatever the Go memory model allows (`Weak`, `SemWeak.lean`) are the same. It is one about
  the atomic counter and the channel, for which the memory model guarantees it. Beside the elements there are two racy
  plain reads: `MaxGor` and `sv.nGor` in `gorFull` (`go:norace`). In the model the former returns any value up to M; the latter
  any value at all if `stale` holds, so nothing that is proved for `stale = True` depends on what they return.
* Happens-before edges used: program order, `go` statement before its goroutine, atomic additions in their
  order, send before the completion of its receive and receive before the completion of its send (unbuffered).
  `ch <- v`/`<-ch` is one joint action.
* `sixb` (external, source not available here): `MeanI(x,y)` = floor((x+y)/2) on indices; `MeanI4/I8/U4/U8` return
  a value between their arguments (theorems quantify over any such function); `BtoS` views bytes as a string.
* Go runtime: scheduling, memory allocation, goroutine and channel implementation, `reflect`, `unsafe` casts.

## 6. Modelled and not modelled

Modelled, all branches: `sorty.go` (`MaxGor`, `syncVar`, `gorFull`, `minMaxSample`, `minMaxFour`, `Search`, `init` checks),
`maxc.go`/`maxv.go` (thresholds as parameters), the ten family files, `sortyLen.go`, `sortySlice.go`, `sortyLsw.go`.

Two models: in `Model/Val.lean` and `Model/Lsw.lean` index arithmetic is exact (unbounded integers), except that `n--` and
`h += step` of Sort wrap. In `Model/Mach.lean` all index arithmetic is that of `int` and `uint` words. C53 shows that they have
the same executions if `2*(MaxLenRec+1)` is an `int`, so the other theorems, which are about the first model, hold of the
second with such thresholds (the default 600 is one).

Not modelled:
* `cap` of slices beyond `len`; signalling-NaN quieting on moves; timing; `go:nosplit`;
  the unwinding of a panic of a user function (C56 is about the state it finds; C59 lets the caller stop there); the tests and `tune_test.go`.
* The user's `lsw` is a parameter of the model. Unless another one is mentioned it is the documented one: read elements i and k,
  compare, and if less and r != s swap r and s (C69 and C70 are about others). The model
  executes it as separate accesses, so concurrent calls interleave in the middle.
