# Design of the formal model of alexander-yu/stream

This document was written before the proofs and is kept up to date.  Section 1 is the trusted base,
section 2 describes the model, section 3 gives one entry per property of `properties.jsonl`,
section 4 lists disagreements between the code and the properties found on the way.

## 1. Trusted base

* Lean 4.33.0's kernel and the three standard axioms `propext`, `Classical.choice`, `Quot.sound`
  (Mathlib needs them). No other axiom, no `sorry`, no `native_decide`/`bv_decide`.
  `lean/Verif/Audit.lean` runs `#print axioms` on every property theorem.
* The reading of the Go code into Lean. Every definition cites file and lines. The code is not run here.
  `lean/Verif/Conform.lean` replays the numeric vectors of the repository's own unit tests against the model
  (tests of the model's fidelity, not proofs of properties).
* Assumed behaviour of code that is not in /repo (no network, no module cache):
  * `workiva/go-datastructures queue.RingBuffer`: a bounded FIFO; `Len` is the number of held items; `Get` on
    an empty and `Put` on a full buffer block; after `Dispose` both return an error. A blocked call is an explicit
    outcome (`Go.hang`) in the model and is proved unreachable wherever the property needs it.
  * `gammazero/deque`: a double-ended list; reading or popping an empty deque panics (explicit outcome).
  * `container/heap` of the Go standard library: transcribed (`up`, `down`, `Push`, `Pop`, `Remove`, `Fix`).
  * `hashicorp/go-multierror`: `Append` collects the non-nil errors; `ErrorOrNil` is nil iff none.
  * `math/rand`: an arbitrary oracle (every outcome is quantified over); uniformity is assumed only in C55 and C88.
  * `sync.RWMutex`: readers share, writers exclude, a waiting writer blocks new readers (documented Go behaviour).
* Numbers. float64 values are modelled twice:
  * order-only code (trees, skip list, heaps, min/max) is generic in a type with Boolean `<`, `<=`, `==`;
    theorems instantiate it with an arbitrary linear order (float64 without NaN, with -0 = +0), counterexamples
    about NaN instantiate it with a type having an unordered element;
  * arithmetic code is generic in its number type; theorems are over an arbitrary field (ordered field, or the reals
    where `math.Sqrt` occurs), i.e. **rounding is not modelled there**. Results of divisions whose divisor may be zero use
    an extended type with NaN and infinities, so no theorem relies on Lean's `x / 0 = 0`;
  * the moment core is modelled a second time over an arbitrary arithmetic (`MomentFP`), proved equal to the first at exact arithmetic. C64–C69
    are about this model: any operations whatever, rational arithmetic with rounding after each operation (`Rounding` is IEEE binary64 with
    gradual underflow, proved monotone, idempotent and accurate), and IEEE arithmetic with overflow, infinities and NaN. Assumed: no fused
    multiply-add (Go on amd64), unsigned zeros (no divisor in core.go is zero), `math.Pow` arbitrary except where a theorem says otherwise.
* Go `int` is unbounded `Int`, except where overflow is the subject (`util/math`, `Tuple.hash`), where 64-bit
  wrap-around is modelled.
* Panics, blocking and error returns are explicit values.
* Not modelled: the formatting of `float64` inside strings (a parameter), wrapping layers of error texts beyond the message, the text of JSON
  printed by `examples/` (which entries it has is modelled), the test helper `ContainsError`, garbage collection, memory consumption, floating-point rounding outside packages `moment`, `joint`, `quantile` and `util/test`.

## 2. Model

`lean/Verif/Base.lean` – the outcome type `Go` (`val`/`panic`/`hang`), float comparison class, extended numbers, ring buffer, deque.

`lean/Verif/Model/*.lean` – what is modelled, with the Go files it covers:

| module | code |
|---|---|
| `Avl`, `Rb` | `quantile/ost/avl`, `quantile/ost/rb` (node.go, tree.go) |
| `SkipList` | `quantile/skiplist/skiplist.go` (store of nodes, levels, widths; random level an oracle) |
| `Strings` | `TreeString`/`String` of the three order statistics |
| `Heap`, `HeapMedian` | `quantile/heap`, `quantile/heap_median.go`, `container/heap` |
| `Quantile` | `quantile/{quantile,median,iqr,impl,interpolation,option}.go`, `skiplist/option.go` |
| `OptionAlias` | the `append` to the caller's options in `NewMedian`/`NewIQR` (slices of shared arrays) |
| `MinMax` | `minmax/{max,min}.go` |
| `MathUtil`, `Factorials`, `JointFactorials` | `util/math/math.go` (sequential with 64-bit wrap-around; the shared slice with interleavings, used by both cores) |
| `Moment`, `MomentMetric`, `XF` | `moment/*.go` (core, config, all metrics; extended numbers for results) |
| `MomentFP`, `JointFP`, `AutoFP`, `EwValue`, `Rounding` | `moment/core.go`, `joint/core.go`, `joint/autocov.go`, `joint/autocorr.go` over an arbitrary arithmetic; IEEE rounding |
| `Tuple`, `Joint`, `JointMetric`, `JointAlias` | `joint/*.go` (tuples, config, core, metrics, Autocov/Autocorr; caller-owned slices) |
| `ConfigAlias` | configurations of both packages by reference: the pointers a core keeps, the shared default map |
| `Sample` | `sample/sample.go` |
| `Aggregate` | `aggregate/*.go` (goroutines as interleavings, results keyed by name) |
| `Names` | every `String()` of a metric |
| `Cost`, `CoreCost`, `SkipCost` | the trees, heaps, `Quantile`, `HeapMedian`, the two cores and the skip list with a step counter |
| `GoRand` | `Float64` of math/rand as a function of the 63-bit integer it draws |
| `Locks`, `LockedMetrics`, `LockedStatements` | `sync.RWMutex` machine; lock discipline of every public method; critical sections split into statements |
| `Approx` | `util/test/approx.go` in binary64 |
| `Examples` | `examples/*/main.go` (number of pushes a parameter; printing fails iff a value is not finite) |

`lean/Verif/Spec/*.lean` – small independent specifications (bag, window, median, quantile, central sums, exponential weights, linearizability,
strings). `lean/Verif/Proofs/*.lean` – lemmas. `lean/Verif/Props/*.lean` – the property theorems, each with a non-vacuity example.
`lean/Verif/Conform.lean` – the vectors of the project's own tests evaluated in the model. `lean/Verif/Audit.lean` – axioms of every theorem
(each depends on a subset of `propext`, `Classical.choice`, `Quot.sound`). `seeded/LOG.jsonl` – wrong programs tried against the theorems. `theorems_failed` lists the theorems
that no longer check after the edit. This includes theorems that stay true and only lose their proof; `claim_broken` says which claim is judged false.

## 3. Properties: model and proof method

* C01–C05 (AVL): functional trees with the stored `height`/`size` fields, operations in the outcome monad
  (nil dereference = `panic`). Invariant: in-order list sorted, stored fields right, balanced. Induction over operations;
  refinement to a multiset.
* C06–C09 (red-black): same, with the LLRB invariant. The root colour is never reset by the code: proved via
  commutation of all operations with toggling the root colour. `remove` recurses with fuel (number of nodes + 1); running out of
  fuel would be `hang` and is proved impossible.
* C10: corollary of the two refinements.
* C11–C13 (skip list): nodes with levels and widths as in the code, level generator an oracle. Refinement of the level lists;
  `equals` compares values, so widths are wrong with duplicates: C12 is refuted with a concrete history and proved for histories in
  which an added value is never already present (`_partial`).
* C14–C18: `Quantile` generic in a lawful order statistic; refinement to "sorted last-w list" plus a spec of the five
  interpolations over an ordered field.
* C17: `Value` with an arbitrary monotone rounding.
* C19: IEEE comparison model, expected to be refuted.
* C20: fold over options.
* C21–C24: pointer-level model of items/heaps/queue with `container/heap`. C22 and C23 are expected to fail
  (queue receives the item moved by `rebalance`; empty low heap for w = 1): refutations plus `_partial` theorems.
* C25–C29: monotone deque invariant. C29 refuted with NaN.
* C30–C35: field identities (binomial theorem) and window induction.
* C36: state equality after Clear (up to fields that are never read).
* C37–C39, C52: decision logic stated outright.
* C40–C41: 64-bit integer model; exact for n <= 20, refuted at 21; panic witness.
* C42–C44: multivariate binomial identities; C43 refuted for overlapping tuples, proved when overlaps carry at most exponent 1
  in total (`_partial`), which covers Cov, Corr and the autocorrelations. That is the exact condition (`C43_exact`); the sums of order two of
  any other configuration are computed (`C43_order_two`, `Proofs/JointLow.lean`).
* C45–C46: corollaries plus Cauchy–Schwarz.
* C47–C51: lists/arithmetic. C49 true for length <= 12, refuted by pigeonhole beyond; C50, C51 expected partial.
* C53: store-passing model of slices; refuted with a witness, proved when the caller does not write.
* C54–C55: oracle model; uniformity by counting oracles.
* C56–C57: goroutine interleavings as permutations/merges of per-metric steps.
* C58: decimal printing is injective; refuted for Median/IQR (implementation not printed).
* C59–C61: step machines with mutexes. C59: every method of a core or metric is one critical section (lock discipline read off the code), hence
  linearizable and serializable; readers never write (`Quiet`), no method blocks (`NoHang`). C60: progress for the methods that take one lock;
  refuted for the metrics that take the read lock twice. C61: shared factorial table, refuted by interleavings for both cores, proved
  for goroutines with cores of both packages below the table's length.
* C70: the lock proofs generalised to methods of several sections (`Sect`, `Section`): a later section may start in any state of a stable set in
  which the method would have had the same result. Without `Clear` that set is "at least one pair".
* C62: assignments to `Size` between pushes; refuted.
* C64–C69: one induction over histories (`Track`: what the numbers satisfy after the pushes `xs` and after making room) instantiated six times.
  C66–C68 are refuted for windowed cores with concrete binary64 runs (C68: for all histories), proved without eviction.
* C71: `Value` of the quantile metrics for an arbitrary arithmetic (`value_gen`), then rounded arithmetic: doubling is exact, rounding is
  monotone, so midpoints stay between their ends; `Linear` is refuted and bounded.
* C72: the joint core over an arbitrary arithmetic (`JointFP`), proved equal to `Joint` at exact arithmetic; the same `Track` induction.
* C73: the state reached after a history is given in closed form as a function of the history, tuple by tuple (`mst`, `gst`), over an
  arbitrary arithmetic; the other tracked powers do not occur in it.
* C74: the closed forms of C73 for the tuples of order one and two, compared with those of a moment core (`sum_sq`, `sum_mixed`); the
  contributions of the other variables are products with exact ones and zeros (`PowOK`, `Rounding`).
* C75: from C74; a correctly rounded square root is specified without real numbers (`SqrtOf`), `sqrt_sq64` shows that it recovers `s` from the
  rounded `s*s`; the refutations evaluate the model at exact binary64 numbers. Range: the three sums are made of the same computed deviations
  and coefficients, so Cauchy-Schwarz holds between them up to the rounding of sums and products; induction over the points with the exact sums
  as ghost values (`corr_cauchy`), no error analysis of the means needed.
* C76: `Track` induction with the invariant "means are the point, all entries of both maps are zero"; no condition on hashes needed.
* C77: from C66, C67 and C69 through C74. C78: `Track` induction; a NaN delta makes every tuple that involves the variable NaN.
* C79: configurations, maps, slices and numbers in a memory; the pointer-free model is the reference, and the refinement is an induction over
  histories of several cores and configurations.
* C80: slices as windows into arrays; list lemmas.
* C81: an action of a monoid of units that every operation respects (`Graded`); moment cores through the closed form of C73, joint cores by
  simulating the code step by step (so overlapping tuples are covered). Instances: negation for binary64 with infinities and NaN, powers of two
  for a rounding with unbounded exponents.
* C82, C83: error analysis of the update rules: an error bound for the mean (C69) bounds the error of each added or removed term, and the
  exact recurrence of the central sums is the induction step. Joint sums through the closed form of C73/C74. With a window
  (`Proofs/LinearDrift.lean`) the errors of the means would make the error of the sum grow with the square of the number of pushes. But what a push
  does to S + n·m₁·m₂, with the sum S and the means m₁, m₂ as computed, does not depend on the errors of the means: up to the rounding errors of this
  push, the product of the pair is added or subtracted (`total_add`, `total_remove`). So these errors add up, and the bound is linear.
* C63: induction over trees; the skip list is refuted (negative width), proved for histories without duplicates.
* C84: `Value` looks at a container only through its size and `Select`, which the container invariants determine from the multiset; otherwise
  from the specifications, which are functions of the multiset.
* C85: the invariants of the windowed metrics carry the sizes; for NaN, inductions over streams of NaN.
* C86: each method of the trees and heaps is written once more with a counter (`Model/Cost.lean`; `_out` theorems show equal results); upper
  bounds from the balance invariants, the lower bound for red-black from the left spine of the tree (`SpineTo`).
* C87: the same for the two cores (`Model/CoreCost.lean`); the loops over tuples are bounded by induction over `iter`.
* C88: the same for the skip list (`Model/SkipCost.lean`). The order of the nodes is shown not to depend on the draws (`shadow`), the steps are an
  exact function of the heights along the search path (`stairs`), and its average over all draws (`Spec/Average.lean`) is computed by induction
  over the path, backwards from the target.
* C89: the windowed and the global instance run in lock step; they differ only in the queue, which never refuses (`agree_fits`, `Wide`).
  Autocov and Autocorr: through their pairs (C106).
* C90: the only source of errors besides the checks at the start of `Push` is a disposed queue, and no reachable queue is (`step_open`).
* C91: from the exactness theorems (C18, C21, C25, C26, C34) to inequalities on lists, each by summing a polynomial that is not negative at every deviation (`poly_nonneg`), with Samuelson's inequality for the bounds on the deviations.
* C92: the shape of the trees (heights / sizes) and of the heaps (index tables) is preserved by every operation for arbitrary, even inconsistent, comparison functions; so no step panics. Red-black removal with a window: the colour invariants do not depend on the order, and the search path survives the rotations, if the value removed is equal to at most one stored value. Refutations: explicit streams, with cycles of states for the 'for ever' parts.
* C93: `Near u a a' B e` (error at most e·u·B) is propagated through each operation of the update rules; one lemma (`step_high`) covers both `add` and `addDecay`: the error of order k after a push is at most g·(error before) plus c(k) units, where c(k) is defined by the recursion over the lower orders. Induction over the stream by the same invariant-tracking theorem as C69 and C82.
* C94: the invariant of the rounded run (C69, C82, C93) is carried along by the IEEE run: the state is the embedding of a rational state which satisfies the accuracy bounds, these bound every intermediate result of the next step (`AddFits`, `DecayFits`, `sq_fits`), hence no operation overflows and the IEEE step is the embedding of the rounded step.
* C95: the state after each push is given in closed form (`sawMean`, `sawMid`) and proved by `Track`; the roundings on the way are exact or ties between neighbours, computed by `rnd64_binade`. The stream without window uses monotonicity of rounding only.
* C96: before the first deviating value the mean is exactly the first value, so the first deviation is computed with a relative error only, and from then on the sum never decreases because rounding is monotone (`Proofs/ZeroVar.lean`). For IEEE arithmetic the simulation of C94 carries over whatever holds for the rounded core.
* C97: the errors of the moments come from C93; the factor (n - 1)/n, the square, the root and the quotients add a few roundings each (`Proofs/Ratios.lean`). The exact central moments of orders 3 and 4 are at most 2M and 4M² times the variance, so the ratios themselves are bounded by multiples of κ and κ². Roots and the power 1.5 are real-valued, any rational functions near them will do.
* C98: errors of the sums from C82 (through C74) and C83, Cauchy–Schwarz for the exact sums, the root and the quotient as in C97 (`corr_final`).
* C99: the loops of the programs by induction over metrics and data (`finish_table`, `finish_inv`), the single metrics from C34, C26, C25, C15, C45, C46 and, for `HeapMedian` with window 3 on increasing data, an invariant of its own (`Cycle` in `Proofs/HeapIncreasing`); closed forms by power sums.
* C100: the queue entries followed through `Push` (`I.grow`, `I.evict` refine the invariant of C22); two shapes of the heaps that no further push with a greater value leaves (`StuckTwo`, `StuckFive`).
* C101: parametricity. A map that preserves `<`, `<=` and `==` commutes with every operation of the trees, the skip list, the heaps and the metrics (`OrdMap`, `Go.image`, `GoR`); `Max` and `Min` from C25 and C26.
* C102: `XF.fin` preserves the comparisons, so the theorems behind C101 apply; the operations of `Value` are bounded by twice the larger neighbour, which is a binary64 number below 2^1024 (`ieee_mid`, `ieee_lin`, `ieee_sub`). For `HeapMedian` the run is lifted to the subtype of fitting numbers.
* C103: the error of the weighted covariance satisfies `E' ≤ (1 - d)·E + 200·u·M₁·M₂` per push (`ew_pair_step`), so it never exceeds `200·(u/d)·M₁·M₂` (`pairS_ew_err`); the variances come from C93 through the columns (C74), and the quotient as in C98.
* C104: every weighted sum `∑ wᵢ f(xᵢ)` over two pasts and the same continuation differs by exactly `(1 - d)^n` times the difference before (`ewTotal_diff`); central moments and covariances move the centre by the same factor. `EWMCorr` by `corr_final` without rounding. The rounded versions combine this with C69, C93 and C103.
* C105: as for C94, the IEEE run is the embedding of the rounded run (`gst_fin`): the products over the entries of a tuple of order two have at most two factors that are not 1, so the invariant (all means at most M, the sum bounded) bounds every intermediate result of the next step; the invariant itself is what C76, C82, C83, C93 and C103 prove for every prefix of the data. With a window (`Proofs/JointWindowFin.lean`, `Props/JointWindowIEEE.lean`) a push may first remove a point, and `gst_fin_window` bounds the intermediate results of the removal, too; the means are then at most 2·M.
* C106: the invariant of C46 with, instead of the statement about exact sums, that the core is the one a new core becomes by the pairs pushed so far; `Clear` gives the new core back by C78. The accuracy, the absence of overflow, the effect of negation and of NaN are then C83, C98, C105, C81 and C78 for the stream of pairs.
* C107: by C94 and C105 the sums of the IEEE core are the embeddings of those of the rounded core, so the last steps of the proofs of C97, C98 and C103 apply to them (`kurt_of_scaled`, `skew_of_scaled`, `std_of_moment`, `corr_of_sums`, `ewcorr_of_sums`); the conditions on size and spread bound each intermediate result of the formulas from above and each divisor from below.
* C108: the specifications of C14, C21, C25, C30, C33, C34 turn the claim into one about two lists related value by value: the k-th smallest elements by counting, means by summation, deviations by the inequality of Cauchy and Schwarz with weights (`deviation_close`); in rounded arithmetic by the monotonicity of each operation (`between_mono`).
* C109: the drift bounds of C82 and C83 give relative errors of the three sums, `sqrt_err` and `corr_final` the rest; `Autocorr` by C106. That an outlier is never forgotten: later results depend on the history through the window, the means and the sums only (`memory_append`, `memory2_append`), and the cycle of values leaves these as they are.
* C110: the drift bounds of C82 and C83 for the sums, the exact sums are at most 4·L·M₁·M₂, and the quotient adds one rounding (`quot_drift`); `Autocov` by C106. The counterexample as in C109. In IEEE arithmetic (`Props/WindowIEEE.lean`, also for C109) the sum comes from C94, whose bound is the same; `Cov`, `Autocov`, `Corr` and `Autocorr` with a window in IEEE arithmetic (`Props/JointWindowIEEE.lean`) come from the windowed part of C105.
* C111: error analysis of one division, `math.Round` and one multiplication; monotonicity of the composition.

## 4. Findings

What the proofs and refutations say about the code (all of it machine-checked).

1. **Red-black `Remove` with equal values** loses other values (Add 0 four times, Remove 0: size 2) or panics (Add 0, 2, 1, 1, Remove 1, Remove 0).
   A windowed `Quantile`/`Median`/`IQR` with `RedBlack` inherits both (window 4: 1, 0, 1, 1, 2, 0 panics).
2. **`Rank` of both trees** is too large in one branch when the value is stored more than once (Add 1, Add 1, `Rank(1)` = 1).
3. **Skip list with equal values**: `equals` compares values, so the widths become wrong: `Select`/`Rank` lie (Add 5, 5, 3: `Select(1)` = 3), and a
   width can become negative, after which `String` panics.
4. **HeapMedian, windowed**: after a rebalance the wrong item is queued, so the wrong value is evicted (window 3: 3, 2, 1, 0, 5 gives 2, not 1);
   window 1 panics exactly when a push directly follows two increasing pushes.
5. **minmax**: one NaN pushed into a windowed `Max`/`Min` stays until `Clear` and the deque then grows without bound.
6. **moment core**: `Sum(k)` is wrong for `k` ≥ 21 (the factorials overflow) and `Push` panics iff an exponent ≥ 66 is tracked. `Moment.Value`
   of one value is NaN.
7. **joint core, windowed**: with overlapping tuples (`{2,1}` and `{1,2}`) an evicted point is subtracted twice. Sums are looked up by hash only:
   `Sum(0,1,1)` answers for `Sum(1,1)`; the hash collides for entries ≥ 31 and for length ≥ 13.
8. **joint config**: merging tuples of different lengths panics or silently drops one, depending on the order; tuples with equal hash are dropped.
9. **joint Push keeps the caller's slice**; writing to it afterwards corrupts later sums.
10. **Autocov/Autocorr**: `Value` is two critical sections; a `Clear` in between yields the error of the inner metric (only that message shows
    it). A failed inner push loses a value of the lag queue (core with other than two variables, C90).
11. **Locks**: `Value` of Mean, Moment, EWMA, Skewness, Kurtosis, Std, Cov, Corr, EWMCorr, Autocov, Autocorr, IQR takes the read lock twice;
    a `Push` in between deadlocks both goroutines.
12. **`util/math` factorial table** is shared without a lock: an interleaving corrupts it for ever, another one makes `factorials[n]` panic.
13. **sample**: enlarging the exported `Size` after the stream exceeded it can make `Push` panic.
14. **aggregate**: results are keyed by `String()`; metrics with the same name overwrite each other, and the names of Median/IQR/Quantile omit the
    implementation.
15. **NaN** as `decay` passes validation in both packages, NaN as quantile passes the check of `Quantile.Value` and panics.
16. `NewMedian`/`NewIQR` append to the caller's options slice: `NewMedian(3, opts[:1]...)` replaces `opts[1]`.
17. **moment core, windowed, in binary64**: `Sum(2)` can become negative, so `Std` is NaN (window 2: 0.1, 0.7, 0.7); a large value leaves an error
    behind when it is evicted (window 2: 1e16, 1, 1 gives Mean 0.5); NaN or an infinity poisons Mean and all sums until `Clear` for every
    window ≥ 2. Without eviction none of this happens, and the mean is accurate to about n/2 ulps of the largest value.
18. **Quantile with `Linear` in binary64** computes `(1-d)*lo + d*hi`, which leaves [lo, hi] and decreases with q (window 0.1, 0.1: the
    0.2-quantile exceeds 0.1, the 0.29-quantile is below it). `Midpoint` and HeapMedian overflow for values of 2^1023 (+Inf; IQR NaN).
19. **Corr in binary64**: a windowed `Corr` of a variable with itself can be −1 (window 2: 5000000000000001, 6000000000000000, 0, 1; the
    computed "variance" is −1.35e16); `Corr` exceeds 1 by 2^-52 for (0,0), (0,0), (5,15); the product of the two variances underflows, so `Corr`
    of (0,0), (2^-300,2^-300) is +Inf (dividing by the two roots one after the other would give 1); it overflows, so `Corr` of (0,0),
    (2^300,2^300) is 0; a windowed `Corr` is above 10^7 for (1,0), (2,2), (1,1) after (804564, 846876518) left the window.
20. **Sharing a windowed joint core** changes values when the tuples of the metrics overlap: the tracked set decides how often an overlapping
    sub-tuple is corrected on eviction (C43), so the value of a metric depends on its companions.
21. **Configurations are kept by reference**: a core follows later writes to the `float64` that `Decay` points to (even to values that `NewCore`
    refuses) and, in package joint, to the tuples of `Sums`. In package moment a nil `Sums` is replaced by one global map: after
    `NewCore(config)`, `config.Sums[-1] = true` makes `NewCore` fail for every other configuration with nil `Sums`, such as that of `Mean`.
    In package joint the inferred `Vars` are stored in the caller's configuration.
22. **Red-black `remove` is Θ(log² n)**: each recursive call first runs `contains` on its subtree (rb/node.go:104-107), so `Push` into a full
    window is not `O(log n)` as documented.
23. **NaN leaks memory**: no comparison finds a NaN, so red-black trees and skip lists never remove one; with an AVL tree a NaN in the tree
    also hides other values from removal. A windowed `Quantile` fed with NaN grows for ever; `HeapMedian` does not (it removes by position).
24. **joint `remove`** copies all sums once per configured tuple instead of once per push (core.go:324-326 is inside the loop over the tuples), so
    a windowed `Push` takes `t s` steps for copying, `s` being the number of tracked sums; complexity.md has no such term.
25. **The skip list is linear in the limit**: with a fixed number of levels (12 by default) a share of 4^-11 of all nodes has the largest height and
    the top level is searched sequentially, so `Add` and `Select` take about n / 4^11 steps on average besides a constant of 45 to 138; the
    documented `O(log n)` needs a `MaxLevelOption` chosen for the expected number of values.
26. **`Max` and `Min` treat NaN differently with and without a window**: after 3, NaN the windowed `Max` returns 3 and the global one NaN
    (`math.Max` propagates NaN, the deque comparison drops or keeps it depending on the order).
27. **A failed `Push` of an aggregate is half done**: the metrics that succeeded have consumed the value, so pushing it again counts it twice.
28. **With a window, rounding breaks relations between metrics (C91)**: a window holding 0, 2, 1 after 846876518 was evicted has range 2, but `Sum(2)` (exactly 2) is below 10⁻¹⁴, so `Std` is below 10⁻⁷. (The same cancellation as in findings on C66 and C75.)
29. **A NaN in the data breaks the quantile metrics** (C92): with the AVL tree `Remove(NaN)` deletes the root, and `Remove(x)` that meets the NaN node deletes that one instead, so the tree holds other values than the window (`Median` with window 3 after NaN, 1, 2, 0, 1, 2, 0, … is 1/2 for ever instead of 1). The red-black tree never removes a NaN (`Median` with window 1 is NaN for ever), and because the NaN hides numbers from the search it also keeps numbers that left the window; pushed again they are in the tree twice, and `Push` panics (window 3, all values in the window different). The skip list panics in `Push` when the NaN got level 2 or higher and the next value does too. `HeapMedian` with a window falls into the branch that removes the item's index from the wrong heap, and panics.
30. **The running mean overflows where the mean does not** (C94): `delta := x - mean` is infinite for -2^1023 followed by 2^1023, so `Mean` returns +Inf although the mean is 0, and NaN from the next value on until `Clear`. Below 2^1019 this cannot happen.
31. **The errors of Mean add up** (C95): `mean += delta/n` does not move the mean once `delta/n` is below half a unit in the last place, so after 2^30 ones the mean ignores any number of values 1 + 2^-23; and with a window of two the stream 2^53+2, 2^52+3, 2^52+1, repeated, moves `Mean` by 2 with each round although the window is the same. A numerical search shows the same drift for a window of three.
32. **A window whose values are all equal can have a huge kurtosis** (C96): with window 2, after 1, 2^53, 2^53 the window is constant, but `Sum(2)` is 2^53 and `Kurtosis` is 36028797018963956 instead of NaN. After 2^54, 1, 0 the variance of the window 1, 0 is 0.
33. **Skewness can have the wrong sign** (C97): for 2^53 + 2, 2^53, 2^53 + 2, 2^53, 2^53 (all representable) the third central moment comes out negative instead of positive, and the kurtosis as -1/2 instead of -11/6.
34. **Corr can have the wrong sign** (C98): for the three points (2^53, 2^53+2), (2^53+2, 2^53), (2^53+2, 2^53+2) Pearson's correlation is -1/2, but `Corr` is about 1/7, and `Cov` is positive instead of negative.
35. **The example programs stop with a fatal error for short input** (C99): a NaN cannot be encoded as JSON, so `examples/moment` with fewer than 3 and `examples/joint` with fewer than 6 pushes print no value at all, not even those of the metrics that have one; two metrics with equal names (same type, window and parameters) would show only the last one.
36. **A windowed HeapMedian can be wrong for ever, by any amount** (C100): `rebalance` returns the item it moved and `Push` queues that one. If the second value is not greater than the first, the value pushed last but one is evicted instead of the oldest after w+2 pushes: (w+3)/2 times M and then w/2+1 times 0 gives M or M/2 instead of 0, for every window w >= 2. With window 2, after 2, 1 every stream of greater values z gives (1+z)/2 for ever; with window 5, after 0, 0, 2, 2, 1, 1, 0, 0, 5, 6 the result is 2 for ever, whatever greater values follow. Repair: queue the new item in every case.
37. **A windowed Autocov with lag 0 can be negative, a windowed Autocorr with lag 0 can be -1** (C106): as for `Cov` and `Corr`, eviction leaves rounding errors in the sums. After 0.1, 0.7, 0.7 with window 2, `Autocov` is about -5.6e-17 instead of 0; after 5000000000000001, 6000000000000000, 0, 1 `Autocorr` is -1 instead of 1.
38. **Kurtosis overflows at the fourth root of the range** (C107): for 0, 2^300, 0, 2^300 it is NaN instead of -2 although the standard deviation is fine; for seven zeros and 2^256 it is +Inf. Within the limits of C107 (for a million values, data up to about 2^240 that is not all but constant) it cannot happen.
39. **Mean is not monotone** (C108): the mean of 1 - 2^-53 and 2^53 + 2 is 2^52 + 2, that of the larger data 1 and 2^53 + 2 is 2^52 + 1; the same for EWMA with decay 1/2. With a window, HeapMedian falls from 1 to 0 when an old value that has left the window is raised.
40. **One outlier spoils a window for ever** (C109): removing a value from a window subtracts what was added, up to rounding errors of the size of the value removed. After 2^60 has left a window of three, `Mean` of 1, 2, 3 is 43.67 and the variance 1240 instead of 2 and 1, and stays so while these are repeated; `Corr` of (1, 3), (2, 2), (3, 1) is close to 1 instead of -1. `Clear` helps.
41. **`util/test` `Approx`** compares positions on a grid of width 5·10⁻¹⁰: two neighbouring numbers on different sides of a midpoint fail (while
   3·10⁻¹⁰ and 7·10⁻¹⁰ pass), and from 2^1000 on any two numbers pass because the quotient overflows.
