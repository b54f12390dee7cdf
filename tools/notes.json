{
 "C01": "Full statement for Size and Select, all histories.",
 "C03": "Refuted as stated: Rank of a value stored twice counts equal values (Add 1, Add 1, Rank(1)=1). Proved: exact for values stored at most once, bounds otherwise, Select(Rank v)=v.",
 "C06": "Refuted as stated: Remove of a value stored several times can drop a second node (Add 0 four times, Remove 0 leaves 2). Proved for histories that remove a value only while it is stored at most once.",
 "C07": "Refuted as stated for the same reasons as C03 and C06; proved under RemovesUnique, Rank exact for values stored at most once.",
 "C08": "Refuted as stated: Add 0,2,1,1, Remove 1, Remove 0 panics. Proved under RemovesUnique.",
 "C09": "Refuted as stated (black heights differ after removing a duplicated value). Proved under RemovesUnique.",
 "C10": "Refuted as stated (red-black loses values). Proved under RemovesUnique, Rank for values stored at most once.",
 "C11": "Full, all histories, level sequences and maximum levels.",
 "C12": "Refuted as stated: node equality is by value, so duplicates corrupt the widths (Add 5, 5, 3: Select(1)=3, Rank(4)=2). Proved for histories that never add a value already stored; with duplicates Select still returns a stored value.",
 "C13": "Full, all histories including duplicates.",
 "C14": "AVL in full. Red-black refuted as stated: window 4, pushing 1,0,1,1,2,0 panics, and 0,0,0,0,1 gives a wrong value; proved when evicted values are unique in the window, and for all global streams. The skip list, not part of the claim, is covered for windows of distinct values.",
 "C15": "Every implementation, every history whose pushes return; unconditional for AVL.",
 "C16": "Bracketing in full for every implementation. Monotone for both trees in full; refuted for the skip list with duplicates, proved for distinct windows.",
 "C17": "Every implementation, every history whose pushes return, every monotone rounding fixing the integers.",
 "C18": "AVL in full. Refuted for red-black and skip list with duplicates; proved for them under the conditions of C14.",
 "C19": "Refuted: NaN passes both comparisons; Value never returns an error and panics in every reachable nonempty AVL state when int(NaN)+1 < 0 (amd64).",
 "C20": "Full.",
 "C21": "Full, all streams.",
 "C22": "Refuted as stated: window 3, pushes 3,2,1,0,5 gives 2 instead of 1. Proved: right until the first eviction, afterwards the median of a sub-multiset of the right size containing the latest value; window 1 right whenever Push does not panic.",
 "C23": "Refuted as stated for window 1 (pushes 1,2,3). Proved for every other window; for window 1 an exact characterisation of the panicking histories.",
 "C24": "Full: HeapMedian for all streams, windows 0 and >= 2 (the claim's domain); the package heap on its own for any strict weak order, any items and every sequence of operations that make sense (C24_heap_new, C24_heap_step, C24_heap_peek).",
 "C25": "Full, over every bounded linear order (float64 without NaN; NaN is C29).",
 "C26": "Full, as C25.",
 "C27": "Full, for any order-reversing involution.",
 "C28": "Panic freedom and the amortized bound in full, NaN included. The deque bound is proved without NaN and refuted with NaN (window 1, NaN,3,2,1 keeps four entries for ever).",
 "C29": "Refuted for every window and every stream: w-1 pushes after a NaN, Value is NaN until Clear.",
 "C30": "All streams, windows and configurations of a core without decay, exact arithmetic in any ordered field; exponents at most 65 because larger ones make Push panic (C41).",
 "C31": "All streams, windows, k <= 20 as stated; exact characterisation of the errors. C40_core_sum_refuted shows the bound on k is needed.",
 "C32": "remove after add restores the complete state; second theorem: observations depend on the window only as a multiset.",
 "C33": "Through EWMA, EWMMoment and EWMStd; the weights are positive and sum to one.",
 "C34": "Through Mean, Moment, Std, Skewness, Kurtosis; the degenerate cases are NaN, never infinite.",
 "C35": "Metamorphic laws on histories; kurtosis bound by Cauchy-Schwarz.",
 "C37": "All metrics of both packages, any input.",
 "C38": "Full characterisation for decays that are numbers; a NaN decay is accepted (refutation).",
 "C39": "Success, failure and order independence, all lists of configurations.",
 "C40": "Exact for n <= 20; Binom(21,1) = -1 and Sum(21) of 0,2,4 is 2271562 instead of 0.",
 "C41": "Exact boundary: with all exponents <= 65 no history panics, with one >= 66 the first Push panics.",
 "C42": "All histories including rejected pushes; exponents at most 20 each and 62 in total (C42_bound_needed shows that a bound is needed), no hash collisions (automatic up to 12 variables, C42_sum_global_12).",
 "C43": "Refuted as stated: with {2,1} and {1,2} configured and window 2 the evicted point is removed twice from {1,1}. Proved for all streams and windows when no tuple of order two or more is below two configured ones; window 1 always. That condition is exact for windows of two or more (C43_exact): a core is right on all histories if and only if it holds. For any configuration C43_order_two gives the value of every sum of order two: the right one minus (number of configured tuples above it - 1) times the drift of the evicted points; count and means are always right.",
 "C44": "All streams and decays, overlapping tuples included; bounds on exponents as in C42.",
 "C45": "All four metrics, all histories; the degenerate cases (one pair, zero variance) are NaN, never infinite.",
 "C46": "Both metrics, all lags and windows, exact error condition, lag 0.",
 "C47": "Every state of a core and of a metric; histories of cores of any configuration.",
 "C48": "Any tuple, any callback (state, errors, panics).",
 "C49": "Refuted as stated from length 13 on; proved up to length 12.",
 "C50": "Refuted as stated: lookup is by hash only (Sum(32) answers for {1,1}), and the zero tuple gives 0 instead of the count. Proved for queries that collide with no other tracked tuple, in particular same-length queries with entries below 31, up to 12 variables.",
 "C51": "Refuted as stated: tuples of different lengths panic or are dropped, colliding tuples are dropped. Conflicts in full; merging proved for tuples of one length without collisions.",
 "C52": "Exact characterisation for decays that are numbers (C52_exact); as stated for tuples with sum below 2^64. Refuted for NaN decays and for {2^63-1, 2^63-1, 2}.",
 "C53": "Refuted as stated: the window keeps the caller's slice. Proved for window 0, for slices never written after being pushed, and for slices written once they have left the window.",
 "C36": "For every metric and both histories arbitrary (the first one returning). Skip list: the level generator is not reset by Clear, so the new list compared with is one whose generator starts where the old one is; node values totally ordered there (no NaN).",
 "C54": "All streams, all integer sizes (zero and negative included), arbitrary draws; the copy claim on a memory of arrays with client writes.",
 "C55": "Distribution of the sample set under independent uniform draws (PMF), counting form, inclusion probability; streams of arbitrary values via C54_positions.",
 "C62": "Refuted as stated: raising Size after the stream has exceeded it can panic. Proved when Size is only lowered.",
 "C56": "Any number of metrics, every interleaving of their goroutines (transition system with wait group and mutex); calls of a metric are one transition. Termination and absence of deadlock included.",
 "C57": "Every interleaving; errors as a permutation of all failures; map exact for distinct names, and what remains true for equal names.",
 "C58": "Refuted as stated: the implementation of the order statistic is not part of the name. Proved for everything else, given that different decays are printed differently.",
 "C59": "All executions of any number of goroutines, every metric, any division of the methods into atomic actions; a panic is a panic of the sequential execution, and there is no data race. Autocov and Autocorr, whose Value is two critical sections, are in C70.",
 "C60": "Refuted as stated: Value of Mean, Moment, Std, Skewness, Kurtosis, EWMA, Cov, Corr, EWMCorr, IQR, Autocov and Autocorr takes the read lock twice, and a Push that asks for the lock in between makes both wait for ever (the locks are those of sync.RWMutex, where a waiting writer blocks new readers). Proved in full for the other metrics and the cores; for the ones above, when no writer is in progress.",
 "C61": "Refuted as stated: the factorial table is a global slice grown without a lock. Two goroutines with exponents up to 9 can panic or corrupt the table for ever. Proved for exponents up to 7, for one goroutine with larger exponents among others with small ones, and once the table has been grown, for any mix of moment.Core and joint.Core. The header of the slice is read and written as a whole.",
 "C63": "AVL: proved for all histories. Red-black: for every reachable tree the string lists exactly Select(Size-1..0); that these are all the stored values only while Remove is right (C06). Skip list: refuted (equal values can make a width negative, strings.Repeat panics); proved for histories that never add a stored value; the bottom line is right in all histories.",
 "C64": "Proved for every arithmetic (no laws assumed), exponents at most 65. C64_exact: at exact arithmetic the model is that of C30-C33.",
 "C65": "Proved for every rounding that fixes 0, 1 and x and every power function with 0^k = 0.",
 "C66": "Refuted for windowed cores: in binary64, window 2, pushing 0.1, 0.7, 0.7 leaves Sum(2) negative, and Std of [0.7, 0.7] is NaN. Proved for cores with window 0, with and without decay, for every monotone rounding.",
 "C67": "Refuted for windowed cores: in binary64, window 2, pushing 1e16, 1, 1 gives Mean 0.5. Proved for cores with window 0, with and without decay.",
 "C68": "Refuted for every window of at least 2: Mean and all Sum(k), k at least 2, stay NaN until Clear. Proved for window 1 and after Clear, in any arithmetic.",
 "C69": "Proved for rnd64 (round to nearest even, 53 bits, gradual underflow; overflow excluded since values are rationals and rnd64 has no upper exponent bound). No fused multiply-add.",
 "C70": "Refuted as stated: Value looks at the count and computes its result in two critical sections; a Clear in between gives an error message that no order of the calls explains. Proved in full when nobody calls Clear, and with Clear up to that one message: every execution, any number of goroutines, any division into atomic actions, no data race.",
 "C71": "Refuted for Linear, the default interpolation: a window holding 0.1 twice has a 0.2-quantile above and a 0.29-quantile below 0.1; the excess is proved to be at most 4 units of relative rounding error. Refuted with overflow: the median of twice 2^1023 is +Inf and the IQR is NaN. Values below 2^1023 never overflow (C102). Proved without overflow for the other interpolations: bracket (all containers, HeapMedian with any window but 1), monotonicity and IQR >= 0 (trees), agreement of Median (AVL) and global HeapMedian to the bit and their accuracy. Also: rounding of q*(n-1) can move the answer by a whole element (C71_index_refuted).",
 "C72": "Proved for exponents at most 65 over an arbitrary set of operations; for any larger exponent the first Push is proved to panic, so the condition is exact (also for the exact model). Lookup is by hash, as in C50.",
 "C73": "Proved for the moment core in full (exponents up to 65, any operations whatsoever) and for joint cores without a window or with window 1 or decay. Windowed joint cores: proved in rounded arithmetic for configurations without overlapping tuples, refuted otherwise (C73_joint_refuted, even in exact arithmetic).",
 "C74": "The mean in full, over any operations; the sums of order two in rounded arithmetic for configurations without collisions and, with a window of two or more, without overlapping tuples; with overlapping tuples refuted (the joint core is wrong there, C43). Hypothesis on math.Pow: exact at exponents 0 and 1, representable results.",
 "C75": "Symmetry proved in full, to the bit. Equal variables: the three sums are equal to the bit, and the value is exactly 1 when the sum of squares is at least 2^-511, with a correctly rounded square root (C75_self_partial). Range without a window, EWMCorr included: after n points |Corr| is at most 1 + (5n+12)*2^-53 when both sums of squares are at least 2^-511, for every history (C75_range_partial). With a window, |Corr| is at most 1 + 4*delta under the conditions of C109 (C75_window_range_partial). Refuted otherwise: a windowed Corr of a variable with itself is -1 for a non-constant window, a windowed Corr of three small integer points is above 10^7, the range is exceeded by 2^-52 for three points without a window, underflow gives +Inf, and overflow gives 0 for two equal variables.",
 "C76": "In full for exponents up to 65 (beyond, Push panics, C72), in any rounded arithmetic, including configurations with overlapping tuples and hash collisions.",
 "C77": "Range and sign proved without a window, with or without decay; refuted with a window of two. Accuracy of the means proved without a window and, growing with the number of pushes, with one. From the moment core theorems C66, C67, C69 through C74.",
 "C78": "Refuted for every window of two or more: the mean of that variable and every tracked sum involving it stay NaN until Clear. Proved for window 1, and that Clear gives back exactly the new core.",
 "C79": "Refuted: a core keeps the pointer to Decay (both packages) and the slice of tuples (joint), nil Sums become one map shared by all configurations (moment; a bad key written there makes NewCore fail for every other such configuration for ever), and the inferred Vars are written to the configuration (joint). Proved for all histories without such writes, and that NewCore leaves other configurations alone and can be repeated.",
 "C80": "The metric is right in every case. Refuted for the slices: append writes InterpolationOption(Midpoint) into the spare capacity of the passed slice; exactly then, and only the element just behind it.",
 "C81": "Signs: proved in full for every arithmetic symmetric about zero (binary64 with infinities and NaN), any window or decay, overlapping tuples included; colliding tuples refuted. Units: proved for a rounding with unbounded exponents, refuted in binary64 by underflow. Origin: refuted (0, 2, 4 plus 2^53); exact arithmetic is C35.",
 "C82": "Proved for rnd64 (no overflow, no fused multiply-add); of math.Pow only that squares are within an ulp and that the first power of a count is the count (PowSq), which a correctly rounded power has.",
 "C83": "Proved for rnd64, as C82; the cores without collisions and overlaps are those C43 and C44 are about, and the configurations of Cov and Corr are among them.",
 "C84": "Proved for Quantile in any arithmetic, to the bit, also across containers and windows (AVL for all streams, red-black and skip list for the streams they handle), for global HeapMedian in any arithmetic, for Max and Min; for moment cores in exact arithmetic (C32_order) and joint cores in exact arithmetic (C84_joint_partial). Refuted for red-black windows with duplicates, windowed HeapMedian, and Mean in binary64 (0, 1, 3 against 0, 3, 1).",
 "C85": "Proved for AVL, red-black, skip list, Max and Min without NaN; for HeapMedian with any comparison, NaN included; for moment and joint cores in any arithmetic; for Autocov/Autocorr in exact arithmetic. Refuted with NaN: n NaN leave n nodes in a red-black tree and n deque entries in Max/Min, whatever the window; AVL and skip list by concrete runs.",
 "C86": "AVL: Push and Value proved logarithmic for all streams. Red-black: Value logarithmic, Push at most the square of a logarithm, on streams whose evicted values are unique; the logarithm for Push is refuted for every window size (remove searches the subtree again at each level). HeapMedian: Push logarithmic, NaN included. Skip list: see C88.",
 "C87": "Moment cores: proved in full, and exactly k(k-1)/2 iterations without a window. Joint cores without a window: proved. With a window: an additional term t*s, s being the number of tracked sums, proved as upper and lower bound: remove copies all sums once per tuple (core.go:324-326). For all pairs of d variables this is of order d^4 against the documented d^3; no single family refutes the O() because the 64-bit hash bounds s.",
 "C88": "With a fixed number M of levels the average is proved to be at most a constant plus the number of smaller values times the share of nodes of the largest height, and at least that product; so with the default options (12 levels, p = 1/4) it is below 45 (Rank), 57 (Remove), 138 (Add) plus one step per 4 million smaller values, and the logarithm is refuted in the limit. Select: for histories without equal values. The thresholds of math/rand Float64 are derived from binary64 rounding; uniformity and independence of the 63-bit integers are assumed.",
 "C89": "Moment cores, joint cores, Autocov and Autocorr (the window holds pairs, so w + lag values fit), quantiles over any container and HeapMedian to the bit in any arithmetic, NaN included. Max and Min for totally ordered values; with NaN refuted (3, NaN: 3 with window 2, NaN without).",
 "C90": "Proved for moment cores and joint cores (exponents up to 65) in any arithmetic, the metrics of both packages, quantiles over any container, HeapMedian, Max and Min: only a missing core and a wrong number of values make Push fail, without effect. Refuted for Autocov and Autocorr with a core of other than two variables (SetCore): the failed Push loses a value of the lag queue; with the core of Init they never fail. Refuted for aggregates: the other metrics have consumed the value.",
 "C91": "In exact arithmetic all inequalities are proved between the metrics themselves; C91_skewness_sharp shows that the bound on the skewness is attained. In binary64 with a window they are refuted (C91_rounding_refuted): the values 0, 2, 1 after 846876518 have Sum(2) below 1e-14. The upper bound n-4 of the kurtosis is attained only for n = 2.",
 "C92": "Proved for any stream with NaNs: AVL tree with any window, red-black tree and HeapMedian without window never panic and Value returns. Refuted: skip list panics when a NaN and the next value both get level 2, HeapMedian with a window panics, the red-black tree and the AVL tree keep the NaN for ever and return wrong medians of windows without NaN. The red-black tree with a window never panics if no number is pushed twice; refuted in general: window 3 with always different values in it panics.",
 "C93": "",
 "C94": "",
 "C95": "Proved for EWMA (C = 7/decay, any number of values) and for windows of one (no error). Refuted without a window: after 2^j ones Mean stays exactly 1 however many values 1+2^(j-53) follow, so the error after N values can be N/8 units (the bound of C69 is sharp up to a factor of four). Refuted for windows of two: a stream of period 3 moves Mean by two units per round, proved up to 2^48 rounds.",
 "C96": "Proved for binary64 without a window and decay: Sum(2) is 0 for constant data and at least g^2/4 otherwise, where g (at least 2^-480) bounds the distances from the first value from below; the same for the variance; Sum(2) is monotone; with infinities and NaN in the arithmetic, Kurtosis is NaN exactly for constant data and so is Skewness except for two values (values up to 2^200, distances at least 2^-200, up to 2^36 values). Refuted for windows (both directions: zero variance of the window 1, 0; Sum(2) = 2^53 and Kurtosis = 3.6e16 for a constant window), for decays (underflow), for distances whose squares underflow, and for Skewness of two values (0 times infinity).",
 "C97": "",
 "C98": "",
 "C99": "Exact arithmetic; the text of the table (encoding/json) is not modelled, only which entries it has and that it cannot be produced with an infinite or NaN entry.",
 "C100": "Refuted for every window from 2 on: whenever the second value is not greater than the first, the value after w+2 pushes is the median of a wrong list (C100_evicts_newest_refuted), with an error of any size (C100_every_window_refuted); with windows 2 and 5 a value stays for ever (C100_stuck_two_refuted, C100_stuck_five_refuted). Proved: window 3 is right on increasing streams. What is kept in general is C22_heap_median_window_partial.",
 "C101": "All cases proved. The containers, Quantile and the runs of HeapMedian need no correctness of the containers, so the theorems cover the histories on which they are wrong as well. Linear and Midpoint calculate with the data and do not commute (example).",
 "C102": "All cases proved: Quantile (C102_quantile), Median and IQR (C102_median_iqr), HeapMedian with every window (C102_heap_median), and the constructors accept the same options (C102_new). The bound is sharp by C71_overflow_refuted.",
 "C103": "",
 "C104": "EWMCorr forgets as long as the weighted variances stay away from zero (C104_ewmcorr, C104_ewmcorr_rounded); C104_ewmcorr_constant shows that it does not otherwise.",
 "C105": "With a window the sums are covered here, Cov and Autocov in C110. Corr and EWMCorr can overflow within these limits (C75: the product of the two sums).",
 "C106": "The accuracy is proved without a window and refuted with one; with a condition on the whole history it holds with a window, too (C109_autocorr).",
 "C107": "Windows other than 0 are not covered here; Std with a window is in C109 (C82, C96: eviction makes the ratios arbitrarily wrong).",
 "C108": "In exact arithmetic proved for all metrics but HeapMedian with a window, for which it is refuted, and Quantile with the other containers on histories that they get wrong (C14). Monotonicity in binary64 (without overflow) proved for Quantile with the default container, all methods, and for HeapMedian; refuted for Mean and EWMA, where it holds for the last value.",
 "C109": "Skewness and Kurtosis with a window are not covered.",
 "C110": "",
 "C111": "Proved for numbers up to 500000 in absolute value: a difference above 1e-9 fails. Up to 2^990 a passed assertion means a difference of at most 6e-10 + 3*2^-53*(|x|+|y|). Refuted: from 2^1000 on any two numbers pass, even against +Inf; two neighbouring numbers can fail (the grid is fixed). Sure to pass: numbers up to 24e-11 against 0. Sure to fail against 0: numbers from 26e-11 to 2^990."
}