{
 "claims": [
  {
   "property": "C01",
   "status": "proved",
   "theorems": [
    "Verif.Props.C01_avl_contents"
   ],
   "note": "Full statement for Size and Select, all histories."
  },
  {
   "property": "C02",
   "status": "proved",
   "theorems": [
    "Verif.Props.C02_avl_select"
   ],
   "note": ""
  },
  {
   "property": "C03",
   "status": "partial",
   "theorems": [
    "Verif.Props.C03_avl_rank_refuted",
    "Verif.Props.C03_avl_rank_partial",
    "Verif.Props.C03_avl_select_rank_partial"
   ],
   "note": "Refuted as stated: Rank of a value stored twice counts equal values (Add 1, Add 1, Rank(1)=1). Proved: exact for values stored at most once, bounds otherwise, Select(Rank v)=v."
  },
  {
   "property": "C04",
   "status": "proved",
   "theorems": [
    "Verif.Props.C04_avl_no_panic"
   ],
   "note": ""
  },
  {
   "property": "C05",
   "status": "proved",
   "theorems": [
    "Verif.Props.C05_avl_balanced"
   ],
   "note": ""
  },
  {
   "property": "C06",
   "status": "partial",
   "theorems": [
    "Verif.Props.C06_rb_contents_refuted",
    "Verif.Props.C06_rb_contents_partial",
    "Verif.Props.C06_rb_add_only_partial"
   ],
   "note": "Refuted as stated: Remove of a value stored several times can drop a second node (Add 0 four times, Remove 0 leaves 2). Proved for histories that remove a value only while it is stored at most once."
  },
  {
   "property": "C07",
   "status": "partial",
   "theorems": [
    "Verif.Props.C07_rb_select_rank_refuted",
    "Verif.Props.C07_rb_select_rank_partial"
   ],
   "note": "Refuted as stated for the same reasons as C03 and C06; proved under RemovesUnique, Rank exact for values stored at most once."
  },
  {
   "property": "C08",
   "status": "partial",
   "theorems": [
    "Verif.Props.C08_rb_no_panic_refuted",
    "Verif.Props.C08_rb_no_panic_partial"
   ],
   "note": "Refuted as stated: Add 0,2,1,1, Remove 1, Remove 0 panics. Proved under RemovesUnique."
  },
  {
   "property": "C09",
   "status": "partial",
   "theorems": [
    "Verif.Props.C09_rb_balanced_refuted",
    "Verif.Props.C09_rb_balanced_partial"
   ],
   "note": "Refuted as stated (black heights differ after removing a duplicated value). Proved under RemovesUnique."
  },
  {
   "property": "C10",
   "status": "partial",
   "theorems": [
    "Verif.Props.C10_avl_rb_refuted",
    "Verif.Props.C10_avl_rb_partial"
   ],
   "note": "Refuted as stated (red-black loses values). Proved under RemovesUnique, Rank for values stored at most once."
  },
  {
   "property": "C11",
   "status": "proved",
   "theorems": [
    "Verif.Props.C11_skip_contents"
   ],
   "note": "Full, all histories, level sequences and maximum levels."
  },
  {
   "property": "C12",
   "status": "partial",
   "theorems": [
    "Verif.Props.C12_skip_select_rank_refuted",
    "Verif.Props.C12_skip_select_rank_partial",
    "Verif.Props.C12_skip_select_member_partial"
   ],
   "note": "Refuted as stated: node equality is by value, so duplicates corrupt the widths (Add 5, 5, 3: Select(1)=3, Rank(4)=2). Proved for histories that never add a value already stored; with duplicates Select still returns a stored value."
  },
  {
   "property": "C13",
   "status": "proved",
   "theorems": [
    "Verif.Props.C13_skip_no_panic"
   ],
   "note": "Full, all histories including duplicates."
  },
  {
   "property": "C14",
   "status": "partial",
   "theorems": [
    "Verif.Props.C14_quantile_avl",
    "Verif.Props.C14_quantile_rb_refuted",
    "Verif.Props.C14_quantile_impl_partial",
    "Verif.Props.C14_quantile_rb_global_partial"
   ],
   "note": "AVL in full. Red-black refuted as stated: window 4, pushing 1,0,1,1,2,0 panics, and 0,0,0,0,1 gives a wrong value; proved when evicted values are unique in the window, and for all global streams. The skip list, not part of the claim, is covered for windows of distinct values."
  },
  {
   "property": "C15",
   "status": "proved",
   "theorems": [
    "Verif.Props.C15_quantile_errors",
    "Verif.Props.C15_quantile_errors_avl"
   ],
   "note": "Every implementation, every history whose pushes return; unconditional for AVL."
  },
  {
   "property": "C16",
   "status": "partial",
   "theorems": [
    "Verif.Props.C16_quantile_bracket",
    "Verif.Props.C16_quantile_mono_trees",
    "Verif.Props.C16_skip_mono_refuted",
    "Verif.Props.C16_skip_mono_partial"
   ],
   "note": "Bracketing in full for every implementation. Monotone for both trees in full; refuted for the skip list with duplicates, proved for distinct windows."
  },
  {
   "property": "C17",
   "status": "proved",
   "theorems": [
    "Verif.Props.C17_quantile_rounding"
   ],
   "note": "Every implementation, every history whose pushes return, every monotone rounding fixing the integers."
  },
  {
   "property": "C18",
   "status": "partial",
   "theorems": [
    "Verif.Props.C18_median_iqr_avl",
    "Verif.Props.C18_median_iqr_impl_partial",
    "Verif.Props.C18_median_refuted"
   ],
   "note": "AVL in full. Refuted for red-black and skip list with duplicates; proved for them under the conditions of C14."
  },
  {
   "property": "C19",
   "status": "partial",
   "theorems": [
    "Verif.Props.C19_quantile_nan_refuted"
   ],
   "note": "Refuted: NaN passes both comparisons; Value never returns an error and panics in every reachable nonempty AVL state when int(NaN)+1 < 0 (amd64)."
  },
  {
   "property": "C20",
   "status": "proved",
   "theorems": [
    "Verif.Props.C20_quantile_options"
   ],
   "note": "Full."
  },
  {
   "property": "C21",
   "status": "proved",
   "theorems": [
    "Verif.Props.C21_heap_median_global"
   ],
   "note": "Full, all streams."
  },
  {
   "property": "C22",
   "status": "partial",
   "theorems": [
    "Verif.Props.C22_heap_median_window_refuted",
    "Verif.Props.C22_heap_median_window_partial",
    "Verif.Props.C22_heap_median_window_one_partial"
   ],
   "note": "Refuted as stated: window 3, pushes 3,2,1,0,5 gives 2 instead of 1. Proved: right until the first eviction, afterwards the median of a sub-multiset of the right size containing the latest value; window 1 right whenever Push does not panic."
  },
  {
   "property": "C23",
   "status": "partial",
   "theorems": [
    "Verif.Props.C23_heap_median_panics_refuted",
    "Verif.Props.C23_heap_median_no_panic_partial",
    "Verif.Props.C23_heap_median_window_one_partial",
    "Verif.Props.C23_new_heap_median"
   ],
   "note": "Refuted as stated for window 1 (pushes 1,2,3). Proved for every other window; for window 1 an exact characterisation of the panicking histories."
  },
  {
   "property": "C24",
   "status": "proved",
   "theorems": [
    "Verif.Props.C24_heap_invariants",
    "Verif.Props.C24_heap_new",
    "Verif.Props.C24_heap_step",
    "Verif.Props.C24_heap_peek"
   ],
   "note": "Full: HeapMedian for all streams, windows 0 and >= 2 (the claim's domain); the package heap on its own for any strict weak order, any items and every sequence of operations that make sense (C24_heap_new, C24_heap_step, C24_heap_peek)."
  },
  {
   "property": "C25",
   "status": "proved",
   "theorems": [
    "Verif.Props.C25_max",
    "Verif.Props.C25_new_max"
   ],
   "note": "Full, over every bounded linear order (float64 without NaN; NaN is C29)."
  },
  {
   "property": "C26",
   "status": "proved",
   "theorems": [
    "Verif.Props.C26_min",
    "Verif.Props.C26_new_min"
   ],
   "note": "Full, as C25."
  },
  {
   "property": "C27",
   "status": "proved",
   "theorems": [
    "Verif.Props.C27_duality"
   ],
   "note": "Full, for any order-reversing involution."
  },
  {
   "property": "C28",
   "status": "partial",
   "theorems": [
    "Verif.Props.C28_max_total_cost",
    "Verif.Props.C28_min_total_cost",
    "Verif.Props.C28_deque_bound_partial",
    "Verif.Props.C28_deque_bound_refuted"
   ],
   "note": "Panic freedom and the amortized bound in full, NaN included. The deque bound is proved without NaN and refuted with NaN (window 1, NaN,3,2,1 keeps four entries for ever)."
  },
  {
   "property": "C29",
   "status": "partial",
   "theorems": [
    "Verif.Props.C29_max_nan_refuted",
    "Verif.Props.C29_min_nan_refuted",
    "Verif.Props.C29_clear_partial",
    "Verif.Props.C29_global_max",
    "Verif.Props.C29_global_min"
   ],
   "note": "Refuted for every window and every stream: w-1 pushes after a NaN, Value is NaN until Clear."
  },
  {
   "property": "C30",
   "status": "proved",
   "theorems": [
    "Verif.Props.C30_count_mean"
   ],
   "note": "All streams, windows and configurations of a core without decay, exact arithmetic in any ordered field; exponents at most 65 because larger ones make Push panic (C41)."
  },
  {
   "property": "C31",
   "status": "proved",
   "theorems": [
    "Verif.Props.C31_sum"
   ],
   "note": "All streams, windows, k <= 20 as stated; exact characterisation of the errors. C40_core_sum_refuted shows the bound on k is needed."
  },
  {
   "property": "C32",
   "status": "proved",
   "theorems": [
    "Verif.Props.C32_remove_undoes_add",
    "Verif.Props.C32_order"
   ],
   "note": "remove after add restores the complete state; second theorem: observations depend on the window only as a multiset."
  },
  {
   "property": "C33",
   "status": "proved",
   "theorems": [
    "Verif.Props.C33_ewma",
    "Verif.Props.C33_ewm_moment",
    "Verif.Props.C33_weights",
    "Verif.Props.C33_ewm_std"
   ],
   "note": "Through EWMA, EWMMoment and EWMStd; the weights are positive and sum to one."
  },
  {
   "property": "C34",
   "status": "proved",
   "theorems": [
    "Verif.Props.C34_mean",
    "Verif.Props.C34_moment",
    "Verif.Props.C34_std",
    "Verif.Props.C34_skewness",
    "Verif.Props.C34_kurtosis"
   ],
   "note": "Through Mean, Moment, Std, Skewness, Kurtosis; the degenerate cases are NaN, never infinite."
  },
  {
   "property": "C35",
   "status": "proved",
   "theorems": [
    "Verif.Props.C35_affine",
    "Verif.Props.C35_variance",
    "Verif.Props.C35_kurtosis"
   ],
   "note": "Metamorphic laws on histories; kurtosis bound by Cauchy-Schwarz."
  },
  {
   "property": "C36",
   "status": "proved",
   "theorems": [
    "Verif.Props.C36_moment_core",
    "Verif.Props.C36_moment_metric",
    "Verif.Props.C36_moment_uninitialised",
    "Verif.Props.C36_joint_core",
    "Verif.Props.C36_joint_metric",
    "Verif.Props.C36_auto",
    "Verif.Props.C36_max",
    "Verif.Props.C36_min",
    "Verif.Props.C36_heap_median",
    "Verif.Props.C36_quantile",
    "Verif.Props.C36_quantile_trees",
    "Verif.Props.C36_trees",
    "Verif.Props.C36_skiplist",
    "Verif.Props.C36_quantile_skiplist"
   ],
   "note": "For every metric and both histories arbitrary (the first one returning). Skip list: the level generator is not reset by Clear, so the new list compared with is one whose generator starts where the old one is; node values totally ordered there (no NaN)."
  },
  {
   "property": "C37",
   "status": "proved",
   "theorems": [
    "Verif.Props.C37_joint_uninitialised",
    "Verif.Props.C37_auto_uninitialised",
    "Verif.Props.C37_moment_uninitialised"
   ],
   "note": "All metrics of both packages, any input."
  },
  {
   "property": "C38",
   "status": "partial",
   "theorems": [
    "Verif.Props.C38_new_core_partial",
    "Verif.Props.C38_nan_decay_refuted"
   ],
   "note": "Full characterisation for decays that are numbers; a NaN decay is accepted (refutation)."
  },
  {
   "property": "C39",
   "status": "proved",
   "theorems": [
    "Verif.Props.C39_merge_ok",
    "Verif.Props.C39_merge_error",
    "Verif.Props.C39_merge_order"
   ],
   "note": "Success, failure and order independence, all lists of configurations."
  },
  {
   "property": "C40",
   "status": "partial",
   "theorems": [
    "Verif.Props.C40_binom_partial",
    "Verif.Props.C40_binom_refuted",
    "Verif.Props.C40_core_sum_refuted"
   ],
   "note": "Exact for n <= 20; Binom(21,1) = -1 and Sum(21) of 0,2,4 is 2271562 instead of 0."
  },
  {
   "property": "C41",
   "status": "partial",
   "theorems": [
    "Verif.Props.C41_no_panic_partial",
    "Verif.Props.C41_push_panics_refuted"
   ],
   "note": "Exact boundary: with all exponents <= 65 no history panics, with one >= 66 the first Push panics."
  },
  {
   "property": "C42",
   "status": "proved",
   "theorems": [
    "Verif.Props.C42_sum_global",
    "Verif.Props.C42_sum_global_12",
    "Verif.Props.C42_bound_needed"
   ],
   "note": "All histories including rejected pushes; exponents at most 20 each and 62 in total (C42_bound_needed shows that a bound is needed), no hash collisions (automatic up to 12 variables, C42_sum_global_12)."
  },
  {
   "property": "C43",
   "status": "partial",
   "theorems": [
    "Verif.Props.C43_sum_window_partial",
    "Verif.Props.C43_overlap_refuted",
    "Verif.Props.C43_order_two",
    "Verif.Props.C43_exact"
   ],
   "note": "Refuted as stated: with {2,1} and {1,2} configured and window 2 the evicted point is removed twice from {1,1}. Proved for all streams and windows when no tuple of order two or more is below two configured ones; window 1 always. That condition is exact for windows of two or more (C43_exact): a core is right on all histories if and only if it holds. For any configuration C43_order_two gives the value of every sum of order two: the right one minus (number of configured tuples above it - 1) times the drift of the evicted points; count and means are always right."
  },
  {
   "property": "C44",
   "status": "proved",
   "theorems": [
    "Verif.Props.C44_decay"
   ],
   "note": "All streams and decays, overlapping tuples included; bounds on exponents as in C42."
  },
  {
   "property": "C45",
   "status": "proved",
   "theorems": [
    "Verif.Props.C45_cov",
    "Verif.Props.C45_ewmcov",
    "Verif.Props.C45_corr",
    "Verif.Props.C45_ewmcorr"
   ],
   "note": "All four metrics, all histories; the degenerate cases (one pair, zero variance) are NaN, never infinite."
  },
  {
   "property": "C46",
   "status": "proved",
   "theorems": [
    "Verif.Props.C46_autocov",
    "Verif.Props.C46_lag_zero",
    "Verif.Props.C46_autocorr"
   ],
   "note": "Both metrics, all lags and windows, exact error condition, lag 0."
  },
  {
   "property": "C47",
   "status": "proved",
   "theorems": [
    "Verif.Props.C47_arity",
    "Verif.Props.C47_histories",
    "Verif.Props.C47_metric"
   ],
   "note": "Every state of a core and of a metric; histories of cores of any configuration."
  },
  {
   "property": "C48",
   "status": "proved",
   "theorems": [
    "Verif.Props.C48_iter"
   ],
   "note": "Any tuple, any callback (state, errors, panics)."
  },
  {
   "property": "C49",
   "status": "partial",
   "theorems": [
    "Verif.Props.C49_hash_partial",
    "Verif.Props.C49_long_refuted"
   ],
   "note": "Refuted as stated from length 13 on; proved up to length 12."
  },
  {
   "property": "C50",
   "status": "partial",
   "theorems": [
    "Verif.Props.C50_sum_partial",
    "Verif.Props.C50_same_length",
    "Verif.Props.C50_collision_refuted",
    "Verif.Props.C50_zero_tuple_refuted"
   ],
   "note": "Refuted as stated: lookup is by hash only (Sum(32) answers for {1,1}), and the zero tuple gives 0 instead of the count. Proved for queries that collide with no other tracked tuple, in particular same-length queries with entries below 31, up to 12 variables."
  },
  {
   "property": "C51",
   "status": "partial",
   "theorems": [
    "Verif.Props.C51_conflict",
    "Verif.Props.C51_merge_partial",
    "Verif.Props.C51_length_refuted",
    "Verif.Props.C51_collision_refuted"
   ],
   "note": "Refuted as stated: tuples of different lengths panic or are dropped, colliding tuples are dropped. Conflicts in full; merging proved for tuples of one length without collisions."
  },
  {
   "property": "C52",
   "status": "partial",
   "theorems": [
    "Verif.Props.C52_exact",
    "Verif.Props.C52_new_core_partial",
    "Verif.Props.C52_nan_decay_refuted",
    "Verif.Props.C52_overflow_refuted"
   ],
   "note": "Exact characterisation for decays that are numbers (C52_exact); as stated for tuples with sum below 2^64. Refuted for NaN decays and for {2^63-1, 2^63-1, 2}."
  },
  {
   "property": "C53",
   "status": "partial",
   "theorems": [
    "Verif.Props.C53_alias_partial",
    "Verif.Props.C53_window_partial",
    "Verif.Props.C53_reuse_refuted"
   ],
   "note": "Refuted as stated: the window keeps the caller's slice. Proved for window 0, for slices never written after being pushed, and for slices written once they have left the window."
  },
  {
   "property": "C54",
   "status": "proved",
   "theorems": [
    "Verif.Props.C54_sample",
    "Verif.Props.C54_positions",
    "Verif.Props.C54_copy"
   ],
   "note": "All streams, all integer sizes (zero and negative included), arbitrary draws; the copy claim on a memory of arrays with client writes."
  },
  {
   "property": "C55",
   "status": "proved",
   "theorems": [
    "Verif.Props.C55_draws",
    "Verif.Props.C55_count",
    "Verif.Props.C55_uniform",
    "Verif.Props.C55_inclusion"
   ],
   "note": "Distribution of the sample set under independent uniform draws (PMF), counting form, inclusion probability; streams of arbitrary values via C54_positions."
  },
  {
   "property": "C56",
   "status": "proved",
   "theorems": [
    "Verif.Props.C56_push_delivers",
    "Verif.Props.C56_push_deterministic",
    "Verif.Props.C56_clear",
    "Verif.Props.C56_values_state",
    "Verif.Props.C56_history",
    "Verif.Props.C56_push_returns",
    "Verif.Props.C56_push_panics"
   ],
   "note": "Any number of metrics, every interleaving of their goroutines (transition system with wait group and mutex); calls of a metric are one transition. Termination and absence of deadlock included."
  },
  {
   "property": "C57",
   "status": "proved",
   "theorems": [
    "Verif.Props.C57_push",
    "Verif.Props.C57_values_errors",
    "Verif.Props.C57_values_map",
    "Verif.Props.C57_values_lookup",
    "Verif.Props.C57_values_any"
   ],
   "note": "Every interleaving; errors as a permutation of all failures; map exact for distinct names, and what remains true for equal names."
  },
  {
   "property": "C58",
   "status": "partial",
   "theorems": [
    "Verif.Props.C58_refuted",
    "Verif.Props.C58_names_partial",
    "Verif.Props.C58_other"
   ],
   "note": "Refuted as stated: the implementation of the order statistic is not part of the name. Proved for everything else, given that different decays are printed differently."
  },
  {
   "property": "C59",
   "status": "proved",
   "theorems": [
    "Verif.Props.C59_moment_core",
    "Verif.Props.C59_moment_metrics",
    "Verif.Props.C59_joint_core",
    "Verif.Props.C59_joint_metrics",
    "Verif.Props.C59_quantile",
    "Verif.Props.C59_median",
    "Verif.Props.C59_iqr",
    "Verif.Props.C59_heap_median",
    "Verif.Props.C59_max",
    "Verif.Props.C59_min",
    "Verif.Props.C59_reservoir",
    "Verif.Props.C59_steps"
   ],
   "note": "All executions of any number of goroutines, every metric, any division of the methods into atomic actions; a panic is a panic of the sequential execution, and there is no data race. Autocov and Autocorr, whose Value is two critical sections, are in C70."
  },
  {
   "property": "C60",
   "status": "partial",
   "theorems": [
    "Verif.Props.C60_refuted_auto",
    "Verif.Props.C60_readers_auto_partial",
    "Verif.Props.C60_refuted_moment",
    "Verif.Props.C60_refuted_joint",
    "Verif.Props.C60_refuted_iqr",
    "Verif.Props.C60_moment_core_partial",
    "Verif.Props.C60_ewm_moment_partial",
    "Verif.Props.C60_joint_core_partial",
    "Verif.Props.C60_ewm_cov_partial",
    "Verif.Props.C60_quantile_partial",
    "Verif.Props.C60_median_partial",
    "Verif.Props.C60_heap_median_partial",
    "Verif.Props.C60_max_partial",
    "Verif.Props.C60_min_partial",
    "Verif.Props.C60_reservoir_partial",
    "Verif.Props.C60_readers_moment_partial",
    "Verif.Props.C60_readers_joint_partial",
    "Verif.Props.C60_readers_iqr_partial"
   ],
   "note": "Refuted as stated: Value of Mean, Moment, Std, Skewness, Kurtosis, EWMA, Cov, Corr, EWMCorr, IQR, Autocov and Autocorr takes the read lock twice, and a Push that asks for the lock in between makes both wait for ever (the locks are those of sync.RWMutex, where a waiting writer blocks new readers). Proved in full for the other metrics and the cores; for the ones above, when no writer is in progress."
  },
  {
   "property": "C61",
   "status": "partial",
   "theorems": [
    "Verif.Props.C61_refuted_panic",
    "Verif.Props.C61_refuted_value",
    "Verif.Props.C61_small_partial",
    "Verif.Props.C61_one_partial",
    "Verif.Props.C61_grown_partial",
    "Verif.Props.C61_alone_partial",
    "Verif.Props.C61_joint_refuted",
    "Verif.Props.C61_mixed_small_partial",
    "Verif.Props.C61_mixed_one_partial",
    "Verif.Props.C61_mixed_grown_partial"
   ],
   "note": "Refuted as stated: the factorial table is a global slice grown without a lock. Two goroutines with exponents up to 9 can panic or corrupt the table for ever. Proved for exponents up to 7, for one goroutine with larger exponents among others with small ones, and once the table has been grown, for any mix of moment.Core and joint.Core. The header of the slice is read and written as a whole."
  },
  {
   "property": "C62",
   "status": "partial",
   "theorems": [
    "Verif.Props.C62_refuted",
    "Verif.Props.C62_lowering_partial"
   ],
   "note": "Refuted as stated: raising Size after the stream has exceeded it can panic. Proved when Size is only lowered."
  },
  {
   "property": "C63",
   "status": "partial",
   "theorems": [
    "Verif.Props.C63_avl_string",
    "Verif.Props.C63_rb_string_partial",
    "Verif.Props.C63_rb_string_select",
    "Verif.Props.C63_skip_string_partial",
    "Verif.Props.C63_skip_bottom_partial",
    "Verif.Props.C63_skip_string_refuted"
   ],
   "note": "AVL: proved for all histories. Red-black: for every reachable tree the string lists exactly Select(Size-1..0); that these are all the stored values only while Remove is right (C06). Skip list: refuted (equal values can make a width negative, strings.Repeat panics); proved for histories that never add a stored value; the bottom line is right in all histories."
  },
  {
   "property": "C64",
   "status": "proved",
   "theorems": [
    "Verif.Props.C64_exact",
    "Verif.Props.C64_any_arithmetic"
   ],
   "note": "Proved for every arithmetic (no laws assumed), exponents at most 65. C64_exact: at exact arithmetic the model is that of C30-C33."
  },
  {
   "property": "C65",
   "status": "proved",
   "theorems": [
    "Verif.Props.C65_constant"
   ],
   "note": "Proved for every rounding that fixes 0, 1 and x and every power function with 0^k = 0."
  },
  {
   "property": "C66",
   "status": "partial",
   "theorems": [
    "Verif.Props.C66_variance_partial",
    "Verif.Props.C66_window_refuted",
    "Verif.Props.C66_std_nan_refuted"
   ],
   "note": "Refuted for windowed cores: in binary64, window 2, pushing 0.1, 0.7, 0.7 leaves Sum(2) negative, and Std of [0.7, 0.7] is NaN. Proved for cores with window 0, with and without decay, for every monotone rounding."
  },
  {
   "property": "C67",
   "status": "partial",
   "theorems": [
    "Verif.Props.C67_mean_range_partial",
    "Verif.Props.C67_window_refuted"
   ],
   "note": "Refuted for windowed cores: in binary64, window 2, pushing 1e16, 1, 1 gives Mean 0.5. Proved for cores with window 0, with and without decay."
  },
  {
   "property": "C68",
   "status": "partial",
   "theorems": [
    "Verif.Props.C68_poison_refuted",
    "Verif.Props.C68_window_one_partial",
    "Verif.Props.C68_clear_partial"
   ],
   "note": "Refuted for every window of at least 2: Mean and all Sum(k), k at least 2, stay NaN until Clear. Proved for window 1 and after Clear, in any arithmetic."
  },
  {
   "property": "C69",
   "status": "proved",
   "theorems": [
    "Verif.Props.C69_mean_accuracy",
    "Verif.Props.C69_ewma_accuracy",
    "Verif.Props.C69_window_drift"
   ],
   "note": "Proved for rnd64 (round to nearest even, 53 bits, gradual underflow; overflow excluded since values are rationals and rnd64 has no upper exponent bound). No fused multiply-add."
  },
  {
   "property": "C70",
   "status": "partial",
   "theorems": [
    "Verif.Props.C70_partial",
    "Verif.Props.C70_clear_partial",
    "Verif.Props.C70_steps_partial",
    "Verif.Props.C70_refuted"
   ],
   "note": "Refuted as stated: Value looks at the count and computes its result in two critical sections; a Clear in between gives an error message that no order of the calls explains. Proved in full when nobody calls Clear, and with Clear up to that one message: every execution, any number of goroutines, any division into atomic actions, no data race."
  },
  {
   "property": "C71",
   "status": "partial",
   "theorems": [
    "Verif.Props.C71_bracket_partial",
    "Verif.Props.C71_linear_refuted",
    "Verif.Props.C71_bracket_error_partial",
    "Verif.Props.C71_mono_partial",
    "Verif.Props.C71_iqr_partial",
    "Verif.Props.C71_medians_agree",
    "Verif.Props.C71_heap_median_bracket_partial",
    "Verif.Props.C71_overflow_refuted",
    "Verif.Props.C71_index_refuted"
   ],
   "note": "Refuted for Linear, the default interpolation: a window holding 0.1 twice has a 0.2-quantile above and a 0.29-quantile below 0.1; the excess is proved to be at most 4 units of relative rounding error. Refuted with overflow: the median of twice 2^1023 is +Inf and the IQR is NaN. Values below 2^1023 never overflow (C102). Proved without overflow for the other interpolations: bracket (all containers, HeapMedian with any window but 1), monotonicity and IQR >= 0 (trees), agreement of Median (AVL) and global HeapMedian to the bit and their accuracy. Also: rounding of q*(n-1) can move the answer by a whole element (C71_index_refuted)."
  },
  {
   "property": "C72",
   "status": "proved",
   "theorems": [
    "Verif.Props.C72_exact",
    "Verif.Props.C72_any_arithmetic",
    "Verif.Props.C72_panic",
    "Verif.Props.C72_iff",
    "Verif.Props.C72_exact_iff"
   ],
   "note": "Proved for exponents at most 65 over an arbitrary set of operations; for any larger exponent the first Push is proved to panic, so the condition is exact (also for the exact model). Lookup is by hash, as in C50."
  },
  {
   "property": "C73",
   "status": "partial",
   "theorems": [
    "Verif.Props.C73_moment",
    "Verif.Props.C73_joint",
    "Verif.Props.C73_joint_window_partial",
    "Verif.Props.C73_joint_refuted"
   ],
   "note": "Proved for the moment core in full (exponents up to 65, any operations whatsoever) and for joint cores without a window or with window 1 or decay. Windowed joint cores: proved in rounded arithmetic for configurations without overlapping tuples, refuted otherwise (C73_joint_refuted, even in exact arithmetic)."
  },
  {
   "property": "C74",
   "status": "partial",
   "theorems": [
    "Verif.Props.C74_mean",
    "Verif.Props.C74_square_partial",
    "Verif.Props.C74_product_partial",
    "Verif.Props.C74_overlap_refuted"
   ],
   "note": "The mean in full, over any operations; the sums of order two in rounded arithmetic for configurations without collisions and, with a window of two or more, without overlapping tuples; with overlapping tuples refuted (the joint core is wrong there, C43). Hypothesis on math.Pow: exact at exponents 0 and 1, representable results."
  },
  {
   "property": "C75",
   "status": "partial",
   "theorems": [
    "Verif.Props.C75_range_partial",
    "Verif.Props.C75_window_range_refuted",
    "Verif.Props.C75_overflow_refuted",
    "Verif.Props.C75_symmetric",
    "Verif.Props.C75_equal_sums",
    "Verif.Props.C75_self_partial",
    "Verif.Props.C75_window_refuted",
    "Verif.Props.C75_range_refuted",
    "Verif.Props.C75_underflow_refuted",
    "Verif.Props.C75_window_range_partial"
   ],
   "note": "Symmetry proved in full, to the bit. Equal variables: the three sums are equal to the bit, and the value is exactly 1 when the sum of squares is at least 2^-511, with a correctly rounded square root (C75_self_partial). Range without a window, EWMCorr included: after n points |Corr| is at most 1 + (5n+12)*2^-53 when both sums of squares are at least 2^-511, for every history (C75_range_partial). With a window, |Corr| is at most 1 + 4*delta under the conditions of C109 (C75_window_range_partial). Refuted otherwise: a windowed Corr of a variable with itself is -1 for a non-constant window, a windowed Corr of three small integer points is above 10^7, the range is exceeded by 2^-52 for three points without a window, underflow gives +Inf, and overflow gives 0 for two equal variables."
  },
  {
   "property": "C76",
   "status": "proved",
   "theorems": [
    "Verif.Props.C76_constant"
   ],
   "note": "In full for exponents up to 65 (beyond, Push panics, C72), in any rounded arithmetic, including configurations with overlapping tuples and hash collisions."
  },
  {
   "property": "C77",
   "status": "partial",
   "theorems": [
    "Verif.Props.C77_mean_range_partial",
    "Verif.Props.C77_variance_partial",
    "Verif.Props.C77_mean_accuracy",
    "Verif.Props.C77_window_drift",
    "Verif.Props.C77_window_refuted"
   ],
   "note": "Range and sign proved without a window, with or without decay; refuted with a window of two. Accuracy of the means proved without a window and, growing with the number of pushes, with one. From the moment core theorems C66, C67, C69 through C74."
  },
  {
   "property": "C78",
   "status": "partial",
   "theorems": [
    "Verif.Props.C78_poison_refuted",
    "Verif.Props.C78_clear_partial",
    "Verif.Props.C78_window_one_partial"
   ],
   "note": "Refuted for every window of two or more: the mean of that variable and every tracked sum involving it stay NaN until Clear. Proved for window 1, and that Clear gives back exactly the new core."
  },
  {
   "property": "C79",
   "status": "partial",
   "theorems": [
    "Verif.Props.C79_moment_partial",
    "Verif.Props.C79_moment_reuse_partial",
    "Verif.Props.C79_default_partial",
    "Verif.Props.C79_default_refuted",
    "Verif.Props.C79_joint_partial",
    "Verif.Props.C79_joint_reuse_partial",
    "Verif.Props.C79_moment_refuted",
    "Verif.Props.C79_joint_refuted"
   ],
   "note": "Refuted: a core keeps the pointer to Decay (both packages) and the slice of tuples (joint), nil Sums become one map shared by all configurations (moment; a bad key written there makes NewCore fail for every other such configuration for ever), and the inferred Vars are written to the configuration (joint). Proved for all histories without such writes, and that NewCore leaves other configurations alone and can be repeated."
  },
  {
   "property": "C80",
   "status": "partial",
   "theorems": [
    "Verif.Props.C80_new",
    "Verif.Props.C80_nil",
    "Verif.Props.C80_median",
    "Verif.Props.C80_options_partial",
    "Verif.Props.C80_exact",
    "Verif.Props.C80_options_refuted"
   ],
   "note": "The metric is right in every case. Refuted for the slices: append writes InterpolationOption(Midpoint) into the spare capacity of the passed slice; exactly then, and only the element just behind it."
  },
  {
   "property": "C81",
   "status": "partial",
   "theorems": [
    "Verif.Props.C81_negate_moment",
    "Verif.Props.C81_negate_joint",
    "Verif.Props.C81_negate_corr",
    "Verif.Props.C81_scale_moment_partial",
    "Verif.Props.C81_scale_joint_partial",
    "Verif.Props.C81_scale_refuted",
    "Verif.Props.C81_shift_refuted",
    "Verif.Props.C81_collision_refuted"
   ],
   "note": "Signs: proved in full for every arithmetic symmetric about zero (binary64 with infinities and NaN), any window or decay, overlapping tuples included; colliding tuples refuted. Units: proved for a rounding with unbounded exponents, refuted in binary64 by underflow. Origin: refuted (0, 2, 4 plus 2^53); exact arithmetic is C35."
  },
  {
   "property": "C82",
   "status": "proved",
   "theorems": [
    "Verif.Props.C82_sum_accuracy",
    "Verif.Props.C82_variance_accuracy",
    "Verif.Props.C82_window_drift",
    "Verif.Props.C82_not_relative"
   ],
   "note": "Proved for rnd64 (no overflow, no fused multiply-add); of math.Pow only that squares are within an ulp and that the first power of a count is the count (PowSq), which a correctly rounded power has."
  },
  {
   "property": "C83",
   "status": "proved",
   "theorems": [
    "Verif.Props.C83_sum_accuracy",
    "Verif.Props.C83_cov_accuracy",
    "Verif.Props.C83_window_drift",
    "Verif.Props.C83_square_drift",
    "Verif.Props.C83_not_relative"
   ],
   "note": "Proved for rnd64, as C82; the cores without collisions and overlaps are those C43 and C44 are about, and the configurations of Cov and Corr are among them."
  },
  {
   "property": "C84",
   "status": "partial",
   "theorems": [
    "Verif.Props.C84_quantile",
    "Verif.Props.C84_quantile_rb_refuted",
    "Verif.Props.C84_heap_median",
    "Verif.Props.C84_heap_median_window_refuted",
    "Verif.Props.C84_min_max",
    "Verif.Props.C84_joint_partial",
    "Verif.Props.C84_mean_refuted"
   ],
   "note": "Proved for Quantile in any arithmetic, to the bit, also across containers and windows (AVL for all streams, red-black and skip list for the streams they handle), for global HeapMedian in any arithmetic, for Max and Min; for moment cores in exact arithmetic (C32_order) and joint cores in exact arithmetic (C84_joint_partial). Refuted for red-black windows with duplicates, windowed HeapMedian, and Mean in binary64 (0, 1, 3 against 0, 3, 1)."
  },
  {
   "property": "C85",
   "status": "partial",
   "theorems": [
    "Verif.Props.C85_avl_partial",
    "Verif.Props.C85_rb_partial",
    "Verif.Props.C85_skip_partial",
    "Verif.Props.C85_heap_median",
    "Verif.Props.C85_minmax_partial",
    "Verif.Props.C85_moment",
    "Verif.Props.C85_joint",
    "Verif.Props.C85_auto",
    "Verif.Props.C85_nan_refuted",
    "Verif.Props.C85_avl_skip_nan_refuted"
   ],
   "note": "Proved for AVL, red-black, skip list, Max and Min without NaN; for HeapMedian with any comparison, NaN included; for moment and joint cores in any arithmetic; for Autocov/Autocorr in exact arithmetic. Refuted with NaN: n NaN leave n nodes in a red-black tree and n deque entries in Max/Min, whatever the window; AVL and skip list by concrete runs."
  },
  {
   "property": "C86",
   "status": "partial",
   "theorems": [
    "Verif.Props.C86_avl_push",
    "Verif.Props.C86_avl_value",
    "Verif.Props.C86_rb_partial",
    "Verif.Props.C86_rb_push_refuted",
    "Verif.Props.C86_rb_push_log_refuted",
    "Verif.Props.C86_heap_median_push"
   ],
   "note": "AVL: Push and Value proved logarithmic for all streams. Red-black: Value logarithmic, Push at most the square of a logarithm, on streams whose evicted values are unique; the logarithm for Push is refuted for every window size (remove searches the subtree again at each level). HeapMedian: Push logarithmic, NaN included. Skip list: see C88."
  },
  {
   "property": "C87",
   "status": "partial",
   "theorems": [
    "Verif.Props.C87_moment",
    "Verif.Props.C87_moment_exact",
    "Verif.Props.C87_joint",
    "Verif.Props.C87_joint_window_partial",
    "Verif.Props.C87_joint_window_lower_partial"
   ],
   "note": "Moment cores: proved in full, and exactly k(k-1)/2 iterations without a window. Joint cores without a window: proved. With a window: an additional term t*s, s being the number of tracked sums, proved as upper and lower bound: remove copies all sums once per tuple (core.go:324-326). For all pairs of d variables this is of order d^4 against the documented d^3; no single family refutes the O() because the 64-bit hash bounds s."
  },
  {
   "property": "C88",
   "status": "partial",
   "theorems": [
    "Verif.Props.C88_rank",
    "Verif.Props.C88_remove",
    "Verif.Props.C88_add",
    "Verif.Props.C88_select_partial",
    "Verif.Props.C88_add_ge",
    "Verif.Props.C88_go",
    "Verif.Props.C88_default",
    "Verif.Props.C88_log_refuted"
   ],
   "note": "With a fixed number M of levels the average is proved to be at most a constant plus the number of smaller values times the share of nodes of the largest height, and at least that product; so with the default options (12 levels, p = 1/4) it is below 45 (Rank), 57 (Remove), 138 (Add) plus one step per 4 million smaller values, and the logarithm is refuted in the limit. Select: for histories without equal values. The thresholds of math/rand Float64 are derived from binary64 rounding; uniformity and independence of the 63-bit integers are assumed."
  },
  {
   "property": "C89",
   "status": "partial",
   "theorems": [
    "Verif.Props.C89_auto",
    "Verif.Props.C89_moment",
    "Verif.Props.C89_joint",
    "Verif.Props.C89_quantile",
    "Verif.Props.C89_heap_median",
    "Verif.Props.C89_minmax_partial",
    "Verif.Props.C89_nan_refuted"
   ],
   "note": "Moment cores, joint cores, Autocov and Autocorr (the window holds pairs, so w + lag values fit), quantiles over any container and HeapMedian to the bit in any arithmetic, NaN included. Max and Min for totally ordered values; with NaN refuted (3, NaN: 3 with window 2, NaN without)."
  },
  {
   "property": "C90",
   "status": "partial",
   "theorems": [
    "Verif.Props.C90_moment",
    "Verif.Props.C90_moment_metric",
    "Verif.Props.C90_quantile",
    "Verif.Props.C90_heap_median",
    "Verif.Props.C90_minmax",
    "Verif.Props.C90_joint",
    "Verif.Props.C90_pair",
    "Verif.Props.C90_auto_partial",
    "Verif.Props.C90_auto_refuted",
    "Verif.Props.C90_aggregate_refuted"
   ],
   "note": "Proved for moment cores and joint cores (exponents up to 65) in any arithmetic, the metrics of both packages, quantiles over any container, HeapMedian, Max and Min: only a missing core and a wrong number of values make Push fail, without effect. Refuted for Autocov and Autocorr with a core of other than two variables (SetCore): the failed Push loses a value of the lag queue; with the core of Init they never fail. Refuted for aggregates: the other metrics have consumed the value."
  },
  {
   "property": "C91",
   "status": "partial",
   "theorems": [
    "Verif.Props.C91_mean",
    "Verif.Props.C91_std",
    "Verif.Props.C91_outlier",
    "Verif.Props.C91_median",
    "Verif.Props.C91_heap_median",
    "Verif.Props.C91_skewness",
    "Verif.Props.C91_kurtosis",
    "Verif.Props.C91_skewness_sharp",
    "Verif.Props.C91_rounding_refuted"
   ],
   "note": "In exact arithmetic all inequalities are proved between the metrics themselves; C91_skewness_sharp shows that the bound on the skewness is attained. In binary64 with a window they are refuted (C91_rounding_refuted): the values 0, 2, 1 after 846876518 have Sum(2) below 1e-14. The upper bound n-4 of the kurtosis is attained only for n = 2."
  },
  {
   "property": "C92",
   "status": "partial",
   "theorems": [
    "Verif.Props.C92_avl_no_panic_partial",
    "Verif.Props.C92_rb_global_no_panic_partial",
    "Verif.Props.C92_rb_window_no_panic_partial",
    "Verif.Props.C92_rb_window_panics_refuted",
    "Verif.Props.C92_heap_median_global_no_panic_partial",
    "Verif.Props.C92_skip_panics_refuted",
    "Verif.Props.C92_heap_median_one_panics_refuted",
    "Verif.Props.C92_heap_median_panics_refuted",
    "Verif.Props.C92_rb_never_forgets_refuted",
    "Verif.Props.C92_avl_never_forgets_refuted"
   ],
   "note": "Proved for any stream with NaNs: AVL tree with any window, red-black tree and HeapMedian without window never panic and Value returns. Refuted: skip list panics when a NaN and the next value both get level 2, HeapMedian with a window panics, the red-black tree and the AVL tree keep the NaN for ever and return wrong medians of windows without NaN. The red-black tree with a window never panics if no number is pushed twice; refuted in general: window 3 with always different values in it panics."
  },
  {
   "property": "C93",
   "status": "proved",
   "theorems": [
    "Verif.Props.C93_sum_accuracy",
    "Verif.Props.C93_moment_accuracy",
    "Verif.Props.C93_ewm_accuracy"
   ],
   "note": ""
  },
  {
   "property": "C94",
   "status": "proved",
   "theorems": [
    "Verif.Props.C94_mean",
    "Verif.Props.C94_window",
    "Verif.Props.C94_sum",
    "Verif.Props.C94_moment",
    "Verif.Props.C94_ewm",
    "Verif.Props.C94_large_overflow"
   ],
   "note": ""
  },
  {
   "property": "C95",
   "status": "partial",
   "theorems": [
    "Verif.Props.C95_ewma_partial",
    "Verif.Props.C95_window_one_partial",
    "Verif.Props.C95_window_two_refuted",
    "Verif.Props.C95_window_two_no_constant_refuted",
    "Verif.Props.C95_global_refuted",
    "Verif.Props.C95_global_no_constant_refuted"
   ],
   "note": "Proved for EWMA (C = 7/decay, any number of values) and for windows of one (no error). Refuted without a window: after 2^j ones Mean stays exactly 1 however many values 1+2^(j-53) follow, so the error after N values can be N/8 units (the bound of C69 is sharp up to a factor of four). Refuted for windows of two: a stream of period 3 moves Mean by two units per round, proved up to 2^48 rounds."
  },
  {
   "property": "C96",
   "status": "partial",
   "theorems": [
    "Verif.Props.C96_sum_partial",
    "Verif.Props.C96_variance_partial",
    "Verif.Props.C96_monotone",
    "Verif.Props.C96_kurtosis_partial",
    "Verif.Props.C96_skewness_partial",
    "Verif.Props.C96_window_zero_refuted",
    "Verif.Props.C96_window_const_refuted",
    "Verif.Props.C96_underflow_refuted",
    "Verif.Props.C96_decay_refuted",
    "Verif.Props.C96_kurtosis_window_refuted",
    "Verif.Props.C96_skewness_two_refuted"
   ],
   "note": "Proved for binary64 without a window and decay: Sum(2) is 0 for constant data and at least g^2/4 otherwise, where g (at least 2^-480) bounds the distances from the first value from below; the same for the variance; Sum(2) is monotone; with infinities and NaN in the arithmetic, Kurtosis is NaN exactly for constant data and so is Skewness except for two values (values up to 2^200, distances at least 2^-200, up to 2^36 values). Refuted for windows (both directions: zero variance of the window 1, 0; Sum(2) = 2^53 and Kurtosis = 3.6e16 for a constant window), for decays (underflow), for distances whose squares underflow, and for Skewness of two values (0 times infinity)."
  },
  {
   "property": "C97",
   "status": "proved",
   "theorems": [
    "Verif.Props.C97_kurtosis_accuracy",
    "Verif.Props.C97_std_accuracy",
    "Verif.Props.C97_skewness_accuracy",
    "Verif.Props.C97_not_uniform"
   ],
   "note": ""
  },
  {
   "property": "C98",
   "status": "proved",
   "theorems": [
    "Verif.Props.C98_square_accuracy",
    "Verif.Props.C98_corr_accuracy",
    "Verif.Props.C98_not_uniform"
   ],
   "note": ""
  },
  {
   "property": "C99",
   "status": "proved",
   "theorems": [
    "Verif.Props.C99_prints",
    "Verif.Props.C99_table",
    "Verif.Props.C99_moment",
    "Verif.Props.C99_minmax",
    "Verif.Props.C99_quantile",
    "Verif.Props.C99_quantile_counts",
    "Verif.Props.C99_joint"
   ],
   "note": "Exact arithmetic; the text of the table (encoding/json) is not modelled, only which entries it has and that it cannot be produced with an infinite or NaN entry."
  },
  {
   "property": "C100",
   "status": "partial",
   "theorems": [
    "Verif.Props.C100_evicts_newest_refuted",
    "Verif.Props.C100_every_window_refuted",
    "Verif.Props.C100_stuck_two_refuted",
    "Verif.Props.C100_stuck_five_refuted",
    "Verif.Props.C100_increasing_three_partial"
   ],
   "note": "Refuted for every window from 2 on: whenever the second value is not greater than the first, the value after w+2 pushes is the median of a wrong list (C100_evicts_newest_refuted), with an error of any size (C100_every_window_refuted); with windows 2 and 5 a value stays for ever (C100_stuck_two_refuted, C100_stuck_five_refuted). Proved: window 3 is right on increasing streams. What is kept in general is C22_heap_median_window_partial."
  },
  {
   "property": "C101",
   "status": "proved",
   "theorems": [
    "Verif.Props.C101_avl",
    "Verif.Props.C101_rb",
    "Verif.Props.C101_skip",
    "Verif.Props.C101_quantile",
    "Verif.Props.C101_heap_median",
    "Verif.Props.C101_max",
    "Verif.Props.C101_min"
   ],
   "note": "All cases proved. The containers, Quantile and the runs of HeapMedian need no correctness of the containers, so the theorems cover the histories on which they are wrong as well. Linear and Midpoint calculate with the data and do not commute (example)."
  },
  {
   "property": "C102",
   "status": "proved",
   "theorems": [
    "Verif.Props.C102_new",
    "Verif.Props.C102_quantile",
    "Verif.Props.C102_median_iqr",
    "Verif.Props.C102_heap_median",
    "Verif.Props.C102_medians_agree"
   ],
   "note": "All cases proved: Quantile (C102_quantile), Median and IQR (C102_median_iqr), HeapMedian with every window (C102_heap_median), and the constructors accept the same options (C102_new). The bound is sharp by C71_overflow_refuted."
  },
  {
   "property": "C103",
   "status": "proved",
   "theorems": [
    "Verif.Props.C103_ewmcov_accuracy",
    "Verif.Props.C103_square_accuracy",
    "Verif.Props.C103_ewmstd_accuracy",
    "Verif.Props.C103_ewmcorr_accuracy"
   ],
   "note": ""
  },
  {
   "property": "C104",
   "status": "proved",
   "theorems": [
    "Verif.Props.C104_ewma",
    "Verif.Props.C104_ewm_moment",
    "Verif.Props.C104_ewmcov",
    "Verif.Props.C104_ewm_std",
    "Verif.Props.C104_ewma_rounded",
    "Verif.Props.C104_ewm_moment_rounded",
    "Verif.Props.C104_ewmcov_rounded",
    "Verif.Props.C104_ewmcorr",
    "Verif.Props.C104_ewmcorr_rounded",
    "Verif.Props.C104_ewmcorr_constant"
   ],
   "note": "EWMCorr forgets as long as the weighted variances stay away from zero (C104_ewmcorr, C104_ewmcorr_rounded); C104_ewmcorr_constant shows that it does not otherwise."
  },
  {
   "property": "C105",
   "status": "proved",
   "theorems": [
    "Verif.Props.C105_sum",
    "Verif.Props.C105_square",
    "Verif.Props.C105_cov",
    "Verif.Props.C105_ewmcov",
    "Verif.Props.C105_ewsquare",
    "Verif.Props.C105_large",
    "Verif.Props.C105_window_sum",
    "Verif.Props.C105_window_square"
   ],
   "note": "With a window the sums are covered here, Cov and Autocov in C110. Corr and EWMCorr can overflow within these limits (C75: the product of the two sums)."
  },
  {
   "property": "C106",
   "status": "partial",
   "theorems": [
    "Verif.Props.C106_lagged_pairs",
    "Verif.Props.C106_clear",
    "Verif.Props.C106_autocov_accuracy",
    "Verif.Props.C106_autocov_ieee",
    "Verif.Props.C106_autocorr_accuracy",
    "Verif.Props.C106_negate",
    "Verif.Props.C106_window_autocov_refuted",
    "Verif.Props.C106_poison_refuted",
    "Verif.Props.C106_window_autocorr_refuted"
   ],
   "note": "The accuracy is proved without a window and refuted with one; with a condition on the whole history it holds with a window, too (C109_autocorr)."
  },
  {
   "property": "C107",
   "status": "proved",
   "theorems": [
    "Verif.Props.C107_ewmstd",
    "Verif.Props.C107_corr",
    "Verif.Props.C107_ewmcorr",
    "Verif.Props.C107_autocorr",
    "Verif.Props.C107_kurtosis_large",
    "Verif.Props.C107_corr_large",
    "Verif.Props.C107_std",
    "Verif.Props.C107_kurtosis",
    "Verif.Props.C107_skewness"
   ],
   "note": "Windows other than 0 are not covered here; Std with a window is in C109 (C82, C96: eviction makes the ratios arbitrarily wrong)."
  },
  {
   "property": "C108",
   "status": "partial",
   "theorems": [
    "Verif.Props.C108_max",
    "Verif.Props.C108_min",
    "Verif.Props.C108_quantile_avl",
    "Verif.Props.C108_quantile_impl_partial",
    "Verif.Props.C108_iqr_avl",
    "Verif.Props.C108_heap_median_global",
    "Verif.Props.C108_heap_median_window_refuted",
    "Verif.Props.C108_mean",
    "Verif.Props.C108_ewma",
    "Verif.Props.C108_std",
    "Verif.Props.C108_ewmstd",
    "Verif.Props.C108_quantile_rounded",
    "Verif.Props.C108_heap_median_rounded",
    "Verif.Props.C108_mean_last_partial",
    "Verif.Props.C108_mean_refuted"
   ],
   "note": "In exact arithmetic proved for all metrics but HeapMedian with a window, for which it is refuted, and Quantile with the other containers on histories that they get wrong (C14). Monotonicity in binary64 (without overflow) proved for Quantile with the default container, all methods, and for HeapMedian; refuted for Mean and EWMA, where it holds for the last value."
  },
  {
   "property": "C109",
   "status": "proved",
   "theorems": [
    "Verif.Props.C109_corr_ieee",
    "Verif.Props.C109_autocorr_ieee",
    "Verif.Props.C109_std_ieee",
    "Verif.Props.C109_std",
    "Verif.Props.C109_corr",
    "Verif.Props.C109_autocorr",
    "Verif.Props.C109_outlier_forever",
    "Verif.Props.C109_corr_outlier_forever"
   ],
   "note": "Skewness and Kurtosis with a window are not covered."
  },
  {
   "property": "C110",
   "status": "proved",
   "theorems": [
    "Verif.Props.C110_cov_ieee",
    "Verif.Props.C110_autocov_ieee",
    "Verif.Props.C110_cov_large",
    "Verif.Props.C110_variance",
    "Verif.Props.C110_cov",
    "Verif.Props.C110_autocov",
    "Verif.Props.C110_cov_outlier_forever",
    "Verif.Props.C110_variance_ieee"
   ],
   "note": ""
  },
  {
   "property": "C111",
   "status": "partial",
   "theorems": [
    "Verif.Props.C111_passed",
    "Verif.Props.C111_nine_decimals",
    "Verif.Props.C111_between",
    "Verif.Props.C111_near_zero",
    "Verif.Props.C111_far_zero",
    "Verif.Props.C111_self",
    "Verif.Props.C111_large_refuted",
    "Verif.Props.C111_neighbours_refuted",
    "Verif.Props.C111_slice"
   ],
   "note": "Proved for numbers up to 500000 in absolute value: a difference above 1e-9 fails. Up to 2^990 a passed assertion means a difference of at most 6e-10 + 3*2^-53*(|x|+|y|). Refuted: from 2^1000 on any two numbers pass, even against +Inf; two neighbouring numbers can fail (the grid is fixed). Sure to pass: numbers up to 24e-11 against 0. Sure to fail against 0: numbers from 26e-11 to 2^990."
  }
 ]
}
