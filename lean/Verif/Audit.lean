import Verif.Props.Aggregate
import Verif.Props.Approx
import Verif.Props.AutoFP
import Verif.Props.AutoFits
import Verif.Props.AutoLocks
import Verif.Props.Avl
import Verif.Props.Clear
import Verif.Props.ConfigAlias
import Verif.Props.CoreCost
import Verif.Props.CorrAccuracy
import Verif.Props.CorrIEEE
import Verif.Props.CorrRange
import Verif.Props.Cost
import Verif.Props.Covariance
import Verif.Props.Drift
import Verif.Props.EwAccuracy
import Verif.Props.Examples
import Verif.Props.Factorials
import Verif.Props.Failed
import Verif.Props.Fits
import Verif.Props.Forget
import Verif.Props.HeapMedian
import Verif.Props.HeapPackage
import Verif.Props.HeapStale
import Verif.Props.HighMoments
import Verif.Props.Inequalities
import Verif.Props.JointConfig
import Verif.Props.JointCore
import Verif.Props.JointFP
import Verif.Props.JointFactorials
import Verif.Props.JointMetric
import Verif.Props.JointNumeric
import Verif.Props.JointOverflow
import Verif.Props.JointRounded
import Verif.Props.JointWindowIEEE
import Verif.Props.Locks
import Verif.Props.MinMax
import Verif.Props.Moment
import Verif.Props.Names
import Verif.Props.NoOverflow
import Verif.Props.OptionAlias
import Verif.Props.Order
import Verif.Props.Ordinal
import Verif.Props.Overlap
import Verif.Props.Pointwise
import Verif.Props.QuantOverflow
import Verif.Props.Quantile
import Verif.Props.QuantileFP
import Verif.Props.QuantileNaN
import Verif.Props.Ratios
import Verif.Props.RatiosIEEE
import Verif.Props.Rb
import Verif.Props.Rounded
import Verif.Props.Sample
import Verif.Props.Share
import Verif.Props.SkipExpect
import Verif.Props.SkipList
import Verif.Props.Space
import Verif.Props.Strings
import Verif.Props.Symmetry
import Verif.Props.Variance
import Verif.Props.WindowCov
import Verif.Props.WindowIEEE
import Verif.Props.WindowRatios
import Verif.Props.ZeroVar

/-! Axioms of every property theorem (generated by tools/mkmanifest.py). -/

#print axioms Verif.Props.C01_avl_contents
#print axioms Verif.Props.C02_avl_select
#print axioms Verif.Props.C03_avl_rank_refuted
#print axioms Verif.Props.C03_avl_rank_partial
#print axioms Verif.Props.C03_avl_select_rank_partial
#print axioms Verif.Props.C04_avl_no_panic
#print axioms Verif.Props.C05_avl_balanced
#print axioms Verif.Props.C06_rb_contents_refuted
#print axioms Verif.Props.C06_rb_contents_partial
#print axioms Verif.Props.C06_rb_add_only_partial
#print axioms Verif.Props.C07_rb_select_rank_refuted
#print axioms Verif.Props.C07_rb_select_rank_partial
#print axioms Verif.Props.C08_rb_no_panic_refuted
#print axioms Verif.Props.C08_rb_no_panic_partial
#print axioms Verif.Props.C09_rb_balanced_refuted
#print axioms Verif.Props.C09_rb_balanced_partial
#print axioms Verif.Props.C10_avl_rb_refuted
#print axioms Verif.Props.C10_avl_rb_partial
#print axioms Verif.Props.C11_skip_contents
#print axioms Verif.Props.C12_skip_select_rank_refuted
#print axioms Verif.Props.C12_skip_select_rank_partial
#print axioms Verif.Props.C12_skip_select_member_partial
#print axioms Verif.Props.C13_skip_no_panic
#print axioms Verif.Props.C14_quantile_avl
#print axioms Verif.Props.C14_quantile_rb_refuted
#print axioms Verif.Props.C14_quantile_impl_partial
#print axioms Verif.Props.C14_quantile_rb_global_partial
#print axioms Verif.Props.C15_quantile_errors
#print axioms Verif.Props.C15_quantile_errors_avl
#print axioms Verif.Props.C16_quantile_bracket
#print axioms Verif.Props.C16_quantile_mono_trees
#print axioms Verif.Props.C16_skip_mono_refuted
#print axioms Verif.Props.C16_skip_mono_partial
#print axioms Verif.Props.C17_quantile_rounding
#print axioms Verif.Props.C18_median_iqr_avl
#print axioms Verif.Props.C18_median_iqr_impl_partial
#print axioms Verif.Props.C18_median_refuted
#print axioms Verif.Props.C19_quantile_nan_refuted
#print axioms Verif.Props.C20_quantile_options
#print axioms Verif.Props.C21_heap_median_global
#print axioms Verif.Props.C22_heap_median_window_refuted
#print axioms Verif.Props.C22_heap_median_window_partial
#print axioms Verif.Props.C22_heap_median_window_one_partial
#print axioms Verif.Props.C23_heap_median_panics_refuted
#print axioms Verif.Props.C23_heap_median_no_panic_partial
#print axioms Verif.Props.C23_heap_median_window_one_partial
#print axioms Verif.Props.C23_new_heap_median
#print axioms Verif.Props.C24_heap_invariants
#print axioms Verif.Props.C24_heap_new
#print axioms Verif.Props.C24_heap_step
#print axioms Verif.Props.C24_heap_peek
#print axioms Verif.Props.C25_max
#print axioms Verif.Props.C25_new_max
#print axioms Verif.Props.C26_min
#print axioms Verif.Props.C26_new_min
#print axioms Verif.Props.C27_duality
#print axioms Verif.Props.C28_max_total_cost
#print axioms Verif.Props.C28_min_total_cost
#print axioms Verif.Props.C28_deque_bound_partial
#print axioms Verif.Props.C28_deque_bound_refuted
#print axioms Verif.Props.C29_max_nan_refuted
#print axioms Verif.Props.C29_min_nan_refuted
#print axioms Verif.Props.C29_clear_partial
#print axioms Verif.Props.C29_global_max
#print axioms Verif.Props.C29_global_min
#print axioms Verif.Props.C30_count_mean
#print axioms Verif.Props.C31_sum
#print axioms Verif.Props.C32_remove_undoes_add
#print axioms Verif.Props.C32_order
#print axioms Verif.Props.C33_ewma
#print axioms Verif.Props.C33_ewm_moment
#print axioms Verif.Props.C33_weights
#print axioms Verif.Props.C33_ewm_std
#print axioms Verif.Props.C34_mean
#print axioms Verif.Props.C34_moment
#print axioms Verif.Props.C34_std
#print axioms Verif.Props.C34_skewness
#print axioms Verif.Props.C34_kurtosis
#print axioms Verif.Props.C35_affine
#print axioms Verif.Props.C35_variance
#print axioms Verif.Props.C35_kurtosis
#print axioms Verif.Props.C36_moment_core
#print axioms Verif.Props.C36_moment_metric
#print axioms Verif.Props.C36_moment_uninitialised
#print axioms Verif.Props.C36_joint_core
#print axioms Verif.Props.C36_joint_metric
#print axioms Verif.Props.C36_auto
#print axioms Verif.Props.C36_max
#print axioms Verif.Props.C36_min
#print axioms Verif.Props.C36_heap_median
#print axioms Verif.Props.C36_quantile
#print axioms Verif.Props.C36_quantile_trees
#print axioms Verif.Props.C36_trees
#print axioms Verif.Props.C36_skiplist
#print axioms Verif.Props.C36_quantile_skiplist
#print axioms Verif.Props.C37_joint_uninitialised
#print axioms Verif.Props.C37_auto_uninitialised
#print axioms Verif.Props.C37_moment_uninitialised
#print axioms Verif.Props.C38_new_core_partial
#print axioms Verif.Props.C38_nan_decay_refuted
#print axioms Verif.Props.C39_merge_ok
#print axioms Verif.Props.C39_merge_error
#print axioms Verif.Props.C39_merge_order
#print axioms Verif.Props.C40_binom_partial
#print axioms Verif.Props.C40_binom_refuted
#print axioms Verif.Props.C40_core_sum_refuted
#print axioms Verif.Props.C41_no_panic_partial
#print axioms Verif.Props.C41_push_panics_refuted
#print axioms Verif.Props.C42_sum_global
#print axioms Verif.Props.C42_sum_global_12
#print axioms Verif.Props.C42_bound_needed
#print axioms Verif.Props.C43_sum_window_partial
#print axioms Verif.Props.C43_overlap_refuted
#print axioms Verif.Props.C43_order_two
#print axioms Verif.Props.C43_exact
#print axioms Verif.Props.C44_decay
#print axioms Verif.Props.C45_cov
#print axioms Verif.Props.C45_ewmcov
#print axioms Verif.Props.C45_corr
#print axioms Verif.Props.C45_ewmcorr
#print axioms Verif.Props.C46_autocov
#print axioms Verif.Props.C46_lag_zero
#print axioms Verif.Props.C46_autocorr
#print axioms Verif.Props.C47_arity
#print axioms Verif.Props.C47_histories
#print axioms Verif.Props.C47_metric
#print axioms Verif.Props.C48_iter
#print axioms Verif.Props.C49_hash_partial
#print axioms Verif.Props.C49_long_refuted
#print axioms Verif.Props.C50_sum_partial
#print axioms Verif.Props.C50_same_length
#print axioms Verif.Props.C50_collision_refuted
#print axioms Verif.Props.C50_zero_tuple_refuted
#print axioms Verif.Props.C51_conflict
#print axioms Verif.Props.C51_merge_partial
#print axioms Verif.Props.C51_length_refuted
#print axioms Verif.Props.C51_collision_refuted
#print axioms Verif.Props.C52_exact
#print axioms Verif.Props.C52_new_core_partial
#print axioms Verif.Props.C52_nan_decay_refuted
#print axioms Verif.Props.C52_overflow_refuted
#print axioms Verif.Props.C53_alias_partial
#print axioms Verif.Props.C53_window_partial
#print axioms Verif.Props.C53_reuse_refuted
#print axioms Verif.Props.C54_sample
#print axioms Verif.Props.C54_positions
#print axioms Verif.Props.C54_copy
#print axioms Verif.Props.C55_draws
#print axioms Verif.Props.C55_count
#print axioms Verif.Props.C55_uniform
#print axioms Verif.Props.C55_inclusion
#print axioms Verif.Props.C56_push_delivers
#print axioms Verif.Props.C56_push_deterministic
#print axioms Verif.Props.C56_clear
#print axioms Verif.Props.C56_values_state
#print axioms Verif.Props.C56_history
#print axioms Verif.Props.C56_push_returns
#print axioms Verif.Props.C56_push_panics
#print axioms Verif.Props.C57_push
#print axioms Verif.Props.C57_values_errors
#print axioms Verif.Props.C57_values_map
#print axioms Verif.Props.C57_values_lookup
#print axioms Verif.Props.C57_values_any
#print axioms Verif.Props.C58_refuted
#print axioms Verif.Props.C58_names_partial
#print axioms Verif.Props.C58_other
#print axioms Verif.Props.C59_moment_core
#print axioms Verif.Props.C59_moment_metrics
#print axioms Verif.Props.C59_joint_core
#print axioms Verif.Props.C59_joint_metrics
#print axioms Verif.Props.C59_quantile
#print axioms Verif.Props.C59_median
#print axioms Verif.Props.C59_iqr
#print axioms Verif.Props.C59_heap_median
#print axioms Verif.Props.C59_max
#print axioms Verif.Props.C59_min
#print axioms Verif.Props.C59_reservoir
#print axioms Verif.Props.C59_steps
#print axioms Verif.Props.C60_refuted_auto
#print axioms Verif.Props.C60_readers_auto_partial
#print axioms Verif.Props.C60_refuted_moment
#print axioms Verif.Props.C60_refuted_joint
#print axioms Verif.Props.C60_refuted_iqr
#print axioms Verif.Props.C60_moment_core_partial
#print axioms Verif.Props.C60_ewm_moment_partial
#print axioms Verif.Props.C60_joint_core_partial
#print axioms Verif.Props.C60_ewm_cov_partial
#print axioms Verif.Props.C60_quantile_partial
#print axioms Verif.Props.C60_median_partial
#print axioms Verif.Props.C60_heap_median_partial
#print axioms Verif.Props.C60_max_partial
#print axioms Verif.Props.C60_min_partial
#print axioms Verif.Props.C60_reservoir_partial
#print axioms Verif.Props.C60_readers_moment_partial
#print axioms Verif.Props.C60_readers_joint_partial
#print axioms Verif.Props.C60_readers_iqr_partial
#print axioms Verif.Props.C61_refuted_panic
#print axioms Verif.Props.C61_refuted_value
#print axioms Verif.Props.C61_small_partial
#print axioms Verif.Props.C61_one_partial
#print axioms Verif.Props.C61_grown_partial
#print axioms Verif.Props.C61_alone_partial
#print axioms Verif.Props.C61_joint_refuted
#print axioms Verif.Props.C61_mixed_small_partial
#print axioms Verif.Props.C61_mixed_one_partial
#print axioms Verif.Props.C61_mixed_grown_partial
#print axioms Verif.Props.C62_refuted
#print axioms Verif.Props.C62_lowering_partial
#print axioms Verif.Props.C63_avl_string
#print axioms Verif.Props.C63_rb_string_partial
#print axioms Verif.Props.C63_rb_string_select
#print axioms Verif.Props.C63_skip_string_partial
#print axioms Verif.Props.C63_skip_bottom_partial
#print axioms Verif.Props.C63_skip_string_refuted
#print axioms Verif.Props.C64_exact
#print axioms Verif.Props.C64_any_arithmetic
#print axioms Verif.Props.C65_constant
#print axioms Verif.Props.C66_variance_partial
#print axioms Verif.Props.C66_window_refuted
#print axioms Verif.Props.C66_std_nan_refuted
#print axioms Verif.Props.C67_mean_range_partial
#print axioms Verif.Props.C67_window_refuted
#print axioms Verif.Props.C68_poison_refuted
#print axioms Verif.Props.C68_window_one_partial
#print axioms Verif.Props.C68_clear_partial
#print axioms Verif.Props.C69_mean_accuracy
#print axioms Verif.Props.C69_ewma_accuracy
#print axioms Verif.Props.C69_window_drift
#print axioms Verif.Props.C70_partial
#print axioms Verif.Props.C70_clear_partial
#print axioms Verif.Props.C70_steps_partial
#print axioms Verif.Props.C70_refuted
#print axioms Verif.Props.C71_bracket_partial
#print axioms Verif.Props.C71_linear_refuted
#print axioms Verif.Props.C71_bracket_error_partial
#print axioms Verif.Props.C71_mono_partial
#print axioms Verif.Props.C71_iqr_partial
#print axioms Verif.Props.C71_medians_agree
#print axioms Verif.Props.C71_heap_median_bracket_partial
#print axioms Verif.Props.C71_overflow_refuted
#print axioms Verif.Props.C71_index_refuted
#print axioms Verif.Props.C72_exact
#print axioms Verif.Props.C72_any_arithmetic
#print axioms Verif.Props.C72_panic
#print axioms Verif.Props.C72_iff
#print axioms Verif.Props.C72_exact_iff
#print axioms Verif.Props.C73_moment
#print axioms Verif.Props.C73_joint
#print axioms Verif.Props.C73_joint_window_partial
#print axioms Verif.Props.C73_joint_refuted
#print axioms Verif.Props.C74_mean
#print axioms Verif.Props.C74_square_partial
#print axioms Verif.Props.C74_product_partial
#print axioms Verif.Props.C74_overlap_refuted
#print axioms Verif.Props.C75_range_partial
#print axioms Verif.Props.C75_window_range_refuted
#print axioms Verif.Props.C75_overflow_refuted
#print axioms Verif.Props.C75_symmetric
#print axioms Verif.Props.C75_equal_sums
#print axioms Verif.Props.C75_self_partial
#print axioms Verif.Props.C75_window_refuted
#print axioms Verif.Props.C75_range_refuted
#print axioms Verif.Props.C75_underflow_refuted
#print axioms Verif.Props.C75_window_range_partial
#print axioms Verif.Props.C76_constant
#print axioms Verif.Props.C77_mean_range_partial
#print axioms Verif.Props.C77_variance_partial
#print axioms Verif.Props.C77_mean_accuracy
#print axioms Verif.Props.C77_window_drift
#print axioms Verif.Props.C77_window_refuted
#print axioms Verif.Props.C78_poison_refuted
#print axioms Verif.Props.C78_clear_partial
#print axioms Verif.Props.C78_window_one_partial
#print axioms Verif.Props.C79_moment_partial
#print axioms Verif.Props.C79_moment_reuse_partial
#print axioms Verif.Props.C79_default_partial
#print axioms Verif.Props.C79_default_refuted
#print axioms Verif.Props.C79_joint_partial
#print axioms Verif.Props.C79_joint_reuse_partial
#print axioms Verif.Props.C79_moment_refuted
#print axioms Verif.Props.C79_joint_refuted
#print axioms Verif.Props.C80_new
#print axioms Verif.Props.C80_nil
#print axioms Verif.Props.C80_median
#print axioms Verif.Props.C80_options_partial
#print axioms Verif.Props.C80_exact
#print axioms Verif.Props.C80_options_refuted
#print axioms Verif.Props.C81_negate_moment
#print axioms Verif.Props.C81_negate_joint
#print axioms Verif.Props.C81_negate_corr
#print axioms Verif.Props.C81_scale_moment_partial
#print axioms Verif.Props.C81_scale_joint_partial
#print axioms Verif.Props.C81_scale_refuted
#print axioms Verif.Props.C81_shift_refuted
#print axioms Verif.Props.C81_collision_refuted
#print axioms Verif.Props.C82_sum_accuracy
#print axioms Verif.Props.C82_variance_accuracy
#print axioms Verif.Props.C82_window_drift
#print axioms Verif.Props.C82_not_relative
#print axioms Verif.Props.C83_sum_accuracy
#print axioms Verif.Props.C83_cov_accuracy
#print axioms Verif.Props.C83_window_drift
#print axioms Verif.Props.C83_square_drift
#print axioms Verif.Props.C83_not_relative
#print axioms Verif.Props.C84_quantile
#print axioms Verif.Props.C84_quantile_rb_refuted
#print axioms Verif.Props.C84_heap_median
#print axioms Verif.Props.C84_heap_median_window_refuted
#print axioms Verif.Props.C84_min_max
#print axioms Verif.Props.C84_joint_partial
#print axioms Verif.Props.C84_mean_refuted
#print axioms Verif.Props.C85_avl_partial
#print axioms Verif.Props.C85_rb_partial
#print axioms Verif.Props.C85_skip_partial
#print axioms Verif.Props.C85_heap_median
#print axioms Verif.Props.C85_minmax_partial
#print axioms Verif.Props.C85_moment
#print axioms Verif.Props.C85_joint
#print axioms Verif.Props.C85_auto
#print axioms Verif.Props.C85_nan_refuted
#print axioms Verif.Props.C85_avl_skip_nan_refuted
#print axioms Verif.Props.C86_avl_push
#print axioms Verif.Props.C86_avl_value
#print axioms Verif.Props.C86_rb_partial
#print axioms Verif.Props.C86_rb_push_refuted
#print axioms Verif.Props.C86_rb_push_log_refuted
#print axioms Verif.Props.C86_heap_median_push
#print axioms Verif.Props.C87_moment
#print axioms Verif.Props.C87_moment_exact
#print axioms Verif.Props.C87_joint
#print axioms Verif.Props.C87_joint_window_partial
#print axioms Verif.Props.C87_joint_window_lower_partial
#print axioms Verif.Props.C88_rank
#print axioms Verif.Props.C88_remove
#print axioms Verif.Props.C88_add
#print axioms Verif.Props.C88_select_partial
#print axioms Verif.Props.C88_add_ge
#print axioms Verif.Props.C88_go
#print axioms Verif.Props.C88_default
#print axioms Verif.Props.C88_log_refuted
#print axioms Verif.Props.C89_auto
#print axioms Verif.Props.C89_moment
#print axioms Verif.Props.C89_joint
#print axioms Verif.Props.C89_quantile
#print axioms Verif.Props.C89_heap_median
#print axioms Verif.Props.C89_minmax_partial
#print axioms Verif.Props.C89_nan_refuted
#print axioms Verif.Props.C90_moment
#print axioms Verif.Props.C90_moment_metric
#print axioms Verif.Props.C90_quantile
#print axioms Verif.Props.C90_heap_median
#print axioms Verif.Props.C90_minmax
#print axioms Verif.Props.C90_joint
#print axioms Verif.Props.C90_pair
#print axioms Verif.Props.C90_auto_partial
#print axioms Verif.Props.C90_auto_refuted
#print axioms Verif.Props.C90_aggregate_refuted
#print axioms Verif.Props.C91_mean
#print axioms Verif.Props.C91_std
#print axioms Verif.Props.C91_outlier
#print axioms Verif.Props.C91_median
#print axioms Verif.Props.C91_heap_median
#print axioms Verif.Props.C91_skewness
#print axioms Verif.Props.C91_kurtosis
#print axioms Verif.Props.C91_skewness_sharp
#print axioms Verif.Props.C91_rounding_refuted
#print axioms Verif.Props.C92_avl_no_panic_partial
#print axioms Verif.Props.C92_rb_global_no_panic_partial
#print axioms Verif.Props.C92_rb_window_no_panic_partial
#print axioms Verif.Props.C92_rb_window_panics_refuted
#print axioms Verif.Props.C92_heap_median_global_no_panic_partial
#print axioms Verif.Props.C92_skip_panics_refuted
#print axioms Verif.Props.C92_heap_median_one_panics_refuted
#print axioms Verif.Props.C92_heap_median_panics_refuted
#print axioms Verif.Props.C92_rb_never_forgets_refuted
#print axioms Verif.Props.C92_avl_never_forgets_refuted
#print axioms Verif.Props.C93_sum_accuracy
#print axioms Verif.Props.C93_moment_accuracy
#print axioms Verif.Props.C93_ewm_accuracy
#print axioms Verif.Props.C94_mean
#print axioms Verif.Props.C94_window
#print axioms Verif.Props.C94_sum
#print axioms Verif.Props.C94_moment
#print axioms Verif.Props.C94_ewm
#print axioms Verif.Props.C94_large_overflow
#print axioms Verif.Props.C95_ewma_partial
#print axioms Verif.Props.C95_window_one_partial
#print axioms Verif.Props.C95_window_two_refuted
#print axioms Verif.Props.C95_window_two_no_constant_refuted
#print axioms Verif.Props.C95_global_refuted
#print axioms Verif.Props.C95_global_no_constant_refuted
#print axioms Verif.Props.C96_sum_partial
#print axioms Verif.Props.C96_variance_partial
#print axioms Verif.Props.C96_monotone
#print axioms Verif.Props.C96_kurtosis_partial
#print axioms Verif.Props.C96_skewness_partial
#print axioms Verif.Props.C96_window_zero_refuted
#print axioms Verif.Props.C96_window_const_refuted
#print axioms Verif.Props.C96_underflow_refuted
#print axioms Verif.Props.C96_decay_refuted
#print axioms Verif.Props.C96_kurtosis_window_refuted
#print axioms Verif.Props.C96_skewness_two_refuted
#print axioms Verif.Props.C97_kurtosis_accuracy
#print axioms Verif.Props.C97_std_accuracy
#print axioms Verif.Props.C97_skewness_accuracy
#print axioms Verif.Props.C97_not_uniform
#print axioms Verif.Props.C98_square_accuracy
#print axioms Verif.Props.C98_corr_accuracy
#print axioms Verif.Props.C98_not_uniform
#print axioms Verif.Props.C99_prints
#print axioms Verif.Props.C99_table
#print axioms Verif.Props.C99_moment
#print axioms Verif.Props.C99_minmax
#print axioms Verif.Props.C99_quantile
#print axioms Verif.Props.C99_quantile_counts
#print axioms Verif.Props.C99_joint
#print axioms Verif.Props.C100_evicts_newest_refuted
#print axioms Verif.Props.C100_every_window_refuted
#print axioms Verif.Props.C100_stuck_two_refuted
#print axioms Verif.Props.C100_stuck_five_refuted
#print axioms Verif.Props.C100_increasing_three_partial
#print axioms Verif.Props.C101_avl
#print axioms Verif.Props.C101_rb
#print axioms Verif.Props.C101_skip
#print axioms Verif.Props.C101_quantile
#print axioms Verif.Props.C101_heap_median
#print axioms Verif.Props.C101_max
#print axioms Verif.Props.C101_min
#print axioms Verif.Props.C102_new
#print axioms Verif.Props.C102_quantile
#print axioms Verif.Props.C102_median_iqr
#print axioms Verif.Props.C102_heap_median
#print axioms Verif.Props.C102_medians_agree
#print axioms Verif.Props.C103_ewmcov_accuracy
#print axioms Verif.Props.C103_square_accuracy
#print axioms Verif.Props.C103_ewmstd_accuracy
#print axioms Verif.Props.C103_ewmcorr_accuracy
#print axioms Verif.Props.C104_ewma
#print axioms Verif.Props.C104_ewm_moment
#print axioms Verif.Props.C104_ewmcov
#print axioms Verif.Props.C104_ewm_std
#print axioms Verif.Props.C104_ewma_rounded
#print axioms Verif.Props.C104_ewm_moment_rounded
#print axioms Verif.Props.C104_ewmcov_rounded
#print axioms Verif.Props.C104_ewmcorr
#print axioms Verif.Props.C104_ewmcorr_rounded
#print axioms Verif.Props.C104_ewmcorr_constant
#print axioms Verif.Props.C105_sum
#print axioms Verif.Props.C105_square
#print axioms Verif.Props.C105_cov
#print axioms Verif.Props.C105_ewmcov
#print axioms Verif.Props.C105_ewsquare
#print axioms Verif.Props.C105_large
#print axioms Verif.Props.C105_window_sum
#print axioms Verif.Props.C105_window_square
#print axioms Verif.Props.C106_lagged_pairs
#print axioms Verif.Props.C106_clear
#print axioms Verif.Props.C106_autocov_accuracy
#print axioms Verif.Props.C106_autocov_ieee
#print axioms Verif.Props.C106_autocorr_accuracy
#print axioms Verif.Props.C106_negate
#print axioms Verif.Props.C106_window_autocov_refuted
#print axioms Verif.Props.C106_poison_refuted
#print axioms Verif.Props.C106_window_autocorr_refuted
#print axioms Verif.Props.C107_ewmstd
#print axioms Verif.Props.C107_corr
#print axioms Verif.Props.C107_ewmcorr
#print axioms Verif.Props.C107_autocorr
#print axioms Verif.Props.C107_kurtosis_large
#print axioms Verif.Props.C107_corr_large
#print axioms Verif.Props.C107_std
#print axioms Verif.Props.C107_kurtosis
#print axioms Verif.Props.C107_skewness
#print axioms Verif.Props.C108_max
#print axioms Verif.Props.C108_min
#print axioms Verif.Props.C108_quantile_avl
#print axioms Verif.Props.C108_quantile_impl_partial
#print axioms Verif.Props.C108_iqr_avl
#print axioms Verif.Props.C108_heap_median_global
#print axioms Verif.Props.C108_heap_median_window_refuted
#print axioms Verif.Props.C108_mean
#print axioms Verif.Props.C108_ewma
#print axioms Verif.Props.C108_std
#print axioms Verif.Props.C108_ewmstd
#print axioms Verif.Props.C108_quantile_rounded
#print axioms Verif.Props.C108_heap_median_rounded
#print axioms Verif.Props.C108_mean_last_partial
#print axioms Verif.Props.C108_mean_refuted
#print axioms Verif.Props.C109_corr_ieee
#print axioms Verif.Props.C109_autocorr_ieee
#print axioms Verif.Props.C109_std_ieee
#print axioms Verif.Props.C109_std
#print axioms Verif.Props.C109_corr
#print axioms Verif.Props.C109_autocorr
#print axioms Verif.Props.C109_outlier_forever
#print axioms Verif.Props.C109_corr_outlier_forever
#print axioms Verif.Props.C110_cov_ieee
#print axioms Verif.Props.C110_autocov_ieee
#print axioms Verif.Props.C110_cov_large
#print axioms Verif.Props.C110_variance
#print axioms Verif.Props.C110_cov
#print axioms Verif.Props.C110_autocov
#print axioms Verif.Props.C110_cov_outlier_forever
#print axioms Verif.Props.C110_variance_ieee
#print axioms Verif.Props.C111_passed
#print axioms Verif.Props.C111_nine_decimals
#print axioms Verif.Props.C111_between
#print axioms Verif.Props.C111_near_zero
#print axioms Verif.Props.C111_far_zero
#print axioms Verif.Props.C111_self
#print axioms Verif.Props.C111_large_refuted
#print axioms Verif.Props.C111_neighbours_refuted
#print axioms Verif.Props.C111_slice
