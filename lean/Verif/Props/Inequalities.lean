import Verif.Proofs.Inequalities
import Verif.Props.Moment
import Verif.Props.MinMax
import Verif.Props.HeapMedian
import Verif.Props.Quantile
import Verif.Props.Rounded
import Mathlib.Data.EReal.Basic

/-! # C91: metrics that see the same stream satisfy the classical inequalities

`n` is the number of values in the window. The square root and the power 1.5 are those of the reals, the arithmetic is exact;
`C91_rounding_refuted` shows that binary64 breaks the inequalities when there is a window. `Min` and `Max` work on the extended reals, as
their initial values are infinite. -/

namespace Verif.Props
open Verif Verif.Spec Verif.Moment

/-- The stream as `Min` and `Max` see it. -/
def extOps (ops : List (MOp ℝ)) : List (MOp EReal) :=
  ops.map (fun o => match o with | .push x => .push (x : EReal) | .clear => .clear)

theorem since_extOps (ops : List (MOp ℝ)) : since (extOps ops) = (since ops).map Real.toEReal := by
  induction ops using List.reverseRecOn with
  | nil => rfl
  | append_singleton ops op ih =>
    have e : extOps (ops ++ [op]) = extOps ops ++ extOps [op] := by simp [extOps]
    rw [e]
    cases op with
    | push x =>
      show since (extOps ops ++ [.push (x : EReal)]) = _
      simp [ih]
    | clear =>
      show since (extOps ops ++ [.clear]) = _
      simp

theorem windowOf_extOps (w : Nat) (ops : List (MOp ℝ)) : windowOf w (extOps ops) = (windowOf w ops).map Real.toEReal := by
  unfold windowOf
  rw [since_extOps]
  unfold lastN
  split_ifs <;> simp [List.map_drop]

/-- `Min` and `Max` with window `w` on the stream: the two values are reported and bound the window. -/
def Bounds (w : Nat) (ops : List (MOp ℝ)) (a b : ℝ) : Prop :=
  ∃ lo0 lo hi0 hi, MinMax.Min.new (MinMax.Ext.ofOrder EReal) w = .ok lo0 ∧ MinMax.Min.run (MinMax.Ext.ofOrder EReal) lo0 (extOps ops) = .val (lo, []) ∧
    MinMax.Min.value lo = .val (.ok (a : EReal)) ∧
    MinMax.Max.new (MinMax.Ext.ofOrder EReal) w = .ok hi0 ∧ MinMax.Max.run (MinMax.Ext.ofOrder EReal) hi0 (extOps ops) = .val (hi, []) ∧
    MinMax.Max.value hi = .val (.ok (b : EReal))

theorem bounds_ok {w : Nat} {ops : List (MOp ℝ)} (hne : windowOf w ops ≠ []) : ∃ a b, Bounds w ops a b ∧ a ∈ windowOf w ops ∧
    b ∈ windowOf w ops ∧ ∀ x ∈ windowOf w ops, a ≤ x ∧ x ≤ b := by
  have hs : since (extOps ops) ≠ [] := by
    rw [since_extOps]
    intro h
    have : since ops = [] := List.map_eq_nil_iff.1 h
    apply hne
    unfold windowOf
    rw [this]; simp [lastN]
  have n1 : MinMax.Min.new (MinMax.Ext.ofOrder EReal) w = .ok (MinMax.Min.fresh (MinMax.Ext.ofOrder EReal) w) := if_neg (by omega)
  have n2 : MinMax.Max.new (MinMax.Ext.ofOrder EReal) w = .ok (MinMax.Max.fresh (MinMax.Ext.ofOrder EReal) w) := if_neg (by omega)
  obtain ⟨lo, r1, -, h1⟩ := C26_min n1 (extOps ops)
  obtain ⟨hi, r2, -, h2⟩ := C25_max n2 (extOps ops)
  obtain ⟨a', v1, m1, b1⟩ := h1 hs
  obtain ⟨b', v2, m2, b2⟩ := h2 hs
  rw [Int.toNat_natCast, windowOf_extOps] at m1 b1 m2 b2
  obtain ⟨a, ha, rfl⟩ := List.mem_map.1 m1
  obtain ⟨b, hb, rfl⟩ := List.mem_map.1 m2
  exact ⟨a, b, ⟨_, lo, _, hi, n1, r1, v1, n2, r2, v2⟩, ha, hb, fun x hx =>
    ⟨EReal.coe_le_coe_iff.1 (b1 _ (List.mem_map_of_mem hx)), EReal.coe_le_coe_iff.1 (b2 _ (List.mem_map_of_mem hx))⟩⟩

/-- The value of a univariate metric after the stream. -/
def Reports (k : Kind ℝ) (ops : List (MOp ℝ)) (v : ℝ) : Prop :=
  ∃ m, Metric.run ((Metric.new k).init).1 ops = .val (m, []) ∧ Metric.value Real.sqrt p15 m = .ok (.fin v)

theorem reports_unique {k : Kind ℝ} {ops : List (MOp ℝ)} {v v' : ℝ} (h : Reports k ops v) (h' : Reports k ops v') : v = v' := by
  obtain ⟨m, r, e⟩ := h
  obtain ⟨m', r', e'⟩ := h'
  rw [r] at r'; cases r'
  rw [e] at e'; cases e'; rfl

theorem reports_mean {w : Nat} {ops : List (MOp ℝ)} (hne : windowOf w ops ≠ []) : Reports (.mean w) ops (Spec.mean (windowOf w ops)) := by
  obtain ⟨m, r, h, -⟩ := C34_mean w Real.sqrt p15 ops
  exact ⟨m, r, h hne⟩

theorem reports_std {w : Nat} {ops : List (MOp ℝ)} (h2 : 2 ≤ (windowOf w ops).length) :
    Reports (.std w) ops (Real.sqrt (csum 2 (windowOf w ops) / ((windowOf w ops).length - 1))) := by
  obtain ⟨m, r, h, -⟩ := C34_std w p15 ops
  exact ⟨m, r, h h2⟩

/-- C91, mean: it is reported when `Min` and `Max` with the same window report, and lies between them. -/
theorem C91_mean (w : Nat) (ops : List (MOp ℝ)) (hne : windowOf w ops ≠ []) :
    ∃ a μ b, Bounds w ops a b ∧ Reports (.mean w) ops μ ∧ a ≤ μ ∧ μ ≤ b := by
  obtain ⟨a, b, hb, -, -, h⟩ := bounds_ok hne
  exact ⟨a, _, b, hb, reports_mean hne, mean_mem_Icc hne (fun x hx => (h x hx).1) fun x hx => (h x hx).2⟩

/-- C91, spread: `Std` is at most `√(n/(n-1) (Max - Mean)(Mean - Min))`, thus at most `√(n/(n-1))` times half the range, and at least the
range divided by `√(2(n-1))`. -/
theorem C91_std (w : Nat) (ops : List (MOp ℝ)) (h2 : 2 ≤ (windowOf w ops).length) :
    ∃ a μ b s, Bounds w ops a b ∧ Reports (.mean w) ops μ ∧ Reports (.std w) ops s ∧ 0 ≤ s ∧
      (((windowOf w ops).length : ℝ) - 1) * s ^ 2 ≤ (windowOf w ops).length * ((b - μ) * (μ - a)) ∧
      s ≤ Real.sqrt ((windowOf w ops).length / ((windowOf w ops).length - 1)) * ((b - a) / 2) ∧
      b - a ≤ Real.sqrt (2 * ((windowOf w ops).length - 1)) * s := by
  have hne : windowOf w ops ≠ [] := List.length_pos_iff.1 (by omega)
  have hn : (2 : ℝ) ≤ (windowOf w ops).length := by exact_mod_cast h2
  obtain ⟨a, b, hb, ma, mb, h⟩ := bounds_ok hne
  refine ⟨a, _, b, _, hb, reports_mean hne, reports_std h2, Real.sqrt_nonneg _, ?_, ?_, ?_⟩
  all_goals
    set xs := windowOf w ops
    have hp := csum_even_nonneg (by decide : Even 2) xs
    have hd : (0 : ℝ) < xs.length - 1 := by linarith
    have B := bhatia_davis hne (fun x hx => (h x hx).1) fun x hx => (h x hx).2
    have hab : a ≤ b := (h b mb).1
    have hsq : Real.sqrt (csum 2 xs / (xs.length - 1)) ^ 2 = csum 2 xs / (xs.length - 1) := Real.sq_sqrt (by positivity)
  · rw [hsq, mul_div_cancel₀ _ hd.ne']; exact B
  · have h4 : (b - Spec.mean xs) * (Spec.mean xs - a) ≤ ((b - a) / 2) ^ 2 := by nlinarith [sq_nonneg (b - Spec.mean xs - (Spec.mean xs - a))]
    rw [show (b - a) / 2 = Real.sqrt (((b - a) / 2) ^ 2) from (Real.sqrt_sq (by linarith)).symm, ← Real.sqrt_mul (by positivity)]
    apply Real.sqrt_le_sqrt
    rw [div_mul_eq_mul_div]
    apply div_le_div_of_nonneg_right _ hd.le
    nlinarith
  · rw [← Real.sqrt_mul (by positivity)]
    apply Real.le_sqrt_of_sq_le
    rw [show 2 * ((xs.length : ℝ) - 1) * (csum 2 xs / (xs.length - 1)) = 2 * csum 2 xs by field_simp]
    exact range_sq_le ma mb

/-- C91, outliers: no value in the window is further from `Mean` than `(n-1)/√n` times `Std`. -/
theorem C91_outlier (w : Nat) (ops : List (MOp ℝ)) (h2 : 2 ≤ (windowOf w ops).length) :
    ∃ μ s, Reports (.mean w) ops μ ∧ Reports (.std w) ops s ∧
      ∀ x ∈ windowOf w ops, |x - μ| ≤ ((windowOf w ops).length - 1) / Real.sqrt (windowOf w ops).length * s := by
  have hne : windowOf w ops ≠ [] := List.length_pos_iff.1 (by omega)
  have hn : (2 : ℝ) ≤ (windowOf w ops).length := by exact_mod_cast h2
  refine ⟨_, _, reports_mean hne, reports_std h2, fun x hx => ?_⟩
  have S := samuelson hx
  set xs := windowOf w ops
  have hp := csum_even_nonneg (by decide : Even 2) xs
  have hd : (0 : ℝ) < xs.length - 1 := by linarith
  apply abs_le_of_sq_le_sq _ (by positivity)
  rw [mul_pow, div_pow, Real.sq_sqrt (by positivity), Real.sq_sqrt (by positivity)]
  rw [show ((xs.length : ℝ) - 1) ^ 2 / xs.length * (csum 2 xs / (xs.length - 1)) = (xs.length - 1) * csum 2 xs / xs.length by field_simp]
  rw [le_div_iff₀ (by linarith)]
  linarith

theorem median_std {xs : List ℝ} (h2 : 2 ≤ xs.length) {v : ℝ} (h : IsMedian (xs : Multiset ℝ) v) :
    |v - Spec.mean xs| ≤ Real.sqrt ((xs.length - 1) / xs.length) * Real.sqrt (csum 2 xs / (xs.length - 1)) := by
  have hne : xs ≠ [] := List.length_pos_iff.1 (by omega)
  have hn : (2 : ℝ) ≤ xs.length := by exact_mod_cast h2
  have hd : (0 : ℝ) < xs.length - 1 := by linarith
  have M := median_mean hne h
  rw [← Real.sqrt_mul (by positivity)]
  apply Real.abs_le_sqrt
  rw [show ((xs.length : ℝ) - 1) / xs.length * (csum 2 xs / (xs.length - 1)) = csum 2 xs / xs.length by field_simp]
  rw [le_div_iff₀ (by linarith)]
  linarith

/-- C91, median: `Median` (with the AVL tree and any other options) and `Mean` with the same window differ by at most `√((n-1)/n)` times
`Std`. -/
theorem C91_median {w : Nat} {opts : List (Quant.Opt ℝ)} {c : Quant.Cfg ℝ} (hn : Quant.newMedian 0 1 w opts = .ok c) (hA : c.impl = Quant.AVL)
    (draws : Nat → Nat → Bool) (ops : List (MOp ℝ)) (h2 : 2 ≤ (windowOf w ops).length) :
    ∃ q v μ s, (Quant.ofCfg c draws).run ops = .val (q, []) ∧ q.medianValue (Quant.exact ℝ) = .val (.ok v) ∧
      Reports (.mean w) ops μ ∧ Reports (.std w) ops s ∧
      |v - μ| ≤ Real.sqrt (((windowOf w ops).length - 1) / (windowOf w ops).length) * s := by
  have hne : windowOf w ops ≠ [] := List.length_pos_iff.1 (by omega)
  obtain ⟨q, r, ⟨v, hv, hm⟩, -⟩ := C18_median_iqr_avl hn hA draws ops (by rwa [Int.toNat_natCast])
  rw [Int.toNat_natCast] at hm
  exact ⟨q, v, _, _, r, hv, reports_mean hne, reports_std h2, median_std h2 hm⟩

/-- C91, median, for `HeapMedian` without window. -/
theorem C91_heap_median (ops : List (MOp ℝ)) (h2 : 2 ≤ (since ops).length) :
    ∃ s0 h v μ s, HeapMedian.new (0 : ℝ) 0 = .ok s0 ∧ HeapMedian.run s0 ops = .val (h, []) ∧ HeapMedian.value (Quant.exact ℝ) h = .val (.ok v) ∧
      Reports (.mean 0) ops μ ∧ Reports (.std 0) ops s ∧ |v - μ| ≤ Real.sqrt (((since ops).length - 1) / (since ops).length) * s := by
  have hw : windowOf 0 ops = since ops := by simp [windowOf, lastN]
  have hne : windowOf 0 ops ≠ [] := by rw [hw]; exact List.length_pos_iff.1 (by omega)
  obtain ⟨s0, h, v, e0, e1, e2, hm⟩ := C21_heap_median_global ops (by rwa [hw] at hne)
  have r1 := reports_mean hne
  have r2 := reports_std (w := 0) (ops := ops) (by rwa [hw])
  rw [hw] at r1 r2
  exact ⟨s0, h, v, _, _, e0, e1, e2, r1, r2, median_std h2 hm⟩

/-- C91, skewness: a value of `Skewness` is at most `√n` in absolute value. -/
theorem C91_skewness (w : Nat) (ops : List (MOp ℝ)) (g : ℝ) (h : Reports (.skewness w) ops g) : |g| ≤ Real.sqrt (windowOf w ops).length := by
  obtain ⟨m, e, h1, h2, h3⟩ := C34_skewness w ops
  obtain ⟨m', e', hv⟩ := h
  rw [e] at e'; cases e'
  by_cases hc : 3 ≤ (windowOf w ops).length ∧ csum 2 (windowOf w ops) ≠ 0
  · rw [h1 hc.1 hc.2] at hv
    cases hv
    exact abs_skewness_le hc.2 hc.1
  · by_cases hne : windowOf w ops = []
    · obtain ⟨e', h⟩ := h3 hne
      rw [h] at hv; cases hv
    · rw [h2 hne hc] at hv; cases hv

/-- C91, kurtosis: a value of `Kurtosis` is at most `n - 4`, at least -2, and at least `(n-2)²/(n(n-1)) g² - 2` when `Skewness` with the same
window reports `g`. -/
theorem C91_kurtosis (w : Nat) (ops : List (MOp ℝ)) (k : ℝ) (h : Reports (.kurtosis w) ops k) :
    -2 ≤ k ∧ k ≤ (windowOf w ops).length - 4 ∧ ∀ g, Reports (.skewness w) ops g →
      (((windowOf w ops).length : ℝ) - 2) ^ 2 / ((windowOf w ops).length * ((windowOf w ops).length - 1)) * g ^ 2 - 2 ≤ k := by
  obtain ⟨m, e, h1, h2, h3⟩ := C34_kurtosis w Real.sqrt p15 ops
  obtain ⟨m', e', hv⟩ := h
  rw [e] at e'; cases e'
  by_cases hne : windowOf w ops = []
  · obtain ⟨e', h⟩ := h3 hne
    rw [h] at hv; cases hv
  by_cases h0 : csum 2 (windowOf w ops) = 0
  · rw [h2 hne h0] at hv; cases hv
  rw [h1 h0] at hv
  cases hv
  refine ⟨exKurtosis_ge h0, exKurtosis_le h0, fun g hg => ?_⟩
  obtain ⟨m, e, g1, g2, -⟩ := C34_skewness w ops
  obtain ⟨m', e', hv⟩ := hg
  rw [e] at e'; cases e'
  by_cases hl : 3 ≤ (windowOf w ops).length
  · rw [g1 hl h0] at hv
    cases hv
    refine le_trans (le_of_eq ?_) (pearson_skew_kurt h0)
    have hn : (3 : ℝ) ≤ (windowOf w ops).length := by exact_mod_cast hl
    set xs := windowOf w ops
    have hp : 0 < csum 2 xs := lt_of_le_of_ne (csum_even_nonneg (by decide) xs) (Ne.symm h0)
    have hm : 0 < popMoment 2 xs := div_pos hp (by linarith)
    have e15 : (popMoment 2 xs ^ (3 / 2 : ℝ)) ^ 2 = popMoment 2 xs ^ 3 := by
      rw [← Real.rpow_natCast, ← Real.rpow_mul hm.le]
      norm_num
    unfold skewness
    rw [div_pow, mul_pow, div_pow, Real.sq_sqrt (by nlinarith), e15]
    have h1 : ((xs.length : ℝ) - 1) ≠ 0 := by linarith
    have h2 : ((xs.length : ℝ) - 2) ≠ 0 := by linarith
    have h3 : (xs.length : ℝ) ≠ 0 := by linarith
    field_simp
  · rw [g2 hne (fun h => hl h.1)] at hv; cases hv

/-- The bound on the skewness is attained: `Skewness` of 0, 0, 1 is √3. -/
theorem C91_skewness_sharp : Reports (.skewness (0 : Nat)) [.push 0, .push 0, .push 1] (Real.sqrt 3) := by
  obtain ⟨m, e, h1, -⟩ := C34_skewness 0 [.push 0, .push 0, .push 1]
  have hw : windowOf 0 [MOp.push (0 : ℝ), .push 0, .push 1] = [0, 0, 1] := by simp [windowOf, lastN, since]
  rw [hw] at h1
  have c2 : csum 2 [(0 : ℝ), 0, 1] = 2 / 3 := by simp [csum, Spec.mean]; norm_num
  have c3 : csum 3 [(0 : ℝ), 0, 1] = 2 / 9 := by simp [csum, Spec.mean]; norm_num
  refine ⟨m, e, ?_⟩
  rw [h1 (by simp) (by rw [c2]; norm_num)]
  congr 2
  unfold skewness popMoment
  rw [c2, c3]
  have hx : (2 / 3 / (([(0 : ℝ), 0, 1].length : Nat) : ℝ)) = 2 / 9 := by norm_num
  rw [hx]
  have h15 : ((2 / 9 : ℝ) ^ (3 / 2 : ℝ)) = 2 / 9 * Real.sqrt (2 / 9) := by
    rw [show (3 / 2 : ℝ) = 1 + 1 / 2 by norm_num, Real.rpow_add (by norm_num), Real.rpow_one, ← Real.sqrt_eq_rpow]
  rw [h15]
  have h0 : 0 < Real.sqrt (2 / 9) := Real.sqrt_pos.2 (by norm_num)
  rw [div_eq_iff (by positivity)]
  have e1 : Real.sqrt ((([(0 : ℝ), 0, 1].length : Nat) : ℝ) * ((([(0 : ℝ), 0, 1].length : Nat) : ℝ) - 1)) = 3 * (Real.sqrt 3 * Real.sqrt (2 / 9)) := by
    rw [← Real.sqrt_mul (by norm_num)]
    have h9 : (3 : ℝ) = Real.sqrt 9 := by rw [show (9 : ℝ) = 3 ^ 2 by norm_num, Real.sqrt_sq (by norm_num)]
    have : 3 * Real.sqrt (3 * (2 / 9)) = Real.sqrt (9 * (3 * (2 / 9))) := by rw [Real.sqrt_mul (by norm_num) (3 * (2 / 9)), ← h9]
    rw [this]
    congr 1
    norm_num
  rw [e1]
  norm_num
  ring

/-- Streams meeting the hypotheses: a window of three values, not all equal, after an eviction and a `Clear`. -/
example : 3 ≤ (windowOf 3 [MOp.push (5 : ℝ), .clear, .push 9, .push 2, .push 4, .push 7]).length ∧
    csum 2 (windowOf 3 [MOp.push (5 : ℚ), .clear, .push 9, .push 2, .push 4, .push 7]) = 38 / 3 ∧
    exKurtosis (windowOf 3 [MOp.push (5 : ℚ), .clear, .push 9, .push 2, .push 4, .push 7]) = -3 / 2 ∧
    exKurtosis (windowOf 2 [MOp.push (5 : ℚ), .push 9, .push 2]) = -2 :=
  ⟨by simp [windowOf, lastN, since], by decide +kernel, by decide +kernel, by decide +kernel⟩

example : ∃ c, Quant.newMedian (0 : ℚ) 1 3 [.interpolation Quant.Lower] = .ok c ∧ c.impl = Quant.AVL := ⟨_, rfl, rfl⟩

/-- C91 is false in binary64 with a window: window 3 holding 0, 2, 1 after 846876518 was evicted. The range is 2, so half its square must not
exceed `Sum(2)`, which is 2 for these values; the core reports less than 10⁻¹⁴. -/
theorem C91_rounding_refuted : ∃ (c c' : Core ℚ) (v : ℚ), FP.newCore FP.Arith.b64 ⟨some [2], some 3, none⟩ = .ok c ∧
    FP.run FP.Arith.b64 c [.push 846876518, .push 0, .push 2, .push 1] = .val (c', []) ∧
    windowOf 3 [MOp.push (846876518 : ℚ), .push 0, .push 2, .push 1] = [0, 2, 1] ∧ FP.sum c' 2 = .ok v ∧ v < 1 / 10 ^ 14 := by
  have h : fpObs (FP.run FP.Arith.b64 (FP.mk FP.Arith.b64 ⟨some [2], some 3, none⟩) [.push 846876518, .push 0, .push 2, .push 1]) =
      some ((.ok (4503599806327467 / 4503599627370496), .ok (6004799503160661 / 2535301200456458802993406410752)),
        (.error "not a tracked power sum", 3), []) := by decide +kernel
  obtain ⟨c', e, -, h2, -⟩ := fpObs_run h
  exact ⟨_, c', _, rfl, e, by simp [windowOf, since, lastN], h2, by norm_num⟩

end Verif.Props
