import Verif.Proofs.LinearDrift
import Verif.Props.JointNumeric

/-! # C82: accuracy of the second power sum, and with it of the variance, in binary64

`n` is the number of values pushed since the last `Clear`, `M` bounds their absolute values. `PowSq` is what is asked of `math.Pow`: squares are
correctly rounded (or rounded twice, in the subnormal range), the first power of a count is the count. -/

namespace Verif.Props
open Verif Verif.Spec Verif.FP
open Verif.Moment (Core Config)

/-- The rounding errors of binary64 are small for up to 2^43 values of magnitude 2^-480 or more. -/
theorem small64 {M : ℚ} (hM : 1 / 2 ^ 480 ≤ M) {n : Nat} (hn : n ≤ 2 ^ 43) : Small (1 / 2 ^ 53) (1 / 2 ^ 1075) M n := by
  have hM0 : 0 ≤ M := le_trans (by positivity) hM
  have hMM : (1 / 2 ^ 480 : ℚ) * (1 / 2 ^ 480) ≤ M * M := mul_self_le_mul_self (by positivity) hM
  have hn' : (n : ℚ) ≤ 2 ^ 43 := by exact_mod_cast hn
  refine ⟨by positivity, by positivity, by norm_num, ?_, hM0, by decide +kernel, ?_, ?_⟩
  · calc (n : ℚ) * (1 / 2 ^ 53) ≤ 2 ^ 43 * (1 / 2 ^ 53) := mul_le_mul_of_nonneg_right hn' (by positivity)
      _ ≤ 1 / 1024 := by norm_num
  · calc (1 : ℚ) / 2 ^ 1075 ≤ 1 / 2 ^ 53 * (1 / 2 ^ 53) * (1 / 2 ^ 480) := by decide +kernel
      _ ≤ _ := mul_le_mul_of_nonneg_left hM (by positivity)
  · calc (1 : ℚ) / 2 ^ 1075 ≤ 1 / 2 ^ 53 * (1 / 2 ^ 53) * (1 / 2 ^ 480 * (1 / 2 ^ 480)) := by decide +kernel
      _ ≤ _ := mul_le_mul_of_nonneg_left hMM (by positivity)

/-- A correctly rounded power is good enough. -/
theorem powSq64 {n : Nat} (hn : n ≤ 2 ^ 43) : PowSq (fun x k => rnd64 (x ^ k)) (1 / 2 ^ 53) (1 / 2 ^ 1075) n := by
  refine ⟨fun x => ?_, fun k hk => ?_⟩
  · have := accuracy_rnd64 (x ^ 2)
    rw [pow_two, abs_of_nonneg (mul_self_nonneg x)] at this
    rw [pow_two]; exact this
  · simp only [pow_one]; exact rnd64_nat (by omega)

section
variable {pw : ℚ → Nat → ℚ}

/-- C82, windows of 0 without decay, in binary64: `Sum(2)` differs from the exact sum of squared deviations by at most
`2·n·(n + 40)·2⁻⁵³·M²`. -/
theorem C82_sum_accuracy {cfg : Config ℚ} {c : Core ℚ} (hn : newCore (Arith.rounded rnd64 pw) cfg = .ok c) (hw : cfg.window = some 0)
    (hd : cfg.decay = none) (hs : ∀ k ∈ cfg.sums.getD [], k ≤ 65) (h2 : ∃ k ∈ cfg.sums.getD [], 2 ≤ k) {M : ℚ} (hM : rnd64 M = M)
    (hM0 : 1 / 2 ^ 480 ≤ M) (ops : List (MOp ℚ)) (hlen : (since ops).length ≤ 2 ^ 43)
    (hP : PowSq pw (1 / 2 ^ 53) (1 / 2 ^ 1075) (since ops).length) (hx : ∀ x ∈ since ops, rnd64 x = x ∧ |x| ≤ M) (hne : since ops ≠ []) :
    ∃ c' v, run (Arith.rounded rnd64 pw) c ops = .val (c', []) ∧ sum c' 2 = .ok v ∧
      |v - csum 2 (since ops)| ≤ 2 * (since ops).length * ((since ops).length + 40) * (1 / 2 ^ 53) * M ^ 2 := by
  obtain ⟨w, hw', hc, -⟩ := newCore_ok _ hn
  have hl : 2 < c.len := by rw [hc]; exact (lt_mk_len _ 2).2 h2
  obtain ⟨c', e, B, hI⟩ := core_track _ hn hs (w := 0) hw
    (hd ▸ track_sum_err rounding_rnd64 accuracy_rnd64 (N := (since ops).length) (fun n h => rnd64_nat (by omega)) (small64 hM0 hlen) hP hM
      c.len) ops
  refine ⟨c', _, e, B.sum_ok (k := 2) hne (by norm_num) hl, ?_⟩
  have h := (hI.2 le_rfl hx hl).2
  refine h.trans (le_of_eq ?_)
  ring

/-- C82, the variance: the value of `Moment(2)` (and under the root of `Std`) of at least two values is off by at most
`4·(n + 42)·2⁻⁵³·M²`. -/
theorem C82_variance_accuracy {cfg : Config ℚ} {c : Core ℚ} (hn : newCore (Arith.rounded rnd64 pw) cfg = .ok c) (hw : cfg.window = some 0)
    (hd : cfg.decay = none) (hs : ∀ k ∈ cfg.sums.getD [], k ≤ 65) (h2 : ∃ k ∈ cfg.sums.getD [], 2 ≤ k) {M : ℚ} (hM : rnd64 M = M)
    (hM0 : 1 / 2 ^ 480 ≤ M) (ops : List (MOp ℚ)) (hlen : (since ops).length ≤ 2 ^ 43)
    (hP : PowSq pw (1 / 2 ^ 53) (1 / 2 ^ 1075) (since ops).length) (hx : ∀ x ∈ since ops, rnd64 x = x ∧ |x| ≤ M)
    (hne : 2 ≤ (since ops).length) :
    ∃ c' v, run (Arith.rounded rnd64 pw) c ops = .val (c', []) ∧ momentValue (Arith.rounded rnd64 pw) c' 2 = .ok v ∧
      |v - csum 2 (since ops) / ((since ops).length - 1)| ≤ 4 * ((since ops).length + 42) * (1 / 2 ^ 53) * M ^ 2 := by
  have hne' : since ops ≠ [] := by
    intro h
    rw [h] at hne
    simp at hne
  obtain ⟨c', s, r, hsum, hb⟩ := C82_sum_accuracy hn hw hd hs h2 hM hM0 ops hlen hP hx hne'
  obtain ⟨w, c2, hw2, r2, hcnt, -⟩ := C64_any_arithmetic _ hn hs ops
  rw [r] at r2
  simp only [Go.val.injEq, Prod.mk.injEq, and_true] at r2
  subst r2
  have hw0 : w = 0 := by
    rw [hw] at hw2
    have := Option.some.inj hw2
    omega
  subst hw0
  have hcnt' : c'.count = ((since ops).length : Int) := by rw [hcnt, windowOf, lastN_zero]
  have hv : momentValue (Arith.rounded rnd64 pw) c' 2 = .ok (rnd64 (s / ((since ops).length - 1))) := by
    have e1 : rnd64 (((since ops).length : Int) : ℚ) = (since ops).length := by
      rw [Int.cast_natCast]; exact rnd64_nat (by omega)
    have e2 : rnd64 (((since ops).length : ℚ) - 1) = (since ops).length - 1 := by
      have := rnd64_nat (n := (since ops).length - 1) (by omega)
      rwa [Nat.cast_sub (by omega), Nat.cast_one] at this
    simp only [momentValue, hsum, hcnt', Arith.rounded, Int.cast_one, rounding_rnd64.one, e1, e2]
  refine ⟨c', _, r, hv, ?_⟩
  have S := small64 hM0 hlen
  have hE := accuracy_rnd64 (s / ((since ops).length - 1))
  have hS0 := csum_two_nonneg (since ops)
  have hS1 := csum_two_le S.M0 (fun y hy => (hx y hy).2)
  have hn2 : (2 : ℚ) ≤ (since ops).length := by exact_mod_cast hne
  have hnu := S.Nu
  have hu1 := S.u1
  have htM := S.tMM
  have hMM : 0 ≤ M * M := mul_nonneg S.M0 S.M0
  generalize (1 : ℚ) / 2 ^ 53 = u at *
  generalize (1 : ℚ) / 2 ^ 1075 = t at *
  have hu := S.u0
  have hU : 0 ≤ u * (M * M) := mul_nonneg hu hMM
  set n : ℚ := ((since ops).length : ℚ)
  set Q := csum 2 (since ops)
  have hn1 : 0 < n - 1 := by linarith
  have hnn : n / (n - 1) ≤ 2 := by rw [div_le_iff₀ hn1]; linarith
  have hd1 : |s / (n - 1) - Q / (n - 1)| ≤ 4 * (n + 40) * (u * (M * M)) := by
    rw [← sub_div, abs_div, abs_of_pos hn1, div_le_iff₀ hn1]
    refine hb.trans ?_
    have : 2 * n * ((n + 40) * (u * (M * M))) ≤ 4 * (n - 1) * ((n + 40) * (u * (M * M))) :=
      mul_le_mul_of_nonneg_right (by linarith) (by positivity)
    rw [pow_two]
    linarith
  have hQ : |Q / (n - 1)| ≤ 2 * (M * M) := by
    rw [abs_of_nonneg (div_nonneg hS0 hn1.le), div_le_iff₀ hn1]
    have : n * (M * M) ≤ 2 * (n - 1) * (M * M) := mul_le_mul_of_nonneg_right (by linarith) hMM
    linarith
  have hq : |s / (n - 1)| ≤ 4 * (n + 40) * (u * (M * M)) + 2 * (M * M) := by
    rw [abs_le] at hd1 hQ ⊢
    constructor <;> linarith
  have h1 := mul_le_mul_of_nonneg_left hq hu
  have h3 : u * (4 * (n + 40) * (u * (M * M))) ≤ (4 + 160) * (u * (M * M)) / 1024 := by
    have a := mul_le_mul_of_nonneg_right hnu hU
    have b := mul_le_mul_of_nonneg_right hu1 hU
    linarith
  have h4 : t ≤ u * (M * M) / 1024 := by
    have b := mul_le_mul_of_nonneg_right hu1 hU
    linarith
  have h5 := abs_add_le (rnd64 (s / (n - 1)) - s / (n - 1)) (s / (n - 1) - Q / (n - 1))
  rw [sub_add_sub_cancel] at h5
  rw [pow_two]
  linarith

/-- C82, any window, in binary64: `Sum(2)` differs from the exact sum of squared deviations of the `L` values in the window by at most
`250·n·L·2⁻⁵³·M²`, where `n` values were pushed since `Clear`: an error per value in the window that is linear in the number of pushes. `M` bounds all
values since `Clear`, not only those in the window; by `C67_window_refuted` it must. -/
theorem C82_window_drift {cfg : Config ℚ} {c : Core ℚ} (hn : newCore (Arith.rounded rnd64 pw) cfg = .ok c) {w : Nat}
    (hw : cfg.window = some (w : Int)) (hd : cfg.decay = none) (hs : ∀ k ∈ cfg.sums.getD [], k ≤ 65) (h2 : ∃ k ∈ cfg.sums.getD [], 2 ≤ k)
    {M : ℚ} (hM0 : 1 / 2 ^ 480 ≤ M) (ops : List (MOp ℚ)) (hlen : (since ops).length ≤ 2 ^ 43)
    (hP : PowSq pw (1 / 2 ^ 53) (1 / 2 ^ 1075) (since ops).length) (hx : ∀ x ∈ since ops, rnd64 x = x ∧ |x| ≤ M) (hne : since ops ≠ []) :
    ∃ c' v, run (Arith.rounded rnd64 pw) c ops = .val (c', []) ∧ sum c' 2 = .ok v ∧
      |v - csum 2 (windowOf w ops)| ≤ 250 * (since ops).length * (windowOf w ops).length * (1 / 2 ^ 53) * M ^ 2 := by
  obtain ⟨w', hw', hc, -⟩ := newCore_ok _ hn
  have hl : 2 < c.len := by rw [hc]; exact (lt_mk_len _ 2).2 h2
  obtain ⟨c', e, B, -, h2'⟩ := core_track _ hn hs hw (track_mst _ w cfg.decay c.len) ops
  refine ⟨c', _, e, B.sum_ok (k := 2) hne (by norm_num) hl, ?_⟩
  rw [h2' 2 hl, hd]
  have h := mst_linear (pw := pw) rounding_rnd64 accuracy_rnd64 (N := (since ops).length) (fun n h => rnd64_nat (by omega)) (small64 hM0 hlen) hP w
    (since ops) le_rfl hx
  refine h.trans (le_of_eq ?_)
  rw [windowOf]
  ring

end

/-- The bounds cannot be relative to the spread of the data instead of their magnitude, even without a window: pushing 2^53, 2^53 + 2 and
2^53 + 2 gives about 14/3 for `Sum(2)`, which is 8/3. -/
theorem C82_not_relative : ∃ (c c' : Core ℚ) (v : ℚ), newCore Arith.b64 ⟨some [2], some 0, none⟩ = .ok c ∧
    run Arith.b64 c [.push 9007199254740992, .push 9007199254740994, .push 9007199254740994] = .val (c', []) ∧
    csum 2 [(9007199254740992 : ℚ), 9007199254740994, 9007199254740994] = 8 / 3 ∧ sum c' 2 = .ok v ∧ 7 / 4 * (8 / 3) - 1 / 10 ^ 10 < v := by
  have h : fpObs (run Arith.b64 (mk Arith.b64 ⟨some [2], some 0, none⟩)
        [.push 9007199254740992, .push 9007199254740994, .push 9007199254740994]) =
      some ((.ok 9007199254740992, .ok (2627099782632789 / 562949953421312)), (.error "not a tracked power sum", 3), []) := by decide +kernel
  obtain ⟨c', e, -, h2, -⟩ := fpObs_run h
  exact ⟨_, c', _, rfl, e, by norm_num [csum, Spec.mean], h2, by decide +kernel⟩

/-- The hypotheses hold for binary64 with data up to 1000: a million values give a variance that is right up to 0.0005. -/
example : rnd64 1000 = 1000 ∧ (1 / 2 ^ 480 : ℚ) ≤ 1000 ∧ PowSq (fun x k => rnd64 (x ^ k)) (1 / 2 ^ 53) (1 / 2 ^ 1075) (10 ^ 6) ∧
    (4 : ℚ) * (10 ^ 6 + 42) * (1 / 2 ^ 53) * 1000 ^ 2 ≤ 5 / 10 ^ 4 :=
  ⟨by decide +kernel, by decide +kernel, powSq64 (by norm_num), by norm_num⟩

end Verif.Props
