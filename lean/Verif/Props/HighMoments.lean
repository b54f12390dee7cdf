import Verif.Proofs.HighSteps
import Verif.Props.JointNumeric

/-! # C93: accuracy of the power sums of any order in binary64

`n` is the number of values pushed since the last `Clear`, `M` bounds their absolute values. `PowAcc pw u t` asks of `math.Pow` a relative error
of at most `u` (and `t` where the result underflows); `u = 2⁻⁵³` is a correctly rounded power, larger `u` allow for a worse one. -/

namespace Verif.Props
open Verif Verif.Spec Verif.FP
open Verif.Moment (Core Config)

/-- The constants of the bounds: 1920, 23040, 291840 for the orders 2, 3 and 4. -/
theorem errC_two : errC 2 = 1920 := by rw [errC_eq]; norm_num

theorem errC_three : errC 3 = 23040 := by
  rw [errC_eq]; norm_num [Finset.sum_range_succ, errC_two, Nat.choose]

theorem errC_four : errC 4 = 291840 := by
  rw [errC_eq]; norm_num [Finset.sum_range_succ, errC_two, errC_three, Nat.choose]

theorem accuracy_weaken {u : ℚ} (hu : 1 / 2 ^ 53 ≤ u) : Accuracy rnd64 u (1 / 2 ^ 1075) := fun q =>
  (accuracy_rnd64 q).trans (by have := mul_le_mul_of_nonneg_right hu (abs_nonneg q); linarith)

/-- A correctly rounded power is good enough. -/
theorem powAcc64 {u : ℚ} (hu : 1 / 2 ^ 53 ≤ u) : PowAcc (fun x k => rnd64 (x ^ k)) u (1 / 2 ^ 1075) := fun x k => by
  have := accuracy_weaken hu (x ^ k)
  rwa [abs_pow] at this

theorem tiny64 {u M : ℚ} (hu : 1 / 2 ^ 53 ≤ u) (hu1 : u ≤ 1 / 4096) (hM : 1 / 2 ^ 50 ≤ M) {n k : Nat} (hnu : n * u ≤ 1 / 1024) (hk : k ≤ 20) :
    Tiny u (1 / 2 ^ 1075) M n k := by
  have hu0 : 0 < u := lt_of_lt_of_le (by positivity) hu
  have hM0 : 0 ≤ M := le_trans (by positivity) hM
  have hn : (n : ℚ) ≤ 2 ^ 43 := by
    by_contra h
    push Not at h
    have : (2 : ℚ) ^ 43 * (1 / 2 ^ 53) < n * u := mul_lt_mul h hu (by positivity) (by positivity)
    norm_num at this hnu
    linarith
  refine ⟨hu0.le, by positivity, hu1, hnu, hM0, ?_, fun i hi => ?_, ?_⟩
  · calc (1 : ℚ) / 2 ^ 1075 ≤ 1 / 2 ^ 53 * (1 / 2 ^ 53) * (1 / 2 ^ 50) := by decide +kernel
      _ ≤ u * u * M := mul_le_mul (mul_le_mul hu hu (by positivity) hu0.le) hM (by positivity) (by positivity)
  · have h1 : (1 / 2 ^ 49 : ℚ) ^ 20 ≤ (2 * M) ^ i := by
      calc (1 / 2 ^ 49 : ℚ) ^ 20 ≤ (1 / 2 ^ 49) ^ i := pow_le_pow_of_le_one (by positivity) (by norm_num) (by omega)
        _ ≤ (2 * M) ^ i := pow_le_pow_left₀ (by positivity) (by norm_num at hM ⊢; linarith) _
    have h2 := mul_le_mul hu h1 (by positivity) hu0.le
    have h3 : (1 : ℚ) / 2 ^ 1075 ≤ 1 / 2 ^ 53 * (1 / 2 ^ 49) ^ 20 / 2 := by decide +kernel
    linarith
  · have h1 : (n : ℚ) ^ k ≤ (2 ^ 43) ^ 20 := by
      calc (n : ℚ) ^ k ≤ (2 ^ 43) ^ k := pow_le_pow_left₀ (by positivity) hn _
        _ ≤ (2 ^ 43) ^ 20 := pow_le_pow_right₀ (by norm_num) hk
    have h2 := mul_le_mul_of_nonneg_left h1 (show (0 : ℚ) ≤ 1 / 2 ^ 1075 by positivity)
    have h3 : (1 : ℚ) / 2 ^ 1075 * (2 ^ 43) ^ 20 ≤ 1 / 2 ^ 53 / 2 := by decide +kernel
    linarith

section
variable {pw : ℚ → Nat → ℚ}

/-- C93, windows of 0 without decay, in binary64: for every `2 ≤ k ≤ 20`, `Sum(k)` differs from the exact sum of the `k`-th powers of the
deviations by at most `errC k·n²·u·M^k`. -/
theorem C93_sum_accuracy {cfg : Config ℚ} {c : Core ℚ} (hn : newCore (Arith.rounded rnd64 pw) cfg = .ok c) (hw : cfg.window = some 0)
    (hd : cfg.decay = none) (hs : ∀ k ∈ cfg.sums.getD [], k ≤ 65) {k : Nat} (hk2 : 2 ≤ k) (hk : k ≤ 20)
    (h2 : ∃ i ∈ cfg.sums.getD [], (k : Int) ≤ i) {u : ℚ} (hu : 1 / 2 ^ 53 ≤ u) (hu1 : u ≤ 1 / 4096) (hP : PowAcc pw u (1 / 2 ^ 1075)) {M : ℚ}
    (hM : rnd64 M = M) (hM0 : 1 / 2 ^ 50 ≤ M) (ops : List (MOp ℚ)) (hlen : (since ops).length * u ≤ 1 / 1024)
    (hsm : errC k * ((since ops).length * u) ≤ 2 ^ k) (hx : ∀ x ∈ since ops, rnd64 x = x ∧ |x| ≤ M) (hne : since ops ≠ []) :
    ∃ c' v, run (Arith.rounded rnd64 pw) c ops = .val (c', []) ∧ sum c' k = .ok v ∧
      |v - csum k (since ops)| ≤ errC k * (since ops).length ^ 2 * u * M ^ k := by
  obtain ⟨w, hw', hc, -⟩ := newCore_ok _ hn
  have hl : k < c.len := by rw [hc]; exact (lt_mk_len _ k).2 h2
  have S := tiny64 hu hu1 hM0 hlen hk
  have hN : ∀ m : Nat, m ≤ (since ops).length → rnd64 m = m := fun m hm => rnd64_nat (by
    by_contra h
    have h1 : (2 : ℚ) ^ 53 ≤ (since ops).length := by exact_mod_cast (show 2 ^ 53 ≤ (since ops).length by omega)
    have h3 := mul_le_mul h1 hu (by positivity) (by positivity)
    norm_num at h3 hlen
    linarith)
  obtain ⟨c', e, B, hI⟩ := core_track _ hn hs (w := 0) hw
    (hd ▸ track_high_err rounding_rnd64 (accuracy_weaken hu) hN S hP hk hsm hM c.len) ops
  refine ⟨c', _, e, B.sum_ok (k := k) hne (by exact_mod_cast (show 1 ≤ k by omega)) (by exact_mod_cast hl), ?_⟩
  have h := hI.2 le_rfl hx k hk2 le_rfl hl
  refine h.trans (le_of_eq ?_)
  ring

/-- Division by `n - 1`. -/
theorem moment_error {k : Nat} (hk2 : 2 ≤ k) (hk : k ≤ 20) {u : ℚ} (hu : 1 / 2 ^ 53 ≤ u) (hu1 : u ≤ 1 / 4096) {M : ℚ} (hM0 : 1 / 2 ^ 50 ≤ M)
    {xs : List ℚ} (hlen : xs.length * u ≤ 1 / 1024) (hsm : errC k * (xs.length * u) ≤ 2 ^ k) (hx : ∀ x ∈ xs, rnd64 x = x ∧ |x| ≤ M)
    (hne : 2 ≤ xs.length) {s : ℚ} (hb : |s - csum k xs| ≤ errC k * xs.length ^ 2 * u * M ^ k) :
    |rnd64 (s / (xs.length - 1)) - csum k xs / (xs.length - 1)| ≤ 3 * errC k * xs.length * u * M ^ k := by
  have S := tiny64 hu hu1 hM0 hlen hk
  have hE := accuracy_weaken hu (s / (xs.length - 1))
  have hS1 := abs_csum_le S.M0 (fun y hy => (hx y hy).2) k
  have hn2 : (2 : ℚ) ≤ xs.length := by exact_mod_cast hne
  have htk := S.tk k le_rfl
  have hu0 := S.u0
  have hMk : 0 ≤ M ^ k := pow_nonneg S.M0 k
  have hC := errC_nonneg k
  have hC2 : 480 * 2 ^ k ≤ errC k := by
    refine le_trans ?_ (errC_ge k)
    have h1 : (2 : ℚ) ≤ k := by exact_mod_cast hk2
    have h3 : (4 : ℚ) ≤ 2 ^ k := by
      calc (4 : ℚ) = 2 ^ 2 := by norm_num
        _ ≤ 2 ^ k := pow_le_pow_right₀ (by norm_num) hk2
    have h4 : (4 : ℚ) ^ k = 2 ^ k * 2 ^ k := by rw [← mul_pow]; norm_num
    rw [h4]
    have h5 : (8 : ℚ) ≤ k * 2 ^ k := by
      calc (8 : ℚ) = 2 * 4 := by norm_num
        _ ≤ k * 2 ^ k := mul_le_mul h1 h3 (by norm_num) (by linarith)
    have := mul_le_mul_of_nonneg_right h5 (show (0 : ℚ) ≤ 2 ^ k by positivity)
    linarith
  generalize (1 : ℚ) / 2 ^ 1075 = t at *
  set n : ℚ := (xs.length : ℚ)
  set Q := csum k xs
  have hn1 : 0 < n - 1 := by linarith
  have hd1 : |s / (n - 1) - Q / (n - 1)| ≤ 2 * (errC k * (n * u)) * M ^ k := by
    rw [← sub_div, abs_div, abs_of_pos hn1, div_le_iff₀ hn1]
    refine hb.trans ?_
    have : n * (errC k * (n * u) * M ^ k) ≤ 2 * (n - 1) * (errC k * (n * u) * M ^ k) :=
      mul_le_mul_of_nonneg_right (by linarith) (by positivity)
    linarith
  have hd2 : |s / (n - 1) - Q / (n - 1)| ≤ 2 * (2 ^ k * M ^ k) := by
    refine hd1.trans ?_
    have := mul_le_mul_of_nonneg_right hsm hMk
    linarith
  rw [mul_pow] at hS1 htk
  have h2M : 0 ≤ 2 ^ k * M ^ k := by positivity
  have hQ : |Q / (n - 1)| ≤ 2 * (2 ^ k * M ^ k) := by
    rw [abs_div, abs_of_pos hn1, div_le_iff₀ hn1]
    refine hS1.trans ?_
    have : n * (2 ^ k * M ^ k) ≤ 2 * (n - 1) * (2 ^ k * M ^ k) := mul_le_mul_of_nonneg_right (by linarith) h2M
    linarith
  have hq := abs_add_le (s / (n - 1) - Q / (n - 1)) (Q / (n - 1))
  rw [sub_add_cancel] at hq
  have h1 := mul_le_mul_of_nonneg_left (hq.trans (add_le_add hd2 hQ)) hu0
  have h5 := abs_add_le (rnd64 (s / (n - 1)) - s / (n - 1)) (s / (n - 1) - Q / (n - 1))
  rw [sub_add_sub_cancel] at h5
  have h6 := mul_le_mul_of_nonneg_right hC2 (show 0 ≤ u * M ^ k by positivity)
  have h7 : errC k * (u * M ^ k) ≤ n * (errC k * (u * M ^ k)) := le_mul_of_one_le_left (by positivity) (by linarith)
  have h8 : 0 ≤ u * (2 ^ k * M ^ k) := by positivity
  linarith

/-- C93, the moments: the value of `Moment(k)` of at least two values is off by at most `3·errC k·n·u·M^k`. -/
theorem C93_moment_accuracy {cfg : Config ℚ} {c : Core ℚ} (hn : newCore (Arith.rounded rnd64 pw) cfg = .ok c) (hw : cfg.window = some 0)
    (hd : cfg.decay = none) (hs : ∀ k ∈ cfg.sums.getD [], k ≤ 65) {k : Nat} (hk2 : 2 ≤ k) (hk : k ≤ 20)
    (h2 : ∃ i ∈ cfg.sums.getD [], (k : Int) ≤ i) {u : ℚ} (hu : 1 / 2 ^ 53 ≤ u) (hu1 : u ≤ 1 / 4096) (hP : PowAcc pw u (1 / 2 ^ 1075)) {M : ℚ}
    (hM : rnd64 M = M) (hM0 : 1 / 2 ^ 50 ≤ M) (ops : List (MOp ℚ)) (hlen : (since ops).length * u ≤ 1 / 1024)
    (hsm : errC k * ((since ops).length * u) ≤ 2 ^ k) (hx : ∀ x ∈ since ops, rnd64 x = x ∧ |x| ≤ M) (hne : 2 ≤ (since ops).length) :
    ∃ c' v, run (Arith.rounded rnd64 pw) c ops = .val (c', []) ∧ momentValue (Arith.rounded rnd64 pw) c' k = .ok v ∧
      |v - csum k (since ops) / ((since ops).length - 1)| ≤ 3 * errC k * (since ops).length * u * M ^ k := by
  have hne' : since ops ≠ [] := by
    intro h
    rw [h] at hne
    simp at hne
  obtain ⟨c', s, r, hsum, hb⟩ := C93_sum_accuracy hn hw hd hs hk2 hk h2 hu hu1 hP hM hM0 ops hlen hsm hx hne'
  obtain ⟨w, c2, hw2, r2, hcnt, -⟩ := C64_any_arithmetic _ hn hs ops
  rw [r] at r2
  simp only [Go.val.injEq, Prod.mk.injEq, and_true] at r2
  subst r2
  have hw0 : w = 0 := by
    rw [hw] at hw2
    have := Option.some.inj hw2
    omega
  subst hw0
  have hcnt' : c'.count = ((since ops).length : Int) := by rw [hcnt, windowOf, lastN_zero]
  have hn53 : (since ops).length < 2 ^ 53 := by
    by_contra h
    have h1 : (2 : ℚ) ^ 53 ≤ (since ops).length := by exact_mod_cast (show 2 ^ 53 ≤ (since ops).length by omega)
    have h3 := mul_le_mul h1 hu (by positivity) (by positivity)
    norm_num at h3 hlen
    linarith
  have hv : momentValue (Arith.rounded rnd64 pw) c' k = .ok (rnd64 (s / ((since ops).length - 1))) := by
    have e1 : rnd64 (((since ops).length : Int) : ℚ) = (since ops).length := by
      rw [Int.cast_natCast]; exact rnd64_nat (by omega)
    have e2 : rnd64 (((since ops).length : ℚ) - 1) = (since ops).length - 1 := by
      have := rnd64_nat (n := (since ops).length - 1) (by omega)
      rwa [Nat.cast_sub (by omega), Nat.cast_one] at this
    simp only [momentValue, hsum, hcnt', Arith.rounded, Int.cast_one, rounding_rnd64.one, e1, e2]
  refine ⟨c', _, r, hv, ?_⟩
  exact moment_error hk2 hk hu hu1 hM0 hlen hsm hx hne hb

/-- C93, exponentially weighted, in binary64: `EWMMoment(k)` is off by at most `errC k·u·M^k/d`, however many values are pushed. -/
theorem C93_ewm_accuracy {cfg : Config ℚ} {c : Core ℚ} (hn : newCore (Arith.rounded rnd64 pw) cfg = .ok c) {d : ℚ}
    (hd : cfg.decay = some d) (hrd : rnd64 d = d) (hs : ∀ k ∈ cfg.sums.getD [], k ≤ 65) {k : Nat} (hk2 : 2 ≤ k) (hk : k ≤ 20)
    (h2 : ∃ i ∈ cfg.sums.getD [], (k : Int) ≤ i) {u : ℚ} (hu : 1 / 2 ^ 53 ≤ u) (hu1 : u ≤ 1 / 4096) (hP : PowAcc pw u (1 / 2 ^ 1075)) {M : ℚ}
    (hM : rnd64 M = M) (hM0 : 1 / 2 ^ 50 ≤ M) (hsm : errC k * (u / d) ≤ 2 ^ k) (ops : List (MOp ℚ))
    (hx : ∀ x ∈ since ops, rnd64 x = x ∧ |x| ≤ M) (hne : since ops ≠ []) :
    ∃ c' v, run (Arith.rounded rnd64 pw) c ops = .val (c', []) ∧ sum c' k = .ok v ∧
      |v - ewMoment d k (since ops)| ≤ errC k * (u / d) * M ^ k := by
  obtain ⟨w, hw, hc, hdd⟩ := newCore_ok _ hn
  obtain ⟨a, b, rfl⟩ := hdd d hd
  simp only [GoOrd.le, Arith.rounded, Int.cast_zero, Int.cast_one, rounding_rnd64.zero, rounding_rnd64.one, decide_eq_false_iff_not,
    not_le] at a b
  have hl : k < c.len := by rw [hc]; exact (lt_mk_len _ k).2 h2
  have S := tiny64 hu hu1 hM0 (n := 1) (k := k) (by rw [Nat.cast_one, one_mul]; linarith) hk
  obtain ⟨c', e, B, hI⟩ := core_track _ hn hs hw
    (hd ▸ track_high_ew_err rounding_rnd64 (accuracy_weaken hu) S hP hk2 hk hrd a b hsm hM c.len) ops
  refine ⟨c', _, e, B.sum_ok (k := k) hne (by exact_mod_cast (show 1 ≤ k by omega)) (by exact_mod_cast hl), ?_⟩
  have h := hI.2 hx k hk2 le_rfl hl
  rw [if_neg hne] at h
  refine h.trans (le_of_eq ?_)
  ring

end

/-- The hypotheses hold for binary64 with a correctly rounded power and data up to 8: the fourth moment of a hundred thousand values is right
up to 0.05, the exponentially weighted one with decay 1/1024 up to 0.0002, for ever. -/
example : rnd64 8 = 8 ∧ (1 / 2 ^ 50 : ℚ) ≤ 8 ∧ PowAcc (fun x k => rnd64 (x ^ k)) (1 / 2 ^ 53) (1 / 2 ^ 1075) ∧
    ((10 ^ 5 : Nat) : ℚ) * (1 / 2 ^ 53) ≤ 1 / 1024 ∧ errC 4 * ((10 ^ 5 : Nat) * (1 / 2 ^ 53)) ≤ 2 ^ 4 ∧
    3 * errC 4 * ((10 ^ 5 : Nat) : ℚ) * (1 / 2 ^ 53) * 8 ^ 4 ≤ 5 / 100 ∧ rnd64 (1 / 1024) = 1 / 1024 ∧
    errC 4 * (1 / 2 ^ 53 / (1 / 1024)) ≤ 2 ^ 4 ∧ errC 4 * (1 / 2 ^ 53 / (1 / 1024)) * 8 ^ 4 ≤ 2 / 10 ^ 4 :=
  ⟨by decide +kernel, by norm_num, powAcc64 le_rfl, by norm_num, by norm_num [errC_four], by norm_num [errC_four], by decide +kernel,
    by norm_num [errC_four], by norm_num [errC_four]⟩

end Verif.Props
