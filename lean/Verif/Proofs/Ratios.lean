import Verif.Proofs.HighSteps
import Mathlib.Analysis.SpecialFunctions.Pow.Real

/-! # Errors of the ratios `Skewness` and `Kurtosis`

Estimates on numbers: `z2`, `z3`, `z4` are computed central moments, `m2`, `m3`, `m4` the exact ones. -/

namespace Verif.FP
open Verif Verif.Spec

section
variable {u t : ℚ}

/-- A sample moment times `(n - 1) / n`, all rounded. -/
theorem scaled_err (hu : 0 ≤ u) (hu1 : u ≤ 1 / 4096) {X v r r0 z a B : ℚ} (h0 : 0 ≤ r0) (h1 : r0 ≤ 1) (hv : |v - X| ≤ a)
    (hr : |r - r0| ≤ 2 * u * r0) (hX : |X| ≤ B) (hz : |z - v * r| ≤ u * |v * r| + t) :
    |z - X * r0| ≤ 102 / 100 * a + 4 * u * B + t := by
  have ha : 0 ≤ a := (abs_nonneg _).trans hv
  have hB : 0 ≤ B := (abs_nonneg _).trans hX
  have hr' : |r| ≤ 1 + 2 * u := by
    have := abs_sub_abs_le_abs_sub r r0
    rw [abs_of_nonneg h0] at this
    nlinarith
  have e1 : |v * r - X * r0| ≤ a * (1 + 2 * u) + B * (2 * u) := by
    have e : v * r - X * r0 = (v - X) * r + X * (r - r0) := by ring
    rw [e]
    refine (abs_add_le _ _).trans (add_le_add ?_ ?_)
    · rw [abs_mul]; exact mul_le_mul hv hr' (abs_nonneg _) ha
    · rw [abs_mul]
      refine mul_le_mul hX (hr.trans ?_) (abs_nonneg _) hB
      nlinarith
  have e2 : |v * r| ≤ B + (a * (1 + 2 * u) + B * (2 * u)) := by
    have h3 := abs_sub_abs_le_abs_sub (v * r) (X * r0)
    have h4 : |X * r0| ≤ B := by
      rw [abs_mul, abs_of_nonneg h0]
      nlinarith [abs_nonneg X]
    linarith
  have e3 : |z - X * r0| ≤ |z - v * r| + |v * r - X * r0| := abs_sub_le _ _ _
  have e4 := mul_le_mul_of_nonneg_left e2 hu
  have hau : a * u ≤ a / 4096 := by nlinarith
  have hBu : B * u * u ≤ B * u / 4096 := by nlinarith [mul_nonneg hB hu]
  have hauu : a * u * u ≤ a / 4096 := by nlinarith [mul_nonneg ha hu]
  nlinarith [mul_nonneg hB hu]

/-- The ratio `m4 / m2²` from computed moments, the square rounded. -/
theorem ratio_err (hu : 0 ≤ u) (hu1 : u ≤ 1 / 4096) {m2 m4 z2 z4 p d F Q : ℚ} (hm2 : 0 < m2) (hd0 : 0 ≤ d) (hd : d ≤ 1 / 100)
    (h2 : |z2 - m2| ≤ d * m2) (hp : |p - z2 ^ 2| ≤ u * z2 ^ 2 + t) (ht : t ≤ u * m2 ^ 2) (h4 : |z4 - m4| ≤ F * m2 ^ 2)
    (hQ : |m4| ≤ Q * m2 ^ 2) : |z4 / p - m4 / m2 ^ 2| ≤ (F + Q * (201 / 100 * d + 21 / 10 * u)) / (97 / 100) := by
  obtain ⟨a, b⟩ := abs_le.1 h2
  have hm := sq_nonneg m2
  have hmp : 0 < m2 ^ 2 := by positivity
  have hs : |z2 ^ 2 - m2 ^ 2| ≤ 201 / 100 * d * m2 ^ 2 := by
    have e : z2 ^ 2 - m2 ^ 2 = (z2 - m2) * (z2 + m2) := by ring
    rw [e, abs_mul]
    have h3 : |z2 + m2| ≤ 201 / 100 * m2 := by
      rw [abs_le]; constructor <;> nlinarith
    refine (mul_le_mul h2 h3 (abs_nonneg _) (by positivity)).trans (le_of_eq (by ring))
  have hs2 : z2 ^ 2 ≤ 103 / 100 * m2 ^ 2 := by
    have := (abs_le.1 hs).2
    nlinarith
  have he : |p - m2 ^ 2| ≤ (201 / 100 * d + 21 / 10 * u) * m2 ^ 2 := by
    have h3 : |p - m2 ^ 2| ≤ |p - z2 ^ 2| + |z2 ^ 2 - m2 ^ 2| := abs_sub_le _ _ _
    have h5 := mul_le_mul_of_nonneg_left hs2 hu
    nlinarith [mul_nonneg hu hm]
  have hp' : 97 / 100 * m2 ^ 2 ≤ p := by
    have := (abs_le.1 he).1
    have h3 : (201 / 100 * d + 21 / 10 * u) * m2 ^ 2 ≤ 3 / 100 * m2 ^ 2 := mul_le_mul_of_nonneg_right (by linarith) hm
    linarith
  have hp0 : 0 < p := lt_of_lt_of_le (by positivity) hp'
  have hQ0 : 0 ≤ Q := by
    by_contra h
    have := (abs_nonneg _).trans hQ
    nlinarith
  have hF0 : 0 ≤ F := by
    by_contra h
    have := (abs_nonneg _).trans h4
    nlinarith
  have e : z4 / p - m4 / m2 ^ 2 = ((z4 - m4) + m4 / m2 ^ 2 * (m2 ^ 2 - p)) / p := by
    field_simp
    ring
  have hmq : |m4 / m2 ^ 2| ≤ Q := by
    rw [abs_div, abs_of_pos hmp, div_le_iff₀ hmp]; exact hQ
  rw [e, abs_div, abs_of_pos hp0, div_le_div_iff₀ hp0 (by norm_num)]
  have h6 : |(z4 - m4) + m4 / m2 ^ 2 * (m2 ^ 2 - p)| ≤ (F + Q * (201 / 100 * d + 21 / 10 * u)) * m2 ^ 2 := by
    refine (abs_add_le _ _).trans ?_
    rw [abs_mul, abs_sub_comm (m2 ^ 2) p]
    have := mul_le_mul hmq he (abs_nonneg _) hQ0
    linarith
  have h7 : 0 ≤ F + Q * (201 / 100 * d + 21 / 10 * u) := by positivity
  have h8 := mul_le_mul_of_nonneg_left hp' h7
  linarith

/-- The last two roundings of `Kurtosis`. -/
theorem kurt_final (hu : 0 ≤ u) (hu1 : u ≤ 1 / 4096) {n q ρ ρ0 a b : ℚ} (hn : 2 ≤ n) (hq : 1 ≤ q) (ht : t ≤ u)
    (R : |ρ - ρ0| ≤ (900000 * n * u * (q * q) + 4 * q * (201 / 100 * (6000 * n * u * q) + 21 / 10 * u)) / (97 / 100)) (h0 : |ρ0| ≤ 4 * q)
    (ha : |a - ρ| ≤ u * |ρ| + t) (hb : |b - (a - 3)| ≤ u * |a - 3| + t) : |b - (ρ0 - 3)| ≤ 10 ^ 6 * (n * u) * (q * q) := by
  have hnu : 0 ≤ n * u := by positivity
  have hqq : q ≤ q * q := by nlinarith
  have huq : 2 * (u * q) ≤ n * u * (q * q) := by
    have h1 : u * q ≤ u * (q * q) := mul_le_mul_of_nonneg_left hqq hu
    have h2 : 2 * (u * (q * q)) ≤ n * (u * (q * q)) := mul_le_mul_of_nonneg_right hn (by positivity)
    linarith
  have huq1 : u ≤ u * q := le_mul_of_one_le_right hu hq
  have hE0 : 0 ≤ n * u * (q * q) := by positivity
  have R' : |ρ - ρ0| ≤ 978000 * (n * u * (q * q)) := by
    refine R.trans ?_
    rw [div_le_iff₀ (by norm_num)]
    have e : 900000 * n * u * (q * q) + 4 * q * (201 / 100 * (6000 * n * u * q) + 21 / 10 * u) =
      (900000 + 4 * 201 / 100 * 6000) * (n * u * (q * q)) + 84 / 10 * (u * q) := by ring
    rw [e]
    linarith
  have e10 : 10 ^ 6 * (n * u) * (q * q) = 10 ^ 6 * (n * u * (q * q)) := by ring
  rw [e10]
  generalize n * u * (q * q) = E at *
  have hE : u * E ≤ E / 4096 := by
    have := mul_le_mul_of_nonneg_right hu1 hE0
    linarith
  have hρ : |ρ| ≤ 4 * q + 978000 * E := by
    have := abs_sub_abs_le_abs_sub ρ ρ0
    linarith
  have g1 : |a - ρ| ≤ 244 * E := by
    have h1 := mul_le_mul_of_nonneg_left hρ hu
    have e : u * (4 * q + 978000 * E) = 4 * (u * q) + 978000 * (u * E) := by ring
    rw [e] at h1
    linarith
  have g3 : |a - 3| ≤ 4 * q + 978244 * E + 3 := by
    have h1 := abs_sub_abs_le_abs_sub a ρ
    have h2 := abs_sub a 3
    rw [abs_of_pos (show (0 : ℚ) < 3 by norm_num)] at h2
    linarith
  have g4 : |b - (a - 3)| ≤ 250 * E := by
    have h1 := mul_le_mul_of_nonneg_left g3 hu
    have e : u * (4 * q + 978244 * E + 3) = 4 * (u * q) + 978244 * (u * E) + 3 * u := by ring
    rw [e] at h1
    linarith
  have e : b - (ρ0 - 3) = (b - (a - 3)) + ((a - ρ) + (ρ - ρ0)) := by ring
  rw [e]
  have h1 := abs_add_le (b - (a - 3)) ((a - ρ) + (ρ - ρ0))
  have h2 := abs_add_le (a - ρ) (ρ - ρ0)
  linarith

end

/-- Central moments of orders `j + 2` and 2. -/
theorem abs_csum_le_csum_two {M : ℚ} (hM : 0 ≤ M) {xs : List ℚ} (h : ∀ x ∈ xs, |x| ≤ M) (j : Nat) :
    |csum (j + 2) xs| ≤ (2 * M) ^ j * csum 2 xs := by
  have hμ := abs_mean_le hM h
  unfold csum
  generalize Spec.mean xs = μ at hμ
  induction xs with
  | nil => simp
  | cons x xs ih =>
    have h1 := ih (fun y hy => h y (by simp [hy]))
    have hx : |x - μ| ≤ 2 * M := by
      have := abs_sub x μ
      linarith [h x (by simp)]
    have h2 := abs_add_le ((x - μ) ^ (j + 2)) (xs.map fun x => (x - μ) ^ (j + 2)).sum
    have h3 : |(x - μ) ^ (j + 2)| ≤ (2 * M) ^ j * (x - μ) ^ 2 := by
      rw [pow_add, abs_mul, abs_of_nonneg (sq_nonneg (x - μ)), abs_pow]
      exact mul_le_mul_of_nonneg_right (pow_le_pow_left₀ (abs_nonneg _) hx _) (sq_nonneg _)
    simp only [List.map_cons, List.sum_cons]
    linarith

/-! ### Roots, over the reals -/

section
variable {u t d : ℝ}

theorem sqrt_err {v X : ℝ} (hX : 0 < X) (h : |v - X| ≤ d * X) (hd : d ≤ 1 / 2) : |√v - √X| ≤ d * √X := by
  have hs : 0 < √X := Real.sqrt_pos.2 hX
  have hv : 0 ≤ v := by
    have := (abs_le.1 h).1
    nlinarith
  have e : v - X = (√v - √X) * (√v + √X) := by
    have h1 := Real.sq_sqrt hv
    have h2 := Real.sq_sqrt hX.le
    nlinarith
  rw [e, abs_mul, abs_of_pos (show 0 < √v + √X by have := Real.sqrt_nonneg v; linarith)] at h
  have h3 : |√v - √X| * √X ≤ d * √X * √X := by
    have h4 : |√v - √X| * √X ≤ |√v - √X| * (√v + √X) :=
      mul_le_mul_of_nonneg_left (by have := Real.sqrt_nonneg v; linarith) (abs_nonneg _)
    have h5 := Real.mul_self_sqrt hX.le
    calc _ ≤ _ := h4
      _ ≤ d * X := h
      _ = d * √X * √X := by rw [mul_assoc, h5]
  exact le_of_mul_le_mul_right h3 hs

theorem cube_err {s y P : ℝ} (hs : 0 < s) (hu : 0 ≤ u) (hd0 : 0 ≤ d) (hd : d ≤ 1 / 100) (hy : |y - s| ≤ d * s)
    (hP : |P - y ^ 3| ≤ u * y ^ 3) : |P - s ^ 3| ≤ (31 / 10 * d + 11 / 10 * u) * s ^ 3 := by
  obtain ⟨a, b⟩ := abs_le.1 hy
  have hds : d * s ≤ 1 / 100 * s := mul_le_mul_of_nonneg_right hd hs.le
  have hy0 : 0 ≤ y := by linarith
  have hy1 : y ≤ 101 / 100 * s := by linarith
  have h1 : |y ^ 3 - s ^ 3| ≤ 31 / 10 * d * s ^ 3 := by
    have e : y ^ 3 - s ^ 3 = (y - s) * (y ^ 2 + y * s + s ^ 2) := by ring
    rw [e, abs_mul, abs_of_nonneg (show 0 ≤ y ^ 2 + y * s + s ^ 2 by positivity)]
    have h3 : y ^ 2 + y * s + s ^ 2 ≤ 31 / 10 * s ^ 2 := by nlinarith
    refine (mul_le_mul hy h3 (by positivity) (by positivity)).trans (le_of_eq (by ring))
  have h2 : y ^ 3 ≤ 11 / 10 * s ^ 3 := by
    have h3 := pow_le_pow_left₀ hy0 hy1 3
    have : 0 ≤ s ^ 3 := by positivity
    nlinarith
  have h4 : |P - s ^ 3| ≤ |P - y ^ 3| + |y ^ 3 - s ^ 3| := abs_sub_le _ _ _
  have h5 := mul_le_mul_of_nonneg_left h2 hu
  linarith

theorem quot_err {N c P D F Q e : ℝ} (hD : 0 < D) (he : e ≤ 1 / 20) (hN : |N - c| ≤ F * D) (hc : |c| ≤ Q * D) (hP : |P - D| ≤ e * D) :
    |N / P - c / D| ≤ (F + Q * e) * (20 / 19) := by
  have he0 : 0 ≤ e := by
    by_contra h
    have := (abs_nonneg _).trans hP
    nlinarith
  have hF0 : 0 ≤ F := by
    by_contra h
    have := (abs_nonneg _).trans hN
    nlinarith
  have hQ0 : 0 ≤ Q := by
    by_contra h
    have := (abs_nonneg _).trans hc
    nlinarith
  have hP' : 19 / 20 * D ≤ P := by
    have := (abs_le.1 hP).1
    nlinarith
  have hP0 : 0 < P := lt_of_lt_of_le (by positivity) hP'
  have e1 : N / P - c / D = ((N - c) + c / D * (D - P)) / P := by field_simp; ring
  have hq : |c / D| ≤ Q := by rw [abs_div, abs_of_pos hD, div_le_iff₀ hD]; exact hc
  rw [e1, abs_div, abs_of_pos hP0, div_le_iff₀ hP0]
  have h6 : |(N - c) + c / D * (D - P)| ≤ (F + Q * e) * D := by
    refine (abs_add_le _ _).trans ?_
    rw [abs_mul, abs_sub_comm D P]
    have := mul_le_mul hq hP (abs_nonneg _) hQ0
    linarith
  have h7 := mul_le_mul_of_nonneg_left hP' (show 0 ≤ F + Q * e by positivity)
  linarith

/-- A computed square root of a rounded number. -/
theorem root_err (hu : 0 ≤ u) (hu1 : u ≤ 1 / 4096) {w0 w r : ℝ} (hw : 0 < w0) (h : |w - w0| ≤ 2 * u * w0) (hr : |r - √w| ≤ u * √w) :
    |r - √w0| ≤ 31 / 10 * u * √w0 := by
  have h1 := sqrt_err hw h (by linarith)
  have h2 : |r - √w0| ≤ |r - √w| + |√w - √w0| := abs_sub_le _ _ _
  have h3 := (abs_le.1 h1).2
  have h4 := Real.sqrt_nonneg w0
  have h5 : u * √w ≤ 11 / 10 * (u * √w0) := by
    have h6 : √w ≤ 11 / 10 * √w0 := by nlinarith
    have := mul_le_mul_of_nonneg_left h6 hu
    linarith
  linarith

/-- The factor `√(n(n-1))/(n-2)`, computed. -/
theorem adjust_err (hu : 0 ≤ u) (hu1 : u ≤ 1 / 4096) {n w r a : ℝ} (hn : 3 ≤ n) (hw : |w - n * (n - 1)| ≤ u * |n * (n - 1)| + t)
    (hr : |r - √w| ≤ u * √w) (ha : |a - r / (n - 2)| ≤ u * |r / (n - 2)| + t) (ht : t ≤ u) :
    |a - √(n * (n - 1)) / (n - 2)| ≤ 52 / 10 * u * (√(n * (n - 1)) / (n - 2)) ∧ 1 ≤ √(n * (n - 1)) / (n - 2) ∧
      √(n * (n - 1)) / (n - 2) ≤ 245 / 100 := by
  have hw0 : 1 ≤ n * (n - 1) := by nlinarith
  have h2 : 0 < n - 2 := by linarith
  have h1 : |w - n * (n - 1)| ≤ 2 * u * (n * (n - 1)) := by
    rw [abs_of_pos (show 0 < n * (n - 1) by linarith)] at hw
    nlinarith
  have h3 := root_err hu hu1 (by linarith) h1 hr
  have hA1 : 1 ≤ √(n * (n - 1)) / (n - 2) := by
    rw [le_div_iff₀ h2, one_mul]
    refine Real.le_sqrt_of_sq_le ?_
    nlinarith
  have hA2 : √(n * (n - 1)) / (n - 2) ≤ 245 / 100 := by
    rw [div_le_iff₀ h2]
    refine Real.sqrt_le_iff.2 ⟨by positivity, ?_⟩
    nlinarith
  refine ⟨?_, hA1, hA2⟩
  have h4 : |r / (n - 2) - √(n * (n - 1)) / (n - 2)| ≤ 31 / 10 * u * (√(n * (n - 1)) / (n - 2)) := by
    rw [← sub_div, abs_div, abs_of_pos h2, div_le_iff₀ h2]
    refine h3.trans (le_of_eq ?_)
    field_simp
  generalize √(n * (n - 1)) / (n - 2) = A at *
  generalize r / (n - 2) = b at *
  have h5 : |b| ≤ A + 31 / 10 * u * A := by
    have := abs_sub_abs_le_abs_sub b A
    rw [abs_of_nonneg (show 0 ≤ A by linarith)] at this
    linarith
  have h6 : |a - A| ≤ |a - b| + |b - A| := abs_sub_le _ _ _
  have h7 := mul_le_mul_of_nonneg_left h5 hu
  have h8 : u * (A + 31 / 10 * u * A) ≤ 101 / 100 * (u * A) := by nlinarith [mul_nonneg hu (show 0 ≤ A by linarith)]
  have h9 : u ≤ u * A := le_mul_of_one_le_right hu hA1
  linarith

set_option maxHeartbeats 1000000 in
/-- `Skewness` from its parts: `z3` the third moment, `P` the power of the variance. -/
theorem skew_final (hu : 0 ≤ u) (hu1 : u ≤ 1 / 4096) {n k s A a z3 m3 b y P g : ℝ} (hn : 2 ≤ n) (hk : 1 ≤ k) (hs : 0 < s) (ht0 : 0 ≤ t)
    (ht : t ≤ u * s ^ 3) (htu : t ≤ u) (hA : 1 ≤ A) (ha : |a - A| ≤ 52 / 10 * u * A) (hsm : 6000 * n * u * k ^ 2 ≤ 1 / 100)
    (h3 : |z3 - m3| ≤ 71000 * n * u * k ^ 3 * s ^ 3) (hm : |m3| ≤ 2 * k * s ^ 3) (hb : |b - a * z3| ≤ u * |a * z3| + t)
    (hy : |y - s| ≤ 6000 * n * u * k ^ 2 * s) (hP : |P - y ^ 3| ≤ u * y ^ 3) (hg : |g - b / P| ≤ u * |b / P| + t) :
    |g - A * m3 / s ^ 3| ≤ 120000 * (n * u * k ^ 3) * A := by
  have hd0 : 0 ≤ 6000 * n * u * k ^ 2 := by positivity
  have hD : 0 < s ^ 3 := by positivity
  have hP' := cube_err hs hu hd0 hsm hy hP
  have huk : 2 * (u * k) ≤ n * u * k ^ 3 := by
    have h1 : k ≤ k ^ 3 := by
      calc k = k * 1 := by ring
        _ ≤ k * k ^ 2 := mul_le_mul_of_nonneg_left (one_le_pow₀ hk) (by linarith)
        _ = k ^ 3 := by ring
    have h2 := mul_le_mul_of_nonneg_left h1 hu
    have h3 : 2 * (u * k ^ 3) ≤ n * (u * k ^ 3) := mul_le_mul_of_nonneg_right hn (by positivity)
    linarith
  have huk1 : u ≤ u * k := le_mul_of_one_le_right hu hk
  have hA0 : 0 ≤ A := by linarith
  have e3 : 71000 * n * u * k ^ 3 * s ^ 3 = 71000 * (n * u * k ^ 3) * s ^ 3 := by ring
  rw [e3] at h3
  have ek : k * (6000 * n * u * k ^ 2) = 6000 * (n * u * k ^ 3) := by ring
  have hE0 : 0 ≤ n * u * k ^ 3 := by positivity
  generalize n * u * k ^ 3 = E at *
  generalize 6000 * n * u * k ^ 2 = d at *
  generalize s ^ 3 = D at *
  have hu2 : u * u ≤ u / 4096 := by nlinarith
  -- the product
  have ha' : |a| ≤ 1002 / 1000 * A := by
    have := abs_sub_abs_le_abs_sub a A
    rw [abs_of_nonneg hA0] at this
    nlinarith
  have hp : |a * z3 - A * m3| ≤ (71200 * E + 104 / 10 * (u * k)) * A * D := by
    have e : a * z3 - A * m3 = a * (z3 - m3) + (a - A) * m3 := by ring
    rw [e]
    refine (abs_add_le _ _).trans ?_
    rw [abs_mul, abs_mul]
    have h1 := mul_le_mul ha' h3 (abs_nonneg _) (by positivity)
    have h2 := mul_le_mul ha hm (abs_nonneg _) (by positivity)
    have h4 : 1002 / 1000 * A * (71000 * E * D) + 52 / 10 * u * A * (2 * k * D) = (71142 * E + 104 / 10 * (u * k)) * A * D := by ring
    have h5 : (71142 * E + 104 / 10 * (u * k)) * A * D ≤ (71200 * E + 104 / 10 * (u * k)) * A * D := by
      have : 0 ≤ E * (A * D) := by positivity
      nlinarith
    linarith
  have hc : |A * m3| ≤ 2 * k * A * D := by
    rw [abs_mul, abs_of_nonneg hA0]
    have := mul_le_mul_of_nonneg_left hm hA0
    linarith
  have hb' : |b - A * m3| ≤ (71200 * E + 104 / 10 * (u * k) + (2 * (u * k) + 20 * E) + u) * A * D := by
    have h1 : |b - A * m3| ≤ |b - a * z3| + |a * z3 - A * m3| := abs_sub_le _ _ _
    have h2 : |a * z3| ≤ 2 * k * A * D + (71200 * E + 104 / 10 * (u * k)) * A * D := by
      have := abs_sub_abs_le_abs_sub (a * z3) (A * m3)
      linarith
    have h4 := mul_le_mul_of_nonneg_left h2 hu
    have hAD : 0 ≤ A * D := by positivity
    have h5 : u * (71200 * E + 104 / 10 * (u * k)) ≤ 20 * E := by
      have a1 : u * E ≤ E / 4096 := by nlinarith
      have a2 : u * (u * k) ≤ u * k / 4096 := by nlinarith [mul_nonneg hu (show 0 ≤ k by linarith)]
      linarith
    have h6 : u * (2 * k * A * D + (71200 * E + 104 / 10 * (u * k)) * A * D) ≤ (2 * (u * k) + 20 * E) * A * D := by
      have := mul_le_mul_of_nonneg_right h5 hAD
      linarith
    have h7 : t ≤ u * A * D := by
      have : u * D ≤ A * (u * D) := le_mul_of_one_le_left (by positivity) hA
      linarith
    linarith
  have hsmall : 31 / 10 * d + 11 / 10 * u ≤ 1 / 20 := by linarith
  have Q := quot_err hD hsmall hb' hc hP'
  have hQ2 : |b / P - A * m3 / D| ≤ 117000 * E * A := by
    refine Q.trans ?_
    have e : 2 * k * A * (31 / 10 * d + 11 / 10 * u) = (62 / 10 * (k * d) + 22 / 10 * (u * k)) * A := by ring
    rw [e, ek]
    have hEA : 0 ≤ E * A := by positivity
    have hkA : 2 * (u * k) * A ≤ E * A := mul_le_mul_of_nonneg_right huk hA0
    have huA : u * A ≤ u * k * A := mul_le_mul_of_nonneg_right huk1 hA0
    linarith
  have hc' : |A * m3 / D| ≤ 2 * k * A := by
    rw [abs_div, abs_of_pos hD, div_le_iff₀ hD]; exact hc
  have h1 : |b / P| ≤ 2 * k * A + 117000 * E * A := by
    have := abs_sub_abs_le_abs_sub (b / P) (A * m3 / D)
    linarith
  have h2 := mul_le_mul_of_nonneg_left h1 hu
  have h4 : |g - A * m3 / D| ≤ |g - b / P| + |b / P - A * m3 / D| := abs_sub_le _ _ _
  have hEA : 0 ≤ E * A := by positivity
  have h5 : u * (2 * k * A + 117000 * E * A) ≤ E * A + 29 * (E * A) := by
    have a1 : u * (E * A) ≤ 1 / 4096 * (E * A) := mul_le_mul_of_nonneg_right hu1 hEA
    have hkA : 2 * (u * k) * A ≤ E * A := mul_le_mul_of_nonneg_right huk hA0
    linarith
  have h6 : t ≤ E * A := by
    have : E ≤ E * A := le_mul_of_one_le_right hE0 hA
    linarith
  linarith

/-- `Corr` from its sums: `x`, `y`, `c` computed, `X`, `Y`, `C` exact. -/
theorem corr_final (hu : 0 ≤ u) (hu1 : u ≤ 1 / 4096) {X Y C x y c p r g e : ℝ} (hX : 0 < X) (hY : 0 < Y) (hd0 : 0 ≤ d) (hd : d ≤ 1 / 100)
    (hx : |x - X| ≤ d * X) (hy : |y - Y| ≤ d * Y) (hc : |c - C| ≤ e * √(X * Y)) (hC : |C| ≤ √(X * Y))
    (hp : |p - x * y| ≤ u * |x * y| + t) (ht : t ≤ u * (X * Y)) (htu : t ≤ u) (hr : |r - √p| ≤ u * √p)
    (hg : |g - c / r| ≤ u * |c / r| + t) : |g - C / √(X * Y)| ≤ 107 / 100 * (e + 201 / 100 * d) + 6 * u := by
  have hXY : 0 < X * Y := mul_pos hX hY
  have hs : 0 < √(X * Y) := Real.sqrt_pos.2 hXY
  have he0 : 0 ≤ e := by
    by_contra h
    have := (abs_nonneg _).trans hc
    nlinarith
  have h1 : |x * y - X * Y| ≤ 201 / 100 * d * (X * Y) := by
    have e1 : x * y - X * Y = (x - X) * Y + X * (y - Y) + (x - X) * (y - Y) := by ring
    rw [e1]
    refine (abs_add_le _ _).trans ?_
    have a1 := abs_add_le ((x - X) * Y) (X * (y - Y))
    rw [abs_mul, abs_mul, abs_of_pos hX, abs_of_pos hY] at a1
    rw [abs_mul (x - X)]
    have a2 := mul_le_mul hx hy (abs_nonneg _) (by positivity)
    have a3 := mul_le_mul_of_nonneg_right hx hY.le
    have a4 := mul_le_mul_of_nonneg_left hy hX.le
    have a5 : d * X * (d * Y) ≤ 1 / 100 * d * (X * Y) := by
      have : 0 ≤ d * (X * Y) := by positivity
      nlinarith
    linarith
  have h2 : |x * y| ≤ 103 / 100 * (X * Y) := by
    have := abs_sub_abs_le_abs_sub (x * y) (X * Y)
    rw [abs_of_pos hXY] at this
    have : 201 / 100 * d * (X * Y) ≤ 3 / 100 * (X * Y) := mul_le_mul_of_nonneg_right (by linarith) hXY.le
    linarith
  have h3 : |p - X * Y| ≤ (201 / 100 * d + 21 / 10 * u) * (X * Y) := by
    have a1 : |p - X * Y| ≤ |p - x * y| + |x * y - X * Y| := abs_sub_le _ _ _
    have a2 := mul_le_mul_of_nonneg_left h2 hu
    have : 0 ≤ u * (X * Y) := by positivity
    linarith
  have h4 := sqrt_err hXY h3 (by linarith)
  have h5 : |r - √(X * Y)| ≤ (201 / 100 * d + 32 / 10 * u) * √(X * Y) := by
    have a1 : |r - √(X * Y)| ≤ |r - √p| + |√p - √(X * Y)| := abs_sub_le _ _ _
    have a2 := (abs_le.1 h4).2
    have a3 : √p ≤ 11 / 10 * √(X * Y) := by
      have : (201 / 100 * d + 21 / 10 * u) * √(X * Y) ≤ 1 / 10 * √(X * Y) := mul_le_mul_of_nonneg_right (by linarith) hs.le
      linarith
    have a4 := mul_le_mul_of_nonneg_left a3 hu
    linarith
  have Q := quot_err hs (by linarith) hc (by rw [one_mul]; exact hC) h5
  have hC' : |C / √(X * Y)| ≤ 1 := by rw [abs_div, abs_of_pos hs, div_le_one hs]; exact hC
  have h6 : |c / r| ≤ 1 + (e + 1 * (201 / 100 * d + 32 / 10 * u)) * (20 / 19) := by
    have := abs_sub_abs_le_abs_sub (c / r) (C / √(X * Y))
    linarith
  have h7 := mul_le_mul_of_nonneg_left h6 hu
  have h8 : |g - C / √(X * Y)| ≤ |g - c / r| + |c / r - C / √(X * Y)| := abs_sub_le _ _ _
  have h9 : u * (e + 201 / 100 * d + 32 / 10 * u) ≤ 1 / 4096 * (e + 201 / 100 * d + 32 / 10 * u) :=
    mul_le_mul_of_nonneg_right hu1 (by positivity)
  linarith

end

end Verif.FP
