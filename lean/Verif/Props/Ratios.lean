import Verif.Proofs.Ratios
import Verif.Props.HighMoments

/-! # C97: accuracy of `Std`, `Skewness` and `Kurtosis` in binary64

`n` is the number of values pushed since the last `Clear`, `M` bounds their absolute values and `κ ≥ 1` is a bound of `M` in population standard
deviations, `M² ≤ κ²·m₂`. Without such a bound the ratios are ill-conditioned. -/

namespace Verif.Props
open Verif Verif.Spec Verif.FP
open Verif.Moment (Core Config)

/-- The values as real numbers. -/
def reals (xs : List ℚ) : List ℝ := xs.map (fun x : ℚ => (x : ℝ))

theorem mean_reals (xs : List ℚ) : Spec.mean (reals xs) = ((Spec.mean xs : ℚ) : ℝ) := by
  have h : (reals xs).sum = ((xs.sum : ℚ) : ℝ) := by
    induction xs with
    | nil => simp [reals]
    | cons x xs ih => simp only [reals, List.map_cons, List.sum_cons] at ih ⊢; rw [ih]; push_cast; rfl
  rw [Spec.mean, h]
  simp only [Spec.mean, reals, List.length_map]
  push_cast
  rfl

theorem csum_reals (k : Nat) (xs : List ℚ) : csum k (reals xs) = ((csum k xs : ℚ) : ℝ) := by
  unfold csum
  rw [mean_reals]
  generalize Spec.mean xs = μ
  induction xs with
  | nil => simp [reals]
  | cons x xs ih => simp only [reals, List.map_cons, List.sum_cons] at ih ⊢; rw [ih]; push_cast; rfl

theorem popMoment_reals (k : Nat) (xs : List ℚ) : popMoment k (reals xs) = ((popMoment k xs : ℚ) : ℝ) := by
  simp only [popMoment, csum_reals]
  simp only [reals, List.length_map]
  push_cast
  rfl

theorem sampleMoment_reals (k : Nat) (xs : List ℚ) : sampleMoment k (reals xs) = ((sampleMoment k xs : ℚ) : ℝ) := by
  simp only [sampleMoment, csum_reals]
  simp only [reals, List.length_map]
  push_cast
  rfl

section
variable {pw : ℚ → Nat → ℚ}

/-- What the theorems assume of the data: representable values up to `M`, `M` at most `κ` standard deviations. -/
structure Spread (u M κ : ℚ) (xs : List ℚ) : Prop where
  round : rnd64 M = M
  low : 1 / 2 ^ 50 ≤ M
  data : ∀ x ∈ xs, rnd64 x = x ∧ |x| ≤ M
  one : 1 ≤ κ
  cond : M ^ 2 ≤ κ ^ 2 * popMoment 2 xs
  small : 6000 * xs.length * u * κ ^ 2 ≤ 1 / 100

variable {u M κ : ℚ} {xs : List ℚ}

theorem Spread.nu (S : Spread u M κ xs) (hu : 1 / 2 ^ 53 ≤ u) : (xs.length : ℚ) * u ≤ 1 / 600000 := by
  have hu0 : 0 ≤ u := le_trans (by positivity) hu
  have h1 : (1 : ℚ) ≤ κ ^ 2 := one_le_pow₀ S.one
  have h2 := le_mul_of_one_le_right (show 0 ≤ (xs.length : ℚ) * u by positivity) h1
  have := S.small
  linarith

theorem Spread.ne (S : Spread u M κ xs) : 2 ≤ xs.length := by
  by_contra h
  have hM : 0 < M := lt_of_lt_of_le (by positivity) S.low
  have h2 := S.cond
  have : popMoment 2 xs = 0 := by
    rcases xs with _ | ⟨a, _ | ⟨b, l⟩⟩
    · simp [popMoment, csum]
    · simp [popMoment, csum, Spec.mean]
    · simp at h
  rw [this] at h2
  have : 0 < M ^ 2 := by positivity
  linarith

/-- Scaling a sample moment by `(n - 1) / n`. -/
theorem scaled_of_moment {k : Nat} (hk : k ≤ 4) (hu : 1 / 2 ^ 53 ≤ u) (hu1 : u ≤ 1 / 4096) (S : Spread u M κ xs) {v : ℚ}
    (hb : |v - csum k xs / (xs.length - 1)| ≤ 3 * errC k * xs.length * u * M ^ k) :
    |rnd64 (v * rnd64 ((xs.length - 1) / xs.length)) - popMoment k xs| ≤ (306 / 100 * errC k * xs.length + 8 * 2 ^ k + 1) * u * M ^ k := by
  have hu0 : 0 ≤ u := le_trans (by positivity) hu
  have hM0 : 0 < M := lt_of_lt_of_le (by positivity) S.low
  have hne := S.ne
  have hn2 : (2 : ℚ) ≤ xs.length := by exact_mod_cast hne
  set n : ℚ := (xs.length : ℚ) with hndef
  have hn0 : 0 < n := by linarith
  have hr0 : 1 / 2 ≤ (n - 1) / n := by rw [le_div_iff₀ hn0]; linarith
  have hr1 : (n - 1) / n ≤ 1 := by rw [div_le_one hn0]; linarith
  have hr : |rnd64 ((n - 1) / n) - (n - 1) / n| ≤ 2 * u * ((n - 1) / n) := by
    have h := accuracy_weaken hu ((n - 1) / n)
    rw [abs_of_nonneg (show 0 ≤ (n - 1) / n by linarith)] at h
    have ht : (1 : ℚ) / 2 ^ 1075 ≤ 1 / 2 ^ 53 * (1 / 2) := by decide +kernel
    have h5 := mul_le_mul hu hr0 (by norm_num) hu0
    linarith
  have hX : |csum k xs / (n - 1)| ≤ 2 * (2 * M) ^ k := by
    rw [abs_div, abs_of_pos (show 0 < n - 1 by linarith), div_le_iff₀ (by linarith)]
    refine (abs_csum_le hM0.le (fun x hx => (S.data x hx).2) k).trans ?_
    have : 0 ≤ (2 * M) ^ k := by positivity
    change n * (2 * M) ^ k ≤ _
    nlinarith
  have h := scaled_err hu0 hu1 (by linarith) hr1 hb hr hX (accuracy_weaken hu _)
  have e : csum k xs / (n - 1) * ((n - 1) / n) = popMoment k xs := by
    have h0 : n - 1 ≠ 0 := by linarith
    rw [popMoment, div_mul_div_cancel₀ h0]
  rw [e] at h
  have ht : (1 : ℚ) / 2 ^ 1075 ≤ u * M ^ k := by
    have h1 : (1 / 2 ^ 50 : ℚ) ^ 4 ≤ M ^ k := by
      calc (1 / 2 ^ 50 : ℚ) ^ 4 ≤ (1 / 2 ^ 50) ^ k := pow_le_pow_of_le_one (by positivity) (by norm_num) hk
        _ ≤ M ^ k := pow_le_pow_left₀ (by positivity) S.low _
    refine le_trans ?_ (mul_le_mul hu h1 (by positivity) hu0)
    decide +kernel
  rw [mul_pow] at h
  linarith

/-- The scaled moments `momentValue · ((n - 1) / n)` of the code. -/
theorem scaled_moment {cfg : Config ℚ} {c : Core ℚ} (hn : newCore (Arith.rounded rnd64 pw) cfg = .ok c) (hw : cfg.window = some 0)
    (hd : cfg.decay = none) (hs : ∀ k ∈ cfg.sums.getD [], k ≤ 65) {k : Nat} (hk2 : 2 ≤ k) (hk : k ≤ 4)
    (h2 : ∃ i ∈ cfg.sums.getD [], (k : Int) ≤ i) (hu : 1 / 2 ^ 53 ≤ u) (hu1 : u ≤ 1 / 4096) (hP : PowAcc pw u (1 / 2 ^ 1075))
    (ops : List (MOp ℚ)) (S : Spread u M κ (since ops)) :
    ∃ c' v, run (Arith.rounded rnd64 pw) c ops = .val (c', []) ∧ momentValue (Arith.rounded rnd64 pw) c' k = .ok v ∧
      |rnd64 (v * rnd64 (((since ops).length - 1) / (since ops).length)) - popMoment k (since ops)| ≤
        (306 / 100 * errC k * (since ops).length + 8 * 2 ^ k + 1) * u * M ^ k := by
  have hu0 : 0 ≤ u := le_trans (by positivity) hu
  have hnu := S.nu hu
  have hne := S.ne
  have hnn : 0 ≤ ((since ops).length : ℚ) * u := by positivity
  have hsm : errC k * ((since ops).length * u) ≤ 2 ^ k := by
    refine errC_mono hk2 hk ?_ hnn
    rw [errC_four]; norm_num; linarith
  obtain ⟨c', v, r, hv, hb⟩ := C93_moment_accuracy hn hw hd hs hk2 (by omega) h2 hu hu1 hP S.round S.low ops (by linarith) hsm S.data hne
  exact ⟨c', v, r, hv, scaled_of_moment hk hu hu1 S hb⟩

theorem Spread.pos (S : Spread u M κ xs) : 0 < popMoment 2 xs := by
  have hM : 0 < M := lt_of_lt_of_le (by positivity) S.low
  have h1 : 0 < M ^ 2 := by positivity
  have h2 := S.cond
  have h3 : 0 < κ ^ 2 := by have := S.one; positivity
  by_contra h
  push Not at h
  nlinarith

theorem Spread.high (S : Spread u M κ xs) (j : Nat) : |popMoment (j + 2) xs| ≤ (2 * M) ^ j * popMoment 2 xs := by
  have hM : 0 ≤ M := le_trans (by positivity) S.low
  have hn : (0 : ℚ) < xs.length := by exact_mod_cast lt_of_lt_of_le (by norm_num) S.ne
  rw [popMoment, popMoment, abs_div, abs_of_pos hn, ← mul_div_assoc]
  exact div_le_div_of_nonneg_right (abs_csum_le_csum_two hM (fun x hx => (S.data x hx).2) j) hn.le

theorem Spread.kappa (S : Spread u M κ xs) (hu : 1 / 2 ^ 53 ≤ u) : κ ^ 2 ≤ 2 ^ 40 := by
  by_contra h
  push Not at h
  have hn : (2 : ℚ) ≤ xs.length := by exact_mod_cast S.ne
  have h3 := S.small
  have hκ : 0 ≤ κ ^ 2 := sq_nonneg _
  have h4 : (2 : ℚ) * (1 / 2 ^ 53) * 2 ^ 40 ≤ xs.length * u * κ ^ 2 :=
    mul_le_mul (mul_le_mul hn hu (by positivity) (by positivity)) h.le (by positivity) (by have : 0 ≤ u := le_trans (by positivity) hu; positivity)
  norm_num at h4
  linarith

theorem Spread.var (S : Spread u M κ xs) (hu : 1 / 2 ^ 53 ≤ u) : 1 / 2 ^ 140 ≤ popMoment 2 xs := by
  have h1 : (1 / 2 ^ 50 : ℚ) ^ 2 ≤ M ^ 2 := pow_le_pow_left₀ (by positivity) S.low 2
  have h3 := mul_le_mul_of_nonneg_right (S.kappa hu) S.pos.le
  have h4 := S.cond
  norm_num at h1 h3 ⊢
  linarith

theorem Spread.lt53 (S : Spread u M κ xs) (hu : 1 / 2 ^ 53 ≤ u) : xs.length < 2 ^ 53 := by
  have h := S.nu hu
  by_contra h'
  have h1 : (2 : ℚ) ^ 53 ≤ xs.length := by exact_mod_cast (show 2 ^ 53 ≤ xs.length by omega)
  have h3 := mul_le_mul h1 hu (by positivity) (by positivity)
  norm_num at h3 h
  linarith

/-- The count of a core without a window. -/
theorem count_since {cfg : Config ℚ} {c c' : Core ℚ} (hn : newCore (Arith.rounded rnd64 pw) cfg = .ok c) (hw : cfg.window = some 0)
    (hs : ∀ k ∈ cfg.sums.getD [], k ≤ 65) {ops : List (MOp ℚ)} (r : run (Arith.rounded rnd64 pw) c ops = .val (c', [])) :
    c'.count = ((since ops).length : Int) := by
  obtain ⟨w, c2, hw2, r2, hcnt, -⟩ := C64_any_arithmetic _ hn hs ops
  rw [r] at r2
  simp only [Go.val.injEq, Prod.mk.injEq, and_true] at r2
  subst r2
  have hw0 : w = 0 := by
    rw [hw] at hw2
    have := Option.some.inj hw2
    omega
  subst hw0
  rw [hcnt, windowOf, lastN_zero]

/-- The excess kurtosis from scaled moments. -/
theorem kurt_of_scaled (hu : 1 / 2 ^ 53 ≤ u) (hu1 : u ≤ 1 / 4096) (hP : PowAcc pw u (1 / 2 ^ 1075)) (S : Spread u M κ xs) {z2 z4 : ℚ}
    (b2 : |z2 - popMoment 2 xs| ≤ (306 / 100 * errC 2 * xs.length + 8 * 2 ^ 2 + 1) * u * M ^ 2)
    (b4 : |z4 - popMoment 4 xs| ≤ (306 / 100 * errC 4 * xs.length + 8 * 2 ^ 4 + 1) * u * M ^ 4) :
    |rnd64 (rnd64 (z4 / pw z2 2) - 3) - exKurtosis xs| ≤ 10 ^ 6 * xs.length * u * κ ^ 4 := by
  have hm := S.pos
  have hvar := S.var hu
  have h4 := S.high 2
  have hcond := S.cond
  have hsmall := S.small
  have hκ := S.one
  have hM : 0 < M := lt_of_lt_of_le (by positivity) S.low
  have hu0 : 0 < u := lt_of_lt_of_le (by positivity) hu
  have hn2 : (2 : ℚ) ≤ xs.length := by exact_mod_cast S.ne
  rw [errC_two] at b2
  rw [errC_four] at b4
  unfold exKurtosis
  generalize popMoment 2 xs = m2 at *
  generalize popMoment 4 xs = m4 at *
  clear S
  generalize (xs.length : ℚ) = n at *
  have hκ2 : 1 ≤ κ ^ 2 := one_le_pow₀ hκ
  have hκ4 : κ ^ 4 = κ ^ 2 * κ ^ 2 := by ring
  rw [hκ4]
  generalize κ ^ 2 = q at *
  have hnu : 0 < n * u := by nlinarith
  have hM4 : M ^ 4 ≤ q * q * m2 ^ 2 := by
    have := mul_le_mul hcond hcond (by positivity) (by positivity)
    calc M ^ 4 = M ^ 2 * M ^ 2 := by ring
      _ ≤ _ := this
      _ = _ := by ring
  have a2 : |z2 - m2| ≤ 6000 * n * u * q * m2 := by
    refine b2.trans ?_
    have h1 : (306 / 100 * 1920 * n + 8 * 2 ^ 2 + 1) * u ≤ 6000 * n * u := by
      refine mul_le_mul_of_nonneg_right ?_ hu0.le
      norm_num; linarith
    refine (mul_le_mul h1 hcond (by positivity) (by positivity)).trans (le_of_eq (by ring))
  have a4 : |z4 - m4| ≤ 900000 * n * u * (q * q) * m2 ^ 2 := by
    refine b4.trans ?_
    have h1 : (306 / 100 * 291840 * n + 8 * 2 ^ 4 + 1) * u ≤ 900000 * n * u := by
      refine mul_le_mul_of_nonneg_right ?_ hu0.le
      norm_num; linarith
    refine (mul_le_mul h1 hM4 (by positivity) (by positivity)).trans (le_of_eq (by ring))
  have hQ : |m4| ≤ 4 * q * m2 ^ 2 := by
    have := mul_le_mul_of_nonneg_right hcond hm.le
    nlinarith
  have ht : (1 : ℚ) / 2 ^ 1075 ≤ u * m2 ^ 2 := by
    have h1 : (1 / 2 ^ 140 : ℚ) ^ 2 ≤ m2 ^ 2 := pow_le_pow_left₀ (by positivity) hvar 2
    refine le_trans ?_ (mul_le_mul hu h1 (by positivity) hu0.le)
    decide +kernel
  have hp := hP z2 2
  rw [sq_abs] at hp
  have R := ratio_err hu0.le hu1 hm (by positivity) hsmall a2 hp ht a4 hQ
  generalize z4 / pw z2 2 = ρ at *
  have hρ0 : |m4 / m2 ^ 2| ≤ 4 * q := by
    rw [abs_div, abs_of_pos (show 0 < m2 ^ 2 by positivity), div_le_iff₀ (by positivity)]; exact hQ
  generalize m4 / m2 ^ 2 = ρ0 at *
  have htu : (1 : ℚ) / 2 ^ 1075 ≤ u := le_trans (by decide +kernel) hu
  have := kurt_final hu0.le hu1 hn2 hκ2 htu R hρ0 (accuracy_weaken hu ρ) (accuracy_weaken hu (rnd64 ρ - 3))
  exact this.trans (le_of_eq (by ring))

/-- C97, `Kurtosis` without a window, in binary64: it is off by at most `10⁶·n·u·κ⁴`. -/
theorem C97_kurtosis_accuracy {cfg : Config ℚ} {c : Core ℚ} (hn : newCore (Arith.rounded rnd64 pw) cfg = .ok c) (hw : cfg.window = some 0)
    (hd : cfg.decay = none) (hs : ∀ k ∈ cfg.sums.getD [], k ≤ 65) (h2 : ∃ i ∈ cfg.sums.getD [], 4 ≤ i) (hu : 1 / 2 ^ 53 ≤ u)
    (hu1 : u ≤ 1 / 4096) (hP : PowAcc pw u (1 / 2 ^ 1075)) (ops : List (MOp ℚ)) (S : Spread u M κ (since ops)) :
    ∃ c' g, run (Arith.rounded rnd64 pw) c ops = .val (c', []) ∧ kurtosisValue (Arith.rounded rnd64 pw) c' = .ok g ∧
      |g - exKurtosis (since ops)| ≤ 10 ^ 6 * (since ops).length * u * κ ^ 4 := by
  obtain ⟨i, hi, hi4⟩ := h2
  obtain ⟨c', v2, r, e2, b2⟩ := scaled_moment hn hw hd hs (k := 2) le_rfl (by norm_num) ⟨i, hi, by push_cast; omega⟩ hu hu1 hP ops S
  obtain ⟨c2, v4, r', e4, b4⟩ := scaled_moment hn hw hd hs (k := 4) (by norm_num) le_rfl ⟨i, hi, by push_cast; omega⟩ hu hu1 hP ops S
  have hc := count_since hn hw hs r
  rw [r] at r'
  simp only [Go.val.injEq, Prod.mk.injEq, and_true] at r'
  subst r'
  have hlen := S.lt53 hu
  have hne := S.ne
  have en : rnd64 (((since ops).length : Int) : ℚ) = (since ops).length := by rw [Int.cast_natCast]; exact rnd64_nat hlen
  have en1 : rnd64 (((since ops).length : ℚ) - 1) = (since ops).length - 1 := by
    have := rnd64_nat (n := (since ops).length - 1) (by omega)
    rwa [Nat.cast_sub (by omega), Nat.cast_one] at this
  have e3 : rnd64 (3 : ℚ) = 3 := by decide +kernel
  set r0 := rnd64 (((since ops).length - 1) / (since ops).length : ℚ) with hr0
  refine ⟨c', rnd64 (rnd64 (rnd64 (v4 * r0) / pw (rnd64 (v2 * r0)) 2) - 3), r, by
    push_cast at e2 e4
    simp only [kurtosisValue, if_neg (show ¬ c'.count = 0 by omega), e2, e4]
    simp only [Arith.rounded, hc, en, Int.cast_one, rounding_rnd64.one, en1, Int.cast_ofNat, e3, hr0], kurt_of_scaled hu hu1 hP S b2 b4⟩

/-- The standard deviation from the second moment. -/
theorem std_of_moment (hu : 1 / 2 ^ 53 ≤ u) (hu1 : u ≤ 1 / 4096) {sq : ℚ → ℚ} (hsq : ∀ q : ℚ, 0 ≤ q → |(sq q : ℝ) - √(q : ℝ)| ≤ u * √(q : ℝ))
    (S : Spread u M κ xs) {v : ℚ} (hb : |v - csum 2 xs / (xs.length - 1)| ≤ 3 * 1920 * xs.length * u * M ^ 2) :
    0 ≤ v ∧ |(sq v : ℝ) - sampleStd (reals xs)| ≤ 6000 * xs.length * u * κ ^ 2 * sampleStd (reals xs) := by
  have hu0 : 0 ≤ u := le_trans (by positivity) hu
  rw [sampleStd, sampleMoment_reals]
  have hpos := S.pos
  have hcond := S.cond
  have hsmall := S.small
  have hκ := S.one
  have hM : 0 < M := lt_of_lt_of_le (by positivity) S.low
  have hn2 : (2 : ℚ) ≤ xs.length := by exact_mod_cast S.ne
  have hX : popMoment 2 xs ≤ sampleMoment 2 xs := by
    unfold popMoment at hpos ⊢
    unfold sampleMoment
    refine div_le_div_of_nonneg_left ?_ (by linarith) (by linarith)
    by_contra h
    push Not at h
    have := div_neg_of_neg_of_pos h (show (0 : ℚ) < xs.length by linarith)
    linarith
  change |v - sampleMoment 2 xs| ≤ _ at hb
  generalize sampleMoment 2 xs = X at *
  generalize popMoment 2 xs = m2 at *
  clear S
  have hb' : |v - X| ≤ 5760 * xs.length * u * κ ^ 2 * X := by
    have h1 : κ ^ 2 * m2 ≤ κ ^ 2 * X := mul_le_mul_of_nonneg_left hX (sq_nonneg _)
    have h3 := mul_le_mul_of_nonneg_left (hcond.trans h1) (show 0 ≤ 3 * 1920 * (xs.length : ℚ) * u by positivity)
    linarith
  have hX0 : 0 < X := by linarith
  have hv0 : 0 ≤ v := by
    have h1 := (abs_le.1 hb').1
    have h3 : 5760 * xs.length * u * κ ^ 2 * X ≤ 1 / 100 * X := mul_le_mul_of_nonneg_right (by
      have : 0 ≤ xs.length * u * κ ^ 2 := by positivity
      linarith) hX0.le
    linarith
  refine ⟨hv0, ?_⟩
  have hbR : |(v : ℝ) - X| ≤ 5760 * xs.length * u * κ ^ 2 * X := by exact_mod_cast hb'
  have hsR : 6000 * (xs.length : ℝ) * u * κ ^ 2 ≤ 1 / 100 := by simpa using (Rat.cast_le (K := ℝ)).2 hsmall
  have huR : (0 : ℝ) ≤ u := by exact_mod_cast hu0
  have hu1R : (u : ℝ) ≤ 1 / 4096 := by simpa using (Rat.cast_le (K := ℝ)).2 hu1
  have hκR : (1 : ℝ) ≤ κ := by exact_mod_cast hκ
  have hnR : (2 : ℝ) ≤ xs.length := by exact_mod_cast hn2
  have hE : 0 ≤ (xs.length : ℝ) * u * κ ^ 2 := by positivity
  have h1 := sqrt_err (show (0 : ℝ) < X by exact_mod_cast hX0) hbR (by linarith)
  have h3 := hsq v hv0
  have h4 : |(sq v : ℝ) - √X| ≤ |(sq v : ℝ) - √v| + |√v - √X| := abs_sub_le _ _ _
  have hr := Real.sqrt_nonneg (X : ℝ)
  have h5 : √(v : ℝ) ≤ 2 * √X := by
    have h6 := (abs_le.1 h1).2
    have : 5760 * (xs.length : ℝ) * u * κ ^ 2 * √X ≤ 1 * √X := mul_le_mul_of_nonneg_right (by linarith) hr
    linarith
  have h6 := mul_le_mul_of_nonneg_left h5 huR
  have h7 : 2 * (u : ℝ) ≤ xs.length * u * κ ^ 2 := by
    have a1 : (u : ℝ) ≤ u * κ ^ 2 := le_mul_of_one_le_right huR (one_le_pow₀ hκR)
    have a2 : 2 * (u * (κ : ℝ) ^ 2) ≤ xs.length * (u * κ ^ 2) := mul_le_mul_of_nonneg_right hnR (by positivity)
    linarith
  have h8 := mul_le_mul_of_nonneg_right h7 hr
  have h9 : 0 ≤ (xs.length : ℝ) * u * κ ^ 2 * √X := by positivity
  linarith

/-- C97, `Std` without a window, in binary64 with a square root of relative error `u`: its relative error is at most `6000·n·u·κ²`. -/
theorem C97_std_accuracy {cfg : Config ℚ} {c : Core ℚ} (hn : newCore (Arith.rounded rnd64 pw) cfg = .ok c) (hw : cfg.window = some 0)
    (hd : cfg.decay = none) (hs : ∀ k ∈ cfg.sums.getD [], k ≤ 65) (h2 : ∃ i ∈ cfg.sums.getD [], 2 ≤ i) (hu : 1 / 2 ^ 53 ≤ u)
    (hu1 : u ≤ 1 / 4096) (hP : PowAcc pw u (1 / 2 ^ 1075)) {sq : ℚ → ℚ} (hsq : ∀ q : ℚ, 0 ≤ q → |(sq q : ℝ) - √(q : ℝ)| ≤ u * √(q : ℝ))
    (ops : List (MOp ℚ)) (S : Spread u M κ (since ops)) :
    ∃ c' g, run (Arith.rounded rnd64 pw) c ops = .val (c', []) ∧ stdValue (Arith.rounded rnd64 pw) sq c' = .ok g ∧
      |(g : ℝ) - sampleStd (reals (since ops))| ≤ 6000 * (since ops).length * u * κ ^ 2 * sampleStd (reals (since ops)) := by
  have hu0 : 0 ≤ u := le_trans (by positivity) hu
  have hnu := S.nu hu
  have hne := S.ne
  have hsm : errC 2 * ((since ops).length * u) ≤ 2 ^ 2 := by rw [errC_two]; norm_num; linarith
  obtain ⟨c', v, r, hv, hb⟩ := C93_moment_accuracy hn hw hd hs (k := 2) le_rfl (by norm_num) h2 hu hu1 hP S.round S.low ops (by linarith) hsm
    S.data hne
  push_cast at hv
  rw [errC_two] at hb
  exact ⟨c', sq v, r, by simp only [stdValue, hv], (std_of_moment hu hu1 hsq S hb).2⟩

theorem rpow_three_half {x : ℝ} (h : 0 ≤ x) : x ^ (3 / 2 : ℝ) = √x ^ 3 := by
  rw [Real.rpow_div_two_eq_sqrt 3 h]
  exact_mod_cast Real.rpow_natCast (√x) 3

theorem round_real {u : ℚ} (hu : 1 / 2 ^ 53 ≤ u) (q : ℚ) : |((rnd64 q : ℚ) : ℝ) - q| ≤ u * |(q : ℝ)| + ((1 / 2 ^ 1075 : ℚ) : ℝ) := by
  exact_mod_cast accuracy_weaken hu q

/-- The skewness from scaled moments. -/
theorem skew_of_scaled (hu : 1 / 2 ^ 53 ≤ u) (hu1 : u ≤ 1 / 4096) {sq p15 : ℚ → ℚ}
    (hsq : ∀ q : ℚ, 0 ≤ q → |(sq q : ℝ) - √(q : ℝ)| ≤ u * √(q : ℝ))
    (hp15 : ∀ q : ℚ, 1 / 2 ^ 200 ≤ q → |(p15 q : ℝ) - (q : ℝ) ^ (3 / 2 : ℝ)| ≤ u * (q : ℝ) ^ (3 / 2 : ℝ))
    (S : Spread u M κ xs) (hlen : 3 ≤ xs.length) {z2 z3 a : ℚ}
    (b2 : |z2 - popMoment 2 xs| ≤ (306 / 100 * errC 2 * xs.length + 8 * 2 ^ 2 + 1) * u * M ^ 2)
    (b3 : |z3 - popMoment 3 xs| ≤ (306 / 100 * errC 3 * xs.length + 8 * 2 ^ 3 + 1) * u * M ^ 3)
    (ha : a = rnd64 (sq (rnd64 (xs.length * (xs.length - 1))) / (xs.length - 2))) :
    |((rnd64 (rnd64 (a * z3) / p15 z2) : ℚ) : ℝ) - Spec.skewness (reals xs)| ≤ 3 * 10 ^ 5 * xs.length * u * κ ^ 3 := by
  have hm := S.pos
  have hvar := S.var hu
  have h3 := S.high 1
  have hcond := S.cond
  have hsmall := S.small
  have hκ := S.one
  have hM : 0 < M := lt_of_lt_of_le (by positivity) S.low
  have hu0 : 0 < u := lt_of_lt_of_le (by positivity) hu
  have hn3 : (3 : ℚ) ≤ xs.length := by exact_mod_cast hlen
  rw [errC_two] at b2
  rw [errC_three] at b3
  rw [Spec.skewness, popMoment_reals, popMoment_reals, show (reals xs).length = xs.length from List.length_map _]
  have hanum : (a : ℝ) = ((rnd64 (sq (rnd64 (xs.length * (xs.length - 1))) / (xs.length - 2)) : ℚ) : ℝ) := by rw [ha]
  generalize popMoment 2 xs = m2 at *
  generalize popMoment 3 xs = m3 at *
  clear S ha
  have hcast : (xs.length : ℝ) = ((xs.length : ℚ) : ℝ) := by push_cast; rfl
  rw [hcast]
  generalize (xs.length : ℚ) = n at *
  -- over the reals
  have t0 : (0 : ℝ) ≤ ((1 / 2 ^ 1075 : ℚ) : ℝ) := by exact_mod_cast (show (0 : ℚ) ≤ 1 / 2 ^ 1075 by positivity)
  have htu : ((1 / 2 ^ 1075 : ℚ) : ℝ) ≤ u := by exact_mod_cast (le_trans (by decide +kernel) hu : (1 : ℚ) / 2 ^ 1075 ≤ u)
  have R1 : (1 : ℝ) ≤ κ := by exact_mod_cast hκ
  have R2 : (3 : ℝ) ≤ n := by exact_mod_cast hn3
  have R3 : (0 : ℝ) < u := by exact_mod_cast hu0
  have R4 : (u : ℝ) ≤ 1 / 4096 := by simpa using (Rat.cast_le (K := ℝ)).2 hu1
  have R5 : (0 : ℝ) < m2 := by exact_mod_cast hm
  have R6 : 6000 * (n : ℝ) * u * κ ^ 2 ≤ 1 / 100 := by simpa using (Rat.cast_le (K := ℝ)).2 hsmall
  have R7 : (M : ℝ) ^ 2 ≤ κ ^ 2 * m2 := by exact_mod_cast hcond
  have hMR : (0 : ℝ) ≤ M := by exact_mod_cast hM.le
  have hw0 : (0 : ℚ) ≤ rnd64 (n * (n - 1)) := rounding_rnd64.nonneg (mul_nonneg (by linarith) (by linarith))
  have hadj := adjust_err (t := ((1 / 2 ^ 1075 : ℚ) : ℝ)) (n := (n : ℝ)) (a := (a : ℝ)) R3.le R4 R2
    (by have := round_real hu (n * (n - 1)); push_cast at this ⊢; exact this) (hsq _ hw0)
    (by have := round_real hu (sq (rnd64 (n * (n - 1))) / (n - 2)); rw [← hanum] at this; push_cast at this ⊢; exact this) htu
  obtain ⟨A1, A2, A3⟩ := hadj
  have s2 : (√(m2 : ℝ)) ^ 2 = m2 := Real.sq_sqrt R5.le
  have s0 : 0 < √(m2 : ℝ) := Real.sqrt_pos.2 R5
  have hMs : (M : ℝ) ≤ κ * √(m2 : ℝ) := by
    refine le_of_sq_le_sq ?_ (by positivity)
    rw [mul_pow, s2]; exact R7
  have hM3 : (M : ℝ) ^ 3 ≤ κ ^ 3 * √(m2 : ℝ) ^ 3 := by
    rw [← mul_pow]; exact pow_le_pow_left₀ hMR hMs 3
  have hz2 : |(z2 : ℝ) - m2| ≤ 6000 * n * u * κ ^ 2 * m2 := by
    have h1 : (306 / 100 * 1920 * n + 8 * 2 ^ 2 + 1) * u ≤ 6000 * n * u := by
      refine mul_le_mul_of_nonneg_right ?_ hu0.le
      norm_num; linarith
    have h4 : |z2 - m2| ≤ 6000 * n * u * κ ^ 2 * m2 :=
      b2.trans ((mul_le_mul h1 hcond (by positivity) (by positivity)).trans (le_of_eq (by ring)))
    exact_mod_cast h4
  have hz3 : |(z3 : ℝ) - m3| ≤ 71000 * n * u * κ ^ 3 * √(m2 : ℝ) ^ 3 := by
    have h1 : (306 / 100 * 23040 * n + 8 * 2 ^ 3 + 1) * u ≤ 71000 * n * u := by
      refine mul_le_mul_of_nonneg_right ?_ hu0.le
      norm_num; linarith
    have h4 : |z3 - m3| ≤ 71000 * n * u * M ^ 3 := b3.trans (mul_le_mul_of_nonneg_right h1 (by positivity))
    have h5 : |(z3 : ℝ) - m3| ≤ 71000 * n * u * M ^ 3 := by exact_mod_cast h4
    refine h5.trans ?_
    have := mul_le_mul_of_nonneg_left hM3 (show 0 ≤ 71000 * (n : ℝ) * u by positivity)
    linarith
  have hm3 : |(m3 : ℝ)| ≤ 2 * κ * √(m2 : ℝ) ^ 3 := by
    have h1 : |(m3 : ℝ)| ≤ (2 * M) ^ 1 * m2 := by exact_mod_cast h3
    have h4 := mul_le_mul_of_nonneg_right hMs R5.le
    have e : 2 * κ * √(m2 : ℝ) ^ 3 = 2 * (κ * √(m2 : ℝ) * m2) := by
      rw [pow_succ, s2]; ring
    rw [e]
    linarith
  have hyq := sqrt_err R5 hz2 (by linarith)
  have hzlow : 1 / 2 ^ 200 ≤ z2 := by
    have h1 : |z2 - m2| ≤ 6000 * n * u * κ ^ 2 * m2 := by exact_mod_cast hz2
    have h4 := (abs_le.1 h1).1
    have h5 := mul_le_mul_of_nonneg_right hsmall hm.le
    norm_num at hvar ⊢
    linarith
  have hz0 : (0 : ℝ) ≤ z2 := by exact_mod_cast le_trans (by positivity) hzlow
  have hpp := hp15 z2 hzlow
  rw [rpow_three_half hz0] at hpp
  have hts : ((1 / 2 ^ 1075 : ℚ) : ℝ) ≤ u * √(m2 : ℝ) ^ 3 := by
    have h1 : ((1 / 2 ^ 70 : ℚ) : ℝ) ≤ √(m2 : ℝ) := by
      refine Real.le_sqrt_of_sq_le ?_
      have : ((1 / 2 ^ 70 : ℚ)) ^ 2 ≤ m2 := le_trans (by norm_num) hvar
      exact_mod_cast this
    have h4 : (0 : ℝ) ≤ ((1 / 2 ^ 70 : ℚ) : ℝ) := by exact_mod_cast (show (0 : ℚ) ≤ 1 / 2 ^ 70 by positivity)
    have h5 := pow_le_pow_left₀ h4 h1 3
    have h6 : ((1 / 2 ^ 53 : ℚ) : ℝ) ≤ u := by exact_mod_cast hu
    have h7 := mul_le_mul h6 h5 (by positivity) R3.le
    refine le_trans ?_ h7
    have h8 : (1 / 2 ^ 1075 : ℚ) ≤ 1 / 2 ^ 53 * (1 / 2 ^ 70) ^ 3 := by decide +kernel
    exact_mod_cast h8
  have F := skew_final (A := √((n : ℝ) * (n - 1)) / (n - 2)) (b := ((rnd64 (a * z3) : ℚ) : ℝ)) (P := (p15 z2 : ℝ))
    (g := ((rnd64 (rnd64 (a * z3) / p15 z2) : ℚ) : ℝ)) R3.le R4 (by linarith) R1 s0 t0 hts htu A2 A1 R6 hz3 hm3
    (by have := round_real hu (a * z3); push_cast at this ⊢; exact this) hyq hpp
    (by have := round_real hu (rnd64 (a * z3) / p15 z2); push_cast at this ⊢; exact this)
  rw [rpow_three_half R5.le]
  refine F.trans ?_
  have hE : 0 ≤ (n : ℝ) * u * κ ^ 3 := by positivity
  have := mul_le_mul_of_nonneg_left A3 (show 0 ≤ 120000 * ((n : ℝ) * u * κ ^ 3) by positivity)
  linarith

/-- C97, `Skewness` of at least three values without a window, in binary64, with a square root and a power 1.5 of relative error `u`: it is off by
at most `3·10⁵·n·u·κ³`. -/
theorem C97_skewness_accuracy {cfg : Config ℚ} {c : Core ℚ} (hn : newCore (Arith.rounded rnd64 pw) cfg = .ok c) (hw : cfg.window = some 0)
    (hd : cfg.decay = none) (hs : ∀ k ∈ cfg.sums.getD [], k ≤ 65) (h2 : ∃ i ∈ cfg.sums.getD [], 3 ≤ i) (hu : 1 / 2 ^ 53 ≤ u)
    (hu1 : u ≤ 1 / 4096) (hP : PowAcc pw u (1 / 2 ^ 1075)) {sq p15 : ℚ → ℚ} (hsq : ∀ q : ℚ, 0 ≤ q → |(sq q : ℝ) - √(q : ℝ)| ≤ u * √(q : ℝ))
    (hp15 : ∀ q : ℚ, 1 / 2 ^ 200 ≤ q → |(p15 q : ℝ) - (q : ℝ) ^ (3 / 2 : ℝ)| ≤ u * (q : ℝ) ^ (3 / 2 : ℝ))
    (ops : List (MOp ℚ)) (S : Spread u M κ (since ops)) (hlen : 3 ≤ (since ops).length) :
    ∃ c' g, run (Arith.rounded rnd64 pw) c ops = .val (c', []) ∧ skewnessValue (Arith.rounded rnd64 pw) sq p15 c' = .ok g ∧
      |(g : ℝ) - Spec.skewness (reals (since ops))| ≤ 3 * 10 ^ 5 * (since ops).length * u * κ ^ 3 := by
  obtain ⟨i, hi, hi4⟩ := h2
  obtain ⟨c', v2, r, e2, b2⟩ := scaled_moment hn hw hd hs (k := 2) le_rfl (by norm_num) ⟨i, hi, by push_cast; omega⟩ hu hu1 hP ops S
  obtain ⟨c2, v3, r', e3, b3⟩ := scaled_moment hn hw hd hs (k := 3) (by norm_num) (by norm_num) ⟨i, hi, by push_cast; omega⟩ hu hu1 hP ops S
  have hc := count_since hn hw hs r
  rw [r] at r'
  simp only [Go.val.injEq, Prod.mk.injEq, and_true] at r'
  subst r'
  have hlen53 := S.lt53 hu
  have en : rnd64 (((since ops).length : Int) : ℚ) = (since ops).length := by rw [Int.cast_natCast]; exact rnd64_nat hlen53
  have en1 : rnd64 (((since ops).length : ℚ) - 1) = (since ops).length - 1 := by
    have := rnd64_nat (n := (since ops).length - 1) (by omega)
    rwa [Nat.cast_sub (by omega), Nat.cast_one] at this
  have en2 : rnd64 (((since ops).length : ℚ) - 2) = (since ops).length - 2 := by
    have := rnd64_nat (n := (since ops).length - 2) (by omega)
    rwa [Nat.cast_sub (by omega), Nat.cast_ofNat] at this
  have e2' : rnd64 (2 : ℚ) = 2 := by decide +kernel
  set r0 := rnd64 (((since ops).length - 1) / (since ops).length : ℚ) with hr0
  set a := rnd64 (sq (rnd64 ((since ops).length * ((since ops).length - 1))) / ((since ops).length - 2)) with ha
  refine ⟨c', rnd64 (rnd64 (a * rnd64 (v3 * r0)) / p15 (rnd64 (v2 * r0))), r, by
    push_cast at e2 e3
    simp only [skewnessValue, if_neg (show ¬ c'.count = 0 by omega), e2, e3]
    simp only [Arith.rounded, hc, en, Int.cast_one, rounding_rnd64.one, en1, Int.cast_ofNat, e2', en2, hr0, ha], ?_⟩
  exact skew_of_scaled hu hu1 hsq hp15 S hlen b2 b3 ha

end

/-- `2⁵³ + 2, 2⁵³, 2⁵³ + 2, 2⁵³, 2⁵³`: all representable, but `M` is about 10¹⁶ standard deviations. -/
def farData : List (MOp ℚ) :=
  [.push 9007199254740994, .push 9007199254740992, .push 9007199254740994, .push 9007199254740992, .push 9007199254740992]

/-- C97 fails without a bound on `κ`: for data of five values far from 0 the `Kurtosis` in binary64 is about -1/2 instead of -11/6, and the third moment,
so the `Skewness`, has the wrong sign. -/
theorem C97_not_uniform : (match run Arith.b64 (mk Arith.b64 ⟨some [3, 4], some 0, none⟩) farData with
      | .val (c, []) => match kurtosisValue Arith.b64 c, momentValue Arith.b64 c 3 with
        | .ok g, .ok m => decide (|g + 1 / 2| ≤ 1 / 10 ^ 9 ∧ m < 0)
        | _, _ => false
      | _ => false) = true ∧
    exKurtosis (since farData) = -11 / 6 ∧ 0 < sampleMoment 3 (since farData) := by
  refine ⟨by decide +kernel, by decide +kernel, by decide +kernel⟩

/-- The hypotheses hold for 1, 3, 3, 2, 7 with `M = 7` and `κ = 4` and a correctly rounded power: the kurtosis is right up to 2·10⁻⁷. -/
example : Spread (1 / 2 ^ 53) 7 4 [1, 3, 3, 2, 7] ∧ PowAcc (fun x k => rnd64 (x ^ k)) (1 / 2 ^ 53) (1 / 2 ^ 1075) ∧
    (10 ^ 6 * 5 * (1 / 2 ^ 53) * 4 ^ 4 : ℚ) ≤ 2 / 10 ^ 7 := by
  refine ⟨⟨by decide +kernel, by norm_num, ?_, by norm_num, by decide +kernel, by norm_num⟩, powAcc64 le_rfl, by norm_num⟩
  intro x hx
  simp only [List.mem_cons, List.not_mem_nil, or_false] at hx
  rcases hx with rfl | rfl | rfl | rfl | rfl <;> exact ⟨by decide +kernel, by decide +kernel⟩

/-- There are roots as assumed. -/
example : ∃ sq p15 : ℚ → ℚ, (∀ q : ℚ, 0 ≤ q → |(sq q : ℝ) - √(q : ℝ)| ≤ ((1 / 2 ^ 53 : ℚ) : ℝ) * √(q : ℝ)) ∧
    ∀ q : ℚ, 1 / 2 ^ 200 ≤ q → |(p15 q : ℝ) - (q : ℝ) ^ (3 / 2 : ℝ)| ≤ ((1 / 2 ^ 53 : ℚ) : ℝ) * (q : ℝ) ^ (3 / 2 : ℝ) := by
  have key : ∀ x : ℝ, 0 ≤ x → ∃ r : ℚ, |(r : ℝ) - x| ≤ ((1 / 2 ^ 53 : ℚ) : ℝ) * x := by
    intro x hx
    rcases hx.eq_or_lt with rfl | h
    · exact ⟨0, by simp⟩
    · have hp : 0 < ((1 / 2 ^ 53 : ℚ) : ℝ) * x := mul_pos (by exact_mod_cast (show (0 : ℚ) < 1 / 2 ^ 53 by positivity)) h
      obtain ⟨r, h1, h2⟩ := exists_rat_btwn (show x < x + ((1 / 2 ^ 53 : ℚ) : ℝ) * x by linarith)
      exact ⟨r, by rw [abs_of_pos (by linarith)]; linarith⟩
  choose f hf using key
  refine ⟨fun q => f (√(q : ℝ)) (Real.sqrt_nonneg _), fun q => if h : 0 ≤ (q : ℝ) ^ (3 / 2 : ℝ) then f _ h else 0, fun q _ => hf _ _, fun q hq => ?_⟩
  have h0 : (0 : ℝ) ≤ (q : ℝ) ^ (3 / 2 : ℝ) := Real.rpow_nonneg (by exact_mod_cast le_trans (by positivity) hq) _
  simp only [dif_pos h0]
  exact hf _ h0

end Verif.Props
