import Verif.Props.Ratios
import Verif.Props.NoOverflow

/-! # C107: accuracy of `Std`, `Skewness` and `Kurtosis` in binary64 with overflow, infinities and NaN

For data of moderate size no infinity and no NaN appears, neither in the core nor in the formulas of the metrics, and the bounds of C97 hold. -/

namespace Verif.Props
open Verif Verif.Spec Verif.FP
open Verif.Moment (Core Config)

attribute [local irreducible] two

section
variable {pw : ℚ → Nat → ℚ} {u M κ : ℚ}

theorem two_room : (2 : ℚ) ^ 200 < two 1024 := by decide +kernel

theorem rnd_lt {q B : ℚ} (hq : |q| ≤ B) (hB : 1 ≤ B) (h : 2 * B < two 1024) : |rnd64 q| < two 1024 := by
  refine lt_of_le_of_lt (rnd_le accuracy_rnd64 (by norm_num) hq ?_) h
  have : (1 : ℚ) / 2 ^ 1075 ≤ 1 / 2 := by decide +kernel
  linarith

theorem ieee_ofNat {n : Nat} (hn : n < 2 ^ 53) : (ieeeOf rnd64 pw over64).ofInt (n : Int) = .fin n := by
  show over64 (rnd64 ((n : Int) : ℚ)) = _
  rw [Int.cast_natCast, rnd64_nat hn]
  refine over64_fin _ ?_
  rw [abs_of_nonneg (by positivity)]
  exact lt_trans (by exact_mod_cast hn) lt1024.2.1

theorem ieee_sub {n m : Nat} (hn : n < 2 ^ 53) (hm : m ≤ n) : (ieeeOf rnd64 pw over64).sub (.fin n) (.fin m) = .fin (n - m) := by
  show over64 (rnd64 ((n : ℚ) - m)) = _
  have h := rnd64_nat (n := n - m) (by omega)
  rw [Nat.cast_sub hm] at h
  rw [h]
  refine over64_fin _ ?_
  have h1 : (m : ℚ) ≤ n := by exact_mod_cast hm
  have h2 : (0 : ℚ) ≤ m := by positivity
  rw [abs_of_nonneg (by linarith)]
  have h3 : (n : ℚ) < two 1024 := lt_trans (by exact_mod_cast hn) lt1024.2.1
  linarith

theorem ieee_mul {a b : ℚ} (h : |rnd64 (a * b)| < two 1024) : (ieeeOf rnd64 pw over64).mul (.fin a) (.fin b) = .fin (rnd64 (a * b)) :=
  over64_fin _ h

theorem ieee_div {a b : ℚ} (hb : b ≠ 0) (h : |rnd64 (a / b)| < two 1024) :
    (ieeeOf rnd64 pw over64).div (.fin a) (.fin b) = .fin (rnd64 (a / b)) := by
  simp only [Arith.ieee]
  rw [if_neg hb, over64_fin _ h]

theorem ieee_ratio {n : Nat} (hn : 2 ≤ n) : (ieeeOf rnd64 pw over64).div (.fin ((n : ℚ) - 1)) (.fin n) = .fin (rnd64 (((n : ℚ) - 1) / n)) := by
  have h2 : (2 : ℚ) ≤ n := by exact_mod_cast hn
  refine ieee_div (by linarith) (rnd_lt (B := 1) ?_ le_rfl ?_)
  · rw [abs_of_nonneg (div_nonneg (by linarith) (by linarith)), div_le_one (by linarith)]; linarith
  · exact lt_of_le_of_lt (by norm_num) two_room

/-- The count of a core without a window. -/
theorem count_finOps {cfg : Config (XF ℚ)} {c c' : Core (XF ℚ)} (hn : newCore (ieeeOf rnd64 pw over64) cfg = .ok c) (hw : cfg.window = some 0)
    (hs : ∀ k ∈ cfg.sums.getD [], k ≤ 65) {ops : List (MOp ℚ)} (r : run (ieeeOf rnd64 pw over64) c (finOps ops) = .val (c', [])) :
    c'.count = ((since ops).length : Int) := by
  obtain ⟨w, c2, hw2, r2, hcnt, -⟩ := C64_any_arithmetic _ hn hs (finOps ops)
  rw [r] at r2
  simp only [Go.val.injEq, Prod.mk.injEq, and_true] at r2
  subst r2
  have hw0 : w = 0 := by
    rw [hw] at hw2
    have := Option.some.inj hw2
    omega
  subst hw0
  rw [hcnt, windowOf, lastN_zero, since_finOps, List.length_map]

/-- The scaled moments of the code. -/
theorem scaled_ieee {cfg : Config (XF ℚ)} {c : Core (XF ℚ)} (hn : newCore (ieeeOf rnd64 pw over64) cfg = .ok c) (hw : cfg.window = some 0)
    (hd : cfg.decay = none) (hs : ∀ k ∈ cfg.sums.getD [], k ≤ 65) {k : Nat} (hk2 : 2 ≤ k) (hk : k ≤ 4)
    (h2 : ∃ i ∈ cfg.sums.getD [], (k : Int) ≤ i) (hu : 1 / 2 ^ 53 ≤ u) (hu1 : u ≤ 1 / 4096) (hP : PowAcc pw u (1 / 2 ^ 1075))
    (ops : List (MOp ℚ)) (S : Spread u M κ (since ops)) (hfit : 8 * 2 ^ k * ((since ops).length * (1 + (2 * M) ^ k)) < two 1024) :
    ∃ c' v z, run (ieeeOf rnd64 pw over64) c (finOps ops) = .val (c', []) ∧ momentValue (ieeeOf rnd64 pw over64) c' k = .ok (.fin v) ∧
      (ieeeOf rnd64 pw over64).mul (.fin v) (.fin (rnd64 (((since ops).length - 1) / (since ops).length))) = .fin z ∧
      |z - popMoment k (since ops)| ≤ (306 / 100 * errC k * (since ops).length + 8 * 2 ^ k + 1) * u * M ^ k ∧ |z| ≤ 5 * (2 * M) ^ k := by
  have hu0 : 0 ≤ u := le_trans (by positivity) hu
  have hnu := S.nu hu
  have hne := S.ne
  have hM : 0 < M := lt_of_lt_of_le (by positivity) S.low
  have hnn : 0 ≤ ((since ops).length : ℚ) * u := by positivity
  have hsm : errC k * ((since ops).length * u) ≤ 2 ^ k := by
    refine errC_mono hk2 hk ?_ hnn
    rw [errC_four]; norm_num; linarith
  obtain ⟨c', v, r, hv, hb⟩ := C94_moment hn hw hd hs hk2 (by omega) h2 hu hu1 hP S.round S.low ops (by linarith) hsm S.data hne hfit
  have hz := scaled_of_moment hk hu hu1 S hb
  have hp : |popMoment k (since ops)| ≤ (2 * M) ^ k := by
    have hn0 : (0 : ℚ) < (since ops).length := by exact_mod_cast lt_of_lt_of_le (by norm_num) hne
    rw [popMoment, abs_div, abs_of_pos hn0, div_le_iff₀ hn0, mul_comm]
    exact abs_csum_le hM.le (fun x hx => (S.data x hx).2) k
  have hzb : |rnd64 (v * rnd64 (((since ops).length - 1) / (since ops).length))| ≤ 5 * (2 * M) ^ k := by
    generalize rnd64 (v * rnd64 (((since ops).length - 1) / (since ops).length)) = z at *
    have h1 := abs_add_le (z - popMoment k (since ops)) (popMoment k (since ops))
    rw [sub_add_cancel] at h1
    have hMk : 0 ≤ M ^ k := by positivity
    have h3 := mul_le_mul_of_nonneg_right hsm hMk
    have h4 : (8 * 2 ^ k + 1) * u ≤ 1 / 2 * 2 ^ k := by
      have h5 : (1 : ℚ) ≤ 2 ^ k := one_le_pow₀ (by norm_num)
      have h6 := mul_le_mul_of_nonneg_left hu1 (show (0 : ℚ) ≤ 8 * 2 ^ k + 1 by positivity)
      linarith
    have h5 := mul_le_mul_of_nonneg_right h4 hMk
    rw [mul_pow] at hp ⊢
    have h6 : 0 ≤ 2 ^ k * M ^ k := by positivity
    linarith
  refine ⟨c', v, _, r, hv, ieee_mul (lt_of_le_of_lt hzb ?_), hz, hzb⟩
  refine lt_of_le_of_lt ?_ hfit
  have h1 : (1 : ℚ) ≤ 2 ^ k := one_le_pow₀ (by norm_num)
  have h2 : (2 : ℚ) ≤ (since ops).length := by exact_mod_cast hne
  have h3 : 0 ≤ (2 * M) ^ k := by positivity
  calc 5 * (2 * M) ^ k ≤ 8 * 1 * (1 * (1 + (2 * M) ^ k)) := by linarith
    _ ≤ _ := mul_le_mul (by linarith) (mul_le_mul_of_nonneg_right (by linarith) (by linarith)) (by positivity) (by positivity)

/-- C107, `Std` without a window: as C97, also with overflow, as long as `32·n·(1 + 4·M²) < 2^1024`. `sqX` is `math.Sqrt`, which does not overflow. -/
theorem C107_std {cfg : Config (XF ℚ)} {c : Core (XF ℚ)} (hn : newCore (ieeeOf rnd64 pw over64) cfg = .ok c) (hw : cfg.window = some 0)
    (hd : cfg.decay = none) (hs : ∀ k ∈ cfg.sums.getD [], k ≤ 65) (h2 : ∃ i ∈ cfg.sums.getD [], 2 ≤ i) (hu : 1 / 2 ^ 53 ≤ u)
    (hu1 : u ≤ 1 / 4096) (hP : PowAcc pw u (1 / 2 ^ 1075)) {sq : ℚ → ℚ} (hsq : ∀ q : ℚ, 0 ≤ q → |(sq q : ℝ) - √(q : ℝ)| ≤ u * √(q : ℝ))
    {sqX : XF ℚ → XF ℚ} (hsqX : ∀ q : ℚ, 0 ≤ q → sqX (.fin q) = .fin (sq q))
    (ops : List (MOp ℚ)) (S : Spread u M κ (since ops)) (hfit : 32 * ((since ops).length * (1 + (2 * M) ^ 2)) < two 1024) :
    ∃ c' g, run (ieeeOf rnd64 pw over64) c (finOps ops) = .val (c', []) ∧ stdValue (ieeeOf rnd64 pw over64) sqX c' = .ok (.fin g) ∧
      |(g : ℝ) - sampleStd (reals (since ops))| ≤ 6000 * (since ops).length * u * κ ^ 2 * sampleStd (reals (since ops)) := by
  have hnu := S.nu hu
  obtain ⟨c', v, r, hv, hb⟩ := C94_moment hn hw hd hs (k := 2) le_rfl (by norm_num) h2 hu hu1 hP S.round S.low ops (by linarith)
    (by rw [errC_two]; norm_num; linarith) S.data S.ne (by norm_num at hfit ⊢; exact hfit)
  rw [errC_two] at hb
  obtain ⟨h0, h1⟩ := std_of_moment hu hu1 hsq S hb
  push_cast at hv
  exact ⟨c', sq v, r, by simp only [stdValue, hv, hsqX v h0], h1⟩

theorem pow_room (hM : 0 ≤ M) {n : ℚ} (hn : 0 ≤ n) :
    32 * (n * (1 + (2 * M) ^ 2)) ≤ 8 * 2 ^ 4 * (n * (1 + (2 * M) ^ 4)) ∧ 32 * (n * (1 + (2 * M) ^ 2)) ≤ 8 * 2 ^ 3 * (n * (1 + (2 * M) ^ 3)) := by
  have a : 1 + (2 * M) ^ 2 ≤ 4 * (1 + (2 * M) ^ 4) := by nlinarith [sq_nonneg ((2 * M) ^ 2 - 1), sq_nonneg M]
  have b : 1 + (2 * M) ^ 2 ≤ 2 * (1 + (2 * M) ^ 3) := by
    rcases le_total (2 * M) 1 with h | h
    · have h1 : (2 * M) ^ 2 ≤ 1 := pow_le_one₀ (by linarith) h
      have h3 : 0 ≤ (2 * M) ^ 3 := by positivity
      linarith
    · have h1 : (2 * M) ^ 2 ≤ (2 * M) ^ 3 := pow_le_pow_right₀ h (by norm_num)
      have h3 : 0 ≤ (2 * M) ^ 3 := by positivity
      linarith
  have a' := mul_le_mul_of_nonneg_left a hn
  have b' := mul_le_mul_of_nonneg_left b hn
  constructor <;> linarith

theorem b2_rel {xs : List ℚ} (hu : 1 / 2 ^ 53 ≤ u) (S : Spread u M κ xs) {z2 : ℚ}
    (b2 : |z2 - popMoment 2 xs| ≤ (306 / 100 * errC 2 * xs.length + 8 * 2 ^ 2 + 1) * u * M ^ 2) :
    |z2 - popMoment 2 xs| ≤ 1 / 100 * popMoment 2 xs := by
  have hu0 : 0 < u := lt_of_lt_of_le (by positivity) hu
  have hn2 : (2 : ℚ) ≤ xs.length := by exact_mod_cast S.ne
  rw [errC_two] at b2
  refine b2.trans ?_
  have h1 : (306 / 100 * 1920 * xs.length + 8 * 2 ^ 2 + 1) * u ≤ 6000 * xs.length * u := by
    refine mul_le_mul_of_nonneg_right ?_ hu0.le
    norm_num; linarith
  exact ((mul_le_mul h1 S.cond (by positivity) (by positivity)).trans (le_of_eq (by ring : _ = 6000 * xs.length * u * κ ^ 2 *
    popMoment 2 xs))).trans (mul_le_mul_of_nonneg_right S.small S.pos.le)

/-- C107, `Kurtosis` without a window: as C97, also with overflow, as long as `128·n·(1 + 16·M⁴) < 2^1024`. -/
theorem C107_kurtosis {cfg : Config (XF ℚ)} {c : Core (XF ℚ)} (hn : newCore (ieeeOf rnd64 pw over64) cfg = .ok c) (hw : cfg.window = some 0)
    (hd : cfg.decay = none) (hs : ∀ k ∈ cfg.sums.getD [], k ≤ 65) (h2 : ∃ i ∈ cfg.sums.getD [], 4 ≤ i) (hu : 1 / 2 ^ 53 ≤ u)
    (hu1 : u ≤ 1 / 4096) (hP : PowAcc pw u (1 / 2 ^ 1075)) (ops : List (MOp ℚ)) (S : Spread u M κ (since ops))
    (hfit : 8 * 2 ^ 4 * ((since ops).length * (1 + (2 * M) ^ 4)) < two 1024) :
    ∃ c' g, run (ieeeOf rnd64 pw over64) c (finOps ops) = .val (c', []) ∧ kurtosisValue (ieeeOf rnd64 pw over64) c' = .ok (.fin g) ∧
      |g - exKurtosis (since ops)| ≤ 10 ^ 6 * (since ops).length * u * κ ^ 4 := by
  have hM : 0 < M := lt_of_lt_of_le (by positivity) S.low
  have hfit2 := lt_of_le_of_lt (pow_room hM.le (n := (since ops).length) (by positivity)).1 hfit
  obtain ⟨i, hi, hi4⟩ := h2
  obtain ⟨c', v2, z2, r, e2, f2, b2, l2⟩ := scaled_ieee hn hw hd hs (k := 2) le_rfl (by norm_num) ⟨i, hi, by push_cast; omega⟩ hu hu1 hP ops S
    (by norm_num at hfit2 ⊢; exact hfit2)
  obtain ⟨c2, v4, z4, r', e4, f4, b4, l4⟩ := scaled_ieee hn hw hd hs (k := 4) (by norm_num) le_rfl ⟨i, hi, by push_cast; omega⟩ hu hu1 hP ops S hfit
  have hc := count_finOps hn hw hs r
  rw [r] at r'
  simp only [Go.val.injEq, Prod.mk.injEq, and_true] at r'
  subst r'
  have hlen := S.lt53 hu
  have hne := S.ne
  have K := kurt_of_scaled hu hu1 hP S b2 b4
  have hu0 : 0 < u := lt_of_lt_of_le (by positivity) hu
  have hn2 : (2 : ℚ) ≤ (since ops).length := by exact_mod_cast hne
  have hm := S.pos
  have hvar := S.var hu
  have hkap := S.kappa hu
  have hcond := S.cond
  have hsmall := S.small
  have a2 := b2_rel hu S b2
  have hp := hP z2 2
  rw [sq_abs] at hp
  have ht : (1 : ℚ) / 2 ^ 1075 ≤ 1 / 4096 * (1 / 2 ^ 140) ^ 2 := by decide +kernel
  have hz2 : 99 / 100 * popMoment 2 (since ops) ≤ z2 := by linarith [(abs_le.1 a2).1]
  generalize popMoment 2 (since ops) = m2 at *
  have hm2 : (1 / 2 ^ 140 : ℚ) ^ 2 ≤ m2 ^ 2 := pow_le_pow_left₀ (by positivity) hvar 2
  have hzz : 98 / 100 * m2 ^ 2 ≤ z2 ^ 2 := by
    have := pow_le_pow_left₀ (by linarith) hz2 2
    rw [mul_pow] at this
    have h1 : 0 ≤ m2 ^ 2 := by positivity
    norm_num at this
    linarith
  have huz := mul_le_mul_of_nonneg_right hu1 (sq_nonneg z2)
  have hmm : 0 < m2 ^ 2 := by positivity
  have hplow : 9 / 10 * m2 ^ 2 ≤ pw z2 2 := by linarith [(abs_le.1 hp).1]
  have hpup : |pw z2 2| ≤ 2 * z2 ^ 2 := by
    have h1 := abs_sub_abs_le_abs_sub (pw z2 2) (z2 ^ 2)
    rw [abs_of_nonneg (sq_nonneg z2)] at h1
    linarith
  have hρ : |z4 / pw z2 2| ≤ 2 ^ 100 := by
    rw [abs_div, abs_of_pos (show 0 < pw z2 2 by linarith), div_le_iff₀ (by linarith)]
    have h1 : M ^ 4 ≤ 2 ^ 80 * m2 ^ 2 := by
      have h3 : M ^ 2 ≤ 2 ^ 40 * m2 := hcond.trans (mul_le_mul_of_nonneg_right hkap hm.le)
      calc M ^ 4 = (M ^ 2) ^ 2 := by ring
        _ ≤ (2 ^ 40 * m2) ^ 2 := pow_le_pow_left₀ (by positivity) h3 2
        _ = _ := by ring
    rw [mul_pow] at l4
    norm_num at l4 h1 ⊢
    linarith
  have h200 := two_room
  have hr1 : |rnd64 (z4 / pw z2 2)| ≤ 2 * 2 ^ 100 :=
    rnd_le accuracy_rnd64 (by norm_num) hρ (le_trans (show (1 : ℚ) / 2 ^ 1075 ≤ 1 by decide +kernel) (by norm_num))
  have hr2 : |rnd64 (rnd64 (z4 / pw z2 2) - 3)| < two 1024 := by
    refine rnd_lt (B := 2 ^ 102) ?_ (by norm_num) (lt_of_le_of_lt (by norm_num) two_room)
    have h1 := abs_sub (rnd64 (z4 / pw z2 2)) 3
    norm_num at h1 hr1 ⊢
    linarith
  have hpw : (ieeeOf rnd64 pw over64).pow (.fin z2) 2 = .fin (pw z2 2) := by
    refine over64_fin _ (lt_of_le_of_lt hpup (lt_of_le_of_lt ?_ hfit))
    have h1 : z2 ^ 2 ≤ (5 * (2 * M) ^ 2) ^ 2 := by
      rw [← sq_abs z2]
      exact pow_le_pow_left₀ (abs_nonneg _) l2 2
    have h3 : (5 * (2 * M) ^ 2) ^ 2 = 25 * (2 * M) ^ 4 := by ring
    have h4 : 0 ≤ (2 * M) ^ 4 := by positivity
    have h5 := mul_le_mul_of_nonneg_right hn2 (show 0 ≤ 1 + (2 * M) ^ 4 by linarith)
    norm_num
    linarith
  have hdiv := ieee_div (pw := pw) (a := z4) (b := pw z2 2) (by linarith) (lt_of_le_of_lt hr1 (lt_of_le_of_lt (by norm_num) h200))
  have e3 : (ieeeOf rnd64 pw over64).ofInt 3 = .fin 3 := ieee_ofNat (pw := pw) (n := 3) (by norm_num)
  have e1 : (ieeeOf rnd64 pw over64).ofInt 1 = .fin 1 := by simpa using ieee_ofNat (pw := pw) (n := 1) (by norm_num)
  have es := ieee_sub (pw := pw) hlen (m := 1) (by omega)
  rw [Nat.cast_one] at es
  have eq := ieee_ratio (pw := pw) hne
  have hsub : (ieeeOf rnd64 pw over64).sub (.fin (rnd64 (z4 / pw z2 2))) (.fin 3) = .fin (rnd64 (rnd64 (z4 / pw z2 2) - 3)) := over64_fin _ hr2
  refine ⟨c', _, r, ?_, K⟩
  push_cast at e2 e4
  simp only [kurtosisValue, hc, if_neg (show ¬ ((since ops).length : Int) = 0 by omega), e2, e4, ieee_ofNat hlen, e1, es, eq, f2, f4, hpw, hdiv, e3, hsub]

/-- C107, `Skewness` of at least three values without a window: as C97, also with overflow, as long as `64·n·(1 + 8·M³) < 2^1024`. `p15X` is
`math.Pow(·, 1.5)`, which may overflow. -/
theorem C107_skewness {cfg : Config (XF ℚ)} {c : Core (XF ℚ)} (hn : newCore (ieeeOf rnd64 pw over64) cfg = .ok c) (hw : cfg.window = some 0)
    (hd : cfg.decay = none) (hs : ∀ k ∈ cfg.sums.getD [], k ≤ 65) (h2 : ∃ i ∈ cfg.sums.getD [], 3 ≤ i) (hu : 1 / 2 ^ 53 ≤ u)
    (hu1 : u ≤ 1 / 4096) (hP : PowAcc pw u (1 / 2 ^ 1075)) {sq p15 : ℚ → ℚ} (hsq : ∀ q : ℚ, 0 ≤ q → |(sq q : ℝ) - √(q : ℝ)| ≤ u * √(q : ℝ))
    (hp15 : ∀ q : ℚ, 1 / 2 ^ 200 ≤ q → |(p15 q : ℝ) - (q : ℝ) ^ (3 / 2 : ℝ)| ≤ u * (q : ℝ) ^ (3 / 2 : ℝ))
    {sqX p15X : XF ℚ → XF ℚ} (hsqX : ∀ q : ℚ, 0 ≤ q → sqX (.fin q) = .fin (sq q)) (hp15X : ∀ q : ℚ, 0 ≤ q → p15X (.fin q) = over64 (p15 q))
    (ops : List (MOp ℚ)) (S : Spread u M κ (since ops)) (hlen : 3 ≤ (since ops).length)
    (hfit : 8 * 2 ^ 3 * ((since ops).length * (1 + (2 * M) ^ 3)) < two 1024) :
    ∃ c' g, run (ieeeOf rnd64 pw over64) c (finOps ops) = .val (c', []) ∧ skewnessValue (ieeeOf rnd64 pw over64) sqX p15X c' = .ok (.fin g) ∧
      |(g : ℝ) - Spec.skewness (reals (since ops))| ≤ 3 * 10 ^ 5 * (since ops).length * u * κ ^ 3 := by
  have hM : 0 < M := lt_of_lt_of_le (by positivity) S.low
  have hfit2 := lt_of_le_of_lt (pow_room hM.le (n := (since ops).length) (by positivity)).2 hfit
  obtain ⟨i, hi, hi4⟩ := h2
  obtain ⟨c', v2, z2, r, e2, f2, b2, l2⟩ := scaled_ieee hn hw hd hs (k := 2) le_rfl (by norm_num) ⟨i, hi, by push_cast; omega⟩ hu hu1 hP ops S
    (by norm_num at hfit2 ⊢; exact hfit2)
  obtain ⟨c2, v3, z3, r', e3, f3, b3, l3⟩ := scaled_ieee hn hw hd hs (k := 3) (by norm_num) (by norm_num) ⟨i, hi, by push_cast; omega⟩ hu hu1 hP ops
    S hfit
  have hc := count_finOps hn hw hs r
  rw [r] at r'
  simp only [Go.val.injEq, Prod.mk.injEq, and_true] at r'
  subst r'
  have hlen53 := S.lt53 hu
  have hne := S.ne
  have K := skew_of_scaled hu hu1 hsq hp15 S hlen b2 b3 rfl
  have hu0 : 0 < u := lt_of_lt_of_le (by positivity) hu
  have hn3 : (3 : ℚ) ≤ (since ops).length := by exact_mod_cast hlen
  have hm := S.pos
  have hvar := S.var hu
  have hkap := S.kappa hu
  have hκ := S.one
  have hcond := S.cond
  have hsmall := S.small
  have a2 := b2_rel hu S b2
  have hz2 : 99 / 100 * popMoment 2 (since ops) ≤ z2 := by linarith [(abs_le.1 a2).1]
  have hz2lt : 0 < z2 := by linarith
  have h200 := two_room
  have hR0 : (0 : ℝ) < u := by exact_mod_cast hu0
  have hR1 : (u : ℝ) ≤ 1 / 4096 := by simpa using (Rat.cast_le (K := ℝ)).2 hu1
  -- the adjustment
  have hq0 : (0 : ℚ) ≤ rnd64 ((since ops).length * ((since ops).length - 1)) := rounding_rnd64.nonneg (mul_nonneg (by linarith) (by linarith))
  have hprod : |((since ops).length : ℚ) * ((since ops).length - 1)| ≤ 2 ^ 106 := by
    have h53 : ((since ops).length : ℚ) ≤ 2 ^ 53 := by exact_mod_cast hlen53.le
    rw [abs_of_nonneg (mul_nonneg (by linarith) (by linarith))]
    calc _ ≤ (2 ^ 53 : ℚ) * 2 ^ 53 := mul_le_mul h53 (by linarith) (by linarith) (by positivity)
      _ = _ := by norm_num
  have em : (ieeeOf rnd64 pw over64).mul (.fin (since ops).length) (.fin ((since ops).length - 1)) =
      .fin (rnd64 ((since ops).length * ((since ops).length - 1))) :=
    ieee_mul (rnd_lt hprod (by norm_num) (lt_of_le_of_lt (by norm_num) h200))
  have htu : ((1 / 2 ^ 1075 : ℚ) : ℝ) ≤ u := by exact_mod_cast (le_trans (by decide +kernel) hu : (1 : ℚ) / 2 ^ 1075 ≤ u)
  obtain ⟨A1, A2, A3⟩ := adjust_err (t := ((1 / 2 ^ 1075 : ℚ) : ℝ)) (n := (((since ops).length : ℚ) : ℝ))
    (a := ((rnd64 (sq (rnd64 ((since ops).length * ((since ops).length - 1))) / ((since ops).length - 2)) : ℚ) : ℝ)) hR0.le hR1 (by exact_mod_cast hn3)
    (by have := round_real hu ((since ops).length * ((since ops).length - 1)); push_cast at this ⊢; exact this) (hsq _ hq0)
    (by have := round_real hu (sq (rnd64 ((since ops).length * ((since ops).length - 1))) / ((since ops).length - 2)); push_cast at this ⊢; exact this)
    htu
  set a := rnd64 (sq (rnd64 ((since ops).length * ((since ops).length - 1))) / ((since ops).length - 2)) with ha
  have hab : |a| ≤ 3 := by
    have h1 : |(a : ℝ)| ≤ 3 := by
      have h3 := abs_sub_abs_le_abs_sub (a : ℝ) (√((((since ops).length : ℚ) : ℝ) * ((((since ops).length : ℚ) : ℝ) - 1)) /
        ((((since ops).length : ℚ) : ℝ) - 2))
      rw [abs_of_pos (show 0 < √((((since ops).length : ℚ) : ℝ) * ((((since ops).length : ℚ) : ℝ) - 1)) / ((((since ops).length : ℚ) : ℝ) - 2) by
        linarith)] at h3
      have h4 := mul_le_mul (mul_le_mul_of_nonneg_left hR1 (show (0 : ℝ) ≤ 52 / 10 by norm_num)) A3 (by linarith) (by norm_num)
      linarith
    exact_mod_cast h1
  have ed : (ieeeOf rnd64 pw over64).div (.fin (sq (rnd64 ((since ops).length * ((since ops).length - 1))))) (.fin ((since ops).length - 2)) = .fin a :=
    ieee_div (by linarith) (lt_of_le_of_lt hab (lt_of_le_of_lt (by norm_num) h200))
  -- the numerator
  have hM3 : 0 < M ^ 3 := by positivity
  have hnum : |a * z3| ≤ 1 + 15 * (2 * M) ^ 3 := by
    rw [abs_mul]
    have := mul_le_mul hab l3 (abs_nonneg _) (by norm_num)
    linarith
  have hM23 : 0 ≤ (2 * M) ^ 3 := by positivity
  have hf3 : 2 * (1 + 15 * (2 * M) ^ 3) < two 1024 := by
    refine lt_of_le_of_lt ?_ hfit
    have := mul_le_mul_of_nonneg_right hn3 (show 0 ≤ 1 + (2 * M) ^ 3 by linarith)
    norm_num
    linarith
  have en := ieee_mul (pw := pw) (rnd_lt hnum (by linarith) hf3)
  -- the denominator
  have hz200 : 1 / 2 ^ 200 ≤ z2 := by
    norm_num at hvar ⊢
    linarith
  have hpp := hp15 z2 hz200
  have hzR : (0 : ℝ) ≤ z2 := by exact_mod_cast hz2lt.le
  rw [rpow_three_half hzR] at hpp
  have hs0 : 0 ≤ √(z2 : ℝ) := Real.sqrt_nonneg _
  have hs3 : 0 ≤ √(z2 : ℝ) ^ 3 := by positivity
  have hup3 : (√(z2 : ℝ)) ≤ 3 * (2 * M) := by
    refine Real.sqrt_le_iff.2 ⟨by have : (0 : ℝ) < M := by exact_mod_cast hM
                                  positivity, ?_⟩
    have h1 : z2 ≤ (3 * (2 * M)) ^ 2 := by
      have := (abs_le.1 l2).2
      have h3 : 0 ≤ (2 * M) ^ 2 := by positivity
      rw [mul_pow 3]
      linarith
    exact_mod_cast h1
  have hlow3 : (M : ℝ) ≤ 2 ^ 21 * √(z2 : ℝ) := by
    have h1 : M ^ 2 ≤ 2 ^ 42 * z2 := by
      have := mul_le_mul_of_nonneg_right hkap hm.le
      norm_num at this ⊢
      linarith
    have h3 : (M : ℝ) ^ 2 ≤ 2 ^ 42 * z2 := by exact_mod_cast h1
    refine le_of_sq_le_sq ?_ (by positivity)
    rw [mul_pow, Real.sq_sqrt hzR]
    norm_num at h3 ⊢
    exact h3
  have hMR : (0 : ℝ) < M := by exact_mod_cast hM
  have h27 : √(z2 : ℝ) ^ 3 ≤ 27 * (2 * M) ^ 3 := by
    have := pow_le_pow_left₀ hs0 hup3 3
    rw [mul_pow 3] at this
    norm_num at this ⊢
    linarith
  have hcube : (M : ℝ) ^ 3 ≤ 2 ^ 63 * √(z2 : ℝ) ^ 3 := by
    have := pow_le_pow_left₀ hMR.le hlow3 3
    rw [mul_pow] at this
    norm_num at this ⊢
    exact this
  have huq := mul_le_mul_of_nonneg_right hR1 hs3
  have hPup : |p15 z2| ≤ 54 * (2 * M) ^ 3 := by
    have h1 : |(p15 z2 : ℝ)| ≤ 54 * (2 * M) ^ 3 := by
      have h3 := abs_sub_abs_le_abs_sub (p15 z2 : ℝ) (√(z2 : ℝ) ^ 3)
      rw [abs_of_nonneg hs3] at h3
      linarith
    exact_mod_cast h1
  have hPlow : 0 < p15 z2 ∧ M ^ 3 ≤ 2 ^ 64 * p15 z2 := by
    have h0 : (0 : ℝ) < M ^ 3 := by positivity
    have h3 := (abs_le.1 hpp).1
    have h1 : (M : ℝ) ^ 3 ≤ 2 ^ 64 * p15 z2 := by
      norm_num at hcube ⊢
      linarith
    have h4 : M ^ 3 ≤ 2 ^ 64 * p15 z2 := by exact_mod_cast h1
    refine ⟨?_, h4⟩
    norm_num at h4
    linarith
  have ep : p15X (.fin z2) = .fin (p15 z2) := by
    rw [hp15X z2 hz2lt.le]
    refine over64_fin _ (lt_of_le_of_lt hPup (lt_of_le_of_lt ?_ hfit))
    have := mul_le_mul_of_nonneg_right hn3 (show 0 ≤ 1 + (2 * M) ^ 3 by linarith)
    norm_num
    linarith
  -- the quotient
  have hquo : |rnd64 (a * z3) / p15 z2| ≤ 2 ^ 80 := by
    rw [abs_div, abs_of_pos hPlow.1, div_le_iff₀ hPlow.1]
    have h1 : |rnd64 (a * z3)| ≤ 2 * (15 * (2 * M) ^ 3) := by
      refine rnd_le accuracy_rnd64 (by norm_num) (B := 15 * (2 * M) ^ 3) ?_ ?_
      · rw [abs_mul]
        have := mul_le_mul hab l3 (abs_nonneg _) (by norm_num)
        linarith
      · have h3 : (1 / 2 ^ 50 : ℚ) ^ 3 ≤ M ^ 3 := pow_le_pow_left₀ (by positivity) S.low 3
        have h4 : (1 : ℚ) / 2 ^ 1075 ≤ (1 / 2 ^ 50 : ℚ) ^ 3 := by decide +kernel
        rw [mul_pow]
        linarith
    refine h1.trans ?_
    have h3 := hPlow.2
    rw [mul_pow]
    norm_num at h3 ⊢
    linarith
  have eQ := ieee_div (pw := pw) hPlow.1.ne' (rnd_lt hquo (by norm_num) (lt_of_le_of_lt (by norm_num) h200))
  have e1 : (ieeeOf rnd64 pw over64).ofInt 1 = .fin 1 := by simpa using ieee_ofNat (pw := pw) (n := 1) (by norm_num)
  have e2' : (ieeeOf rnd64 pw over64).ofInt 2 = .fin 2 := by simpa using ieee_ofNat (pw := pw) (n := 2) (by norm_num)
  have es := ieee_sub (pw := pw) hlen53 (m := 1) (by omega)
  rw [Nat.cast_one] at es
  have es2 := ieee_sub (pw := pw) hlen53 (m := 2) (by omega)
  rw [Nat.cast_ofNat] at es2
  have eq := ieee_ratio (pw := pw) hne
  refine ⟨c', _, r, ?_, K⟩
  push_cast at e2 e3
  simp only [skewnessValue, hc, if_neg (show ¬ ((since ops).length : Int) = 0 by omega), e2, e3, ieee_ofNat hlen53, e1, e2', es, es2, eq, f2, f3, em,
    hsqX _ hq0, ed, en, ep, eQ]

end
end Verif.Props
