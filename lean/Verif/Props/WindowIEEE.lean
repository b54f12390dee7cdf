import Verif.Props.WindowCov
import Verif.Props.NoOverflow

/-! # C110 and C109 for `Moment` and `Std` with overflow

The bounds of C109 and C110 are for rounding without overflow. For data of moderate size they hold in full IEEE arithmetic. -/

namespace Verif.Props
open Verif Verif.Spec Verif.FP
attribute [local irreducible] two

section
variable {pw : ℚ → Nat → ℚ} {κ : ℚ}

/-- `Moment` of order 2 with a window in IEEE arithmetic. -/
theorem variance_ieee {cfg : Moment.Config (XF ℚ)} {c : Moment.Core (XF ℚ)} (hn : newCore (ieeeOf rnd64 pw over64) cfg = .ok c) {w : Nat}
    (hw : cfg.window = some (w : Int)) (hd : cfg.decay = none) (hs : ∀ k ∈ cfg.sums.getD [], k ≤ 65) (h2 : ∃ k ∈ cfg.sums.getD [], 2 ≤ k)
    (ops : List (MOp ℚ)) {N L : Nat} (hN : (since ops).length = N) (hLw : (windowOf w ops).length = L) (hlen : N ≤ 2 ^ 43)
    (hP : PowSq pw (1 / 2 ^ 53) (1 / 2 ^ 1075) N) {M : ℚ} (hM : 1 / 2 ^ 480 ≤ M) (hx : ∀ x ∈ since ops, rnd64 x = x ∧ |x| ≤ M) (hL : 2 ≤ L)
    (hfit : 900 * ((N + 1) * (M * M)) < two 1024) :
    ∃ c' s, run (ieeeOf rnd64 pw over64) c (finOps ops) = .val (c', []) ∧
      momentValue (ieeeOf rnd64 pw over64) c' 2 = .ok (.fin (rnd64 (s / (L - 1)))) ∧
      |s - csum 2 (windowOf w ops)| ≤ 250 * N * L * (1 / 2 ^ 53) * M ^ 2 := by
  have hLN : L ≤ N := by
    rw [← hLw, ← hN, windowOf]
    exact lastN_le _ _
  obtain ⟨c', s, r, k, b⟩ := C94_window hn hw hd hs h2 hM ops (by rw [hN]; exact hlen) (by rw [hN]; exact hP) hx (by
      intro h
      rw [h] at hN
      simp at hN
      omega) (by rw [hN]; exact hfit)
  rw [hN, hLw] at b
  have hcnt : c'.count = (L : Int) := by
    obtain ⟨w2, c2, hw2, r2, hcnt, -⟩ := C64_any_arithmetic _ hn hs (finOps ops)
    rw [r] at r2
    simp only [Go.val.injEq, Prod.mk.injEq, and_true] at r2
    subst r2
    have : w2 = w := by
      rw [hw] at hw2
      have := Option.some.inj hw2
      omega
    rw [hcnt, this, ← hLw, windowOf, windowOf, since_finOps, lastN_length, lastN_length, List.length_map]
  refine ⟨c', s, r, ?_, b⟩
  have S := small64 hM hlen
  have hl2 : (2 : ℚ) ≤ L := by exact_mod_cast hL
  have hl53 : (L : ℚ) < two 1024 := lt_of_le_of_lt (b := 2 ^ 53) (by exact_mod_cast (show L ≤ 2 ^ 53 by omega)) lt1024.2.1
  have e0 : (ieeeOf rnd64 pw over64).ofInt 1 = .fin 1 := by
    show over64 (rnd64 ((1 : Int) : ℚ)) = _
    rw [Int.cast_one, rounding_rnd64.one]
    exact over64_fin _ (by rw [abs_one]; linarith)
  have e1 : (ieeeOf rnd64 pw over64).ofInt (L : Int) = .fin L := by
    show over64 (rnd64 (((L : Nat) : Int) : ℚ)) = _
    rw [Int.cast_natCast, rnd64_nat (by omega)]
    exact over64_fin _ (by rw [abs_of_nonneg (by linarith)]; linarith)
  have e2 : (ieeeOf rnd64 pw over64).sub (.fin L) (.fin 1) = .fin (L - 1) := by
    show over64 (rnd64 ((L : ℚ) - 1)) = _
    have h1 : rnd64 ((L : ℚ) - 1) = L - 1 := by
      have := rnd64_nat (n := L - 1) (by omega)
      rwa [Nat.cast_sub (by omega), Nat.cast_one] at this
    rw [h1]
    exact over64_fin _ (by rw [abs_of_nonneg (by linarith)]; linarith)
  have hval : |rnd64 (s / (L - 1))| < two 1024 := by
    have hQ := FP.csum_two_le (xs := windowOf w ops) S.M0 fun x h => (hx x (lastN_subset _ _ h)).2
    have hQ0 := FP.csum_two_nonneg (windowOf w ops)
    rw [hLw] at hQ
    have hl1 : (0 : ℚ) < L - 1 := by linarith
    have hE := accuracy_rnd64 (s / ((L : ℚ) - 1))
    have hq : |s / ((L : ℚ) - 1)| ≤ |s| := by
      rw [abs_div, abs_of_pos hl1]
      exact div_le_self (abs_nonneg _) (by linarith)
    have h1 := abs_add_le (s - csum 2 (windowOf w ops)) (csum 2 (windowOf w ops))
    rw [sub_add_cancel, abs_of_nonneg hQ0] at h1
    have h2 := abs_add_le (rnd64 (s / ((L : ℚ) - 1)) - s / ((L : ℚ) - 1)) (s / ((L : ℚ) - 1))
    rw [sub_add_cancel] at h2
    have hln : (L : ℚ) ≤ N := by exact_mod_cast hLN
    have hMM : 0 ≤ M * M := mul_nonneg S.M0 S.M0
    have h3 := mul_le_mul_of_nonneg_right hln hMM
    have hnu := S.Nu
    have hu0 := S.u0
    have hu1 := S.u1
    have htM := S.tMM
    generalize (1 : ℚ) / 2 ^ 53 = u at *
    generalize (1 : ℚ) / 2 ^ 1075 = t at *
    have h4 : 250 * N * L * u * M ^ 2 ≤ (N + 1) * (M * M) := by
      have : (N * u) * (L * (M * M)) ≤ 1 / 1024 * (L * (M * M)) := mul_le_mul_of_nonneg_right hnu (by positivity)
      calc _ = 250 * ((N * u) * (L * (M * M))) := by ring
        _ ≤ _ := by linarith
    have h5 : u * |s / ((L : ℚ) - 1)| ≤ 1 / 1024 * |s / ((L : ℚ) - 1)| := mul_le_mul_of_nonneg_right hu1 (abs_nonneg _)
    have h6 : u * u * (M * M) ≤ 1 * (M * M) := mul_le_mul_of_nonneg_right (by nlinarith) hMM
    have h7 : 0 ≤ (N : ℚ) * (M * M) := by positivity
    linarith
  simp only [momentValue, k, hcnt, e0, e1, e2]
  congr 1
  simp only [Arith.ieee]
  rw [if_neg (by linarith), over64_fin _ hval]

/-- C110, `Moment` of order 2 with a window in IEEE arithmetic: no infinity and no NaN appears as long as `900·(N + 1)·M² < 2^1024`, and the bound is the
one without overflow. -/
theorem C110_variance_ieee {cfg : Moment.Config (XF ℚ)} {c : Moment.Core (XF ℚ)} (hn : newCore (ieeeOf rnd64 pw over64) cfg = .ok c) {w : Nat}
    (hw : cfg.window = some (w : Int)) (hd : cfg.decay = none) (hs : ∀ k ∈ cfg.sums.getD [], k ≤ 65) (h2 : ∃ k ∈ cfg.sums.getD [], 2 ≤ k)
    (ops : List (MOp ℚ)) {N L : Nat} (hN : (since ops).length = N) (hLw : (windowOf w ops).length = L) (hlen : N ≤ 2 ^ 43)
    (hP : PowSq pw (1 / 2 ^ 53) (1 / 2 ^ 1075) N) {M : ℚ} (hM : 1 / 2 ^ 480 ≤ M) (hx : ∀ x ∈ since ops, rnd64 x = x ∧ |x| ≤ M) (hL : 2 ≤ L)
    (hfit : 900 * ((N + 1) * (M * M)) < two 1024) :
    ∃ c' v, run (ieeeOf rnd64 pw over64) c (finOps ops) = .val (c', []) ∧ momentValue (ieeeOf rnd64 pw over64) c' 2 = .ok (.fin v) ∧
      |v - sampleMoment 2 (windowOf w ops)| ≤ covDrift N (M * M) := by
  have hLN : L ≤ N := by
    rw [← hLw, ← hN, windowOf]
    exact lastN_le _ _
  obtain ⟨c', s, r, hv, b⟩ := variance_ieee hn hw hd hs h2 ops hN hLw hlen hP hM hx hL hfit
  refine ⟨c', _, r, hv, ?_⟩
  have S := small64 hM hlen
  have hm : sampleMoment 2 (windowOf w ops) = csum 2 (windowOf w ops) / (L - 1) := by
    rw [← hLw]; rfl
  rw [hm]
  refine quot_drift hL hLN (mul_nonneg S.M0 S.M0) S.tMM (b.trans (le_of_eq (by ring))) ?_
  rw [abs_of_nonneg (FP.csum_two_nonneg _)]
  refine (FP.csum_two_le (xs := windowOf w ops) S.M0 fun x h => (hx x (lastN_subset _ _ h)).2).trans ?_
  rw [hLw]
  have : 0 ≤ (L : ℚ) * (M * M) := mul_nonneg (Nat.cast_nonneg _) (mul_nonneg S.M0 S.M0)
  linarith

/-- C109, `Std` with a window in IEEE arithmetic; `sqX` is `math.Sqrt`, which does not overflow. -/
theorem C109_std_ieee {cfg : Moment.Config (XF ℚ)} {c : Moment.Core (XF ℚ)} (hn : newCore (ieeeOf rnd64 pw over64) cfg = .ok c) {w : Nat}
    (hw : cfg.window = some (w : Int)) (hd : cfg.decay = none) (hs : ∀ k ∈ cfg.sums.getD [], k ≤ 65) (h2 : ∃ k ∈ cfg.sums.getD [], 2 ≤ k) {sq : ℚ → ℚ}
    (hsq : ∀ q : ℚ, 0 ≤ q → |(sq q : ℝ) - √(q : ℝ)| ≤ ((1 / 2 ^ 53 : ℚ) : ℝ) * √(q : ℝ)) {sqX : XF ℚ → XF ℚ}
    (hsqX : ∀ q : ℚ, 0 ≤ q → sqX (.fin q) = .fin (sq q)) (ops : List (MOp ℚ)) {N L : Nat}
    (hN : (since ops).length = N) (hLw : (windowOf w ops).length = L) (hlen : N ≤ 2 ^ 43) (hP : PowSq pw (1 / 2 ^ 53) (1 / 2 ^ 1075) N) {M : ℚ}
    (hM : 1 / 2 ^ 200 ≤ M) (hx : ∀ x ∈ since ops, rnd64 x = x ∧ |x| ≤ M) (hκ : 1 ≤ κ) (hL : 2 ≤ L)
    (hc : M ^ 2 ≤ κ ^ 2 * popMoment 2 (windowOf w ops)) (hsm : driftOf N κ ≤ 1 / 100) (hfit : 900 * ((N + 1) * (M * M)) < two 1024) :
    ∃ c' g, run (ieeeOf rnd64 pw over64) c (finOps ops) = .val (c', []) ∧ stdValue (ieeeOf rnd64 pw over64) sqX c' = .ok (.fin g) ∧
      |(g : ℝ) - sampleStd (reals (windowOf w ops))| ≤ 2 * (driftOf N κ : ℚ) * sampleStd (reals (windowOf w ops)) := by
  have hLN : L ≤ N := by
    rw [← hLw, ← hN, windowOf]
    exact lastN_le _ _
  obtain ⟨c', s, r, hv, b⟩ := variance_ieee hn hw hd hs h2 ops hN hLw hlen hP (le_trans (by decide +kernel) hM) hx hL hfit
  obtain ⟨h0, -, h1⟩ := std_of_window_sum hsq hLw hLN hM hκ hL hc hsm b
  exact ⟨c', sq (rnd64 (s / (L - 1))), r, by simp only [stdValue, hv, hsqX _ h0], h1⟩

end

/-- The condition on the size holds for the values 4, 1, 3, 2, 7, and even for values up to 10¹⁵⁰; the other hypotheses hold for them by the examples
beside C109. -/
example : 900 * (((5 : Nat) + 1) * ((7 : ℚ) * 7)) < two 1024 ∧ 900 * (((2 ^ 13 : Nat) + 1) * ((10 : ℚ) ^ 150 * 10 ^ 150)) < two 1024 := by
  unfold two
  decide +kernel

end Verif.Props
