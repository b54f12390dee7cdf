import Verif.Props.CorrAccuracy
import Verif.Props.AutoFP

/-! # C109: accuracy of `Std`, `Corr` and `Autocorr` with a window in binary64

`N` is the number of values (points) since the last `Clear`, `L` the number of those in the window, `M` bounds the absolute values of all `N`, and is
at most `κ ≥ 1` population standard deviations of the window. The errors made at the values that have left the window stay in the sums, so the bound
grows with `N`, and `M` is not the bound of the window only. -/

namespace Verif.Props
open Verif Verif.Spec Verif.FP

/-- The relative error that the sums may have: `250·N·2⁻⁵³·κ²`. -/
def driftOf (N : Nat) (κ : ℚ) : ℚ := 250 * N * (1 / 2 ^ 53) * κ ^ 2

section
variable {pw : ℚ → Nat → ℚ} {κ : ℚ}

theorem lastN_le {α : Type} (w : Nat) (xs : List α) : (lastN w xs).length ≤ xs.length := by
  unfold lastN
  split <;> simp

theorem driftOf_low {N L : Nat} (hκ : 1 ≤ κ) (hL : 2 ≤ L) (hLN : L ≤ N) : 500 * (1 / 2 ^ 53) ≤ driftOf N κ := by
  unfold driftOf
  have h1 : (2 : ℚ) ≤ N := by exact_mod_cast hL.trans hLN
  have h4 : (1 : ℚ) ≤ κ ^ 2 := one_le_pow₀ hκ
  calc 500 * (1 / 2 ^ 53) = 500 * (1 / 2 ^ 53) * (1 : ℚ) := by ring
    _ ≤ _ := mul_le_mul (mul_le_mul_of_nonneg_right (by linarith) (by positivity)) h4 (by norm_num) (by positivity)

theorem kappa_le {N L : Nat} (hL : 2 ≤ L) (hLN : L ≤ N) (hsm : driftOf N κ ≤ 1 / 100) : κ ^ 2 ≤ 2 ^ 46 := by
  have h1 : (2 : ℚ) ≤ N := by exact_mod_cast hL.trans hLN
  have h5 : 500 * (1 / 2 ^ 53) * κ ^ 2 ≤ driftOf N κ :=
    mul_le_mul_of_nonneg_right (mul_le_mul_of_nonneg_right (by linarith) (by positivity)) (sq_nonneg _)
  have h6 := h5.trans hsm
  norm_num at h6 ⊢
  linarith

/-- A sum of squares of a window. -/
theorem sum_low {N L : Nat} (hκ : 1 ≤ κ) (hL : 2 ≤ L) (hLN : L ≤ N) (hsm : driftOf N κ ≤ 1 / 100) {M : ℚ} (hM : 1 / 2 ^ 200 ≤ M) {xs : List ℚ}
    (hl : xs.length = L) (hc : M ^ 2 ≤ κ ^ 2 * popMoment 2 xs) : L * M ^ 2 ≤ κ ^ 2 * csum 2 xs ∧ L * (1 / 2 ^ 450) ≤ csum 2 xs := by
  have hp : (0 : ℚ) < L := by exact_mod_cast (by omega : 0 < L)
  have hk := kappa_le hL hLN hsm
  rw [popMoment, hl, ← mul_div_assoc, le_div_iff₀ hp] at hc
  have h1 : (1 / 2 ^ 200 : ℚ) ^ 2 ≤ M ^ 2 := pow_le_pow_left₀ (by positivity) hM 2
  have hX : 0 ≤ csum 2 xs := List.sum_nonneg (by simp only [List.mem_map]; rintro y ⟨x, -, rfl⟩; positivity)
  have h2 := mul_le_mul_of_nonneg_right hk hX
  have h3 := mul_le_mul_of_nonneg_right h1 hp.le
  have h4 : (1 / 2 ^ 450 : ℚ) * 2 ^ 46 ≤ (1 / 2 ^ 200) ^ 2 := by decide +kernel
  have h5 := mul_le_mul_of_nonneg_right h4 hp.le
  refine ⟨by linarith, ?_⟩
  have h6 : (L * (1 / 2 ^ 450) : ℚ) * 2 ^ 46 ≤ csum 2 xs * 2 ^ 46 := by linarith
  exact le_of_mul_le_mul_right h6 (by positivity)

theorem rel_drift {N L : Nat} {M X s : ℚ} (h : |s - X| ≤ 250 * N * L * (1 / 2 ^ 53) * M ^ 2) (hX : L * M ^ 2 ≤ κ ^ 2 * X) :
    |s - X| ≤ driftOf N κ * X := by
  refine h.trans ?_
  unfold driftOf
  have h1 := mul_le_mul_of_nonneg_left hX (show (0 : ℚ) ≤ 250 * N * (1 / 2 ^ 53) by positivity)
  calc _ = 250 * N * (1 / 2 ^ 53) * (L * M ^ 2) := by ring
    _ ≤ _ := h1
    _ = _ := by ring

/-! ## `Std` -/

/-- The last steps of `Moment` and `Std`, from the second power sum `s` of a window `xs`. -/
theorem std_of_window_sum {sq : ℚ → ℚ} (hsq : ∀ q : ℚ, 0 ≤ q → |(sq q : ℝ) - √(q : ℝ)| ≤ ((1 / 2 ^ 53 : ℚ) : ℝ) * √(q : ℝ)) {N L : Nat}
    {xs : List ℚ} (hLw : xs.length = L) (hLN : L ≤ N) {M s : ℚ} (hM : 1 / 2 ^ 200 ≤ M) (hκ : 1 ≤ κ) (hL : 2 ≤ L)
    (hc : M ^ 2 ≤ κ ^ 2 * popMoment 2 xs) (hsm : driftOf N κ ≤ 1 / 100) (b : |s - csum 2 xs| ≤ 250 * N * L * (1 / 2 ^ 53) * M ^ 2) :
    0 ≤ rnd64 (s / (L - 1)) ∧ |rnd64 (s / (L - 1)) - sampleMoment 2 xs| ≤ 2 * driftOf N κ * sampleMoment 2 xs ∧
      |(sq (rnd64 (s / (L - 1))) : ℝ) - sampleStd (reals xs)| ≤ 2 * (driftOf N κ : ℚ) * sampleStd (reals xs) := by
  obtain ⟨hS, hX⟩ := sum_low hκ hL hLN hsm hM hLw hc
  have hrel := rel_drift (N := N) b hS
  have hlow := driftOf_low hκ hL hLN
  have hLq : (2 : ℚ) ≤ L := by exact_mod_cast hL
  have hv0 : |rnd64 (s / (L - 1)) - s / (L - 1)| ≤ 1 / 2 ^ 53 * |s / (L - 1)| + 1 / 2 ^ 1075 := accuracy_rnd64 _
  rw [sampleStd, sampleMoment_reals, sampleMoment, hLw]
  generalize csum 2 xs = X at *
  generalize rnd64 (s / (L - 1)) = v at *
  generalize driftOf N κ = δ at *
  have hL1 : (0 : ℚ) < L - 1 := by linarith
  have hY0 : 1 / 2 ^ 450 ≤ X / (L - 1) := by
    rw [le_div_iff₀ hL1]
    have : (1 / 2 ^ 450 : ℚ) * (L - 1) ≤ L * (1 / 2 ^ 450) := by
      have : (0 : ℚ) < 1 / 2 ^ 450 := by positivity
      linarith
    linarith
  have hr : |s / (L - 1) - X / (L - 1)| ≤ δ * (X / (L - 1)) := by
    rw [← sub_div, abs_div, abs_of_pos hL1, ← mul_div_assoc]
    exact div_le_div_of_nonneg_right hrel hL1.le
  generalize s / ((L : ℚ) - 1) = z at *
  generalize X / ((L : ℚ) - 1) = Y at *
  have ht : (1 : ℚ) / 2 ^ 1075 ≤ 1 / 2 ^ 53 * Y := by
    have : (1 : ℚ) / 2 ^ 1075 ≤ 1 / 2 ^ 53 * (1 / 2 ^ 450) := by decide +kernel
    exact this.trans (mul_le_mul_of_nonneg_left hY0 (by positivity))
  have hYp : 0 < Y := lt_of_lt_of_le (by positivity) hY0
  have hu0 : (0 : ℚ) < 1 / 2 ^ 53 := by positivity
  have hu1 : (1 : ℚ) / 2 ^ 53 ≤ 1 / 4096 := by norm_num
  generalize (1 : ℚ) / 2 ^ 53 = u at *
  generalize (1 : ℚ) / 2 ^ 1075 = t at *
  clear hX hS hY0 b hc hM
  have hz : |z| ≤ 2 * Y := by
    have h1 : |z| ≤ |z - Y| + |Y| := by
      have := abs_add_le (z - Y) Y
      rwa [sub_add_cancel] at this
    rw [abs_of_pos hYp] at h1
    have : δ * Y ≤ 1 / 100 * Y := mul_le_mul_of_nonneg_right hsm hYp.le
    linarith
  have huY := mul_le_mul_of_nonneg_right hlow hYp.le
  have hδ0 : 0 < δ := by linarith
  have hδY : 0 < δ * Y := mul_pos hδ0 hYp
  have hvY : |v - Y| ≤ 101 / 100 * δ * Y := by
    have h1 : |v - Y| ≤ |v - z| + |z - Y| := abs_sub_le _ _ _
    have h3 := mul_le_mul_of_nonneg_left hz hu0.le
    linarith
  have hv : 0 ≤ v := by
    have h1 := (abs_le.1 hvY).1
    have : δ * Y ≤ 1 / 100 * Y := mul_le_mul_of_nonneg_right hsm hYp.le
    linarith
  refine ⟨hv, by linarith, ?_⟩
  have hYR : (0 : ℝ) < Y := by exact_mod_cast hYp
  have hδR : (δ : ℝ) ≤ 1 / 100 := by simpa using (Rat.cast_le (K := ℝ)).2 hsm
  have hvR : |(v : ℝ) - Y| ≤ 101 / 100 * δ * Y := by
    have := (Rat.cast_le (K := ℝ)).2 hvY
    push_cast at this
    exact this
  have h1 := sqrt_err hYR hvR (by linarith)
  have h3 := hsq v hv
  have h4 : |(sq v : ℝ) - √Y| ≤ |(sq v : ℝ) - √v| + |√v - √Y| := abs_sub_le _ _ _
  have hq := Real.sqrt_nonneg (Y : ℝ)
  have hlR : 500 * (u : ℝ) ≤ δ := by exact_mod_cast hlow
  have huR : (0 : ℝ) ≤ u := by exact_mod_cast hu0.le
  have h5 : √(v : ℝ) ≤ 2 * √Y := by
    have h6 := (abs_le.1 h1).2
    have : 101 / 100 * (δ : ℝ) * √Y ≤ 1 * √Y := mul_le_mul_of_nonneg_right (by linarith) hq
    linarith
  have h6 := mul_le_mul_of_nonneg_left h5 huR
  have h7 := mul_le_mul_of_nonneg_right hlR hq
  have h8 : 0 ≤ (δ : ℝ) * √Y := mul_nonneg (by linarith) hq
  linarith

/-- C109, `Moment` of order 2 and `Std` with a window, in binary64 with a square root of relative error 2⁻⁵³: their relative errors are at most twice
`250·N·2⁻⁵³·κ²`. -/
theorem C109_std {cfg : Moment.Config ℚ} {c : Moment.Core ℚ} (hn : newCore (Arith.rounded rnd64 pw) cfg = .ok c) {w : Nat} (hw : cfg.window = some (w : Int))
    (hd : cfg.decay = none) (hs : ∀ k ∈ cfg.sums.getD [], k ≤ 65) (h2 : ∃ k ∈ cfg.sums.getD [], 2 ≤ k) {sq : ℚ → ℚ}
    (hsq : ∀ q : ℚ, 0 ≤ q → |(sq q : ℝ) - √(q : ℝ)| ≤ ((1 / 2 ^ 53 : ℚ) : ℝ) * √(q : ℝ)) (ops : List (MOp ℚ)) {N L : Nat}
    (hN : (since ops).length = N) (hLw : (windowOf w ops).length = L) (hlen : N ≤ 2 ^ 43) (hP : PowSq pw (1 / 2 ^ 53) (1 / 2 ^ 1075) N) {M : ℚ}
    (hM : 1 / 2 ^ 200 ≤ M) (hx : ∀ x ∈ since ops, rnd64 x = x ∧ |x| ≤ M) (hκ : 1 ≤ κ) (hL : 2 ≤ L)
    (hc : M ^ 2 ≤ κ ^ 2 * popMoment 2 (windowOf w ops)) (hsm : driftOf N κ ≤ 1 / 100) :
    ∃ c' v, run (Arith.rounded rnd64 pw) c ops = .val (c', []) ∧ momentValue (Arith.rounded rnd64 pw) c' 2 = .ok v ∧
      stdValue (Arith.rounded rnd64 pw) sq c' = .ok (sq v) ∧
      |v - sampleMoment 2 (windowOf w ops)| ≤ 2 * driftOf N κ * sampleMoment 2 (windowOf w ops) ∧
      |(sq v : ℝ) - sampleStd (reals (windowOf w ops))| ≤ 2 * (driftOf N κ : ℚ) * sampleStd (reals (windowOf w ops)) := by
  have hLN : L ≤ N := by
    rw [← hLw, ← hN, windowOf]
    exact lastN_le _ _
  obtain ⟨c', s, r, k, b⟩ := C82_window_drift hn hw hd hs h2 (le_trans (by decide +kernel) hM) ops (by rw [hN]; exact hlen)
    (by rw [hN]; exact hP) hx (by
      intro h
      rw [h] at hN
      simp at hN
      omega)
  rw [hN, hLw] at b
  have hcnt : c'.count = (L : Int) := by
    obtain ⟨w2, c2, hw2, r2, hcnt, -⟩ := C64_any_arithmetic _ hn hs ops
    rw [r] at r2
    simp only [Go.val.injEq, Prod.mk.injEq, and_true] at r2
    subst r2
    have : w2 = w := by
      rw [hw] at hw2
      have := Option.some.inj hw2
      omega
    rw [hcnt, this, hLw]
  have en : rnd64 ((L : Int) : ℚ) = L := by rw [Int.cast_natCast]; exact rnd64_nat (by omega)
  have en1 : rnd64 ((L : ℚ) - 1) = L - 1 := by
    have := rnd64_nat (n := L - 1) (by omega)
    rwa [Nat.cast_sub (by omega), Nat.cast_one] at this
  have hmv : momentValue (Arith.rounded rnd64 pw) c' 2 = .ok (rnd64 (s / (L - 1))) := by
    simp only [momentValue, k, hcnt, Arith.rounded, en, Int.cast_one, rounding_rnd64.one, en1]
  exact ⟨c', rnd64 (s / (L - 1)), r, hmv, by simp only [stdValue, hmv], (std_of_window_sum hsq hLw hLN hM hκ hL hc hsm b).2⟩

/-! ## `Corr` -/

/-- What is assumed of one coordinate: `M` bounds it at all points since the last `Clear`, and is at most `κ` standard deviations of the window. -/
structure WinOK (i w : Nat) (M κ : ℚ) (data : List (List ℚ)) : Prop where
  low : 1 / 2 ^ 200 ≤ M
  bound : BoundedAt i M data
  cond : M ^ 2 ≤ κ ^ 2 * popMoment 2 (coord i (lastN w data))

/-- `Corr` from its three sums over the window. -/
theorem corr_of_window_sums {sq : ℚ → ℚ} (hsq : ∀ q : ℚ, 0 ≤ q → |(sq q : ℝ) - √(q : ℝ)| ≤ ((1 / 2 ^ 53 : ℚ) : ℝ) * √(q : ℝ)) {win : List (List ℚ)}
    {N L : Nat} (hLw : win.length = L) (hLN : L ≤ N) {M₁ M₂ : ℚ} (hκ : 1 ≤ κ) (l₁ : 1 / 2 ^ 200 ≤ M₁) (l₂ : 1 / 2 ^ 200 ≤ M₂)
    (c₁ : M₁ ^ 2 ≤ κ ^ 2 * popMoment 2 (coord 0 win)) (c₂ : M₂ ^ 2 ≤ κ ^ 2 * popMoment 2 (coord 1 win)) (hL : 2 ≤ L) (hsm : driftOf N κ ≤ 1 / 100)
    {s11 s20 s02 : ℚ} (b11 : |s11 - crossSum 0 1 win| ≤ 250 * N * L * (1 / 2 ^ 53) * (M₁ * M₂))
    (b20 : |s20 - csum 2 (coord 0 win)| ≤ 250 * N * L * (1 / 2 ^ 53) * M₁ ^ 2)
    (b02 : |s02 - csum 2 (coord 1 win)| ≤ 250 * N * L * (1 / 2 ^ 53) * M₂ ^ 2) :
    (1 / 2 ^ 450 ≤ csum 2 (coord 0 win) ∧ |s20 - csum 2 (coord 0 win)| ≤ 1 / 100 * csum 2 (coord 0 win)) ∧
    (1 / 2 ^ 450 ≤ csum 2 (coord 1 win) ∧ |s02 - csum 2 (coord 1 win)| ≤ 1 / 100 * csum 2 (coord 1 win)) ∧
      |((rnd64 (s11 / sq (rnd64 (s20 * s02))) : ℚ) : ℝ) - pearson (realPoints win)| ≤ 4 * (driftOf N κ : ℚ) := by
  have hl : ∀ j, (coord j win).length = L := fun j => by simp [coord, hLw]
  obtain ⟨hS₁, lX⟩ := sum_low hκ hL hLN hsm l₁ (hl 0) c₁
  obtain ⟨hS₂, lY⟩ := sum_low hκ hL hLN hsm l₂ (hl 1) c₂
  have a20 := rel_drift (N := N) b20 hS₁
  have a02 := rel_drift (N := N) b02 hS₂
  have hlow := driftOf_low hκ hL hLN
  have hLq : (2 : ℚ) ≤ L := by exact_mod_cast hL
  have hC := crossSum_le win
  have pM₁ : 0 < M₁ := lt_of_lt_of_le (by positivity) l₁
  have pM₂ : 0 < M₂ := lt_of_lt_of_le (by positivity) l₂
  rw [pearson_sums (by omega)]
  generalize csum 2 (coord 0 win) = X at *
  generalize csum 2 (coord 1 win) = Y at *
  generalize crossSum 0 1 win = C at *
  have one : ∀ Z : ℚ, L * (1 / 2 ^ 450) ≤ Z → 1 / 2 ^ 450 ≤ Z := fun Z h => by
    have : (0 : ℚ) < 1 / 2 ^ 450 := by positivity
    have := mul_le_mul_of_nonneg_right hLq this.le
    linarith
  replace lX := one X lX
  replace lY := one Y lY
  have pX : 0 < X := lt_of_lt_of_le (by positivity) lX
  have pY : 0 < Y := lt_of_lt_of_le (by positivity) lY
  have g20 : |s20 - X| ≤ 1 / 100 * X := a20.trans (mul_le_mul_of_nonneg_right hsm pX.le)
  have g02 : |s02 - Y| ≤ 1 / 100 * Y := a02.trans (mul_le_mul_of_nonneg_right hsm pY.le)
  refine ⟨⟨lX, g20⟩, ⟨lY, g02⟩, ?_⟩
  have n20 : 0 ≤ s20 := by
    have h1 := (abs_le.1 a20).1
    have h2 := mul_le_mul_of_nonneg_right hsm pX.le
    linarith
  have n02 : 0 ≤ s02 := by
    have h1 := (abs_le.1 a02).1
    have h2 := mul_le_mul_of_nonneg_right hsm pY.le
    linarith
  have pXR : (0 : ℝ) < X := by exact_mod_cast pX
  have pYR : (0 : ℝ) < Y := by exact_mod_cast pY
  have hm11 : (L : ℝ) * (M₁ * M₂) ≤ κ ^ 2 * √((X : ℝ) * Y) := by
    have h1 : ((L : ℝ) * (M₁ * M₂)) ^ 2 ≤ (κ ^ 2 * √((X : ℝ) * Y)) ^ 2 := by
      have h2 : (L * M₁ ^ 2) * (L * M₂ ^ 2) ≤ κ ^ 2 * X * (κ ^ 2 * Y) := mul_le_mul hS₁ hS₂ (by positivity) (by positivity)
      have h3 : ((L : ℝ) * M₁ ^ 2) * (L * M₂ ^ 2) ≤ κ ^ 2 * X * (κ ^ 2 * Y) := by exact_mod_cast h2
      rw [mul_pow _ (√_), Real.sq_sqrt (by positivity)]
      calc _ = ((L : ℝ) * M₁ ^ 2) * (L * M₂ ^ 2) := by ring
        _ ≤ _ := h3
        _ = _ := by ring
    exact le_of_sq_le_sq h1 (by positivity)
  have hc11 : |(s11 : ℝ) - C| ≤ (driftOf N κ : ℚ) * √((X : ℝ) * Y) := by
    have h1 : |(s11 : ℝ) - C| ≤ ((250 * N * L * (1 / 2 ^ 53) * (M₁ * M₂) : ℚ) : ℝ) := by exact_mod_cast b11
    refine h1.trans ?_
    have e1 : 250 * N * L * (1 / 2 ^ 53) * (M₁ * M₂) = 250 * N * (1 / 2 ^ 53) * (L * (M₁ * M₂)) := by ring
    have h2 := mul_le_mul_of_nonneg_left hm11 (show (0 : ℝ) ≤ ((250 * N * (1 / 2 ^ 53) : ℚ) : ℝ) by
      exact_mod_cast (show (0 : ℚ) ≤ 250 * N * (1 / 2 ^ 53) by positivity))
    rw [e1, driftOf]
    generalize 250 * (N : ℚ) * (1 / 2 ^ 53) = a at *
    push_cast
    linarith
  generalize driftOf N κ = δ at *
  have hu53 : (1 : ℚ) / 2 ^ 1075 ≤ 1 / 2 ^ 53 * (X * Y) := by
    have h1 : (1 / 2 ^ 450 : ℚ) * (1 / 2 ^ 450) ≤ X * Y := mul_le_mul lX lY (by positivity) pX.le
    refine le_trans ?_ (mul_le_mul_of_nonneg_left h1 (by positivity))
    decide +kernel
  have htu : (1 : ℚ) / 2 ^ 1075 ≤ 1 / 2 ^ 53 := by decide +kernel
  have hu1 : (1 : ℚ) / 2 ^ 53 ≤ 1 / 4096 := by norm_num
  have hup : (0 : ℚ) ≤ 1 / 2 ^ 53 := by positivity
  have acc := fun q => round_real (u := 1 / 2 ^ 53) le_rfl q
  clear b11 b20 b02 lX lY one
  generalize (1 : ℚ) / 2 ^ 53 = u at *
  generalize (1 : ℚ) / 2 ^ 1075 = t at *
  have R1 : (0 : ℝ) ≤ u := by exact_mod_cast hup
  have R2 : (u : ℝ) ≤ 1 / 4096 := by simpa using (Rat.cast_le (K := ℝ)).2 hu1
  have R3 : (δ : ℝ) ≤ 1 / 100 := by simpa using (Rat.cast_le (K := ℝ)).2 hsm
  have R4 : 500 * (u : ℝ) ≤ δ := by exact_mod_cast hlow
  have F := corr_final (u := (u : ℝ)) (t := (t : ℝ)) (d := (δ : ℝ)) (X := (X : ℝ)) (Y := (Y : ℝ)) (C := (C : ℝ))
    (x := (s20 : ℝ)) (y := (s02 : ℝ)) (c := (s11 : ℝ)) (p := ((rnd64 (s20 * s02) : ℚ) : ℝ)) (r := (sq (rnd64 (s20 * s02)) : ℝ))
    (g := ((rnd64 (s11 / sq (rnd64 (s20 * s02))) : ℚ) : ℝ)) R1 R2 pXR pYR (by linarith) R3 (by exact_mod_cast a20) (by exact_mod_cast a02) hc11 hC
    (by have := acc (s20 * s02); push_cast at this ⊢; exact this) (by exact_mod_cast hu53) (by exact_mod_cast htu)
    (hsq _ (rounding_rnd64.nonneg (mul_nonneg n20 n02)))
    (by have := acc (s11 / sq (rnd64 (s20 * s02))); push_cast at this ⊢; exact this)
  exact F.trans (by linarith)

/-- C109, `Corr` with a window, in binary64 with a square root of relative error 2⁻⁵³: it is off by at most four times `250·N·2⁻⁵³·κ²`. -/
theorem C109_corr (P : JFP.PowOK rnd64 pw) {cfg : Joint.Config ℚ} {c : Joint.Core ℚ} (hc : CorrCore rnd64 pw cfg c) {w : Nat}
    (hw : cfg.window = some (w : Int)) (hd : cfg.decay = none) {sq : ℚ → ℚ}
    (hsq : ∀ q : ℚ, 0 ≤ q → |(sq q : ℝ) - √(q : ℝ)| ≤ ((1 / 2 ^ 53 : ℚ) : ℝ) * √(q : ℝ)) (ops : List (MOp (List ℚ))) {N L : Nat}
    (hN : (since (ops.filter (okArity 2))).length = N) (hLw : (windowOf w (ops.filter (okArity 2))).length = L) (hlen : N ≤ 2 ^ 43)
    (hP : PowSq pw (1 / 2 ^ 53) (1 / 2 ^ 1075) N) {M₁ M₂ : ℚ} (hκ : 1 ≤ κ) (H₁ : WinOK 0 w M₁ κ (since (ops.filter (okArity 2))))
    (H₂ : WinOK 1 w M₂ κ (since (ops.filter (okArity 2)))) (hL : 2 ≤ L) (hsm : driftOf N κ ≤ 1 / 100) :
    ∃ e es g, JFP.run (Arith.rounded rnd64 pw) c ops = .val (e, es) ∧ JFP.corrValue (Arith.rounded rnd64 pw) sq e = .ok g ∧
      |(g : ℝ) - pearson (realPoints (windowOf w (ops.filter (okArity 2))))| ≤ 4 * (driftOf N κ : ℚ) := by
  have hLN : L ≤ N := by
    rw [← hLw, ← hN, windowOf]
    exact lastN_le _ _
  have low : ∀ M : ℚ, 1 / 2 ^ 200 ≤ M → 1 / 2 ^ 480 ≤ M := fun M h => le_trans (by decide +kernel) h
  obtain ⟨e, es, s11, r, k11, b11⟩ := C83_window_drift P hc.new hc.small hc.coll hw (fun _ => hc.over) hd (n := 2) (by exact_mod_cast hc.vars) (i := 0)
    (j := 1) (by omega) (by omega) hc.track.1 (low _ H₁.low) (low _ H₂.low) ops hN hlen hP H₁.bound H₂.bound (by omega)
  obtain ⟨e1, es1, s20, r1, k20, b20⟩ := C83_square_drift P hc.new hc.small hc.coll hw (fun _ => hc.over) hd (n := 2) (by exact_mod_cast hc.vars)
    (i := 0) (by omega) hc.track.2.1 (low _ H₁.low) ops hN hlen hP H₁.bound (by omega)
  obtain ⟨e2, es2, s02, r2, k02, b02⟩ := C83_square_drift P hc.new hc.small hc.coll hw (fun _ => hc.over) hd (n := 2) (by exact_mod_cast hc.vars)
    (i := 1) (by omega) hc.track.2.2 (low _ H₂.low) ops hN hlen hP H₂.bound (by omega)
  rw [hLw] at b11 b20 b02
  rw [r] at r1 r2
  simp only [Go.val.injEq, Prod.mk.injEq] at r1 r2
  obtain ⟨rfl, rfl⟩ := r1
  obtain ⟨rfl, rfl⟩ := r2
  change JFP.sum e [1, 1] = _ at k11
  change JFP.sum e [2, 0] = _ at k20
  change JFP.sum e [0, 2] = _ at k02
  refine ⟨e, es, rnd64 (s11 / sq (rnd64 (s20 * s02))), r, by simp only [JFP.corrValue, k11, k20, k02]; rfl, (corr_of_window_sums hsq hLw hLN hκ H₁.low H₂.low H₁.cond H₂.cond hL hsm
    b11 b20 b02).2.2⟩

/-! ## `Autocorr` -/

/-- C109, `Autocorr` with a window: as `Corr`, for the pairs of values `lag` apart. -/
theorem C109_autocorr (P : JFP.PowOK rnd64 pw) (lag w : Nat) {sq : ℚ → ℚ}
    (hsq : ∀ q : ℚ, 0 ≤ q → |(sq q : ℝ) - √(q : ℝ)| ≤ ((1 / 2 ^ 53 : ℚ) : ℝ) * √(q : ℝ)) (ops : List (MOp ℚ)) {N L : Nat}
    (hN : (since ops).length = N + lag) (hLw : (lastN w (lagged lag (since ops))).length = L) (hlen : N ≤ 2 ^ 43)
    (hP : PowSq pw (1 / 2 ^ 53) (1 / 2 ^ 1075) N) (hκ : 1 ≤ κ) {M : ℚ} (hM : 1 / 2 ^ 200 ≤ M) (hx : ∀ x ∈ since ops, rnd64 x = x ∧ |x| ≤ M)
    (h0 : ∀ i, i < 2 → M ^ 2 ≤ κ ^ 2 * popMoment 2 (coord i (lastN w (lagged lag (since ops))))) (hL : 2 ≤ L) (hsm : driftOf N κ ≤ 1 / 100) :
    ∃ g, aObs (Arith.rounded rnd64 pw) true lag w sq ops = some (.ok g, []) ∧
      |(g : ℝ) - pearson (realPoints (lastN w (lagged lag (since ops))))| ≤ 4 * (driftOf N κ : ℚ) := by
  have hl : (lagged lag (since ops)).length = N := by rw [lagged_length]; omega
  have hLN : L ≤ N := by
    rw [← hLw, ← hl]
    exact lastN_le _ _
  obtain ⟨c, hn⟩ := JFP.auto_newCore (Arith.rounded rnd64 pw) true w
  have hs := JFP.filter_pushes (JFP.lagged_arity lag (since ops))
  have hb : ∀ i, i < 2 → BoundedAt i M (lagged lag (since ops)) := by
    intro i hi p hp
    obtain ⟨x, h2, y, h3, rfl⟩ := lagged_mem hp
    match i with
    | 0 => exact hx x h2
    | 1 => exact hx y h3
    | i + 2 => omega
  have hcc : CorrCore rnd64 pw (JFP.autoConfig ℚ true w) c :=
    ⟨hn, rfl, JFP.auto_exp true w, noCollision_auto true w, noOverlap_auto, ⟨⟨[1, 1], by simp [JFP.autoConfig], by decide⟩,
      ⟨[2, 0], by simp [JFP.autoConfig], by decide⟩, ⟨[0, 2], by simp [JFP.autoConfig], by decide⟩⟩, by simp [JFP.autoConfig]⟩
  obtain ⟨e, es, v, r, hv, hb⟩ := C109_corr P hcc (w := w) rfl rfl hsq ((lagged lag (since ops)).map MOp.push) (N := N) (L := L)
    (by rw [hs, JFP.since_pushes]; exact hl) (by rw [hs, windowOf, JFP.since_pushes]; exact hLw) hlen hP hκ
    (by rw [hs, JFP.since_pushes]; exact ⟨hM, hb 0 (by omega), h0 0 (by omega)⟩)
    (by rw [hs, JFP.since_pushes]; exact ⟨hM, hb 1 (by omega), h0 1 (by omega)⟩) hL hsm
  rw [hs, windowOf, JFP.since_pushes] at hb
  refine ⟨v, ?_, hb⟩
  have := aObs_eq (Arith.rounded rnd64 pw) (corr := true) (lag := lag) (w := w) (sqrt := sq) (ops := ops) hn r (by omega)
  rw [if_pos rfl, hv] at this
  exact this

end

/-! ## An outlier is never forgotten -/

section
variable {F : Type} {A : Arith F}

theorem lastN_snoc_congr {α : Type} {w : Nat} (hw : w ≠ 0) {xs ys : List α} (h : lastN w xs = lastN w ys) (x : α) :
    lastN w (xs ++ [x]) = lastN w (ys ++ [x]) := by
  by_cases hf : (lastN w xs).length = w
  · rw [lastN_snoc_full hw _ _ hf, lastN_snoc_full hw _ _ (h ▸ hf), h]
  · rw [lastN_snoc_room hw _ _ hf, lastN_snoc_room hw _ _ (h ▸ hf), h]

/-- What later values of `Mean`, the variance and `Std` depend on. -/
def memory (A : Arith F) (w : Nat) (xs : List F) : List F × F × F := (lastN w xs, (mst A w none xs).1, (mst A w none xs).2 2)

theorem roomM_congr {w : Nat} {xs ys : List F} (h : memory A w xs = memory A w ys) :
    (roomM A w xs (mst A w none xs)).1 = (roomM A w ys (mst A w none ys)).1 ∧
    (roomM A w xs (mst A w none xs)).2 2 = (roomM A w ys (mst A w none ys)).2 2 := by
  simp only [memory, Prod.mk.injEq] at h
  obtain ⟨h1, h2, h3⟩ := h
  unfold roomM
  rw [h1]
  split
  · split
    · simp only [h2, remM, removeV, foldV, le_refl, if_true, Nat.sub_self, lt_self_iff_false, if_false, h3, and_self]
    · exact ⟨rfl, rfl⟩
  · exact ⟨h2, h3⟩

theorem memory_snoc {w : Nat} (hw : w ≠ 0) {xs ys : List F} (h : memory A w xs = memory A w ys) (x : F) :
    memory A w (xs ++ [x]) = memory A w (ys ++ [x]) := by
  obtain ⟨h1, h2⟩ := roomM_congr h
  have h0 : lastN w xs = lastN w ys := congrArg (·.1) h
  have h3 := lastN_snoc_congr hw h0 x
  unfold memory
  rw [mst_add, mst_add, h3, h1]
  simp only [le_refl, if_true, addV, foldV, Nat.sub_self, h2]

theorem memory_append {w : Nat} (hw : w ≠ 0) {xs ys : List F} (h : memory A w xs = memory A w ys) (zs : List F) :
    memory A w (xs ++ zs) = memory A w (ys ++ zs) := by
  induction zs generalizing xs ys with
  | nil => simpa using h
  | cons z zs ih => simpa using ih (memory_snoc hw h z)

/-- A cycle of values which leaves the memory as it is may be repeated. -/
theorem memory_cycle {w : Nat} (hw : w ≠ 0) {xs zs : List F} (h : memory A w (xs ++ zs) = memory A w xs) (k : Nat) :
    memory A w (xs ++ (List.replicate k zs).flatten) = memory A w xs := by
  induction k with
  | zero => simp
  | succ k ih =>
    rw [List.replicate_succ, List.flatten_cons, ← List.append_assoc, memory_append hw h, ih]

/-- What later values of `Corr` depend on. -/
def memory2 (A : Arith F) (f : F → F → F) (w : Nat) (ps : List (F × F)) : List (F × F) × (F × F) × (F × F) × F :=
  (lastN w ps, (memory A w (ps.map (·.1))).2, (memory A w (ps.map (·.2))).2, JFP.pairS A f w none ps)

theorem memory2_snoc {f : F → F → F} {w : Nat} (hw : w ≠ 0) {ps qs : List (F × F)} (h : memory2 A f w ps = memory2 A f w qs) (p : F × F) :
    memory2 A f w (ps ++ [p]) = memory2 A f w (qs ++ [p]) := by
  simp only [memory2, Prod.mk.injEq] at h
  obtain ⟨h0, h1, h2, h3⟩ := h
  have m1 : memory A w (ps.map (·.1)) = memory A w (qs.map (·.1)) :=
    Prod.ext (by change lastN w _ = lastN w _; rw [JFP.lastN_map, JFP.lastN_map, h0]) h1
  have m2 : memory A w (ps.map (·.2)) = memory A w (qs.map (·.2)) :=
    Prod.ext (by change lastN w _ = lastN w _; rw [JFP.lastN_map, JFP.lastN_map, h0]) h2
  have n1 := memory_snoc hw m1 p.1
  have n2 := memory_snoc hw m2 p.2
  have hs := lastN_snoc_congr hw h0 p
  have r1 : JFP.roomMean A w none (ps.map (·.1)) = JFP.roomMean A w none (qs.map (·.1)) := (roomM_congr m1).1
  have r2 : JFP.roomMean A w none (ps.map (·.2)) = JFP.roomMean A w none (qs.map (·.2)) := (roomM_congr m2).1
  unfold memory2
  rw [JFP.pairS_append, JFP.pairS_append, hs, r1, r2, h3]
  simp only [List.map_append, List.map_cons, List.map_nil, n1, n2, JFP.roomP, h0]

theorem memory2_append {f : F → F → F} {w : Nat} (hw : w ≠ 0) {ps qs : List (F × F)} (h : memory2 A f w ps = memory2 A f w qs) (zs : List (F × F)) :
    memory2 A f w (ps ++ zs) = memory2 A f w (qs ++ zs) := by
  induction zs generalizing ps qs with
  | nil => simpa using h
  | cons z zs ih => simpa using ih (memory2_snoc hw h z)

theorem memory2_cycle {f : F → F → F} {w : Nat} (hw : w ≠ 0) {ps zs : List (F × F)} (h : memory2 A f w (ps ++ zs) = memory2 A f w ps) (k : Nat) :
    memory2 A f w (ps ++ (List.replicate k zs).flatten) = memory2 A f w ps := by
  induction k with
  | zero => simp
  | succ k ih =>
    rw [List.replicate_succ, List.flatten_cons, ← List.append_assoc, memory2_append hw h, ih]

end

/-- The values 2⁶⁰, 1, 2, 3, 1, 2, 3, …: the outlier comes first, the other values are repeated `k + 1` times. -/
def outlier (k : Nat) : List ℚ := [2 ^ 60, 1, 2, 3] ++ (List.replicate k [1, 2, 3]).flatten

theorem flatten_lastN {α : Type} {w : Nat} (hw : w ≠ 0) {xs zs : List α} (h : lastN w (xs ++ zs) = lastN w xs) (k : Nat) :
    lastN w (xs ++ (List.replicate k zs).flatten) = lastN w xs := by
  have app : ∀ (ys : List α) {a b : List α}, lastN w a = lastN w b → lastN w (a ++ ys) = lastN w (b ++ ys) := by
    intro ys
    induction ys with
    | nil => intro a b h; simpa using h
    | cons y ys ih => intro a b h; simpa using ih (lastN_snoc_congr hw h y)
  induction k with
  | zero => simp
  | succ k ih => rw [List.replicate_succ, List.flatten_cons, ← List.append_assoc, app _ h, ih]

/-- C109 fails when `M` only bounds the window: one outlier spoils `Mean` and `Std` with a window of three for ever. However often 1, 2, 3 are pushed
after 2⁶⁰, the window holds 1, 2, 3 with mean 2 and variance 1, while the mean is above 43 and the variance above 1240. -/
theorem C109_outlier_forever (k : Nat) : ∃ (c c' : Moment.Core ℚ) (m v : ℚ), newCore Arith.b64 ⟨some [2], some 3, none⟩ = .ok c ∧
    run Arith.b64 c ((outlier k).map .push) = .val (c', []) ∧ mean c' = .ok m ∧ momentValue Arith.b64 c' 2 = .ok v ∧ 43 ≤ m ∧ 1240 ≤ v ∧
    windowOf 3 ((outlier k).map .push) = [1, 2, 3] ∧ Spec.mean ([1, 2, 3] : List ℚ) = 2 ∧ sampleMoment 2 ([1, 2, 3] : List ℚ) = 1 := by
  have hs : since ((outlier k).map MOp.push) = outlier k := JFP.since_pushes _
  have hne : since ((outlier k).map MOp.push) ≠ [] := by rw [hs]; simp [outlier]
  have hm : memory Arith.b64 3 (outlier k) =
      ([1, 2, 3], 3072768495757995 / 70368744177664, 5455043689272661 / 2199023255552) := by
    rw [outlier, memory_cycle (by omega) (by decide +kernel)]
    decide +kernel
  simp only [memory, Prod.mk.injEq] at hm
  obtain ⟨h1, h2, h3⟩ := hm
  obtain ⟨c, hn⟩ : ∃ c, newCore Arith.b64 ⟨some [2], some 3, none⟩ = .ok c := ⟨_, rfl⟩
  obtain ⟨c', r, hc, hmean, hsum⟩ := moment_mst Arith.b64 hn (by simp) (w := 3) rfl ((outlier k).map .push)
  have hsum2 := hsum hne 2 (by norm_num) ⟨2, by simp, by simp⟩
  rw [hs] at hmean hsum2
  have hw : windowOf 3 ((outlier k).map .push) = [1, 2, 3] := by rw [windowOf, hs, h1]
  refine ⟨c, c', _, rnd64 (5455043689272661 / 2199023255552 / rnd64 (rnd64 3 - rnd64 1)), hn, r, hmean (by simp [outlier]), ?_, ?_, ?_, hw, ?_, ?_⟩
  · have hk : sum c' 2 = .ok (5455043689272661 / 2199023255552) := by rw [← h3]; exact hsum2
    simp only [momentValue, hk, hc, hw]
    simp [Arith.b64, Arith.rounded]
  · rw [h2]; norm_num
  · decide +kernel
  · norm_num [Spec.mean]
  · decide +kernel

theorem arityErrors_pushes {F : Type} {n : Nat} {l : List (List F)} (h : ∀ x ∈ l, x.length = n) : JFP.arityErrors n (l.map MOp.push) = [] := by
  induction l with
  | nil => rfl
  | cons x l ih =>
    have hx := h x (by simp)
    have := ih fun y hy => h y (by simp [hy])
    simpa [JFP.arityErrors, okArity, hx] using this

/-- The points (2⁶⁰, 2⁶⁰), then (1, 3), (2, 2), (3, 1) repeated `k + 1` times. -/
def outliers (k : Nat) : List (List ℚ) := [[2 ^ 60, 2 ^ 60], [1, 3], [2, 2], [3, 1]] ++ (List.replicate k [[1, 3], [2, 2], [3, 1]]).flatten

/-- C109 fails for `Corr`, too: after the outlier the window of three only ever holds (1, 3), (2, 2), (3, 1), with correlation -1, and `Corr` is above
9/10 for ever. -/
theorem C109_corr_outlier_forever {sq : ℚ → ℚ} (hsq : ∀ q : ℚ, 0 ≤ q → |(sq q : ℝ) - √(q : ℝ)| ≤ ((1 / 2 ^ 53 : ℚ) : ℝ) * √(q : ℝ)) (k : Nat) :
    ∃ (c e : Joint.Core ℚ) (g : ℚ), JFP.newCore Arith.b64 ⟨some [[1, 1], [2, 0], [0, 2]], some 3, none, none⟩ = .val (.ok c) ∧
      JFP.run Arith.b64 c ((outliers k).map .push) = .val (e, []) ∧ JFP.corrValue Arith.b64 sq e = .ok g ∧ 9 / 10 ≤ g ∧
      windowOf 3 ((outliers k).map .push) = [[1, 3], [2, 2], [3, 1]] ∧ pearson (realPoints [[1, 3], [2, 2], [3, 1]]) = -1 := by
  have hl : ∀ x ∈ outliers k, x.length = 2 := by
    intro x hx
    simp only [outliers, List.mem_append, List.mem_flatten, List.mem_replicate] at hx
    rcases hx with hx | ⟨l, ⟨-, rfl⟩, hx⟩ <;>
    · simp only [List.mem_cons, List.not_mem_nil, or_false] at hx
      rcases hx with rfl | rfl | rfl | rfl <;> rfl
  have hs0 : since ((outliers k).map MOp.push) = outliers k := JFP.since_pushes _
  have hf : ((outliers k).map MOp.push).filter (okArity 2) = (outliers k).map MOp.push := JFP.filter_pushes hl
  have hw : windowOf 3 ((outliers k).map MOp.push) = [[1, 3], [2, 2], [3, 1]] := by
    rw [windowOf, hs0, outliers, flatten_lastN (by omega) (by decide +kernel)]
    decide +kernel
  obtain ⟨c, hn⟩ : ∃ c, JFP.newCore Arith.b64 ⟨some [[1, 1], [2, 0], [0, 2]], some 3, none, none⟩ = .val (.ok c) := by
    obtain ⟨c, hn⟩ := JFP.auto_newCore Arith.b64 true 3
    exact ⟨c, hn⟩
  obtain ⟨e, r, hcnt, -, h2, h11⟩ := joint_second rounding_rnd64 powOK64 (cfg := ⟨some [[1, 1], [2, 0], [0, 2]], some 3, none, none⟩) hn
    (JFP.auto_exp true 3) (noCollision_auto true 3) (w := 3) rfl (fun _ => noOverlap_auto) (by simp) (n := 2) rfl ((outliers k).map MOp.push)
  have hne : outliers k ≠ [] := by simp [outliers]
  rw [hf, hs0] at h2 h11
  have k20 := h2 0 (by omega) ⟨[2, 0], by simp, by decide⟩ hne
  have k02 := h2 1 (by omega) ⟨[0, 2], by simp, by decide⟩ hne
  have k11 := h11 0 1 (by omega) (by omega) ⟨[1, 1], by simp, by decide⟩ hne
  have he : JFP.arityErrors 2 ((outliers k).map MOp.push) = ([] : List Err) := arityErrors_pushes hl
  rw [he] at r
  have hm : memory2 Arith.b64 (fun a b => rnd64 (a * b)) 3 (JFP.pairs 0 0 1 (outliers k)) =
      ([(1, 3), (2, 2), (3, 1)], (3072768495757995 / 70368744177664, 5455043689272661 / 2199023255552), (43, 2646), 2562) := by
    have : JFP.pairs 0 0 1 (outliers k) = [(2 ^ 60, 2 ^ 60), (1, 3), (2, 2), (3, 1)] ++ (List.replicate k [((1 : ℚ), (3 : ℚ)), (2, 2), (3, 1)]).flatten := by
      simp [outliers, JFP.pairs, List.map_flatten]
    rw [this, memory2_cycle (by omega) (by decide +kernel)]
    decide +kernel
  simp only [memory2, memory, Prod.mk.injEq, JFP.pairs_fst, JFP.pairs_snd] at hm
  obtain ⟨-, ⟨-, m20⟩, ⟨-, m02⟩, m11⟩ := hm
  have k20' : JFP.sum e [2, 0] = .ok (5455043689272661 / 2199023255552) := by rw [← m20]; exact k20
  have k02' : JFP.sum e [0, 2] = .ok 2646 := by rw [← m02]; exact k02
  have k11' : JFP.sum e [1, 1] = .ok 2562 := by rw [← m11]; exact k11
  set q : ℚ := rnd64 (5455043689272661 / 2199023255552 * 2646) with hq
  have hq1 : (2500 : ℚ) ^ 2 ≤ q := by rw [hq]; decide +kernel
  have hq2 : q ≤ (2600 : ℚ) ^ 2 := by rw [hq]; decide +kernel
  refine ⟨c, e, rnd64 (2562 / sq q), hn, r, by simp only [JFP.corrValue, k11', k20', k02']; rfl, ?_, hw, ?_⟩
  · have r1 : (2500 : ℝ) ≤ √(q : ℝ) := Real.le_sqrt_of_sq_le (by exact_mod_cast hq1)
    have r2 : √(q : ℝ) ≤ 2600 := Real.sqrt_le_iff.2 ⟨by norm_num, by
      have := (Rat.cast_le (K := ℝ)).2 hq2
      push_cast at this
      exact this⟩
    have hs := abs_le.1 (hsq q (le_trans (by norm_num) hq1))
    have hu : ((1 / 2 ^ 53 : ℚ) : ℝ) ≤ 1 / 100 := by norm_num
    have hu' := mul_le_mul_of_nonneg_right hu (show 0 ≤ √(q : ℝ) by linarith)
    have l1 : (0 : ℚ) < sq q := by
      have : (0 : ℝ) < sq q := by linarith [hs.1]
      exact_mod_cast this
    have l2 : sq q ≤ 2626 := by
      have : (sq q : ℝ) ≤ 2626 := by linarith [hs.2]
      exact_mod_cast this
    have h8 : 9 / 10 ≤ rnd64 (95 / 100) := by decide +kernel
    refine h8.trans (rounding_rnd64.mono ?_)
    rw [le_div_iff₀ l1]
    norm_num
    linarith
  · rw [pearson_sums (by decide)]
    have c1 : crossSum 0 1 [[(1 : ℚ), 3], [2, 2], [3, 1]] = -2 := by decide +kernel
    have c2 : csum 2 (coord 0 [[(1 : ℚ), 3], [2, 2], [3, 1]]) = 2 := by decide +kernel
    have c3 : csum 2 (coord 1 [[(1 : ℚ), 3], [2, 2], [3, 1]]) = 2 := by decide +kernel
    rw [c1, c2, c3, Real.sqrt_mul_self (by norm_num)]
    norm_num

/-- The hypotheses hold for the values 4, 1, 3, 2, 7 and a window of four, with `M = 7`, `κ = 4`: `Std` is right up to a relative error of 10⁻⁹. -/
example : (∀ x ∈ since ([4, 1, 3, 2, 7].map (MOp.push (F := ℚ))), rnd64 x = x ∧ |x| ≤ 7) ∧
    (windowOf 4 ([4, 1, 3, 2, 7].map (MOp.push (F := ℚ)))).length = 4 ∧
    (7 : ℚ) ^ 2 ≤ 4 ^ 2 * popMoment 2 (windowOf 4 ([4, 1, 3, 2, 7].map (MOp.push (F := ℚ)))) ∧ driftOf 5 4 ≤ 1 / 100 ∧
    2 * driftOf 5 4 ≤ 1 / 10 ^ 10 ∧ PowSq (fun x k => rnd64 (x ^ k)) (1 / 2 ^ 53) (1 / 2 ^ 1075) 5 := by
  refine ⟨by decide +kernel, by decide +kernel, by decide +kernel, by decide +kernel, by decide +kernel, powSq64 (by norm_num)⟩

/-- And for the points (9, 9), (1, 2), (3, 1), (2, 5), (7, 4) and a window of four, with `M₁ = M₂ = 9`, `κ = 6`. -/
example : WinOK 0 4 9 6 [[9, 9], [1, 2], [3, 1], [2, 5], [7, 4]] ∧ WinOK 1 4 9 6 [[9, 9], [1, 2], [3, 1], [2, 5], [7, 4]] ∧
    (lastN 4 [[(9 : ℚ), 9], [1, 2], [3, 1], [2, 5], [7, 4]]).length = 4 ∧ driftOf 5 6 ≤ 1 / 100 ∧ 4 * driftOf 5 6 ≤ 1 / 10 ^ 9 := by
  refine ⟨⟨by decide +kernel, ?_, by decide +kernel⟩, ⟨by decide +kernel, ?_, by decide +kernel⟩, by decide +kernel, by decide +kernel, by decide +kernel⟩ <;>
  · intro x hx
    simp only [List.mem_cons, List.not_mem_nil, or_false] at hx
    rcases hx with rfl | rfl | rfl | rfl | rfl <;> exact ⟨by decide +kernel, by decide +kernel⟩

end Verif.Props
