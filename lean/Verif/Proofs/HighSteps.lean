import Verif.Proofs.HighMoments

/-! # Accuracy of the power sums of any order: runs -/

namespace Verif.FP
open Verif.Spec Verif.MathUtil
open Verif.Moment (Core Config)
open Finset (range)

section
variable {rnd : ℚ → ℚ} {pw : ℚ → Nat → ℚ} {u t : ℚ}

theorem term_delta (hE : Accuracy rnd u t) (P : PowAcc pw u t) (hu : 0 ≤ u) {M Q κ κ' δ δ' e f : ℚ} {k : Nat} (hQ : |κ| ≤ Q)
    (hκ : Near u κ κ' 1 e) (he : e * u ≤ 1 / 2) (hδ : Near u δ δ' (2 * M) f) (hf0 : 0 ≤ f) (hf : (2 * k * f + 3) * u ≤ 1)
    (ht : t ≤ u * (2 * M) ^ k / 2) :
    |rnd (κ' * pw δ' k) - κ * δ ^ k| ≤ Q * ((2 * k * f + 3) * (u * (2 * M) ^ k)) + (2 * e + 5) * (u * (2 * M) ^ k) := by
  have hM := hδ.nonneg
  have hpk : 0 ≤ (2 * M) ^ k := by positivity
  have huX := mul_nonneg hu hpk
  have h1 := hδ.power P hu hf0 (i := k) (by linarith) ht
  have h2 := mul_le_mul_of_nonneg_right hf hpk
  have := term_err hE hu hQ hκ he h1.bound h1.err (by linarith) (by rw [one_mul]; linarith)
  rwa [one_mul] at this

/-- No intermediate result of one step of `add` reaches `Ω`. -/
structure AddFits (rnd : ℚ → ℚ) (pw : ℚ → Nat → ℚ) (Ω n δ : ℚ) (s : Nat → ℚ) (k : Nat) : Prop where
  n0 : n ≠ 0
  p0 : pw n k ≠ 0
  c1 : |rnd (n - 1)| < Ω
  c2 : |pw n k| < Ω
  c3 : |rnd (rnd (n - 1) / pw n k)| < Ω
  c4 : |pw (rnd (n - 1)) (k - 1)| < Ω
  c5 : |rnd ((sign k : Int) : ℚ)| < Ω
  c6 : |rnd (pw (rnd (n - 1)) (k - 1) + rnd ((sign k : Int) : ℚ))| < Ω
  c7 : |rnd (rnd (rnd (n - 1) / pw n k) * rnd (pw (rnd (n - 1)) (k - 1) + rnd ((sign k : Int) : ℚ)))| < Ω
  c8 : |pw δ k| < Ω
  c9 : |rnd (rnd (rnd (rnd (n - 1) / pw n k) * rnd (pw (rnd (n - 1)) (k - 1) + rnd ((sign k : Int) : ℚ))) * pw δ k)| < Ω
  v : |rnd (δ / n)| < Ω
  term : ∀ i, 1 ≤ i → i + 2 ≤ k → |FP.coefV (Arith.rounded rnd pw) k i| < Ω ∧ |pw (rnd (δ / n)) i| < Ω ∧
    |rnd (FP.coefV (Arith.rounded rnd pw) k i * pw (rnd (δ / n)) i)| < Ω ∧
    |rnd (rnd (FP.coefV (Arith.rounded rnd pw) k i * pw (rnd (δ / n)) i) * s (k - i))| < Ω
  part : ∀ m ≤ k - 2, |foldV (fun x y => rnd (x + y)) (fun i => rnd (rnd (FP.coefV (Arith.rounded rnd pw) k i * pw (rnd (δ / n)) i) * s (k - i)))
    m 1 (rnd (s k + rnd (rnd (rnd (rnd (n - 1) / pw n k) * rnd (pw (rnd (n - 1)) (k - 1) + rnd ((sign k : Int) : ℚ))) * pw δ k)))| < Ω

/-- No intermediate result of one step of `addDecay` reaches `Ω`. -/
structure DecayFits (rnd : ℚ → ℚ) (pw : ℚ → Nat → ℚ) (Ω d δ : ℚ) (s : Nat → ℚ) (k : Nat) : Prop where
  c1 : |rnd (1 - d)| < Ω
  c2 : |pw (-d) k| < Ω
  c3 : |rnd (rnd (1 - d) * pw (-d) k)| < Ω
  c4 : |pw (rnd (1 - d)) k| < Ω
  c5 : |rnd (d * pw (rnd (1 - d)) k)| < Ω
  c6 : |rnd (rnd (rnd (1 - d) * pw (-d) k) + rnd (d * pw (rnd (1 - d)) k))| < Ω
  c7 : |pw δ k| < Ω
  c8 : |rnd (rnd (rnd (rnd (1 - d) * pw (-d) k) + rnd (d * pw (rnd (1 - d)) k)) * pw δ k)| < Ω
  c9 : |rnd (rnd (1 - d) * s k)| < Ω
  v : |rnd (d * δ)| < Ω
  term : ∀ i, 1 ≤ i → i + 2 ≤ k → |FP.coefV (Arith.rounded rnd pw) k i| < Ω ∧ |pw (rnd (d * δ)) i| < Ω ∧
    |rnd (FP.coefV (Arith.rounded rnd pw) k i * pw (rnd (d * δ)) i)| < Ω ∧
    |rnd (rnd (FP.coefV (Arith.rounded rnd pw) k i * pw (rnd (d * δ)) i) * rnd (1 - d))| < Ω ∧
    |rnd (rnd (rnd (FP.coefV (Arith.rounded rnd pw) k i * pw (rnd (d * δ)) i) * rnd (1 - d)) * s (k - i))| < Ω
  part : ∀ m ≤ k - 2, |foldV (fun x y => rnd (x + y)) (fun i => rnd (rnd (rnd (FP.coefV (Arith.rounded rnd pw) k i * pw (rnd (d * δ)) i) *
    rnd (1 - d)) * s (k - i))) m 1 (rnd (rnd (rnd (1 - d) * s k) +
      rnd (rnd (rnd (rnd (1 - d) * pw (-d) k) + rnd (d * pw (rnd (1 - d)) k)) * pw δ k)))| < Ω

theorem pow_le_one_add {a : ℚ} (ha : 0 ≤ a) {i k : Nat} (h : i ≤ k) : a ^ i ≤ 1 + a ^ k := by
  have hk : 0 ≤ a ^ k := by positivity
  rcases le_total a 1 with h1 | h1
  · have := pow_le_one₀ (n := i) ha h1
    linarith
  · have := pow_le_pow_right₀ h1 h
    linarith

theorem step_add (R : Rounding rnd) (hE : Accuracy rnd u t) (P : PowAcc pw u t) {M : ℚ} {N k : Nat} (S : Tiny u t M N k) (hk : 2 ≤ k)
    (hk20 : k ≤ 20) (hN : ∀ n : Nat, n ≤ N → rnd n = n) (hsm : errC k * u ≤ 2 ^ k) {n : Nat} (hn : 1 ≤ n) (hnN : n ≤ N) {δ δ' Φ : ℚ}
    (hδ : Near u δ δ' (2 * M) ((n : ℚ) / 4 + 5)) (hΦ : 0 ≤ Φ) (hΦn : Φ ≤ n * n) {s s' : Nat → ℚ}
    (hs : ∀ j, 2 ≤ j → j ≤ k → |s j| ≤ n * (2 * M) ^ j ∧ |s' j - s j| ≤ errC j * (Φ * u) * M ^ j ∧
      errC j * (Φ * u) * M ^ j ≤ n * (2 * M) ^ j) :
    |addV (Arith.rounded rnd pw) (n : ℚ) δ' s' k - Moment.addVal (n : ℚ) δ s (k - 2)| ≤
      errC k * (Φ * u) * M ^ k + n * (errC k * u) * M ^ k ∧
    ∀ Ω, 2 * (n : ℚ) ^ k < Ω → 4 * 2 ^ k * (n * (1 + (2 * M) ^ k)) < Ω → AddFits rnd pw Ω n δ' s' k := by
  have hu := S.u0
  have hu1 := S.u1
  have hM := S.M0
  have htu : t ≤ u / 2 := by simpa using S.tk 0 (by omega)
  have hn1 : (1 : ℚ) ≤ n := by exact_mod_cast hn
  have hn0 : (0 : ℚ) < n := by linarith
  have hM2 : 0 ≤ 2 * M := by linarith
  have hk' : (k : ℚ) ≤ 20 := by exact_mod_cast hk20
  have hk0 : (0 : ℚ) ≤ k := by positivity
  have hnu : (n : ℚ) * u ≤ 1 / 1024 := by
    refine le_trans (mul_le_mul_of_nonneg_right ?_ hu) S.Nu
    exact_mod_cast hnN
  have hpk : 0 ≤ (2 * M) ^ k := by positivity
  have huX := mul_nonneg hu hpk
  have hrn1 : rnd ((n : ℚ) - 1) = n - 1 := by
    have := hN (n - 1) (by omega)
    rwa [Nat.cast_sub hn, Nat.cast_one] at this
  obtain ⟨hκ, g1, g2, g3, g4, g5, g6⟩ := kappa_add R hE P S hk hn hnN
  have hδk := term_delta hE P hu hκ.bound hκ (by linarith) hδ (by positivity) (by
    have h1 := mul_le_mul_of_nonneg_right hk' (show 0 ≤ ((n : ℚ) / 4 + 5) * u by positivity)
    linarith) (S.tk k le_rfl)
  have hv : Near u (δ / n) (rnd (δ' / n)) (2 * M) 8 := by
    have h1 : Near u (δ / n) (δ' / n) (2 * M) 6 := by
      refine ⟨?_, ?_⟩
      · rw [abs_div, abs_of_pos hn0]
        exact (div_le_self (abs_nonneg _) hn1).trans hδ.bound
      · rw [← sub_div, abs_div, abs_of_pos hn0, div_le_iff₀ hn0]
        refine hδ.err.trans ?_
        have := mul_le_mul_of_nonneg_right (show (n : ℚ) / 4 + 5 ≤ 6 * n by linarith) (mul_nonneg hu hM2)
        linarith
    exact (h1.round hE hu (by linarith) (by simpa using S.tk 1 (by omega))).weaken hu (by norm_num)
  have hφ : ∀ i, 1 ≤ i → i + 2 ≤ k → |(k.choose i : ℚ) * (-1) ^ i * (δ / n) ^ i| ≤ k.choose i * (1 / n * (2 * M) ^ i) ∧
      Near u ((k.choose i : ℚ) * (-1) ^ i * (δ / n) ^ i)
        (rnd (FP.coefV (Arith.rounded rnd pw) k i * pw (rnd (δ' / n)) i)) (k.choose i * (2 * M) ^ i) (16 * i + 13) := by
    intro i h1 h2
    have hi' : (i : ℚ) ≤ 20 := by exact_mod_cast (show i ≤ 20 by omega)
    have hi0 : (0 : ℚ) ≤ i := by positivity
    have hiu := mul_le_mul_of_nonneg_right hi' hu
    have hc : (1 : ℚ) ≤ k.choose i := by exact_mod_cast Nat.choose_pos (show i ≤ k by omega)
    have hti := S.tk i (by omega)
    refine ⟨?_, ?_⟩
    · rw [abs_mul, abs_mul, abs_pow, abs_neg, abs_one, one_pow, mul_one, abs_of_nonneg (show (0 : ℚ) ≤ k.choose i by linarith), abs_pow,
        abs_div, abs_of_pos hn0, div_pow]
      refine mul_le_mul_of_nonneg_left ?_ (by linarith)
      rw [div_eq_mul_one_div, mul_comm]
      refine mul_le_mul ?_ (pow_le_pow_left₀ (abs_nonneg _) hδ.bound _) (by positivity) (by positivity)
      exact one_div_le_one_div_of_le hn0 (le_self_pow₀ hn1 (by omega))
    · rw [coefV_rounded (by omega) hk20]
      have a := near_coef hE hu htu (show i ≤ k by omega)
      have b := hv.power P hu (by norm_num) (i := i) (by linarith) hti
      have c := (a.mul hu (by norm_num) b (by linarith)).round hE hu (by linarith) (by
        have h3 := le_mul_of_one_le_left (show 0 ≤ (2 * M) ^ i by positivity) hc
        have := mul_le_mul_of_nonneg_left h3 hu
        linarith)
      exact c.weaken hu (by linarith)
  have hcore := step_high hE hu hu1 hk hk20 (W := n) (h := 1 / n) (g := 1) (a' := s' k) (s := s) (s' := s')
    (φ := fun i => (k.choose i : ℚ) * (-1) ^ i * (δ / n) ^ i)
    (φ' := fun i => rnd (FP.coefV (Arith.rounded rnd pw) k i * pw (rnd (δ' / n)) i))
    hM hn1 (by positivity) hΦ (by
      rw [one_div_mul_eq_div, div_le_iff₀ hn0]; exact hΦn) (by norm_num) le_rfl hsm (by
        have := S.tk k le_rfl
        linarith) hs hφ
    (by
      rw [one_mul, one_mul]
      have h1 := (hs k hk le_rfl).2.1
      have : 0 ≤ u * (n * (2 * M) ^ k) := by positivity
      linarith)
    (p := ((n : ℚ) - 1) / n ^ k * (((n : ℚ) - 1) ^ (k - 1) + (-1) ^ k) * δ ^ k)
    (by
      rw [abs_mul, abs_pow]
      have h1 := mul_le_mul hκ.bound (pow_le_pow_left₀ (abs_nonneg _) hδ.bound k) (by positivity) (by norm_num)
      have h2 := le_mul_of_one_le_left hpk hn1
      linarith)
    (hδk.trans (by
      have h1 := mul_le_mul_of_nonneg_right (show 1 * (2 * (k : ℚ) * (n / 4 + 5) + 3) + (2 * 14 + 5) ≤ (28 * k + 50) * n by
        have h1 : (k : ℚ) ≤ k * n := le_mul_of_one_le_right hk0 hn1
        linarith) huX
      linarith))
  rw [one_mul, one_mul] at hcore
  have e1 : addV (Arith.rounded rnd pw) (n : ℚ) δ' s' k =
      foldV (fun x y => rnd (x + y)) (fun i => rnd (rnd (FP.coefV (Arith.rounded rnd pw) k i * pw (rnd (δ' / n)) i) * s' (k - i))) (k - 2) 1
        (rnd (s' k + rnd (rnd (rnd (((n : ℚ) - 1) / pw n k) * rnd (pw ((n : ℚ) - 1) (k - 1) + rnd ((sign k : Int) : ℚ))) * pw δ' k))) := by
    unfold addV
    simp only [Arith.rounded, Int.cast_one, R.one, hrn1]
  have e2 : Moment.addVal (n : ℚ) δ s (k - 2) = s k + ((n : ℚ) - 1) / n ^ k * (((n : ℚ) - 1) ^ (k - 1) + (-1) ^ k) * δ ^ k +
      ∑ j ∈ range (k - 2), (k.choose (1 + j) : ℚ) * (-1) ^ (1 + j) * (δ / n) ^ (1 + j) * s (k - (1 + j)) := by
    unfold Moment.addVal
    rw [show k - 2 + 2 = k by omega, show k - 2 + 1 = k - 1 by omega]
    congr 1
    refine Finset.sum_congr rfl fun j hj => ?_
    have := Finset.mem_range.1 hj
    rw [Moment.coefV_eq (by omega) hk20, add_comm 1 j]
  rw [e1, e2]
  have h2k : (1 : ℚ) ≤ 2 ^ k := one_le_pow₀ (by norm_num)
  set Y := 1 + (2 * M) ^ k with hY
  have hY1 : 1 ≤ Y := by linarith
  have hnY : Y ≤ n * Y := le_mul_of_one_le_left (by linarith) hn1
  have h2Y : n * Y ≤ 2 ^ k * (n * Y) := le_mul_of_one_le_left (by linarith) h2k
  have hXY : 2 ^ k * (n * (2 * M) ^ k) ≤ 2 ^ k * (n * Y) :=
    mul_le_mul_of_nonneg_left (mul_le_mul_of_nonneg_left (by linarith) hn0.le) (by linarith)
  have h2kY : (2 : ℚ) ^ k * Y ≤ 2 ^ k * (n * Y) := mul_le_mul_of_nonneg_left hnY (by linarith)
  have hp2 : |((n : ℚ) - 1) / n ^ k * (((n : ℚ) - 1) ^ (k - 1) + (-1) ^ k) * δ ^ k| ≤ (2 * M) ^ k := by
    rw [abs_mul, abs_pow]
    have h1 := mul_le_mul hκ.bound (pow_le_pow_left₀ (abs_nonneg _) hδ.bound k) (by positivity) (by norm_num)
    linarith
  have hfu : (2 * (k : ℚ) * (n / 4 + 5) + 3) * u ≤ 1 := by
    have h1 := mul_le_mul_of_nonneg_right hk' (show 0 ≤ ((n : ℚ) / 4 + 5) * u by positivity)
    linarith
  have hδp := (hδ.power P hu (by positivity) (i := k) (by linarith) (S.tk k le_rfl)).le_two hfu
  have hp3 := abs_add_le (rnd (rnd (rnd (((n : ℚ) - 1) / pw n k) * rnd (pw ((n : ℚ) - 1) (k - 1) + rnd ((sign k : Int) : ℚ))) * pw δ' k) -
    ((n : ℚ) - 1) / n ^ k * (((n : ℚ) - 1) ^ (k - 1) + (-1) ^ k) * δ ^ k) (((n : ℚ) - 1) / n ^ k * (((n : ℚ) - 1) ^ (k - 1) + (-1) ^ k) * δ ^ k)
  rw [sub_add_cancel] at hp3
  have hp4 : 1 * ((2 * (k : ℚ) * (n / 4 + 5) + 3) * (u * (2 * M) ^ k)) + (2 * 14 + 5) * (u * (2 * M) ^ k) ≤ 3 / 2 * (2 * M) ^ k := by
    have h1 := mul_le_mul_of_nonneg_right hfu hpk
    have h2 := mul_le_mul_of_nonneg_right hu1 hpk
    linarith
  refine ⟨hcore.1, fun Ω hΩ1 hΩ2 => ⟨hn0.ne', g1.ne', ?_, by linarith, ?_, ?_, by linarith, ?_, ?_, by linarith, ?_, ?_, fun i h1 h2 => ?_,
    fun m hm => ?_⟩⟩
  · rw [hrn1, abs_of_nonneg (by linarith)]
    have : (n : ℚ) ≤ n ^ k := le_self_pow₀ hn1 (by omega)
    linarith
  · rw [hrn1]; linarith
  · rw [hrn1]; linarith
  · rw [hrn1]; linarith
  · rw [hrn1]
    have := hκ.le_two (by linarith)
    linarith
  · rw [hrn1]; linarith
  · have := hv.le_two (by linarith)
    have h3 : 2 * M ≤ Y := by simpa using pow_le_one_add hM2 (show 1 ≤ k by omega)
    linarith
  · have hi' : (i : ℚ) ≤ 20 := by exact_mod_cast (show i ≤ 20 by omega)
    have hiu := mul_le_mul_of_nonneg_right hi' hu
    have hYi : (2 * M) ^ i ≤ Y := pow_le_one_add hM2 (show i ≤ k by omega)
    have hc2 : (k.choose i : ℚ) ≤ 2 ^ k := by exact_mod_cast Nat.choose_le_two_pow k i
    have hc0 : (0 : ℚ) ≤ k.choose i := by positivity
    have hcY : (k.choose i : ℚ) * (2 * M) ^ i ≤ 2 ^ k * Y := mul_le_mul hc2 hYi (by positivity) (by linarith)
    have a1 := (near_coef hE hu htu (show i ≤ k by omega)).le_two (by linarith)
    rw [← coefV_rounded (rnd := rnd) (pw := pw) (show i ≤ k by omega) hk20] at a1
    have a2 := (hv.power P hu (by norm_num) (i := i) (by linarith) (S.tk i (by omega))).le_two (by linarith)
    have a3 := (hφ i h1 h2).2.le_two (by linarith)
    have a4 := hcore.2.2 i h1 h2
    have hc3 : (2 : ℚ) ^ k ≤ 2 ^ k * Y := le_mul_of_one_le_right (by linarith) hY1
    refine ⟨by linarith, by linarith, by linarith, by linarith⟩
  · rw [hrn1]
    have := hcore.2.1 m hm
    linarith

theorem step_decay (R : Rounding rnd) (hE : Accuracy rnd u t) (P : PowAcc pw u t) {M : ℚ} {N k : Nat} (S : Tiny u t M N k) (hk : 2 ≤ k)
    (hk20 : k ≤ 20) (hsm : errC k * u ≤ 2 ^ k) {d δ δ' Φ : ℚ} (hd0 : 0 < d) (hd1 : d ≤ 1) (hdu : u ≤ d / 480)
    (hδ : Near u δ δ' (2 * M) (4 / d)) (hΦ : 0 ≤ Φ) (hΦd : d * Φ ≤ 1) {s s' : Nat → ℚ}
    (hs : ∀ j, 2 ≤ j → j ≤ k → |s j| ≤ 1 * (2 * M) ^ j ∧ |s' j - s j| ≤ errC j * (Φ * u) * M ^ j ∧
      errC j * (Φ * u) * M ^ j ≤ 1 * (2 * M) ^ j) :
    |decayV (Arith.rounded rnd pw) d δ' s' k - Moment.decayVal d δ s (k - 2)| ≤
      (1 - d) * (errC k * (Φ * u) * M ^ k) + errC k * u * M ^ k ∧
    ∀ Ω, 4 * 2 ^ k * (1 + (2 * M) ^ k) < Ω → DecayFits rnd pw Ω d δ' s' k := by
  have hu := S.u0
  have hu1 := S.u1
  have hM := S.M0
  have htu : t ≤ u / 2 := by simpa using S.tk 0 (by omega)
  have hM2 : 0 ≤ 2 * M := by linarith
  have hk' : (k : ℚ) ≤ 20 := by exact_mod_cast hk20
  have hk0 : (0 : ℚ) ≤ k := by positivity
  have hpk : 0 ≤ (2 * M) ^ k := by positivity
  have huX := mul_nonneg hu hpk
  have hku := mul_le_mul_of_nonneg_right hk' hu
  have hdu' : 4 / d * u ≤ 1 / 120 := by
    rw [div_mul_eq_mul_div, div_le_iff₀ hd0]; linarith
  obtain ⟨hκ, hκd, g1, g2, g3, g4, g5⟩ := kappa_decay hE P S hk hk20 hd0 hd1
  have hδk := term_delta hE P hu hκd hκ (by linarith) hδ (by positivity) (by
    have h1 := mul_le_mul_of_nonneg_right hk' (show 0 ≤ 4 / d * u by positivity)
    linarith) (S.tk k le_rfl)
  have hb : Near u (1 - d) (rnd (1 - d)) 1 2 := by
    have := (Near.exact (u := u) (a := 1 - d) (B := 1) (by rw [abs_of_nonneg (by linarith)]; linarith)).round hE hu (by norm_num)
      (by linarith)
    simpa using this
  have hv : Near u (d * δ) (rnd (d * δ')) (2 * M) 8 := by
    have h1 : Near u (d * δ) (d * δ') (2 * M) 4 := by
      refine ⟨?_, ?_⟩
      · rw [abs_mul, abs_of_pos hd0]
        exact (mul_le_of_le_one_left (abs_nonneg _) hd1).trans hδ.bound
      · rw [← mul_sub, abs_mul, abs_of_pos hd0]
        refine (mul_le_mul_of_nonneg_left hδ.err hd0.le).trans (le_of_eq ?_)
        field_simp
    exact (h1.round hE hu (by linarith) (by simpa using S.tk 1 (by omega))).weaken hu (by norm_num)
  have hφ : ∀ i, 1 ≤ i → i + 2 ≤ k → |(k.choose i : ℚ) * (-1) ^ i * (d * δ) ^ i * (1 - d)| ≤ k.choose i * (d * (2 * M) ^ i) ∧
      Near u ((k.choose i : ℚ) * (-1) ^ i * (d * δ) ^ i * (1 - d))
        (rnd (rnd (FP.coefV (Arith.rounded rnd pw) k i * pw (rnd (d * δ')) i) * rnd (1 - d))) (k.choose i * (2 * M) ^ i) (16 * i + 13) := by
    intro i h1 h2
    have hi' : (i : ℚ) ≤ 20 := by exact_mod_cast (show i ≤ 20 by omega)
    have hi0 : (0 : ℚ) ≤ i := by positivity
    have hiu := mul_le_mul_of_nonneg_right hi' hu
    have hc : (1 : ℚ) ≤ k.choose i := by exact_mod_cast Nat.choose_pos (show i ≤ k by omega)
    have hti := S.tk i (by omega)
    have htc : t ≤ u * (k.choose i * (2 * M) ^ i) / 2 := by
      have h3 := le_mul_of_one_le_left (show 0 ≤ (2 * M) ^ i by positivity) hc
      have := mul_le_mul_of_nonneg_left h3 hu
      linarith
    refine ⟨?_, ?_⟩
    · rw [abs_mul, abs_mul, abs_mul, abs_pow, abs_neg, abs_one, one_pow, mul_one, abs_of_nonneg (show (0 : ℚ) ≤ k.choose i by linarith),
        abs_pow, abs_mul, abs_of_pos hd0, abs_of_nonneg (show 0 ≤ 1 - d by linarith), mul_pow, mul_assoc]
      refine mul_le_mul_of_nonneg_left ?_ (by linarith)
      refine (mul_le_of_le_one_right (by positivity) (by linarith)).trans ?_
      refine mul_le_mul ?_ (pow_le_pow_left₀ (abs_nonneg _) hδ.bound _) (by positivity) hd0.le
      exact pow_le_of_le_one hd0.le hd1 (by omega)
    · rw [coefV_rounded (by omega) hk20]
      have a := near_coef hE hu htu (show i ≤ k by omega)
      have b := hv.power P hu (by norm_num) (i := i) (by linarith) hti
      have c := (a.mul hu (by norm_num) b (by linarith)).round hE hu (by linarith) htc
      have c' := c.mul hu (by linarith) hb (by linarith)
      rw [mul_one] at c'
      have c'' := c'.round hE hu (by linarith) htc
      exact c''.weaken hu (by linarith)
  have hcore := step_high hE hu hu1 hk hk20 (W := 1) (h := d) (g := 1 - d) (a' := rnd (rnd (1 - d) * s' k)) (s := s) (s' := s')
    (φ := fun i => (k.choose i : ℚ) * (-1) ^ i * (d * δ) ^ i * (1 - d))
    (φ' := fun i => rnd (rnd (FP.coefV (Arith.rounded rnd pw) k i * pw (rnd (d * δ')) i) * rnd (1 - d)))
    hM le_rfl hd0.le hΦ hΦd (by linarith) (by linarith) hsm (by
        have := S.tk k le_rfl
        linarith) hs hφ
    (by
      obtain ⟨h1, h2, h3⟩ := hs k hk le_rfl
      rw [one_mul] at h1 h3
      have := term_err hE hu (show |1 - d| ≤ 1 - d by rw [abs_of_nonneg (by linarith)]) hb (by linarith) h1 h2 h3 (by
        rw [one_mul]
        have := S.tk k le_rfl
        linarith)
      rw [one_mul] at this ⊢
      linarith)
    (p := ((1 - d) * (-d) ^ k + d * (1 - d) ^ k) * δ ^ k)
    (by
      rw [abs_mul, abs_pow]
      have h1 := mul_le_mul hκ.bound (pow_le_pow_left₀ (abs_nonneg _) hδ.bound k) (by positivity) (by norm_num)
      linarith)
    (hδk.trans (by
      have h1 : d * (2 * (k : ℚ) * (4 / d) + 3) = 8 * k + 3 * d := by field_simp; ring
      have h2 := mul_le_mul_of_nonneg_right (show 8 * (k : ℚ) + 3 * d + (2 * (4 * k + 16) + 5) ≤ 28 * k + 50 by linarith) huX
      rw [← mul_assoc, h1]
      linarith))
  rw [one_mul] at hcore
  have e1 : decayV (Arith.rounded rnd pw) d δ' s' k =
      foldV (fun x y => rnd (x + y)) (fun i => rnd (rnd (rnd (FP.coefV (Arith.rounded rnd pw) k i * pw (rnd (d * δ')) i) * rnd (1 - d)) *
        s' (k - i))) (k - 2) 1 (rnd (rnd (rnd (1 - d) * s' k) +
        rnd (rnd (rnd (rnd (1 - d) * pw (-d) k) + rnd (d * pw (rnd (1 - d)) k)) * pw δ' k))) := by
    unfold decayV
    simp only [Arith.rounded, Int.cast_one, R.one]
  have e2 : Moment.decayVal d δ s (k - 2) = (1 - d) * s k + ((1 - d) * (-d) ^ k + d * (1 - d) ^ k) * δ ^ k +
      ∑ j ∈ range (k - 2), (k.choose (1 + j) : ℚ) * (-1) ^ (1 + j) * (d * δ) ^ (1 + j) * (1 - d) * s (k - (1 + j)) := by
    unfold Moment.decayVal
    rw [show k - 2 + 2 = k by omega]
    congr 1
    refine Finset.sum_congr rfl fun j hj => ?_
    have := Finset.mem_range.1 hj
    rw [Moment.coefV_eq (by omega) hk20, add_comm 1 j]
  rw [e1, e2]
  have h2k : (1 : ℚ) ≤ 2 ^ k := one_le_pow₀ (by norm_num)
  set Y := 1 + (2 * M) ^ k with hY
  have hY1 : 1 ≤ Y := by linarith
  have h2Y : Y ≤ 2 ^ k * Y := le_mul_of_one_le_left (by linarith) h2k
  have hXY : 2 ^ k * (2 * M) ^ k ≤ 2 ^ k * Y := mul_le_mul_of_nonneg_left (by linarith) (by linarith)
  have hp2 : |((1 - d) * (-d) ^ k + d * (1 - d) ^ k) * δ ^ k| ≤ (2 * M) ^ k := by
    rw [abs_mul, abs_pow]
    have h1 := mul_le_mul hκ.bound (pow_le_pow_left₀ (abs_nonneg _) hδ.bound k) (by positivity) (by norm_num)
    linarith
  have hfu : (2 * (k : ℚ) * (4 / d) + 3) * u ≤ 1 := by
    have h1 := mul_le_mul_of_nonneg_right hk' (show 0 ≤ 4 / d * u by positivity)
    linarith
  have hδp := (hδ.power P hu (by positivity) (i := k) (by linarith) (S.tk k le_rfl)).le_two hfu
  have hp3 := abs_add_le (rnd (rnd (rnd (rnd (1 - d) * pw (-d) k) + rnd (d * pw (rnd (1 - d)) k)) * pw δ' k) -
    ((1 - d) * (-d) ^ k + d * (1 - d) ^ k) * δ ^ k) (((1 - d) * (-d) ^ k + d * (1 - d) ^ k) * δ ^ k)
  rw [sub_add_cancel] at hp3
  have hp4 : d * ((2 * (k : ℚ) * (4 / d) + 3) * (u * (2 * M) ^ k)) + (2 * (4 * k + 16) + 5) * (u * (2 * M) ^ k) ≤ 3 / 2 * (2 * M) ^ k := by
    have h1 := mul_le_mul_of_nonneg_right hfu hpk
    have h2 := mul_le_mul_of_nonneg_right hu1 hpk
    have h3 := mul_le_mul_of_nonneg_right hk' huX
    have h4 : d * ((2 * (k : ℚ) * (4 / d) + 3) * (u * (2 * M) ^ k)) ≤ 1 * ((2 * (k : ℚ) * (4 / d) + 3) * (u * (2 * M) ^ k)) :=
      mul_le_mul_of_nonneg_right hd1 (by positivity)
    linarith
  have hsk : |rnd (rnd (1 - d) * s' k)| ≤ 4 * (2 * M) ^ k := by
    obtain ⟨h1, h2, h3⟩ := hs k hk le_rfl
    rw [one_mul] at h1 h3
    have h4 := term_err hE hu (show |1 - d| ≤ 1 by rw [abs_of_nonneg (by linarith)]; linarith) hb (by linarith) h1 h2 h3 (by
      rw [one_mul]
      have := S.tk k le_rfl
      linarith)
    rw [one_mul] at h4
    have h5 := abs_add_le (rnd (rnd (1 - d) * s' k) - (1 - d) * s k) ((1 - d) * s k)
    rw [sub_add_cancel, abs_mul, abs_of_nonneg (show 0 ≤ 1 - d by linarith)] at h5
    have h6 : (1 - d) * |s k| ≤ 1 * |s k| := mul_le_mul_of_nonneg_right (by linarith) (abs_nonneg _)
    have h7 := mul_le_mul_of_nonneg_right hu1 hpk
    linarith
  refine ⟨hcore.1, fun Ω hΩ => ⟨by linarith, by linarith, by linarith, by linarith, by linarith, ?_, by linarith, by linarith, by linarith, ?_,
    fun i h1 h2 => ?_, fun m hm => ?_⟩⟩
  · have := hκ.le_two (by linarith)
    linarith
  · have := hv.le_two (by linarith)
    have h3 : 2 * M ≤ Y := by simpa using pow_le_one_add hM2 (show 1 ≤ k by omega)
    linarith
  · have hi' : (i : ℚ) ≤ 20 := by exact_mod_cast (show i ≤ 20 by omega)
    have hiu := mul_le_mul_of_nonneg_right hi' hu
    have hYi : (2 * M) ^ i ≤ Y := pow_le_one_add hM2 (show i ≤ k by omega)
    have hc2 : (k.choose i : ℚ) ≤ 2 ^ k := by exact_mod_cast Nat.choose_le_two_pow k i
    have hc0 : (0 : ℚ) ≤ k.choose i := by positivity
    have hc1 : (1 : ℚ) ≤ k.choose i := by exact_mod_cast Nat.choose_pos (show i ≤ k by omega)
    have hcY : (k.choose i : ℚ) * (2 * M) ^ i ≤ 2 ^ k * Y := mul_le_mul hc2 hYi (by positivity) (by linarith)
    have a := near_coef hE hu htu (show i ≤ k by omega)
    have a1 := a.le_two (by linarith)
    have b := hv.power P hu (by norm_num) (i := i) (by linarith) (S.tk i (by omega))
    have a2 := b.le_two (by linarith)
    have c := ((a.mul hu (by norm_num) b (by linarith)).round hE hu (by linarith) (by
      have h3 := le_mul_of_one_le_left (show 0 ≤ (2 * M) ^ i by positivity) hc1
      have := mul_le_mul_of_nonneg_left h3 hu
      linarith [S.tk i (by omega)])).le_two (by linarith)
    rw [← coefV_rounded (rnd := rnd) (pw := pw) (show i ≤ k by omega) hk20] at a1 c
    have a3 := (hφ i h1 h2).2.le_two (by linarith)
    have a4 := hcore.2.2 i h1 h2
    have hc3 : (2 : ℚ) ^ k ≤ 2 ^ k * Y := le_mul_of_one_le_right (by linarith) hY1
    rw [one_mul] at a4
    refine ⟨by linarith, by linarith, by linarith, by linarith, by linarith⟩
  · have := hcore.2.1 m hm
    rw [one_mul] at this
    linarith

theorem abs_csum_le {M : ℚ} (hM : 0 ≤ M) {xs : List ℚ} (h : ∀ x ∈ xs, |x| ≤ M) (j : Nat) : |csum j xs| ≤ xs.length * (2 * M) ^ j := by
  have hμ := abs_mean_le hM h
  unfold csum
  generalize Spec.mean xs = μ at hμ
  induction xs with
  | nil => simp
  | cons x xs ih =>
    have h1 := ih (fun y hy => h y (by simp [hy]))
    have hx : |x - μ| ≤ 2 * M := by
      have := abs_sub x μ
      linarith [h x (by simp)]
    have h2 := abs_add_le ((x - μ) ^ j) (xs.map fun x => (x - μ) ^ j).sum
    have h3 : |(x - μ) ^ j| ≤ (2 * M) ^ j := by rw [abs_pow]; exact pow_le_pow_left₀ (abs_nonneg _) hx _
    simp only [List.map_cons, List.sum_cons, List.length_cons]
    push_cast
    linarith

theorem abs_ewTotal_le {d C : ℚ} (hd0 : 0 ≤ d) (hd1 : d ≤ 1) (hC : 0 ≤ C) {f : ℚ → ℚ} {xs : List ℚ} (h : ∀ x ∈ xs, |f x| ≤ C) :
    |ewTotal d f xs| ≤ C := by
  rw [Moment.ewTotal_pairs]
  induction xs using List.reverseRecOn with
  | nil => simpa [Moment.pairs] using hC
  | append_singleton xs x ih =>
    by_cases hnil : xs = []
    · subst hnil
      rw [List.nil_append, Moment.pairs_one]
      simpa using h x (by simp)
    · rw [Moment.pairs_snoc d hnil, List.map_append, List.sum_append]
      have h1 := ih (fun y hy => h y (by simp [hy]))
      have e : ∀ ps : List (ℚ × ℚ), ((ps.map fun p => ((1 - d) * p.1, p.2)).map fun p => p.1 * f p.2).sum =
          (1 - d) * (ps.map fun p => p.1 * f p.2).sum := by
        intro ps
        induction ps with
        | nil => simp
        | cons p ps ih => simp only [List.map_cons, List.sum_cons, ih]; ring
      rw [e]
      simp only [List.map_cons, List.map_nil, List.sum_cons, List.sum_nil, add_zero]
      have h2 := abs_add_le ((1 - d) * ((Moment.pairs d xs).map fun p => p.1 * f p.2).sum) (d * f x)
      rw [abs_mul, abs_mul, abs_of_nonneg (show 0 ≤ 1 - d by linarith), abs_of_nonneg hd0] at h2
      have h3 := mul_le_mul_of_nonneg_left h1 (show 0 ≤ 1 - d by linarith)
      have h4 := mul_le_mul_of_nonneg_left (h x (by simp)) hd0
      linarith

theorem abs_ewMean_le {d M : ℚ} (hd0 : 0 ≤ d) (hd1 : d ≤ 1) (hM : 0 ≤ M) {xs : List ℚ} (h : ∀ x ∈ xs, |x| ≤ M) : |ewMean d xs| ≤ M :=
  abs_ewTotal_le hd0 hd1 hM h

theorem abs_ewMoment_le {d M : ℚ} (hd0 : 0 ≤ d) (hd1 : d ≤ 1) (hM : 0 ≤ M) {xs : List ℚ} (h : ∀ x ∈ xs, |x| ≤ M) (j : Nat) :
    |ewMoment d j xs| ≤ (2 * M) ^ j := by
  have hμ := abs_ewMean_le hd0 hd1 hM h
  refine abs_ewTotal_le hd0 hd1 (by positivity) fun x hx => ?_
  rw [abs_pow]
  refine pow_le_pow_left₀ (abs_nonneg _) ?_ _
  have := abs_sub x (ewMean d xs)
  linarith [h x hx]

/-- The difference to the running mean, from the error bound of the mean. -/
theorem near_delta (hE : Accuracy rnd u t) {M : ℚ} {N k : Nat} (S : Tiny u t M N k) {n : Nat} (hnN : n + 1 ≤ N) {m μ x : ℚ} (hx : |x| ≤ M)
    (hm : |m| ≤ M) (hμ : |μ| ≤ M) (h0 : n = 0 → m = μ) (h : n * |m - μ| ≤ meanErr u t M n) :
    Near u (x - μ) (rnd (x - m)) (2 * M) (((n + 1 : Nat) : ℚ) / 4 + 5) := by
  have hu := S.u0
  have hM := S.M0
  have huM : 0 ≤ u * M := mul_nonneg hu hM
  have hnu : ((n : ℚ) + 1) * u ≤ 1 / 1024 := by
    refine le_trans (mul_le_mul_of_nonneg_right ?_ hu) S.Nu
    exact_mod_cast hnN
  have hu1 := S.u1
  have ht1 : t ≤ u * (u * M) := by linarith [S.tM]
  have ht2 : t ≤ u * M / 1024 := by
    have := mul_le_mul_of_nonneg_right hu1 huM
    linarith
  have he : |m - μ| ≤ ((n : ℚ) / 2 + 7) * (u * M) := by
    rcases Nat.eq_zero_or_pos n with hn | hn
    · rw [h0 hn, sub_self, abs_zero]; positivity
    · have hn0 : (0 : ℚ) < n := by exact_mod_cast hn
      rw [mul_comm, ← le_div_iff₀ hn0] at h
      refine h.trans ?_
      rw [div_le_iff₀ hn0]
      unfold meanErr
      have hnt : (n : ℚ) * t ≤ u * M / 1024 := by
        have a := mul_le_mul_of_nonneg_left ht1 hn0.le
        have b : (n : ℚ) * u ≤ 1 / 1024 := by linarith
        have := mul_le_mul_of_nonneg_right b huM
        linarith
      have huuM : u * u * M ≤ u * M / 1024 := by
        have := mul_le_mul_of_nonneg_right hu1 huM
        linarith
      have hut : u * t ≤ u * M / 1024 := by
        have := mul_le_mul_of_nonneg_right hu1 S.t0
        linarith [S.t0]
      have k1 : (u * M + 2 * t) * (((n : ℚ) + 1) / 2) ≤ ((n : ℚ) / 2 + 6 / 10) * (u * M) := by linarith
      have := mul_le_mul_of_nonneg_left k1 hn0.le
      have k2 : 4 * (u * M) + 2 * (u * u * M) + u * t + t ≤ 5 * (u * M) := by linarith
      have := mul_le_mul_of_nonneg_left k2 hn0.le
      have : 0 ≤ (n : ℚ) * (u * M) := by positivity
      linarith
  refine ⟨(abs_sub _ _).trans (by linarith), ?_⟩
  have h1 := hE (x - m)
  have h3 := abs_add_le (rnd (x - m) - (x - m)) (-(m - μ))
  rw [show rnd (x - m) - (x - m) + -(m - μ) = rnd (x - m) - (x - μ) by ring, abs_neg] at h3
  have h4 : |x - m| ≤ 2 * M := (abs_sub _ _).trans (by linarith)
  have h5 := mul_le_mul_of_nonneg_left h4 hu
  push_cast
  linarith

/-- One push to a core without eviction. -/
theorem high_step (R : Rounding rnd) (hE : Accuracy rnd u t) {N k : Nat} (hN : ∀ n : Nat, n ≤ N → rnd n = n) {M : ℚ} (S : Tiny u t M N k)
    (P : PowAcc pw u t) (hk : k ≤ 20) (hsm : errC k * (N * u) ≤ 2 ^ k) {len : Nat} {xs : List ℚ} {x m : ℚ} {s : Nat → ℚ}
    (hlN : xs.length + 1 ≤ N) (hxs : ∀ y ∈ xs ++ [x], rnd y = y ∧ |y| ≤ M)
    (hI1 : (xs = [] → m = 0) ∧ |m| ≤ M ∧ xs.length * |m - Spec.mean xs| ≤ meanErr u t M xs.length)
    (hs : ∀ j, 2 ≤ j → j ≤ k → j < len → |s j - csum j xs| ≤ errC j * ((xs.length : ℚ) * xs.length * u) * M ^ j) {j : Nat} (hj : 2 ≤ j)
    (hjk : j ≤ k) (hjl : j < len) :
    |addV (Arith.rounded rnd pw) ((xs.length + 1 : Nat) : ℚ) (rnd (x - m)) s j - csum j (xs ++ [x])| ≤
      errC j * (((xs ++ [x]).length : ℚ) * (xs ++ [x]).length * u) * M ^ j ∧
    ∀ Ω, 2 * ((xs.length + 1 : Nat) : ℚ) ^ j < Ω → 4 * 2 ^ j * (((xs.length + 1 : Nat) : ℚ) * (1 + (2 * M) ^ j)) < Ω →
      AddFits rnd pw Ω ((xs.length + 1 : Nat) : ℚ) (rnd (x - m)) s j := by
  have hl : (xs ++ [x]).length = xs.length + 1 := by simp
  have hx1 : ∀ y ∈ xs, rnd y = y ∧ |y| ≤ M := fun y hy => hxs y (by simp [hy])
  obtain ⟨hm0, hma, herr⟩ := hI1
  have hx := (hxs x (by simp)).2
  have hu := S.u0
  have hM0 := S.M0
  have hμ := abs_mean_le hM0 (fun y hy => (hx1 y hy).2)
  have hδ := near_delta hE S hlN hx hma hμ (fun h => by
    rw [List.length_eq_zero_iff] at h
    rw [hm0 h, h]; simp [Spec.mean]) herr
  have Sj : Tiny u t M N j := ⟨S.u0, S.t0, S.u1, S.Nu, S.M0, S.tM, fun i hi => S.tk i (by omega), by
    rcases Nat.eq_zero_or_pos N with h0 | h0
    · subst h0; omega
    · have h1 : (N : ℚ) ^ j ≤ N ^ k := pow_le_pow_right₀ (by exact_mod_cast h0) hjk
      exact (mul_le_mul_of_nonneg_left h1 S.t0).trans S.tN⟩
  have hN1 : (1 : ℚ) ≤ N := by exact_mod_cast (show 1 ≤ N by omega)
  have hNu : 0 ≤ (N : ℚ) * u := by positivity
  have hn0 : (0 : ℚ) ≤ xs.length := by positivity
  have hsm' : ∀ i, 2 ≤ i → i ≤ k → errC i * (N * u) ≤ 2 ^ i := fun i h1 h2 => errC_mono h1 h2 hsm hNu
  have hstep := step_add R hE P Sj hj (by omega) hN (by
      refine le_trans (mul_le_mul_of_nonneg_left (le_mul_of_one_le_left hu hN1) (errC_nonneg j)) (hsm' j hj hjk))
    (n := xs.length + 1) (by omega) hlN hδ (Φ := (xs.length : ℚ) * xs.length) (by positivity)
    (by push_cast; exact mul_le_mul (by linarith) (by linarith) hn0 (by linarith)) (s := fun i => csum i xs) (s' := s)
    (fun i h1 h2 => by
      refine ⟨?_, hs i h1 (by omega) (by omega), ?_⟩
      · refine (abs_csum_le hM0 (fun y hy => (hx1 y hy).2) i).trans ?_
        exact mul_le_mul_of_nonneg_right (by push_cast; linarith) (by positivity)
      · have h3 := hsm' i h1 (by omega)
        have h4 : errC i * (xs.length * u) ≤ 2 ^ i := by
          refine le_trans (mul_le_mul_of_nonneg_left (mul_le_mul_of_nonneg_right ?_ hu) (errC_nonneg i)) h3
          exact_mod_cast (show xs.length ≤ N by omega)
        have h5 := mul_le_mul_of_nonneg_right h4 (show 0 ≤ (xs.length : ℚ) * M ^ i by positivity)
        have h6 : 0 ≤ 2 ^ i * M ^ i := by positivity
        rw [mul_pow]
        push_cast
        linarith)
  refine ⟨?_, fun Ω h1 h2 => hstep.2 Ω h1 h2⟩
  have hex := Moment.csum_snoc' xs x (j - 2) (by omega)
  rw [show j - 2 + 2 = j by omega] at hex
  have hst := hstep.1
  push_cast at hst hex ⊢
  rw [hex]
  refine hst.trans ?_
  rw [hl]
  have hC := errC_nonneg j
  have : 0 ≤ (xs.length : ℚ) * (errC j * u * M ^ j) := by positivity
  push_cast
  linarith

/-- The power sums of a core without eviction are accurate. -/
theorem track_high_err (R : Rounding rnd) (hE : Accuracy rnd u t) {N k : Nat} (hN : ∀ n : Nat, n ≤ N → rnd n = n) {M : ℚ} (S : Tiny u t M N k)
    (P : PowAcc pw u t) (hk : k ≤ 20) (hsm : errC k * (N * u) ≤ 2 ^ k) (hM : rnd M = M) (len : Nat) :
    Track (Arith.rounded rnd pw) 0 none len
      (fun xs m s => (xs.length ≤ N → (∀ x ∈ xs, rnd x = x ∧ |x| ≤ M) →
        (xs = [] → m = 0) ∧ |m| ≤ M ∧ xs.length * |m - Spec.mean xs| ≤ meanErr u t M xs.length) ∧
        (xs.length ≤ N → (∀ x ∈ xs, rnd x = x ∧ |x| ≤ M) → ∀ j, 2 ≤ j → j ≤ k → j < len →
          |s j - csum j xs| ≤ errC j * ((xs.length : ℚ) * xs.length * u) * M ^ j))
      (fun xs m s => (xs.length ≤ N → (∀ x ∈ xs, rnd x = x ∧ |x| ≤ M) →
        (xs = [] → m = 0) ∧ |m| ≤ M ∧ xs.length * |m - Spec.mean xs| ≤ meanErr u t M xs.length) ∧
        (xs.length ≤ N → (∀ x ∈ xs, rnd x = x ∧ |x| ≤ M) → ∀ j, 2 ≤ j → j ≤ k → j < len →
          |s j - csum j xs| ≤ errC j * ((xs.length : ℚ) * xs.length * u) * M ^ j)) where
  zero := ⟨(track_mean_err (pw := pw) R hE S.u0 S.t0 hN hM S.M0 len).zero, fun _ _ j _ _ _ => by simp [Arith.rounded, R.zero, csum]⟩
  room := fun _ _ _ _ h => h
  evict1 := fun _ _ _ h => absurd h (by norm_num)
  evict := fun _ _ _ _ _ _ _ _ h => absurd h (by omega)
  decay := fun _ h => absurd h (by simp)
  add := fun hd xs x m s m' s' hI hr => by
    refine ⟨(track_mean_err R hE S.u0 S.t0 hN hM S.M0 len).add hd xs x m s m' s' hI.1 hr, fun hlN hxs j hj hjk hjl => ?_⟩
    have hl : (xs ++ [x]).length = xs.length + 1 := by simp
    have hx1 : ∀ y ∈ xs, rnd y = y ∧ |y| ≤ M := fun y hy => hxs y (by simp [hy])
    have h2 := hr.2 j
    rw [if_pos ⟨hj, hjl⟩, lastN_zero, hl] at h2
    rw [hl] at hlN
    have hof : (Arith.rounded rnd pw).ofInt ((xs.length + 1 : Nat) : Int) = ((xs.length + 1 : Nat) : ℚ) := by
      show rnd ((((xs.length + 1 : Nat) : Int)) : ℚ) = _
      rw [Int.cast_natCast]
      exact hN _ hlN
    rw [hof] at h2
    rw [h2]
    exact (high_step R hE hN S P hk hsm hlN hxs (hI.1 (by omega) hx1) (hI.2 (by omega) hx1) hj hjk hjl).1

/-- One push to an exponentially weighted core. -/
theorem high_ew_step (R : Rounding rnd) (hE : Accuracy rnd u t) {k : Nat} {M : ℚ} (S : Tiny u t M 1 k)
    (P : PowAcc pw u t) (hk2 : 2 ≤ k) (hk : k ≤ 20) {d : ℚ} (hd0 : 0 < d) (hd1 : d < 1) (hsm : errC k * (u / d) ≤ 2 ^ k)
    {len : Nat} {xs : List ℚ} {x m : ℚ} {s : Nat → ℚ} (hxs : ∀ y ∈ xs ++ [x], rnd y = y ∧ |y| ≤ M)
    (hI1 : (xs = [] → m = 0) ∧ |m| ≤ M ∧ d * |m - ewMean d xs| ≤ u * M + 2 * t + d * (4 * (u * M) + 2 * (u * u * M) + u * t + t))
    (hs : ∀ j, 2 ≤ j → j ≤ k → j < len → |s j - ewMoment d j xs| ≤ errC j * ((if xs = [] then 0 else 1 / d) * u) * M ^ j) {j : Nat}
    (hj : 2 ≤ j) (hjk : j ≤ k) (hjl : j < len) :
    |decayV (Arith.rounded rnd pw) (if xs = [] then 1 else d) (rnd (x - m)) s j - ewMoment d j (xs ++ [x])| ≤
      errC j * ((if xs ++ [x] = [] then 0 else 1 / d) * u) * M ^ j ∧
    ∀ Ω, 4 * 2 ^ j * (1 + (2 * M) ^ j) < Ω → DecayFits rnd pw Ω (if xs = [] then 1 else d) (rnd (x - m)) s j := by
  have hx1 : ∀ y ∈ xs, rnd y = y ∧ |y| ≤ M := fun y hy => hxs y (by simp [hy])
  obtain ⟨hm0, hma, herr⟩ := hI1
  obtain ⟨hrx, hx⟩ := hxs x (by simp)
  have hu := S.u0
  have hM0 := S.M0
  have hu1 := S.u1
  have huM : 0 ≤ u * M := mul_nonneg hu hM0
  have hμ := abs_ewMean_le hd0.le hd1.le hM0 (fun y hy => (hx1 y hy).2)
  have Sj : Tiny u t M 1 j := ⟨S.u0, S.t0, S.u1, S.Nu, S.M0, S.tM, fun i hi => S.tk i (by omega), by
    have := S.tN
    simpa using this⟩
  have hud : 0 ≤ u / d := div_nonneg hu hd0.le
  have hsm' : ∀ i, 2 ≤ i → i ≤ k → errC i * (u / d) ≤ 2 ^ i := fun i h1 h2 => errC_mono h1 h2 hsm hud
  have hudu : u ≤ u / d := by rw [le_div_iff₀ hd0]; exact mul_le_of_le_one_right hu hd1.le
  have hsu : errC j * u ≤ 2 ^ j := (mul_le_mul_of_nonneg_left hudu (errC_nonneg j)).trans (hsm' j hj hjk)
  have hd480 : u ≤ d / 480 := by
    have h3 := hsm' 2 le_rfl hk2
    have h4 := mul_le_mul_of_nonneg_right (errC_ge 2) hud
    have h5 : u / d ≤ 1 / 480 := by norm_num at h3 h4; linarith
    rw [div_le_iff₀ hd0] at h5
    linarith
  have hne : xs ++ [x] ≠ [] := by simp
  rw [if_neg hne]
  have hC := errC_nonneg j
  have hMj : 0 ≤ M ^ j := by positivity
  have ht1 : t ≤ u * M / 4096 := by
    have := mul_le_mul_of_nonneg_right hu1 huM
    linarith [S.tM]
  have huuM : u * u * M ≤ u * M / 4096 := by
    have := mul_le_mul_of_nonneg_right hu1 huM
    linarith
  have hut : u * t ≤ u * M / 4096 := by
    have := mul_le_mul_of_nonneg_right hu1 S.t0
    linarith [S.t0]
  have hxm : |rnd (x - m) - (x - m)| ≤ 2 * (u * M) + t := by
    have h4 : |x - m| ≤ 2 * M := (abs_sub _ _).trans (by linarith)
    have h5 := mul_le_mul_of_nonneg_left h4 hu
    linarith [hE (x - m)]
  have h3 := abs_add_le (rnd (x - m) - (x - m)) (-(m - ewMean d xs))
  rw [show rnd (x - m) - (x - m) + -(m - ewMean d xs) = rnd (x - m) - (x - ewMean d xs) by ring, abs_neg] at h3
  have hb : |x - ewMean d xs| ≤ 2 * M := (abs_sub _ _).trans (by linarith)
  by_cases hnil : xs = []
  · subst hnil
    have hμ0 : ewMean d ([] : List ℚ) = 0 := by simp [ewMean, ewTotal]
    rw [if_pos rfl]
    have hδ : Near u (x - ewMean d []) (rnd (x - m)) (2 * M) (4 / 1) := by
      refine ⟨hb, ?_⟩
      rw [hm0 rfl, hμ0, sub_self, abs_zero, add_zero] at h3
      rw [hm0 rfl] at hxm ⊢
      rw [hμ0]
      linarith
    have hstep := step_decay R hE P Sj hj (by omega) hsu one_pos le_rfl (by linarith) hδ (Φ := 0) le_rfl (by norm_num)
      (s := fun _ => 0) (s' := s) (fun i h4 h5 => by
        have := hs i h4 (by omega) (by omega)
        have e : ewMoment d i ([] : List ℚ) = 0 := by simp [ewMoment, ewTotal]
        rw [e, if_pos rfl] at this
        have hp : 0 ≤ (2 * M) ^ i := by positivity
        refine ⟨by simpa using hp, this, by simpa using hp⟩)
    have e1 : ewMoment d j ([] ++ [x]) = 0 := by
      rw [List.nil_append, Moment.ewMoment_eq, Moment.ewMean_one, Moment.pairs_one]
      simp [Moment.wsum]
      omega
    have e2 : Moment.decayVal (1 : ℚ) (x - ewMean d []) (fun _ => 0) (j - 2) = 0 := by
      simp [Moment.decayVal]
    rw [e2] at hstep
    rw [e1]
    refine ⟨hstep.1.trans ?_, hstep.2⟩
    rw [one_div_mul_eq_div]
    have := mul_le_mul_of_nonneg_right (mul_le_mul_of_nonneg_left hudu hC) hMj
    linarith
  · rw [if_neg hnil]
    have hδ : Near u (x - ewMean d xs) (rnd (x - m)) (2 * M) (4 / d) := by
      refine ⟨hb, ?_⟩
      rw [div_mul_eq_mul_div, le_div_iff₀ hd0]
      have h4 := mul_le_mul_of_nonneg_left h3 hd0.le
      have h5 := mul_le_mul_of_nonneg_left hxm hd0.le
      have h6 : d * (4 * (u * M) + 2 * (u * u * M) + u * t + t + (2 * (u * M) + t)) ≤ 1 * (13 / 2 * (u * M)) :=
        mul_le_mul hd1.le (by linarith) (by have := S.t0; positivity) (by norm_num)
      linarith
    have hstep := step_decay R hE P Sj hj (by omega) hsu hd0 hd1.le hd480 hδ (Φ := 1 / d) (by positivity)
      (by rw [mul_one_div_cancel hd0.ne']) (s := fun i => ewMoment d i xs) (s' := s) (fun i h4 h5 => by
        have h6 := hs i h4 (by omega) (by omega)
        rw [if_neg hnil] at h6
        refine ⟨by rw [one_mul]; exact abs_ewMoment_le hd0.le hd1.le hM0 (fun y hy => (hx1 y hy).2) i, h6, ?_⟩
        rw [one_mul, mul_pow, one_div_mul_eq_div]
        exact mul_le_mul_of_nonneg_right (hsm' i h4 (by omega)) (by positivity))
    have hex := Moment.ewMoment_snoc d hnil x (j - 2) (by omega)
    rw [show j - 2 + 2 = j by omega] at hex
    rw [hex]
    refine ⟨hstep.1.trans (le_of_eq ?_), hstep.2⟩
    field_simp
    ring


/-- The exponentially weighted power sums are accurate, uniformly in the number of values. -/
theorem track_high_ew_err (R : Rounding rnd) (hE : Accuracy rnd u t) {k : Nat} {M : ℚ} (S : Tiny u t M 1 k)
    (P : PowAcc pw u t) (hk2 : 2 ≤ k) (hk : k ≤ 20) {d : ℚ} (hd : rnd d = d) (hd0 : 0 < d) (hd1 : d < 1) (hsm : errC k * (u / d) ≤ 2 ^ k)
    (hM : rnd M = M) (len : Nat) :
    Track (Arith.rounded rnd pw) 0 (some d) len
      (fun xs m s => ((∀ x ∈ xs, rnd x = x ∧ |x| ≤ M) → rnd m = m ∧ (xs = [] → m = 0) ∧ |m| ≤ M ∧
        d * |m - ewMean d xs| ≤ u * M + 2 * t + d * (4 * (u * M) + 2 * (u * u * M) + u * t + t)) ∧
        ((∀ x ∈ xs, rnd x = x ∧ |x| ≤ M) → ∀ j, 2 ≤ j → j ≤ k → j < len →
          |s j - ewMoment d j xs| ≤ errC j * ((if xs = [] then 0 else 1 / d) * u) * M ^ j))
      (fun xs m s => ((∀ x ∈ xs, rnd x = x ∧ |x| ≤ M) → rnd m = m ∧ (xs = [] → m = 0) ∧ |m| ≤ M ∧
        d * |m - ewMean d xs| ≤ u * M + 2 * t + d * (4 * (u * M) + 2 * (u * u * M) + u * t + t)) ∧
        ((∀ x ∈ xs, rnd x = x ∧ |x| ≤ M) → ∀ j, 2 ≤ j → j ≤ k → j < len →
          |s j - ewMoment d j xs| ≤ errC j * ((if xs = [] then 0 else 1 / d) * u) * M ^ j)) where
  zero := ⟨(track_ew_err (pw := pw) R hE S.u0 S.t0 hd hd0 hd1 hM S.M0 len).zero, fun _ j _ _ _ => by
    simp [Arith.rounded, R.zero, ewMoment, ewTotal]⟩
  room := fun _ _ _ _ h => h
  evict1 := fun _ _ _ h => absurd h (by norm_num)
  evict := fun _ _ _ _ _ _ _ _ h => absurd h (by omega)
  add := fun h => absurd h (by simp)
  decay := fun dd hdd xs x m s m' s' hI hr => by
    obtain rfl : d = dd := by simpa using hdd
    refine ⟨(track_ew_err R hE S.u0 S.t0 hd hd0 hd1 hM S.M0 len).decay d rfl xs x m s m' s' hI.1 hr, fun hxs j hj hjk hjl => ?_⟩
    have hx1 : ∀ y ∈ xs, rnd y = y ∧ |y| ≤ M := fun y hy => hxs y (by simp [hy])
    have h2 := hr.2 j
    have hone : (Arith.rounded rnd pw).ofInt 1 = 1 := by
      show rnd ((1 : Int) : ℚ) = 1
      rw [Int.cast_one]; exact R.one
    have hif : (if (lastN 0 (xs ++ [x])).length = 1 then (Arith.rounded rnd pw).ofInt 1 else d) = if xs = [] then 1 else d := by
      rw [lastN_zero, hone]
      by_cases hnil : xs = []
      · subst hnil; simp
      · have := List.length_pos_iff.2 hnil
        rw [if_neg hnil, if_neg (by simp; omega)]
    rw [if_pos ⟨hj, hjl⟩, hif] at h2
    rw [h2]
    exact (high_ew_step R hE S P hk2 hk hd0 hd1 hsm hxs (hI.1 hx1).2 (hI.2 hx1) hj hjk hjl).1

end
end Verif.FP
