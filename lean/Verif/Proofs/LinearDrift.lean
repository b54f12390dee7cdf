import Verif.Proofs.Covariance

/-! # The drift of the sum of products with a window is linear in the number of pushes

What an update does to `S + n·m₁·m₂`, with the sum `S` and the means `m₁`, `m₂` a core holds for `n` pairs, does not depend on how wrong the means are:
but for the rounding errors of that update the product of the pair is added or subtracted. So these errors only add up. -/

namespace Verif.FP
open Verif.Spec Verif.MathUtil
open Verif.JFP (pairS roomP roomMean newRule pairS_append pairS_nil addRule removeRule)

section
variable {rnd : ℚ → ℚ} {pw : ℚ → Nat → ℚ} {u t : ℚ}

/-- A product of accuracy `u`. -/
def MulAcc (f : ℚ → ℚ → ℚ) (u t : ℚ) : Prop := ∀ a b, |f a b - a * b| ≤ u * |a * b| + t

/-- One update of a mean: `σ = 1` adds, `σ = −1` removes a value. -/
theorem mean_upd (hE : Accuracy rnd u t) {M : ℚ} {N : Nat} (S : Small u t M N) {x a n σ : ℚ} (hσ : |σ| = 1) (hn : 1 ≤ n) (hx : |x| ≤ M)
    (ha : |a| ≤ 9 / 8 * M) : |rnd (a + σ * rnd (rnd (x - a) / n)) - (a + σ * ((x - a) / n))| ≤ 8 * (u * M) := by
  have hu := S.u0
  have hM := S.M0
  have huM : 0 ≤ u * M := by positivity
  have ht1 : t ≤ u * M / 1024 := by nlinarith [S.tM, S.u1]
  have hu2 : u * M ≤ M / 1024 := by nlinarith [S.u1]
  have h0 : |x - a| ≤ 17 / 8 * M := by
    rw [abs_le] at hx ha ⊢
    constructor <;> linarith
  have h1 : |rnd (x - a) - (x - a)| ≤ 22 / 10 * (u * M) := by
    have := hE (x - a)
    have := mul_le_mul_of_nonneg_left h0 hu
    linarith
  have h2 : |rnd (x - a)| ≤ 213 / 100 * M := by
    rw [abs_le] at h0 h1 ⊢
    constructor <;> linarith
  have hn0 : 0 < n := by linarith
  have dv : ∀ z : ℚ, |z / n| ≤ |z| := fun z => by
    rw [abs_div, abs_of_pos hn0]
    exact div_le_self (abs_nonneg _) hn
  have h3 : |rnd (rnd (x - a) / n) - rnd (x - a) / n| ≤ 22 / 10 * (u * M) := by
    have := hE (rnd (x - a) / n)
    have := mul_le_mul_of_nonneg_left ((dv (rnd (x - a))).trans h2) hu
    linarith
  have h4 : |rnd (x - a) / n - (x - a) / n| ≤ 22 / 10 * (u * M) := by
    rw [← sub_div]
    exact (dv _).trans h1
  have h5 : |rnd (rnd (x - a) / n) - (x - a) / n| ≤ 44 / 10 * (u * M) := by
    rw [abs_le] at h3 h4 ⊢
    constructor <;> linarith
  have h6 : |a + σ * ((x - a) / n)| ≤ 26 / 8 * M := by
    refine (abs_add_le _ _).trans ?_
    rw [abs_mul, hσ, one_mul]
    have := (dv (x - a)).trans h0
    linarith
  have h7 : |(a + σ * rnd (rnd (x - a) / n)) - (a + σ * ((x - a) / n))| ≤ 44 / 10 * (u * M) := by
    rw [show (a + σ * rnd (rnd (x - a) / n)) - (a + σ * ((x - a) / n)) = σ * (rnd (rnd (x - a) / n) - (x - a) / n) by ring, abs_mul, hσ, one_mul]
    exact h5
  have h8 := hE (a + σ * rnd (rnd (x - a) / n))
  have h9 : |a + σ * rnd (rnd (x - a) / n)| ≤ 33 / 10 * M := by
    rw [abs_le] at h6 h7 ⊢
    constructor <;> linarith
  have h10 := mul_le_mul_of_nonneg_left h9 hu
  have h11 := abs_sub_le (rnd (a + σ * rnd (rnd (x - a) / n))) (a + σ * rnd (rnd (x - a) / n)) (a + σ * ((x - a) / n))
  linarith

/-- One update of the sum of products: `σ = 1` adds, `σ = −1` removes a pair; the means are those the core holds. -/
theorem prod_upd (hE : Accuracy rnd u t) {f : ℚ → ℚ → ℚ} (hf : MulAcc f u t) {M₁ M₂ : ℚ} {N : Nat} (S : Small2 u t M₁ M₂ N) (P : PowSq pw u t N)
    {n : Nat} (hn : 2 ≤ n) (hnN : n ≤ N) {x₁ m₁ x₂ m₂ s σ : ℚ} (hσ : |σ| = 1) (hx₁ : |x₁| ≤ M₁) (hx₂ : |x₂| ≤ M₂) (hm₁ : |m₁| ≤ 9 / 8 * M₁)
    (hm₂ : |m₂| ≤ 9 / 8 * M₂) (hs : |s| ≤ 3 * n * (M₁ * M₂)) :
    |rnd (s + σ * rnd (rnd (rnd (((n : ℚ) - 1) / pw n 2) * n) * f (rnd (x₁ - m₁)) (rnd (x₂ - m₂)))) -
        (s + σ * (((n : ℚ) - 1) / n * ((x₁ - m₁) * (x₂ - m₂))))| ≤ (40 + 6 * n) * (u * (M₁ * M₂)) := by
  have hu := S.fst.u0
  have hu1 := S.fst.u1
  have dev : ∀ {M x m : ℚ}, Small u t M N → |x| ≤ M → |m| ≤ 9 / 8 * M →
      |rnd (x - m)| ≤ 213 / 100 * M ∧ |rnd (x - m) - (x - m)| ≤ 22 / 10 * (u * M) ∧ |x - m| ≤ 17 / 8 * M := by
    intro M x m S hx hm
    have hM := S.M0
    have huM : 0 ≤ u * M := by positivity
    have ht1 : t ≤ u * M / 1024 := by nlinarith [S.tM]
    have hu2 : u * M ≤ M / 1024 := by nlinarith
    have hxm : |x - m| ≤ 17 / 8 * M := by
      rw [abs_le] at hx hm ⊢
      constructor <;> linarith
    have hδ1 : |rnd (x - m) - (x - m)| ≤ 22 / 10 * (u * M) := by
      have := hE (x - m)
      have := mul_le_mul_of_nonneg_left hxm hu
      linarith
    refine ⟨?_, hδ1, hxm⟩
    rw [abs_le] at hxm hδ1 ⊢
    constructor <;> linarith
  obtain ⟨a1, b1, c1⟩ := dev S.fst hx₁ hm₁
  obtain ⟨a2, b2, c2⟩ := dev S.snd hx₂ hm₂
  have hM1 := S.fst.M0
  have hM2 := S.snd.M0
  have hMM : 0 ≤ M₁ * M₂ := by positivity
  have huMM : 0 ≤ u * (M₁ * M₂) := by positivity
  have ht2 : t ≤ u * (M₁ * M₂) / 1024 := by nlinarith [S.prod]
  have hu3 : u * (M₁ * M₂) ≤ (M₁ * M₂) / 1024 := by nlinarith
  have hn2 : (2 : ℚ) ≤ n := by exact_mod_cast hn
  have hnu : (n : ℚ) * u ≤ 1 / 1024 := by
    refine le_trans (mul_le_mul_of_nonneg_right ?_ hu) S.fst.Nu
    exact_mod_cast hnN
  have hc := coef_err hE hu hu1 S.fst.t0 S.fst.tu hn2 hnu (P.two n)
  set δ₁ := rnd (x₁ - m₁)
  set δ₂ := rnd (x₂ - m₂)
  set z₀ := (x₁ - m₁) * (x₂ - m₂) with hz₀
  have hδδ : |δ₁ * δ₂| ≤ 454 / 100 * (M₁ * M₂) := by
    rw [abs_mul]
    have := mul_le_mul a1 a2 (abs_nonneg _) (by positivity)
    nlinarith
  have hz0 : |z₀| ≤ 452 / 100 * (M₁ * M₂) := by
    rw [hz₀, abs_mul]
    have := mul_le_mul c1 c2 (abs_nonneg _) (by positivity)
    nlinarith
  have hq1 : |f δ₁ δ₂ - δ₁ * δ₂| ≤ 46 / 10 * (u * (M₁ * M₂)) := by
    have h1 := hf δ₁ δ₂
    have := mul_le_mul_of_nonneg_left hδδ hu
    linarith
  have hs1 : |δ₁ * δ₂ - z₀| ≤ 94 / 10 * (u * (M₁ * M₂)) := by
    rw [hz₀, show δ₁ * δ₂ - (x₁ - m₁) * (x₂ - m₂) = (δ₁ - (x₁ - m₁)) * δ₂ + (x₁ - m₁) * (δ₂ - (x₂ - m₂)) by ring]
    refine (abs_add_le _ _).trans ?_
    rw [abs_mul, abs_mul]
    have h1 := mul_le_mul b1 a2 (abs_nonneg _) (by positivity)
    have h2 := mul_le_mul c1 b2 (abs_nonneg _) (by positivity)
    nlinarith
  have hq0 : |f δ₁ δ₂| ≤ 455 / 100 * (M₁ * M₂) := by
    rw [abs_le] at hq1 hδδ ⊢
    constructor <;> linarith
  have hq : |f δ₁ δ₂ - z₀| ≤ 14 * (u * (M₁ * M₂)) := by
    rw [abs_le] at hq1 hs1 ⊢
    constructor <;> linarith
  set q := f δ₁ δ₂
  set c := rnd (rnd (((n : ℚ) - 1) / pw n 2) * n)
  set κ := ((n : ℚ) - 1) / n
  set W := M₁ * M₂
  have hn0 : (0 : ℚ) < n := by linarith
  have hk1 : κ ≤ 1 := by rw [div_le_one hn0]; linarith
  have hk0 : 0 ≤ κ := div_nonneg (by linarith) hn0.le
  have hc1 : |c| ≤ 101 / 100 := by
    rw [abs_le] at hc ⊢
    constructor <;> linarith
  have hcq : |c * q| ≤ 46 / 10 * W := by
    rw [abs_mul]
    have := mul_le_mul hc1 hq0 (abs_nonneg _) (by norm_num)
    linarith
  have hg1 : |rnd (c * q) - c * q| ≤ 47 / 10 * (u * W) := by
    have h1 := hE (c * q)
    have h2 := mul_le_mul_of_nonneg_left hcq hu
    linarith
  have hg2 : |c * q - κ * z₀| ≤ 322 / 10 * (u * W) := by
    rw [show c * q - κ * z₀ = (c - κ) * q + κ * (q - z₀) by ring]
    refine (abs_add_le _ _).trans ?_
    rw [abs_mul, abs_mul, abs_of_nonneg hk0]
    have h1 := mul_le_mul hc hq0 (abs_nonneg _) (by positivity)
    have h2 := mul_le_mul hk1 hq (abs_nonneg _) (by norm_num)
    linarith
  set g := rnd (c * q)
  set z := κ * z₀ with hz
  have hg : |g - z| ≤ 37 * (u * W) := by
    rw [abs_le] at hg1 hg2 ⊢
    constructor <;> linarith
  have hzW : |z| ≤ 452 / 100 * W := by
    rw [hz, abs_mul, abs_of_nonneg hk0]
    have := mul_le_mul hk1 hz0 (abs_nonneg _) (by norm_num)
    linarith
  have h1 : |(s + σ * g) - (s + σ * z)| ≤ 37 * (u * W) := by
    rw [show (s + σ * g) - (s + σ * z) = σ * (g - z) by ring, abs_mul, hσ, one_mul]
    exact hg
  have hB : |s + σ * z| ≤ 3 * n * W + 452 / 100 * W := by
    refine (abs_add_le _ _).trans ?_
    rw [abs_mul, hσ, one_mul]
    linarith
  have hnW : 2 * W ≤ n * W := mul_le_mul_of_nonneg_right hn2 hMM
  have h3 : |s + σ * g| ≤ 53 / 10 * n * W := by
    rw [abs_le] at h1 hB ⊢
    constructor <;> linarith
  have h2 := hE (s + σ * g)
  have h4 := mul_le_mul_of_nonneg_left h3 hu
  have c1 := abs_sub_le (rnd (s + σ * g)) (s + σ * g) (s + σ * z)
  have : 0 ≤ (n : ℚ) * (u * W) := by positivity
  linarith

/-- The effect of adding a pair. -/
theorem add_eq {s n a₁ a₂ x₁ x₂ : ℚ} (hn : n ≠ 0) : (s + (n - 1) / n * ((x₁ - a₁) * (x₂ - a₂))) + n * ((a₁ + (x₁ - a₁) / n) * (a₂ + (x₂ - a₂) / n)) -
    x₁ * x₂ = s + (n - 1) * (a₁ * a₂) := by
  field_simp
  ring

theorem near_prod {W M₁ M₂ b₁ b₂ m₁ m₂ n : ℚ} (hW : W = M₁ * M₂) (hM₁ : 0 ≤ M₁) (hM₂ : 0 ≤ M₂) (hu : 0 ≤ u) (hu1 : u ≤ 1 / 1024) (hn : 0 ≤ n)
    (h₁ : |m₁ - b₁| ≤ 8 * (u * M₁)) (h₂ : |m₂ - b₂| ≤ 8 * (u * M₂)) (hm₁ : |m₁| ≤ 9 / 8 * M₁) (hm₂ : |m₂| ≤ 9 / 8 * M₂) :
    |n * (m₁ * m₂) - n * (b₁ * b₂)| ≤ 19 * n * (u * W) := by
  have huM : u * M₁ ≤ M₁ / 1024 := by nlinarith
  have hb : |b₁| ≤ 114 / 100 * M₁ := by
    rw [abs_le] at h₁ hm₁ ⊢
    constructor <;> linarith
  have e : n * (m₁ * m₂) - n * (b₁ * b₂) = n * ((m₁ - b₁) * m₂ + b₁ * (m₂ - b₂)) := by ring
  rw [e, abs_mul, abs_of_nonneg hn]
  have h3 : |(m₁ - b₁) * m₂ + b₁ * (m₂ - b₂)| ≤ 19 * (u * W) := by
    refine (abs_add_le _ _).trans ?_
    rw [abs_mul, abs_mul, hW]
    have a1 := mul_le_mul h₁ hm₂ (abs_nonneg _) (by positivity)
    have a2 := mul_le_mul hb h₂ (abs_nonneg _) (by positivity)
    have : 0 ≤ u * (M₁ * M₂) := by positivity
    nlinarith
  have := mul_le_mul_of_nonneg_left h3 hn
  linarith

/-- Adding a pair adds its product, but for rounding errors. -/
theorem total_add {M₁ M₂ : ℚ} (hM₁ : 0 ≤ M₁) (hM₂ : 0 ≤ M₂) (hu : 0 ≤ u) (hu1 : u ≤ 1 / 1024) {s s' n a₁ a₂ x₁ x₂ m₁ m₂ : ℚ} (hn : 1 ≤ n)
    (h₁ : |m₁ - (a₁ + (x₁ - a₁) / n)| ≤ 8 * (u * M₁)) (h₂ : |m₂ - (a₂ + (x₂ - a₂) / n)| ≤ 8 * (u * M₂)) (hm₁ : |m₁| ≤ 9 / 8 * M₁)
    (hm₂ : |m₂| ≤ 9 / 8 * M₂) (hs : |s' - (s + (n - 1) / n * ((x₁ - a₁) * (x₂ - a₂)))| ≤ (40 + 6 * n) * (u * (M₁ * M₂))) :
    |(s' + n * (m₁ * m₂) - x₁ * x₂) - (s + (n - 1) * (a₁ * a₂))| ≤ 65 * n * (u * (M₁ * M₂)) := by
  have h := near_prod (n := n) rfl hM₁ hM₂ hu hu1 (by linarith) h₁ h₂ hm₁ hm₂
  have e := add_eq (s := s) (a₁ := a₁) (a₂ := a₂) (x₁ := x₁) (x₂ := x₂) (show n ≠ 0 by linarith)
  have hW : 0 ≤ u * (M₁ * M₂) := by positivity
  have hnW := mul_le_mul_of_nonneg_right hn hW
  rw [abs_le] at h hs ⊢
  constructor <;> linarith

/-- Removing a pair subtracts its product, but for rounding errors. -/
theorem total_remove {M₁ M₂ : ℚ} (hM₁ : 0 ≤ M₁) (hM₂ : 0 ≤ M₂) (hu : 0 ≤ u) (hu1 : u ≤ 1 / 1024) {s s' k a₁ a₂ y₁ y₂ m₁ m₂ : ℚ} (hk : 1 ≤ k)
    (h₁ : |a₁ - (m₁ - (y₁ - m₁) / k)| ≤ 8 * (u * M₁)) (h₂ : |a₂ - (m₂ - (y₂ - m₂) / k)| ≤ 8 * (u * M₂)) (hm₁ : |m₁| ≤ 9 / 8 * M₁)
    (hm₂ : |m₂| ≤ 9 / 8 * M₂) (hs : |s' - (s - k / (k + 1) * ((y₁ - a₁) * (y₂ - a₂)))| ≤ (40 + 6 * (k + 1)) * (u * (M₁ * M₂))) :
    |(s' + k * (a₁ * a₂)) - (s + (k + 1) * (m₁ * m₂) - y₁ * y₂)| ≤ 65 * (k + 1) * (u * (M₁ * M₂)) := by
  have hk1 : k + 1 ≠ 0 := by linarith
  have back : ∀ {a m y M : ℚ}, |a - (m - (y - m) / k)| ≤ 8 * (u * M) → |m - (a + (y - a) / (k + 1))| ≤ 8 * (u * M) := by
    intro a m y M h
    have e : m - (a + (y - a) / (k + 1)) = -(k / (k + 1) * (a - (m - (y - m) / k))) := by
      have : k ≠ 0 := by linarith
      field_simp
      ring
    rw [e, abs_neg, abs_mul, abs_of_nonneg (div_nonneg (by linarith) (by linarith))]
    have h1 : k / (k + 1) ≤ 1 := by rw [div_le_one (by linarith)]; linarith
    have := mul_le_mul h1 h (abs_nonneg _) (by norm_num)
    linarith
  have h := near_prod (n := k + 1) rfl hM₁ hM₂ hu hu1 (by linarith) (back h₁) (back h₂) hm₁ hm₂
  have e := add_eq (s := s - k / (k + 1) * ((y₁ - a₁) * (y₂ - a₂))) (a₁ := a₁) (a₂ := a₂) (x₁ := y₁) (x₂ := y₂) hk1
  rw [add_sub_cancel_right] at e
  have hW : 0 ≤ u * (M₁ * M₂) := by positivity
  have hnW := mul_le_mul_of_nonneg_right (show 1 ≤ k + 1 by linarith) hW
  rw [abs_le] at h hs ⊢
  constructor <;> linarith

/-- The sum of the products. -/
def prods (ps : List (ℚ × ℚ)) : ℚ := (ps.map fun p => p.1 * p.2).sum

theorem prods_le {M₁ M₂ : ℚ} {ps : List (ℚ × ℚ)} (h : ∀ p ∈ ps, |p.1| ≤ M₁ ∧ |p.2| ≤ M₂) : |prods ps| ≤ ps.length * (M₁ * M₂) := by
  unfold prods
  induction ps with
  | nil => simp
  | cons p ps ih =>
    have h1 := ih (fun q hq => h q (by simp [hq]))
    obtain ⟨p1, p2⟩ := h p (by simp)
    have d3 := mul_le_mul p1 p2 (abs_nonneg _) ((abs_nonneg _).trans p1)
    rw [← abs_mul] at d3
    simp only [List.map_cons, List.sum_cons, List.length_cons]
    have := abs_add_le (p.1 * p.2) (ps.map fun p => p.1 * p.2).sum
    push_cast
    linarith

theorem prods_cons (p : ℚ × ℚ) (ps : List (ℚ × ℚ)) : prods (p :: ps) = p.1 * p.2 + prods ps := by simp [prods]
theorem prods_snoc (ps : List (ℚ × ℚ)) (p : ℚ × ℚ) : prods (ps ++ [p]) = prods ps + p.1 * p.2 := by simp [prods]

/-- The sum the core holds is bounded. -/
theorem sum_size {W M₁ M₂ s n Q a₁ a₂ E : ℚ} (hW : W = M₁ * M₂) (hn : 0 ≤ n) (hM₁ : 0 ≤ M₁) (hM₂ : 0 ≤ M₂) (ha₁ : |a₁| ≤ 9 / 8 * M₁)
    (ha₂ : |a₂| ≤ 9 / 8 * M₂) (hQ : |Q| ≤ n * W) (h : |s + n * (a₁ * a₂) - Q| ≤ E) : |s| ≤ 23 / 10 * n * W + E := by
  have h1 : |a₁ * a₂| ≤ 13 / 10 * W := by
    rw [abs_mul, hW]
    have := mul_le_mul ha₁ ha₂ (abs_nonneg _) (by positivity)
    have : 0 ≤ M₁ * M₂ := by positivity
    nlinarith
  have h2 : |n * (a₁ * a₂)| ≤ n * (13 / 10 * W) := by
    rw [abs_mul, abs_of_nonneg hn]
    exact mul_le_mul_of_nonneg_left h1 hn
  rw [abs_le] at *
  constructor <;> linarith

/-- The mean of a core without decay stays near the bound of the data. -/
theorem mean_near (R : Rounding rnd) (hE : Accuracy rnd u t) {N : Nat} (hN : ∀ n : Nat, n ≤ N → rnd n = n) {M : ℚ} (S : Small u t M N) (w : Nat)
    (xs : List ℚ) (hxs : ∀ x ∈ xs, rnd x = x ∧ |x| ≤ M) :
    (xs.length ≤ N → |(mst (Arith.rounded rnd pw) w none xs).1 - Spec.mean (lastN w xs)| ≤ 49 * xs.length * (u * M) ∧
      |(mst (Arith.rounded rnd pw) w none xs).1| ≤ 9 / 8 * M ∧ |Spec.mean (lastN w xs)| ≤ M) ∧
    (xs.length < N → |roomMean (Arith.rounded rnd pw) w none xs| ≤ 9 / 8 * M ∧
      ((∀ x, lastN w (xs ++ [x]) = [x]) → roomMean (Arith.rounded rnd pw) w none xs = 0)) := by
  have hu := S.u0
  have hM := S.M0
  have huM : 0 ≤ u * M := by positivity
  have ht1 : t ≤ u * M / 1024 := by nlinarith [S.tM, S.u1]
  have hNM : N * (48 * (u * M) + 8 * t) ≤ M := by
    have h1 : (N : ℚ) * (48 * (u * M) + 8 * t) ≤ N * (49 * (u * M)) := mul_le_mul_of_nonneg_left (by linarith) (by positivity)
    have h2 := mul_le_mul_of_nonneg_right S.Nu hM
    linarith
  have T := (track_drift (pw := pw) R hE hu (S.u1.trans (by norm_num)) S.t0 hN hM hNM w 0).closed xs
  have hlast : ∀ z ∈ lastN w xs, z ∈ xs := by
    intro z hz
    unfold lastN at hz
    split_ifs at hz
    · exact hz
    · exact List.mem_of_mem_drop hz
  refine ⟨fun hl => ?_, fun hl => ?_⟩
  · obtain ⟨-, h⟩ := T.1 hl hxs
    have h1 : (xs.length : ℚ) * (48 * (u * M) + 8 * t) ≤ 49 * xs.length * (u * M) := by
      have := mul_le_mul_of_nonneg_left (show 48 * (u * M) + 8 * t ≤ 49 * (u * M) by linarith) (show (0 : ℚ) ≤ xs.length by positivity)
      linarith
    have h2 : 49 * (xs.length : ℚ) * (u * M) ≤ M / 8 := by
      have : (xs.length : ℚ) * u ≤ 1 / 1024 := le_trans (mul_le_mul_of_nonneg_right (by exact_mod_cast hl) hu) S.Nu
      have := mul_le_mul_of_nonneg_right this hM
      linarith
    have h3 := abs_mean_le hM (xs := lastN w xs) (fun z hz => (hxs z (hlast z hz)).2)
    refine ⟨h.trans h1, ?_, h3⟩
    have h4 := h.trans (h1.trans h2)
    rw [abs_le] at h3 h4 ⊢
    constructor <;> linarith
  · obtain ⟨ws, k1, k2, -, e⟩ := T.2 hl hxs
    refine ⟨?_, fun h => k2 ?_⟩
    · by_cases hnil : ws = []
      · rw [k2 hnil, abs_zero]; positivity
      · have hpos := List.length_pos_iff.2 hnil
        have hk := k1 0
        have hle : ws.length ≤ xs.length := by
          have := congrArg List.length hk
          rw [lastN_length] at this
          simp at this
          split_ifs at this <;> omega
        obtain ⟨a, b⟩ := drift_e S hpos hle hl.le e
        have hmem : ∀ z ∈ ws, |z| ≤ M := by
          intro z hz
          have h1 : z ∈ lastN w (xs ++ [0]) := by rw [hk]; simp [hz]
          have h2 : z ∈ xs ++ [0] := by
            unfold lastN at h1
            split_ifs at h1
            · exact h1
            · exact List.mem_of_mem_drop h1
          rcases List.mem_append.1 h2 with h | h
          · exact (hxs z h).2
          · rw [show z = 0 by simpa using h, abs_zero]; exact hM
        have h3 := abs_mean_le hM hmem
        have h4 := a.trans b
        rw [abs_le] at h3 h4 ⊢
        constructor <;> linarith
    · have := (k1 0).symm.trans (h 0)
      simpa using this

/-- The sum of products a core without decay holds, and its means: their combination `S + n·m₁·m₂` is the sum of the products of the window, with an
error linear in the number of pushes. -/
theorem total_drift (R : Rounding rnd) (hE : Accuracy rnd u t) {f : ℚ → ℚ → ℚ} (hf : MulAcc f u t) {N : Nat} (hN : ∀ n : Nat, n ≤ N → rnd n = n)
    {M₁ M₂ : ℚ} (S : Small2 u t M₁ M₂ N) (P : PowSq pw u t N) (w : Nat) (ps : List (ℚ × ℚ)) (hl : ps.length ≤ N) (hb : BoundedPairs rnd M₁ M₂ ps) :
    |pairS (Arith.rounded rnd pw) f w none ps + (lastN w ps).length * ((mst (Arith.rounded rnd pw) w none (ps.map (·.1))).1 *
      (mst (Arith.rounded rnd pw) w none (ps.map (·.2))).1) - prods (lastN w ps)| ≤ 140 * ps.length * (lastN w ps).length * (u * (M₁ * M₂)) := by
  have hM₁ := S.fst.M0
  have hM₂ := S.snd.M0
  have hMM : 0 ≤ M₁ * M₂ := mul_nonneg hM₁ hM₂
  have hu := S.fst.u0
  have hu1 := S.fst.u1
  have hU : 0 ≤ u * (M₁ * M₂) := mul_nonneg hu hMM
  have hlast : ∀ (ps : List (ℚ × ℚ)), ∀ z ∈ lastN w ps, z ∈ ps := by
    intro xs z hz
    unfold lastN at hz
    split_ifs at hz
    · exact hz
    · exact List.mem_of_mem_drop hz
  induction ps using List.reverseRecOn with
  | nil => simp [pairS_nil, Arith.rounded, R.zero, prods, lastN]
  | append_singleton ps p ih =>
    have hl' : (ps ++ [p]).length = ps.length + 1 := by simp
    rw [hl'] at hl ⊢
    have hb' : BoundedPairs rnd M₁ M₂ ps := fun q hq => hb q (by simp [hq])
    have ih := ih (by omega) hb'
    have c1 := mean_near (pw := pw) R hE hN S.fst w (ps.map (·.1)) hb'.fst
    have c2 := mean_near (pw := pw) R hE hN S.snd w (ps.map (·.2)) hb'.snd
    have d1 := (mean_near (pw := pw) R hE hN S.fst w ((ps ++ [p]).map (·.1)) hb.fst).1 (by simpa using hl)
    have d2 := (mean_near (pw := pw) R hE hN S.snd w ((ps ++ [p]).map (·.2)) hb.snd).1 (by simpa using hl)
    rw [List.length_map] at c1 c2
    obtain ⟨-, cm1, -⟩ := c1.1 (by omega)
    obtain ⟨-, cm2, -⟩ := c2.1 (by omega)
    obtain ⟨ca1, cz1⟩ := c1.2 (by omega)
    obtain ⟨ca2, cz2⟩ := c2.2 (by omega)
    obtain ⟨-, dm1, -⟩ := d1
    obtain ⟨-, dm2, -⟩ := d2
    set s := pairS (Arith.rounded rnd pw) f w none ps with hs
    set a₁ := roomMean (Arith.rounded rnd pw) w none (ps.map (·.1)) with ha₁
    set a₂ := roomMean (Arith.rounded rnd pw) w none (ps.map (·.2)) with ha₂
    set L := (lastN w ps).length with hL
    set m₁ := (mst (Arith.rounded rnd pw) w none (ps.map (·.1))).1 with hm₁
    set m₂ := (mst (Arith.rounded rnd pw) w none (ps.map (·.2))).1 with hm₂
    have hpu : ((ps.length : ℚ) + 1) * u ≤ 1 / 1024 := by
      refine le_trans (mul_le_mul_of_nonneg_right ?_ hu) S.fst.Nu
      exact_mod_cast hl
    have hLW : 0 ≤ (L : ℚ) * (M₁ * M₂) := by positivity
    have hEb : 140 * ((ps.length : ℚ) + 1) * L * (u * (M₁ * M₂)) ≤ 2 / 10 * (L * (M₁ * M₂)) := by
      have := mul_le_mul_of_nonneg_right hpu hLW
      linarith
    have hLU : 0 ≤ (L : ℚ) * (u * (M₁ * M₂)) := by positivity
    -- making room
    have room : ∃ ws, (∀ p, lastN w (ps ++ [p]) = ws ++ [p]) ∧ (∀ q ∈ ws, q ∈ ps) ∧ ws.length ≤ ps.length ∧ L ≤ ws.length + 1 ∧
        (ws = [] → roomP (Arith.rounded rnd pw) f w ps a₁ a₂ s = 0) ∧
        |roomP (Arith.rounded rnd pw) f w ps a₁ a₂ s + ws.length * (a₁ * a₂) - prods ws| ≤ (140 * ps.length * L + 65 * L) * (u * (M₁ * M₂)) := by
      by_cases hr : w = 0 ∨ (lastN w ps).length < w
      · refine ⟨lastN w ps, fun q => ?_, hlast ps, ?_, by omega, fun h => ?_, ?_⟩
        · rcases hr with rfl | hr
          · simp [lastN_zero]
          · exact lastN_snoc_room (by omega) _ _ (by omega)
        · rw [lastN_length]; split_ifs <;> omega
        · have : ps = [] := by
            by_contra hc
            exact lastN_ne_nil hc h
          subst this
          unfold roomP
          rw [if_neg (by omega), hs]
          simp [pairS_nil, Arith.rounded, R.zero]
        · have e1 : a₁ = m₁ := by
            rw [ha₁, hm₁]; unfold roomMean
            rw [roomM_room _ (by rw [JFP.lastN_map, List.length_map]; exact hr)]
          have e2 : a₂ = m₂ := by
            rw [ha₂, hm₂]; unfold roomMean
            rw [roomM_room _ (by rw [JFP.lastN_map, List.length_map]; exact hr)]
          unfold roomP
          rw [if_neg (by omega), e1, e2]
          refine ih.trans (mul_le_mul_of_nonneg_right ?_ hU)
          have : (0 : ℚ) ≤ L := by positivity
          linarith
      · have hlen : (lastN w ps).length = w := by
          have := lastN_length w ps
          split_ifs at this <;> omega
        have hw0 : w ≠ 0 := fun h => hr (.inl h)
        cases hlw : lastN w ps with
        | nil => rw [hlw] at hlen; simp at hlen; omega
        | cons y ys =>
          have hlen' := hlen
          rw [hlw] at hlen'
          have hLy : L = ys.length + 1 := by rw [hL, hlw]; rfl
          have hsn : ∀ q, lastN w (ps ++ [q]) = ys ++ [q] := by
            intro q
            rw [lastN_snoc_full (by omega) _ _ hlen, hlw]; rfl
          have hmem : ∀ q ∈ y :: ys, q ∈ ps := fun q hq => hlast ps q (by rw [hlw]; exact hq)
          have hlx : ys.length + 1 ≤ ps.length := by
            have := congrArg List.length hlw
            rw [lastN_length, if_neg hw0] at this
            simp at this
            omega
          have hz : ys = [] → roomP (Arith.rounded rnd pw) f w ps a₁ a₂ s = 0 := by
            intro h
            subst h
            unfold roomP
            rw [if_pos ⟨hw0, hlen⟩, hlw]
            simp [Arith.rounded, R.zero]
          refine ⟨ys, hsn, fun q hq => hmem q (by simp [hq]), by omega, by omega, hz, ?_⟩
          by_cases hys : ys = []
          · rw [hz hys]
            subst hys
            simp [prods]
            positivity
          · have hpos := List.length_pos_iff.2 hys
            have hk1 : (1 : ℚ) ≤ ys.length := by exact_mod_cast hpos
            have hval : roomP (Arith.rounded rnd pw) f w ps a₁ a₂ s =
                rnd (s + -1 * rnd (rnd (rnd ((((ys.length + 1 : Nat) : ℚ) - 1) / pw ((ys.length + 1 : Nat) : ℚ) 2) * ((ys.length + 1 : Nat) : ℚ)) *
                  f (rnd (y.1 - a₁)) (rnd (y.2 - a₂)))) := by
              rw [← removeRule_two R hN P (by omega)]
              unfold roomP
              rw [if_pos ⟨hw0, hlen⟩, hlw]
              cases ys with
              | nil => exact absurd rfl hys
              | cons z ys => rfl
            obtain ⟨⟨-, p1⟩, -, p2⟩ := hb' y (hmem y (by simp))
            have col : ∀ (g : ℚ × ℚ → ℚ), roomMean (Arith.rounded rnd pw) w none (ps.map g) =
                rnd ((mst (Arith.rounded rnd pw) w none (ps.map g)).1 + -1 *
                  rnd (rnd (g y - (mst (Arith.rounded rnd pw) w none (ps.map g)).1) / ys.length)) := by
              intro g
              unfold roomMean
              rw [roomM_evict (y := g y) (ys := ys.map g) _ (by rw [JFP.lastN_map, hlw]; rfl) (by simpa using hlen') (by simpa using hys)]
              have h1 := hN ys.length (by omega)
              simp only [Arith.rounded, List.length_map, Int.cast_natCast, h1]
              congr 1; ring
            have u1 := mean_upd hE S.fst (σ := -1) (by norm_num) hk1 p1 cm1
            have u2 := mean_upd hE S.snd (σ := -1) (by norm_num) hk1 p2 cm2
            rw [← col (·.1), ← ha₁] at u1
            rw [← col (·.2), ← ha₂] at u2
            have hQ := prods_le (M₁ := M₁) (M₂ := M₂) (ps := lastN w ps) (fun q hq => ⟨(hb' q (hlast ps q hq)).1.2, (hb' q (hlast ps q hq)).2.2⟩)
            have hsz := sum_size rfl (show (0 : ℚ) ≤ L by positivity) hM₁ hM₂ cm1 cm2 hQ ih
            have hst := prod_upd hE hf S P (n := ys.length + 1) (by omega) (by omega) (σ := -1) (by norm_num) p1 p2 ca1 ca2 (s := s) (by
              rw [← hLy]; linarith)
            rw [← hval] at hst
            push_cast at hst
            have htot := total_remove (s := s) (s' := roomP (Arith.rounded rnd pw) f w ps a₁ a₂ s) (k := (ys.length : ℚ)) hM₁ hM₂ hu hu1 hk1
              (a₁ := a₁) (a₂ := a₂) (m₁ := m₁) (m₂ := m₂) (y₁ := y.1) (y₂ := y.2)
              (by rw [show m₁ - (y.1 - m₁) / (ys.length : ℚ) = m₁ + -1 * ((y.1 - m₁) / ys.length) by ring]; exact u1)
              (by rw [show m₂ - (y.2 - m₂) / (ys.length : ℚ) = m₂ + -1 * ((y.2 - m₂) / ys.length) by ring]; exact u2) cm1 cm2 (by
                refine le_trans (le_of_eq ?_) hst
                congr 1
                ring)
            have hLq : (L : ℚ) = ys.length + 1 := by rw [hLy]; push_cast; ring
            rw [hlw, prods_cons] at ih
            rw [← hLq] at htot
            rw [abs_le] at ih htot ⊢
            constructor <;> linarith
    obtain ⟨ws, hws, hsub, hwl, hLw, h0, herr⟩ := room
    have hbws : BoundedPairs rnd M₁ M₂ ws := fun q hq => hb' q (hsub q hq)
    obtain ⟨⟨-, p1⟩, -, p2⟩ := hb p (by simp)
    have hLn : (L : ℚ) ≤ (ws.length : ℚ) + 1 := by exact_mod_cast hLw
    have hcol : ∀ (g : ℚ × ℚ → ℚ), (mst (Arith.rounded rnd pw) w none ((ps ++ [p]).map g)).1 =
        rnd (roomMean (Arith.rounded rnd pw) w none (ps.map g) + 1 *
          rnd (rnd (g p - roomMean (Arith.rounded rnd pw) w none (ps.map g)) / ((ws.length : ℚ) + 1))) := by
      intro g
      have e : (ps ++ [p]).map g = ps.map g ++ [g p] := by simp
      have e2 : (lastN w (ps.map g ++ [g p])).length = ws.length + 1 := by
        rw [← e, JFP.lastN_map, hws]; simp
      have h1 := hN (ws.length + 1) (by omega)
      push_cast at h1
      rw [e, mst_add, e2]
      simp only [Arith.rounded, roomMean]
      push_cast
      rw [h1, one_mul]
    have hn1 : (1 : ℚ) ≤ (ws.length : ℚ) + 1 := by
      have : (0 : ℚ) ≤ ws.length := by positivity
      linarith
    have u1 := mean_upd hE S.fst (σ := 1) (by norm_num) hn1 p1 ca1
    have u2 := mean_upd hE S.snd (σ := 1) (by norm_num) hn1 p2 ca2
    rw [ha₁, ← hcol (·.1), ← ha₁, one_mul] at u1
    rw [ha₂, ← hcol (·.2), ← ha₂, one_mul] at u2
    have hst : |pairS (Arith.rounded rnd pw) f w none (ps ++ [p]) - (roomP (Arith.rounded rnd pw) f w ps a₁ a₂ s + ((ws.length : ℚ) + 1 - 1) /
        ((ws.length : ℚ) + 1) * ((p.1 - a₁) * (p.2 - a₂)))| ≤ (40 + 6 * ((ws.length : ℚ) + 1)) * (u * (M₁ * M₂)) := by
      rw [pairS_append, hws, show (ws ++ [p]).length = ws.length + 1 by simp, addRule_two R hN P (by omega) (by omega), ← hs, ← ha₁, ← ha₂]
      by_cases hnil : ws = []
      · rw [h0 hnil]
        subst hnil
        simp [R.zero]
        positivity
      · have hpos := List.length_pos_iff.2 hnil
        have hQ := prods_le (M₁ := M₁) (M₂ := M₂) (ps := ws) (fun q hq => ⟨(hbws q hq).1.2, (hbws q hq).2.2⟩)
        have hsz := sum_size rfl (show (0 : ℚ) ≤ ws.length by positivity) hM₁ hM₂ ca1 ca2 hQ herr
        have hLnW := mul_le_mul_of_nonneg_right hLn hMM
        have hst := prod_upd hE hf S P (n := ws.length + 1) (by omega) (by omega) (σ := 1) (by norm_num) p1 p2 ca1 ca2
          (s := roomP (Arith.rounded rnd pw) f w ps a₁ a₂ s) (by push_cast; linarith)
        push_cast at hst ⊢
        rw [one_mul] at hst ⊢
        rw [one_mul] at hst
        exact hst
    have htot := total_add hM₁ hM₂ hu hu1 hn1 u1 u2 dm1 dm2 hst
    rw [hws, prods_snoc, show (ws ++ [p]).length = ws.length + 1 by simp]
    have g1 := mul_le_mul_of_nonneg_right hLn (show 0 ≤ (140 * (ps.length : ℚ) + 65) * (u * (M₁ * M₂)) by positivity)
    have g2 : 0 ≤ ((ws.length : ℚ) + 1) * (u * (M₁ * M₂)) := by positivity
    rw [add_sub_cancel_right] at htot
    push_cast
    rw [abs_le] at herr htot ⊢
    constructor <;> linarith

/-- The drift of the sum of products of any core without decay is linear in the number of pushes. -/
theorem pairS_linear (R : Rounding rnd) (hE : Accuracy rnd u t) {f : ℚ → ℚ → ℚ} (hf : MulAcc f u t) {N : Nat} (hN : ∀ n : Nat, n ≤ N → rnd n = n)
    {M₁ M₂ : ℚ} (S : Small2 u t M₁ M₂ N) (P : PowSq pw u t N) (w : Nat) (ps : List (ℚ × ℚ)) (hl : ps.length ≤ N) (hb : BoundedPairs rnd M₁ M₂ ps) :
    |pairS (Arith.rounded rnd pw) f w none ps - cpair (lastN w ps)| ≤ 250 * ps.length * (lastN w ps).length * (u * (M₁ * M₂)) := by
  have h := total_drift R hE hf hN S P w ps hl hb
  obtain ⟨e1, b1, -⟩ := (mean_near (pw := pw) R hE hN S.fst w (ps.map (·.1)) hb.fst).1 (by simpa using hl)
  obtain ⟨e2, -, b2⟩ := (mean_near (pw := pw) R hE hN S.snd w (ps.map (·.2)) hb.snd).1 (by simpa using hl)
  rw [List.length_map] at e1 e2
  rw [JFP.lastN_map] at e1 e2 b2
  have hM₁ := S.fst.M0
  have hM₂ := S.snd.M0
  have hu := S.fst.u0
  have hc := cpair_eq (lastN w ps)
  have hmean : ((lastN w ps).map (·.1)).sum = (lastN w ps).length * Spec.mean ((lastN w ps).map (·.1)) := by
    unfold Spec.mean
    rw [List.length_map]
    by_cases h0 : (lastN w ps).length = 0
    · rw [List.length_eq_zero_iff.1 h0]; simp
    · field_simp
  rw [hmean] at hc
  set m₁ := (mst (Arith.rounded rnd pw) w none (ps.map (·.1))).1
  set m₂ := (mst (Arith.rounded rnd pw) w none (ps.map (·.2))).1
  set μ₁ := Spec.mean ((lastN w ps).map (·.1))
  set μ₂ := Spec.mean ((lastN w ps).map (·.2))
  set L : ℚ := ((lastN w ps).length : ℚ)
  have hL : 0 ≤ L := by positivity
  have h1 : |m₁ * m₂ - μ₁ * μ₂| ≤ 105 * ps.length * (u * (M₁ * M₂)) := by
    rw [show m₁ * m₂ - μ₁ * μ₂ = (m₁ - μ₁) * μ₂ + m₁ * (m₂ - μ₂) by ring]
    refine (abs_add_le _ _).trans ?_
    rw [abs_mul, abs_mul]
    have k1 := mul_le_mul e1 b2 (abs_nonneg _) (by positivity)
    have k2 := mul_le_mul b1 e2 (abs_nonneg _) (by positivity)
    have : 0 ≤ (ps.length : ℚ) * (u * (M₁ * M₂)) := by positivity
    nlinarith
  have h2 : |L * (m₁ * m₂) - L * (μ₁ * μ₂)| ≤ L * (105 * ps.length * (u * (M₁ * M₂))) := by
    rw [← mul_sub, abs_mul, abs_of_nonneg hL]
    exact mul_le_mul_of_nonneg_left h1 hL
  have h3 : 0 ≤ (ps.length : ℚ) * L * (u * (M₁ * M₂)) := by positivity
  have hp : prods (lastN w ps) = cpair (lastN w ps) + L * (μ₁ * μ₂) := by
    unfold prods
    rw [← hc]; ring
  rw [hp] at h
  rw [abs_le] at h h2 ⊢
  constructor <;> linarith

theorem cpair_diag (xs : List ℚ) : cpair (xs.map fun x => (x, x)) = csum 2 xs := by
  unfold cpair csum
  simp only [List.map_map, Function.comp_def, List.map_id']
  congr 1
  refine List.map_congr_left fun x _ => ?_
  ring

/-- The drift of the second power sum of any core without decay is linear in the number of pushes. -/
theorem mst_linear (R : Rounding rnd) (hE : Accuracy rnd u t) {N : Nat} (hN : ∀ n : Nat, n ≤ N → rnd n = n) {M : ℚ} (S : Small u t M N)
    (P : PowSq pw u t N) (w : Nat) (xs : List ℚ) (hl : xs.length ≤ N) (hxs : ∀ x ∈ xs, rnd x = x ∧ |x| ≤ M) :
    |(mst (Arith.rounded rnd pw) w none xs).2 2 - csum 2 (lastN w xs)| ≤ 250 * xs.length * (lastN w xs).length * (u * (M * M)) := by
  have hf : MulAcc (fun a b => if a = b then pw a 2 else rnd (a * b)) u t := by
    intro a b
    beta_reduce
    by_cases h : a = b
    · subst h
      rw [if_pos rfl, abs_of_nonneg (mul_self_nonneg a)]
      exact P.two a
    · rw [if_neg h]
      exact hE _
  have h := pairS_linear R hE hf hN ⟨S, S, S.tMM⟩ P w (xs.map fun x => (x, x)) (by simpa using hl) (by
    intro p hp
    obtain ⟨x, hx, rfl⟩ := List.mem_map.1 hp
    exact ⟨hxs x hx, hxs x hx⟩)
  rwa [JFP.pairS_mst R (f := fun a b => if a = b then pw a 2 else rnd (a * b)) (fun x _ => if_pos rfl), JFP.lastN_map, cpair_diag, List.length_map, List.length_map] at h

end
end Verif.FP
