import Verif.Proofs.MomentMetric
import Verif.Spec.Quantile

/-! # C91: inequalities between the statistics of one list -/

namespace Verif.Spec
open Verif

section field
variable {K : Type} [Field K] [LinearOrder K] [IsStrictOrderedRing K]

theorem csum_one {xs : List K} (h : xs ≠ []) : csum 1 xs = 0 := by
  have hn : (xs.length : K) ≠ 0 := by
    have := List.length_pos_iff.2 h
    exact_mod_cast this.ne'
  have e : ∀ (c : K) (l : List K), (l.map (fun x => (x - c) ^ 1)).sum = l.sum - l.length * c := by
    intro c l
    induction l with
    | nil => simp
    | cons y t ih => simp only [List.map_cons, List.sum_cons, ih, List.length_cons]; push_cast; ring
  rw [csum, e, mean]
  field_simp
  ring

theorem sum_poly (μ c0 c1 c2 c3 c4 : K) (l : List K) :
    (l.map fun x => c4 * (x - μ) ^ 4 + c3 * (x - μ) ^ 3 + c2 * (x - μ) ^ 2 + c1 * (x - μ) ^ 1 + c0).sum =
      c4 * (l.map fun x => (x - μ) ^ 4).sum + c3 * (l.map fun x => (x - μ) ^ 3).sum + c2 * (l.map fun x => (x - μ) ^ 2).sum +
        c1 * (l.map fun x => (x - μ) ^ 1).sum + l.length * c0 := by
  induction l with
  | nil => simp
  | cons y t ih => simp only [List.map_cons, List.sum_cons, ih, List.length_cons]; push_cast; ring

/-- A polynomial of degree 4 that is not negative at the deviations of the values. -/
theorem poly_nonneg {xs : List K} (hx : xs ≠ []) (c0 c1 c2 c3 c4 : K)
    (h : ∀ x ∈ xs, 0 ≤ c4 * (x - mean xs) ^ 4 + c3 * (x - mean xs) ^ 3 + c2 * (x - mean xs) ^ 2 + c1 * (x - mean xs) ^ 1 + c0) :
    0 ≤ c4 * csum 4 xs + c3 * csum 3 xs + c2 * csum 2 xs + xs.length * c0 := by
  have h1 := sum_poly (mean xs) c0 c1 c2 c3 c4 xs
  have h2 : (xs.map fun x => (x - mean xs) ^ 1).sum = 0 := csum_one hx
  rw [h2, mul_zero, add_zero] at h1
  have h3 : 0 ≤ (xs.map fun x => c4 * (x - mean xs) ^ 4 + c3 * (x - mean xs) ^ 3 + c2 * (x - mean xs) ^ 2 + c1 * (x - mean xs) ^ 1 + c0).sum := by
    apply List.sum_nonneg
    intro y hy
    obtain ⟨x, hx, rfl⟩ := List.mem_map.1 hy
    exact h x hx
  rw [h1] at h3
  exact h3

theorem csum_even_nonneg {k : Nat} (hk : Even k) (xs : List K) : 0 ≤ csum k xs := by
  apply List.sum_nonneg
  intro y hy
  obtain ⟨x, -, rfl⟩ := List.mem_map.1 hy
  exact hk.pow_nonneg _

/-- Samuelson's inequality. -/
theorem samuelson {xs : List K} {x : K} (h : x ∈ xs) : xs.length * (x - mean xs) ^ 2 ≤ (xs.length - 1) * csum 2 xs := by
  have hx := List.ne_nil_of_mem h
  obtain ⟨a, b, e⟩ := List.append_of_mem h
  set μ := mean xs with hμ
  have e1 : csum 1 xs = (x - μ) ^ 1 + ((a ++ b).map fun y => (y - μ) ^ 1).sum := by
    rw [csum, ← hμ, e]; simp; ring
  have e2 : csum 2 xs = (x - μ) ^ 2 + ((a ++ b).map fun y => (y - μ) ^ 2).sum := by
    rw [csum, ← hμ, e]; simp; ring
  have hl : (xs.length : K) = (a ++ b).length + 1 := by rw [e]; simp; ring
  rw [csum_one hx] at e1
  have key : ∀ l : List K, ∀ c : K, 0 ≤ (l.map fun y => (y - μ) ^ 2).sum - 2 * c * (l.map fun y => (y - μ) ^ 1).sum + l.length * c ^ 2 := by
    intro l c
    induction l with
    | nil => simp
    | cons y t ih =>
      simp only [List.map_cons, List.sum_cons, List.length_cons]
      push_cast
      nlinarith [sq_nonneg (y - μ - c)]
  rcases Nat.eq_zero_or_pos (a ++ b).length with h0 | h0
  · have : a ++ b = [] := List.length_eq_zero_iff.1 h0
    rw [this] at e1
    simp at e1
    rw [hl, h0]
    simp
    rw [← e1]
  · have hp : (0 : K) < (a ++ b).length := by exact_mod_cast h0
    have := key (a ++ b) (-(x - μ) / (a ++ b).length)
    have e3 : ((a ++ b).map fun y => (y - μ) ^ 1).sum = -(x - μ) := by linarith
    rw [e3] at this
    set S := ((a ++ b).map fun y => (y - μ) ^ 2).sum
    set N : K := ((a ++ b).length : K)
    have e4 : S - 2 * (-(x - μ) / N) * -(x - μ) + N * (-(x - μ) / N) ^ 2 = S - (x - μ) ^ 2 / N := by
      field_simp; ring
    rw [e4, sub_nonneg, div_le_iff₀ hp] at this
    rw [hl, e2]
    nlinarith

/-- Bhatia and Davis. -/
theorem bhatia_davis {xs : List K} (hx : xs ≠ []) {a b : K} (ha : ∀ x ∈ xs, a ≤ x) (hb : ∀ x ∈ xs, x ≤ b) :
    csum 2 xs ≤ xs.length * ((b - mean xs) * (mean xs - a)) := by
  have := poly_nonneg hx ((b - mean xs) * (mean xs - a)) (b - mean xs - (mean xs - a)) (-1) 0 0 (fun x h => by
    have := mul_nonneg (sub_nonneg.2 (ha x h)) (sub_nonneg.2 (hb x h))
    nlinarith)
  linarith

theorem mean_mem_Icc {xs : List K} (hx : xs ≠ []) {a b : K} (ha : ∀ x ∈ xs, a ≤ x) (hb : ∀ x ∈ xs, x ≤ b) : a ≤ mean xs ∧ mean xs ≤ b := by
  have hn : (0 : K) < xs.length := by exact_mod_cast List.length_pos_iff.2 hx
  have h1 := poly_nonneg hx (mean xs - a) 1 0 0 0 (fun x h => by linarith [ha x h])
  have h2 := poly_nonneg hx (b - mean xs) (-1) 0 0 0 (fun x h => by linarith [hb x h])
  constructor <;> nlinarith

/-- The range is at most √2 times the root of the sum of squares. -/
theorem range_sq_le {xs : List K} {a b : K} (ha : a ∈ xs) (hb : b ∈ xs) : (b - a) ^ 2 ≤ 2 * csum 2 xs := by
  by_cases h : a = b
  · subst h
    have := csum_even_nonneg (by decide : Even 2) xs
    simpa using this
  · obtain ⟨s, t, e⟩ := List.append_of_mem ha
    have hb' : b ∈ s ++ t := by
      rw [e] at hb
      simp only [List.mem_append, List.mem_cons] at hb ⊢
      rcases hb with h' | h' | h'
      · exact Or.inl h'
      · exact absurd h'.symm h
      · exact Or.inr h'
    obtain ⟨s', t', e'⟩ := List.append_of_mem hb'
    set μ := mean xs with hμ
    have e2 : csum 2 xs = (a - μ) ^ 2 + ((s ++ t).map fun y => (y - μ) ^ 2).sum := by
      rw [csum, ← hμ, e]; simp; ring
    have e3 : ((s ++ t).map fun y => (y - μ) ^ 2).sum = (b - μ) ^ 2 + ((s' ++ t').map fun y => (y - μ) ^ 2).sum := by
      rw [e']; simp; ring
    have h0 : 0 ≤ ((s' ++ t').map fun y => (y - μ) ^ 2).sum := by
      apply List.sum_nonneg
      intro y hy
      obtain ⟨x, -, rfl⟩ := List.mem_map.1 hy
      positivity
    nlinarith [sq_nonneg (a + b - 2 * μ)]

/-- Pearson's inequality between skewness and kurtosis. -/
theorem pearson_skew_kurt {xs : List K} (h : csum 2 xs ≠ 0) :
    popMoment 3 xs ^ 2 / popMoment 2 xs ^ 3 - 2 ≤ exKurtosis xs := by
  have hx : xs ≠ [] := by rintro rfl; simp [csum] at h
  have hn : (0 : K) < xs.length := by exact_mod_cast List.length_pos_iff.2 hx
  have hp : 0 < csum 2 xs := lt_of_le_of_ne (csum_even_nonneg (by decide) xs) (Ne.symm h)
  have key : ∀ p q : K, 0 ≤ csum 4 xs - 2 * p * csum 3 xs + (p ^ 2 - 2 * q) * csum 2 xs + xs.length * q ^ 2 := by
    intro p q
    have := poly_nonneg hx (q ^ 2) (2 * p * q) (p ^ 2 - 2 * q) (-2 * p) 1 (fun x _ => by
      nlinarith [sq_nonneg ((x - mean xs) ^ 2 - p * (x - mean xs) - q)])
    linarith
  have := key (csum 3 xs / csum 2 xs) (csum 2 xs / xs.length)
  unfold exKurtosis popMoment
  rw [div_sub' (by positivity), div_sub' (by positivity), div_le_div_iff₀ (by positivity) (by positivity)]
  have e : csum 4 xs - 2 * (csum 3 xs / csum 2 xs) * csum 3 xs + ((csum 3 xs / csum 2 xs) ^ 2 - 2 * (csum 2 xs / xs.length)) * csum 2 xs +
      xs.length * (csum 2 xs / xs.length) ^ 2 = csum 4 xs - csum 3 xs ^ 2 / csum 2 xs - csum 2 xs ^ 2 / xs.length := by
    field_simp; ring
  rw [e] at this
  set n : K := (xs.length : K)
  set A := csum 2 xs
  set B := csum 3 xs
  set C := csum 4 xs
  have h2 : 0 ≤ C * A * n - B ^ 2 * n - A ^ 3 := by
    have := mul_nonneg this (mul_pos hp hn).le
    have e : (C - B ^ 2 / A - A ^ 2 / n) * (A * n) = C * A * n - B ^ 2 * n - A ^ 3 := by field_simp
    linarith
  have e1 : ((B / n) ^ 2 - (A / n) ^ 3 * 2) * (A / n) ^ 2 = (B ^ 2 * n - A ^ 3 * 2) * A ^ 2 / n ^ 5 := by field_simp
  have e2 : (C / n - (A / n) ^ 2 * 3) * (A / n) ^ 3 = (C * n - A ^ 2 * 3) * A ^ 3 / n ^ 5 := by field_simp
  rw [e1, e2]
  apply div_le_div_of_nonneg_right _ (by positivity)
  nlinarith [mul_nonneg h2 (sq_nonneg A)]

theorem exKurtosis_le {xs : List K} (h : csum 2 xs ≠ 0) : exKurtosis xs ≤ xs.length - 4 := by
  have hx : xs ≠ [] := by rintro rfl; simp [csum] at h
  have hn : (0 : K) < xs.length := by exact_mod_cast List.length_pos_iff.2 hx
  have hp : 0 < csum 2 xs := lt_of_le_of_ne (csum_even_nonneg (by decide) xs) (Ne.symm h)
  have := poly_nonneg hx 0 0 ((xs.length - 1) * csum 2 xs) 0 (-xs.length) (fun x hx => by
    have h1 := mul_nonneg (sub_nonneg.2 (samuelson hx)) (sq_nonneg (x - mean xs))
    nlinarith)
  unfold exKurtosis popMoment
  have e : csum 4 xs / xs.length / (csum 2 xs / xs.length) ^ 2 = xs.length * csum 4 xs / csum 2 xs ^ 2 := by field_simp
  rw [e]
  have : xs.length * csum 4 xs / csum 2 xs ^ 2 ≤ xs.length - 1 := by
    rw [div_le_iff₀ (by positivity)]
    nlinarith
  linarith

/-! ## The median -/

theorem median_counts {l : List K} {m : K} (h : IsMedian (l : Multiset K) m) :
    2 * l.countP (· < m) ≤ l.length ∧ l.length ≤ 2 * l.countP (· ≤ m) := by
  have f1 : ∀ v : K, (Multiset.filter (· < v) (l : Multiset K)).card = l.countP (· < v) := fun v => by
    rw [← Multiset.countP_eq_card_filter, Multiset.coe_countP]
  have f2 : ∀ v : K, (Multiset.filter (· ≤ v) (l : Multiset K)).card = l.countP (· ≤ v) := fun v => by
    rw [← Multiset.countP_eq_card_filter, Multiset.coe_countP]
  have mono : ∀ {p q : K → Bool}, (∀ x, p x = true → q x = true) → l.countP p ≤ l.countP q := fun {p q} h => List.countP_mono_left fun x _ => h x
  rcases h with ⟨i, hc, -, h1, h2⟩ | ⟨i, a, b, hc, ⟨-, h1, h2⟩, ⟨-, h3, h4⟩, rfl⟩
  · rw [f1] at h1
    rw [f2] at h2
    rw [Multiset.coe_card] at hc
    omega
  · rw [f1] at h1 h3
    rw [f2] at h2 h4
    rw [Multiset.coe_card] at hc
    have hab : a ≤ b := by
      by_contra hlt
      have := mono (p := (· ≤ b)) (q := (· < a)) fun x hx => by
        simp only [decide_eq_true_eq] at hx ⊢
        exact lt_of_le_of_lt hx (not_le.1 hlt)
      omega
    have g1 := mono (p := (· < (a + b) / 2)) (q := (· < b)) fun x hx => by
      simp only [decide_eq_true_eq] at hx ⊢
      linarith
    have g2 := mono (p := (· ≤ a)) (q := (· ≤ (a + b) / 2)) fun x hx => by
      simp only [decide_eq_true_eq] at hx ⊢
      linarith
    omega

theorem sum_abs_sub (m c : K) (p : K → Bool) (hp : ∀ x, (if p x then c - m else m - c) ≤ |x - c| - |x - m|) (l : List K) :
    (c - m) * (2 * l.countP p - l.length) ≤ (l.map fun x => |x - c|).sum - (l.map fun x => |x - m|).sum := by
  induction l with
  | nil => simp
  | cons y t ih =>
    have := hp y
    simp only [List.map_cons, List.sum_cons, List.countP_cons, List.length_cons]
    push_cast
    split_ifs at this ⊢ with h <;> push_cast <;> linarith

/-- The median minimises the sum of the distances. -/
theorem median_min {l : List K} {m : K} (h : IsMedian (l : Multiset K) m) (c : K) :
    (l.map fun x => |x - m|).sum ≤ (l.map fun x => |x - c|).sum := by
  obtain ⟨h1, h2⟩ := median_counts h
  have h1 : 2 * (l.countP (· < m) : K) ≤ l.length := by exact_mod_cast h1
  have h2 : (l.length : K) ≤ 2 * l.countP (· ≤ m) := by exact_mod_cast h2
  rcases le_total m c with hc | hc
  · have := sum_abs_sub m c (· ≤ m) (fun x => by
      by_cases hx : x ≤ m
      · simp only [hx, decide_true, if_true]
        rw [abs_of_nonpos (by linarith : x - c ≤ 0), abs_of_nonpos (by linarith : x - m ≤ 0)]
        linarith
      · simp only [hx, decide_false, Bool.false_eq_true, if_false]
        have := abs_sub_abs_le_abs_sub (x - m) (x - c)
        have e : |x - m - (x - c)| = c - m := by rw [abs_of_nonneg] <;> linarith
        linarith) l
    nlinarith
  · have := sum_abs_sub m c (· < m) (fun x => by
      by_cases hx : x < m
      · simp only [hx, decide_true, if_true]
        have := abs_sub_abs_le_abs_sub (x - m) (x - c)
        have e : |x - m - (x - c)| = m - c := by rw [abs_of_nonpos] <;> linarith
        linarith
      · simp only [hx, decide_false, Bool.false_eq_true, if_false]
        rw [abs_of_nonneg (by linarith : 0 ≤ x - c), abs_of_nonneg (by linarith : 0 ≤ x - m)]
        linarith) l
    nlinarith

/-- Mean and median differ by at most the standard deviation of the population. -/
theorem median_mean {l : List K} {m : K} (hl : l ≠ []) (h : IsMedian (l : Multiset K) m) : l.length * (m - mean l) ^ 2 ≤ csum 2 l := by
  have hn : (0 : K) < l.length := by exact_mod_cast List.length_pos_iff.2 hl
  have a1 : ∀ (c : K) (t : List K), |(t.map fun x => (x - c) ^ 1).sum| ≤ (t.map fun x => |x - c|).sum := by
    intro c t
    induction t with
    | nil => simp
    | cons y t ih =>
      simp only [List.map_cons, List.sum_cons, pow_one] at ih ⊢
      exact (abs_add_le _ _).trans (add_le_add_right ih _)
  have a2 : ∀ (c : K) (t : List K), (t.map fun x => (x - c) ^ 1).sum = t.sum - t.length * c := by
    intro c t
    induction t with
    | nil => simp
    | cons y t ih => simp only [List.map_cons, List.sum_cons, ih, List.length_cons]; push_cast; ring
  have a3 : ∀ (c u : K) (t : List K), 2 * u * (t.map fun x => |x - c|).sum ≤ (t.map fun x => (x - c) ^ 2).sum + t.length * u ^ 2 := by
    intro c u t
    induction t with
    | nil => simp
    | cons y t ih =>
      simp only [List.map_cons, List.sum_cons, List.length_cons]
      push_cast
      nlinarith [sq_nonneg (|y - c| - u), sq_abs (y - c)]
  have hs : l.sum = l.length * mean l := by rw [mean]; field_simp
  have b1 : l.length * |m - mean l| ≤ (l.map fun x => |x - mean l|).sum := by
    refine le_trans ?_ ((a1 m l).trans (median_min h (mean l)))
    rw [a2, hs, ← mul_sub, abs_mul, abs_of_pos hn, abs_sub_comm]
  have b2 := a3 (mean l) |m - mean l| l
  rw [← sq_abs]
  have : 0 ≤ |m - mean l| := abs_nonneg _
  unfold csum
  nlinarith [mul_le_mul_of_nonneg_left b1 this]

end field

/-! ## Skewness -/

theorem csum_three_le {xs : List ℝ} (h : csum 2 xs ≠ 0) (h2 : 2 ≤ xs.length) {a s : ℝ} (ha : a ^ 2 = xs.length - 1) (ha0 : 0 < a)
    (hs : s ^ 2 = csum 2 xs / xs.length) (hs0 : 0 < s) : |csum 3 xs| * a ≤ xs.length * s ^ 3 * (xs.length - 2) := by
  have hx : xs ≠ [] := by rintro rfl; simp [csum] at h
  have hn : (0 : ℝ) < xs.length := by exact_mod_cast List.length_pos_iff.2 hx
  have hc : csum 2 xs = xs.length * s ^ 2 := by rw [hs]; field_simp
  have hb : ∀ x ∈ xs, |x - mean xs| ≤ a * s := by
    intro x hx
    have := samuelson hx
    rw [hc, ← ha] at this
    apply abs_le_of_sq_le_sq _ (by positivity)
    have h3 : xs.length * ((x - mean xs) ^ 2) ≤ xs.length * ((a * s) ^ 2) := by nlinarith
    exact le_of_mul_le_mul_left h3 hn
  have p1 := poly_nonneg hx (s ^ 3 * a) (2 * s ^ 2 * a ^ 2 - s ^ 2) (a ^ 3 * s - 2 * s * a) (-a ^ 2) 0 (fun x hx => by
    have h1 := (abs_le.1 (hb x hx)).2
    have := mul_nonneg (sub_nonneg.2 h1) (sq_nonneg (a * (x - mean xs) + s))
    nlinarith)
  have p2 := poly_nonneg hx (s ^ 3 * a) (-(2 * s ^ 2 * a ^ 2 - s ^ 2)) (a ^ 3 * s - 2 * s * a) (a ^ 2) 0 (fun x hx => by
    have h1 := (abs_le.1 (hb x hx)).1
    have := mul_nonneg (by linarith : 0 ≤ a * s + (x - mean xs)) (sq_nonneg (a * (x - mean xs) - s))
    nlinarith)
  rw [hc] at p1 p2
  have e : xs.length * s ^ 3 * ((xs.length : ℝ) - 2) = xs.length * s ^ 3 * (a ^ 2 - 1) := by rw [ha]; ring
  rw [e]
  have q1 : 0 ≤ a * (xs.length * s ^ 3 * (a ^ 2 - 1) - csum 3 xs * a) := by nlinarith
  have q2 : 0 ≤ a * (xs.length * s ^ 3 * (a ^ 2 - 1) + csum 3 xs * a) := by nlinarith
  have r1 := nonneg_of_mul_nonneg_right q1 ha0
  have r2 := nonneg_of_mul_nonneg_right q2 ha0
  have : |csum 3 xs| * a = |csum 3 xs * a| := by rw [abs_mul, abs_of_pos ha0]
  rw [this, abs_le]
  constructor <;> linarith

theorem abs_skewness_le {xs : List ℝ} (h : csum 2 xs ≠ 0) (h3 : 3 ≤ xs.length) : |skewness xs| ≤ Real.sqrt xs.length := by
  have hn : (3 : ℝ) ≤ xs.length := by exact_mod_cast h3
  have hp : 0 < csum 2 xs := lt_of_le_of_ne (csum_even_nonneg (by decide) xs) (Ne.symm h)
  have hm : 0 < popMoment 2 xs := div_pos hp (by linarith)
  set a := Real.sqrt (xs.length - 1) with ha
  set s := Real.sqrt (popMoment 2 xs) with hs
  have ha0 : 0 < a := Real.sqrt_pos.2 (by linarith)
  have hs0 : 0 < s := Real.sqrt_pos.2 hm
  have ha2 : a ^ 2 = xs.length - 1 := Real.sq_sqrt (by linarith)
  have hs2 : s ^ 2 = csum 2 xs / xs.length := Real.sq_sqrt hm.le
  have key := csum_three_le h (by omega) ha2 ha0 hs2 hs0
  have e15 : popMoment 2 xs ^ (3 / 2 : ℝ) = s ^ 3 := by
    rw [hs, Real.sqrt_eq_rpow, ← Real.rpow_natCast, ← Real.rpow_mul hm.le]
    norm_num
  unfold skewness
  rw [e15, Real.sqrt_mul (by linarith), ← ha, abs_div, abs_of_pos (pow_pos hs0 3), div_le_iff₀ (pow_pos hs0 3), abs_mul, abs_div, abs_mul,
    abs_of_nonneg (Real.sqrt_nonneg _), abs_of_pos ha0, abs_of_pos (by linarith : (0 : ℝ) < xs.length - 2), popMoment, abs_div,
    abs_of_pos (by linarith : (0 : ℝ) < xs.length)]
  rw [div_mul_div_comm, div_le_iff₀ (by nlinarith)]
  have h0 := Real.sqrt_nonneg (xs.length : ℝ)
  nlinarith [mul_le_mul_of_nonneg_left key h0]

end Verif.Spec
