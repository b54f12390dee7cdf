import Verif.Proofs.Variance
import Verif.Proofs.JointColumn

/-! # Accuracy of the sum of products of deviations -/

namespace Verif.FP
open Verif.Spec Verif.MathUtil
open Verif.JFP (pairS roomP roomMean newRule pairS_append pairS_nil addRule removeRule)

section
variable {rnd : ℚ → ℚ} {pw : ℚ → Nat → ℚ} {u t : ℚ}

/-- Two bounds of data, each and their product large compared with underflow. -/
structure Small2 (u t M₁ M₂ : ℚ) (N : Nat) : Prop where
  fst : Small u t M₁ N
  snd : Small u t M₂ N
  prod : t ≤ u * u * (M₁ * M₂)

/-- The computed product of two deviations. -/
theorem prod_err (hE : Accuracy rnd u t) {M₁ M₂ : ℚ} {N : Nat} (S : Small2 u t M₁ M₂ N) {x₁ m₁ μ₁ x₂ m₂ μ₂ ε : ℚ} (hx₁ : |x₁| ≤ M₁)
    (hx₂ : |x₂| ≤ M₂) (hμ₁ : |μ₁| ≤ M₁) (hμ₂ : |μ₂| ≤ M₂) (he₁ : |m₁ - μ₁| ≤ ε * M₁) (he₂ : |m₂ - μ₂| ≤ ε * M₂) (hε0 : 0 ≤ ε) (hε : ε ≤ 1 / 8) :
    |rnd (rnd (x₁ - m₁) * rnd (x₂ - m₂))| ≤ 455 / 100 * (M₁ * M₂) ∧
      |rnd (rnd (x₁ - m₁) * rnd (x₂ - m₂)) - (x₁ - μ₁) * (x₂ - μ₂)| ≤ 137 / 10 * (u * (M₁ * M₂)) + 414 / 100 * (ε * (M₁ * M₂)) := by
  have hu := S.fst.u0
  have hu1 := S.fst.u1
  have dev : ∀ {M x m μ : ℚ}, Small u t M N → |x| ≤ M → |μ| ≤ M → |m - μ| ≤ ε * M →
      |rnd (x - m)| ≤ 213 / 100 * M ∧ |rnd (x - m) - (x - μ)| ≤ 22 / 10 * (u * M) + ε * M ∧ |x - μ| ≤ 2 * M := by
    intro M x m μ S hx hμ he
    have hM := S.M0
    have htM := S.tM
    have huM : 0 ≤ u * M := by positivity
    have ht1 : t ≤ u * M / 1024 := by nlinarith
    have hu2 : u * M ≤ M / 1024 := by nlinarith
    have hεM : ε * M ≤ M / 8 := by nlinarith
    have hxm : |x - m| ≤ 17 / 8 * M := by
      rw [abs_le] at hx hμ he ⊢
      constructor <;> linarith
    have hd := hE (x - m)
    have hδ1 : |rnd (x - m) - (x - m)| ≤ 22 / 10 * (u * M) := by
      have := mul_le_mul_of_nonneg_left hxm hu
      linarith
    refine ⟨?_, ?_, ?_⟩
    · rw [abs_le] at hxm hδ1 ⊢
      constructor <;> linarith
    · rw [abs_le] at hδ1 he ⊢
      constructor <;> linarith
    · rw [abs_le] at hx hμ ⊢
      constructor <;> linarith
  obtain ⟨a1, b1, c1⟩ := dev S.fst hx₁ hμ₁ he₁
  obtain ⟨a2, b2, c2⟩ := dev S.snd hx₂ hμ₂ he₂
  have hM1 := S.fst.M0
  have hM2 := S.snd.M0
  have hMM : 0 ≤ M₁ * M₂ := by positivity
  have huMM : 0 ≤ u * (M₁ * M₂) := by positivity
  have hεMM : 0 ≤ ε * (M₁ * M₂) := by positivity
  have ht2 : t ≤ u * (M₁ * M₂) / 1024 := by nlinarith [S.prod]
  have hu3 : u * (M₁ * M₂) ≤ (M₁ * M₂) / 1024 := by nlinarith
  set δ₁ := rnd (x₁ - m₁)
  set δ₂ := rnd (x₂ - m₂)
  have hδδ : |δ₁ * δ₂| ≤ 454 / 100 * (M₁ * M₂) := by
    rw [abs_mul]
    have := mul_le_mul a1 a2 (abs_nonneg _) (by positivity)
    nlinarith
  have hq1 : |rnd (δ₁ * δ₂) - δ₁ * δ₂| ≤ 46 / 10 * (u * (M₁ * M₂)) := by
    have h1 := hE (δ₁ * δ₂)
    have := mul_le_mul_of_nonneg_left hδδ hu
    linarith
  have hs : |δ₁ * δ₂ - (x₁ - μ₁) * (x₂ - μ₂)| ≤ 91 / 10 * (u * (M₁ * M₂)) + 414 / 100 * (ε * (M₁ * M₂)) := by
    rw [show δ₁ * δ₂ - (x₁ - μ₁) * (x₂ - μ₂) = (δ₁ - (x₁ - μ₁)) * δ₂ + (x₁ - μ₁) * (δ₂ - (x₂ - μ₂)) by ring]
    refine (abs_add_le _ _).trans ?_
    rw [abs_mul, abs_mul]
    have h1 := mul_le_mul b1 a2 (abs_nonneg _) (by positivity)
    have h2 := mul_le_mul c1 b2 (abs_nonneg _) (by positivity)
    nlinarith
  refine ⟨?_, ?_⟩
  · rw [abs_le] at hq1 hδδ ⊢
    constructor <;> linarith
  · rw [abs_le] at hq1 hs ⊢
    constructor <;> linarith

/-- One update of the sum of products: `σ = 1` adds, `σ = −1` removes a pair. -/
theorem prod_step (hE : Accuracy rnd u t) {M₁ M₂ : ℚ} {N : Nat} (S : Small2 u t M₁ M₂ N) (P : PowSq pw u t N) {n : Nat} (hn : 2 ≤ n) (hnN : n ≤ N)
    {x₁ m₁ μ₁ x₂ m₂ μ₂ ε s σ B : ℚ} (hσ : |σ| = 1) (hx₁ : |x₁| ≤ M₁) (hx₂ : |x₂| ≤ M₂) (hμ₁ : |μ₁| ≤ M₁) (hμ₂ : |μ₂| ≤ M₂)
    (he₁ : |m₁ - μ₁| ≤ ε * M₁) (he₂ : |m₂ - μ₂| ≤ ε * M₂) (hε0 : 0 ≤ ε) (hε : ε ≤ 1 / 8)
    (hB : |s + σ * (((n : ℚ) - 1) / n * ((x₁ - μ₁) * (x₂ - μ₂)))| ≤ B) :
    |rnd (s + σ * rnd (rnd (rnd (((n : ℚ) - 1) / pw n 2) * n) * rnd (rnd (x₁ - m₁) * rnd (x₂ - m₂)))) -
        (s + σ * (((n : ℚ) - 1) / n * ((x₁ - μ₁) * (x₂ - μ₂))))|
      ≤ 38 * (u * (M₁ * M₂)) + 42 / 10 * (ε * (M₁ * M₂)) + u * B := by
  obtain ⟨hq0, hq⟩ := prod_err hE S hx₁ hx₂ hμ₁ hμ₂ he₁ he₂ hε0 hε
  have hM : 0 ≤ M₁ * M₂ := mul_nonneg S.fst.M0 S.snd.M0
  have htMM := S.prod
  obtain ⟨hu, ht, hu1, hNu, -, htu, -, -⟩ := S.fst
  have hn2 : (2 : ℚ) ≤ n := by exact_mod_cast hn
  have hnu : (n : ℚ) * u ≤ 1 / 1024 := by
    refine le_trans (mul_le_mul_of_nonneg_right ?_ hu) hNu
    exact_mod_cast hnN
  have hc := coef_err hE hu hu1 ht htu hn2 hnu (P.two n)
  set q := rnd (rnd (x₁ - m₁) * rnd (x₂ - m₂))
  set c := rnd (rnd (((n : ℚ) - 1) / pw n 2) * n)
  set κ := ((n : ℚ) - 1) / n
  set W := M₁ * M₂
  have hn0 : (0 : ℚ) < n := by linarith
  have hk1 : κ ≤ 1 := by rw [div_le_one hn0]; linarith
  have hk0 : 0 ≤ κ := div_nonneg (by linarith) hn0.le
  have huMM : 0 ≤ u * W := by positivity
  have heM0 : 0 ≤ ε * W := by positivity
  have ht2 : t ≤ u * W / 1024 := by nlinarith
  have hu3 : u * W ≤ W / 1024 := by nlinarith
  have hc1 : |c| ≤ 101 / 100 := by
    rw [abs_le] at hc ⊢
    constructor <;> linarith
  have hcq : |c * q| ≤ 46 / 10 * W := by
    rw [abs_mul]
    have := mul_le_mul hc1 hq0 (abs_nonneg _) (by norm_num)
    linarith
  have hg1 : |rnd (c * q) - c * q| ≤ 47 / 10 * (u * W) := by
    have h1 := hE (c * q)
    have h2 := mul_le_mul_of_nonneg_left hcq hu
    linarith
  set z₀ := (x₁ - μ₁) * (x₂ - μ₂)
  have hg2 : |c * q - κ * z₀| ≤ 319 / 10 * (u * W) + 414 / 100 * (ε * W) := by
    rw [show c * q - κ * z₀ = (c - κ) * q + κ * (q - z₀) by ring]
    refine (abs_add_le _ _).trans ?_
    rw [abs_mul, abs_mul, abs_of_nonneg hk0]
    have h1 := mul_le_mul hc hq0 (abs_nonneg _) (by positivity)
    have h2 := mul_le_mul hk1 hq (abs_nonneg _) (by norm_num)
    linarith
  have hg : |rnd (c * q) - κ * z₀| ≤ 37 * (u * W) + 414 / 100 * (ε * W) := by
    rw [abs_le] at hg1 hg2 ⊢
    constructor <;> linarith
  set g := rnd (c * q)
  set z := κ * z₀
  have h1 : |(s + σ * g) - (s + σ * z)| ≤ 37 * (u * W) + 414 / 100 * (ε * W) := by
    rw [show (s + σ * g) - (s + σ * z) = σ * (g - z) by ring, abs_mul, hσ, one_mul]
    exact hg
  have h2 := hE (s + σ * g)
  have h3 : |s + σ * g| ≤ B + (37 * (u * W) + 414 / 100 * (ε * W)) := by
    rw [abs_le] at h1 hB ⊢
    constructor <;> linarith
  have h4 := mul_le_mul_of_nonneg_left h3 hu
  have h5 : u * (37 * (u * W) + 414 / 100 * (ε * W)) ≤ (37 * (u * W) + 414 / 100 * (ε * W)) / 1024 := by
    have := mul_le_mul_of_nonneg_right hu1 (show 0 ≤ 37 * (u * W) + 414 / 100 * (ε * W) by positivity)
    linarith
  have e' : rnd (s + σ * g) - (s + σ * z) = (rnd (s + σ * g) - (s + σ * g)) + ((s + σ * g) - (s + σ * z)) := by ring
  rw [e']
  have c1 := abs_add_le (rnd (s + σ * g) - (s + σ * g)) ((s + σ * g) - (s + σ * z))
  linarith

/-! ### The exact sum of products -/

/-- The sum of products of deviations. -/
def cpair (ps : List (ℚ × ℚ)) : ℚ :=
  (ps.map fun p => (p.1 - Spec.mean (ps.map (·.1))) * (p.2 - Spec.mean (ps.map (·.2)))).sum

theorem sum_prod (a b : ℚ) (ps : List (ℚ × ℚ)) : (ps.map fun p => (p.1 - a) * (p.2 - b)).sum =
    (ps.map fun p => p.1 * p.2).sum - b * (ps.map (·.1)).sum - a * (ps.map (·.2)).sum + ps.length * (a * b) := by
  induction ps with
  | nil => simp
  | cons p ps ih =>
    simp only [List.map_cons, List.sum_cons, List.length_cons, ih]
    push_cast
    ring

theorem cpair_eq (ps : List (ℚ × ℚ)) :
    cpair ps + (ps.map (·.1)).sum * Spec.mean (ps.map (·.2)) = (ps.map fun p => p.1 * p.2).sum := by
  unfold cpair
  rw [sum_prod]
  by_cases h : ps = []
  · subst h; simp
  · have h1 : (ps.length : ℚ) ≠ 0 := by
      have := List.length_pos_iff.2 h
      exact_mod_cast this.ne'
    unfold Spec.mean
    rw [List.length_map, List.length_map]
    field_simp
    ring

theorem cpair_snoc (ps : List (ℚ × ℚ)) (p : ℚ × ℚ) : cpair (ps ++ [p]) = cpair ps +
    (((ps.length + 1 : Nat) : ℚ) - 1) / ((ps.length + 1 : Nat) : ℚ) *
      ((p.1 - Spec.mean (ps.map (·.1))) * (p.2 - Spec.mean (ps.map (·.2)))) := by
  have h1 := cpair_eq (ps ++ [p])
  have h2 := cpair_eq ps
  have h3 : (ps.length : ℚ) + 1 ≠ 0 := by exact_mod_cast Nat.succ_ne_zero ps.length
  simp only [List.map_append, List.map_cons, List.map_nil, List.sum_append, List.sum_cons, List.sum_nil, Moment.mean_snoc, List.length_map] at h1
  rw [← h2] at h1
  have hs : (ps.map (·.1)).sum = ps.length * Spec.mean (ps.map (·.1)) := by
    by_cases h : ps = []
    · subst h; simp
    · have h1 : (ps.length : ℚ) ≠ 0 := by
        have := List.length_pos_iff.2 h
        exact_mod_cast this.ne'
      unfold Spec.mean
      rw [List.length_map]
      field_simp
  rw [hs] at h1
  push_cast
  have e := eq_sub_of_add_eq h1
  rw [e]
  field_simp
  ring

theorem cpair_perm {ps qs : List (ℚ × ℚ)} (h : ps.Perm qs) : cpair ps = cpair qs := by
  unfold cpair
  rw [Moment.mean_perm (h.map _), Moment.mean_perm (h.map _)]
  exact (h.map _).sum_eq

theorem cpair_le {M₁ M₂ : ℚ} (h₁ : 0 ≤ M₁) (h₂ : 0 ≤ M₂) {ps : List (ℚ × ℚ)} (h : ∀ p ∈ ps, |p.1| ≤ M₁ ∧ |p.2| ≤ M₂) :
    |cpair ps| ≤ ps.length * (4 * (M₁ * M₂)) := by
  have m1 := abs_mean_le h₁ (xs := ps.map (·.1)) (fun x hx => by
    obtain ⟨p, hp, rfl⟩ := List.mem_map.1 hx
    exact (h p hp).1)
  have m2 := abs_mean_le h₂ (xs := ps.map (·.2)) (fun x hx => by
    obtain ⟨p, hp, rfl⟩ := List.mem_map.1 hx
    exact (h p hp).2)
  unfold cpair
  generalize Spec.mean (ps.map (·.1)) = a at *
  generalize Spec.mean (ps.map (·.2)) = b at *
  induction ps with
  | nil => simp
  | cons p ps ih =>
    have h1 := ih (fun q hq => h q (by simp [hq]))
    obtain ⟨p1, p2⟩ := h p (by simp)
    have d1 : |p.1 - a| ≤ 2 * M₁ := by
      rw [abs_le] at *
      constructor <;> linarith
    have d2 : |p.2 - b| ≤ 2 * M₂ := by
      rw [abs_le] at *
      constructor <;> linarith
    have d3 := mul_le_mul d1 d2 (abs_nonneg _) (by positivity)
    rw [← abs_mul] at d3
    simp only [List.map_cons, List.sum_cons, List.length_cons]
    have := abs_add_le ((p.1 - a) * (p.2 - b)) (ps.map fun p => (p.1 - a) * (p.2 - b)).sum
    push_cast
    linarith

/-! ### The means in closed form -/

/-- What is tracked of the mean holds of the closed form. -/
theorem Track.closed {F : Type} {A : Arith F} {w : Nat} {I I' : List F → F → (Nat → F) → Prop} (T : Track A w none 0 I I') (xs : List F) :
    I xs (mst A w none xs).1 (fun _ => A.ofInt 0) ∧ I' xs (roomMean A w none xs) (fun _ => A.ofInt 0) := by
  have hroom : ∀ xs : List F, I xs (mst A w none xs).1 (fun _ => A.ofInt 0) → I' xs (roomMean A w none xs) (fun _ => A.ofInt 0) := by
    intro xs h
    unfold roomMean
    by_cases hr : w = 0 ∨ (lastN w xs).length < w
    · rw [roomM_room A hr]
      exact T.room _ _ _ hr h
    · have hlen : (lastN w xs).length = w := by
        have := lastN_length w xs
        split_ifs at this <;> omega
      cases hl : lastN w xs with
      | nil => rw [hl] at hlen; simp at hlen; omega
      | cons y ys =>
        rw [hl] at hlen
        have hxs : xs ≠ [] := by
          rintro rfl
          simp [lastN] at hl
        by_cases hy : ys = []
        · subst hy
          rw [roomM_one A (by simpa using hlen.symm) hxs]
          exact T.evict1 xs _ _ (by simpa using hlen.symm) hxs h
        · rw [roomM_evict A hl (by simpa using hlen) hy]
          exact T.evict xs y ys _ _ _ _ hl (by simpa using hlen) hy h ⟨rfl, fun k => by simp⟩
  have hI : I xs (mst A w none xs).1 (fun _ => A.ofInt 0) := by
    induction xs using List.reverseRecOn with
    | nil => exact T.zero
    | append_singleton xs x ih =>
      rw [mst_add]
      exact T.add rfl xs x _ _ _ _ (hroom xs ih) ⟨rfl, fun k => by simp⟩
  exact ⟨hI, hroom xs hI⟩

/-! ### The computed sum of products -/

theorem addRule_two (R : Rounding rnd) {N : Nat} (hN : ∀ n : Nat, n ≤ N → rnd n = n) (P : PowSq pw u t N) {n : Nat} (hn : 1 ≤ n) (hnN : n ≤ N)
    (s q : ℚ) : (newRule (Arith.rounded rnd pw) none n).op ((newRule (Arith.rounded rnd pw) none n).base s)
      ((newRule (Arith.rounded rnd pw) none n).full 2 q) = rnd (s + 1 * rnd (rnd (rnd (((n : ℚ) - 1) / pw n 2) * n) * q)) := by
  have h1 : rnd ((n : ℚ) - 1) = (n : ℚ) - 1 := by
    have := hN (n - 1) (by omega)
    rwa [Nat.cast_sub hn, Nat.cast_one] at this
  have h2 : pw ((n : ℚ) - 1) 1 = (n : ℚ) - 1 := by
    have := P.one (n - 1) (by omega)
    rwa [Nat.cast_sub hn, Nat.cast_one] at this
  simp only [newRule, addRule, Arith.rounded, Int.cast_one, R.one, Int.cast_natCast, hN n hnN, h1, show 2 - 1 = 1 from rfl, h2]
  simp [sign, R.one, hN n hnN]

theorem removeRule_two (R : Rounding rnd) {N : Nat} (hN : ∀ n : Nat, n ≤ N → rnd n = n) (P : PowSq pw u t N) {n : Nat} (hnN : n + 1 ≤ N)
    (s q : ℚ) : (Arith.rounded rnd pw).sub s ((removeRule (Arith.rounded rnd pw) ((Arith.rounded rnd pw).ofInt n)).full 2 q) =
      rnd (s + -1 * rnd (rnd (rnd ((((n + 1 : Nat) : ℚ) - 1) / pw ((n + 1 : Nat) : ℚ) 2) * ((n + 1 : Nat) : ℚ)) * q)) := by
  have h1 : rnd ((n : ℚ) + 1) = (n : ℚ) + 1 := by
    have := hN (n + 1) hnN
    rwa [Nat.cast_add, Nat.cast_one] at this
  simp only [removeRule, Arith.rounded, Int.cast_one, R.one, Int.cast_natCast, hN n (by omega), h1,
    show 2 - 1 = 1 from rfl, P.one n (by omega), Nat.cast_add, Nat.cast_one, add_sub_cancel_right]
  simp [sign, R.one, h1, sub_eq_add_neg]

/-- The pairs are representable and bounded. -/
def BoundedPairs (rnd : ℚ → ℚ) (M₁ M₂ : ℚ) (ps : List (ℚ × ℚ)) : Prop := ∀ p ∈ ps, (rnd p.1 = p.1 ∧ |p.1| ≤ M₁) ∧ (rnd p.2 = p.2 ∧ |p.2| ≤ M₂)

theorem BoundedPairs.fst {M₁ M₂ : ℚ} {ps : List (ℚ × ℚ)} (h : BoundedPairs rnd M₁ M₂ ps) : ∀ x ∈ ps.map (·.1), rnd x = x ∧ |x| ≤ M₁ := by
  intro x hx
  obtain ⟨p, hp, rfl⟩ := List.mem_map.1 hx
  exact (h p hp).1

theorem BoundedPairs.snd {M₁ M₂ : ℚ} {ps : List (ℚ × ℚ)} (h : BoundedPairs rnd M₁ M₂ ps) : ∀ x ∈ ps.map (·.2), rnd x = x ∧ |x| ≤ M₂ := by
  intro x hx
  obtain ⟨p, hp, rfl⟩ := List.mem_map.1 hx
  exact (h p hp).2

/-- The error of a running mean of at least one value, as a multiple of the bound of the data. -/
theorem mean_eps {M : ℚ} {N : Nat} (S : Small u t M N) {n : Nat} (hn1 : 1 ≤ n) (hn : n ≤ N) {r : ℚ} (h : n * r ≤ meanErr u t M n) :
    r ≤ (((n : ℚ) / 2 + 7) * u) * M := by
  obtain ⟨hu, ht, hu1, hNu, hM0, -, htM, -⟩ := S
  have hn0 : (0 : ℚ) < n := by exact_mod_cast hn1
  have hnu : (n : ℚ) * u ≤ 1 / 1024 := by
    refine le_trans (mul_le_mul_of_nonneg_right ?_ hu) hNu
    exact_mod_cast hn
  rw [mul_comm, ← le_div_iff₀ hn0] at h
  refine h.trans ?_
  rw [div_le_iff₀ hn0]
  unfold meanErr
  have huM : 0 ≤ u * M := mul_nonneg hu hM0
  have ht1 : t ≤ u * (u * M) := by linarith
  have hnt : (n : ℚ) * t ≤ u * M / 1024 := by
    have a := mul_le_mul_of_nonneg_left ht1 hn0.le
    have := mul_le_mul_of_nonneg_right hnu huM
    linarith
  have ht2 : t ≤ u * M / 1024 := by
    have := mul_le_mul_of_nonneg_right hu1 huM
    linarith
  have huuM : u * u * M ≤ u * M / 1024 := by
    have := mul_le_mul_of_nonneg_right hu1 huM
    linarith
  have hut : u * t ≤ u * M / 1024 := by
    have := mul_le_mul_of_nonneg_right hu1 ht
    linarith
  have k1 : (u * M + 2 * t) * (((n : ℚ) + 1) / 2) ≤ ((n : ℚ) / 2 + 6 / 10) * (u * M) := by
    linarith
  have := mul_le_mul_of_nonneg_left k1 hn0.le
  have k2 : 4 * (u * M) + 2 * (u * u * M) + u * t + t ≤ 5 * (u * M) := by linarith
  have := mul_le_mul_of_nonneg_left k2 hn0.le
  have : 0 ≤ (n : ℚ) * (u * M) := by positivity
  linarith

/-- The sum of products of a core without eviction is accurate. -/
theorem pairS_err (R : Rounding rnd) (hE : Accuracy rnd u t) {N : Nat} (hN : ∀ n : Nat, n ≤ N → rnd n = n) {M₁ M₂ : ℚ}
    (S : Small2 u t M₁ M₂ N) (P : PowSq pw u t N) (h₁ : rnd M₁ = M₁) (h₂ : rnd M₂ = M₂) (ps : List (ℚ × ℚ)) (hl : ps.length ≤ N)
    (hb : BoundedPairs rnd M₁ M₂ ps) :
    |pairS (Arith.rounded rnd pw) (fun a b => rnd (a * b)) 0 none ps - cpair ps| ≤
      (4 * (ps.length * ps.length) + 80 * ps.length) * (u * (M₁ * M₂)) := by
  have hMM : 0 ≤ M₁ * M₂ := mul_nonneg S.fst.M0 S.snd.M0
  have hU : 0 ≤ u * (M₁ * M₂) := mul_nonneg S.fst.u0 hMM
  induction ps using List.reverseRecOn with
  | nil => simp [pairS_nil, Arith.rounded, R.zero, cpair]
  | append_singleton ps p ih =>
    have hl' : (ps ++ [p]).length = ps.length + 1 := by simp
    rw [hl'] at hl ⊢
    have hb' : BoundedPairs rnd M₁ M₂ ps := fun q hq => hb q (by simp [hq])
    have ih := ih (by omega) hb'
    rw [pairS_append, lastN_zero, hl', addRule_two R hN P (by omega) hl]
    have hroomP : ∀ m1 m2 s, roomP (Arith.rounded rnd pw) (fun a b => rnd (a * b)) 0 ps m1 m2 s = s := by
      intro m1 m2 s
      unfold roomP
      rw [if_neg (by simp)]
    rw [hroomP]
    by_cases hnil : ps = []
    · subst hnil
      simp only [List.length_nil, zero_add, Nat.cast_one, sub_self, zero_div, R.zero, zero_mul, mul_zero, pairS_nil, List.nil_append]
      simp [Arith.rounded, R.zero, cpair, Spec.mean]
      positivity
    · have hpos := List.length_pos_iff.2 hnil
      have hn0 : (0 : ℚ) ≤ ps.length := by positivity
      have hu := S.fst.u0
      have hnu : ((ps.length + 1 : Nat) : ℚ) * u ≤ 1 / 1024 := by
        refine le_trans (mul_le_mul_of_nonneg_right ?_ hu) S.fst.Nu
        exact_mod_cast hl
      push_cast at hnu
      obtain ⟨-, -, e1⟩ := ((track_mean_err (pw := pw) R hE S.fst.u0 S.fst.t0 hN h₁ S.fst.M0 0).closed (ps.map (·.1))).2 (by simp; omega) hb'.fst
      obtain ⟨-, -, e2⟩ := ((track_mean_err (pw := pw) R hE S.snd.u0 S.snd.t0 hN h₂ S.snd.M0 0).closed (ps.map (·.2))).2 (by simp; omega) hb'.snd
      rw [List.length_map] at e1 e2
      have e1 := mean_eps S.fst hpos (by omega) e1
      have e2 := mean_eps S.snd hpos (by omega) e2
      have m1 := abs_mean_le S.fst.M0 (fun x hx => (hb'.fst x hx).2)
      have m2 := abs_mean_le S.snd.M0 (fun x hx => (hb'.snd x hx).2)
      have hε : ((ps.length : ℚ) / 2 + 7) * u ≤ 1 / 8 := by linarith [S.fst.u1]
      have hc1 := cpair_le S.fst.M0 S.snd.M0 (ps := ps ++ [p]) (fun q hq => ⟨(hb q hq).1.2, (hb q hq).2.2⟩)
      rw [cpair_snoc, hl'] at hc1
      obtain ⟨⟨-, p1⟩, -, p2⟩ := hb p (by simp)
      set s := pairS (Arith.rounded rnd pw) (fun a b => rnd (a * b)) 0 none ps
      have hB : |s + 1 * ((((ps.length + 1 : Nat) : ℚ) - 1) / ((ps.length + 1 : Nat) : ℚ) *
          ((p.1 - Spec.mean (ps.map (·.1))) * (p.2 - Spec.mean (ps.map (·.2)))))| ≤
          ((ps.length : ℚ) + 1) * (4 * (M₁ * M₂)) + (4 * (ps.length * ps.length) + 80 * ps.length) * (u * (M₁ * M₂)) := by
        push_cast at hc1 ⊢
        rw [abs_le] at ih hc1 ⊢
        constructor <;> linarith
      have hstep := prod_step hE S P (n := ps.length + 1) (by omega) hl (σ := 1) (by norm_num) p1 p2 m1 m2 e1 e2 (by positivity) hε hB
      rw [cpair_snoc]
      have hd : ∀ a b, (Arith.rounded rnd pw).sub a b = rnd (a - b) := fun _ _ => rfl
      rw [hd, hd]
      push_cast at hstep ⊢
      have huE : u * ((4 * ((ps.length : ℚ) * ps.length) + 80 * ps.length) * (u * (M₁ * M₂))) ≤
          (4 * (ps.length : ℚ) + 80) * (u * (M₁ * M₂)) / 1024 := by
        have b : (ps.length : ℚ) * u ≤ 1 / 1024 := by linarith
        have := mul_le_mul_of_nonneg_right b (show 0 ≤ (4 * (ps.length : ℚ) + 80) * (u * (M₁ * M₂)) by positivity)
        linarith
      have hnU : 0 ≤ (ps.length : ℚ) * (u * (M₁ * M₂)) := by positivity
      rw [abs_le] at ih hstep ⊢
      constructor <;> linarith

end
end Verif.FP
