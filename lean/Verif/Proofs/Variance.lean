import Verif.Proofs.Rounded

/-! # Accuracy of the second power sum -/

namespace Verif.FP
open Verif.Spec Verif.MathUtil
open Verif.Moment (Core Config)

section
variable {rnd : ℚ → ℚ} {pw : ℚ → Nat → ℚ} {u t : ℚ}

/-- Rounding errors are small compared with the bound `M` of the data; `N` is the number of values. -/
structure Small (u t M : ℚ) (N : Nat) : Prop where
  u0 : 0 ≤ u
  t0 : 0 ≤ t
  u1 : u ≤ 1 / 1024
  Nu : N * u ≤ 1 / 1024
  M0 : 0 ≤ M
  tu : t ≤ u * u
  tM : t ≤ u * u * M
  tMM : t ≤ u * u * (M * M)

/-- `math.Pow` as far as it matters here: `x²` is correctly rounded (possibly twice, for subnormal results), `n¹` is exact for counts. -/
structure PowSq (pw : ℚ → Nat → ℚ) (u t : ℚ) (N : Nat) : Prop where
  two : ∀ x, |pw x 2 - x * x| ≤ u * (x * x) + t
  one : ∀ n : Nat, n < N → pw n 1 = n

/-- The computed coefficient `(n − 1) / n² · ((n − 1) + 1)`. -/
theorem coef_err (hE : Accuracy rnd u t) (hu : 0 ≤ u) (hu1 : u ≤ 1 / 1024) (ht : 0 ≤ t) (htu : t ≤ u * u) {n p : ℚ} (hn : 2 ≤ n)
    (hnu : n * u ≤ 1 / 1024) (hp : |p - n * n| ≤ u * (n * n) + t) :
    |rnd (rnd ((n - 1) / p) * n) - (n - 1) / n| ≤ 4 * u := by
  have hnt : n * t ≤ u / 1024 := by nlinarith
  have htu' : t ≤ u / 1024 := by nlinarith
  have hnn : 4 ≤ n * n := by nlinarith
  have hp' := abs_le.1 hp
  have hpd : |p - n * n| ≤ 101 / 100 * u * (n * n) := by nlinarith
  have hpl : 99 / 100 * (n * n) ≤ p := by nlinarith
  have hp0 : 0 < p := by nlinarith
  have hn0 : (0 : ℚ) < n := by linarith
  set y := (n - 1) / p with hy
  have hy0 : 0 ≤ y := div_nonneg (by linarith) hp0.le
  have hyn : |y * n - (n - 1) / n| ≤ 11 / 10 * u := by
    have e : y * n - (n - 1) / n = -((n - 1) * (p - n * n)) / (p * n) := by
      rw [hy]; field_simp; ring
    rw [e, abs_div, abs_neg, abs_mul, abs_of_nonneg (show 0 ≤ n - 1 by linarith), abs_of_pos (show 0 < p * n by positivity),
      div_le_iff₀ (by positivity)]
    calc (n - 1) * |p - n * n| ≤ n * (101 / 100 * u * (n * n)) :=
          mul_le_mul (by linarith) hpd (abs_nonneg _) hn0.le
      _ ≤ 11 / 10 * u * (99 / 100 * (n * n) * n) := by
          have : 0 ≤ u * (n * n * n) := by positivity
          nlinarith
      _ ≤ 11 / 10 * u * (p * n) := by
          refine mul_le_mul_of_nonneg_left ?_ (by positivity)
          exact mul_le_mul_of_nonneg_right hpl hn0.le
  have hk1 : (n - 1) / n ≤ 1 := by rw [div_le_one hn0]; linarith
  have hk0 : 0 ≤ (n - 1) / n := div_nonneg (by linarith) hn0.le
  have hyn1 : y * n ≤ 101 / 100 := by
    have := (abs_le.1 hyn).2
    linarith
  have hyn0 : 0 ≤ y * n := by positivity
  have ha := hE y
  rw [abs_of_nonneg hy0] at ha
  set a := rnd y
  have han : |a * n - y * n| ≤ 103 / 100 * u := by
    rw [← sub_mul, abs_mul, abs_of_pos hn0]
    have h1 := mul_le_mul_of_nonneg_right ha hn0.le
    have h2 := mul_le_mul_of_nonneg_left hyn1 hu
    nlinarith
  have hanA : |a * n| ≤ 103 / 100 := by
    have h1 := abs_le.1 han
    rw [abs_le]
    constructor <;> linarith
  have hc := hE (a * n)
  have h3 := mul_le_mul_of_nonneg_left hanA hu
  have e : rnd (a * n) - (n - 1) / n = (rnd (a * n) - a * n) + (a * n - y * n) + (y * n - (n - 1) / n) := by ring
  rw [e]
  have c1 := abs_add_le ((rnd (a * n) - a * n) + (a * n - y * n)) (y * n - (n - 1) / n)
  have c2 := abs_add_le (rnd (a * n) - a * n) (a * n - y * n)
  linarith

/-- The computed square of the deviation. -/
theorem sq_err (hE : Accuracy rnd u t) {M : ℚ} (hu : 0 ≤ u) (hu1 : u ≤ 1 / 1024) (hM : 0 ≤ M) (htM : t ≤ u * u * M)
    (htMM : t ≤ u * u * (M * M)) (hpw : ∀ x, |pw x 2 - x * x| ≤ u * (x * x) + t) {x m μ e : ℚ} (hx : |x| ≤ M) (hμ : |μ| ≤ M)
    (he : |m - μ| ≤ e) (heM : e ≤ M / 8) :
    |pw (rnd (x - m)) 2| ≤ 455 / 100 * (M * M) ∧
      |pw (rnd (x - m)) 2 - (x - μ) * (x - μ)| ≤ 137 / 10 * (u * (M * M)) + 414 / 100 * (e * M) := by
  have hMM : 0 ≤ M * M := by positivity
  have huM : 0 ≤ u * M := by positivity
  have huMM : 0 ≤ u * (M * M) := by positivity
  have ht1 : t ≤ u * M / 1024 := by nlinarith
  have ht2 : t ≤ u * (M * M) / 1024 := by nlinarith
  have hu2 : u * M ≤ M / 1024 := by nlinarith
  have hu3 : u * (M * M) ≤ (M * M) / 1024 := by nlinarith
  have e0 : 0 ≤ e := (abs_nonneg _).trans he
  have hxm : |x - m| ≤ 17 / 8 * M := by
    rw [abs_le] at hx hμ he ⊢
    constructor <;> linarith
  have hd := hE (x - m)
  set δ := rnd (x - m)
  have hδ1 : |δ - (x - m)| ≤ 22 / 10 * (u * M) := by
    have := mul_le_mul_of_nonneg_left hxm hu
    linarith
  have hδ2 : |δ| ≤ 213 / 100 * M := by
    rw [abs_le] at hxm hδ1 ⊢
    constructor <;> linarith
  have hδδ : δ * δ ≤ 454 / 100 * (M * M) := by
    have := mul_self_le_mul_self (abs_nonneg δ) hδ2
    rw [abs_mul_abs_self] at this
    nlinarith
  have hδ0 : 0 ≤ δ * δ := mul_self_nonneg δ
  have hq := hpw δ
  have hq1 : |pw δ 2 - δ * δ| ≤ 46 / 10 * (u * (M * M)) := by
    have := mul_le_mul_of_nonneg_left hδδ hu
    linarith
  have hδ3 : |δ - (x - μ)| ≤ 22 / 10 * (u * M) + e := by
    rw [abs_le] at hδ1 he ⊢
    constructor <;> linarith
  have hδ4 : |δ + (x - μ)| ≤ 413 / 100 * M := by
    rw [abs_le] at hδ2 hx hμ ⊢
    constructor <;> linarith
  have hs : |δ * δ - (x - μ) * (x - μ)| ≤ 91 / 10 * (u * (M * M)) + 414 / 100 * (e * M) := by
    rw [show δ * δ - (x - μ) * (x - μ) = (δ - (x - μ)) * (δ + (x - μ)) by ring, abs_mul]
    have := mul_le_mul hδ3 hδ4 (abs_nonneg _) (by positivity)
    have : 0 ≤ e * M := by positivity
    nlinarith
  refine ⟨?_, ?_⟩
  · rw [abs_le] at hq1 ⊢
    constructor <;> linarith
  · rw [abs_le] at hq1 hs ⊢
    constructor <;> linarith

/-- One update of the second power sum: `σ = 1` adds, `σ = −1` removes a value. -/
theorem sum_step (hE : Accuracy rnd u t) {M : ℚ} {N : Nat} (S : Small u t M N) (P : PowSq pw u t N) {n : Nat} (hn : 2 ≤ n) (hnN : n ≤ N)
    {x m μ e s σ B : ℚ} (hσ : |σ| = 1) (hx : |x| ≤ M) (hμ : |μ| ≤ M) (he : |m - μ| ≤ e) (heM : e ≤ M / 8)
    (hB : |s + σ * (((n : ℚ) - 1) / n * ((x - μ) * (x - μ)))| ≤ B) :
    |rnd (s + σ * rnd (rnd (rnd (((n : ℚ) - 1) / pw n 2) * n) * pw (rnd (x - m)) 2)) - (s + σ * (((n : ℚ) - 1) / n * ((x - μ) * (x - μ))))|
      ≤ 38 * (u * (M * M)) + 42 / 10 * (e * M) + u * B := by
  obtain ⟨hu, ht, hu1, hNu, hM, htu, htM, htMM⟩ := S
  have hn2 : (2 : ℚ) ≤ n := by exact_mod_cast hn
  have hnu : (n : ℚ) * u ≤ 1 / 1024 := by
    refine le_trans (mul_le_mul_of_nonneg_right ?_ hu) hNu
    exact_mod_cast hnN
  have hc := coef_err hE hu hu1 ht htu hn2 hnu (P.two n)
  obtain ⟨hq0, hq⟩ := sq_err hE hu hu1 hM htM htMM P.two hx hμ he heM
  set q := pw (rnd (x - m)) 2
  set c := rnd (rnd (((n : ℚ) - 1) / pw n 2) * n)
  set κ := ((n : ℚ) - 1) / n
  have hn0 : (0 : ℚ) < n := by linarith
  have hk1 : κ ≤ 1 := by rw [div_le_one hn0]; linarith
  have hk0 : 0 ≤ κ := div_nonneg (by linarith) hn0.le
  have hMM : 0 ≤ M * M := by positivity
  have huMM : 0 ≤ u * (M * M) := by positivity
  have e0 : 0 ≤ e := (abs_nonneg _).trans he
  have heM0 : 0 ≤ e * M := by positivity
  have ht2 : t ≤ u * (M * M) / 1024 := by nlinarith
  have hu3 : u * (M * M) ≤ (M * M) / 1024 := by nlinarith
  have hc1 : |c| ≤ 101 / 100 := by
    rw [abs_le] at hc ⊢
    constructor <;> linarith
  have hcq : |c * q| ≤ 46 / 10 * (M * M) := by
    rw [abs_mul]
    have := mul_le_mul hc1 hq0 (abs_nonneg _) (by norm_num)
    linarith
  have hg1 : |rnd (c * q) - c * q| ≤ 47 / 10 * (u * (M * M)) := by
    have h1 := hE (c * q)
    have h2 := mul_le_mul_of_nonneg_left hcq hu
    linarith
  have hg2 : |c * q - κ * ((x - μ) * (x - μ))| ≤ 319 / 10 * (u * (M * M)) + 414 / 100 * (e * M) := by
    rw [show c * q - κ * ((x - μ) * (x - μ)) = (c - κ) * q + κ * (q - (x - μ) * (x - μ)) by ring]
    refine (abs_add_le _ _).trans ?_
    rw [abs_mul, abs_mul, abs_of_nonneg hk0]
    have h1 := mul_le_mul hc hq0 (abs_nonneg _) (by positivity)
    have h2 := mul_le_mul hk1 hq (abs_nonneg _) (by norm_num)
    linarith
  have hg : |rnd (c * q) - κ * ((x - μ) * (x - μ))| ≤ 37 * (u * (M * M)) + 414 / 100 * (e * M) := by
    rw [abs_le] at hg1 hg2 ⊢
    constructor <;> linarith
  set g := rnd (c * q)
  set z := κ * ((x - μ) * (x - μ))
  have h1 : |(s + σ * g) - (s + σ * z)| ≤ 37 * (u * (M * M)) + 414 / 100 * (e * M) := by
    rw [show (s + σ * g) - (s + σ * z) = σ * (g - z) by ring, abs_mul, hσ, one_mul]
    exact hg
  have h2 := hE (s + σ * g)
  have h3 : |s + σ * g| ≤ B + (37 * (u * (M * M)) + 414 / 100 * (e * M)) := by
    rw [abs_le] at h1 hB ⊢
    constructor <;> linarith
  have h4 := mul_le_mul_of_nonneg_left h3 hu
  have h5 : u * (37 * (u * (M * M)) + 414 / 100 * (e * M)) ≤ (37 * (u * (M * M)) + 414 / 100 * (e * M)) / 1024 := by
    have := mul_le_mul_of_nonneg_right hu1 (show 0 ≤ 37 * (u * (M * M)) + 414 / 100 * (e * M) by positivity)
    linarith
  have e' : rnd (s + σ * g) - (s + σ * z) = (rnd (s + σ * g) - (s + σ * g)) + ((s + σ * g) - (s + σ * z)) := by ring
  rw [e']
  have c1 := abs_add_le (rnd (s + σ * g) - (s + σ * g)) ((s + σ * g) - (s + σ * z))
  linarith

/-- The second power sum of numbers of absolute value at most `M`. -/
theorem csum_two_snoc (xs : List ℚ) (x : ℚ) : csum 2 (xs ++ [x]) =
    csum 2 xs + (((xs.length + 1 : Nat) : ℚ) - 1) / ((xs.length + 1 : Nat) : ℚ) * ((x - Spec.mean xs) * (x - Spec.mean xs)) := by
  have h := Moment.csum_snoc xs x 0
  have h2 : (xs.length : ℚ) + 1 ≠ 0 := by exact_mod_cast Nat.succ_ne_zero xs.length
  simp only [Nat.zero_add, Finset.range_zero, Finset.sum_empty, add_zero, pow_one] at h
  rw [h]
  push_cast
  field_simp
  ring

theorem csum_two_nonneg (xs : List ℚ) : 0 ≤ csum 2 xs := by
  refine List.sum_nonneg fun z hz => ?_
  obtain ⟨x, -, rfl⟩ := List.mem_map.1 hz
  positivity

theorem csum_two_le {M : ℚ} (hM : 0 ≤ M) {xs : List ℚ} (h : ∀ x ∈ xs, |x| ≤ M) : csum 2 xs ≤ xs.length * (M * M) := by
  have key : ∀ ys : List ℚ, csum 2 ys + ys.length * (Spec.mean ys * Spec.mean ys) = (ys.map (fun y => y * y)).sum := by
    intro ys
    induction ys using List.reverseRecOn with
    | nil => simp [csum]
    | append_singleton ys y ih =>
      rw [csum_two_snoc, Moment.mean_snoc, List.map_append, List.sum_append, ← ih]
      have h2 : (ys.length : ℚ) + 1 ≠ 0 := by exact_mod_cast Nat.succ_ne_zero ys.length
      simp only [List.length_append, List.length_cons, List.length_nil, List.map_cons, List.map_nil, List.sum_cons, List.sum_nil]
      push_cast
      field_simp
      ring
  have hsq : (xs.map (fun y => y * y)).sum ≤ xs.length * (M * M) := by
    clear key
    induction xs with
    | nil => simp
    | cons x xs ih =>
      have h1 := ih (fun y hy => h y (by simp [hy]))
      have h2 := mul_self_le_mul_self (abs_nonneg x) (h x (by simp))
      rw [abs_mul_abs_self] at h2
      simp only [List.map_cons, List.sum_cons, List.length_cons]
      push_cast
      linarith
  have := key xs
  have h3 : 0 ≤ (xs.length : ℚ) * (Spec.mean xs * Spec.mean xs) := mul_nonneg (by positivity) (mul_self_nonneg _)
  linarith

/-- The shape of the update in `add`. -/
theorem addV_two (R : Rounding rnd) {N : Nat} (hN : ∀ n : Nat, n ≤ N → rnd n = n) (P : PowSq pw u t N) {n : Nat} (hn : 1 ≤ n) (hnN : n ≤ N)
    (delta : ℚ) (s : Nat → ℚ) : addV (Arith.rounded rnd pw) ((Arith.rounded rnd pw).ofInt n) delta s 2 =
      rnd (s 2 + 1 * rnd (rnd (rnd (((n : ℚ) - 1) / pw n 2) * n) * pw delta 2)) := by
  have h1 : rnd ((n : ℚ) - 1) = (n : ℚ) - 1 := by
    have := hN (n - 1) (by omega)
    rwa [Nat.cast_sub hn, Nat.cast_one] at this
  have h2 : pw ((n : ℚ) - 1) 1 = (n : ℚ) - 1 := by
    have := P.one (n - 1) (by omega)
    rwa [Nat.cast_sub hn, Nat.cast_one] at this
  simp only [addV, foldV, Arith.rounded, Int.cast_one, R.one, Int.cast_natCast, hN n hnN, h1, Nat.sub_self, show 2 - 1 = 1 from rfl, h2]
  simp [sign, R.one, hN n hnN]

/-- The shape of the update in `remove`, from `n + 1` to `n` values. -/
theorem removeV_two (R : Rounding rnd) {N : Nat} (hN : ∀ n : Nat, n ≤ N → rnd n = n) (P : PowSq pw u t N) {n : Nat} (hnN : n + 1 ≤ N)
    (delta : ℚ) (s : Nat → ℚ) : removeV (Arith.rounded rnd pw) ((Arith.rounded rnd pw).ofInt n) delta s 2 =
      rnd (s 2 + -1 * rnd (rnd (rnd ((((n + 1 : Nat) : ℚ) - 1) / pw ((n + 1 : Nat) : ℚ) 2) * ((n + 1 : Nat) : ℚ)) * pw delta 2)) := by
  have h1 : rnd ((n : ℚ) + 1) = (n : ℚ) + 1 := by
    have := hN (n + 1) hnN
    rwa [Nat.cast_add, Nat.cast_one] at this
  simp only [removeV, foldV, Arith.rounded, Int.cast_one, R.one, Int.cast_natCast, hN n (by omega), h1, Nat.sub_self,
    show 2 - 1 = 1 from rfl, P.one n (by omega), Nat.cast_add, Nat.cast_one, add_sub_cancel_right]
  simp [sign, R.one, h1, sub_eq_add_neg]

/-- The second power sum of a core without eviction is accurate. -/
theorem track_sum_err (R : Rounding rnd) (hE : Accuracy rnd u t) {N : Nat} (hN : ∀ n : Nat, n ≤ N → rnd n = n) {M : ℚ} (S : Small u t M N)
    (P : PowSq pw u t N) (hM : rnd M = M) (len : Nat) :
    Track (Arith.rounded rnd pw) 0 none len
      (fun xs m s => (xs.length ≤ N → (∀ x ∈ xs, rnd x = x ∧ |x| ≤ M) →
        (xs = [] → m = 0) ∧ |m| ≤ M ∧ xs.length * |m - Spec.mean xs| ≤ meanErr u t M xs.length) ∧
        (xs.length ≤ N → (∀ x ∈ xs, rnd x = x ∧ |x| ≤ M) → 2 < len →
          (xs = [] → s 2 = 0) ∧ |s 2 - csum 2 xs| ≤ (2 * (xs.length * xs.length) + 80 * xs.length) * (u * (M * M))))
      (fun xs m s => (xs.length ≤ N → (∀ x ∈ xs, rnd x = x ∧ |x| ≤ M) →
        (xs = [] → m = 0) ∧ |m| ≤ M ∧ xs.length * |m - Spec.mean xs| ≤ meanErr u t M xs.length) ∧
        (xs.length ≤ N → (∀ x ∈ xs, rnd x = x ∧ |x| ≤ M) → 2 < len →
          (xs = [] → s 2 = 0) ∧ |s 2 - csum 2 xs| ≤ (2 * (xs.length * xs.length) + 80 * xs.length) * (u * (M * M)))) where
  zero := ⟨(track_mean_err (pw := pw) R hE S.u0 S.t0 hN hM S.M0 len).zero, fun _ _ _ => by simp [Arith.rounded, R.zero, csum]⟩
  room := fun _ _ _ _ h => h
  evict1 := fun _ _ _ h => absurd h (by norm_num)
  evict := fun _ _ _ _ _ _ _ _ h => absurd h (by omega)
  decay := fun _ h => absurd h (by simp)
  add := fun hd xs x m s m' s' hI hr => by
    refine ⟨(track_mean_err R hE S.u0 S.t0 hN hM S.M0 len).add hd xs x m s m' s' hI.1 hr, fun hlN hxs hlen => ?_⟩
    have hl : (xs ++ [x]).length = xs.length + 1 := by simp
    have hx1 : ∀ y ∈ xs, rnd y = y ∧ |y| ≤ M := fun y hy => hxs y (by simp [hy])
    obtain ⟨-, hma, herr⟩ := hI.1 (by omega) hx1
    obtain ⟨hs0, hs⟩ := hI.2 (by omega) hx1 hlen
    refine ⟨fun h => absurd h (by simp), ?_⟩
    have hx := (hxs x (by simp)).2
    have h2 := hr.2 2
    rw [if_pos ⟨le_rfl, hlen⟩, lastN_zero, hl, addV_two R hN P (by omega) (by omega)] at h2
    have hMM : 0 ≤ M * M := mul_nonneg S.M0 S.M0
    have hU : 0 ≤ u * (M * M) := mul_nonneg S.u0 hMM
    by_cases hnil : xs = []
    · subst hnil
      rw [h2, hs0 rfl]
      simp only [List.length_nil, zero_add, Nat.cast_one, sub_self, zero_div, R.zero, zero_mul, mul_zero]
      simp [csum, Spec.mean]
      positivity
    · have hpos := List.length_pos_iff.2 hnil
      have hn1 : (1 : ℚ) ≤ xs.length := by exact_mod_cast hpos
      have hn0 : (0 : ℚ) < xs.length := by linarith
      have hu := S.u0
      have hM0 := S.M0
      have hnu : ((xs.length + 1 : Nat) : ℚ) * u ≤ 1 / 1024 := by
        refine le_trans (mul_le_mul_of_nonneg_right ?_ S.u0) S.Nu
        rw [hl] at hlN
        exact_mod_cast hlN
      push_cast at hnu
      have he : |m - Spec.mean xs| ≤ ((xs.length : ℚ) / 2 + 7) * (u * M) := by
        rw [mul_comm, ← le_div_iff₀ hn0] at herr
        refine herr.trans ?_
        rw [div_le_iff₀ hn0]
        unfold meanErr
        have huM : 0 ≤ u * M := mul_nonneg hu hM0
        have ht1 : t ≤ u * (u * M) := by linarith [S.tM]
        have hnt : (xs.length : ℚ) * t ≤ u * M / 1024 := by
          have a := mul_le_mul_of_nonneg_left ht1 hn0.le
          have b : (xs.length : ℚ) * u ≤ 1 / 1024 := by linarith
          have := mul_le_mul_of_nonneg_right b huM
          linarith
        have ht2 : t ≤ u * M / 1024 := by
          have := mul_le_mul_of_nonneg_right S.u1 huM
          linarith
        have huuM : u * u * M ≤ u * M / 1024 := by
          have := mul_le_mul_of_nonneg_right S.u1 huM
          linarith
        have hut : u * t ≤ u * M / 1024 := by
          have := mul_le_mul_of_nonneg_right S.u1 S.t0
          linarith [S.t0]
        have k1 : (u * M + 2 * t) * (((xs.length : ℚ) + 1) / 2) ≤ ((xs.length : ℚ) / 2 + 6 / 10) * (u * M) := by
          linarith
        have := mul_le_mul_of_nonneg_left k1 hn0.le
        have k2 : 4 * (u * M) + 2 * (u * u * M) + u * t + t ≤ 5 * (u * M) := by linarith
        have := mul_le_mul_of_nonneg_left k2 hn0.le
        have : 0 ≤ (xs.length : ℚ) * (u * M) := by positivity
        linarith
      set e := ((xs.length : ℚ) / 2 + 7) * (u * M) with hedef
      have heM : e ≤ M / 8 := by
        have : ((xs.length : ℚ) / 2 + 7) * u ≤ 1 / 8 := by linarith [S.u1]
        have := mul_le_mul_of_nonneg_right this hM0
        rw [hedef]; linarith
      have hμ := abs_mean_le hM0 (fun y hy => (hx1 y hy).2)
      set E := (2 * ((xs.length : ℚ) * xs.length) + 80 * xs.length) * (u * (M * M)) with hEd
      have hc0 := csum_two_nonneg (xs ++ [x])
      have hc1 := csum_two_le hM0 (fun y hy => (hxs y hy).2)
      rw [csum_two_snoc] at hc0 hc1
      rw [hl] at hc1
      have hB : |s 2 + 1 * ((((xs.length + 1 : Nat) : ℚ) - 1) / ((xs.length + 1 : Nat) : ℚ) * ((x - Spec.mean xs) * (x - Spec.mean xs)))|
          ≤ ((xs.length : ℚ) + 1) * (M * M) + E := by
        rw [abs_le] at hs ⊢
        push_cast at hc0 hc1 ⊢
        constructor <;> linarith
      have hstep := sum_step hE S P (n := xs.length + 1) (by omega) (by omega) (σ := 1) (by norm_num) hx hμ he heM hB
      have hdel : (Arith.rounded rnd pw).sub x m = rnd (x - m) := rfl
      rw [hdel] at h2
      rw [← h2] at hstep
      rw [csum_two_snoc, hl]
      push_cast at hstep ⊢
      set z := (xs.length : ℚ) + 1 - 1
      set y := z / ((xs.length : ℚ) + 1) * ((x - Spec.mean xs) * (x - Spec.mean xs))
      have hfin : |s' 2 - (csum 2 xs + y)| ≤ 38 * (u * (M * M)) + 42 / 10 * (e * M) + u * (((xs.length : ℚ) + 1) * (M * M) + E) + E := by
        rw [abs_le] at hs hstep ⊢
        constructor <;> linarith
      refine hfin.trans ?_
      have huE : u * E ≤ (2 * (xs.length : ℚ) + 80) * (u * (M * M)) / 1024 := by
        have b : (xs.length : ℚ) * u ≤ 1 / 1024 := by linarith
        have := mul_le_mul_of_nonneg_right b (show 0 ≤ (2 * (xs.length : ℚ) + 80) * (u * (M * M)) by positivity)
        rw [hEd]; linarith
      have heU : e * M = ((xs.length : ℚ) / 2 + 7) * (u * (M * M)) := by rw [hedef]; ring
      have hnU : 0 ≤ (xs.length : ℚ) * (u * (M * M)) := by positivity
      rw [heU, hEd]
      rw [hEd] at huE
      linarith

/-- What the mean of the remaining values satisfies when a value is added or removed. -/
theorem drift_e {M : ℚ} {N : Nat} (S : Small u t M N) {k n : Nat} (hk : 1 ≤ k) (hkn : k ≤ n) (hn : n ≤ N) {r : ℚ}
    (h : k * r ≤ (k + 1) * (n * (48 * (u * M) + 8 * t)) + k * (16 * (u * M) + 4 * t)) :
    r ≤ (97 * n + 17) * (u * M) ∧ (97 * (n : ℚ) + 17) * (u * M) ≤ M / 8 := by
  obtain ⟨hu, ht, hu1, hNu, hM, -, htM, -⟩ := S
  have hk1 : (1 : ℚ) ≤ k := by exact_mod_cast hk
  have hnu : (n : ℚ) * u ≤ 1 / 1024 := by
    refine le_trans (mul_le_mul_of_nonneg_right ?_ hu) hNu
    exact_mod_cast hn
  have huM : 0 ≤ u * M := mul_nonneg hu hM
  have ht1 : t ≤ u * M / 1024 := by
    have := mul_le_mul_of_nonneg_right hu1 huM
    linarith
  have hn0 : (0 : ℚ) ≤ n := by positivity
  have hρ : (n : ℚ) * (48 * (u * M) + 8 * t) ≤ n * (97 / 2 * (u * M)) := mul_le_mul_of_nonneg_left (by linarith) hn0
  refine ⟨?_, ?_⟩
  · by_contra hc
    have h1 := mul_lt_mul_of_pos_left (not_le.1 hc) (show (0 : ℚ) < k by linarith)
    have h2 : ((k : ℚ) + 1) * (n * (48 * (u * M) + 8 * t)) ≤ (2 * k) * (n * (97 / 2 * (u * M))) :=
      mul_le_mul (by linarith) hρ (by positivity) (by linarith)
    have h3 : (k : ℚ) * (16 * (u * M) + 4 * t) ≤ k * (17 * (u * M)) := mul_le_mul_of_nonneg_left (by linarith) (by linarith)
    linarith
  · have h1 : (97 * (n : ℚ) + 17) * u ≤ 1 / 8 := by linarith
    have := mul_le_mul_of_nonneg_right h1 hM
    linarith

/-- The drift of the second power sum of any core without decay: quadratic in the number of values pushed. -/
theorem track_sum_drift (R : Rounding rnd) (hE : Accuracy rnd u t) {N : Nat} (hN : ∀ n : Nat, n ≤ N → rnd n = n) {M : ℚ}
    (S : Small u t M N) (P : PowSq pw u t N) (w len : Nat) :
    Track (Arith.rounded rnd pw) w none len
      (fun xs m s => (xs.length ≤ N → (∀ x ∈ xs, rnd x = x ∧ |x| ≤ M) →
          (xs = [] → m = 0) ∧ |m - Spec.mean (lastN w xs)| ≤ xs.length * (48 * (u * M) + 8 * t)) ∧
        (xs.length ≤ N → (∀ x ∈ xs, rnd x = x ∧ |x| ≤ M) → 2 < len → (xs = [] → s 2 = 0) ∧
          |s 2 - csum 2 (lastN w xs)| ≤ 500 * (xs.length * xs.length + xs.length) * (u * (M * M))))
      (fun xs m s => (xs.length < N → (∀ x ∈ xs, rnd x = x ∧ |x| ≤ M) → ∃ ws, (∀ x, lastN w (xs ++ [x]) = ws ++ [x]) ∧ (ws = [] → m = 0) ∧
          |m| ≤ 4 * M ∧
          ws.length * |m - Spec.mean ws| ≤ (ws.length + 1) * (xs.length * (48 * (u * M) + 8 * t)) + ws.length * (16 * (u * M) + 4 * t)) ∧
        (xs.length < N → (∀ x ∈ xs, rnd x = x ∧ |x| ≤ M) → 2 < len → ∃ ws, (∀ x, lastN w (xs ++ [x]) = ws ++ [x]) ∧ (ws = [] → s 2 = 0) ∧
          |s 2 - csum 2 ws| ≤ (500 * (xs.length * xs.length + xs.length) + (409 * xs.length + 110)) * (u * (M * M)))) := by
  have hNM : N * (48 * (u * M) + 8 * t) ≤ M := by
    have huM : 0 ≤ u * M := mul_nonneg S.u0 S.M0
    have ht1 : t ≤ u * M / 1024 := by
      have := mul_le_mul_of_nonneg_right S.u1 huM
      linarith [S.tM]
    have h1 : (N : ℚ) * (48 * (u * M) + 8 * t) ≤ N * (49 * (u * M)) := mul_le_mul_of_nonneg_left (by linarith) (by positivity)
    have h2 := mul_le_mul_of_nonneg_right S.Nu S.M0
    linarith [S.M0]
  have T := track_drift (pw := pw) R hE S.u0 (S.u1.trans (by norm_num)) S.t0 hN S.M0 hNM w len
  have hMM : 0 ≤ M * M := mul_nonneg S.M0 S.M0
  have hU : 0 ≤ u * (M * M) := mul_nonneg S.u0 hMM
  have hlast : ∀ (xs : List ℚ), ∀ z ∈ lastN w xs, z ∈ xs := by
    intro xs z hz
    unfold lastN at hz
    split_ifs at hz
    · exact hz
    · exact List.mem_of_mem_drop hz
  -- `u` times the error is small
  have hsm : ∀ n : Nat, n ≤ N → ∀ b : ℚ, 0 ≤ b →
      u * ((500 * ((n : ℚ) * n + n) + b) * (u * (M * M))) ≤ (500 * (n + 1) + b) * (u * (M * M)) / 1024 := by
    intro n hn b hb
    have hnu : (n : ℚ) * u ≤ 1 / 1024 := by
      refine le_trans (mul_le_mul_of_nonneg_right ?_ S.u0) S.Nu
      exact_mod_cast hn
    have h1 := mul_le_mul_of_nonneg_right hnu (show 0 ≤ 500 * ((n : ℚ) + 1) * (u * (M * M)) by positivity)
    have h2 := mul_le_mul_of_nonneg_right S.u1 (show 0 ≤ b * (u * (M * M)) by positivity)
    linarith
  refine ⟨⟨T.zero, fun _ _ _ => ?_⟩, ?_, ?_, ?_, ?_, fun _ h => absurd h (by simp)⟩
  · simp [Arith.rounded, R.zero, csum, lastN]
  · rintro xs m s hr ⟨hI, hS⟩
    refine ⟨T.room xs m s hr hI, fun hlN hxs hlen => ⟨lastN w xs, fun x => ?_, fun h => ?_, ?_⟩⟩
    · rcases hr with rfl | hr
      · simp [lastN_zero]
      · exact lastN_snoc_room (by omega) _ _ (by omega)
    · refine (hS hlN.le hxs hlen).1 ?_
      by_contra hc
      exact lastN_ne_nil hc h
    · refine (hS hlN.le hxs hlen).2.trans (mul_le_mul_of_nonneg_right ?_ hU)
      have : (0 : ℚ) ≤ xs.length := by positivity
      linarith
  · rintro xs m s hw hne ⟨hI, hS⟩
    refine ⟨T.evict1 xs m s hw hne hI, fun hlN hxs hlen => ⟨[], fun x => ?_, fun _ => by simp [Arith.rounded, R.zero], ?_⟩⟩
    · subst hw
      simp [lastN]
    · simp [csum, Arith.rounded, R.zero]
      positivity
  · rintro xs y ys m s m' s' hl hw hys ⟨hI, hS⟩ hr
    refine ⟨T.evict xs y ys m s m' s' hl hw hys hI hr, fun hlN hxs hlen => ⟨ys, fun x => ?_, fun h => absurd h hys, ?_⟩⟩
    · rw [lastN_snoc_full (by omega) _ _ (by rw [hl]; simpa using hw), hl]; rfl
    obtain ⟨ws, hws, -, -, herr⟩ := T.evict xs y ys m s m' s' hl hw hys hI hr hlN hxs
    have hwy : ws = ys := by
      have h1 := hws 0
      rw [lastN_snoc_full (by omega) _ _ (by rw [hl]; simpa using hw), hl] at h1
      exact (List.append_cancel_right h1).symm
    subst hwy
    have hmem : ∀ z ∈ y :: ws, |z| ≤ M := fun z hz => (hxs z (hlast xs z (by rw [hl]; exact hz))).2
    have hlx : ws.length + 1 ≤ xs.length := by
      have := congrArg List.length hl
      rw [lastN_length, if_neg (by omega)] at this
      simp at this
      omega
    have hpos := List.length_pos_iff.2 hys
    obtain ⟨he, heM⟩ := drift_e S hpos (by omega) hlN.le herr
    obtain ⟨-, hs⟩ := hS hlN.le hxs hlen
    rw [hl, show csum 2 (y :: ws) = csum 2 (ws ++ [y]) from Moment.csum_perm (List.perm_append_singleton y ws).symm 2, csum_two_snoc] at hs
    have h2 := hr.2 2
    rw [if_pos ⟨le_rfl, hlen⟩, removeV_two R hN P (by omega)] at h2
    simp only [lt_irrefl, if_false] at h2
    have hμ := abs_mean_le S.M0 (xs := ws) (fun z hz => hmem z (by simp [hz]))
    have hc0 := csum_two_nonneg ws
    have hc1 := csum_two_le S.M0 (xs := ws) (fun z hz => hmem z (by simp [hz]))
    have hwx : (ws.length : ℚ) ≤ xs.length := by exact_mod_cast (by omega : ws.length ≤ xs.length)
    have hc2 := mul_le_mul_of_nonneg_right hwx hMM
    have hB : |s 2 + -1 * ((((ws.length + 1 : Nat) : ℚ) - 1) / ((ws.length + 1 : Nat) : ℚ) * ((y - Spec.mean ws) * (y - Spec.mean ws)))|
        ≤ (xs.length : ℚ) * (M * M) + 500 * (xs.length * xs.length + xs.length) * (u * (M * M)) := by
      rw [abs_le] at hs ⊢
      constructor <;> linarith
    have hstep := sum_step hE S P (n := ws.length + 1) (by omega) (by omega) (σ := -1) (by norm_num) (hmem y (by simp)) hμ he heM hB
    have hdel : (Arith.rounded rnd pw).sub y m' = rnd (y - m') := rfl
    rw [hdel] at h2
    rw [← h2] at hstep
    have hsm1 := hsm xs.length hlN.le 0 le_rfl
    have hn0 : 0 ≤ (xs.length : ℚ) * (u * (M * M)) := by positivity
    have hb := abs_le.1 hs
    have hb' := abs_le.1 hstep
    rw [abs_le]
    constructor <;> linarith
  · rintro hd xs x m s m' s' ⟨hI, hS⟩ hr
    refine ⟨T.add hd xs x m s m' s' hI hr, fun hlN hxs hlen => ?_⟩
    refine ⟨fun h => absurd h (by simp), ?_⟩
    have hl : (xs ++ [x]).length = xs.length + 1 := by simp
    have hx1 : ∀ y ∈ xs, rnd y = y ∧ |y| ≤ M := fun y hy => hxs y (by simp [hy])
    obtain ⟨ws, hws, -, -, herr⟩ := hI (by omega) hx1
    obtain ⟨ws', hws', hs0, hs⟩ := hS (by omega) hx1 hlen
    obtain rfl : ws' = ws := by
      have h1 := hws 0
      rw [hws'] at h1
      exact List.append_cancel_right h1
    have hmem : ∀ z ∈ ws' ++ [x], |z| ≤ M := fun z hz => (hxs z (hlast _ z (by rw [hws]; exact hz))).2
    have hwl : ws'.length ≤ xs.length := by
      have h1 := congrArg List.length (hws x)
      have h2 := lastN_length w (xs ++ [x])
      rw [h1] at h2
      simp at h2
      split_ifs at h2 <;> omega
    have h2 := hr.2 2
    rw [if_pos ⟨le_rfl, hlen⟩, hws, show (ws' ++ [x]).length = ws'.length + 1 by simp,
      addV_two R hN P (by omega) (by omega)] at h2
    rw [hws, hl]
    have hn0 : (0 : ℚ) ≤ xs.length := by positivity
    have hnU : 0 ≤ (xs.length : ℚ) * (u * (M * M)) := by positivity
    have hnnU : 0 ≤ ((xs.length : ℚ) * xs.length) * (u * (M * M)) := by positivity
    by_cases hnil : ws' = []
    · subst hnil
      rw [h2, hs0 rfl]
      simp only [List.length_nil, zero_add, Nat.cast_one, sub_self, zero_div, R.zero, zero_mul, mul_zero]
      simp [csum, Spec.mean]
      positivity
    · have hpos := List.length_pos_iff.2 hnil
      obtain ⟨he, heM⟩ := drift_e S hpos hwl (by omega) herr
      have hμ := abs_mean_le S.M0 (xs := ws') (fun z hz => hmem z (by simp [hz]))
      have hc0 := csum_two_nonneg (ws' ++ [x])
      have hc1 := csum_two_le S.M0 hmem
      rw [show (ws' ++ [x]).length = ws'.length + 1 by simp] at hc1
      rw [csum_two_snoc] at hc0 hc1 ⊢
      have hwx : ((ws'.length + 1 : Nat) : ℚ) ≤ (xs.length : ℚ) + 1 := by exact_mod_cast (by omega : ws'.length + 1 ≤ xs.length + 1)
      have hc2 := mul_le_mul_of_nonneg_right hwx hMM
      have hB : |s 2 + 1 * ((((ws'.length + 1 : Nat) : ℚ) - 1) / ((ws'.length + 1 : Nat) : ℚ) * ((x - Spec.mean ws') * (x - Spec.mean ws')))|
          ≤ ((xs.length : ℚ) + 1) * (M * M) + (500 * (xs.length * xs.length + xs.length) + (409 * xs.length + 110)) * (u * (M * M)) := by
        rw [abs_le] at hs ⊢
        constructor <;> linarith
      have hstep := sum_step hE S P (n := ws'.length + 1) (by omega) (by omega) (σ := 1) (by norm_num) (hmem x (by simp)) hμ he heM hB
      have hdel : (Arith.rounded rnd pw).sub x m = rnd (x - m) := rfl
      rw [hdel] at h2
      rw [← h2] at hstep
      have hsm1 := hsm xs.length (by omega) (409 * xs.length + 110) (by positivity)
      have hb := abs_le.1 hs
      have hb' := abs_le.1 hstep
      push_cast at hb hb' hsm1 ⊢
      rw [abs_le]
      constructor <;> linarith

end
end Verif.FP
