import Verif.Proofs.Rounded
import Mathlib.Tactic.IntervalCases

/-! # Streams on which the rounding errors of the mean add up -/

namespace Verif.FP
open Verif.Spec Verif.MathUtil
open Verif.Moment (Core Config)

/-! ### Rounding of particular numbers -/

theorem rnd64_repr {n : Int} (e : Int) (h : |n| < 2 ^ 53) (he : -1074 ≤ e) : rnd64 (n * 2 ^ e) = n * 2 ^ e := by
  rcases le_total 0 n with h0 | h0
  · rw [abs_of_nonneg h0] at h
    exact rnd_repr (by norm_num) h0 h (by norm_num; omega)
  · rw [abs_of_nonpos h0] at h
    have := rnd_repr (p := 53) (emin := -1022) (n := -n) (e := e) (by norm_num) (by omega) h (by norm_num; omega)
    have h2 := rounding_rnd64.neg (n * 2 ^ e)
    have h3 : rnd64 (-(n * 2 ^ e)) = -(n * 2 ^ e) := by
      have h4 : rnd64 (((-n : Int) : ℚ) * 2 ^ e) = ((-n : Int) : ℚ) * 2 ^ e := this
      push_cast at h4
      rwa [show -(n : ℚ) * 2 ^ e = -(n * 2 ^ e) by ring] at h4
    rw [h3] at h2
    linarith

theorem rnd64_int {n : Int} (h : |n| < 2 ^ 53) : rnd64 n = n := by simpa using rnd64_repr 0 h (by norm_num)

theorem rnd64_even {n : Int} (h : |n| < 2 ^ 53) : rnd64 (2 * n) = 2 * n := by
  have := rnd64_repr 1 h (by norm_num)
  rw [zpow_one, mul_comm] at this
  exact this

theorem rnd64_half {n : Int} (h : |n| < 2 ^ 53) : rnd64 (n / 2) = n / 2 := by
  have := rnd64_repr (-1) h (by norm_num)
  rw [zpow_neg, zpow_one, ← div_eq_mul_inv] at this
  exact this

/-- Rounding within a binade. -/
theorem rnd64_binade {q : ℚ} {e : Nat} (h1 : 2 ^ (e + 52) ≤ q) (h2 : q < 2 ^ (e + 53)) : rnd64 q = roundEven (q / 2 ^ e) * 2 ^ e := by
  have hq : 0 < q := lt_of_lt_of_le (by positivity) h1
  obtain ⟨a, b⟩ := ilog_spec hq
  have hl : ilog q = e + 52 := by
    have c1 : ((e : Int) + 52) < ilog q + 1 := by
      have : (2 : ℚ) ^ ((e : Int) + 52) < 2 ^ (ilog q + 1) := by
        refine lt_of_le_of_lt ?_ b
        have := h1
        rw [← zpow_natCast] at this
        push_cast at this
        exact this
      exact (zpow_lt_zpow_iff_right₀ (by norm_num)).1 this
    have c2 : ilog q < (e : Int) + 53 := by
      refine ilog_lt hq ?_
      have := h2
      rw [← zpow_natCast] at this
      push_cast at this
      exact this
    omega
  have hu : ulpExp 53 (-1022) q = e := by unfold ulpExp; rw [hl]; push_cast; omega
  unfold rnd64
  rw [rnd_pos hq, rndPos, hu, two_eq, zpow_natCast]

theorem roundEven_up (n : Int) : roundEven (2 * n + 1 / 2) = 2 * n := by
  have h : ⌊(2 * n + 1 / 2 : ℚ)⌋ = 2 * n := by
    rw [Int.floor_eq_iff]; push_cast; constructor <;> linarith
  unfold roundEven
  rw [h]
  push_cast
  rw [if_neg (by linarith), if_neg (by linarith), if_pos (by omega)]

theorem roundEven_down (n : Int) : roundEven (2 * n - 1 / 2) = 2 * n := by
  have h : ⌊(2 * n - 1 / 2 : ℚ)⌋ = 2 * n - 1 := by
    rw [Int.floor_eq_iff]; push_cast; constructor <;> linarith
  unfold roundEven
  rw [h]
  push_cast
  rw [if_neg (by linarith), if_neg (by linarith), if_neg (by omega)]
  ring

theorem rnd64_tie_up {n : Int} (h1 : 2 ^ 51 ≤ n) (h2 : n < 2 ^ 52) : rnd64 (2 * n + 1 / 2) = 2 * n := by
  have a1 : (2 ^ 51 : ℚ) ≤ n := by exact_mod_cast h1
  have a2 : (n : ℚ) ≤ 2 ^ 52 - 1 := by exact_mod_cast (by omega : n ≤ 2 ^ 52 - 1)
  rw [rnd64_binade (e := 0) (by norm_num; linarith) (by norm_num; linarith)]
  simp only [pow_zero, div_one, mul_one, roundEven_up]
  push_cast; ring

theorem rnd64_tie_down {n : Int} (h1 : 2 ^ 51 < n) (h2 : n < 2 ^ 52) : rnd64 (2 * n - 1 / 2) = 2 * n := by
  have a1 : (2 ^ 51 + 1 : ℚ) ≤ n := by exact_mod_cast (by omega : 2 ^ 51 + 1 ≤ n)
  have a2 : (n : ℚ) ≤ 2 ^ 52 - 1 := by exact_mod_cast (by omega : n ≤ 2 ^ 52 - 1)
  rw [rnd64_binade (e := 0) (by norm_num; linarith) (by norm_num; linarith)]
  simp only [pow_zero, div_one, mul_one, roundEven_down]
  push_cast; ring

theorem rnd64_tie_odd {n : Int} (h1 : 2 ^ 51 < n) (h2 : n < 2 ^ 52) : rnd64 (4 * n - 1) = 4 * n := by
  have a1 : (2 ^ 51 + 1 : ℚ) ≤ n := by exact_mod_cast (by omega : 2 ^ 51 + 1 ≤ n)
  have a2 : (n : ℚ) ≤ 2 ^ 52 - 1 := by exact_mod_cast (by omega : n ≤ 2 ^ 52 - 1)
  rw [rnd64_binade (e := 1) (by norm_num; linarith) (by norm_num; linarith),
    show (4 * (n : ℚ) - 1) / 2 ^ 1 = 2 * n - 1 / 2 by ring, roundEven_down]
  push_cast; ring

/-! ### Window 2 -/

/-- The stream `2^53 + 2, 2^52 + 3, 2^52 + 1`, repeated. -/
def saw (i : Nat) : ℚ := if i % 3 = 0 then 2 ^ 53 + 2 else if i % 3 = 1 then 2 ^ 52 + 3 else 2 ^ 52 + 1

/-- The mean after `k` values. -/
def sawMean (k : Nat) : ℚ :=
  if k = 0 then 0 else if k = 1 then 2 ^ 53 + 2 else
  if k % 3 = 0 then 2 ^ 52 + 2 * (k / 3 : Nat) else if k % 3 = 1 then 2 ^ 52 + 2 ^ 51 + 2 * (k / 3 : Nat)
  else 2 ^ 52 + 2 ^ 51 + 2 * (k / 3 : Nat) + 2

/-- The mean after `k` values, one value removed. -/
def sawMid (k : Nat) : ℚ :=
  if k < 2 then sawMean k else
  if k % 3 = 0 then 2 ^ 52 + 4 * (k / 3 : Nat) - 3 else if k % 3 = 1 then 2 ^ 53 + 4 * (k / 3 : Nat)
  else 2 ^ 52 + 4 * (k / 3 : Nat) + 2

def sawList (k : Nat) : List ℚ := (List.range k).map saw

theorem sawList_succ (k : Nat) : sawList (k + 1) = sawList k ++ [saw k] := by simp [sawList, List.range_succ]

theorem lastN_saw {k : Nat} (h : 2 ≤ k) : lastN 2 (sawList k) = [saw (k - 2), saw (k - 1)] := by
  obtain ⟨j, rfl⟩ : ∃ j, k = j + 2 := ⟨k - 2, by omega⟩
  rw [show j + 2 = (j + 1) + 1 from rfl, sawList_succ, sawList_succ]
  simp [lastN]

theorem saw_evict {k : Nat} (h : 2 ≤ k) (hk : k ≤ 3 * 2 ^ 48) :
    rnd64 (sawMean k - rnd64 (rnd64 (saw (k - 2) - sawMean k) / rnd64 1)) = sawMid k := by
  obtain ⟨n, r, hr, rfl⟩ : ∃ n r, r < 3 ∧ k = 3 * n + r := ⟨k / 3, k % 3, Nat.mod_lt _ (by norm_num), by omega⟩
  rw [rounding_rnd64.one, div_one]
  simp only [rounding_rnd64.idem]
  have hn : n ≤ 2 ^ 48 := by omega
  have hnz : ((n : Int) : ℚ) = n := by push_cast; rfl
  interval_cases r
  · have h1 : sawMean (3 * n + 0) = 2 ^ 52 + 2 * n := by
      unfold sawMean
      rw [if_neg (by omega), if_neg (by omega), if_pos (by omega), show (3 * n + 0) / 3 = n by omega]
    have h2 : saw (3 * n + 0 - 2) = 2 ^ 52 + 3 := by unfold saw; rw [if_neg (by omega), if_pos (by omega)]
    have h3 : sawMid (3 * n + 0) = 2 ^ 52 + 4 * n - 3 := by
      unfold sawMid
      rw [if_neg (by omega), if_pos (by omega), show (3 * n + 0) / 3 = n by omega]
    have e1 := rnd64_int (n := 3 - 2 * n) (by rw [abs_lt]; constructor <;> omega)
    have e2 := rnd64_int (n := 2 ^ 52 + 4 * n - 3) (by rw [abs_lt]; constructor <;> omega)
    simp only [Int.cast_add, Int.cast_sub, Int.cast_mul, Int.cast_pow, Int.cast_ofNat, Int.cast_neg, Int.cast_one, Int.cast_natCast] at e1 e2
    rw [h1, h2, h3, show (2 : ℚ) ^ 52 + 3 - (2 ^ 52 + 2 * n) = 3 - 2 * n by ring, e1,
      show (2 : ℚ) ^ 52 + 2 * n - (3 - 2 * n) = 2 ^ 52 + 4 * n - 3 by ring, e2]
  · have h1 : sawMean (3 * n + 1) = 2 ^ 52 + 2 ^ 51 + 2 * n := by
      unfold sawMean
      rw [if_neg (by omega), if_neg (by omega), if_neg (by omega), if_pos (by omega), show (3 * n + 1) / 3 = n by omega]
    have h2 : saw (3 * n + 1 - 2) = 2 ^ 52 + 1 := by unfold saw; rw [if_neg (by omega), if_neg (by omega)]
    have h3 : sawMid (3 * n + 1) = 2 ^ 53 + 4 * n := by
      unfold sawMid
      rw [if_neg (by omega), if_neg (by omega), if_pos (by omega), show (3 * n + 1) / 3 = n by omega]
    have e1 := rnd64_int (n := 1 - 2 ^ 51 - 2 * n) (by rw [abs_lt]; constructor <;> omega)
    have e2 := rnd64_tie_odd (n := 2 ^ 51 + n) (by omega) (by omega)
    simp only [Int.cast_add, Int.cast_sub, Int.cast_mul, Int.cast_pow, Int.cast_ofNat, Int.cast_neg, Int.cast_one, Int.cast_natCast] at e1 e2
    rw [h1, h2, h3, show (2 : ℚ) ^ 52 + 1 - (2 ^ 52 + 2 ^ 51 + 2 * n) = 1 - 2 ^ 51 - 2 * n by ring, e1,
      show (2 : ℚ) ^ 52 + 2 ^ 51 + 2 * n - (1 - 2 ^ 51 - 2 * n) = 4 * (2 ^ 51 + n) - 1 by ring, e2]
    ring
  · have h1 : sawMean (3 * n + 2) = 2 ^ 52 + 2 ^ 51 + 2 * n + 2 := by
      unfold sawMean
      rw [if_neg (by omega), if_neg (by omega), if_neg (by omega), if_neg (by omega), show (3 * n + 2) / 3 = n by omega]
    have h2 : saw (3 * n + 2 - 2) = 2 ^ 53 + 2 := by unfold saw; rw [if_pos (by omega)]
    have h3 : sawMid (3 * n + 2) = 2 ^ 52 + 4 * n + 2 := by
      unfold sawMid
      rw [if_neg (by omega), if_neg (by omega), if_neg (by omega), show (3 * n + 2) / 3 = n by omega]
    have e1 := rnd64_int (n := 2 ^ 51 - 2 * n) (by rw [abs_lt]; constructor <;> omega)
    have e2 := rnd64_int (n := 2 ^ 52 + 4 * n + 2) (by rw [abs_lt]; constructor <;> omega)
    simp only [Int.cast_add, Int.cast_sub, Int.cast_mul, Int.cast_pow, Int.cast_ofNat, Int.cast_neg, Int.cast_one, Int.cast_natCast] at e1 e2
    rw [h1, h2, h3, show (2 : ℚ) ^ 53 + 2 - (2 ^ 52 + 2 ^ 51 + 2 * n + 2) = 2 ^ 51 - 2 * n by ring, e1,
      show (2 : ℚ) ^ 52 + 2 ^ 51 + 2 * n + 2 - (2 ^ 51 - 2 * n) = 2 ^ 52 + 4 * n + 2 by ring, e2]

theorem saw_add {k : Nat} (h : 1 ≤ k) (hk : k ≤ 3 * 2 ^ 48) :
    rnd64 (sawMid k + rnd64 (rnd64 (saw k - sawMid k) / rnd64 2)) = sawMean (k + 1) := by
  rw [rounding_rnd64.two]
  by_cases hk1 : k = 1
  · subst hk1; decide +kernel
  obtain ⟨n, r, hr, rfl⟩ : ∃ n r, r < 3 ∧ k = 3 * n + r := ⟨k / 3, k % 3, Nat.mod_lt _ (by norm_num), by omega⟩
  have hn : n ≤ 2 ^ 48 := by omega
  interval_cases r
  · have h1 : sawMid (3 * n + 0) = 2 ^ 52 + 4 * n - 3 := by
      unfold sawMid
      rw [if_neg (by omega), if_pos (by omega), show (3 * n + 0) / 3 = n by omega]
    have h2 : saw (3 * n + 0) = 2 ^ 53 + 2 := by unfold saw; rw [if_pos (by omega)]
    have h3 : sawMean (3 * n + 0 + 1) = 2 ^ 52 + 2 ^ 51 + 2 * n := by
      unfold sawMean
      rw [if_neg (by omega), if_neg (by omega), if_neg (by omega), if_pos (by omega), show (3 * n + 0 + 1) / 3 = n by omega]
    have e1 := rnd64_int (n := 2 ^ 52 + 5 - 4 * n) (by rw [abs_lt]; constructor <;> omega)
    have e2 := rnd64_half (n := 2 ^ 52 + 5 - 4 * n) (by rw [abs_lt]; constructor <;> omega)
    have e3 := rnd64_tie_down (n := 2 ^ 51 + 2 ^ 50 + n) (by omega) (by omega)
    simp only [Int.cast_add, Int.cast_sub, Int.cast_mul, Int.cast_pow, Int.cast_ofNat, Int.cast_neg, Int.cast_one, Int.cast_natCast] at e1 e2 e3
    rw [h1, h2, h3, show (2 : ℚ) ^ 53 + 2 - (2 ^ 52 + 4 * n - 3) = 2 ^ 52 + 5 - 4 * n by ring, e1, e2,
      show (2 : ℚ) ^ 52 + 4 * n - 3 + (2 ^ 52 + 5 - 4 * n) / 2 = 2 * (2 ^ 51 + 2 ^ 50 + n) - 1 / 2 by ring, e3]
    ring
  · have h1 : sawMid (3 * n + 1) = 2 ^ 53 + 4 * n := by
      unfold sawMid
      rw [if_neg (by omega), if_neg (by omega), if_pos (by omega), show (3 * n + 1) / 3 = n by omega]
    have h2 : saw (3 * n + 1) = 2 ^ 52 + 3 := by unfold saw; rw [if_neg (by omega), if_pos (by omega)]
    have h3 : sawMean (3 * n + 1 + 1) = 2 ^ 52 + 2 ^ 51 + 2 * n + 2 := by
      unfold sawMean
      rw [if_neg (by omega), if_neg (by omega), if_neg (by omega), if_neg (by omega), show (3 * n + 1 + 1) / 3 = n by omega]
    have e1 := rnd64_int (n := 3 - 2 ^ 52 - 4 * n) (by rw [abs_lt]; constructor <;> omega)
    have e2 := rnd64_half (n := 3 - 2 ^ 52 - 4 * n) (by rw [abs_lt]; constructor <;> omega)
    have e3 := rnd64_tie_down (n := 2 ^ 51 + 2 ^ 50 + n + 1) (by omega) (by omega)
    simp only [Int.cast_add, Int.cast_sub, Int.cast_mul, Int.cast_pow, Int.cast_ofNat, Int.cast_neg, Int.cast_one, Int.cast_natCast] at e1 e2 e3
    rw [h1, h2, h3, show (2 : ℚ) ^ 52 + 3 - (2 ^ 53 + 4 * n) = 3 - 2 ^ 52 - 4 * n by ring, e1, e2,
      show (2 : ℚ) ^ 53 + 4 * n + (3 - 2 ^ 52 - 4 * n) / 2 = 2 * (2 ^ 51 + 2 ^ 50 + n + 1) - 1 / 2 by ring, e3]
    ring
  · have h1 : sawMid (3 * n + 2) = 2 ^ 52 + 4 * n + 2 := by
      unfold sawMid
      rw [if_neg (by omega), if_neg (by omega), if_neg (by omega), show (3 * n + 2) / 3 = n by omega]
    have h2 : saw (3 * n + 2) = 2 ^ 52 + 1 := by unfold saw; rw [if_neg (by omega), if_neg (by omega)]
    have h3 : sawMean (3 * n + 2 + 1) = 2 ^ 52 + 2 * n + 2 := by
      unfold sawMean
      rw [if_neg (by omega), if_neg (by omega), if_pos (by omega), show (3 * n + 2 + 1) / 3 = n + 1 by omega]
      push_cast; ring
    have e1 := rnd64_int (n := -1 - 4 * n) (by rw [abs_lt]; constructor <;> omega)
    have e2 := rnd64_half (n := -1 - 4 * n) (by rw [abs_lt]; constructor <;> omega)
    have e3 := rnd64_tie_down (n := 2 ^ 51 + n + 1) (by omega) (by omega)
    simp only [Int.cast_add, Int.cast_sub, Int.cast_mul, Int.cast_pow, Int.cast_ofNat, Int.cast_neg, Int.cast_one, Int.cast_natCast] at e1 e2 e3
    rw [h1, h2, h3, show (2 : ℚ) ^ 52 + 1 - (2 ^ 52 + 4 * n + 2) = -1 - 4 * n by ring, e1, e2,
      show (2 : ℚ) ^ 52 + 4 * n + 2 + (-1 - 4 * n) / 2 = 2 * (2 ^ 51 + n + 1) - 1 / 2 by ring, e3]
    ring

theorem saw_first : rnd64 (0 + rnd64 (rnd64 (saw 0 - 0) / rnd64 1)) = sawMean 1 := by decide +kernel

theorem track_saw {pw : ℚ → Nat → ℚ} (len : Nat) :
    Track (Arith.rounded rnd64 pw) 2 none len
      (fun xs m _ => ∀ k, k ≤ 3 * 2 ^ 48 → xs = sawList k → m = sawMean k)
      (fun xs m _ => ∀ k, k < 3 * 2 ^ 48 → xs = sawList k → m = sawMid k) where
  zero := fun k _ h => by
    obtain rfl : k = 0 := by simpa [sawList] using (congrArg List.length h).symm
    simp [Arith.rounded, rounding_rnd64.zero, sawMean]
  room := fun xs m s hr hI k hk h => by
    have hk2 : k < 2 := by
      by_contra hc
      rw [h, lastN_saw (by omega)] at hr
      simp at hr
    rw [hI k hk.le h, sawMid, if_pos hk2]
  evict1 := fun xs m s hw => absurd hw (by norm_num)
  evict := fun xs y ys m s m' s' hl hw hys hI hr k hk h => by
    have hk2 : 2 ≤ k := by
      by_contra hc
      have h1 := congrArg List.length hl
      rw [lastN_length, if_neg (by omega), h] at h1
      simp [sawList] at h1
      omega
    rw [h, lastN_saw hk2] at hl
    injection hl with e1 e2
    have hm : m' = rnd64 (m - rnd64 (rnd64 (y - m) / rnd64 (ys.length : Int))) := hr.1
    rw [hI k hk.le h, ← e1, ← e2] at hm
    rw [hm]
    simpa using saw_evict hk2 hk.le
  add := fun _ xs x m s m' s' hI hr k hk h => by
    have hk0 : k ≠ 0 := by
      rintro rfl
      simp [sawList] at h
    obtain ⟨j, rfl⟩ : ∃ j, k = j + 1 := ⟨k - 1, by omega⟩
    rw [sawList_succ] at h
    obtain ⟨h1, h2⟩ := List.append_inj' h rfl
    obtain rfl : x = saw j := by simpa using h2
    have hm : m' = rnd64 (m + rnd64 (rnd64 (saw j - m) / rnd64 ((lastN 2 (xs ++ [saw j])).length : Int))) := hr.1
    rw [hI j (by omega) h1, h1, ← sawList_succ] at hm
    by_cases hj : j = 0
    · subst hj
      rw [hm]
      have : sawMid 0 = 0 := by simp [sawMid, sawMean]
      rw [this]
      have h1 : (lastN 2 (sawList (0 + 1))).length = 1 := by simp [sawList, lastN]
      rw [h1]
      simpa using saw_first
    · rw [lastN_saw (by omega)] at hm
      rw [hm]
      simpa using saw_add (k := j) (by omega) (by omega)
  decay := fun _ h => absurd h (by simp)

/-! ### No window: the mean stops moving -/

/-- `2^j` ones, then values `1 + 2^(j - 53)`. -/
def stuckList (j k : Nat) : List ℚ := List.replicate (2 ^ j) 1 ++ List.replicate k (1 + 2 ^ j / 2 ^ 53)

theorem track_stuck {pw : ℚ → Nat → ℚ} {j : Nat} (hj : j ≤ 52) (len : Nat) :
    Track (Arith.rounded rnd64 pw) 0 none len
      (fun xs m _ => ∀ k, xs <+: stuckList j k → (xs = [] → m = 0) ∧ (xs ≠ [] → m = 1))
      (fun xs m _ => ∀ k, xs <+: stuckList j k → (xs = [] → m = 0) ∧ (xs ≠ [] → m = 1)) where
  zero := fun k _ => by simp [Arith.rounded, rounding_rnd64.zero]
  room := fun _ _ _ _ h => h
  evict1 := fun _ _ _ h => absurd h (by norm_num)
  evict := fun _ _ _ _ _ _ _ _ h => absurd h (by omega)
  add := fun _ xs x m s m' s' hI hr k hp => by
    obtain ⟨h0, h1⟩ := hI k ((List.prefix_append xs [x]).trans hp)
    refine ⟨fun h => absurd h (by simp), fun _ => ?_⟩
    have hm : m' = rnd64 (m + rnd64 (rnd64 (x - m) / rnd64 ((lastN 0 (xs ++ [x])).length : Int))) := hr.1
    rw [lastN_zero, List.length_append, List.length_singleton] at hm
    have hget : (stuckList j k)[xs.length]? = some x := by
      obtain ⟨t, ht⟩ := hp
      rw [← ht, List.getElem?_append_left (by simp), List.getElem?_append_right (by simp)]
      simp
    by_cases hlt : xs.length < 2 ^ j
    · rw [stuckList, List.getElem?_append_left (by simpa using hlt), List.getElem?_replicate, if_pos hlt] at hget
      obtain rfl : 1 = x := by simpa using hget
      by_cases hn : xs = []
      · rw [hm, h0 hn, hn]
        simp [rounding_rnd64.one]
      · rw [hm, h1 hn]
        simp [rounding_rnd64.zero, rounding_rnd64.one]
    · have hne : xs ≠ [] := by
        rintro rfl
        exact hlt (by simp)
      rw [stuckList, List.getElem?_append_right (by simpa using not_lt.1 hlt), List.getElem?_replicate] at hget
      obtain rfl : (1 + 2 ^ j / 2 ^ 53 : ℚ) = x := by
        split at hget
        · simpa using hget
        · simp at hget
      rw [hm, h1 hne, add_sub_cancel_left]
      have hd : rnd64 ((2 : ℚ) ^ j / 2 ^ 53) = 2 ^ j / 2 ^ 53 := by
        have := rnd64_repr (n := 1) ((j : Int) - 53) (by norm_num) (by omega)
        rw [Int.cast_one, one_mul, zpow_sub₀ (by norm_num), zpow_natCast] at this
        exact_mod_cast this
      have hc : (2 : ℚ) ^ j ≤ rnd64 (((xs.length + 1 : Nat) : Int) : ℚ) := by
        have a := rounding_rnd64.mono (show ((2 ^ j : Nat) : ℚ) ≤ (((xs.length + 1 : Nat) : Int) : ℚ) by
          push_cast; exact_mod_cast (by omega : 2 ^ j ≤ xs.length + 1))
        rw [rnd64_nat (Nat.pow_lt_pow_right (by norm_num) (by omega))] at a
        push_cast at a ⊢
        exact a
      rw [hd]
      set c := rnd64 (((xs.length + 1 : Nat) : Int) : ℚ)
      have hjp : (0 : ℚ) < 2 ^ j := by positivity
      have hcp : 0 < c := lt_of_lt_of_le hjp hc
      have hq : (2 : ℚ) ^ j / 2 ^ 53 / c ≤ 1 / 2 ^ 53 := by
        rw [div_le_div_iff₀ hcp (by positivity), div_mul_cancel₀ _ (by positivity), one_mul]
        exact hc
      have a1 := rounding_rnd64.mono hq
      have a2 := rounding_rnd64.nonneg (show (0 : ℚ) ≤ 2 ^ j / 2 ^ 53 / c by positivity)
      have e1 : rnd64 (1 / 2 ^ 53) = 1 / 2 ^ 53 := by decide +kernel
      have e2 : rnd64 (1 + 1 / 2 ^ 53) = 1 := by decide +kernel
      rw [e1] at a1
      refine le_antisymm ?_ ?_
      · rw [← e2]
        exact rounding_rnd64.mono (by linarith)
      · have := rounding_rnd64.mono (show (1 : ℚ) ≤ 1 + rnd64 ((2 : ℚ) ^ j / 2 ^ 53 / c) by linarith)
        rwa [rounding_rnd64.one] at this
  decay := fun _ h => absurd h (by simp)

end Verif.FP
