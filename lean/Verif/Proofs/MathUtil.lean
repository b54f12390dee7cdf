import Verif.Model.MathUtil
import Mathlib.Data.Nat.Choose.Basic
import Mathlib.Data.Nat.Factorial.Basic
import Mathlib.Tactic.NormNum
import Mathlib.Algebra.Ring.Parity
import Mathlib.Tactic.NormNum.DivMod

/-! # Exactness and overflow of `Binom` -/

namespace Verif.MathUtil
open Verif

theorem wrap_small {z : Int} (h1 : -(2 ^ 63) ≤ z) (h2 : z < 2 ^ 63) : wrap z = z := by
  unfold wrap
  apply Int.bmod_eq_of_le <;> norm_num <;> omega

theorem wrap_mul (a b : Int) : wrap (wrap a * wrap b) = wrap (a * b) := by
  unfold wrap
  rw [Int.bmod_mul_bmod, Int.mul_bmod_bmod]

theorem table_eq (n : Nat) : table n = wrap (n.factorial : Int) := by
  induction n with
  | zero => rfl
  | succ n ih =>
    rw [table, ih]
    unfold wrap
    rw [Int.bmod_mul_bmod]
    congr 1
    rw [Nat.factorial_succ]; push_cast; exact Int.mul_comm _ _

theorem factorial_eq (n : Nat) : factorial n = .val (wrap (n.factorial : Int)) := by
  unfold factorial
  rw [if_neg (by omega), Int.toNat_natCast, table_eq]

theorem factorial_lt {n : Nat} (h : n ≤ 20) : (n.factorial : Int) < 2 ^ 63 := by
  have : n.factorial ≤ (20).factorial := Nat.factorial_le h
  have h2 : (20).factorial < 2 ^ 63 := by decide
  exact_mod_cast lt_of_le_of_lt this h2

theorem wrap_factorial {n : Nat} (h : n ≤ 20) : wrap (n.factorial : Int) = n.factorial :=
  wrap_small (by have : (0 : Int) ≤ n.factorial := Int.natCast_nonneg _
                 norm_num) (factorial_lt h)

theorem binom_of {n k a b c : Int} (h : ¬ (k = 0 ∨ k = n)) (ha : factorial n = .val a) (hb : factorial k = .val b)
    (hc : factorial (n - k) = .val c) : binom n k = quo a (wrap (b * c)) := by
  unfold binom
  rw [if_neg h, ha, hb, hc]; rfl

/-- The value of `Binom` away from the shortcut, before the division. -/
theorem binom_eq {n k : Nat} (h0 : 0 < k) (h1 : k < n) :
    binom n k = quo (wrap (n.factorial : Int)) (wrap ((k.factorial * (n - k).factorial : Nat) : Int)) := by
  have : (n : Int) - k = ((n - k : Nat) : Int) := by omega
  rw [Nat.cast_mul, ← wrap_mul]
  exact binom_of (by omega) (factorial_eq n) (factorial_eq k) (by rw [this]; exact factorial_eq _)

theorem binom_exact {n k : Nat} (hk : k ≤ n) (hn : n ≤ 20) : binom n k = .val (n.choose k : Int) := by
  by_cases h0 : k = 0 ∨ k = n
  · unfold binom
    rw [if_pos (by omega)]
    rcases h0 with rfl | rfl <;> simp
  · rw [binom_eq (by omega) (by omega), wrap_factorial hn]
    have hd : k.factorial * (n - k).factorial ∣ n.factorial := Nat.factorial_mul_factorial_dvd_factorial hk
    have hle := Nat.le_of_dvd (Nat.factorial_pos n) hd
    have hlt := factorial_lt hn
    have hpos : 0 < k.factorial * (n - k).factorial := Nat.mul_pos (Nat.factorial_pos _) (Nat.factorial_pos _)
    have hw : wrap ((k.factorial * (n - k).factorial : Nat) : Int) = ((k.factorial * (n - k).factorial : Nat) : Int) :=
      wrap_small (by omega) (by omega)
    rw [hw]
    unfold quo
    rw [if_neg (by exact_mod_cast hpos.ne')]
    have hc : (n.factorial : Int).tdiv ((k.factorial * (n - k).factorial : Nat) : Int) = n.choose k := by
      rw [Nat.choose_eq_factorial_div_factorial hk]
      rfl
    rw [hc, wrap_small]
    · have : (0 : Int) ≤ n.choose k := Int.natCast_nonneg _
      norm_num
    · have : n.choose k ≤ n.factorial := by
        rw [Nat.choose_eq_factorial_div_factorial hk]; exact Nat.div_le_self _ _
      omega

theorem wrap_eq_zero {z : Nat} : wrap (z : Int) = 0 ↔ 2 ^ 64 ∣ z := by
  unfold wrap
  rw [← Int.dvd_iff_bmod_eq_zero]
  constructor
  · intro h; exact_mod_cast h
  · intro h; exact_mod_cast h

/-- `Binom` panics exactly when the denominator is a multiple of 2^64. -/
theorem binom_panic_iff {n k : Nat} (h0 : 0 < k) (h1 : k < n) :
    binom n k = .panic ↔ 2 ^ 64 ∣ k.factorial * (n - k).factorial := by
  rw [binom_eq h0 h1, ← wrap_eq_zero]
  unfold quo
  split_ifs with h
  · simpa using h
  · simpa using h

theorem binom_no_panic {n k : Nat} (hk : k ≤ n) (hn : n ≤ 65) : ∃ v, binom n k = .val v := by
  by_cases h0 : k = 0 ∨ k = n
  · exact ⟨1, if_pos (by omega)⟩
  · have hnp : ¬ binom n k = .panic := by
      rw [binom_panic_iff (by omega) (by omega)]
      intro h
      have h2 := (h.trans (Nat.factorial_mul_factorial_dvd_factorial hk)).trans (Nat.factorial_dvd_factorial hn)
      exact absurd h2 (by decide +kernel)
    rw [binom_eq (by omega) (by omega)] at hnp ⊢
    unfold quo at hnp ⊢
    split_ifs at hnp ⊢ with h
    · exact absurd rfl hnp
    · exact ⟨_, rfl⟩

/-- From 66 on some coefficient needed by a core panics. -/
theorem binom_panics {n : Nat} (hn : 66 ≤ n) : ∃ k, 1 ≤ k ∧ k ≤ n - 2 ∧ binom n k = .panic := by
  by_cases h : n = 66
  · subst h
    exact ⟨2, by omega, by omega, (binom_panic_iff (n := 66) (k := 2) (by decide) (by decide)).2 (by decide +kernel)⟩
  · refine ⟨1, by omega, by omega, (binom_panic_iff (k := 1) (by decide) (by omega)).2 ?_⟩
    have h1 : 2 ^ 64 ∣ (66).factorial := by decide +kernel
    rw [Nat.factorial_one, Nat.one_mul]
    exact h1.trans (Nat.factorial_dvd_factorial (by omega))

theorem sign_eq (n : Nat) : sign n = (-1) ^ n := by
  unfold sign
  rcases Nat.even_or_odd n with h | h
  · rw [if_pos, h.neg_one_pow]
    obtain ⟨m, rfl⟩ := h
    rw [Int.tmod_eq_emod_of_nonneg (by omega)]; omega
  · rw [if_neg, h.neg_one_pow]
    obtain ⟨m, rfl⟩ := h
    rw [Int.tmod_eq_emod_of_nonneg (by omega)]; omega

end Verif.MathUtil
