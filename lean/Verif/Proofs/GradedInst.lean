import Verif.Proofs.Graded
import Verif.Proofs.Rounding
import Mathlib.Tactic.Linarith
import Mathlib.Tactic.Ring
import Mathlib.Tactic.Positivity

/-! # Arithmetics that respect signs and powers of two -/

namespace Verif.FP
open Verif.Spec

/-! ## Signs -/

/-- The operations commute with negation. -/
structure OddArith {F : Type} (A : Arith F) : Prop where
  invol : ∀ x, A.neg (A.neg x) = x
  zero : A.neg (A.ofInt 0) = A.ofInt 0
  add : ∀ x y, A.add (A.neg x) (A.neg y) = A.neg (A.add x y)
  sub : ∀ x y, A.sub (A.neg x) (A.neg y) = A.neg (A.sub x y)
  mul_l : ∀ x y, A.mul (A.neg x) y = A.neg (A.mul x y)
  mul_r : ∀ x y, A.mul x (A.neg y) = A.neg (A.mul x y)
  div : ∀ x y, A.div (A.neg x) y = A.neg (A.div x y)
  pow : ∀ x k, A.pow (A.neg x) k = if k % 2 = 1 then A.neg (A.pow x k) else A.pow x k

/-- Negation if the number of signs is odd. -/
def signed {F : Type} (A : Arith F) (k : Nat) (x : F) : F := if k % 2 = 1 then A.neg x else x

theorem signed_odd {F : Type} (A : Arith F) {k : Nat} (h : k % 2 = 1) (x : F) : signed A k x = A.neg x := if_pos h
theorem signed_even {F : Type} (A : Arith F) {k : Nat} (h : k % 2 = 0) (x : F) : signed A k x = x := if_neg (by omega)

/-- Signs as a change of unit. -/
def OddArith.graded {F : Type} {A : Arith F} (O : OddArith A) : Graded A Nat where
  act := signed A
  act0 _ := rfl
  zero g := by unfold signed; split_ifs; exacts [O.zero, rfl]
  add g x y := by unfold signed; split_ifs; exacts [O.add x y, rfl]
  sub g x y := by unfold signed; split_ifs; exacts [O.sub x y, rfl]
  mul g h x y := by
    rcases Nat.mod_two_eq_zero_or_one g with hg | hg <;> rcases Nat.mod_two_eq_zero_or_one h with hh | hh
    · rw [signed_even A hg, signed_even A hh, signed_even A (by omega)]
    · rw [signed_even A hg, signed_odd A hh, signed_odd A (by omega), O.mul_r]
    · rw [signed_odd A hg, signed_even A hh, signed_odd A (by omega), O.mul_l]
    · rw [signed_odd A hg, signed_odd A hh, signed_even A (by omega), O.mul_l, O.mul_r, O.invol]
  div g x y := by unfold signed; split_ifs; exacts [O.div x y, rfl]
  pow g x k := by
    rcases Nat.mod_two_eq_zero_or_one g with hg | hg
    · rw [signed_even A hg, signed_even A (by rw [smul_eq_mul, Nat.mul_mod, hg, Nat.mul_zero, Nat.zero_mod])]
    · rw [signed_odd A hg, O.pow]
      unfold signed
      rw [smul_eq_mul, Nat.mul_mod, hg, Nat.mul_one, Nat.mod_mod]

theorem odd_rounded {rnd : ℚ → ℚ} {pw : ℚ → Nat → ℚ} (h0 : rnd 0 = 0) (hn : ∀ q, rnd (-q) = -rnd q)
    (hp : ∀ x k, pw (-x) k = if k % 2 = 1 then -pw x k else pw x k) : OddArith (Arith.rounded rnd pw) where
  invol x := neg_neg x
  zero := by simp [Arith.rounded, h0]
  add x y := by simp only [Arith.rounded]; rw [← hn]; congr 1; ring
  sub x y := by simp only [Arith.rounded]; rw [← hn]; congr 1; ring
  mul_l x y := by simp only [Arith.rounded]; rw [← hn]; congr 1; ring
  mul_r x y := by simp only [Arith.rounded]; rw [← hn]; congr 1; ring
  div x y := by simp only [Arith.rounded]; rw [← hn]; congr 1; ring
  pow := hp

theorem pow_sign (x : ℚ) (k : Nat) : (-x) ^ k = if k % 2 = 1 then -x ^ k else x ^ k := by
  by_cases h : k % 2 = 1
  · rw [if_pos h, (Nat.odd_iff.2 h).neg_pow]
  · rw [if_neg h, (Nat.even_iff.2 (by omega)).neg_pow]

/-- binary64 without overflow. -/
theorem odd_b64 : OddArith Arith.b64 := odd_rounded rounding_rnd64.zero rounding_rnd64.neg fun x k => by
  rw [pow_sign]
  split_ifs
  · rw [rounding_rnd64.neg]
  · rfl

/-- Negation in IEEE 754. -/
def xneg : XF ℚ → XF ℚ
  | .nan => .nan
  | .inf s => .inf (!s)
  | .fin a => .fin (-a)

theorem odd_ieee {rnd : ℚ → XF ℚ} {pw : ℚ → Nat → XF ℚ} (h0 : rnd 0 = .fin 0) (hn : ∀ q, rnd (-q) = xneg (rnd q))
    (hp : ∀ x k, pw (-x) k = if k % 2 = 1 then xneg (pw x k) else pw x k) : OddArith (Arith.ieee rnd pw) where
  invol x := by cases x <;> simp [Arith.ieee]
  zero := by simp [Arith.ieee, h0]
  add x y := by
    cases x with
    | nan => rfl
    | inf s =>
      cases y with
      | nan => rfl
      | inf t => cases s <;> cases t <;> rfl
      | fin b => rfl
    | fin a =>
      cases y with
      | nan => rfl
      | inf t => rfl
      | fin b =>
        show rnd (-a + -b) = xneg (rnd (a + b))
        rw [← hn]; congr 1; ring
  sub x y := by
    cases x with
    | nan => rfl
    | inf s =>
      cases y with
      | nan => rfl
      | inf t => cases s <;> cases t <;> rfl
      | fin b => rfl
    | fin a =>
      cases y with
      | nan => rfl
      | inf t => rfl
      | fin b =>
        show rnd (-a - -b) = xneg (rnd (a - b))
        rw [← hn]; congr 1; ring
  mul_l x y := by
    cases x with
    | nan => rfl
    | inf s =>
      cases y with
      | nan => rfl
      | inf t => cases s <;> cases t <;> rfl
      | fin b =>
        show (if b = 0 then XF.nan else .inf ((!s) != decide (b < 0))) = xneg (if b = 0 then .nan else .inf (s != decide (b < 0)))
        split_ifs
        · rfl
        · cases s <;> cases decide (b < 0) <;> rfl
    | fin a =>
      cases y with
      | nan => rfl
      | inf t =>
        show (if -a = 0 then XF.nan else .inf (t != decide (-a < 0))) = xneg (if a = 0 then .nan else .inf (t != decide (a < 0)))
        exact neg_inf t a
      | fin b =>
        show rnd (-a * b) = xneg (rnd (a * b))
        rw [← hn]; congr 1; ring
  mul_r x y := by
    cases x with
    | nan => cases y <;> rfl
    | inf s =>
      cases y with
      | nan => rfl
      | inf t => cases s <;> cases t <;> rfl
      | fin b =>
        show (if -b = 0 then XF.nan else .inf (s != decide (-b < 0))) = xneg (if b = 0 then .nan else .inf (s != decide (b < 0)))
        exact neg_inf s b
    | fin a =>
      cases y with
      | nan => rfl
      | inf t =>
        show (if a = 0 then XF.nan else .inf ((!t) != decide (a < 0))) = xneg (if a = 0 then .nan else .inf (t != decide (a < 0)))
        split_ifs
        · rfl
        · cases t <;> cases decide (a < 0) <;> rfl
      | fin b =>
        show rnd (a * -b) = xneg (rnd (a * b))
        rw [← hn]; congr 1; ring
  div x y := by
    cases x with
    | nan => rfl
    | inf s =>
      cases y with
      | nan => rfl
      | inf t => rfl
      | fin b =>
        show XF.inf ((!s) != decide (b < 0)) = xneg (.inf (s != decide (b < 0)))
        cases s <;> cases decide (b < 0) <;> rfl
    | fin a =>
      cases y with
      | nan => rfl
      | inf t => show XF.fin 0 = .fin (-0); rw [neg_zero]
      | fin b =>
        show (if b = 0 then (if -a = 0 then XF.nan else .inf (decide (-a < 0))) else rnd (-a / b)) =
          xneg (if b = 0 then (if a = 0 then .nan else .inf (decide (a < 0))) else rnd (a / b))
        by_cases hb : b = 0
        · rw [if_pos hb, if_pos hb]
          have := neg_inf false a
          simpa using this
        · rw [if_neg hb, if_neg hb, ← hn]; congr 1; ring
  pow x k := by
    cases x with
    | nan =>
      show (if k = 0 then XF.fin 1 else .nan) = if k % 2 = 1 then xneg (if k = 0 then .fin 1 else .nan) else (if k = 0 then .fin 1 else .nan)
      by_cases hk : k = 0
      · simp [hk]
      · simp [hk, xneg]
    | inf s =>
      show (if k = 0 then XF.fin 1 else .inf (!s && decide (k % 2 = 1))) =
        if k % 2 = 1 then xneg (if k = 0 then .fin 1 else .inf (s && decide (k % 2 = 1))) else (if k = 0 then .fin 1 else .inf (s && decide (k % 2 = 1)))
      by_cases hk : k = 0
      · simp [hk]
      · by_cases h1 : k % 2 = 1
        · simp [hk, h1, xneg]
        · simp [hk, h1]
    | fin a => exact hp a k
where
  neg_inf (s : Bool) (a : ℚ) : (if -a = 0 then XF.nan else .inf (s != decide (-a < 0))) = xneg (if a = 0 then .nan else .inf (s != decide (a < 0))) := by
    rcases lt_trichotomy a 0 with h | rfl | h
    · rw [if_neg (by linarith), if_neg h.ne, decide_eq_false (by linarith), decide_eq_true h]
      cases s <;> rfl
    · simp [xneg]
    · rw [if_neg (by linarith), if_neg h.ne', decide_eq_true (by linarith), decide_eq_false (by linarith)]
      cases s <;> rfl

theorem over64_neg (q : ℚ) : over64 (-q) = xneg (over64 q) := by
  have h2 : (0 : ℚ) < two 1024 := by rw [two_eq]; positivity
  unfold over64
  by_cases h1 : two 1024 ≤ q
  · rw [if_neg (by linarith), if_pos (by linarith), if_pos h1]; rfl
  · by_cases h3 : q ≤ -two 1024
    · rw [if_pos (by linarith), if_neg h1, if_pos h3]; rfl
    · rw [if_neg (by intro h; apply h3; linarith), if_neg (by intro h; apply h1; linarith), if_neg h1, if_neg h3]; rfl

/-- binary64 with infinities and NaN. -/
theorem odd_ieee64 : OddArith Arith.ieee64 := odd_ieee (by decide +kernel) (fun q => by rw [rounding_rnd64.neg, over64_neg]) fun x k => by
  rw [pow_sign]
  split_ifs
  · rw [rounding_rnd64.neg, over64_neg]
  · rfl

/-! ## Powers of two -/

/-- The rounding and the power do not depend on the binary exponent. -/
structure Homog (rnd : ℚ → ℚ) (pw : ℚ → Nat → ℚ) : Prop where
  rnd : ∀ (e : Int) q, rnd (2 ^ e * q) = 2 ^ e * rnd q
  pow : ∀ (e : Int) x k, pw (2 ^ e * x) k = 2 ^ ((k : Int) * e) * pw x k

/-- Powers of two as units. -/
def Homog.graded {rnd : ℚ → ℚ} {pw : ℚ → Nat → ℚ} (h0 : rnd 0 = 0) (H : Homog rnd pw) : Graded (Arith.rounded rnd pw) Int where
  act e x := 2 ^ e * x
  act0 x := by simp
  zero e := by simp [Arith.rounded, h0]
  add e x y := by simp only [Arith.rounded]; rw [← H.rnd]; congr 1; ring
  sub e x y := by simp only [Arith.rounded]; rw [← H.rnd]; congr 1; ring
  mul e f x y := by
    simp only [Arith.rounded]
    rw [← H.rnd, zpow_add₀ (by norm_num)]; congr 1; ring
  div e x y := by simp only [Arith.rounded]; rw [← H.rnd]; congr 1; ring
  pow e x k := by
    simp only [Arith.rounded]
    rw [H.pow]
    rfl

/-- Rounding to `p` bits when the exponent is not bounded: binary64 as long as nothing underflows or overflows. -/
def rndU (p : Nat) (q : ℚ) : ℚ := rnd p (if q = 0 then 0 else ilog |q|) q

theorem ilog_unique {q : ℚ} (h : 0 < q) {e : Int} (h1 : (2 : ℚ) ^ e ≤ q) (h2 : q < 2 ^ (e + 1)) : ilog q = e := by
  have a := ilog_lt h h2
  obtain ⟨s1, s2⟩ := ilog_spec h
  have b : e < ilog q + 1 := by
    by_contra hc
    have : (2 : ℚ) ^ (ilog q + 1) ≤ 2 ^ e := zpow_le_zpow_right₀ (by norm_num) (by omega)
    linarith
  omega

theorem ilog_scale {q : ℚ} (h : 0 < q) (e : Int) : ilog (2 ^ e * q) = e + ilog q := by
  obtain ⟨s1, s2⟩ := ilog_spec h
  have he : (0 : ℚ) < 2 ^ e := by positivity
  refine ilog_unique (by positivity) ?_ ?_
  · rw [zpow_add₀ (by norm_num)]
    exact mul_le_mul_of_nonneg_left s1 he.le
  · rw [add_assoc, zpow_add₀ (by norm_num)]
    exact mul_lt_mul_of_pos_left s2 he

theorem rndPos_scale {q : ℚ} (h : 0 < q) (p : Nat) (e : Int) : rndPos p (ilog (2 ^ e * q)) (2 ^ e * q) = 2 ^ e * rndPos p (ilog q) q := by
  unfold rndPos ulpExp
  rw [max_self, max_self, ilog_scale h, two_eq, two_eq]
  have h1 : e + ilog q - (p : Int) + 1 = e + (ilog q - p + 1) := by ring
  have he : (2 : ℚ) ^ e ≠ 0 := by positivity
  rw [h1, zpow_add₀ (by norm_num), mul_div_mul_left _ _ he]
  ring

theorem rndU_scale (p : Nat) (e : Int) (q : ℚ) : rndU p (2 ^ e * q) = 2 ^ e * rndU p q := by
  have he : (0 : ℚ) < 2 ^ e := by positivity
  unfold rndU rnd
  rcases lt_trichotomy q 0 with h | rfl | h
  · have h' : 2 ^ e * q < 0 := mul_neg_of_pos_of_neg he h
    rw [if_neg h'.ne, if_neg h'.ne, if_pos h', if_neg h.ne, if_neg h.ne, if_pos h, abs_of_neg h', abs_of_neg h, ← mul_neg,
      rndPos_scale (by linarith), mul_neg]
  · simp
  · have h' : 0 < 2 ^ e * q := mul_pos he h
    rw [if_neg h'.ne', if_neg h'.ne', if_neg (by linarith), if_neg h.ne', if_neg h.ne', if_neg (by linarith), abs_of_pos h', abs_of_pos h,
      rndPos_scale h]

/-- Where the exponent does not matter: no underflow. -/
theorem rnd_eq_rndU {p : Nat} {emin : Int} {q : ℚ} (h : q = 0 ∨ 2 ^ emin ≤ |q|) : rnd p emin q = rndU p q := by
  unfold rndU rnd
  rcases h with rfl | h
  · simp
  · have hq : q ≠ 0 := by
      rintro rfl
      rw [abs_zero] at h
      have : (0 : ℚ) < 2 ^ emin := by positivity
      linarith
    have hl : emin ≤ ilog |q| := by
      by_contra hc
      have h2 := (ilog_spec (abs_pos.2 hq)).2
      have : (2 : ℚ) ^ (ilog |q| + 1) ≤ 2 ^ emin := zpow_le_zpow_right₀ (by norm_num) (by omega)
      linarith
    rw [if_neg hq, if_neg hq, if_neg hq]
    split_ifs with hn
    · rw [abs_of_neg hn] at hl ⊢
      unfold rndPos ulpExp
      rw [max_eq_left hl, max_self]
    · rw [abs_of_nonneg (not_lt.1 hn)] at hl ⊢
      unfold rndPos ulpExp
      rw [max_eq_left hl, max_self]

theorem homog_rndU (p : Nat) : Homog (rndU p) (fun x k => rndU p (x ^ k)) where
  rnd := rndU_scale p
  pow e x k := by
    show rndU p ((2 ^ e * x) ^ k) = _
    rw [mul_pow, ← zpow_natCast, ← zpow_mul, rndU_scale, mul_comm e]

end Verif.FP
