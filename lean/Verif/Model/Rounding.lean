import Mathlib.Data.Rat.Floor

/-!
# Rounding to nearest, ties to even

What a `float64` operation does to the exact result (Go specification, "Arithmetic operators": IEEE 754). Precision and least exponent are
parameters; the exponent is not bounded above (overflow is the business of `Arith.ieee` in `Model/MomentFP.lean`).
-/

namespace Verif.FP

/-- `2 ^ e`, in a form that computes quickly. -/
def two (e : Int) : ℚ := if 0 ≤ e then ((2 ^ e.toNat : Nat) : ℚ) else 1 / ((2 ^ (-e).toNat : Nat) : ℚ)

/-- The integer nearest to `q`, the even one of two. -/
def roundEven (q : ℚ) : Int :=
  if q - ⌊q⌋ < 1 / 2 then ⌊q⌋ else if 1 / 2 < q - ⌊q⌋ then ⌊q⌋ + 1 else if ⌊q⌋ % 2 = 0 then ⌊q⌋ else ⌊q⌋ + 1

/-- The `e` with `2 ^ e ≤ q < 2 ^ (e + 1)`, for positive `q`. -/
def ilog (q : ℚ) : Int :=
  let e := (Nat.log2 q.num.toNat : Int) - Nat.log2 q.den
  if two e ≤ q then e else e - 1

/-- The distance of neighbouring numbers with `p` bits around `q`. -/
def ulpExp (p : Nat) (emin : Int) (q : ℚ) : Int := max (ilog q) emin - p + 1

/-- Rounding of a positive number. -/
def rndPos (p : Nat) (emin : Int) (q : ℚ) : ℚ := roundEven (q / two (ulpExp p emin q)) * two (ulpExp p emin q)

/-- Rounding to `p` bits with exponents from `emin`, gradual underflow below. -/
def rnd (p : Nat) (emin : Int) (q : ℚ) : ℚ := if q = 0 then 0 else if q < 0 then -rndPos p emin (-q) else rndPos p emin q

/-- IEEE 754 binary64, no overflow. -/
def rnd64 : ℚ → ℚ := rnd 53 (-1022)

end Verif.FP
