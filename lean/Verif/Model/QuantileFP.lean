import Verif.Model.MomentFP
import Mathlib.Algebra.Order.Floor.Ring

/-! # The arithmetic of package `quantile` in floating point

The models of quantile.go, median.go, iqr.go (`Model/Quantile.lean`) and heap_median.go (`Model/HeapMedian.lean`) take the arithmetic as a
parameter; here are two instances. -/

namespace Verif.FP
open Verif

/-- Every operation is exact on ℚ and then rounded; `math.Trunc` and the conversion of a whole number to `int` are exact. Finite numbers
only: `rnd` does not overflow, zeros are unsigned. -/
def roundedOps (rnd : ℚ → ℚ) : FOps ℚ where
  ofInt n := rnd n
  add a b := rnd (a + b)
  sub a b := rnd (a - b)
  mul a b := rnd (a * b)
  div a b := rnd (a / b)
  trunc x := if 0 ≤ x then ⌊x⌋ else ⌈x⌉
  toInt x := if 0 ≤ x then ⌊x⌋ else ⌈x⌉

/-- IEEE 754 binary64 without overflow. -/
def ops64 : FOps ℚ := roundedOps rnd64

/-- IEEE 754 binary64 with overflow to infinities. The conversion of NaN and infinities to `int` is implementation-defined in Go; here it
is 0, which no theorem uses. -/
def ieeeOps64 : FOps (XF ℚ) where
  ofInt := Arith.ieee64.ofInt
  add := Arith.ieee64.add
  sub := Arith.ieee64.sub
  mul := Arith.ieee64.mul
  div := Arith.ieee64.div
  trunc
    | .fin x => .fin (if 0 ≤ x then ⌊x⌋ else ⌈x⌉)
    | x => x
  toInt
    | .fin x => if 0 ≤ x then ⌊x⌋ else ⌈x⌉
    | _ => 0

end Verif.FP
