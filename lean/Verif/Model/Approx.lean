import Verif.Model.MomentFP
import Mathlib.Data.Rat.Floor

/-! # Model of `util/test/approx.go` in binary64 -/

namespace Verif.Approx
open Verif Verif.FP

/-- `math.Round` on a finite number: the nearest integer, halves away from zero. It is exact: from 2^52 on all binary64 numbers are integers. -/
def roundAway (q : ℚ) : ℤ := if q < 0 then -⌊-q + 1 / 2⌋ else ⌊q + 1 / 2⌋

/-- `math.Round`: infinities and NaN are returned unchanged. -/
def round : XF ℚ → XF ℚ
  | .fin q => .fin (roundAway q)
  | .inf s => .inf s
  | .nan => .nan

/-- approx.go:13, `unit := 5 * math.Pow10(-n-1)`. `math.Pow10(-k)` is `1 / 10^k` for `0 ≤ k ≤ 22`, one division of exact numbers. -/
def unit (n : Nat) : XF ℚ := Arith.ieee64.mul (Arith.ieee64.ofInt 5) (Arith.ieee64.div (Arith.ieee64.ofInt 1) (Arith.ieee64.ofInt (10 ^ (n + 1))))

/-- approx.go:12-15 `roundFloat`. -/
def roundFloat (x : XF ℚ) (n : Nat) : XF ℚ := Arith.ieee64.mul (round (Arith.ieee64.div x (unit n))) (unit n)

/-- approx.go:19-23 `Approx`: whether the assertion holds. `assert.Equal` compares two `float64` by `==` (`reflect.DeepEqual`). `precision` is 9
(approx.go:10). -/
def approx (x y : XF ℚ) : Bool := GoOrd.eq (roundFloat x 9) (roundFloat y 9)

/-- approx.go:27-32 `ApproxSlice`: whether all assertions hold; with different lengths the first one fails. -/
def approxSlice (xs ys : List (XF ℚ)) : Bool := decide (xs.length = ys.length) && (List.zipWith approx xs ys).all id

end Verif.Approx
