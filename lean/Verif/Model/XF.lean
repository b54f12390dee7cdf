import Mathlib.Algebra.Field.Defs
import Mathlib.Order.Defs.LinearOrder

/-! # Floating-point values with exact finite part

A `float64` result as a finite number, an infinity or NaN. The finite part is exact (no rounding, no overflow); zeros are unsigned, a zero
divisor counts as `+0`. In the code modelled with this type every divisor that can be zero is a difference of equal positive numbers, a
square root or a product of square roots, so it is `+0` in IEEE arithmetic as well. -/

namespace Verif

/-- See the module comment. `inf true` is negative infinity. -/
inductive XF (K : Type) where
  | fin (x : K)
  | inf (neg : Bool)
  | nan
  deriving DecidableEq

namespace XF
variable {K : Type} [Field K] [LinearOrder K]

/-- IEEE division. -/
def div : XF K → XF K → XF K
  | .nan, _ => .nan
  | _, .nan => .nan
  | .inf _, .inf _ => .nan
  | .fin _, .inf _ => .fin 0
  | .inf s, .fin b => .inf (s != decide (b < 0))
  | .fin a, .fin b => if b = 0 then (if a = 0 then .nan else .inf (decide (a < 0))) else .fin (a / b)

/-- IEEE multiplication. -/
def mul : XF K → XF K → XF K
  | .nan, _ => .nan
  | _, .nan => .nan
  | .inf s, .inf t => .inf (s != t)
  | .inf s, .fin b => if b = 0 then .nan else .inf (s != decide (b < 0))
  | .fin a, .inf s => if a = 0 then .nan else .inf (s != decide (a < 0))
  | .fin a, .fin b => .fin (a * b)

/-- IEEE subtraction. -/
def sub : XF K → XF K → XF K
  | .nan, _ => .nan
  | _, .nan => .nan
  | .inf s, .inf t => if s = t then .nan else .inf s
  | .inf s, .fin _ => .inf s
  | .fin _, .inf s => .inf (!s)
  | .fin a, .fin b => .fin (a - b)

/-- `math.Sqrt`, given the square root `r` of non-negative numbers. -/
def sqrt (r : K → K) : XF K → XF K
  | .nan => .nan
  | .inf true => .nan
  | .inf false => .inf false
  | .fin a => if a < 0 then .nan else .fin (r a)

/-- `math.Pow(x, 1.5)`, given the power `p` on non-negative numbers. -/
def pow15 (p : K → K) : XF K → XF K
  | .nan => .nan
  | .inf _ => .inf false
  | .fin a => if a < 0 then .nan else .fin (p a)

/-- `math.Pow(x, 2)`. -/
def sq : XF K → XF K
  | .nan => .nan
  | .inf _ => .inf false
  | .fin a => .fin (a ^ 2)

end XF
end Verif
