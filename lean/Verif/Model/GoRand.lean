import Verif.Model.Rounding

/-!
# Model of the random level

`rand.Float64` is part of the Go standard library, not of /repo: it draws a 63-bit integer `k`, computes `float64(k) / (1 << 63)` and starts
again if that is 1. That the integers are independent and uniform is an assumption about the generator.
-/

namespace Verif.Skip
open Verif.FP

/-- math/rand `Float64` for the integer `k`; the division by a power of two is exact. -/
def goFloat (k : Nat) : ℚ := rnd64 k / 2 ^ 63

/-- The number of integers that are not rejected. -/
def goN : Nat := 2 ^ 63 - 2 ^ 9

/-- skiplist.go:87-90: the entry `probs[l]` for the default probability 0.25. -/
def goProb (l : Nat) : ℚ := (1 / 4) ^ l

/-- The number of integers that pass the test `r < s.probs[l]` (skiplist.go:231). -/
def goThreshold (l : Nat) : Nat := if l ≤ 4 then 2 ^ (63 - 2 * l) - 2 ^ (9 - 2 * l) else 2 ^ (63 - 2 * l)

end Verif.Skip
