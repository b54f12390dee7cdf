import Verif.Base

/-! # Model of `util/math/math.go` with 64-bit wrap-around -/

namespace Verif.MathUtil
open Verif

/-- Two's complement wrap-around of a mathematical integer to Go's `int` (64 bits). -/
def wrap (z : Int) : Int := Int.bmod z (2 ^ 64)

/-- math.go:3-12 `factorial`: the table entry for a non-negative index. The table is a cache of this recurrence (`next` is the last
entry times the length, in `int` arithmetic); its first eight entries are the literals of line 3. -/
def table : Nat → Int
  | 0 => 1
  | n + 1 => wrap (table n * (n + 1))

/-- math.go:5-12 `factorial`; a negative index is out of range. -/
def factorial (n : Int) : Go Int := if n < 0 then .panic else .val (table n.toNat)

/-- math.go:15-21 `Sign`. -/
def sign (n : Int) : Int := if n.tmod 2 = 0 then 1 else -1

/-- Go's `int` division: truncated, panics on zero, wraps. -/
def quo (a b : Int) : Go Int := if b = 0 then .panic else .val (wrap (a.tdiv b))

/-- math.go:24-30 `Binom`. Operands are evaluated left to right. -/
def binom (n k : Int) : Go Int :=
  if k = 0 ∨ k = n then .val 1
  else do
    let a ← factorial n
    let b ← factorial k
    let c ← factorial (n - k)
    quo a (wrap (b * c))

end Verif.MathUtil
