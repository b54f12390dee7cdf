import Verif.Model.MathUtil
import Mathlib.Algebra.Ring.Defs

/-! # Model of `joint/tuple.go`

A Go `int` is an `Int`; arithmetic that can leave 64 bits wraps (`MathUtil.wrap`). -/

namespace Verif.Joint
open Verif Verif.MathUtil

/-- tuple.go:15 `Tuple`. -/
abbrev Tuple := List Int

/-- tuple.go:17-23 `abs`. -/
def abs (m : Tuple) : Int := m.foldl (fun s i => wrap (s + i)) 0

/-- tuple.go:25-36 `hash`. The final conversion to `uint64` is a bijection of 64-bit patterns and is left out. -/
def hash (m : Tuple) : Int := m.foldl (fun r i => wrap (31 * r + i)) 0

/-- tuple.go:38-50 `eq`. -/
def eq (m n : Tuple) : Bool := decide (m = n)

/-- tuple.go:52-66 `sub`. -/
def sub (m n : Tuple) : Except Err Tuple :=
  if m.length ≠ n.length then .error "Tuples have different lengths" else .ok (List.zipWith (fun a b => wrap (a - b)) m n)

/-- tuple.go:77-80: the loop of `multinom` over the common indices. -/
def multinomLoop (result : Int) : Tuple → Tuple → Go Int
  | a :: m, b :: n =>
    match binom a b with
    | .panic => .panic
    | .hang => .hang
    | .val c => multinomLoop (wrap (result * c)) m n
  | _, _ => .val result

/-- tuple.go:68-83 `multinom`. -/
def multinom (m n : Tuple) : Go (Except Err Int) :=
  if m.length ≠ n.length then .val (.error "Tuples have different lengths")
  else
    match multinomLoop 1 m n with
    | .panic => .panic
    | .hang => .hang
    | .val r => .val (.ok r)

/-- tuple.go:94-97: the loop of `pow`. Exponents are non-negative wherever the code calls it (`iter` only produces such tuples), so
`math.Pow` is the natural power (with `0^0 = 1`, as in Go). -/
def powLoop {K : Type} [CommRing K] (result : K) : List K → Tuple → K
  | x :: xs, n :: ns => powLoop (result * x ^ n.toNat) xs ns
  | _, _ => result

/-- tuple.go:85-100 `pow`. -/
def pow {K : Type} [CommRing K] (x : List K) (n : Tuple) : Except Err K :=
  if x.length ≠ n.length then .error "Cannot exponentiate slice and Tuple with different lengths" else .ok (powLoop 1 x n)

section iter
variable {σ : Type}

/-- A loop calling `body` on every element and collecting the errors (`multierror.Append` flattens nested errors and drops nil). -/
def forEach {α : Type} (body : α → σ → Go (σ × List Err)) : List α → σ → Go (σ × List Err)
  | [], s => .val (s, [])
  | i :: is, s =>
    match body i s with
    | .panic => .panic
    | .hang => .hang
    | .val (s, e) =>
      match forEach body is s with
      | .panic => .panic
      | .hang => .hang
      | .val (s, e') => .val (s, e ++ e')

/-- tuple.go:123 and 131: the values of the loop variable. -/
def indices (reverse : Bool) (n : Int) : List Int :=
  let up := (List.range (n + 1).toNat).map Int.ofNat
  if reverse then up.reverse else up

/-- `iter` on the reversed tuple, so that Go's `tuple[len(tuple)-1]` and `tuple[:len(tuple)-1]` are head and tail. The callback takes and
returns the captured state explicitly; the empty list of errors is a nil error. -/
def iterRev (reverse : Bool) : Tuple → (Tuple → σ → Go (σ × List Err)) → σ → Go (σ × List Err)
  | [], cb, s => cb [] s
  | n :: rest, cb, s => forEach (fun i s => iterRev reverse rest (fun xs s => cb (xs ++ [i]) s) s) (indices reverse n) s

/-- tuple.go:116-141 `iter`. -/
def iter (tuple : Tuple) (reverse : Bool) (cb : Tuple → σ → Go (σ × List Err)) (s : σ) : Go (σ × List Err) :=
  iterRev reverse tuple.reverse cb s

end iter
end Verif.Joint
