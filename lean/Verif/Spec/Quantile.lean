import Verif.Spec.Bag
import Mathlib.Algebra.Order.Field.Basic

/-! # Specification of quantiles (interpolation.go:5-30, declaratively) -/

namespace Verif.Spec

/-- The five documented interpolation methods. -/
inductive Method where
  | linear | lower | higher | nearest | midpoint
  deriving DecidableEq, Repr

variable {K : Type} [Field K] [LinearOrder K]

/-- The value between `a` (at index `i`) and `b` (at index `i+1`) for the raw index `i + d`, `0 < d < 1`. -/
def interpolate (m : Method) (i : Nat) (a b d : K) : K :=
  match m with
  | .linear => (1 - d) * a + d * b
  | .lower => a
  | .higher => b
  | .nearest => if d < 1 / 2 ∨ (d = 1 / 2 ∧ Even i) then a else b
  | .midpoint => (a + b) / 2

/-- `v` is the `q`-quantile of the multiset `S` by method `m`. -/
def IsQuantile (m : Method) (S : Multiset K) (q v : K) : Prop :=
  (∃ i : Nat, q * (S.card - 1) = i ∧ IsKth S i v) ∨
  ∃ (i : Nat) (a b : K), (i : K) < q * (S.card - 1) ∧ q * (S.card - 1) < i + 1 ∧
    IsKth S i a ∧ IsKth S (i + 1) b ∧ v = interpolate m i a b (q * (S.card - 1) - i)

/-- `v` is the textbook median of `S`: the middle value, or the mean of the two middle values. -/
def IsMedian (S : Multiset K) (v : K) : Prop :=
  (∃ i : Nat, S.card = 2 * i + 1 ∧ IsKth S i v) ∨
  ∃ (i : Nat) (a b : K), S.card = 2 * i + 2 ∧ IsKth S i a ∧ IsKth S (i + 1) b ∧ v = (a + b) / 2

end Verif.Spec
