import Mathlib.Algebra.Field.Defs
import Mathlib.Algebra.BigOperators.Group.List.Defs
import Mathlib.Analysis.SpecialFunctions.Pow.Real

/-! # Specification: means, central power sums, exponential weights -/

namespace Verif.Spec

variable {K : Type} [Field K]

/-- Arithmetic mean. -/
def mean (xs : List K) : K := xs.sum / xs.length

/-- The `k`-th centralized power sum. -/
def csum (k : Nat) (xs : List K) : K := (xs.map (fun x => (x - mean xs) ^ k)).sum

/-- The exponential weight of the `i`-th (from 0) of `n` values: the first value carries all the remaining weight. -/
def ewWeight (d : K) (n i : Nat) : K := if i = 0 then (1 - d) ^ (n - 1) else d * (1 - d) ^ (n - 1 - i)

/-- The weighted sum `∑ wᵢ f(xᵢ)` over a list, oldest first. -/
def ewTotal {α : Type} (d : K) (f : α → K) (xs : List α) : K :=
  (xs.zipIdx.map (fun p => ewWeight d xs.length p.2 * f p.1)).sum

/-- Exponentially weighted mean. -/
def ewMean (d : K) (xs : List K) : K := ewTotal d (fun x => x) xs

/-- Exponentially weighted `k`-th central moment. -/
def ewMoment (d : K) (k : Nat) (xs : List K) : K := ewTotal d (fun x => (x - ewMean d xs) ^ k) xs

/-- The `k`-th sample central moment. -/
def sampleMoment (k : Nat) (xs : List K) : K := csum k xs / (xs.length - 1)

/-- The `k`-th population central moment. -/
def popMoment (k : Nat) (xs : List K) : K := csum k xs / xs.length

/-- Sample standard deviation. -/
noncomputable def sampleStd (xs : List ℝ) : ℝ := Real.sqrt (sampleMoment 2 xs)

/-- Adjusted Fisher-Pearson skewness `√(n(n-1))/(n-2) · m₃/m₂^(3/2)`. -/
noncomputable def skewness (xs : List ℝ) : ℝ :=
  Real.sqrt (xs.length * (xs.length - 1)) / (xs.length - 2) * popMoment 3 xs / popMoment 2 xs ^ (3 / 2 : ℝ)

/-- Excess kurtosis `m₄/m₂² - 3`. -/
def exKurtosis (xs : List K) : K := popMoment 4 xs / popMoment 2 xs ^ 2 - 3

end Verif.Spec
