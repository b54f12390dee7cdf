import Verif.Spec.Moment
import Verif.Spec.Window

/-! # Specification: joint central power sums, covariance, correlation -/

namespace Verif.Spec

variable {K : Type} [Field K]

/-- The `j`-th coordinate (from 0) of every data point. -/
def coord (j : Nat) (data : List (List K)) : List K := data.map (fun x => x.getD j 0)

/-- The product over all coordinates of `(xⱼ - μⱼ) ^ mⱼ`. -/
def jprod (μ : Nat → K) (x : List K) (m : List Nat) : K :=
  ((List.range m.length).map (fun j => (x.getD j 0 - μ j) ^ (m.getD j 0))).prod

/-- The joint centralized power sum for the exponents `m`. -/
def jsum (m : List Nat) (data : List (List K)) : K :=
  (data.map (fun x => jprod (fun j => mean (coord j data)) x m)).sum

/-- The exponentially weighted joint central moment for the exponents `m`. -/
def ewJoint (d : K) (m : List Nat) (data : List (List K)) : K :=
  ewTotal d (fun x => jprod (fun j => ewMean d (coord j data)) x m) data

/-- The operations that are accepted by a core of `n` variables. -/
def okArity {F : Type} (n : Nat) : MOp (List F) → Bool
  | .push xs => xs.length == n
  | .clear => true

/-- `m ≤ t` componentwise, for tuples of the same length. -/
def Below (m t : List Nat) : Prop := List.Forall₂ (· ≤ ·) m t

/-- Sample covariance of the first two coordinates. -/
def sampleCov (data : List (List K)) : K :=
  (data.map (fun p => (p.getD 0 0 - mean (coord 0 data)) * (p.getD 1 0 - mean (coord 1 data)))).sum / (data.length - 1)

/-- Pearson correlation of the first two coordinates. -/
noncomputable def pearson (data : List (List ℝ)) : ℝ :=
  sampleCov data / (sampleStd (coord 0 data) * sampleStd (coord 1 data))

/-- Exponentially weighted covariance of the first two coordinates. -/
def ewCov (d : K) (data : List (List K)) : K :=
  ewTotal d (fun p => (p.getD 0 0 - ewMean d (coord 0 data)) * (p.getD 1 0 - ewMean d (coord 1 data))) data

/-- Exponentially weighted correlation of the first two coordinates. -/
noncomputable def ewCorr (d : ℝ) (data : List (List ℝ)) : ℝ :=
  ewCov d data / (Real.sqrt (ewMoment d 2 (coord 0 data)) * Real.sqrt (ewMoment d 2 (coord 1 data)))

/-- The pairs of every value with the one `lag` steps earlier. -/
def lagged (lag : Nat) (xs : List K) : List (List K) := List.zipWith (fun x y => [x, y]) (xs.drop lag) xs

end Verif.Spec
