import Mathlib.Data.Fintype.Pi
import Mathlib.Data.Fintype.BigOperators
import Mathlib.Algebra.Field.Rat
import Mathlib.Algebra.BigOperators.Ring.Finset

/-! # Specification: averages over independent uniform draws -/

namespace Verif.Spec

/-- The average of `f` over all ways to draw `n` numbers below `N`, each equally likely. -/
def average {n N : Nat} (f : (Fin n → Fin N) → Nat) : ℚ := (∑ d, (f d : ℚ)) / (N : ℚ) ^ n

end Verif.Spec
