import Verif.Spec.Window

/-! # Specification: histories that do not exceed a window -/

namespace Verif.Spec

/-- At no time were more than `w` values pushed since the last `Clear`. -/
def Fits {F : Type} (w : Nat) (ops : List (MOp F)) : Prop := ∀ pre post, ops = pre ++ post → (since pre).length ≤ w

end Verif.Spec
