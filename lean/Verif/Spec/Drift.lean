import Verif.Spec.Joint

/-! # Specification: what a window leaves behind -/

namespace Verif.Spec

variable {K : Type} [Field K]

/-- The amount that the evictions from a window of `w` have to subtract from a sum of order two: for every value that has left the window, `(w-1)/w` times the product of its distances from the
means of the `w - 1` values after it. -/
def drift (w : Nat) (a : List Nat) (xs : List (List K)) : K :=
  ((List.range (xs.length - w)).map fun i =>
    ((w : K) - 1) / w * jprod (fun j => mean (coord j ((xs.drop (i + 1)).take (w - 1)))) (xs.getD i []) a).sum

end Verif.Spec
