import Mathlib.Data.List.Basic

/-! # Specification: the values a windowed metric is about -/

namespace Verif.Spec

/-- Client operations of a metric. -/
inductive MOp (F : Type) where
  | push (x : F)
  | clear
  deriving DecidableEq, Repr

variable {F : Type}

/-- The values pushed since the last `Clear`, oldest first. -/
def since (ops : List (MOp F)) : List F :=
  ops.foldl (fun acc o => match o with | .push x => acc ++ [x] | .clear => []) []

/-- The last `w` elements (all of them when `w = 0`: a global metric). -/
def lastN (w : Nat) (xs : List F) : List F := if w = 0 then xs else xs.drop (xs.length - w)

/-- The current window after a history. -/
def windowOf (w : Nat) (ops : List (MOp F)) : List F := lastN w (since ops)

end Verif.Spec
