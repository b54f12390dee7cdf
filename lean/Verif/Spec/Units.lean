import Verif.Spec.Window

/-! # Specification: the same data with other signs or in other units -/

namespace Verif.Spec

/-- The same calls with every pushed value changed by `f`. -/
def mapPush {α β : Type} (f : α → β) (ops : List (MOp α)) : List (MOp β) :=
  ops.map fun o => match o with | .push x => .push (f x) | .clear => .clear

/-- Change the variables of a point, the first by `f s₀`, the second by `f s₁` and so on. -/
def onVars {β F : Type} (f : β → F → F) : List β → List F → List F
  | b :: s, y :: x => f b y :: onVars f s x
  | _, x => x

/-- How many factors of a monomial with exponents `m` belong to the variables marked in `s`. -/
def marked (s : List Bool) (m : List Nat) : Nat := (List.zipWith (fun b k => if b then k else 0) s m).sum

/-- The logarithm of the factor by which a monomial with exponents `m` changes when the variables are multiplied by `2^e₀`, `2^e₁`, ... -/
def scaleOf (e : List Int) (m : List Nat) : Int := (List.zipWith (fun e (k : Nat) => (k : Int) * e) e m).sum

end Verif.Spec
