import Verif.Model.Factorials

/-! # Specification: goroutines that do not interfere -/

namespace Verif.Spec
open Verif Verif.Fact

variable {T α : Type}

/-- Every goroutine that has finished has the result it has when running alone. -/
def SameAsAlone (w : World T α) (alone : T → Go α) : Prop := ∀ t r, w.loc t = .run (.done r) → r = alone t

/-- The goroutine is about to write the shared slice. -/
def Writes : Local α → Prop
  | .append .. => True
  | .store .. => True
  | _ => False

end Verif.Spec
