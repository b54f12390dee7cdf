import Verif.Base

/-! # What it means that a failed call has no effect -/

namespace Verif.Spec
open Verif

/-- After any history that returned, an operation that returns an error leaves the state exactly as it was: all later calls go as if it had
not been made. -/
def AllOrNothing {S A : Type} (step : S → A → Go (S × Option Err)) (s : S) : Prop :=
  ∀ before s' es, Go.runOps (logged step) (s, []) before = .val (s', es) → ∀ o s'' e, step s' o = .val (s'', some e) → s'' = s'

/-- Stronger: no operation ever returns an error. -/
def NeverFails {S A : Type} (step : S → A → Go (S × Option Err)) (s : S) : Prop :=
  ∀ before s' es, Go.runOps (logged step) (s, []) before = .val (s', es) → es = [] ∧ ∀ o s'' e, step s' o ≠ .val (s'', some e)

end Verif.Spec
