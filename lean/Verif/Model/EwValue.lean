import Verif.Model.JointFP

/-! # The values of the exponentially weighted metrics over an arbitrary arithmetic

`EWMCorr` computes the same expression as `Corr` from its core: see `JFP.corrValue`. -/

namespace Verif.FP
open Verif.Moment (Core)
variable {F : Type}

/-- ewmmoment.go:73-84 `EWMMoment.Value` of a metric with its core set. -/
def ewmMomentValue (c : Core F) (k : Int) : Except Err F :=
  match sum c k with
  | .error e => .error ("error retrieving sum: " ++ e)
  | .ok s => .ok s

/-- ewmstd.go:56-66 `EWMStd.Value` of a metric with its core set, given `math.Sqrt`. -/
def ewmStdValue (sqrt : F → F) (c : Core F) : Except Err F :=
  match ewmMomentValue c 2 with
  | .error e => .error ("error retrieving 2nd moment: " ++ e)
  | .ok v => .ok (sqrt v)

end Verif.FP

namespace Verif.JFP
open Verif.Joint (Core)
variable {F : Type}

/-- ewmcov.go:69-80 `EWMCov.Value` of a metric with its core set. -/
def ewmCovValue (c : Core F) : Except Err F :=
  match sum c [1, 1] with
  | .error e => .error ("error retrieving sum: " ++ e)
  | .ok s => .ok s

end Verif.JFP
