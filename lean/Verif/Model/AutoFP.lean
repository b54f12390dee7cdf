import Verif.Model.JointFP
import Verif.Model.JointMetric

/-!
# `joint/autocov.go` and `joint/autocorr.go` over an arbitrary arithmetic

`Model/JointMetric.lean` reads `float64` as a field. Here the same code is read over an arbitrary arithmetic, with the core of
`Model/JointFP.lean`. The structure and `NewAutocov`, `NewAutocorr` are those of `Model/JointMetric.lean`.
-/

namespace Verif.JFP
open Verif.Spec
open Verif.FP (Arith)
open Verif.Joint (Auto Core)

namespace Auto
variable {F : Type} (A : Arith F)

/-- core.go:28-37 `Init`, with autocov.go:42-45 `SetCore` and 53-55 `Config`. -/
def init [GoOrd F] (a : Auto F) : Go (Auto F × Option Err) :=
  match newCore A a.kind.config with
  | .panic => .panic
  | .hang => .hang
  | .val (.error e) => .val (a, some ("error creating Core: error validating config: " ++ e))
  | .val (.ok c) => .val ({ a with core := some c }, none)

/-- autocov.go:99-104, autocorr.go:99-104: put the value into the lag queue. -/
def put (a : Auto F) (x : F) : Go (Auto F × Option Err) :=
  match a.queue.put x with
  | .panic => .panic
  | .hang => .hang
  | .val (.error e) => .val (a, some ("error pushing to lag queue: " ++ e))
  | .val (.ok q) => .val ({ a with queue := q }, none)

/-- autocov.go:86-96, autocorr.go:86-96: the pair with the oldest value of a full lag queue, then `put`. -/
def pair (a : Auto F) (c : Core F) (x : F) : Go (Auto F × Option Err) :=
  match a.queue.get with
  | .panic => .panic
  | .hang => .hang
  | .val (.error e) => .val (a, some ("error popping item from lag queue: " ++ e))
  | .val (.ok (tail, q)) =>
    match push A c [x, tail] with
    | .panic => .panic
    | .hang => .hang
    | .val (c', some e) => .val ({ a with queue := q, core := some c' }, some ("error pushing to core: " ++ e))
    | .val (c', none) => put { a with queue := q, core := some c' } x

/-- autocov.go:70-105, autocorr.go:70-105 `Push`. -/
def push (a : Auto F) (x : F) : Go (Auto F × Option Err) :=
  match a.core with
  | none => .val (a, some "Core is not set")
  | some c =>
    if a.lag = 0 then
      match JFP.push A c [x, x] with
      | .panic => .panic
      | .hang => .hang
      | .val (c', some e) => .val ({ a with core := some c' }, some ("error pushing to core: " ++ e))
      | .val (c', none) => .val ({ a with core := some c' }, none)
    else if (a.queue.len : Int) ≥ a.lag then pair A a c x
    else put a x

/-- autocov.go:122-130, autocorr.go:122-130 `Clear`. -/
def clear (a : Auto F) : Auto F :=
  match a.core with
  | none => a
  | some c => { a with core := some (JFP.clear A c), queue := Ring.new a.lag.toNat }

/-- autocov.go:108-119, autocorr.go:108-119 `Value`, given `math.Sqrt`. -/
def value (sqrt : F → F) (a : Auto F) : Except Err F :=
  match a.core with
  | none => .error "Core is not set"
  | some c =>
    if c.count = 0 then .error "Not enough values seen"
    else if a.corr then corrValue A sqrt c else covValue A c

/-- One client operation. -/
def step (a : Auto F) : MOp F → Go (Auto F × Option Err)
  | .push x => push A a x
  | .clear => .val (clear A a, none)

/-- A whole client history. -/
def run (a : Auto F) (ops : List (MOp F)) : Go (Auto F × List Err) :=
  Go.runOps (logged (step A)) (a, []) ops

end Auto
end Verif.JFP
