import Verif.Model.Joint
import Verif.Model.XF

/-! # Model of the metrics of package `joint`

cov.go, corr.go, ewmcov.go, ewmcorr.go, autocov.go, autocorr.go. A metric is its parameters and its core pointer (`none` before `Init`);
`Autocov` and `Autocorr` hold the same core a second time in their inner `Cov` or `Corr` (their `SetCore`), so one optional core describes
both. Locking is in `Model/Locks.lean`. -/

namespace Verif.Joint
open Verif Verif.Spec

/-- The metrics on pairs and the arguments of their constructors. -/
inductive Kind (K : Type) where
  /-- cov.go:16-18 `NewCov(window)`. -/
  | cov (window : Int)
  /-- corr.go:17-19 `NewCorr(window)`. -/
  | corr (window : Int)
  /-- ewmcov.go:18-20 `NewEWMCov(decay)`. -/
  | ewmCov (decay : K)
  /-- ewmcorr.go:19-21 `NewEWMCorr(decay)`. -/
  | ewmCorr (decay : K)

/-- `Config()`: cov.go:37-42, corr.go:38-47, ewmcov.go:33-39, ewmcorr.go:34-44. -/
def Kind.config {K : Type} : Kind K → Config K
  | .cov w => ⟨some [[1, 1]], some w, none, none⟩
  | .corr w => ⟨some [[1, 1], [2, 0], [0, 2]], some w, none, none⟩
  | .ewmCov d => ⟨some [[1, 1]], some 0, none, some d⟩
  | .ewmCorr d => ⟨some [[1, 1], [2, 0], [0, 2]], some 0, none, some d⟩

/-- The message for a wrong number of values, without the values themselves. -/
def Kind.arity {K : Type} : Kind K → Err
  | .cov _ => "Cov expected 2 arguments"
  | .corr _ => "Corr expected 2 arguments"
  | .ewmCov _ => "EWMCov expected 2 arguments"
  | .ewmCorr _ => "EWMCorr expected 2 arguments"

/-- A metric on pairs. -/
structure Metric (K : Type) where
  kind : Kind K
  core : Option (Core K)

/-- `errors.Wrap`. -/
def wrapErr {α : Type} (msg : String) : Except Err α → Except Err α
  | .ok v => .ok v
  | .error e => .error (msg ++ ": " ++ e)

namespace Metric
variable {K : Type}

/-- The constructors: no core yet. -/
def new (k : Kind K) : Metric K := ⟨k, none⟩

variable [Field K]

/-- core.go:28-37 `Init`: on an error the metric is unchanged. -/
def init [GoOrd K] (m : Metric K) : Go (Metric K × Option Err) :=
  match newCore m.kind.config with
  | .panic => .panic
  | .hang => .hang
  | .val (.error e) => .val (m, some ("error creating Core: error validating config: " ++ e))
  | .val (.ok c) => .val ({ m with core := some c }, none)

/-- `Push`: cov.go:51-69, corr.go:56-74, ewmcov.go:48-66, ewmcorr.go:53-71. -/
def push (m : Metric K) (xs : List K) : Go (Metric K × Option Err) :=
  match m.core with
  | none => .val (m, some "Core is not set")
  | some c =>
    if xs.length ≠ 2 then .val (m, some m.kind.arity)
    else
      match Joint.push c xs with
      | .panic => .panic
      | .hang => .hang
      | .val (c', none) => .val ({ m with core := some c' }, none)
      | .val (c', some e) => .val ({ m with core := some c' }, some ("error pushing to core: " ++ e))

/-- `Clear`: cov.go:92-96, corr.go:109-113, ewmcov.go:83-87, ewmcorr.go:106-110. -/
def clear (m : Metric K) : Metric K :=
  match m.core with
  | none => m
  | some c => { m with core := some (Joint.clear c) }

variable [LinearOrder K] (r : K → K)

/-- cov.go:72-89 `Cov.Value`. -/
def covValue : Option (Core K) → Except Err (XF K)
  | none => .error "Core is not set"
  | some c =>
    match wrapErr "error retrieving sum" (Joint.sum c [1, 1]) with
    | .error e => .error e
    | .ok s => .ok (XF.div (.fin s) (.fin ((c.count : K) - 1)))

/-- corr.go:77-106 `Corr.Value` and ewmcorr.go:74-103 `EWMCorr.Value`; `r` is the square root. -/
def corrValue : Option (Core K) → Except Err (XF K)
  | none => .error "Core is not set"
  | some c =>
    match wrapErr "error retrieving sum for {1, 1}" (Joint.sum c [1, 1]) with
    | .error e => .error e
    | .ok cov =>
      match wrapErr "error retrieving sum for {2, 0}" (Joint.sum c [2, 0]) with
      | .error e => .error e
      | .ok xVar =>
        match wrapErr "error retrieving sum for {0, 2}" (Joint.sum c [0, 2]) with
        | .error e => .error e
        | .ok yVar => .ok (XF.div (.fin cov) (XF.sqrt r (.fin (xVar * yVar))))

/-- ewmcov.go:69-80 `EWMCov.Value`. -/
def ewmCovValue : Option (Core K) → Except Err (XF K)
  | none => .error "Core is not set"
  | some c =>
    match wrapErr "error retrieving sum" (Joint.sum c [1, 1]) with
    | .error e => .error e
    | .ok s => .ok (.fin s)

/-- `Value` of any metric on pairs. -/
def value (m : Metric K) : Except Err (XF K) :=
  match m.kind with
  | .cov _ => covValue m.core
  | .corr _ => corrValue r m.core
  | .ewmCov _ => ewmCovValue m.core
  | .ewmCorr _ => corrValue r m.core

/-- One client operation. -/
def step (m : Metric K) : MOp (List K) → Go (Metric K × Option Err)
  | .push xs => push m xs
  | .clear => .val (clear m, none)

/-- A whole client history, with the log of all errors returned by `Push`. -/
def run (m : Metric K) (ops : List (MOp (List K))) : Go (Metric K × List Err) :=
  Go.runOps (logged step) (m, []) ops

end Metric

/-! ## Autocov and Autocorr -/

/-- autocov.go:15-20 `Autocov` (`corr = false`) and autocorr.go:15-20 `Autocorr` (`corr = true`); the two files differ only in the inner
metric. -/
structure Auto (K : Type) where
  corr : Bool
  lag : Int
  window : Int
  queue : Ring K
  core : Option (Core K)

namespace Auto
variable {K : Type}

/-- autocov.go:23-33, autocorr.go:23-33 `NewAutocov`, `NewAutocorr`. -/
def new (corr : Bool) (lag window : Int) : Except Err (Auto K) :=
  if lag < 0 then .error "negative lag" else .ok ⟨corr, lag, window, Ring.new lag.toNat, none⟩

/-- The inner metric. -/
def kind (a : Auto K) : Kind K := if a.corr then .corr a.window else .cov a.window

variable [Field K]

/-- core.go:28-37 `Init`, with autocov.go:42-45 `SetCore` and 53-55 `Config`. -/
def init [GoOrd K] (a : Auto K) : Go (Auto K × Option Err) :=
  match newCore a.kind.config with
  | .panic => .panic
  | .hang => .hang
  | .val (.error e) => .val (a, some ("error creating Core: error validating config: " ++ e))
  | .val (.ok c) => .val ({ a with core := some c }, none)

/-- autocov.go:99-104, autocorr.go:99-104: put the value into the lag queue. -/
def put (a : Auto K) (x : K) : Go (Auto K × Option Err) :=
  match a.queue.put x with
  | .panic => .panic
  | .hang => .hang
  | .val (.error e) => .val (a, some ("error pushing to lag queue: " ++ e))
  | .val (.ok q) => .val ({ a with queue := q }, none)

/-- autocov.go:86-96, autocorr.go:86-96: the pair with the oldest value of a full lag queue, then `put`. -/
def pair (a : Auto K) (c : Core K) (x : K) : Go (Auto K × Option Err) :=
  match a.queue.get with
  | .panic => .panic
  | .hang => .hang
  | .val (.error e) => .val (a, some ("error popping item from lag queue: " ++ e))
  | .val (.ok (tail, q)) =>
    match Joint.push c [x, tail] with
    | .panic => .panic
    | .hang => .hang
    | .val (c', some e) => .val ({ a with queue := q, core := some c' }, some ("error pushing to core: " ++ e))
    | .val (c', none) => put { a with queue := q, core := some c' } x

/-- autocov.go:70-105, autocorr.go:70-105 `Push`. -/
def push (a : Auto K) (x : K) : Go (Auto K × Option Err) :=
  match a.core with
  | none => .val (a, some "Core is not set")
  | some c =>
    if a.lag = 0 then
      match Joint.push c [x, x] with
      | .panic => .panic
      | .hang => .hang
      | .val (c', some e) => .val ({ a with core := some c' }, some ("error pushing to core: " ++ e))
      | .val (c', none) => .val ({ a with core := some c' }, none)
    else if (a.queue.len : Int) ≥ a.lag then pair a c x
    else put a x

/-- autocov.go:122-130, autocorr.go:122-130 `Clear`. -/
def clear (a : Auto K) : Auto K :=
  match a.core with
  | none => a
  | some c => { a with core := some (Joint.clear c), queue := Ring.new a.lag.toNat }

variable [LinearOrder K] (r : K → K)

/-- autocov.go:108-119, autocorr.go:108-119 `Value`. -/
def value (a : Auto K) : Except Err (XF K) :=
  match a.core with
  | none => .error "Core is not set"
  | some c =>
    if c.count = 0 then .error "Not enough values seen"
    else if a.corr then Metric.corrValue r (some c) else Metric.covValue (some c)

/-- One client operation. -/
def step (a : Auto K) : MOp K → Go (Auto K × Option Err)
  | .push x => push a x
  | .clear => .val (clear a, none)

/-- A whole client history. -/
def run (a : Auto K) (ops : List (MOp K)) : Go (Auto K × List Err) :=
  Go.runOps (logged step) (a, []) ops

end Auto
end Verif.Joint
