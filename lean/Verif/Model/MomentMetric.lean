import Verif.Model.Moment
import Verif.Model.XF

/-! # Model of the metrics of package `moment`

mean.go, moment.go, std.go, skewness.go, kurtosis.go, ewma.go, ewmmoment.go, ewmstd.go. A metric is its parameters and its core pointer
(`none` before `Init`). `Std` and `EWMStd` hold their core in an inner `Moment`; `Skewness` and `Kurtosis` share one core with two inner
`Moment`s (their `SetCore`), so one optional core describes all of them. Locking is in `Model/Locks.lean`. -/

namespace Verif.Moment
open Verif Verif.Spec

/-- The metrics and the arguments of their constructors. -/
inductive Kind (K : Type) where
  /-- mean.go:16-18 `NewMean(window)`. -/
  | mean (window : Int)
  /-- moment.go:18-23 `New(k, window)`. -/
  | moment (k window : Int)
  /-- std.go:16-18 `NewStd(window)`. -/
  | std (window : Int)
  /-- skewness.go:19-33 `NewSkewness(window)`. -/
  | skewness (window : Int)
  /-- kurtosis.go:19-33 `NewKurtosis(window)`. -/
  | kurtosis (window : Int)
  /-- ewma.go:18-20 `NewEWMA(decay)`. -/
  | ewma (decay : K)
  /-- ewmmoment.go:20-25 `NewEWMMoment(k, decay)`. -/
  | ewmMoment (k : Int) (decay : K)
  /-- ewmstd.go:16-18 `NewEWMStd(decay)`. -/
  | ewmStd (decay : K)

/-- A metric. -/
structure Metric (K : Type) where
  kind : Kind K
  core : Option (Core K)

namespace Metric
variable {K : Type}

/-- `Config()`: mean.go:37-41, moment.go:42-47, std.go:37-39, skewness.go:54-56, kurtosis.go:54-56, ewma.go:33-38, ewmmoment.go:38-47,
ewmstd.go:31-33. -/
def config : Kind K → Config K
  | .mean w => ⟨none, some w, none⟩
  | .moment k w => ⟨some [k], some w, none⟩
  | .std w => ⟨some [2], some w, none⟩
  | .skewness w => ⟨some [2, 3], some w, none⟩
  | .kurtosis w => ⟨some [2, 4], some w, none⟩
  | .ewma d => ⟨none, some 0, some d⟩
  | .ewmMoment k d => ⟨some [k], some 0, some d⟩
  | .ewmStd d => ⟨some [2], some 0, some d⟩

/-- The constructors: no core yet. -/
def new (k : Kind K) : Metric K := ⟨k, none⟩

variable [Field K]

/-- core.go:25-34 `Init`: on an error the metric is unchanged. -/
def init [GoOrd K] (m : Metric K) : Metric K × Option Err :=
  match newCore (config m.kind) with
  | .error e => (m, some ("error creating Core: error validating config: " ++ e))
  | .ok c => ({ m with core := some c }, none)

/-- `Push`: mean.go:51-61, moment.go:60-70, skewness.go:66-76, kurtosis.go:66-76, ewma.go:48-58, ewmmoment.go:60-70; std.go:49-59 and
ewmstd.go:43-53 wrap the error once more. -/
def push (m : Metric K) (x : K) : Go (Metric K × Option Err) :=
  match m.core with
  | none => .val (m, some "Core is not set")
  | some c =>
    match Moment.push c x with
    | .panic => .panic
    | .hang => .hang
    | .val (c', none) => .val ({ m with core := some c' }, none)
    | .val (c', some e) =>
      .val ({ m with core := some c' }, some (match m.kind with
        | .std _ => "error pushing to core: error pushing to core: " ++ e
        | .ewmStd _ => "error pushing to core: error pushing to core: " ++ e
        | _ => "error pushing to core: " ++ e))

/-- `Clear`: mean.go:80-84, moment.go:93-97, std.go:75-79, skewness.go:109-113, kurtosis.go:109-113, ewma.go:77-81, ewmmoment.go:87-91,
ewmstd.go:69-73. -/
def clear (m : Metric K) : Metric K :=
  match m.core with
  | none => m
  | some c => { m with core := some (Moment.clear c) }

variable [LinearOrder K] (r p : K → K)

/-- `errors.Wrap`. -/
def wrap {α : Type} (msg : String) : Except Err α → Except Err α
  | .ok v => .ok v
  | .error e => .error (msg ++ ": " ++ e)

/-- `float64(count)` and arithmetic on it. -/
def cnt (c : Core K) : K := (c.count : K)

/-- moment.go:73-90 `Moment.Value`. -/
def momentValue (k : Int) : Option (Core K) → Except Err (XF K)
  | none => .error "Core is not set"
  | some c =>
    match wrap "error retrieving sum" (Moment.sum c k) with
    | .error e => .error e
    | .ok s => .ok (XF.div (.fin s) (.fin (cnt c - 1)))

/-- mean.go:64-77 and ewma.go:61-74 `Value`. -/
def meanValue : Option (Core K) → Except Err (XF K)
  | none => .error "Core is not set"
  | some c =>
    match wrap "error retrieving sum" (Moment.mean c) with
    | .error e => .error e
    | .ok v => .ok (.fin v)

/-- std.go:62-72 `Std.Value`; `r` is the square root. -/
def stdValue : Option (Core K) → Except Err (XF K)
  | none => .error "Core is not set"
  | some c =>
    match wrap "error retrieving 2nd moment" (momentValue 2 (some c)) with
    | .error e => .error e
    | .ok v => .ok (XF.sqrt r v)

/-- skewness.go:79-106 `Skewness.Value`; `p` is the power 1.5. -/
def skewnessValue : Option (Core K) → Except Err (XF K)
  | none => .error "Core is not set"
  | some c =>
    let count := cnt c
    if count = 0 then .error "no values seen yet"
    else
      match wrap "error retrieving 2nd moment" (momentValue 2 (some c)) with
      | .error e => .error e
      | .ok variance =>
        let variance := XF.mul variance (XF.div (.fin (count - 1)) (.fin count))
        match wrap "error retrieving 3rd moment" (momentValue 3 (some c)) with
        | .error e => .error e
        | .ok moment =>
          let moment := XF.mul moment (XF.div (.fin (count - 1)) (.fin count))
          let adjust := XF.div (XF.sqrt r (.fin (count * (count - 1)))) (.fin (count - 2))
          .ok (XF.div (XF.mul adjust moment) (XF.pow15 p variance))

/-- kurtosis.go:79-106 `Kurtosis.Value`. -/
def kurtosisValue : Option (Core K) → Except Err (XF K)
  | none => .error "Core is not set"
  | some c =>
    let count := cnt c
    if count = 0 then .error "no values seen yet"
    else
      match wrap "error retrieving 2nd moment" (momentValue 2 (some c)) with
      | .error e => .error e
      | .ok variance =>
        match wrap "error retrieving 4th moment" (momentValue 4 (some c)) with
        | .error e => .error e
        | .ok moment =>
          let moment := XF.mul moment (XF.div (.fin (count - 1)) (.fin count))
          let variance := XF.mul variance (XF.div (.fin (count - 1)) (.fin count))
          .ok (XF.sub (XF.div moment (XF.sq variance)) (.fin 3))

/-- ewmmoment.go:73-84 `EWMMoment.Value`. -/
def ewmMomentValue (k : Int) : Option (Core K) → Except Err (XF K)
  | none => .error "Core is not set"
  | some c =>
    match wrap "error retrieving sum" (Moment.sum c k) with
    | .error e => .error e
    | .ok s => .ok (.fin s)

/-- ewmstd.go:56-66 `EWMStd.Value`. -/
def ewmStdValue : Option (Core K) → Except Err (XF K)
  | none => .error "Core is not set"
  | some c =>
    match wrap "error retrieving 2nd moment" (ewmMomentValue 2 (some c)) with
    | .error e => .error e
    | .ok v => .ok (XF.sqrt r v)

/-- `Value` of any metric; `r` is the square root and `p` the power 1.5 on non-negative numbers. -/
def value (m : Metric K) : Except Err (XF K) :=
  match m.kind with
  | .mean _ => meanValue m.core
  | .moment k _ => momentValue k m.core
  | .std _ => stdValue r m.core
  | .skewness _ => skewnessValue r p m.core
  | .kurtosis _ => kurtosisValue m.core
  | .ewma _ => meanValue m.core
  | .ewmMoment k _ => ewmMomentValue k m.core
  | .ewmStd _ => ewmStdValue r m.core

/-- One client operation. -/
def step (m : Metric K) : MOp K → Go (Metric K × Option Err)
  | .push x => push m x
  | .clear => .val (clear m, none)

/-- A whole client history, with the log of all errors returned by `Push`. -/
def run (m : Metric K) (ops : List (MOp K)) : Go (Metric K × List Err) :=
  Go.runOps (logged step) (m, []) ops

end Metric
end Verif.Moment
