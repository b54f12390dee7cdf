import Verif.Model.MomentMetric
import Verif.Model.JointMetric
import Verif.Model.MinMax
import Verif.Model.Quantile
import Verif.Model.HeapMedian
import Verif.Model.Names

/-! # Model of the programs in `examples/`

The four programs create metrics, push the same data to each, collect the values in a map keyed by `String()` and print it as JSON. The
metrics of a program are distinct objects, so a list of states stands for the slice of pointers. The texts of the errors are those of the
metrics (the wrapping by `multierror` and `errors.Wrapf` is left out), `log.Fatal` ends the program (`Outcome.fatal`), and
`json.MarshalIndent` of a `map[string]float64` (Go standard library, encoding/json/encode.go `floatEncoder`) is modelled by the one thing
that can go wrong, a value that is NaN or infinite; the layout of the text is not modelled. The number of pushes, 100 in the code, is a
parameter. -/

namespace Verif.Examples
open Verif Verif.Spec

/-- What the programs use of a metric: `Push`, `Value` and `String`. -/
structure Obj (M I V : Type) where
  push : M → I → Go (M × Option Err)
  value : M → Go (Except Err V)
  name : M → String

/-- A Go map. -/
abbrev Table (V : Type) := List (String × V)

/-- `m[k] = v`. -/
def Table.set {V : Type} (t : Table V) (k : String) (v : V) : Table V := (k, v) :: t.filter (fun p => !(p.1 == k))

/-- `m[k]`, `none` when absent. -/
def Table.get {V : Type} (t : Table V) (k : String) : Option V := (t.find? (fun p => p.1 == k)).map Prod.snd

/-- How a program ends. -/
inductive Outcome (V : Type) where
  | printed (t : Table V)
  | fatal

variable {M I V : Type}

/-- moment/main.go:41-47, minmax/main.go:19-25, quantile/main.go:19-25, joint/main.go:41-48: the inner loop of `push`. -/
def feed (o : Obj M I V) (m : M) : List I → Go (M × Option Err)
  | [] => .val (m, none)
  | x :: xs =>
    match o.push m x with
    | .panic => .panic
    | .hang => .hang
    | .val (m', some e) => .val (m', some e)
    | .val (m', none) => feed o m' xs

/-- moment/main.go:37-59, minmax/main.go:15-37, quantile/main.go:15-37, joint/main.go:37-60 `push`: the metrics afterwards and the errors. -/
def pushAll (o : Obj M I V) (data : List I) : List M → Go (List M × List Err)
  | [] => .val ([], [])
  | m :: ms =>
    match feed o m data with
    | .panic => .panic
    | .hang => .hang
    | .val (m', e) =>
      match pushAll o data ms with
      | .panic => .panic
      | .hang => .hang
      | .val (ms', es) => .val (m' :: ms', e.toList ++ es)

/-- moment/main.go:61-83, minmax/main.go:39-61, joint/main.go:62-84 `values`, from the map `t`. Also quantile/main.go:68-88, the same
written out: the values in order, the first error ends the program. -/
def values (o : Obj M I V) : List M → Table V → Go (Except Err (Table V))
  | [], t => .val (.ok t)
  | m :: ms, t =>
    match o.value m with
    | .panic => .panic
    | .hang => .hang
    | .val (.error e) => .val (.error e)
    | .val (.ok v) => values o ms (t.set (o.name m) v)

/-- moment/main.go:114-119, minmax/main.go:88-93, quantile/main.go:90-95, joint/main.go:136-141: encode and print. -/
def report (finite : V → Prop) [DecidablePred finite] (t : Table V) : Outcome V :=
  if ∀ p ∈ t, finite p.2 then .printed t else .fatal

/-- moment/main.go:104-119, minmax/main.go:78-93, quantile/main.go:63-95: the common end of the `main` functions. -/
def finish (o : Obj M I V) (finite : V → Prop) [DecidablePred finite] (ms : List M) (data : List I) : Go (Outcome V) :=
  match pushAll o data ms with
  | .panic => .panic
  | .hang => .hang
  | .val (_, _ :: _) => .val .fatal
  | .val (ms', []) =>
    match values o ms' [] with
    | .panic => .panic
    | .hang => .hang
    | .val (.error _) => .val .fatal
    | .val (.ok t) => .val (report finite t)

/-- The numbers 0, 1, …, n-1: `for i := 0.; i < 100; i++`. -/
def counts (K : Type) [NatCast K] (n : Nat) : List K := (List.range n).map (fun i : Nat => (i : K))

/-! ## examples/moment/main.go -/

/-- `String()` of the metrics of package `moment`. -/
def momentId {K : Type} : Moment.Kind K → Names.MetricId K
  | .mean w => .windowed .mean w
  | .moment k w => .moment k w
  | .std w => .windowed .std w
  | .skewness w => .windowed .skewness w
  | .kurtosis w => .windowed .kurtosis w
  | .ewma d => .decayed .ewma d
  | .ewmMoment k d => .ewmMoment k d
  | .ewmStd d => .decayed .ewmStd d

section
variable {K : Type} [Field K] [LinearOrder K]

/-- A metric of package `moment` as the program sees it; `r`, `p` are the square root and the power 1.5, `fmt` formats a `float64`. -/
def momentObj (fmt : K → List Char) (r p : K → K) : Obj (Moment.Metric K) K (XF K) where
  push := Moment.Metric.push
  value m := .val (Moment.Metric.value r p m)
  name m := (momentId m.kind).string fmt

/-- moment/main.go:16-35 `initialize`: every metric is initialised, the errors are collected. -/
def momentInitialize : List (Moment.Metric K) → List (Moment.Metric K) × List Err
  | [] => ([], [])
  | m :: ms => (m.init.1 :: (momentInitialize ms).1, m.init.2.toList ++ (momentInitialize ms).2)

/-- A value that `encoding/json` can write. -/
def XFinite (v : XF K) : Prop := ∃ x, v = .fin x

instance : DecidablePred (XFinite (K := K)) := fun v =>
  match v with
  | .fin x => .isTrue ⟨x, rfl⟩
  | .inf _ => .isFalse (by rintro ⟨x, h⟩; cases h)
  | .nan => .isFalse (by rintro ⟨x, h⟩; cases h)

/-- moment/main.go:85-120 `main`, with `n` for 100. -/
def momentMain (fmt : K → List Char) (r p : K → K) (n : Nat) : Go (Outcome (XF K)) :=
  let metrics := [Moment.Metric.new (.mean 0), .new (.std 0), .new (.moment 2 5), .new (.skewness 5), .new (.kurtosis 5)]
  match momentInitialize metrics with
  | (_, _ :: _) => .val .fatal
  | (ms, []) => finish (momentObj fmt r p) XFinite ms (counts K n)

end

/-! ## examples/minmax/main.go -/

section
variable {F : Type} [GoOrd F]

/-- `Min` or `Max` as the program sees it. -/
def minmaxObj (fmt : F → List Char) (O : MinMax.Ext F) : Obj (MinMax.Min.St F ⊕ MinMax.Max.St F) F F where
  push
    | .inl m, x => do
      let r ← MinMax.Min.push O m x
      pure (.inl r.1, r.2)
    | .inr m, x => do
      let r ← MinMax.Max.push O m x
      pure (.inr r.1, r.2)
  value
    | .inl m => MinMax.Min.value m
    | .inr m => MinMax.Max.value m
  name
    | .inl m => (Names.MetricId.windowed .min m.window).string fmt
    | .inr m => (Names.MetricId.windowed .max m.window).string fmt

/-- minmax/main.go:63-94 `main`, for the data pushed in `push`. -/
def minmaxMain (fmt : F → List Char) (O : MinMax.Ext F) (finite : F → Prop) [DecidablePred finite] (data : List F) : Go (Outcome F) :=
  match MinMax.Min.new O 5 with
  | .error _ => .val .fatal
  | .ok min =>
    match MinMax.Max.new O 0 with
    | .error _ => .val .fatal
    | .ok max => finish (minmaxObj fmt O) finite [.inl min, .inr max] data

end

/-! ## examples/quantile/main.go -/

section
variable {F : Type} [GoOrd F]
open Quant

/-- The three metrics. -/
inductive QMetric (s t : Statistic F) where
  | median (q : Quantile s)
  | quantile (q : Quantile t)
  | heap (h : HeapMedian.HM F)

/-- The metrics as the program sees them; `quarter` is the argument 0.25 of the second. -/
def quantileObj (fmt : F → List Char) (O : FOps F) (quarter : F) (s t : Statistic F) : Obj (QMetric s t) F F where
  push
    | .median q, x => do
      let r ← q.push x
      pure (.median r.1, r.2)
    | .quantile q, x => do
      let r ← q.push x
      pure (.quantile r.1, r.2)
    | .heap h, x => do
      let r ← HeapMedian.push h x
      pure (.heap r.1, r.2)
  value
    | .median q => q.medianValue O
    | .quantile q => q.value O quarter
    | .heap h => HeapMedian.value O h
  name
    | .median q => (Names.MetricId.median q.window .redBlack).string fmt
    | .quantile q => (Names.MetricId.quantile q.window q.interpolation .avl).string fmt
    | .heap h => (Names.MetricId.windowed .heapMedian h.window).string fmt

/-- quantile/main.go:39-96 `main`, for the data pushed in `push`; `zero` and `one` are the constants 0 and 1. -/
def quantileMain (fmt : F → List Char) (O : FOps F) (zero one quarter : F) (finite : F → Prop) [DecidablePred finite]
    (draws : Nat → Nat → Bool) (data : List F) : Go (Outcome F) :=
  match newMedian zero one 0 [.impl RedBlack []] with
  | .error _ => .val .fatal
  | .ok c =>
    match Quant.new zero one 3 [.interpolation Linear, .impl AVL []] with
    | .error _ => .val .fatal
    | .ok d =>
      match HeapMedian.new zero 3 with
      | .error _ => .val .fatal
      | .ok h =>
        finish (quantileObj fmt O quarter (statOf c draws) (statOf d draws)) finite
          [.median (ofCfg c draws), .quantile (ofCfg d draws), .heap h] data

end

/-! ## examples/joint/main.go -/

section
variable {K : Type} [Field K] [LinearOrder K]

/-- `String()` of the metrics on pairs of package `joint`. -/
def jointId : Joint.Kind K → Names.MetricId K
  | .cov w => .windowed .cov w
  | .corr w => .windowed .corr w
  | .ewmCov d => .decayed .ewmCov d
  | .ewmCorr d => .decayed .ewmCorr d

/-- A metric on pairs as the program sees it. -/
def jointObj (fmt : K → List Char) (r : K → K) : Obj (Joint.Metric K) (List K) (XF K) where
  push := Joint.Metric.push
  value m := .val (Joint.Metric.value r m)
  name m := (jointId m.kind).string fmt

/-- `Autocorr` as the program sees it. -/
def autoObj (fmt : K → List Char) (r : K → K) : Obj (Joint.Auto K) K (XF K) where
  push := Joint.Auto.push
  value a := .val (Joint.Auto.value r a)
  name a := (Names.MetricId.lagged .autocorr a.lag a.window).string fmt

/-- joint/main.go:16-35 `initialize`. -/
def jointInitialize : List (Joint.Metric K) → Go (List (Joint.Metric K) × List Err)
  | [] => .val ([], [])
  | m :: ms =>
    match m.init with
    | .panic => .panic
    | .hang => .hang
    | .val (m', e) =>
      match jointInitialize ms with
      | .panic => .panic
      | .hang => .hang
      | .val (ms', es) => .val (m' :: ms', e.toList ++ es)

/-- joint/main.go:112-141: push, collect, print. -/
def jointFinish (fmt : K → List Char) (r : K → K) (ms : List (Joint.Metric K)) (a : Joint.Auto K) (n : Nat) : Go (Outcome (XF K)) :=
  match pushAll (jointObj fmt r) ((counts K n).map (fun i => [i, i * i])) ms with
  | .panic => .panic
  | .hang => .hang
  | .val (_, _ :: _) => .val .fatal
  | .val (ms', []) =>
    match feed (autoObj fmt r) a ((counts K n).map (fun i => i * i)) with
    | .panic => .panic
    | .hang => .hang
    | .val (_, some _) => .val .fatal
    | .val (a', none) =>
      match values (jointObj fmt r) ms' [] with
      | .panic => .panic
      | .hang => .hang
      | .val (.error _) => .val .fatal
      | .val (.ok t) =>
        match (autoObj fmt r).value a' with
        | .panic => .panic
        | .hang => .hang
        | .val (.error _) => .val .fatal
        | .val (.ok v) => .val (report XFinite (t.set ((autoObj fmt r).name a') v))

/-- joint/main.go:86-142 `main`, with `n` for 100. -/
def jointMain (fmt : K → List Char) (r : K → K) (n : Nat) : Go (Outcome (XF K)) :=
  match Joint.Auto.new (K := K) true 4 10 with
  | .error _ => .val .fatal
  | .ok a =>
    match jointInitialize [Joint.Metric.new (.corr 0), .new (.cov 5)] with
    | .panic => .panic
    | .hang => .hang
    | .val (_, _ :: _) => .val .fatal
    | .val (ms, []) =>
      match a.init with
      | .panic => .panic
      | .hang => .hang
      | .val (_, some _) => .val .fatal
      | .val (a', none) => jointFinish fmt r ms a' n

end
end Verif.Examples
