import Verif.Base
import Init.Data.Nat.ToString

/-! # Model of the `String()` methods

`fmt.Sprintf("%v", n)` of an `int` is its decimal notation; of a `float64` it is a parameter of the model (`strconv.FormatFloat(x, 'g', -1,
64)` is not modelled). Strings are lists of characters. -/

namespace Verif.Names
open Verif

/-- `%v` of an `int`. -/
def decimal (n : Int) : List Char := if n < 0 then '-' :: Nat.toDigits 10 n.natAbs else Nat.toDigits 10 n.natAbs

/-- Metrics whose only parameter is a window. -/
inductive WTag where
  | mean | std | skewness | kurtosis | min | max | heapMedian | cov | corr
  deriving DecidableEq

/-- moment/mean.go:45, std.go:43, skewness.go:60, kurtosis.go:60, minmax/min.go:52, max.go:52, quantile/heap_median.go:58, joint/cov.go:46,
corr.go:51: the name. -/
def WTag.name : WTag → List Char
  | .mean => "moment.Mean".toList
  | .std => "moment.Std".toList
  | .skewness => "moment.Skewness".toList
  | .kurtosis => "moment.Kurtosis".toList
  | .min => "minmax.Min".toList
  | .max => "minmax.Max".toList
  | .heapMedian => "quantile.HeapMedian".toList
  | .cov => "joint.Cov".toList
  | .corr => "joint.Corr".toList

/-- Metrics whose only parameter is a decay. -/
inductive DTag where
  | ewma | ewmStd | ewmCov | ewmCorr
  deriving DecidableEq

/-- moment/ewma.go:42, ewmstd.go:37, joint/ewmcov.go:43, ewmcorr.go:48: the name. -/
def DTag.name : DTag → List Char
  | .ewma => "moment.EWMA".toList
  | .ewmStd => "moment.EWMStd".toList
  | .ewmCov => "joint.EWMCov".toList
  | .ewmCorr => "joint.EWMCorr".toList

/-- Metrics with a lag and a window. -/
inductive LTag where
  | autocov | autocorr
  deriving DecidableEq

/-- joint/autocov.go:59, autocorr.go:59: the name. -/
def LTag.name : LTag → List Char
  | .autocov => "joint.Autocov".toList
  | .autocorr => "joint.Autocorr".toList

/-- quantile/impl.go: the implementations. -/
inductive Impl where
  | avl | redBlack | skipList
  deriving DecidableEq

/-- A metric with the parameters given to its constructor. -/
inductive MetricId (F : Type) where
  | windowed (t : WTag) (window : Int)
  | decayed (t : DTag) (decay : F)
  | lagged (t : LTag) (lag window : Int)
  | moment (k window : Int)
  | ewmMoment (k : Int) (decay : F)
  | quantile (window interpolation : Int) (impl : Impl)
  | median (window : Int) (impl : Impl)
  | iqr (window : Int) (impl : Impl)

variable {F : Type}

/-- quantile/quantile.go:58-65 `String` (quantile/interpolation.go:13: an interpolation is an `int` without `String` method). -/
def quantileString (window interpolation : Int) : List Char :=
  "quantile.Quantile".toList ++ "_{".toList ++ ("window:".toList ++ decimal window ++ ",".toList ++ "interpolation:".toList ++
    decimal interpolation) ++ "}".toList

/-- quantile/interpolation.go:30 `Midpoint`. -/
def midpoint : Int := 4

/-- The part before `_`. -/
def MetricId.name : MetricId F → List Char
  | .windowed t _ => t.name
  | .decayed t _ => t.name
  | .lagged t _ _ => t.name
  | .moment _ _ => "moment.Moment".toList
  | .ewmMoment _ _ => "moment.EWMMoment".toList
  | .quantile _ _ _ => "quantile.Quantile".toList
  | .median _ _ => "quantile.Median".toList
  | .iqr _ _ => "quantile.IQR".toList

/-- The part between the braces: moment/mean.go:46, ewma.go:43, joint/autocov.go:60-63, moment/moment.go:52-55, ewmmoment.go:52-55,
quantile/quantile.go:60-63, median.go:35, iqr.go:33. `NewMedian` and `NewIQR` set the interpolation to `Midpoint` (median.go:18,
iqr.go:16). -/
def MetricId.params (fmt : F → List Char) : MetricId F → List Char
  | .windowed _ w => "window:".toList ++ decimal w
  | .decayed _ d => "decay:".toList ++ fmt d
  | .lagged _ l w => "lag:".toList ++ decimal l ++ ",".toList ++ "window:".toList ++ decimal w
  | .moment k w => "k:".toList ++ decimal k ++ ",".toList ++ "window:".toList ++ decimal w
  | .ewmMoment k d => "k:".toList ++ decimal k ++ ",".toList ++ "decay:".toList ++ fmt d
  | .quantile w i _ => "window:".toList ++ decimal w ++ ",".toList ++ "interpolation:".toList ++ decimal i
  | .median w _ => "quantile:".toList ++ quantileString w midpoint
  | .iqr w _ => "quantile:".toList ++ quantileString w midpoint

/-- `String()`: `fmt.Sprintf("%s_{%s}", name, params)` in every metric. -/
def MetricId.string (fmt : F → List Char) (m : MetricId F) : String := String.ofList (m.name ++ "_{".toList ++ m.params fmt ++ "}".toList)

end Verif.Names
