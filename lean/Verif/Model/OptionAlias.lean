import Verif.Model.Quantile

/-! # Model of option slices by reference

`NewMedian(window, options...)` and `NewIQR(window, options...)` call `append(options, InterpolationOption(Midpoint))`, which writes to the
backing array of the caller's slice if that has room. Here slices are windows into arrays held in a memory. -/

namespace Verif.Quant
open Verif

/-- A slice: an array, the index of its first element and its length. Its capacity is the rest of the array. -/
structure OSlice where
  arr : Nat
  off : Nat
  len : Nat
  deriving DecidableEq

/-- The arrays; `fresh` is the next unused address. A cell of an array that was never written is nil. -/
structure OMem (F : Type) where
  arrays : Nat → List (Option (Opt F))
  fresh : Nat

variable {F : Type}

/-- The elements of a slice. -/
def OMem.read (m : OMem F) (s : OSlice) : List (Option (Opt F)) := ((m.arrays s.arr).drop s.off).take s.len

/-- Go's `append(s, x)`: in place if the capacity allows, otherwise into a new array (of just the needed length, as no spare room of the new
array is visible to anybody else). -/
def OMem.append (m : OMem F) (s : OSlice) (x : Opt F) : OMem F × OSlice :=
  if s.off + s.len < (m.arrays s.arr).length then
    ({ m with arrays := Function.update m.arrays s.arr ((m.arrays s.arr).set (s.off + s.len) (some x)) }, { s with len := s.len + 1 })
  else
    (⟨Function.update m.arrays m.fresh (m.read s ++ [some x]), m.fresh + 1⟩, ⟨m.fresh, 0, s.len + 1⟩)

variable [GoOrd F] (zero one : F)

/-- quantile.go:41-46: the loop over the options; calling a nil option panics. -/
def applySlice (c : Cfg F) : List (Option (Opt F)) → Go (Except Err (Cfg F))
  | [] => .val (.ok c)
  | none :: _ => .panic
  | some o :: os =>
    match applyOpt zero one c o with
    | .error e => .val (.error e)
    | .ok c => applySlice c os

/-- quantile.go:24-49 `New`. -/
def newSlice (window : Int) (os : List (Option (Opt F))) : Go (Except Err (Cfg F)) :=
  if window < 0 then .val (.error "negative window") else applySlice zero one ⟨window, AVL, ⟨12, none⟩, Linear⟩ os

/-- quantile.go:24-49 and 51-55, called as `New(window, s...)`. -/
def OMem.new (m : OMem F) (window : Int) (s : OSlice) : Go (OMem F × Except Err (Cfg F)) :=
  match newSlice zero one window (m.read s) with
  | .panic => .panic
  | .hang => .hang
  | .val r => .val (m, r)

/-- median.go:17-24 `NewMedian`, iqr.go:15-22 `NewIQR`, called as `NewMedian(window, s...)`. The options are kept by nobody. -/
def OMem.newMedian (m : OMem F) (window : Int) (s : OSlice) : Go (OMem F × Except Err (Cfg F)) :=
  match m.append s (.interpolation Midpoint) with
  | (m, s) => m.new zero one window s

end Verif.Quant
