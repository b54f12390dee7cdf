import Verif.Base
import Verif.Model.Avl
import Verif.Model.Rb
import Verif.Model.SkipList
import Verif.Spec.Window

/-!
# Model of `quantile/quantile.go`, `median.go`, `iqr.go`, `option.go`, `impl.go`, `interpolation.go`

Locks are not part of this model (see `Verif/Model/Locks.lean`): each method is one atomic step.
-/

namespace Verif.Quant
open Verif

/-- order/order.go:10-17 `type Statistic interface`: an implementation is a state type with its methods. `rank` is left out,
`Quantile` never calls it. -/
structure Statistic (F : Type) where
  σ : Type
  empty : σ
  size : σ → Int
  add : σ → F → Go σ
  remove : σ → F → Go σ
  select : σ → Int → Go (Option F)
  clear : σ → σ

/-- `*avl.Tree` as an `order.Statistic`. -/
def avlStat (F : Type) [GoOrd F] : Statistic F where
  σ := Avl.Tree F
  empty := Avl.Tree.empty
  size := Avl.Tree.size
  add := Avl.Tree.add
  remove := Avl.Tree.remove
  select := fun t k => .val (t.select k)
  clear := Avl.Tree.clear

/-- `*rb.Tree` as an `order.Statistic`. -/
def rbStat (F : Type) [GoOrd F] : Statistic F where
  σ := Rb.Tree F
  empty := Rb.Tree.empty
  size := Rb.Tree.size
  add := Rb.Tree.add
  remove := Rb.Tree.remove
  select := fun t k => .val (t.select k)
  clear := Rb.Tree.clear

/-- `*skiplist.SkipList` as an `order.Statistic`, for a maximum level and an outcome of the level generator. -/
def skipStat (F : Type) [GoOrd F] (maxLevel : Nat) (draws : Nat → Nat → Bool) : Statistic F where
  σ := Skip.SkipList F
  empty := Skip.new maxLevel draws
  size := Skip.SkipList.size
  add := Skip.SkipList.add
  remove := Skip.SkipList.remove
  select := Skip.SkipList.select
  clear := Skip.SkipList.clear

variable {F : Type}

/-- quantile.go:15-21 `type Quantile struct`, without the mutex. -/
structure Quantile (st : Statistic F) where
  window : Int
  interpolation : Int
  queue : Ring F
  statistic : st.σ

/-- interpolation.go:13-31: the enumeration. -/
def Linear : Int := 0
def Lower : Int := 1
def Higher : Int := 2
def Nearest : Int := 3
def Midpoint : Int := 4

namespace Quantile
variable {st : Statistic F}

/-- quantile.go:34-39: a fresh struct (for the final configuration, see `Cfg` below). -/
def fresh (st : Statistic F) (window : Int) (interpolation : Int) : Quantile st :=
  ⟨window, interpolation, Ring.new window.toNat, st.empty⟩

/-- quantile.go:68-91 `Push`. The second component is the returned `error`. -/
def push (q : Quantile st) (x : F) : Go (Quantile st × Option Err) :=
  if q.window ≠ 0 then
    (if (q.queue.len : Int) = q.window then
      match q.queue.get with
      | .panic => .panic
      | .hang => .hang
      | .val (.error e) => .val (q, some e)
      | .val (.ok (y, queue)) =>
        match st.remove q.statistic y with
        | .panic => .panic
        | .hang => .hang
        | .val s => put { q with queue := queue, statistic := s }
    else put q)
  else add q
where
  /-- quantile.go:83-90. -/
  put (q : Quantile st) : Go (Quantile st × Option Err) :=
    match q.queue.put x with
    | .panic => .panic
    | .hang => .hang
    | .val (.error e) => .val (q, some e)
    | .val (.ok queue) => add { q with queue := queue }
  /-- quantile.go:89-90. -/
  add (q : Quantile st) : Go (Quantile st × Option Err) :=
    match st.add q.statistic x with
    | .panic => .panic
    | .hang => .hang
    | .val s => .val ({ q with statistic := s }, none)

/-- `q.statistic.Select(k).Value()`: a nil node panics. -/
def sel (q : Quantile st) (k : Int) : Go F :=
  match st.select q.statistic k with
  | .val (some v) => .val v
  | .val none => .panic
  | .panic => .panic
  | .hang => .hang

/-- quantile.go:94-143 `Value`. The receiver is not modified. The literal 0.5 is `1/2`, 2. is `2`. -/
def value [GoOrd F] (O : FOps F) (q : Quantile st) (quantile : F) : Go (Except Err F) :=
  if (quantile ≤ᵇ O.ofInt 0) || (O.ofInt 1 ≤ᵇ quantile) then .val (.error "quantile not in (0, 1)")
  else
    let size := st.size q.statistic
    if size = 0 then .val (.error "no values seen yet")
    else
      let idxRaw := O.mul quantile (O.ofInt (size - 1))
      let idxTrunc := O.trunc idxRaw
      let idx := O.toInt idxTrunc
      if idxRaw =ᵇ idxTrunc then do
        let v ← q.sel idx
        pure (.ok v)
      else
        let delta := O.sub idxRaw idxTrunc
        if q.interpolation = Linear then do
          let lo ← q.sel idx
          let hi ← q.sel (idx + 1)
          pure (.ok (O.add (O.mul (O.sub (O.ofInt 1) delta) lo) (O.mul delta hi)))
        else if q.interpolation = Lower then do
          let v ← q.sel idx
          pure (.ok v)
        else if q.interpolation = Higher then do
          let v ← q.sel (idx + 1)
          pure (.ok v)
        else if q.interpolation = Nearest then
          let half := O.div (O.ofInt 1) (O.ofInt 2)
          if delta =ᵇ half then
            if Int.tmod idx 2 = 0 then do
              let v ← q.sel idx
              pure (.ok v)
            else do
              let v ← q.sel (idx + 1)
              pure (.ok v)
          else if delta <ᵇ half then do
            let v ← q.sel idx
            pure (.ok v)
          else do
            let v ← q.sel (idx + 1)
            pure (.ok v)
        else do
          let lo ← q.sel idx
          let hi ← q.sel (idx + 1)
          pure (.ok (O.div (O.add lo hi) (O.ofInt 2)))

/-- quantile.go:146-152 `Clear`. -/
def clear (q : Quantile st) : Quantile st :=
  { q with queue := Ring.new q.window.toNat, statistic := st.clear q.statistic }

/-- One client operation. -/
def step (q : Quantile st) : Spec.MOp F → Go (Quantile st × Option Err)
  | .push x => q.push x
  | .clear => .val (q.clear, none)

/-- A whole client history, with the log of all errors returned by `Push`. -/
def run (q : Quantile st) (ops : List (Spec.MOp F)) : Go (Quantile st × List Err) :=
  Go.runOps (logged step) (q, []) ops

/-- median.go:49-55 `Median.Value`. -/
def medianValue [GoOrd F] (O : FOps F) (q : Quantile st) : Go (Except Err F) :=
  q.value O (O.div (O.ofInt 1) (O.ofInt 2))

/-- iqr.go:47-62 `IQR.Value`. -/
def iqrValue [GoOrd F] (O : FOps F) (q : Quantile st) : Go (Except Err F) := do
  match ← q.value O (O.div (O.ofInt 1) (O.ofInt 4)) with
  | .error e => pure (.error e)
  | .ok q25 =>
    match ← q.value O (O.div (O.ofInt 3) (O.ofInt 4)) with
    | .error e => pure (.error e)
    | .ok q75 => pure (.ok (O.sub q75 q25))

end Quantile

/-! ### Options -/

/-- skiplist/option.go: the `order.Option`s. The probability is any value with Go comparisons. -/
inductive OrderOpt (F : Type) where
  | maxLevel (n : Int)
  | probability (p : F)
  | rand

/-- option.go: the `quantile.Option`s. -/
inductive Opt (F : Type) where
  | impl (i : Int) (options : List (OrderOpt F))
  | interpolation (i : Int)

/-- impl.go:18-22. -/
def AVL : Int := 0
def RedBlack : Int := 1
def SkipList : Int := 2

/-- impl.go:26-33 `Impl.Valid`. -/
def implValid (i : Int) : Bool := i == AVL || i == RedBlack || i == SkipList

/-- interpolation.go:35-42 `Interpolation.Valid`. -/
def interpValid (i : Int) : Bool := i == Linear || i == Lower || i == Higher || i == Nearest || i == Midpoint

/-- The skip list settings that the options change (skiplist.go:62-66). -/
structure SkipCfg (F : Type) where
  maxLevel : Int
  p : Option F   -- none: the default 0.25

/-- skiplist.go:61-73 `New` (option processing), with skiplist/option.go:12-59. -/
def skipNew [GoOrd F] (zero one : F) : List (OrderOpt F) → SkipCfg F → Except Err (SkipCfg F)
  | [], c => .ok c
  | .maxLevel n :: os, c =>
    if n < 1 ∨ n > 64 then .error "max level" else skipNew zero one os { c with maxLevel := n }
  | .probability p :: os, c =>
    if (p ≤ᵇ zero) || (one ≤ᵇ p) then .error "probability" else skipNew zero one os { c with p := some p }
  | .rand :: os, c => skipNew zero one os c

/-- The part of a `Quantile` that options determine. -/
structure Cfg (F : Type) where
  window : Int
  impl : Int
  skip : SkipCfg F
  interpolation : Int

/-- option.go:14-37: apply one option (ImplOption / InterpolationOption). -/
def applyOpt [GoOrd F] (zero one : F) (c : Cfg F) : Opt F → Except Err (Cfg F)
  | .impl i os =>
    if !implValid i then .error "invalid Impl"
    else if i = SkipList then
      match skipNew zero one os ⟨12, none⟩ with
      | .error e => .error e
      | .ok s => .ok { c with impl := i, skip := s }
    else .ok { c with impl := i }
  | .interpolation i =>
    if !interpValid i then .error "invalid Interpolation" else .ok { c with interpolation := i }

/-- quantile.go:41-46: the loop over the options. -/
def applyOpts [GoOrd F] (zero one : F) : Cfg F → List (Opt F) → Except Err (Cfg F)
  | c, [] => .ok c
  | c, o :: os =>
    match applyOpt zero one c o with
    | .error e => .error e
    | .ok c => applyOpts zero one c os

/-- quantile.go:24-49 `New`. -/
def new [GoOrd F] (zero one : F) (window : Int) (options : List (Opt F)) : Except Err (Cfg F) :=
  if window < 0 then .error "negative window"
  else applyOpts zero one ⟨window, AVL, ⟨12, none⟩, Linear⟩ options

/-- impl.go:37-48 `Impl.init`: the container chosen by the options. The code builds it while it applies the options (and drops the
containers of earlier `ImplOption`s); it is empty at that time, so building it once at the end is the same. -/
def statOf [GoOrd F] (c : Cfg F) (draws : Nat → Nat → Bool) : Statistic F :=
  if c.impl = RedBlack then rbStat F
  else if c.impl = SkipList then skipStat F c.skip.maxLevel.toNat draws
  else avlStat F

/-- The `*Quantile` that `New` returns for a successfully processed configuration. -/
def ofCfg [GoOrd F] (c : Cfg F) (draws : Nat → Nat → Bool) : Quantile (statOf c draws) :=
  Quantile.fresh (statOf c draws) c.window c.interpolation

/-- median.go:17-24 `NewMedian` and iqr.go:15-22 `NewIQR`: `append(options, InterpolationOption(Midpoint))`. The possible
overwriting of the caller's backing array by `append` is in `Model/OptionAlias.lean`. -/
def newMedian [GoOrd F] (zero one : F) (window : Int) (options : List (Opt F)) : Except Err (Cfg F) :=
  new zero one window (options ++ [.interpolation Midpoint])

end Verif.Quant
