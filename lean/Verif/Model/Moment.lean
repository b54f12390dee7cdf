import Verif.Model.MathUtil
import Verif.Spec.Window
import Mathlib.Algebra.Field.Defs
import Mathlib.Logic.Function.Basic

/-! # Model of `moment/core.go` and `moment/config.go`

Exact arithmetic in a field `K`; no division here can have a zero divisor (`count` is positive wherever it divides), which is proved, not
assumed: the theorems are about fields of characteristic zero. Mutexes are left to `Model/Locks.lean`. -/

namespace Verif.Moment
open Verif Verif.Spec Verif.MathUtil

/-! ## config.go -/

/-- config.go:9-13 `CoreConfig`. `none` is a nil map or pointer. A `SumsConfig` is the list of its keys (only the keys are ever used). -/
structure Config (F : Type) where
  sums : Option (List Int)
  window : Option Int
  decay : Option F
  deriving DecidableEq

section config
variable {F : Type} [GoOrd F] (zero one : F)

/-- config.go:99-113 `setConfigDefaults` (in the code the argument is updated in place; a nil `Sums` becomes the shared empty map). -/
def setDefaults (c : Config F) : Config F := { c with sums := some (c.sums.getD []) }

/-- config.go:75-97 `validateConfig`; which of several bad exponents is reported depends on the map order, the error is the same. -/
def validate (c : Config F) : Option Err :=
  match c.window with
  | none => some "config Window is not set"
  | some w =>
    if w < 0 then some "config has a negative window"
    else
      match c.decay with
      | some d =>
        if (d ≤ᵇ zero) || (one ≤ᵇ d) then some "decay not in (0, 1)"
        else if w > 0 then some "config cannot have Decay set with a nonzero window"
        else if (c.sums.getD []).any (· ≤ 0) then some "nonpositive central moment" else none
      | none => if (c.sums.getD []).any (· ≤ 0) then some "nonpositive central moment" else none

/-- config.go:25-29 `SumsConfig.add`: union of key sets. -/
def addSums (s1 s2 : List Int) : List Int := s2.foldl (fun acc k => if k ∈ acc then acc else acc ++ [k]) s1

/-- config.go:48-50. -/
def mergeSums (acc c : Config F) : Config F :=
  match c.sums with
  | none => acc
  | some s => { acc with sums := some (addSums (acc.sums.getD []) s) }

/-- config.go:52-58. -/
def mergeWindow (acc c : Config F) : Except Err (Config F) :=
  match c.window with
  | none => .ok acc
  | some w =>
    match acc.window with
    | none => .ok { acc with window := some w }
    | some w' => if w' = w then .ok acc else .error "configs have differing windows"

/-- config.go:60-66. -/
def mergeDecay (acc c : Config F) : Except Err (Config F) :=
  match c.decay with
  | none => .ok acc
  | some d =>
    match acc.decay with
    | none => .ok { acc with decay := some d }
    | some d' => if d' =ᵇ d then .ok acc else .error "configs have differing decays"

/-- config.go:47-67: one iteration of the merge loop. The accumulator is the merged sums, `window` and `decay`. -/
def mergeStep (acc c : Config F) : Except Err (Config F) :=
  match mergeWindow (mergeSums acc c) c with
  | .error e => .error e
  | .ok acc => mergeDecay acc c

/-- The merge loop. -/
def mergeLoop (acc : Config F) : List (Config F) → Except Err (Config F)
  | [] => .ok acc
  | c :: cs =>
    match mergeStep acc c with
    | .error e => .error e
    | .ok acc => mergeLoop acc cs

/-- config.go:32-73 `MergeConfigs`. -/
def mergeConfigs : List (Config F) → Except Err (Config F)
  | [] => .error "no configs available to merge"
  | [c] => .ok c
  | cs => mergeLoop ⟨some [], none, none⟩ cs

end config

/-! ## core.go -/

/-- core.go:14-22 `Core`, without the mutex. The slice `sums` is its length and its content; all accesses are `sums[k]` with
`k < len` in loops bounded by `len(c.sums)-1`, or guarded in `UnsafeSum`. -/
structure Core (K : Type) where
  mean : K
  len : Nat
  sums : Nat → K
  count : Int
  window : Int
  decay : Option K
  queue : Ring K

variable {K : Type} [Field K]

/-- core.go:37-63 `NewCore`, after validation. -/
def mk (c : Config K) : Core K :=
  let w := c.window.getD 0
  ⟨0, (((c.sums.getD []).foldl max (-1)) + 1).toNat, fun _ => 0, 0, w, c.decay, Ring.new w.toNat⟩

/-- core.go:37-63 `NewCore`. -/
def newCore [GoOrd K] (c : Config K) : Except Err (Core K) :=
  match validate 0 1 (setDefaults c) with
  | some e => .error e
  | none => .ok (mk (setDefaults c))

/-- The loop `for i := 1; i <= k-2; i++ { acc += term i }`: `n` iterations from `i`. Accumulating in a local instead of `sums[k]` is
harmless, the terms read only lower entries. -/
def sumLoop (term : Nat → Go K) : Nat → Nat → K → Go K
  | 0, _, acc => .val acc
  | n + 1, i, acc =>
    match term i with
    | .panic => .panic
    | .hang => .hang
    | .val t => sumLoop term n (i + 1) (acc + t)

/-- `float64(mathutil.Binom(k, i)*mathutil.Sign(i))`, core.go:118, 150, 174. -/
def coef (k i : Nat) : Go K :=
  match binom k i with
  | .panic => .panic
  | .hang => .hang
  | .val b => .val ((wrap (b * sign i) : Int) : K)

/-- core.go:112-121: the new `sums[k]` in `add`. -/
def addEntry (count delta : K) (s : Nat → K) (k : Nat) : Go K :=
  sumLoop (fun i => do
      let c ← coef k i
      pure (c * (delta / count) ^ i * s (k - i)))
    (k - 2) 1
    (s k + (count - 1) / count ^ k * ((count - 1) ^ (k - 1) + ((sign k : Int) : K)) * delta ^ k)

/-- core.go:111-122: `for k := len(c.sums) - 1; k >= 2; k--`, started at `k`. -/
def addLoop (count delta : K) : Nat → (Nat → K) → Go (Nat → K)
  | 0, s => .val s
  | 1, s => .val s
  | k + 2, s =>
    match addEntry count delta s (k + 2) with
    | .panic => .panic
    | .hang => .hang
    | .val v => addLoop count delta (k + 1) (Function.update s (k + 2) v)

/-- core.go:106-123 `add`. -/
def add (c : Core K) (x : K) : Go (Core K) :=
  let count : K := ((c.count + 1 : Int) : K)
  let delta := x - c.mean
  match addLoop count delta (c.len - 1) c.sums with
  | .panic => .panic
  | .hang => .hang
  | .val s => .val { c with count := c.count + 1, mean := c.mean + delta / count, sums := s }

/-- core.go:144-154: the new `sums[k]` in `addDecay`. -/
def decayEntry (d delta : K) (s : Nat → K) (k : Nat) : Go K :=
  sumLoop (fun i => do
      let c ← coef k i
      pure (c * (d * delta) ^ i * (1 - d) * s (k - i)))
    (k - 2) 1
    ((1 - d) * s k + ((1 - d) * (-d) ^ k + d * (1 - d) ^ k) * delta ^ k)

/-- core.go:143-155. -/
def decayLoop (d delta : K) : Nat → (Nat → K) → Go (Nat → K)
  | 0, s => .val s
  | 1, s => .val s
  | k + 2, s =>
    match decayEntry d delta s (k + 2) with
    | .panic => .panic
    | .hang => .hang
    | .val v => decayLoop d delta (k + 1) (Function.update s (k + 2) v)

/-- core.go:131-156 `addDecay`, with the value of `*c.decay`. -/
def addDecay (decay : K) (c : Core K) (x : K) : Go (Core K) :=
  let d := if c.count + 1 = 1 then 1 else decay
  let delta := x - c.mean
  match decayLoop d delta (c.len - 1) c.sums with
  | .panic => .panic
  | .hang => .hang
  | .val s => .val { c with count := c.count + 1, mean := c.mean + d * delta, sums := s }

/-- core.go:168-177: the new `sums[k]` in `remove`; the terms are subtracted. -/
def removeEntry (count delta : K) (s : Nat → K) (k : Nat) : Go K :=
  sumLoop (fun i => do
      let c ← coef k i
      pure (-(c * (delta / (count + 1)) ^ i * s (k - i))))
    (k - 2) 1
    (s k - count / (count + 1) ^ k * (count ^ (k - 1) + ((sign k : Int) : K)) * delta ^ k)

/-- core.go:167-178: `for k := 2; k <= len(c.sums)-1; k++`: `n` iterations from `k`. -/
def removeLoop (count delta : K) : Nat → Nat → (Nat → K) → Go (Nat → K)
  | 0, _, s => .val s
  | n + 1, k, s =>
    match removeEntry count delta s k with
    | .panic => .panic
    | .hang => .hang
    | .val v => removeLoop count delta n (k + 1) (Function.update s k v)

/-- core.go:161-185 `remove`. -/
def remove (c : Core K) (x : K) : Go (Core K) :=
  let cnt := c.count - 1
  if cnt > 0 then
    let count : K := (cnt : K)
    let mean := c.mean - (x - c.mean) / count
    let delta := x - mean
    match removeLoop count delta (c.len - 2) 2 c.sums with
    | .panic => .panic
    | .hang => .hang
    | .val s => .val { c with count := cnt, mean := mean, sums := s }
  else .val { c with count := cnt, mean := 0, sums := fun _ => 0 }

/-- core.go:77-84: make room in the window. -/
def evict (c : Core K) : Go (Except Err (Core K)) :=
  if (c.queue.len : Int) = c.window then
    match c.queue.get with
    | .panic => .panic
    | .hang => .hang
    | .val (.error e) => .val (.error e)
    | .val (.ok (t, q)) =>
      match remove { c with queue := q } t with
      | .panic => .panic
      | .hang => .hang
      | .val c => .val (.ok c)
  else .val (.ok c)

/-- core.go:92-96. -/
def pushAdd (c : Core K) (x : K) : Go (Core K × Option Err) :=
  match (match c.decay with | none => add c x | some d => addDecay d c x) with
  | .panic => .panic
  | .hang => .hang
  | .val c => .val (c, none)

/-- core.go:75-98 `UnsafePush` (and 66-70 `Push`). -/
def push (c : Core K) (x : K) : Go (Core K × Option Err) :=
  if c.window ≠ 0 then
    match evict c with
    | .panic => .panic
    | .hang => .hang
    | .val (.error e) => .val (c, some e)
    | .val (.ok c) =>
      match c.queue.put x with
      | .panic => .panic
      | .hang => .hang
      | .val (.error e) => .val (c, some e)
      | .val (.ok q) => pushAdd { c with queue := q } x
  else pushAdd c x

/-- core.go:188-199 `Count`. -/
def count (c : Core K) : Int := c.count

/-- core.go:202-217 `Mean`. -/
def mean (c : Core K) : Except Err K := if c.count = 0 then .error "no values seen yet" else .ok c.mean

/-- core.go:222-241 `Sum`. -/
def sum (c : Core K) (k : Int) : Except Err K :=
  if c.count = 0 then .error "no values seen yet"
  else if k ≤ 0 ∨ k ≥ c.len then .error "not a tracked power sum"
  else .ok (c.sums k.toNat)

/-- core.go:244-262 `Clear`. -/
def clear (c : Core K) : Core K :=
  { c with sums := fun _ => 0, count := 0, mean := 0, queue := Ring.new c.window.toNat }

/-- One client operation. -/
def step (c : Core K) : MOp K → Go (Core K × Option Err)
  | .push x => push c x
  | .clear => .val (clear c, none)

/-- A whole client history, with the log of all errors returned by `Push`. -/
def run (c : Core K) (ops : List (MOp K)) : Go (Core K × List Err) :=
  Go.runOps (logged step) (c, []) ops

end Verif.Moment
