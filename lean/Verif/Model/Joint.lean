import Verif.Model.Tuple
import Verif.Spec.Window
import Mathlib.Algebra.Field.Defs
import Mathlib.Logic.Function.Basic

/-! # Model of `joint/config.go` and `joint/core.go`

Exact arithmetic in a field `K`, as in `Model/Moment.lean`. Slices of floats are lists of values here; that `Push` keeps a reference to the
caller's slice is modelled separately in `Model/JointAlias.lean`. -/

namespace Verif.Joint
open Verif Verif.Spec Verif.MathUtil

/-! ## config.go -/

/-- config.go:19-24 `CoreConfig`. `none` is a nil slice or pointer. -/
structure Config (F : Type) where
  sums : Option (List Tuple)
  window : Option Int
  vars : Option Int
  decay : Option F
  deriving DecidableEq

section config
variable {F : Type} [GoOrd F] (zero one : F)

/-- config.go:199-217 `setConfigDefaults`. -/
def setDefaults (c : Config F) : Config F := ⟨some (c.sums.getD []), c.window, c.vars, c.decay⟩

/-- config.go:163-197 `validateTuple`; `first` is the length of `config.Sums[0]`. -/
def validateTuple (first : Nat) (vars : Option Int) (t : Tuple) : Option Err :=
  if t.length ≠ first then some "sums have differing length"
  else if t.length < 2 then some "config has a Tuple with length < 2"
  else if (match vars with | none => false | some v => decide ((t.length : Int) ≠ v)) then some "config has a Tuple whose length is not Vars"
  else if t.any (· < 0) then some "config has a Tuple with a negative exponent"
  else if abs t = 0 then some "config has a Tuple that is all 0s"
  else none

/-- config.go:149-154: the first error of the loop over `config.Sums`. -/
def validateTuples (first : Nat) (vars : Option Int) : List Tuple → Option Err
  | [] => none
  | t :: ts =>
    match validateTuple first vars t with
    | some e => some e
    | none => validateTuples first vars ts

/-- config.go:149-159: the part of `validateConfig` after the decay. -/
def validateSums (c : Config F) : Option Err :=
  match validateTuples ((c.sums.getD []).head?.map List.length |>.getD 0) c.vars (c.sums.getD []) with
  | some e => some e
  | none => if c.vars = none ∧ (c.sums.getD []) = [] then some "config Vars is not set and cannot be inferred from empty Sums" else none

/-- config.go:141-147. -/
def validateDecay (w : Int) : Option F → Option Err
  | none => none
  | some d =>
    if (d ≤ᵇ zero) || (one ≤ᵇ d) then some "decay not in (0, 1)"
    else if w > 0 then some "config cannot have Decay set with a nonzero window"
    else none

/-- config.go:130-161 `validateConfig`. -/
def validate (c : Config F) : Option Err :=
  match c.window with
  | none => some "config Window is not set"
  | some w =>
    if w < 0 then some "config has a negative window"
    else if (match c.vars with | none => false | some v => decide (v < 2)) then some "config has less than 2 vars"
    else
      match validateDecay zero one w c.decay with
      | some e => some e
      | none => validateSums c

/-- config.go:107-113: `m[i] <= n[i]` for all indices of `m`, evaluated until the first failure; an index beyond `n` panics. -/
def allLeq : Tuple → Tuple → Go Bool
  | [], _ => .val true
  | _ :: _, [] => .panic
  | a :: m, b :: n => if a > b then .val false else allLeq m n

/-- config.go:101-118: whether some earlier tuple bounds `m`. -/
def leqEarlier (m : Tuple) : List Tuple → Go Bool
  | [] => .val false
  | n :: ns =>
    match allLeq m n with
    | .panic => .panic
    | .hang => .hang
    | .val true => .val true
    | .val false => leqEarlier m ns

/-- config.go:93-125: the loop of `simplifySums`; `earlier` are the tuples before the current one, `seen` the keys of `tupleMap`. -/
def simplifyLoop (earlier : List Tuple) (seen : List Int) (acc : List Tuple) : List Tuple → Go (List Tuple)
  | [] => .val acc
  | m :: ms =>
    if hash m ∈ seen then simplifyLoop (earlier ++ [m]) seen acc ms
    else
      match leqEarlier m earlier with
      | .panic => .panic
      | .hang => .hang
      | .val true => simplifyLoop (earlier ++ [m]) seen acc ms
      | .val false => simplifyLoop (earlier ++ [m]) (hash m :: seen) (acc ++ [m]) ms

/-- config.go:90-128 `simplifySums`. -/
def simplifySums (sums : List Tuple) : Go (List Tuple) := simplifyLoop [] [] [] sums

/-- config.go:51-53 and 11-15 `SumsConfig.add`. -/
def mergeSums (acc c : Config F) : Config F := { acc with sums := some (acc.sums.getD [] ++ c.sums.getD []) }

/-- config.go:55-61. -/
def mergeWindow (acc c : Config F) : Except Err (Config F) :=
  match c.window with
  | none => .ok acc
  | some w =>
    match acc.window with
    | none => .ok { acc with window := some w }
    | some w' => if w' = w then .ok acc else .error "configs have differing windows"

/-- config.go:63-69. -/
def mergeVars (acc c : Config F) : Except Err (Config F) :=
  match c.vars with
  | none => .ok acc
  | some v =>
    match acc.vars with
    | none => .ok { acc with vars := some v }
    | some v' => if v' = v then .ok acc else .error "configs have differing vars"

/-- config.go:71-77. -/
def mergeDecay (acc c : Config F) : Except Err (Config F) :=
  match c.decay with
  | none => .ok acc
  | some d =>
    match acc.decay with
    | none => .ok { acc with decay := some d }
    | some d' => if d' =ᵇ d then .ok acc else .error "configs have differing decays"

/-- config.go:50-78: one iteration of the merge loop. -/
def mergeStep (acc c : Config F) : Except Err (Config F) :=
  match mergeWindow (mergeSums acc c) c with
  | .error e => .error e
  | .ok acc =>
    match mergeVars acc c with
    | .error e => .error e
    | .ok acc => mergeDecay acc c

/-- The merge loop. -/
def mergeLoop (acc : Config F) : List (Config F) → Except Err (Config F)
  | [] => .ok acc
  | c :: cs =>
    match mergeStep acc c with
    | .error e => .error e
    | .ok acc => mergeLoop acc cs

/-- config.go:41-85, the default case. -/
def mergeMany (cs : List (Config F)) : Go (Except Err (Config F)) :=
  match mergeLoop ⟨some [], none, none, none⟩ cs with
  | .error e => .val (.error e)
  | .ok c =>
    match simplifySums (c.sums.getD []) with
    | .panic => .panic
    | .hang => .hang
    | .val s => .val (.ok { c with sums := some s })

/-- config.go:34-86 `MergeConfigs`. -/
def mergeConfigs : List (Config F) → Go (Except Err (Config F))
  | [] => .val (.error "no configs available to merge")
  | [c] => .val (.ok c)
  | cs => mergeMany cs

end config

/-! ## core.go -/

/-- A Go `map[uint64]float64`. -/
abbrev Map (K : Type) := Int → Option K

namespace Map
variable {K : Type}

/-- `m[h]`: zero for a missing key. -/
def get [Zero K] (m : Map K) (h : Int) : K := (m h).getD 0

/-- `m[h] = v`. -/
def set (m : Map K) (h : Int) (v : K) : Map K := Function.update m h (some v)

/-- `for hash, sum := range src { dst[hash] = sum }`. -/
def copy (dst src : Map K) : Map K := fun h =>
  match src h with
  | some v => some v
  | none => dst h

/-- `for hash := range m { m[hash] = 0 }`. -/
def zero [Zero K] (m : Map K) : Map K := fun h => (m h).map fun _ => 0

end Map

/-- core.go:15-25 `Core`, without the mutex. -/
structure Core (K : Type) where
  means : List K
  tuples : List Tuple
  sums : Map K
  newSums : Map K
  count : Int
  window : Int
  decay : Option K
  queue : Ring (List K)

variable {K : Type} [Field K]

/-- core.go:61-70: insert the keys of all tuples below the configured ones; the errors of `iter` are discarded there and the callback has
none. -/
def initSums : List Tuple → Map K → Go (Map K)
  | [], m => .val m
  | t :: ts, m =>
    match iter t false (fun a m => .val (Map.set m (hash a) 0, [])) m with
    | .panic => .panic
    | .hang => .hang
    | .val (m, _) => initSums ts m

/-- core.go:50-52 and 73: the number of variables. -/
def varsOf {F : Type} (c : Config F) : Int :=
  match c.vars with
  | some v => v
  | none => ((c.sums.getD []).head?.map List.length |>.getD 0 : Nat)

/-- core.go:50-76 `NewCore`, after validation. -/
def mk (c : Config K) : Go (Core K) :=
  match initSums (c.sums.getD []) (fun _ => none) with
  | .panic => .panic
  | .hang => .hang
  | .val m =>
    let w := c.window.getD 0
    .val ⟨List.replicate (varsOf c).toNat 0, c.sums.getD [], m, m, 0, w, c.decay, Ring.new w.toNat⟩

/-- core.go:40-77 `NewCore`. -/
def newCore [GoOrd K] (c : Config K) : Go (Except Err (Core K)) :=
  match validate 0 1 (setDefaults c) with
  | some e => .val (.error e)
  | none =>
    match mk (setDefaults c) with
    | .panic => .panic
    | .hang => .hang
    | .val c => .val (.ok c)

/-- The three ways a tuple `b ≤ a` contributes to the new sum of `a`; `add`, `addDecay` and `remove` differ only in these formulas. -/
structure Rule (K : Type) where
  /-- `|b| = 0`, given `c.sums[hash]`. -/
  base : K → K
  /-- `b = a`, given `|b|` and `deltaPow`. -/
  full : Nat → K → K
  /-- otherwise, given `float64(multinomial*Sign(abs))`, `|b|`, `deltaPow` and the sum looked up for `a - b`. -/
  part : K → Nat → K → K → K
  /-- Whether the sum for `a - b` is read from `newSums` (in `remove`) or `sums`. -/
  fresh : Bool

/-- core.go:161, 163-165, 177-178. -/
def addRule (count : K) : Rule K where
  base s := s
  full n dp := (count - 1) / count ^ n * ((count - 1) ^ (n - 1) + ((sign n : Int) : K)) * dp
  part m n dp s := m / count ^ n * dp * s
  fresh := false

/-- core.go:233, 235-236, 248-250. -/
def decayRule (d : K) : Rule K where
  base s := (1 - d) * s
  full n dp := ((1 - d) * (-d) ^ n + d * (1 - d) ^ n) * dp
  part m n dp s := m * d ^ n * dp * (1 - d) * s
  fresh := false

/-- core.go:297, 299-301, 313-314: `x -= t` is `x += -t`. -/
def removeRule (count : K) : Rule K where
  base s := s
  full n dp := -(count / (count + 1) ^ n * (count ^ (n - 1) + ((sign n : Int) : K)) * dp)
  part m n dp s := -(m / (count + 1) ^ n * dp * s)
  fresh := true

/-- `c.newSums[hash] += v`. -/
def bump (m : Map K) (h : Int) (v : K) : Map K := Map.set m h (Map.get m h + v)

/-- core.go:166-179, 237-251, 302-315: the last branch of the inner callback. -/
def visitPart (r : Rule K) (sums : Map K) (a b : Tuple) (dp : K) (ns : Map K) : Go (Map K × List Err) :=
  match multinom a b with
  | .panic => .panic
  | .hang => .hang
  | .val (.error e) => .val (ns, [e])
  | .val (.ok m) =>
    match sub a b with
    | .error e => .val (ns, [e])
    | .ok diff =>
      .val (bump ns (hash a) (r.part ((wrap (m * sign (abs b)) : Int) : K) (abs b).toNat dp
        (Map.get (if r.fresh then ns else sums) (hash diff))), [])

/-- core.go:151-182, 223-254, 287-318: the inner callback; the state is `c.newSums`. -/
def visit (r : Rule K) (delta : List K) (sums : Map K) (a b : Tuple) (ns : Map K) : Go (Map K × List Err) :=
  match pow delta b with
  | .error e => .val (ns, [e])
  | .ok dp =>
    if abs b = 0 then .val (bump ns (hash a) (r.base (Map.get sums (hash a))), [])
    else if eq b a then .val (bump ns (hash a) (r.full (abs b).toNat dp), [])
    else visitPart r sums a b dp ns

/-- core.go:147-183, 219-255, 283-319: one tuple; `add` and `addDecay` go through the smaller tuples in reverse order. -/
def updateTuple (r : Rule K) (reverse : Bool) (delta : List K) (sums : Map K) (t : Tuple) (ns : Map K) : Go (Map K × List Err) :=
  iter t reverse (fun a ns => iter a false (visit r delta sums a) (Map.set ns (hash a) 0)) ns

/-- core.go:146-187 and 218-259: all tuples, stopping at the first error. -/
def updateAll (r : Rule K) (delta : List K) (sums : Map K) : List Tuple → Map K → Go (Map K × Option Err)
  | [], ns => .val (ns, none)
  | t :: ts, ns =>
    match updateTuple r true delta sums t ns with
    | .panic => .panic
    | .hang => .hang
    | .val (ns, []) => updateAll r delta sums ts ns
    | .val (ns, e :: _) => .val (ns, some e)

/-- core.go:136-194 `add`; on an error the means and the count are already updated. -/
def add (c : Core K) (xs : List K) : Go (Core K × Option Err) :=
  let count : K := ((c.count + 1 : Int) : K)
  let delta := List.zipWith (fun x m => x - m) xs c.means
  let means := List.zipWith (fun m d => m + d / count) c.means delta
  match updateAll (addRule count) delta c.sums c.tuples c.newSums with
  | .panic => .panic
  | .hang => .hang
  | .val (ns, some e) => .val ({ c with count := c.count + 1, means := means, newSums := ns }, some e)
  | .val (ns, none) => .val ({ c with count := c.count + 1, means := means, newSums := ns, sums := Map.copy c.sums ns }, none)

/-- core.go:202-266 `addDecay`, with the value of `*c.decay`. -/
def addDecay (decay : K) (c : Core K) (xs : List K) : Go (Core K × Option Err) :=
  let d := if c.count + 1 = 1 then 1 else decay
  let delta := List.zipWith (fun x m => x - m) xs c.means
  let means := List.zipWith (fun m e => m + d * e) c.means delta
  match updateAll (decayRule d) delta c.sums c.tuples c.newSums with
  | .panic => .panic
  | .hang => .hang
  | .val (ns, some e) => .val ({ c with count := c.count + 1, means := means, newSums := ns }, some e)
  | .val (ns, none) => .val ({ c with count := c.count + 1, means := means, newSums := ns, sums := Map.copy c.sums ns }, none)

/-- core.go:282-327: all tuples in `remove`. The copy to `c.sums` is inside the loop. -/
def removeAll (r : Rule K) (delta : List K) : List Tuple → Map K → Map K → Go (Map K × Map K × Option Err)
  | [], sums, ns => .val (sums, ns, none)
  | t :: ts, sums, ns =>
    match updateTuple r false delta sums t ns with
    | .panic => .panic
    | .hang => .hang
    | .val (ns, []) => removeAll r delta ts (Map.copy sums ns) ns
    | .val (ns, e :: _) => .val (sums, ns, some e)

/-- core.go:271-341 `remove`. -/
def remove (c : Core K) (xs : List K) : Go (Core K × Option Err) :=
  let cnt := c.count - 1
  if cnt > 0 then
    let count : K := (cnt : K)
    let means := List.zipWith (fun x m => m - (x - m) / count) xs c.means
    let delta := List.zipWith (fun x m => x - m) xs means
    match removeAll (removeRule count) delta c.tuples c.sums c.newSums with
    | .panic => .panic
    | .hang => .hang
    | .val (sums, ns, e) => .val ({ c with count := cnt, means := means, sums := sums, newSums := ns }, e)
  else
    .val ({ c with count := cnt, means := c.means.map fun _ => 0, sums := Map.zero c.sums, newSums := Map.zero c.newSums }, none)

/-- core.go:99-109: make room in the window. -/
def evict (c : Core K) : Go (Core K × Option Err) :=
  if (c.queue.len : Int) = c.window then
    match c.queue.get with
    | .panic => .panic
    | .hang => .hang
    | .val (.error e) => .val (c, some e)
    | .val (.ok (t, q)) => remove { c with queue := q } t
  else .val (c, none)

/-- core.go:117-127. -/
def pushAdd (c : Core K) (xs : List K) : Go (Core K × Option Err) :=
  match c.decay with
  | none => add c xs
  | some d => addDecay d c xs

/-- core.go:111-127. -/
def pushPut (c : Core K) (xs : List K) : Go (Core K × Option Err) :=
  match c.queue.put xs with
  | .panic => .panic
  | .hang => .hang
  | .val (.error e) => .val (c, some e)
  | .val (.ok q) => pushAdd { c with queue := q } xs

/-- core.go:89-128 `UnsafePush` (and 80-84 `Push`). -/
def push (c : Core K) (xs : List K) : Go (Core K × Option Err) :=
  if xs.length ≠ c.means.length then .val (c, some "tried to push a wrong number of values")
  else if c.window ≠ 0 then
    match evict c with
    | .panic => .panic
    | .hang => .hang
    | .val (c, some e) => .val (c, some e)
    | .val (c, none) => pushPut c xs
  else pushAdd c xs

/-- core.go:344-355 `Count`. -/
def count (c : Core K) : Int := c.count

/-- core.go:358-377 `Mean`. -/
def mean (c : Core K) (i : Int) : Except Err K :=
  if c.count = 0 then .error "no values seen yet"
  else if i < 0 ∨ i ≥ c.means.length then .error "not a tracked variable"
  else .ok (c.means.getD i.toNat 0)

/-- core.go:383-403 `Sum`: the lookup is by hash only. -/
def sum (c : Core K) (xs : Tuple) : Except Err K :=
  if c.count = 0 then .error "no values seen yet"
  else
    match c.sums (hash xs) with
    | none => .error "not a tracked power sum"
    | some v => .ok v

/-- core.go:406-429 `Clear`. -/
def clear (c : Core K) : Core K :=
  { c with means := c.means.map fun _ => 0, sums := Map.zero c.sums, newSums := Map.zero c.newSums, count := 0,
           queue := Ring.new c.window.toNat }

/-- One client operation; the pushed values are lists. -/
def step (c : Core K) : MOp (List K) → Go (Core K × Option Err)
  | .push xs => push c xs
  | .clear => .val (clear c, none)

/-- A whole client history, with the log of all errors returned by `Push`. -/
def run (c : Core K) (ops : List (MOp (List K))) : Go (Core K × List Err) :=
  Go.runOps (logged step) (c, []) ops

end Verif.Joint
