import Verif.Model.Joint
import Verif.Model.MomentFP

/-!
# `joint/core.go` over an arbitrary arithmetic

`Model/Joint.lean` reads `float64` as a field. Here the same code is read over an arbitrary arithmetic, as `Model/MomentFP.lean` does for
package `moment`. The maps, tuples, `iter` and the configuration are those of `Model/Joint.lean` and `Model/Tuple.lean`.
`Proofs/JointFP.lean` proves that over the operations of a field this is the model of `Model/Joint.lean`.
-/

namespace Verif.JFP
open Verif.Spec Verif.MathUtil
open Verif.FP (Arith)
open Verif.Joint (Tuple Map Core Config forEach iter multinom sub hash abs eq)

variable {F : Type} (A : Arith F)

/-- `m[h]`: zero for a missing key. -/
def get (m : Map F) (h : Int) : F := (m h).getD (A.ofInt 0)

/-- `for hash := range m { m[hash] = 0 }`. -/
def zeroMap (m : Map F) : Map F := fun h => (m h).map fun _ => A.ofInt 0

/-- tuple.go:94-97: the loop of `pow`. -/
def powLoop (result : F) : List F → Tuple → F
  | x :: xs, n :: ns => powLoop (A.mul result (A.pow x n.toNat)) xs ns
  | _, _ => result

/-- tuple.go:85-100 `pow`. -/
def pow (x : List F) (n : Tuple) : Except Err F :=
  if x.length ≠ n.length then .error "Cannot exponentiate slice and Tuple with different lengths" else .ok (powLoop A (A.ofInt 1) x n)

/-- core.go:61-70: insert the keys of all tuples below the configured ones. -/
def initSums : List Tuple → Map F → Go (Map F)
  | [], m => .val m
  | t :: ts, m =>
    match iter t false (fun a m => .val (Map.set m (hash a) (A.ofInt 0), [])) m with
    | .panic => .panic
    | .hang => .hang
    | .val (m, _) => initSums ts m

/-- core.go:50-76 `NewCore`, after validation. -/
def mk (c : Config F) : Go (Core F) :=
  match initSums A (c.sums.getD []) (fun _ => none) with
  | .panic => .panic
  | .hang => .hang
  | .val m =>
    let w := c.window.getD 0
    .val ⟨List.replicate (Joint.varsOf c).toNat (A.ofInt 0), c.sums.getD [], m, m, 0, w, c.decay, Ring.new w.toNat⟩

/-- core.go:40-77 `NewCore`. -/
def newCore [GoOrd F] (c : Config F) : Go (Except Err (Core F)) :=
  match Joint.validate (A.ofInt 0) (A.ofInt 1) (Joint.setDefaults c) with
  | some e => .val (.error e)
  | none =>
    match mk A (Joint.setDefaults c) with
    | .panic => .panic
    | .hang => .hang
    | .val c => .val (.ok c)

/-- The three ways a tuple `b ≤ a` changes the new sum of `a`. -/
structure Rule (F : Type) where
  /-- `|b| = 0`, given `c.sums[hash]`: what is added to `c.newSums[hash]`. -/
  base : F → F
  /-- `b = a`, given `|b|` and `deltaPow`: what is added or subtracted. -/
  full : Nat → F → F
  /-- otherwise, given `float64(multinomial*Sign(abs))`, `|b|`, `deltaPow` and the sum looked up for `a - b`. -/
  part : F → Nat → F → F → F
  /-- `+=` or `-=` in the last two cases. -/
  op : F → F → F
  /-- Whether the sum for `a - b` is read from `newSums` (in `remove`) or `sums`. -/
  fresh : Bool

/-- core.go:161, 163-165, 177-178. -/
def addRule (count : F) : Rule F where
  base s := s
  full n dp := A.mul (A.mul (A.div (A.sub count (A.ofInt 1)) (A.pow count n)) (A.add (A.pow (A.sub count (A.ofInt 1)) (n - 1)) (A.ofInt (sign n)))) dp
  part m n dp s := A.mul (A.mul (A.div m (A.pow count n)) dp) s
  op := A.add
  fresh := false

/-- core.go:233, 235-236, 248-250. -/
def decayRule (d : F) : Rule F where
  base s := A.mul (A.sub (A.ofInt 1) d) s
  full n dp := A.mul (A.add (A.mul (A.sub (A.ofInt 1) d) (A.pow (A.neg d) n)) (A.mul d (A.pow (A.sub (A.ofInt 1) d) n))) dp
  part m n dp s := A.mul (A.mul (A.mul (A.mul m (A.pow d n)) dp) (A.sub (A.ofInt 1) d)) s
  op := A.add
  fresh := false

/-- core.go:297, 299-301, 313-314. -/
def removeRule (count : F) : Rule F where
  base s := s
  full n dp := A.mul (A.mul (A.div count (A.pow (A.add count (A.ofInt 1)) n)) (A.add (A.pow count (n - 1)) (A.ofInt (sign n)))) dp
  part m n dp s := A.mul (A.mul (A.div m (A.pow (A.add count (A.ofInt 1)) n)) dp) s
  op := A.sub
  fresh := true

/-- `c.newSums[hash] op= v`. -/
def bump (op : F → F → F) (m : Map F) (h : Int) (v : F) : Map F := Map.set m h (op (get A m h) v)

/-- core.go:166-179, 237-251, 302-315: the last branch of the inner callback. -/
def visitPart (r : Rule F) (sums : Map F) (a b : Tuple) (dp : F) (ns : Map F) : Go (Map F × List Err) :=
  match multinom a b with
  | .panic => .panic
  | .hang => .hang
  | .val (.error e) => .val (ns, [e])
  | .val (.ok m) =>
    match sub a b with
    | .error e => .val (ns, [e])
    | .ok diff =>
      .val (bump A r.op ns (hash a) (r.part (A.ofInt (wrap (m * sign (abs b)))) (abs b).toNat dp
        (get A (if r.fresh then ns else sums) (hash diff))), [])

/-- core.go:151-182, 223-254, 287-318: the inner callback; the state is `c.newSums`. -/
def visit (r : Rule F) (delta : List F) (sums : Map F) (a b : Tuple) (ns : Map F) : Go (Map F × List Err) :=
  match pow A delta b with
  | .error e => .val (ns, [e])
  | .ok dp =>
    if abs b = 0 then .val (bump A A.add ns (hash a) (r.base (get A sums (hash a))), [])
    else if eq b a then .val (bump A r.op ns (hash a) (r.full (abs b).toNat dp), [])
    else visitPart A r sums a b dp ns

/-- core.go:147-183, 219-255, 283-319: one tuple. -/
def updateTuple (r : Rule F) (reverse : Bool) (delta : List F) (sums : Map F) (t : Tuple) (ns : Map F) : Go (Map F × List Err) :=
  iter t reverse (fun a ns => iter a false (visit A r delta sums a) (Map.set ns (hash a) (A.ofInt 0))) ns

/-- core.go:146-187 and 218-259: all tuples, stopping at the first error. -/
def updateAll (r : Rule F) (delta : List F) (sums : Map F) : List Tuple → Map F → Go (Map F × Option Err)
  | [], ns => .val (ns, none)
  | t :: ts, ns =>
    match updateTuple A r true delta sums t ns with
    | .panic => .panic
    | .hang => .hang
    | .val (ns, []) => updateAll r delta sums ts ns
    | .val (ns, e :: _) => .val (ns, some e)

/-- core.go:146-193 and 218-265: the sums after `add` or `addDecay`, with the means and the count already updated in `c`. -/
def finish (r : Rule F) (delta : List F) (c : Core F) : Go (Core F × Option Err) :=
  match updateAll A r delta c.sums c.tuples c.newSums with
  | .panic => .panic
  | .hang => .hang
  | .val (ns, some e) => .val ({ c with newSums := ns }, some e)
  | .val (ns, none) => .val ({ c with newSums := ns, sums := Map.copy c.sums ns }, none)

/-- core.go:136-194 `add`; on an error the means and the count are already updated. -/
def add (c : Core F) (xs : List F) : Go (Core F × Option Err) :=
  let count := A.ofInt (c.count + 1)
  let delta := List.zipWith (fun x m => A.sub x m) xs c.means
  finish A (addRule A count) delta
    { c with count := c.count + 1, means := List.zipWith (fun m d => A.add m (A.div d count)) c.means delta }

/-- core.go:202-266 `addDecay`, with the value of `*c.decay`. -/
def addDecay (decay : F) (c : Core F) (xs : List F) : Go (Core F × Option Err) :=
  let d := if c.count + 1 = 1 then A.ofInt 1 else decay
  let delta := List.zipWith (fun x m => A.sub x m) xs c.means
  finish A (decayRule A d) delta
    { c with count := c.count + 1, means := List.zipWith (fun m e => A.add m (A.mul d e)) c.means delta }

/-- core.go:282-327: all tuples in `remove`. The copy to `c.sums` is inside the loop. -/
def removeAll (r : Rule F) (delta : List F) : List Tuple → Map F → Map F → Go (Map F × Map F × Option Err)
  | [], sums, ns => .val (sums, ns, none)
  | t :: ts, sums, ns =>
    match updateTuple A r false delta sums t ns with
    | .panic => .panic
    | .hang => .hang
    | .val (ns, []) => removeAll r delta ts (Map.copy sums ns) ns
    | .val (ns, e :: _) => .val (sums, ns, some e)

/-- core.go:271-341 `remove`. -/
def remove (c : Core F) (xs : List F) : Go (Core F × Option Err) :=
  let cnt := c.count - 1
  if cnt > 0 then
    let count := A.ofInt cnt
    let means := List.zipWith (fun x m => A.sub m (A.div (A.sub x m) count)) xs c.means
    let delta := List.zipWith (fun x m => A.sub x m) xs means
    match removeAll A (removeRule A count) delta c.tuples c.sums c.newSums with
    | .panic => .panic
    | .hang => .hang
    | .val (sums, ns, e) => .val ({ c with count := cnt, means := means, sums := sums, newSums := ns }, e)
  else
    .val ({ c with count := cnt, means := c.means.map fun _ => A.ofInt 0, sums := zeroMap A c.sums, newSums := zeroMap A c.newSums }, none)

/-- core.go:99-109: make room in the window. -/
def evict (c : Core F) : Go (Core F × Option Err) :=
  if (c.queue.len : Int) = c.window then
    match c.queue.get with
    | .panic => .panic
    | .hang => .hang
    | .val (.error e) => .val (c, some e)
    | .val (.ok (t, q)) => remove A { c with queue := q } t
  else .val (c, none)

/-- core.go:117-127. -/
def pushAdd (c : Core F) (xs : List F) : Go (Core F × Option Err) :=
  match c.decay with
  | none => add A c xs
  | some d => addDecay A d c xs

/-- core.go:111-127. -/
def pushPut (c : Core F) (xs : List F) : Go (Core F × Option Err) :=
  match c.queue.put xs with
  | .panic => .panic
  | .hang => .hang
  | .val (.error e) => .val (c, some e)
  | .val (.ok q) => pushAdd A { c with queue := q } xs

/-- core.go:89-128 `UnsafePush` (and 80-84 `Push`). -/
def push (c : Core F) (xs : List F) : Go (Core F × Option Err) :=
  if xs.length ≠ c.means.length then .val (c, some "tried to push a wrong number of values")
  else if c.window ≠ 0 then
    match evict A c with
    | .panic => .panic
    | .hang => .hang
    | .val (c, some e) => .val (c, some e)
    | .val (c, none) => pushPut A c xs
  else pushAdd A c xs

/-- core.go:358-377 `Mean`. -/
def mean (c : Core F) (i : Int) : Except Err F :=
  if c.count = 0 then .error "no values seen yet"
  else if i < 0 ∨ i ≥ c.means.length then .error "not a tracked variable"
  else .ok (c.means.getD i.toNat (A.ofInt 0))

/-- core.go:383-403 `Sum`: the lookup is by hash only. -/
def sum (c : Core F) (xs : Tuple) : Except Err F :=
  if c.count = 0 then .error "no values seen yet"
  else
    match c.sums (hash xs) with
    | none => .error "not a tracked power sum"
    | some v => .ok v

/-- core.go:406-429 `Clear`. -/
def clear (c : Core F) : Core F :=
  { c with means := c.means.map fun _ => A.ofInt 0, sums := zeroMap A c.sums, newSums := zeroMap A c.newSums, count := 0,
           queue := Ring.new c.window.toNat }

/-- One client operation; the pushed values are lists. -/
def step (c : Core F) : MOp (List F) → Go (Core F × Option Err)
  | .push xs => push A c xs
  | .clear => .val (clear A c, none)

/-- A whole client history, with the log of all errors returned by `Push`. -/
def run (c : Core F) (ops : List (MOp (List F))) : Go (Core F × List Err) :=
  Go.runOps (logged (step A)) (c, []) ops

/-- cov.go:72-89 `Cov.Value`: the sum over `float64(count) - 1`. -/
def covValue (c : Core F) : Except Err F :=
  match sum c [1, 1] with
  | .error e => .error ("error retrieving sum: " ++ e)
  | .ok s => .ok (A.div s (A.sub (A.ofInt c.count) (A.ofInt 1)))

/-- corr.go:77-106 `Corr.Value` and ewmcorr.go:74-103 `EWMCorr.Value`, given `math.Sqrt`. -/
def corrValue (sqrt : F → F) (c : Core F) : Except Err F :=
  match sum c [1, 1] with
  | .error e => .error ("error retrieving sum for {1, 1}: " ++ e)
  | .ok cov =>
    match sum c [2, 0] with
    | .error e => .error ("error retrieving sum for {2, 0}: " ++ e)
    | .ok xVar =>
      match sum c [0, 2] with
      | .error e => .error ("error retrieving sum for {0, 2}: " ++ e)
      | .ok yVar => .ok (A.div cov (sqrt (A.mul xVar yVar)))

end Verif.JFP
