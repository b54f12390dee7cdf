import Verif.Model.Factorials
import Verif.Model.Joint

/-! # `joint.Core` and the shared factorial table

The functions of `joint/core.go` and `joint/tuple.go` again (see `Verif.Model.Joint`, `Verif.Model.Tuple`), as programs that ask for
factorials: `multinom` calls `Binom`. -/

namespace Verif.Fact.J
open Verif Verif.MathUtil Verif.Joint Ask

/-- tuple.go:77-80, `Joint.multinomLoop`. -/
def multinomLoopA (result : Int) : Tuple → Tuple → Ask Int
  | a :: m, b :: n => (binomA a b).bind fun c => multinomLoopA (wrap (result * c)) m n
  | _, _ => done (.val result)

/-- tuple.go:68-83, `Joint.multinom`. -/
def multinomA (m n : Tuple) : Ask (Except Err Int) :=
  if m.length ≠ n.length then done (.val (.error "Tuples have different lengths"))
  else (multinomLoopA 1 m n).bind fun r => done (.val (.ok r))

section iter
variable {σ : Type}

/-- `Joint.forEach`. -/
def forEachA {α : Type} (body : α → σ → Ask (σ × List Err)) : List α → σ → Ask (σ × List Err)
  | [], s => done (.val (s, []))
  | i :: is, s => (body i s).bind fun r => (forEachA body is r.1).bind fun r' => done (.val (r'.1, r.2 ++ r'.2))

/-- `Joint.iterRev`. -/
def iterRevA (reverse : Bool) : Tuple → (Tuple → σ → Ask (σ × List Err)) → σ → Ask (σ × List Err)
  | [], cb, s => cb [] s
  | n :: rest, cb, s => forEachA (fun i s => iterRevA reverse rest (fun xs s => cb (xs ++ [i]) s) s) (indices reverse n) s

/-- tuple.go:116-141 `iter`. -/
def iterA (tuple : Tuple) (reverse : Bool) (cb : Tuple → σ → Ask (σ × List Err)) (s : σ) : Ask (σ × List Err) :=
  iterRevA reverse tuple.reverse cb s

end iter

variable {K : Type} [Field K]

/-- core.go:166-179, 237-251, 302-315, `Joint.visitPart`. -/
def visitPartA (r : Rule K) (sums : Joint.Map K) (a b : Tuple) (dp : K) (ns : Joint.Map K) : Ask (Joint.Map K × List Err) :=
  (multinomA a b).bind fun m => match m with
    | .error e => done (.val (ns, [e]))
    | .ok m =>
      match sub a b with
      | .error e => done (.val (ns, [e]))
      | .ok diff =>
        done (.val (bump ns (Joint.hash a) (r.part ((wrap (m * sign (Joint.abs b)) : Int) : K) (Joint.abs b).toNat dp
          (Map.get (if r.fresh then ns else sums) (Joint.hash diff))), []))

/-- core.go:151-182, 223-254, 287-318, `Joint.visit`. -/
def visitA (r : Rule K) (delta : List K) (sums : Joint.Map K) (a b : Tuple) (ns : Joint.Map K) : Ask (Joint.Map K × List Err) :=
  match Joint.pow delta b with
  | .error e => done (.val (ns, [e]))
  | .ok dp =>
    if Joint.abs b = 0 then done (.val (bump ns (Joint.hash a) (r.base (Map.get sums (Joint.hash a))), []))
    else if eq b a then done (.val (bump ns (Joint.hash a) (r.full (Joint.abs b).toNat dp), []))
    else visitPartA r sums a b dp ns

/-- core.go:147-183, 219-255, 283-319, `Joint.updateTuple`. -/
def updateTupleA (r : Rule K) (reverse : Bool) (delta : List K) (sums : Joint.Map K) (t : Tuple) (ns : Joint.Map K) :
    Ask (Joint.Map K × List Err) :=
  iterA t reverse (fun a ns => iterA a false (visitA r delta sums a) (Map.set ns (Joint.hash a) 0)) ns

/-- core.go:146-187 and 218-259, `Joint.updateAll`. -/
def updateAllA (r : Rule K) (delta : List K) (sums : Joint.Map K) : List Tuple → Joint.Map K → Ask (Joint.Map K × Option Err)
  | [], ns => done (.val (ns, none))
  | t :: ts, ns => (updateTupleA r true delta sums t ns).bind fun q => match q.2 with
    | [] => updateAllA r delta sums ts q.1
    | e :: _ => done (.val (q.1, some e))

/-- core.go:136-194, `Joint.add`. -/
def addA (c : Core K) (xs : List K) : Ask (Core K × Option Err) :=
  let count : K := ((c.count + 1 : Int) : K)
  let delta := List.zipWith (fun x m => x - m) xs c.means
  let means := List.zipWith (fun m d => m + d / count) c.means delta
  (updateAllA (addRule count) delta c.sums c.tuples c.newSums).bind fun q => match q.2 with
    | some e => done (.val ({ c with count := c.count + 1, means := means, newSums := q.1 }, some e))
    | none => done (.val ({ c with count := c.count + 1, means := means, newSums := q.1, sums := Map.copy c.sums q.1 }, none))

/-- core.go:202-266, `Joint.addDecay`. -/
def addDecayA (decay : K) (c : Core K) (xs : List K) : Ask (Core K × Option Err) :=
  let d := if c.count + 1 = 1 then 1 else decay
  let delta := List.zipWith (fun x m => x - m) xs c.means
  let means := List.zipWith (fun m e => m + d * e) c.means delta
  (updateAllA (decayRule d) delta c.sums c.tuples c.newSums).bind fun q => match q.2 with
    | some e => done (.val ({ c with count := c.count + 1, means := means, newSums := q.1 }, some e))
    | none => done (.val ({ c with count := c.count + 1, means := means, newSums := q.1, sums := Map.copy c.sums q.1 }, none))

/-- core.go:282-327, `Joint.removeAll`. -/
def removeAllA (r : Rule K) (delta : List K) : List Tuple → Joint.Map K → Joint.Map K → Ask (Joint.Map K × Joint.Map K × Option Err)
  | [], sums, ns => done (.val (sums, ns, none))
  | t :: ts, sums, ns => (updateTupleA r false delta sums t ns).bind fun q => match q.2 with
    | [] => removeAllA r delta ts (Map.copy sums q.1) q.1
    | e :: _ => done (.val (sums, q.1, some e))

/-- core.go:271-341, `Joint.remove`. -/
def removeA (c : Core K) (xs : List K) : Ask (Core K × Option Err) :=
  let cnt := c.count - 1
  if cnt > 0 then
    let count : K := (cnt : K)
    let means := List.zipWith (fun x m => m - (x - m) / count) xs c.means
    let delta := List.zipWith (fun x m => x - m) xs means
    (removeAllA (removeRule count) delta c.tuples c.sums c.newSums).bind fun q =>
      done (.val ({ c with count := cnt, means := means, sums := q.1, newSums := q.2.1 }, q.2.2))
  else
    done (.val ({ c with count := cnt, means := c.means.map fun _ => 0, sums := Map.zero c.sums, newSums := Map.zero c.newSums }, none))

/-- core.go:99-109, `Joint.evict`. -/
def evictA (c : Core K) : Ask (Core K × Option Err) :=
  if (c.queue.len : Int) = c.window then
    match c.queue.get with
    | .panic => done .panic
    | .hang => done .hang
    | .val (.error e) => done (.val (c, some e))
    | .val (.ok (t, q)) => removeA { c with queue := q } t
  else done (.val (c, none))

/-- core.go:117-127, `Joint.pushAdd`. -/
def pushAddA (c : Core K) (xs : List K) : Ask (Core K × Option Err) :=
  match c.decay with
  | none => addA c xs
  | some d => addDecayA d c xs

/-- core.go:111-127, `Joint.pushPut`. -/
def pushPutA (c : Core K) (xs : List K) : Ask (Core K × Option Err) :=
  match c.queue.put xs with
  | .panic => done .panic
  | .hang => done .hang
  | .val (.error e) => done (.val (c, some e))
  | .val (.ok q) => pushAddA { c with queue := q } xs

/-- core.go:89-128, `Joint.push`. -/
def pushA (c : Core K) (xs : List K) : Ask (Core K × Option Err) :=
  if xs.length ≠ c.means.length then done (.val (c, some "tried to push a wrong number of values"))
  else if c.window ≠ 0 then
    (evictA c).bind fun r => match r.2 with
      | some e => done (.val (r.1, some e))
      | none => pushPutA r.1 xs
  else pushAddA c xs

/-- A goroutine that pushes tuples of values to its own core, stopping at an error. -/
def pushesA (c : Core K) : List (List K) → Ask (Core K)
  | [] => done (.val c)
  | x :: xs => (pushA c x).bind fun r => match r.2 with
    | some _ => done (.val r.1)
    | none => pushesA r.1 xs

/-- The same with `Joint.push`. -/
def pushes (c : Core K) : List (List K) → Go (Core K)
  | [] => .val c
  | x :: xs =>
    match Joint.push c x with
    | .panic => .panic
    | .hang => .hang
    | .val r => match r.2 with
      | some _ => .val r.1
      | none => pushes r.1 xs

/-- What a goroutine does: push values to its own `moment.Core`, or to its own `joint.Core`. -/
inductive Job (K : Type) where
  | moment (c : Moment.Core K) (xs : List K)
  | joint (c : Joint.Core K) (xs : List (List K))

/-- The core at the end. -/
inductive Out (K : Type) where
  | moment (c : Moment.Core K)
  | joint (c : Joint.Core K)

/-- The job as a program that asks for factorials. -/
def Job.asks : Job K → Ask (Out K)
  | .moment c xs => (Fact.pushesA c xs).bind fun c => done (.val (.moment c))
  | .joint c xs => (pushesA c xs).bind fun c => done (.val (.joint c))

/-- The job done alone, with `Moment.push` and `Joint.push`. -/
def Job.alone : Job K → Go (Out K)
  | .moment c xs => match Fact.pushes c xs with
    | .panic => .panic
    | .hang => .hang
    | .val c => .val (.moment c)
  | .joint c xs => match pushes c xs with
    | .panic => .panic
    | .hang => .hang
    | .val c => .val (.joint c)

end Verif.Fact.J
