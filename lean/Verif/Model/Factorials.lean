import Verif.Model.Moment

/-! # The shared factorial table of `util/math/math.go`

`MathUtil.factorial` of the model is a function. In the code it is a loop over a global slice, `factorials`, without a lock. Here a push
is a program that asks for factorials, and goroutines answer these questions from the shared slice, step by step. -/

namespace Verif.Fact
open Verif Verif.MathUtil

/-! ## Programs that ask for factorials -/

/-- A computation: finished (`panic` and `hang` included), or waiting for `factorial(n)`. -/
inductive Ask (α : Type) where
  | done (r : Go α)
  | ask (n : Int) (k : Int → Ask α)

namespace Ask
variable {α β : Type}

/-- Sequencing. -/
def bind : Ask α → (α → Ask β) → Ask β
  | done (.val a), f => f a
  | done .panic, _ => done .panic
  | done .hang, _ => done .hang
  | ask n k, f => ask n (fun v => (k v).bind f)

/-- The answers given by a function. -/
def eval (fac : Int → Go Int) : Ask α → Go α
  | done r => r
  | ask n k =>
    match fac n with
    | .panic => .panic
    | .hang => .hang
    | .val v => (k v).eval fac

end Ask
open Ask

/-- math.go:24-30 `Binom`. -/
def binomA (n k : Int) : Ask Int :=
  if k = 0 ∨ k = n then done (.val 1)
  else ask n fun a => ask k fun b => ask (n - k) fun c => done (quo a (wrap (b * c)))

section moment
variable {K : Type} [Field K]
open Moment

/-- `Moment.coef`. -/
def coefA (k i : Nat) : Ask K := (binomA k i).bind fun b => done (.val ((wrap (b * sign i) : Int) : K))

/-- `Moment.sumLoop`. -/
def sumLoopA (term : Nat → Ask K) : Nat → Nat → K → Ask K
  | 0, _, acc => done (.val acc)
  | n + 1, i, acc => (term i).bind fun t => sumLoopA term n (i + 1) (acc + t)

/-- `Moment.addEntry`. -/
def addEntryA (count delta : K) (s : Nat → K) (k : Nat) : Ask K :=
  sumLoopA (fun i => (coefA k i).bind fun c => done (.val (c * (delta / count) ^ i * s (k - i))))
    (k - 2) 1
    (s k + (count - 1) / count ^ k * ((count - 1) ^ (k - 1) + ((sign k : Int) : K)) * delta ^ k)

/-- `Moment.addLoop`. -/
def addLoopA (count delta : K) : Nat → (Nat → K) → Ask (Nat → K)
  | 0, s => done (.val s)
  | 1, s => done (.val s)
  | k + 2, s => (addEntryA count delta s (k + 2)).bind fun v => addLoopA count delta (k + 1) (Function.update s (k + 2) v)

/-- `Moment.add`. -/
def addA (c : Core K) (x : K) : Ask (Core K) :=
  let count : K := ((c.count + 1 : Int) : K)
  let delta := x - c.mean
  (addLoopA count delta (c.len - 1) c.sums).bind fun s =>
    done (.val { c with count := c.count + 1, mean := c.mean + delta / count, sums := s })

/-- `Moment.decayEntry`. -/
def decayEntryA (d delta : K) (s : Nat → K) (k : Nat) : Ask K :=
  sumLoopA (fun i => (coefA k i).bind fun c => done (.val (c * (d * delta) ^ i * (1 - d) * s (k - i))))
    (k - 2) 1
    ((1 - d) * s k + ((1 - d) * (-d) ^ k + d * (1 - d) ^ k) * delta ^ k)

/-- `Moment.decayLoop`. -/
def decayLoopA (d delta : K) : Nat → (Nat → K) → Ask (Nat → K)
  | 0, s => done (.val s)
  | 1, s => done (.val s)
  | k + 2, s => (decayEntryA d delta s (k + 2)).bind fun v => decayLoopA d delta (k + 1) (Function.update s (k + 2) v)

/-- `Moment.addDecay`. -/
def addDecayA (decay : K) (c : Core K) (x : K) : Ask (Core K) :=
  let d := if c.count + 1 = 1 then 1 else decay
  let delta := x - c.mean
  (decayLoopA d delta (c.len - 1) c.sums).bind fun s =>
    done (.val { c with count := c.count + 1, mean := c.mean + d * delta, sums := s })

/-- `Moment.removeEntry`. -/
def removeEntryA (count delta : K) (s : Nat → K) (k : Nat) : Ask K :=
  sumLoopA (fun i => (coefA k i).bind fun c => done (.val (-(c * (delta / (count + 1)) ^ i * s (k - i)))))
    (k - 2) 1
    (s k - count / (count + 1) ^ k * (count ^ (k - 1) + ((sign k : Int) : K)) * delta ^ k)

/-- `Moment.removeLoop`. -/
def removeLoopA (count delta : K) : Nat → Nat → (Nat → K) → Ask (Nat → K)
  | 0, _, s => done (.val s)
  | n + 1, k, s => (removeEntryA count delta s k).bind fun v => removeLoopA count delta n (k + 1) (Function.update s k v)

/-- `Moment.remove`. -/
def removeA (c : Core K) (x : K) : Ask (Core K) :=
  let cnt := c.count - 1
  if cnt > 0 then
    let count : K := (cnt : K)
    let mean := c.mean - (x - c.mean) / count
    let delta := x - mean
    (removeLoopA count delta (c.len - 2) 2 c.sums).bind fun s => done (.val { c with count := cnt, mean := mean, sums := s })
  else done (.val { c with count := cnt, mean := 0, sums := fun _ => 0 })

/-- `Moment.evict`. -/
def evictA (c : Core K) : Ask (Except Err (Core K)) :=
  if (c.queue.len : Int) = c.window then
    match c.queue.get with
    | .panic => done .panic
    | .hang => done .hang
    | .val (.error e) => done (.val (.error e))
    | .val (.ok (t, q)) => (removeA { c with queue := q } t).bind fun c => done (.val (.ok c))
  else done (.val (.ok c))

/-- `Moment.pushAdd`. -/
def pushAddA (c : Core K) (x : K) : Ask (Core K × Option Err) :=
  (match c.decay with | none => addA c x | some d => addDecayA d c x).bind fun c => done (.val (c, none))

/-- `Moment.push`. -/
def pushA (c : Core K) (x : K) : Ask (Core K × Option Err) :=
  if c.window ≠ 0 then
    (evictA c).bind fun r => match r with
      | .error e => done (.val (c, some e))
      | .ok c =>
        match c.queue.put x with
        | .panic => done .panic
        | .hang => done .hang
        | .val (.error e) => done (.val (c, some e))
        | .val (.ok q) => pushAddA { c with queue := q } x
  else pushAddA c x

/-- A goroutine that pushes values to its own core, stopping at an error (there is none for a core from `NewCore`). -/
def pushesA (c : Core K) : List K → Ask (Core K)
  | [] => done (.val c)
  | x :: xs => (pushA c x).bind fun r => match r.2 with
    | some _ => done (.val r.1)
    | none => pushesA r.1 xs

/-- The same with `Moment.push`. -/
def pushes (c : Core K) : List K → Go (Core K)
  | [] => .val c
  | x :: xs =>
    match push c x with
    | .panic => .panic
    | .hang => .hang
    | .val r => match r.2 with
      | some _ => .val r.1
      | none => pushes r.1 xs

end moment

/-! ## The slice -/

/-- A slice header: array and length. -/
structure Slice where
  addr : Nat
  len : Nat
  deriving DecidableEq

/-- The global variable `factorials` (math.go:3) and the arrays behind it; the length of a list is the capacity. Arrays are not freed. -/
structure Tab where
  arr : Nat → List Int
  next : Nat
  hdr : Slice

/-- math.go:3: the literal. -/
def Tab.init : Tab := ⟨fun a => if a = 0 then [1, 1, 2, 6, 24, 120, 720, 5040] else [], 1, ⟨0, 8⟩⟩

/-- `append(factorials, next)`, before the result is assigned: in place if there is room, otherwise in a new array. `spare` is the unused
part of a new array. -/
def Tab.append (t : Tab) (next : Int) (spare : List Int) : Tab × Slice :=
  if t.hdr.len < (t.arr t.hdr.addr).length then
    ({ t with arr := Function.update t.arr t.hdr.addr ((t.arr t.hdr.addr).set t.hdr.len next) }, ⟨t.hdr.addr, t.hdr.len + 1⟩)
  else
    ({ t with arr := Function.update t.arr t.next ((t.arr t.hdr.addr).take t.hdr.len ++ next :: spare), next := t.next + 1 },
      ⟨t.next, t.hdr.len + 1⟩)

/-- Where a goroutine is: between questions (or finished), or in the code of `factorial`. -/
inductive Local (α : Type) where
  | run (p : Ask α)
  /-- math.go:6, `n >= len(factorials)` was true -/
  | compute (n : Int) (k : Int → Ask α)
  /-- math.go:8, `next` has been computed -/
  | append (n : Int) (k : Int → Ask α) (next : Int)
  /-- math.go:8, `append` has returned, its result is not yet assigned -/
  | store (n : Int) (k : Int → Ask α) (s : Slice)
  /-- math.go:11 -/
  | read (n : Int) (k : Int → Ask α)

/-- The table and the goroutines. A goroutine that panics ends in `done .panic` (in Go that ends the program: here the others go on, which
only adds executions). -/
structure World (T α : Type) where
  tab : Tab
  loc : T → Local α

variable {T α : Type} [DecidableEq T]

/-- Change one goroutine. -/
def World.set (w : World T α) (t : T) (l : Local α) : World T α := { w with loc := Function.update w.loc t l }

/-- One step of a goroutine. Each step reads or writes the header once, as a whole (the compiled code reads it several times, and reads and
writes its words one by one: it has more executions). -/
inductive Step : World T α → World T α → Prop where
  /-- math.go:6: the condition of the loop is true -/
  | more (w : World T α) (t : T) (n : Int) (k : Int → Ask α) : w.loc t = .run (.ask n k) → n ≥ w.tab.hdr.len →
      Step w (w.set t (.compute n k))
  /-- math.go:6: it is false -/
  | enough (w : World T α) (t : T) (n : Int) (k : Int → Ask α) : w.loc t = .run (.ask n k) → n < w.tab.hdr.len →
      Step w (w.set t (.read n k))
  /-- math.go:7: `next := factorials[len(factorials)-1] * len(factorials)` (the slice is never empty) -/
  | compute (w : World T α) (t : T) (n : Int) (k : Int → Ask α) : w.loc t = .compute n k →
      Step w (w.set t (.append n k (wrap ((w.tab.arr w.tab.hdr.addr).getD (w.tab.hdr.len - 1) 0 * w.tab.hdr.len))))
  /-- math.go:8: `append(factorials, next)` -/
  | append (w : World T α) (t : T) (n : Int) (k : Int → Ask α) (next : Int) (spare : List Int) : w.loc t = .append n k next →
      Step w { w.set t (.store n k (w.tab.append next spare).2) with tab := (w.tab.append next spare).1 }
  /-- math.go:8: the assignment; then the loop starts again -/
  | store (w : World T α) (t : T) (n : Int) (k : Int → Ask α) (s : Slice) : w.loc t = .store n k s →
      Step w { w.set t (.run (.ask n k)) with tab := { w.tab with hdr := s } }
  /-- math.go:11: `return factorials[n]` -/
  | read (w : World T α) (t : T) (n : Int) (k : Int → Ask α) : w.loc t = .read n k → 0 ≤ n → n < w.tab.hdr.len →
      Step w (w.set t (.run (k ((w.tab.arr w.tab.hdr.addr).getD n.toNat 0))))
  /-- math.go:11: index out of range -/
  | range (w : World T α) (t : T) (n : Int) (k : Int → Ask α) : w.loc t = .read n k → ¬ (0 ≤ n ∧ n < w.tab.hdr.len) →
      Step w (w.set t (.run (.done .panic)))

/-- An execution. -/
inductive Steps : World T α → World T α → Prop where
  | refl (w : World T α) : Steps w w
  | step {w w' w'' : World T α} : Steps w w' → Step w' w'' → Steps w w''

/-- The goroutines at the start. -/
def World.start (tab : Tab) (prog : T → Ask α) : World T α := ⟨tab, fun t => .run (prog t)⟩

end Verif.Fact
