import Verif.Base
import Mathlib.Logic.Function.Basic

/-! # Model of `sample/sample.go`

`rand.Intn(n)` (Go standard library) returns some number below `n`; which one is an argument of the model. -/

namespace Verif.Sample
open Verif

variable {α : Type}

/-- sample.go:9-14 `type Reservoir struct`, without the mutex. The slice is modelled by its contents (see `Mem` for its memory). `Size` is
an exported field: it can be any integer, and is assumed not to be changed while the reservoir is in use (but see `setSize`). -/
structure Reservoir (α : Type) where
  size : Int
  sample : List α
  count : Nat
  deriving DecidableEq

/-- `Reservoir{Size: size}`. -/
def new (size : Int) : Reservoir α := ⟨size, [], 0⟩

/-- sample.go:17-27 `Push`; `index` is the result of `rand.Intn(r.count)`, used only when it is called. -/
def push (r : Reservoir α) (x : α) (index : Nat) : Go (Reservoir α) :=
  let r := { r with count := r.count + 1 }
  if (r.count : Int) ≤ r.size then .val { r with sample := r.sample ++ [x] }
  else if (index : Int) < r.size then
    if index < r.sample.length then .val { r with sample := r.sample.set index x } else .panic
  else .val r

/-- An assignment to the exported field. -/
def setSize (r : Reservoir α) (size : Int) : Reservoir α := { r with size := size }

/-- A stream of pushes; `draw n` is the number drawn at the `n`-th push. -/
def run (draw : Nat → Nat) (size : Int) (xs : List α) : Go (Reservoir α) :=
  Go.runOps (fun r x => push r x (draw (r.count + 1))) (new size) xs

/-! ## The memory of the slices

A slice is an array address and a length; the array has a capacity. `append` writes in place when there is room and otherwise moves to a
new array. Arrays are never freed. -/

/-- All arrays; an address at or above `next` is unused. The length of a list is the capacity of the array. -/
structure Mem (α : Type) where
  arr : Nat → List α
  next : Nat

/-- Overwrite one array. -/
def Mem.set (m : Mem α) (a : Nat) (l : List α) : Mem α := { m with arr := Function.update m.arr a l }

/-- A new array. -/
def Mem.alloc (m : Mem α) (l : List α) : Nat × Mem α := (m.next, ⟨Function.update m.arr m.next l, m.next + 1⟩)

/-- The reservoir with its slice `addr`, `len`. -/
structure MRes (α : Type) where
  size : Int
  addr : Nat
  len : Nat
  count : Nat
  mem : Mem α

/-- `append(r.sample, x)`; `spare` is what the runtime leaves in the unused part of a new array. -/
def MRes.append (r : MRes α) (x : α) (spare : List α) : MRes α :=
  if r.len < (r.mem.arr r.addr).length then
    { r with len := r.len + 1, mem := r.mem.set r.addr ((r.mem.arr r.addr).set r.len x) }
  else
    let a := r.mem.alloc ((r.mem.arr r.addr).take r.len ++ x :: spare)
    { r with addr := a.1, len := r.len + 1, mem := a.2 }

/-- sample.go:17-27 `Push`, on memory. -/
def MRes.push (r : MRes α) (x : α) (index : Nat) (spare : List α) : Go (MRes α) :=
  let r := { r with count := r.count + 1 }
  if (r.count : Int) ≤ r.size then .val (r.append x spare)
  else if (index : Int) < r.size then
    if index < r.len then .val { r with mem := r.mem.set r.addr ((r.mem.arr r.addr).set index x) } else .panic
  else .val r

/-- sample.go:30-37 `Sample`: a new array with a copy of the contents; the result is its address. -/
def MRes.sample (r : MRes α) : Nat × MRes α :=
  let a := r.mem.alloc ((r.mem.arr r.addr).take r.len)
  (a.1, { r with mem := a.2 })

/-- `Reservoir{Size: size}`: a nil slice (address 0, an array of capacity 0). -/
def MRes.new (size : Int) : MRes α := ⟨size, 0, 0, 0, ⟨fun _ => [], 1⟩⟩

/-- What a client can do: push, take a sample, write into a slice obtained from `Sample`. -/
inductive SOp (α : Type) where
  | push (x : α) (index : Nat) (spare : List α)
  | sample
  | write (i j : Nat) (x : α)

/-- The reservoir and the addresses of the slices returned so far, in order. -/
structure Client (α : Type) where
  res : MRes α
  out : List Nat

/-- One client operation; `write i j x` is `samples[i][j] = x`. -/
def Client.step (c : Client α) : SOp α → Go (Client α)
  | .push x index spare => do
    let r ← c.res.push x index spare
    pure { c with res := r }
  | .sample => .val ⟨c.res.sample.2, c.out ++ [c.res.sample.1]⟩
  | .write i j x =>
    match c.out[i]? with
    | none => .panic
    | some a =>
      if j < (c.res.mem.arr a).length then .val { c with res := { c.res with mem := c.res.mem.set a ((c.res.mem.arr a).set j x) } }
      else .panic

/-- A client history. -/
def Client.run (size : Int) (ops : List (SOp α)) : Go (Client α) := Go.runOps Client.step ⟨MRes.new size, []⟩ ops

end Verif.Sample
