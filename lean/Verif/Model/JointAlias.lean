import Verif.Model.Joint

/-! # Model of the slices kept by `joint/core.go`

`Core.Push(xs ...float64)` stores the slice itself in the window (core.go:111), so a caller that passes `s...` shares the backing array with
the core. Here the queue holds addresses and a memory maps addresses to contents; everything else is `Model/Joint.lean`. A slice is
identified with its backing array: different slices of one array are not modelled. -/

namespace Verif.Joint
open Verif Verif.Spec

/-- A core whose window holds slices by reference; `core.queue` is unused. -/
structure Alias (K : Type) where
  core : Core K
  refs : Ring Nat
  mem : Nat → List K

/-- What a client can do: push the slice at an address, write to (or allocate) the slice at an address, `Clear`. -/
inductive AOp (K : Type) where
  | push (a : Nat)
  | write (a : Nat) (xs : List K)
  | clear

namespace Alias
variable {K : Type} [Field K]

/-- core.go:99-109: the evicted slice is read when it is evicted. -/
def evict (s : Alias K) : Go (Alias K × Option Err) :=
  if (s.refs.len : Int) = s.core.window then
    match s.refs.get with
    | .panic => .panic
    | .hang => .hang
    | .val (.error e) => .val (s, some e)
    | .val (.ok (t, q)) =>
      match remove s.core (s.mem t) with
      | .panic => .panic
      | .hang => .hang
      | .val (c, e) => .val (⟨c, q, s.mem⟩, e)
  else .val (s, none)

/-- core.go:117-127. -/
def pushAdd (s : Alias K) (xs : List K) : Go (Alias K × Option Err) :=
  match Joint.pushAdd s.core xs with
  | .panic => .panic
  | .hang => .hang
  | .val (c, e) => .val ({ s with core := c }, e)

/-- core.go:111-127. -/
def pushPut (s : Alias K) (a : Nat) : Go (Alias K × Option Err) :=
  match s.refs.put a with
  | .panic => .panic
  | .hang => .hang
  | .val (.error e) => .val (s, some e)
  | .val (.ok q) => pushAdd { s with refs := q } (s.mem a)

/-- core.go:89-128 `UnsafePush` with the slice at address `a`. -/
def push (s : Alias K) (a : Nat) : Go (Alias K × Option Err) :=
  if (s.mem a).length ≠ s.core.means.length then .val (s, some "tried to push a wrong number of values")
  else if s.core.window ≠ 0 then
    match evict s with
    | .panic => .panic
    | .hang => .hang
    | .val (s, some e) => .val (s, some e)
    | .val (s, none) => pushPut s a
  else pushAdd s (s.mem a)

/-- One operation; core.go:406-429 for `Clear`. -/
def step (s : Alias K) : AOp K → Go (Alias K × Option Err)
  | .push a => push s a
  | .write a xs => .val ({ s with mem := Function.update s.mem a xs }, none)
  | .clear => .val ({ s with core := Joint.clear s.core, refs := Ring.new s.core.window.toNat }, none)

/-- A whole client history. -/
def run (s : Alias K) (ops : List (AOp K)) : Go (Alias K × List Err) := Go.runOps (logged step) (s, []) ops

/-- A new core: no slices held yet. -/
def new (c : Core K) (mem : Nat → List K) : Alias K := ⟨c, Ring.new c.window.toNat, mem⟩

end Alias
end Verif.Joint
