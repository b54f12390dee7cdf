import Verif.Model.Joint
import Verif.Model.Moment

/-! # Configurations by reference

In Go a `CoreConfig` is passed by pointer, its `Sums` are a map (package `moment`) or a slice (package `joint`), and `Window` and `Decay` are
pointers. `NewCore` fills in defaults in the caller's object and a core keeps some of the references it was given. Here configurations,
maps, slices and numbers live in a memory that client code can write to between calls; what a core computes is `Model/Moment.lean` and
`Model/Joint.lean`. -/

namespace Verif.Moment
open Verif Verif.Spec
namespace Refs

/-- config.go:9-13 `CoreConfig` as stored: addresses of a map, an `int` and a `float64`, or nil. -/
structure Obj where
  sums : Option Nat
  window : Option Nat
  decay : Option Nat
  deriving DecidableEq

/-- Memory. The map at address 0 is `defaultConfig.Sums` (config.go:15-19), which is empty when the program starts. -/
structure Mem (K : Type) where
  cfgs : Nat → Obj
  maps : Nat → List Int
  ints : Nat → Int
  floats : Nat → K

/-- A core as stored: `decay` is a pointer (core.go:20, 50); the field `core.decay` is not used. -/
structure RCore (K : Type) where
  core : Core K
  decay : Option Nat

/-- The memory and the cores made so far, in order of creation. -/
structure World (K : Type) where
  mem : Mem K
  cores : List (RCore K)

/-- What a client can do: write the three fields of the configuration at an address, `config.Sums[k] = true`, `*p = v` for an `*int` or a
`*float64`, call `NewCore` with the configuration at an address, `Push` to or `Clear` the `i`-th core. (`delete` on a map is left out.) -/
inductive Op (K : Type) where
  | setConfig (a : Nat) (o : Obj)
  | setKey (a : Nat) (k : Int)
  | setInt (p : Nat) (v : Int)
  | setFloat (p : Nat) (v : K)
  | newCore (a : Nat)
  | push (i : Nat) (x : K)
  | clear (i : Nat)

variable {K : Type}

/-- What the configuration at an address says now. -/
def Mem.read (m : Mem K) (a : Nat) : Config K :=
  ⟨(m.cfgs a).sums.map m.maps, (m.cfgs a).window.map m.ints, (m.cfgs a).decay.map m.floats⟩

/-- config.go:99-113 `setConfigDefaults`: in place; a nil map becomes the shared one. `Window` and `Decay` default to nil. -/
def defaults (m : Mem K) (a : Nat) : Mem K :=
  match (m.cfgs a).sums with
  | some _ => m
  | none => { m with cfgs := Function.update m.cfgs a { m.cfgs a with sums := some 0 } }

/-- The core as the methods see it: `*c.decay` is read when it is needed (core.go:138). -/
def RCore.view (m : Mem K) (r : RCore K) : Core K := { r.core with decay := r.decay.map m.floats }

variable [Field K]

/-- core.go:37-63 `NewCore`: the window is copied, the pointer to the decay is kept. -/
def newCore [GoOrd K] (s : World K) (a : Nat) : World K × Option Err :=
  let m := defaults s.mem a
  match validate 0 1 (m.read a) with
  | some e => (⟨m, s.cores⟩, some e)
  | none => (⟨m, s.cores ++ [⟨mk (m.read a), (m.cfgs a).decay⟩]⟩, none)

/-- A method call on the `i`-th core; there is no such core: a nil pointer. -/
def call (s : World K) (i : Nat) (op : MOp K) : Go (World K × Option Err) :=
  match s.cores[i]? with
  | none => .panic
  | some r =>
    match step (r.view s.mem) op with
    | .panic => .panic
    | .hang => .hang
    | .val (c, e) => .val (⟨s.mem, s.cores.set i ⟨c, r.decay⟩⟩, e)

/-- `config.Sums[k] = true`; writing to a nil map panics. -/
def setKey (m : Mem K) (a : Nat) (k : Int) : Go (Mem K) :=
  match (m.cfgs a).sums with
  | none => .panic
  | some p => .val { m with maps := Function.update m.maps p (if k ∈ m.maps p then m.maps p else m.maps p ++ [k]) }

/-- One operation. -/
def wstep [GoOrd K] (s : World K) : Op K → Go (World K × Option Err)
  | .setConfig a o => .val (⟨{ s.mem with cfgs := Function.update s.mem.cfgs a o }, s.cores⟩, none)
  | .setKey a k =>
    match setKey s.mem a k with
    | .panic => .panic
    | .hang => .hang
    | .val m => .val (⟨m, s.cores⟩, none)
  | .setInt p v => .val (⟨{ s.mem with ints := Function.update s.mem.ints p v }, s.cores⟩, none)
  | .setFloat p v => .val (⟨{ s.mem with floats := Function.update s.mem.floats p v }, s.cores⟩, none)
  | .newCore a => .val (newCore s a)
  | .push i x => call s i (.push x)
  | .clear i => call s i .clear

/-- A whole client history. -/
def wrun [GoOrd K] (s : World K) (ops : List (Op K)) : Go (World K × List Err) := Go.runOps (logged wstep) (s, []) ops

end Refs
end Verif.Moment

namespace Verif.Joint
open Verif Verif.Spec
namespace Refs

/-- config.go:19-24 `CoreConfig` as stored. `Vars` is a value here: no core keeps that pointer. -/
structure Obj where
  sums : Option Nat
  window : Option Nat
  vars : Option Int
  decay : Option Nat
  deriving DecidableEq

/-- Memory. A slice of tuples is identified with its backing array; the slice at address 0 is `defaultConfig.Sums` (config.go:26-31), of
length zero. -/
structure Mem (K : Type) where
  cfgs : Nat → Obj
  slices : Nat → List Tuple
  ints : Nat → Int
  floats : Nat → K

/-- A core as stored: `tuples` is the slice of the configuration (core.go:72), `decay` its pointer (core.go:57); the fields of `core` with
these names are not used. -/
structure RCore (K : Type) where
  core : Core K
  tuples : Nat
  decay : Option Nat

/-- The memory and the cores made so far. -/
structure World (K : Type) where
  mem : Mem K
  cores : List (RCore K)

/-- What a client can do: write a configuration, write the `j`-th tuple of a slice, write numbers, `NewCore`, `Push`, `Clear`. -/
inductive Op (K : Type) where
  | setConfig (a : Nat) (o : Obj)
  | setTuple (p : Nat) (j : Nat) (t : Tuple)
  | setInt (p : Nat) (v : Int)
  | setFloat (p : Nat) (v : K)
  | newCore (a : Nat)
  | push (i : Nat) (xs : List K)
  | clear (i : Nat)

variable {K : Type}

/-- What the configuration at an address says now. -/
def Mem.read (m : Mem K) (a : Nat) : Config K :=
  ⟨(m.cfgs a).sums.map m.slices, (m.cfgs a).window.map m.ints, (m.cfgs a).vars, (m.cfgs a).decay.map m.floats⟩

/-- config.go:199-217 `setConfigDefaults`, in place. -/
def defaults (m : Mem K) (a : Nat) : Mem K :=
  match (m.cfgs a).sums with
  | some _ => m
  | none => { m with cfgs := Function.update m.cfgs a { m.cfgs a with sums := some 0 } }

/-- core.go:50-52: `Vars` is inferred from the first tuple and written to the caller's configuration. -/
def inferVars (m : Mem K) (a : Nat) : Mem K :=
  match (m.cfgs a).vars, ((m.read a).sums.getD []) with
  | none, t :: _ => { m with cfgs := Function.update m.cfgs a { m.cfgs a with vars := some t.length } }
  | _, _ => m

/-- The core as the methods see it. -/
def RCore.view (m : Mem K) (r : RCore K) : Core K := { r.core with tuples := m.slices r.tuples, decay := r.decay.map m.floats }

variable [Field K]

/-- core.go:40-77 `NewCore`. -/
def newCore [GoOrd K] (s : World K) (a : Nat) : Go (World K × Option Err) :=
  let m := defaults s.mem a
  match validate 0 1 (m.read a) with
  | some e => .val (⟨m, s.cores⟩, some e)
  | none =>
    let m := inferVars m a
    match mk (m.read a) with
    | .panic => .panic
    | .hang => .hang
    | .val c => .val (⟨m, s.cores ++ [⟨c, (m.cfgs a).sums.getD 0, (m.cfgs a).decay⟩]⟩, none)

/-- A method call on the `i`-th core. -/
def call (s : World K) (i : Nat) (op : MOp (List K)) : Go (World K × Option Err) :=
  match s.cores[i]? with
  | none => .panic
  | some r =>
    match step (r.view s.mem) op with
    | .panic => .panic
    | .hang => .hang
    | .val (c, e) => .val (⟨s.mem, s.cores.set i ⟨c, r.tuples, r.decay⟩⟩, e)

/-- One operation; an index out of range panics. -/
def wstep [GoOrd K] (s : World K) : Op K → Go (World K × Option Err)
  | .setConfig a o => .val (⟨{ s.mem with cfgs := Function.update s.mem.cfgs a o }, s.cores⟩, none)
  | .setTuple p j t =>
    if j < (s.mem.slices p).length then
      .val (⟨{ s.mem with slices := Function.update s.mem.slices p ((s.mem.slices p).set j t) }, s.cores⟩, none)
    else .panic
  | .setInt p v => .val (⟨{ s.mem with ints := Function.update s.mem.ints p v }, s.cores⟩, none)
  | .setFloat p v => .val (⟨{ s.mem with floats := Function.update s.mem.floats p v }, s.cores⟩, none)
  | .newCore a => newCore s a
  | .push i xs => call s i (.push xs)
  | .clear i => call s i .clear

/-- A whole client history. -/
def wrun [GoOrd K] (s : World K) (ops : List (Op K)) : Go (World K × List Err) := Go.runOps (logged wstep) (s, []) ops

end Refs
end Verif.Joint
