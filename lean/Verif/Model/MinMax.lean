import Verif.Base
import Verif.Spec.Window
import Mathlib.Order.BoundedOrder.Basic

/-! # Model of `minmax/max.go` and `minmax/min.go`

The queue of the code holds pointers to private copies of the pushed numbers, never written again; the model stores the numbers. -/

namespace Verif.MinMax
open Verif Verif.Spec

/-- The infinities and `math.Max`, `math.Min` of the number type. -/
structure Ext (F : Type) where
  negInf : F
  posInf : F
  max : F → F → F
  min : F → F → F

/-- float64 without NaN: a bounded linear order. -/
def Ext.ofOrder (F : Type) [LinearOrder F] [BoundedOrder F] : Ext F := ⟨⊥, ⊤, Max.max, Min.min⟩

/-- float64 with NaN: `math.Max`/`math.Min` let the matching infinity win over NaN, and NaN over numbers (Go standard library,
math/dim.go). -/
def Ext.ofNaN (F : Type) [LinearOrder F] [BoundedOrder F] : Ext (WithNaN F) where
  negInf := .num ⊥
  posInf := .num ⊤
  max x y := if x = .num ⊤ ∨ y = .num ⊤ then .num ⊤ else
    match x, y with
    | .num a, .num b => .num (Max.max a b)
    | _, _ => .nan
  min x y := if x = .num ⊥ ∨ y = .num ⊥ then .num ⊥ else
    match x, y with
    | .num a, .num b => .num (Min.min a b)
    | _, _ => .nan

namespace Max

/-- max.go:14-23 `type Max struct`, without the mutex. `removed` is not in the code: it counts the deque removals. -/
structure St (F : Type) where
  window : Int
  queue : Ring F
  deque : List F
  ext : F
  count : Int
  removed : Nat
  deriving DecidableEq

variable {F : Type} [GoOrd F]

/-- max.go:26-48 `NewMax` for an acceptable window, and `NewGlobalMax` for window 0. -/
def fresh (O : Ext F) (window : Int) : St F := ⟨window, Ring.new window.toNat, [], O.negInf, 0, 0⟩

/-- max.go:26-37 `NewMax`. -/
def new (O : Ext F) (window : Int) : Except Err (St F) :=
  if window < 0 then .error "negative window" else .ok (fresh O window)

/-- max.go:83-85: the loop popping from the back, on the reversed deque; also counts the pops. -/
def popBack (x : F) : List F → List F × Nat
  | [] => ([], 0)
  | b :: r => if b <ᵇ x then ((popBack x r).1, (popBack x r).2 + 1) else (b :: r, 0)

/-- max.go:63-74: make room. `Front` and `PopFront` of an empty deque panic. -/
def evict (s : St F) : Go (Except Err (St F)) :=
  if (s.queue.len : Int) = s.window then
    match s.queue.get with
    | .panic => .panic
    | .hang => .hang
    | .val (.error e) => .val (.error e)
    | .val (.ok (v, q)) =>
      match s.deque with
      | [] => .panic
      | f :: d =>
        if f =ᵇ v then .val (.ok { s with queue := q, count := s.count - 1, deque := d, removed := s.removed + 1 })
        else .val (.ok { s with queue := q, count := s.count - 1 })
  else .val (.ok s)

/-- max.go:58-94 `Push`. -/
def push (O : Ext F) (s : St F) (x : F) : Go (St F × Option Err) :=
  if s.window ≠ 0 then
    match evict s with
    | .panic => .panic
    | .hang => .hang
    | .val (.error e) => .val (s, some e)
    | .val (.ok s) =>
      match s.queue.put x with
      | .panic => .panic
      | .hang => .hang
      | .val (.error e) => .val (s, some e)
      | .val (.ok q) =>
        .val ({ s with queue := q, count := s.count + 1, deque := (popBack x s.deque.reverse).1.reverse ++ [x],
                       removed := s.removed + (popBack x s.deque.reverse).2 }, none)
  else .val ({ s with count := s.count + 1, ext := O.max s.ext x }, none)

/-- max.go:97-108 `Value`. -/
def value (s : St F) : Go (Except Err F) :=
  if s.count = 0 then .val (.error "no values seen yet")
  else if s.window = 0 then .val (.ok s.ext)
  else
    match s.deque with
    | [] => .panic
    | f :: _ => .val (.ok f)

/-- max.go:111-119 `Clear`. -/
def clear (O : Ext F) (s : St F) : St F :=
  { s with count := 0, ext := O.negInf, queue := Ring.new s.window.toNat, deque := [] }

/-- One client operation. -/
def step (O : Ext F) (s : St F) : MOp F → Go (St F × Option Err)
  | .push x => push O s x
  | .clear => .val (clear O s, none)

/-- A whole client history, with the log of all errors returned by `Push`. -/
def run (O : Ext F) (s : St F) (ops : List (MOp F)) : Go (St F × List Err) :=
  Go.runOps (logged (step O)) (s, []) ops

end Max

namespace Min

/-- min.go:14-23 `type Min struct`, without the mutex. `removed` is not in the code: it counts the deque removals. -/
structure St (F : Type) where
  window : Int
  queue : Ring F
  deque : List F
  ext : F
  count : Int
  removed : Nat
  deriving DecidableEq

variable {F : Type} [GoOrd F]

/-- min.go:26-48 `NewMin` for an acceptable window, and `NewGlobalMin` for window 0. -/
def fresh (O : Ext F) (window : Int) : St F := ⟨window, Ring.new window.toNat, [], O.posInf, 0, 0⟩

/-- min.go:26-37 `NewMin`. -/
def new (O : Ext F) (window : Int) : Except Err (St F) :=
  if window < 0 then .error "negative window" else .ok (fresh O window)

/-- min.go:83-85: the loop popping from the back, on the reversed deque; also counts the pops. -/
def popBack (x : F) : List F → List F × Nat
  | [] => ([], 0)
  | b :: r => if x <ᵇ b then ((popBack x r).1, (popBack x r).2 + 1) else (b :: r, 0)

/-- min.go:63-74: make room. `Front` and `PopFront` of an empty deque panic. -/
def evict (s : St F) : Go (Except Err (St F)) :=
  if (s.queue.len : Int) = s.window then
    match s.queue.get with
    | .panic => .panic
    | .hang => .hang
    | .val (.error e) => .val (.error e)
    | .val (.ok (v, q)) =>
      match s.deque with
      | [] => .panic
      | f :: d =>
        if f =ᵇ v then .val (.ok { s with queue := q, count := s.count - 1, deque := d, removed := s.removed + 1 })
        else .val (.ok { s with queue := q, count := s.count - 1 })
  else .val (.ok s)

/-- min.go:58-94 `Push`. -/
def push (O : Ext F) (s : St F) (x : F) : Go (St F × Option Err) :=
  if s.window ≠ 0 then
    match evict s with
    | .panic => .panic
    | .hang => .hang
    | .val (.error e) => .val (s, some e)
    | .val (.ok s) =>
      match s.queue.put x with
      | .panic => .panic
      | .hang => .hang
      | .val (.error e) => .val (s, some e)
      | .val (.ok q) =>
        .val ({ s with queue := q, count := s.count + 1, deque := (popBack x s.deque.reverse).1.reverse ++ [x],
                       removed := s.removed + (popBack x s.deque.reverse).2 }, none)
  else .val ({ s with count := s.count + 1, ext := O.min s.ext x }, none)

/-- min.go:97-108 `Value`. -/
def value (s : St F) : Go (Except Err F) :=
  if s.count = 0 then .val (.error "no values seen yet")
  else if s.window = 0 then .val (.ok s.ext)
  else
    match s.deque with
    | [] => .panic
    | f :: _ => .val (.ok f)

/-- min.go:111-119 `Clear`. -/
def clear (O : Ext F) (s : St F) : St F :=
  { s with count := 0, ext := O.posInf, queue := Ring.new s.window.toNat, deque := [] }

/-- One client operation. -/
def step (O : Ext F) (s : St F) : MOp F → Go (St F × Option Err)
  | .push x => push O s x
  | .clear => .val (clear O s, none)

/-- A whole client history, with the log of all errors returned by `Push`. -/
def run (O : Ext F) (s : St F) (ops : List (MOp F)) : Go (St F × List Err) :=
  Go.runOps (logged (step O)) (s, []) ops

end Min

end Verif.MinMax
