import Verif.Model.Heap
import Verif.Spec.Window

/-! # Model of `quantile/heap_median.go` -/

namespace Verif.HeapMedian
open Verif Verif.Heap Verif.Spec

variable {F : Type} [GoOrd F]

/-- heap_median.go:15-21 `type HeapMedian struct`, without the mutex. The queue holds item addresses; `next` is the next fresh address. -/
structure HM (F : Type) where
  window : Int
  mem : Mem F
  next : Nat
  low : Heap.Heap F
  high : Heap.Heap F
  queue : Ring Nat

/-- heap_median.go:23-25. -/
def fmax (x y : F) : Bool := y <ᵇ x

/-- heap_median.go:27-29. -/
def fmin (x y : F) : Bool := x <ᵇ y

/-- heap_median.go:32-43 `NewHeapMedian`, for an acceptable window (`new` below). `zero` fills the unallocated memory. -/
def fresh (zero : F) (window : Int) : HM F :=
  ⟨window, ⟨fun _ => zero, fun _ => "", fun _ => 0⟩, 0, ⟨"low", [], fmax⟩, ⟨"high", [], fmin⟩, Ring.new window.toNat⟩

/-- heap_median.go:32-43 `NewHeapMedian`. -/
def new (zero : F) (window : Int) : Except Err (HM F) :=
  if window < 0 then .error "negative window" else .ok (fresh zero window)

/-- heap_median.go:115-124 `rebalance`. -/
def rebalance (s : HM F) (item : Nat) : Go (HM F × Nat) :=
  if s.low.len + 1 < s.high.len then do
    let r ← pop s.mem s.high
    let q ← Heap.push r.2.1 s.low r.1
    pure ({ s with mem := q.1, high := r.2.2, low := q.2 }, r.1)
  else if s.low.len > s.high.len + 1 then do
    let r ← pop s.mem s.low
    let q ← Heap.push r.2.1 s.high r.1
    pure ({ s with mem := q.1, low := r.2.2, high := q.2 }, r.1)
  else pure (s, item)

/-- heap_median.go:77-93: replace the evicted `item` by the new value. The conditions of the `switch` are evaluated in order; `Peek` is
called only where `&&` does not short-circuit. -/
def replace (s : HM F) (item : Nat) (x : F) : Go (HM F) :=
  if s.mem.hid item = s.low.id then do
    let p ← peek s.mem s.low
    if x ≤ᵇ p then do
      let r ← update s.mem s.low item x
      pure { s with mem := r.1, low := r.2 }
    else if p <ᵇ x then do
      let r ← Heap.remove s.mem s.low item
      let q ← Heap.push { r.1 with val := upd r.1.val item x } s.high item
      pure { s with mem := q.1, low := r.2, high := q.2 }
    else do
      let r ← Heap.remove s.mem s.high item
      let q ← Heap.push { r.1 with val := upd r.1.val item x } s.low item
      pure { s with mem := q.1, high := r.2, low := q.2 }
  else do
    let p ← peek s.mem s.low
    if p <ᵇ x then do
      let r ← update s.mem s.high item x
      pure { s with mem := r.1, high := r.2 }
    else do
      let r ← Heap.remove s.mem s.high item
      let q ← Heap.push { r.1 with val := upd r.1.val item x } s.low item
      pure { s with mem := q.1, high := r.2, low := q.2 }

/-- heap_median.go:96-101: a new item. -/
def insert (s : HM F) (x : F) : Go (HM F × Nat) := do
  let item := s.next
  let m : Mem F := ⟨upd s.mem.val item x, upd s.mem.hid item "", upd s.mem.idx item 0⟩
  let b ← (if s.low.len = 0 then pure true else do
    let p ← peek m s.low
    pure (x ≤ᵇ p))
  if b then do
    let r ← Heap.push m s.low item
    pure ({ s with mem := r.1, low := r.2, next := s.next + 1 }, item)
  else do
    let r ← Heap.push m s.high item
    pure ({ s with mem := r.1, high := r.2, next := s.next + 1 }, item)

/-- heap_median.go:105-112. -/
def enqueue (s : HM F) (item : Nat) : Go (HM F × Option Err) :=
  if s.window ≠ 0 then
    match s.queue.put item with
    | .panic => .panic
    | .hang => .hang
    | .val (.error e) => .val (s, some e)
    | .val (.ok q) => .val ({ s with queue := q }, none)
  else .val (s, none)

/-- heap_median.go:64-113 `Push`. -/
def push (s : HM F) (x : F) : Go (HM F × Option Err) :=
  if s.window ≠ 0 ∧ (s.queue.len : Int) = s.window then
    match s.queue.get with
    | .panic => .panic
    | .hang => .hang
    | .val (.error e) => .val (s, some e)
    | .val (.ok (item, q)) => do
      let s ← replace { s with queue := q } item x
      let r ← rebalance s item
      enqueue r.1 r.2
  else do
    let r ← insert s x
    let r ← rebalance r.1 r.2
    enqueue r.1 r.2

/-- heap_median.go:127-146 `Value`. -/
def value (O : FOps F) (s : HM F) : Go (Except Err F) :=
  if s.low.len + s.high.len = 0 then .val (.error "no values seen yet")
  else if s.low.len < s.high.len then do
    let v ← peek s.mem s.high
    pure (.ok v)
  else if s.low.len > s.high.len then do
    let v ← peek s.mem s.low
    pure (.ok v)
  else do
    let low ← peek s.mem s.low
    let high ← peek s.mem s.high
    pure (.ok (O.div (O.add low high) (O.ofInt 2)))

/-- heap_median.go:149-156 `Clear`. The old items become garbage. -/
def clear (s : HM F) : HM F :=
  { s with queue := Ring.new s.window.toNat, low := ⟨"low", [], fmax⟩, high := ⟨"high", [], fmin⟩ }

/-- One client operation. -/
def step (s : HM F) : MOp F → Go (HM F × Option Err)
  | .push x => push s x
  | .clear => .val (clear s, none)

/-- A whole client history, with the log of all errors returned by `Push`. -/
def run (s : HM F) (ops : List (MOp F)) : Go (HM F × List Err) :=
  Go.runOps (logged step) (s, []) ops

end Verif.HeapMedian
