import Verif.Base

/-!
# Model of `quantile/heap/heap.go` and of the functions of `container/heap` it uses

An `*Item` is an address (a natural number); `Mem` holds the fields of all items, one function per field. `container/heap` is part
of the Go standard library, not of /repo: its five functions are transcribed from the library source (unchanged since Go 1.0 up to the
form of `Remove`). Indices are natural numbers except for `Item.index`, which can be -1.
-/

set_option linter.dupNamespace false

namespace Verif.Heap
open Verif

variable {F : Type}

/-- Overwrite one cell. -/
def upd {α : Type} (f : Nat → α) (a : Nat) (v : α) : Nat → α := fun x => if x = a then v else f x

/-- heap.go:19-27 `type Item struct`: the fields of every allocated item. -/
structure Mem (F : Type) where
  val : Nat → F
  hid : Nat → String
  idx : Nat → Int

/-- heap.go:6-10 `type Heap struct`. -/
structure Heap (F : Type) where
  id : String
  items : List Nat
  cmp : F → F → Bool

/-- heap.go:45-47 `Len`. -/
def Heap.len (h : Heap F) : Nat := h.items.length

/-- heap.go:49-51 `Less`. -/
def less (m : Mem F) (h : Heap F) (i j : Nat) : Go Bool :=
  match h.items[i]?, h.items[j]? with
  | some a, some b => .val (h.cmp (m.val a) (m.val b))
  | _, _ => .panic

/-- heap.go:53-57 `Swap`. -/
def swap (m : Mem F) (h : Heap F) (i j : Nat) : Go (Mem F × Heap F) :=
  match h.items[i]?, h.items[j]? with
  | some a, some b => .val ({ m with idx := upd (upd m.idx b i) a j }, { h with items := (h.items.set i b).set j a })
  | _, _ => .panic

/-- heap.go:61-66 `Heap.Push`. -/
def rawPush (m : Mem F) (h : Heap F) (a : Nat) : Mem F × Heap F :=
  ({ m with hid := upd m.hid a h.id, idx := upd m.idx a h.items.length }, { h with items := h.items ++ [a] })

/-- heap.go:70-75 `Heap.Pop`. -/
def rawPop (m : Mem F) (h : Heap F) : Go (Nat × Mem F × Heap F) :=
  match h.items.getLast? with
  | none => .panic
  | some a => .val (a, { m with idx := upd m.idx a (-1) }, { h with items := h.items.dropLast })

/-- heap.go:79-81 `Peek`. -/
def peek (m : Mem F) (h : Heap F) : Go F :=
  match h.items with
  | [] => .panic
  | a :: _ => .val (m.val a)

/-- heap.go:85-91 `Values`. -/
def values (m : Mem F) (h : Heap F) : List F := h.items.map m.val

/-- container/heap `up`. The loop runs at most `j+1` times; `fuel` bounds it and `hang` marks its exhaustion (shown impossible). -/
def up : Nat → Mem F → Heap F → Nat → Go (Mem F × Heap F)
  | 0, _, _, _ => .hang
  | fuel + 1, m, h, j =>
    let i := (j - 1) / 2
    if i = j then .val (m, h)
    else do
      let b ← less m h j i
      if b then do
        let r ← swap m h i j
        up fuel r.1 r.2 i
      else .val (m, h)

/-- container/heap `down`; the last component is the final position (the library returns whether it exceeds the start). -/
def down : Nat → Mem F → Heap F → Nat → Nat → Go (Mem F × Heap F × Nat)
  | 0, _, _, _, _ => .hang
  | fuel + 1, m, h, i, n =>
    let j1 := 2 * i + 1
    if j1 ≥ n then .val (m, h, i)
    else do
      let j ← (if j1 + 1 < n then do
          let b ← less m h (j1 + 1) j1
          pure (if b then j1 + 1 else j1)
        else pure j1)
      let b ← less m h j i
      if b then do
        let r ← swap m h i j
        down fuel r.1 r.2 j n
      else .val (m, h, i)

/-- container/heap `Push`. -/
def push (m : Mem F) (h : Heap F) (a : Nat) : Go (Mem F × Heap F) :=
  let r := rawPush m h a
  up (r.2.len + 1) r.1 r.2 (r.2.len - 1)

/-- container/heap `Pop`. On an empty heap `Swap(0, -1)` panics. -/
def pop (m : Mem F) (h : Heap F) : Go (Nat × Mem F × Heap F) :=
  if h.len = 0 then .panic
  else do
    let n := h.len - 1
    let r ← swap m h 0 n
    let r ← down (n + 1) r.1 r.2 0 n
    rawPop r.1 r.2.1

/-- container/heap `Fix`. With the index -1 of a popped item both loops stop at once. -/
def fix (m : Mem F) (h : Heap F) (i : Int) : Go (Mem F × Heap F) :=
  if i < 0 then .val (m, h)
  else do
    let r ← down (h.len + 1) m h i.toNat h.len
    if r.2.2 > i.toNat then .val (r.1, r.2.1) else up (i.toNat + 1) r.1 r.2.1 i.toNat

/-- container/heap `Remove`. A negative index makes `Swap` panic. -/
def removeAt (m : Mem F) (h : Heap F) (i : Int) : Go (Mem F × Heap F) :=
  if i < 0 ∨ h.len = 0 then .panic
  else do
    let n := h.len - 1
    let r ← (if n ≠ i.toNat then do
        let r ← swap m h i.toNat n
        let r ← down (n + 1) r.1 r.2 i.toNat n
        if r.2.2 > i.toNat then .val (r.1, r.2.1) else up (i.toNat + 1) r.1 r.2.1 i.toNat
      else .val (m, h))
    let r ← rawPop r.1 r.2
    pure r.2

/-- heap.go:97-100 `Update`. -/
def update (m : Mem F) (h : Heap F) (a : Nat) (x : F) : Go (Mem F × Heap F) :=
  let m := { m with val := upd m.val a x }
  fix m h (m.idx a)

/-- heap.go:103-105 `Remove`. -/
def remove (m : Mem F) (h : Heap F) (a : Nat) : Go (Mem F × Heap F) := removeAt m h (m.idx a)

/-- container/heap `Init`: the loop `for i := n/2 - 1; i >= 0; i--`, with `i+1` as the counter. -/
def initLoop (m : Mem F) (h : Heap F) : Nat → Go (Mem F × Heap F)
  | 0 => .val (m, h)
  | i + 1 => do
    let r ← down (h.len + 1) m h i h.len
    initLoop r.1 r.2.1 i

/-- heap.go:30-43 `New`; the items get the addresses `base`, `base+1`, ... -/
def new (m : Mem F) (base : Nat) (id : String) (vals : List F) (cmp : F → F → Bool) : Go (Mem F × Heap F) :=
  let m : Mem F :=
    ⟨fun a => if base ≤ a then (vals[a - base]?).getD (m.val a) else m.val a,
     fun a => if base ≤ a ∧ a < base + vals.length then id else m.hid a,
     fun a => if base ≤ a ∧ a < base + vals.length then ((a - base : Nat) : Int) else m.idx a⟩
  let h : Heap F := ⟨id, (List.range vals.length).map (base + ·), cmp⟩
  initLoop m h (h.len / 2)

end Verif.Heap
