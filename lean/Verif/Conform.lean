import Verif.Proofs.Strings
import Verif.Proofs.HeapMedian
import Verif.Proofs.Decide
import Verif.Props.Moment
import Verif.Props.JointCore
import Verif.Props.JointMetric
import Verif.Props.Quantile
import Verif.Props.Names

/-!
# The model against the project's own tests

The inputs and expected results of the unit tests in /repo, evaluated in the model (`float64` replaced by ℚ). These are tests of the
model, not proofs of any property: they only guard against having modelled something else than the code.
-/

namespace Verif.Conform
open Verif Verif.Spec

/-- A binary tree without bookkeeping. -/
inductive Shape where
  | o
  | t (left : Shape) (val : ℚ) (right : Shape)
  deriving DecidableEq

/-- A leaf. -/
def Shape.leaf (x : ℚ) : Shape := .t .o x .o

def ofAvl : Avl.Node ℚ → Shape
  | .nil => .o
  | .node l v r _ _ => .t (ofAvl l) v (ofAvl r)

def ofRb : Rb.Node ℚ → Shape
  | .nil => .o
  | .node l v r _ _ => .t (ofRb l) v (ofRb r)

def adds (xs : List ℚ) : List (OSOp ℚ) := xs.map .add
def removes (xs : List ℚ) : List (OSOp ℚ) := xs.map .remove

open Shape

/-! ### quantile/ost/avl/tree_test.go -/

def avl (ops : List (OSOp ℚ)) : Go (Shape × Int × Int) := do
  let t ← Avl.Tree.run ops
  pure (ofAvl t.root, t.size, t.height)

/-- `TestAdd`: the first eight values. -/
def eight : List ℚ := [5, 6, 7, 3, 4, 1, 2, 1]

example : avl (adds eight) = .val (t (t (t (leaf 1) 1 o) 2 (leaf 3)) 4 (t (leaf 5) 6 (leaf 7)), 8, 3) := by decide +kernel
example : avl (adds (eight ++ [13 / 2, 27 / 4, 25 / 4])) =
    .val (t (t (t (leaf 1) 1 o) 2 (leaf 3)) 4 (t (t (leaf 5) 6 (leaf (25 / 4))) (13 / 2) (t o (27 / 4) (leaf 7))), 11, 3) := by decide +kernel
example : avl (adds eight ++ removes [5, 7]) = .val (t (t (leaf 1) 1 o) 2 (t (leaf 3) 4 (leaf 6)), 6, 2) := by decide +kernel
example : avl (adds eight ++ removes [5, 7, 2]) = .val (t (t (leaf 1) 1 o) 3 (t o 4 (leaf 6)), 5, 2) := by decide +kernel
example : avl (adds eight ++ removes [5, 7, 2, 1, 6, 4, 3]) = .val (leaf 1, 1, 0) := by decide +kernel
example : avl (adds eight ++ removes [8]) = avl (adds eight) := by decide +kernel
example : (do let t ← Avl.Tree.run (adds eight)
              pure (t.rank 3, t.rank (11 / 2), t.rank (-1), t.select 5, t.select (-1), t.select 9)) =
    .val (3, 6, 0, some 5, none, none) := by decide +kernel
example : avl (adds eight ++ [.clear]) = .val (o, 0, -1) := by decide +kernel

/-! ### quantile/ost/rb/tree_test.go -/

def rb (ops : List (OSOp ℚ)) : Go (Shape × Int) := do
  let t ← Rb.Tree.run ops
  pure (ofRb t.root, t.size)

example : rb (adds eight) = .val (t (t (t (leaf 1) 1 o) 2 (leaf 3)) 4 (t (leaf 5) 6 (leaf 7)), 8) := by decide +kernel
example : rb (adds (eight ++ [13 / 2, 27 / 4, 25 / 4])) =
    .val (t (t (t (leaf 1) 1 o) 2 (leaf 3)) 4 (t (t (leaf 5) 6 (t (leaf (25 / 4)) (13 / 2) o)) (27 / 4) (leaf 7)), 11) := by decide +kernel
example : rb (adds (eight ++ [13 / 2, 27 / 4, 25 / 4]) ++ removes [4, 1, 13 / 2, 27 / 4, 25 / 4]) =
    .val (t (t (leaf 1) 2 (leaf 3)) 5 (t (leaf 6) 7 o), 6) := by decide +kernel
example : rb (adds (eight ++ [13 / 2, 27 / 4, 25 / 4]) ++ removes [4, 1, 13 / 2, 27 / 4, 25 / 4, 5]) =
    .val (t (t (leaf 1) 2 (leaf 3)) 6 (leaf 7), 5) := by decide +kernel
example : rb (adds (eight ++ [13 / 2, 27 / 4, 25 / 4]) ++ removes [4, 1, 13 / 2, 27 / 4, 25 / 4, 5, 6, 2, 3, 7]) =
    .val (leaf 1, 1) := by decide +kernel
example : (do let t ← Rb.Tree.run (adds eight)
              pure (t.rank 3, t.rank (11 / 2), t.rank (-1), t.select 5, t.select (-1), t.select 9)) =
    .val (3, 6, 0, some 5, none, none) := by decide +kernel

/-! ### quantile/skiplist/skiplist_test.go: the levels drawn with seed 1 are 1, except 2 for the value 2 and for the second 1 -/

def fmt (x : ℚ) : List Char := (toString x).toList
def seed1 : Nat → Nat → Bool := fun n i => (n == 6 || n == 7 || n == 8) && i == 1

example : (do let s ← Skip.SkipList.run 3 seed1 (adds eight)
              let str ← s.string fmt
              let k ← s.rank 3; let k' ← s.rank (11 / 2); let v ← s.select 5; let v' ← s.select 9; let v'' ← s.select (-1)
              pure ((String.ofList str, s.size), (k, k'), (v, v', v''))) =
    .val (("head---------tail\nhead-1--2------tail\nhead-1-1-2-3-4-5-6-7-tail\n", 8), (3, 6), (some 5, none, none)) := by decide +kernel

example : (do let s ← Skip.SkipList.run 3 seed1 (adds (eight ++ [13 / 2, 27 / 4, 25 / 4]) ++ removes [4, 1, 13 / 2, 27 / 4, 25 / 4])
              let str ← s.string fmt
              pure (String.ofList str, s.size)) =
    .val ("head-------tail\nhead--2-----tail\nhead-1-2-3-5-6-7-tail\n", 6) := by decide +kernel

/-! ### quantile/heap/heap_test.go -/

/-- `heapops.Push(h, &Item{Val: x})`, the item at address `a`. -/
def hpush (a : Nat) (x : ℚ) (r : Heap.Mem ℚ × Heap.Heap ℚ) : Go (Heap.Mem ℚ × Heap.Heap ℚ) :=
  Heap.push { r.1 with val := Heap.upd r.1.val a x } r.2 a

def maxHeap : Go (Heap.Mem ℚ × Heap.Heap ℚ) :=
  Heap.new ⟨fun _ => 0, fun _ => "", fun _ => 0⟩ 0 "a" [1, 2, 3, 4] HeapMedian.fmax

example : (do let r ← maxHeap; pure (Heap.values r.1 r.2)) = .val [4, 2, 3, 1] ∧
    (do let r ← maxHeap; let r ← hpush 4 5 r; let r ← hpush 5 4 r; pure (Heap.values r.1 r.2)) = .val [5, 4, 4, 1, 2, 3] ∧
    (do let r ← maxHeap; let r ← hpush 4 5 r; pure (Heap.values r.1 r.2)) = .val [5, 4, 3, 1, 2] ∧
    (do let r ← maxHeap; let r ← hpush 4 5 r; let r ← Heap.update r.1 r.2 4 2; pure (Heap.values r.1 r.2)) = .val [4, 2, 3, 1, 2] ∧
    (do let r ← maxHeap; let r ← hpush 4 5 r; let r ← Heap.remove r.1 r.2 4; pure (Heap.values r.1 r.2)) = .val [4, 2, 3, 1] := by
  decide +kernel

/-! ### quantile/heap_median_test.go, window 10: the two heaps after the pushes of the test -/

def heaps (xs : List ℚ) : Go (List ℚ × List ℚ) := do
  let (s, _) ← HeapMedian.run (HeapMedian.fresh (0 : ℚ) 10) (xs.map .push)
  pure (Heap.values s.mem s.low, Heap.values s.mem s.high)

example : heaps [0, 10, 1, 9, 2, 8] = .val ([2, 0, 1], [8, 10, 9]) := by decide +kernel
example : heaps [0, 10, 1, 9, 2, 8, 1, 1, 1] = .val ([1, 1, 1, 0, 1], [2, 8, 9, 10]) := by decide +kernel

/-! ### quantile/quantile_test.go, median_test.go, iqr_test.go -/

open Quant in
def quant (w m : Int) (xs : List ℚ) (q : ℚ) : Go (Except Err ℚ) := do
  let (s, _) ← (Quantile.fresh (avlStat ℚ) w m).run (xs.map .push)
  s.value (exact ℚ) q

/-- `i²` for `i < 10`. -/
def squares : List ℚ := [0, 1, 4, 9, 16, 25, 36, 49, 64, 81]

open Quant in
example : quant 5 Linear squares (1 / 4) = .val (.ok 36) ∧ quant 6 Linear squares (1 / 4) = .val (.ok (3 / 4 * 25 + 1 / 4 * 36)) ∧
    quant 6 Lower squares (1 / 4) = .val (.ok 25) ∧ quant 6 Higher squares (1 / 4) = .val (.ok 36) ∧
    quant 6 Nearest squares (1 / 4) = .val (.ok 25) ∧ quant 6 Nearest squares (1 / 2) = .val (.ok 36) ∧
    quant 8 Nearest squares (1 / 2) = .val (.ok 36) ∧ quant 6 Nearest squares (3 / 4) = .val (.ok 64) ∧
    quant 6 Midpoint squares (1 / 4) = .val (.ok (61 / 2)) := by decide +kernel

open Quant in
example : (do let (s, _) ← (Quantile.fresh (avlStat ℚ) 3 Midpoint).run ([0, 1, 2, 3, 4, 5].map .push); s.iqrValue (exact ℚ)) =
    .val (.ok 1) := by decide +kernel

/-! ### joint/tuple_test.go, util/math/math_test.go -/

example : Joint.hash [1, 4, 2, 3] = 33700 ∧ Joint.hash [1, 2, 3, 4] = 31810 ∧
    Joint.sub [4, 3, 7, 5] [1, 3, 4, 0] = .ok [3, 0, 3, 5] ∧ Joint.multinom [4, 3, 7, 5] [1, 3, 4, 0] = .val (.ok 140) ∧
    Joint.pow [(1 : ℚ), 2, 3 / 2, -1] [3, 4, 2, 5] = .ok (-36) := by decide +kernel

example : MathUtil.binom 5 2 = .val 10 ∧ MathUtil.binom 20 1 = .val 20 ∧ MathUtil.factorial 10 = .val 3628800 ∧
    MathUtil.sign 0 = 1 ∧ MathUtil.sign 1 = -1 ∧ MathUtil.sign (-1) = -1 := by decide +kernel

/-! ### moment/core_test.go and joint/core_test.go: see the examples beside C36, C37 (Props/Moment.lean) and here -/

open Props in
example : jointTest ⟨some [[2, 2]], some 3, none, none⟩ [.push [1, 1], .push [2, 4], .push [3, 9], .push [4, 16], .push [8, 64]]
      [[0, 1], [0, 2], [1, 0], [1, 1], [1, 2], [2, 0], [2, 1], [2, 2]] =
    some (3, [.ok 0, .ok (5378 / 3), .ok 0, .ok 158, .ok (7486 / 3), .ok 14, .ok (638 / 3), .ok (112538 / 9)], []) := by decide +kernel

open Props in
example : jointTest ⟨some [[2, 2]], some 0, none, some (3 / 10)⟩ [.push [3, 9], .push [4, 16], .push [8, 64]]
      [[0, 2], [1, 1], [1, 2], [2, 0], [2, 1], [2, 2]] =
    some (3, [.ok (5948691 / 10000), .ok (532413 / 10000), .ok (1064876778 / 1000000), .ok (47859 / 10000), .ok (93336054 / 1000000),
      .ok (492809302293 / 100000000)], []) := by decide +kernel

open Props in
example : autoTest false 1 3 id ([1, 2, 3, 4, 8].map .push) = some (.ok (.fin (5 / 2)), []) ∧
    autoTest false 0 3 id ([1, 2, 3, 4, 8].map .push) = some (.ok (.fin 7), []) := by decide +kernel

end Verif.Conform
