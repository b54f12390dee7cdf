import Verif.Model.SkipList
import Verif.Model.CoreCost

/-!
# Counting steps: the skip list with a clock

Each function below is the function of the same name in `Verif.Model.SkipList` (without the final `T`), written once more with a counter that
ticks once per iteration of every loop of skiplist.go, nested ones included. Everything between two ticks is a fixed number of assignments and
comparisons. The `_out` theorems in `Verif.Proofs.SkipCost` show that the results are those of the model.
-/

namespace Verif.Skip.SkipList
open Verif Timed

variable {F : Type} [GoOrd F]

/-- skiplist.go:216-220: the inner loop of `getPrevs`. -/
def walkT (s : SkipList F) (x : F) (i : Nat) : Nat → Nat → Timed Nat
  | 0, _ => free .hang
  | f + 1, prev => do
    match ← free (s.nextAt prev i) with
    | none => pure prev
    | some n => if s.valLt n x then do tick; walkT s x i f n else pure prev

/-- skiplist.go:215-222: the outer loop. -/
def prevsDownT (s : SkipList F) (x : F) : Nat → Nat → Timed (List Nat)
  | 0, _ => pure []
  | i + 1, prev => do
    tick
    let p ← s.walkT x i (s.alloc + 1) prev
    let rest ← prevsDownT s x i p
    pure (rest ++ [p])

/-- skiplist.go:209-225 `getPrevs`. -/
def getPrevsT (s : SkipList F) (x : F) : Timed (List Nat) := s.prevsDownT x s.maxLevel 0

/-- A loop without inner loops: one tick per iteration. -/
def loopT {σ ι : Type} (step : σ → ι → Go σ) (s : σ) : List ι → Timed σ
  | [] => pure s
  | i :: is => do
    tick
    let s ← free (step s i)
    loopT step s is

/-- skiplist.go:132-134: the sum of the widths. -/
def sumWidthT (s : SkipList F) (target : Option Nat) (j : Nat) : Nat → Option Nat → Int → Timed Int
  | 0, _, _ => free .hang
  | f + 1, curr, acc =>
    if s.equals curr target then pure acc
    else
      match curr with
      | none => free .panic
      | some c => do
        tick
        let w ← free (s.widthAt c j)
        let nx ← free (s.nextAt c j)
        sumWidthT s target j f nx (acc + w)

/-- skiplist.go:131-136. -/
def widthAtLevelT (n : Nat) (prevs : List Nat) (s : SkipList F) (i : Nat) : Timed (SkipList F) := do
  let target ← free (s.nextAt n i)
  let w ← s.sumWidthT target (i - 1) (s.alloc + 1) (some n) 0
  let s ← free (s.addWidth n i w)
  let p ← free (idx prevs i)
  let wn ← free (s.widthAt n i)
  free (s.addWidth p i (-wn))

/-- skiplist.go:131-136: the loop around it. -/
def widthsT (n : Nat) (prevs : List Nat) (s : SkipList F) : List Nat → Timed (SkipList F)
  | [] => pure s
  | i :: is => do
    tick
    let s ← widthAtLevelT n prevs s i
    widthsT n prevs s is

/-- skiplist.go:112-139 `Add`. The loop of `randLevel` makes `level - 1` iterations. -/
def addT (s : SkipList F) (x : F) : Timed (SkipList F) := do
  let prevs ← s.getPrevsT x
  let level := s.randLevel
  ticks (level - 1)
  let n := s.alloc
  let s := { s.upd n ⟨level, fun _ => none, fun _ => 0, some x⟩ with alloc := n + 1, drawn := s.drawn + 1 }
  let s ← loopT (linkAt n prevs) s (List.range level)
  let s ← free (s.addWidth n 0 1)
  let s ← loopT (bumpAt prevs) s (from1 s.maxLevel)
  let s ← widthsT n prevs s (from1 level)
  pure { s with length := s.length + 1 }

/-- skiplist.go:142-159 `Remove`. -/
def removeT (s : SkipList F) (x : F) : Timed (SkipList F) := do
  let prevs ← s.getPrevsT x
  let p ← free (idx prevs 0)
  match ← free (s.nextAt p 0) with
  | none => pure s
  | some n =>
    if s.valEq n x then do
      let s ← loopT (unlinkAt n prevs) s (List.range prevs.length)
      pure { s with length := s.length - 1 }
    else pure s

/-- skiplist.go:171-174: inner loop of `Select`. -/
def selWalkT (s : SkipList F) (k : Int) (i : Nat) : Nat → Option Nat → Int → Timed (Option Nat × Int)
  | 0, _, _ => free .hang
  | _ + 1, none, _ => free .panic
  | f + 1, some a, pos => do
    let w ← free (s.widthAt a i)
    if pos + w ≤ k then do
      tick
      let nx ← free (s.nextAt a i)
      selWalkT s k i f nx (pos + w)
    else pure (some a, pos)

/-- skiplist.go:170-175: levels `i-1` down to 0. -/
def selDownT (s : SkipList F) (k : Int) : Nat → Option Nat → Int → Timed (Option Nat)
  | 0, a, _ => pure a
  | i + 1, a, pos => do
    tick
    let r ← s.selWalkT k i (s.alloc + 1) a pos
    selDownT s k i r.1 r.2

/-- skiplist.go:162-178 `Select`. -/
def selectT (s : SkipList F) (k : Int) : Timed (Option F) :=
  if k < 0 ∨ k ≥ s.length then pure none
  else do
    match ← s.selDownT (k + 1) s.maxLevel (some 0) 0 with
    | none => free .panic
    | some a => pure (s.store a).val

/-- skiplist.go:185-188: inner loop of `Rank`. -/
def rankWalkT (s : SkipList F) (x : F) (i : Nat) : Nat → Nat → Int → Timed (Nat × Int)
  | 0, _, _ => free .hang
  | f + 1, a, rank => do
    match ← free (s.nextAt a i) with
    | none => pure (a, rank)
    | some n =>
      if s.valLt n x then do
        tick
        let w ← free (s.widthAt a i)
        rankWalkT s x i f n (rank + w)
      else pure (a, rank)

/-- skiplist.go:184-189. -/
def rankDownT (s : SkipList F) (x : F) : Nat → Nat → Int → Timed Int
  | 0, _, r => pure r
  | i + 1, a, r => do
    tick
    let p ← s.rankWalkT x i (s.alloc + 1) a r
    rankDownT s x i p.1 p.2

/-- skiplist.go:181-192 `Rank`. -/
def rankT (s : SkipList F) (x : F) : Timed Int := s.rankDownT x s.maxLevel 0 0

end Verif.Skip.SkipList
