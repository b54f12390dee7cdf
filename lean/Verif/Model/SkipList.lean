import Verif.Base
import Verif.Spec.Bag

/-!
# Model of `quantile/skiplist/skiplist.go`

Nodes live in a store and are referred to by address (`Nat`); `nil` is `none`; the head node has address 0. A slice is a total
function together with its length (`level` for both slices of a node) and every access is bounds-checked.
-/

namespace Verif.Skip
open Verif

variable {F : Type}

/-- skiplist.go:22-27 `type Node struct`. `val` is `none` for the head, whose value is never read. -/
structure SNode (F : Type) where
  level : Nat
  next : Nat → Option Nat
  width : Nat → Int
  val : Option F

/-- skiplist.go:50-58 `type SkipList struct`. `prevs` is a scratch buffer that `getPrevs` overwrites completely before every
use, so it is not part of the state. `rand`, `p` and `probs` are replaced by `draws`: the answer of the `n`-th call of
`randLevel` to the question `r < s.probs[level]`, arbitrary. `alloc` is the next free address. -/
structure SkipList (F : Type) where
  store : Nat → SNode F
  alloc : Nat
  maxLevel : Nat
  length : Int
  draws : Nat → Nat → Bool
  drawn : Nat

/-- skiplist.go:76-83 and 102-106: head node with nil successors and widths 1. -/
def headNode (maxLevel : Nat) : SNode F := ⟨maxLevel, fun _ => none, fun _ => 1, none⟩

/-- skiplist.go:61-93 `New`, after option processing (`Quant.skipNew`). -/
def new (maxLevel : Nat) (draws : Nat → Nat → Bool) : SkipList F :=
  ⟨fun _ => headNode maxLevel, 1, maxLevel, 0, draws, 0⟩

namespace SkipList

/-- `a.next[i]`. -/
def nextAt (s : SkipList F) (a i : Nat) : Go (Option Nat) :=
  if i < (s.store a).level then .val ((s.store a).next i) else .panic

/-- `a.width[i]`. -/
def widthAt (s : SkipList F) (a i : Nat) : Go Int :=
  if i < (s.store a).level then .val ((s.store a).width i) else .panic

/-- Overwrite the node at address `a`. -/
def upd (s : SkipList F) (a : Nat) (n : SNode F) : SkipList F := { s with store := Function.update s.store a n }

/-- `a.next[i] = p`. -/
def setNext (s : SkipList F) (a i : Nat) (p : Option Nat) : Go (SkipList F) :=
  if i < (s.store a).level then
    .val (s.upd a { s.store a with next := Function.update (s.store a).next i p })
  else .panic

/-- `a.width[i] += d`. -/
def addWidth (s : SkipList F) (a i : Nat) (d : Int) : Go (SkipList F) :=
  if i < (s.store a).level then
    .val (s.upd a { s.store a with width := Function.update (s.store a).width i ((s.store a).width i + d) })
  else .panic

/-- `prevs[i]` (index check of the slice). -/
def idx (l : List Nat) (i : Nat) : Go Nat :=
  match l[i]? with
  | some a => .val a
  | none => .panic

variable [GoOrd F]

/-- `n.val < val`; the head's zero value is never compared (`false` here). -/
def valLt (s : SkipList F) (a : Nat) (x : F) : Bool :=
  match (s.store a).val with
  | some v => v <ᵇ x
  | none => false

/-- skiplist.go:34-36 `equals`: by value. -/
def equals (s : SkipList F) : Option Nat → Option Nat → Bool
  | none, none => true
  | some a, some b =>
    match (s.store a).val, (s.store b).val with
    | some v, some w => v =ᵇ w
    | _, _ => false
  | _, _ => false

/-- skiplist.go:216-220: the inner loop of `getPrevs`. -/
def walk (s : SkipList F) (x : F) (i : Nat) : Nat → Nat → Go Nat
  | 0, _ => .hang
  | f + 1, prev => do
    match ← s.nextAt prev i with
    | none => pure prev
    | some n => if s.valLt n x then walk s x i f n else pure prev

/-- skiplist.go:215-222: the outer loop, for levels `i-1` down to 0; the result lists `prevs[0..i-1]`. -/
def prevsDown (s : SkipList F) (x : F) : Nat → Nat → Go (List Nat)
  | 0, _ => .val []
  | i + 1, prev => do
    let p ← s.walk x i (s.alloc + 1) prev
    let rest ← prevsDown s x i p
    pure (rest ++ [p])

/-- skiplist.go:209-225 `getPrevs`. -/
def getPrevs (s : SkipList F) (x : F) : Go (List Nat) := s.prevsDown x s.maxLevel 0

/-- skiplist.go:231-233: the loop of `randLevel`, `f` bounding `maxLevel - level`. -/
def levelLoop (maxLevel : Nat) (test : Nat → Bool) : Nat → Nat → Nat
  | 0, level => level
  | f + 1, level => if level < maxLevel ∧ test level = true then levelLoop maxLevel test f (level + 1) else level

/-- skiplist.go:228-235 `randLevel`. -/
def randLevel (s : SkipList F) : Nat := levelLoop s.maxLevel (s.draws s.drawn) s.maxLevel 1

/-- skiplist.go:121-124: link the new node `n` at level `i`. -/
def linkAt (n : Nat) (prevs : List Nat) (s : SkipList F) (i : Nat) : Go (SkipList F) := do
  let p ← idx prevs i
  let q ← s.nextAt p i
  let s ← s.setNext n i q
  s.setNext p i (some n)

/-- skiplist.go:128-130. -/
def bumpAt (prevs : List Nat) (s : SkipList F) (i : Nat) : Go (SkipList F) := do
  let p ← idx prevs i
  s.addWidth p i 1

/-- skiplist.go:132-134: sum of the widths at level `j = i-1` from `curr` up to a node that `equals` the target. (`node.width[i]`
is not read by the loop, so summing first and adding once is the same.) A nil `curr` that is not equal panics. -/
def sumWidth (s : SkipList F) (target : Option Nat) (j : Nat) : Nat → Option Nat → Int → Go Int
  | 0, _, _ => .hang
  | f + 1, curr, acc =>
    if s.equals curr target then .val acc
    else
      match curr with
      | none => .panic
      | some c => do
        let w ← s.widthAt c j
        let nx ← s.nextAt c j
        sumWidth s target j f nx (acc + w)

/-- skiplist.go:131-136. -/
def widthAtLevel (n : Nat) (prevs : List Nat) (s : SkipList F) (i : Nat) : Go (SkipList F) := do
  let target ← s.nextAt n i
  let w ← s.sumWidth target (i - 1) (s.alloc + 1) (some n) 0
  let s ← s.addWidth n i w
  let p ← idx prevs i
  let wn ← s.widthAt n i
  s.addWidth p i (-wn)

/-- `for i := 1; i < n; i++`. -/
def from1 (n : Nat) : List Nat := (List.range (n - 1)).map (· + 1)

/-- skiplist.go:112-139 `Add`. -/
def add (s : SkipList F) (x : F) : Go (SkipList F) := do
  let prevs ← s.getPrevs x
  let level := s.randLevel
  let n := s.alloc
  let s := { s.upd n ⟨level, fun _ => none, fun _ => 0, some x⟩ with alloc := n + 1, drawn := s.drawn + 1 }
  let s ← Go.runOps (linkAt n prevs) s (List.range level)
  let s ← s.addWidth n 0 1
  let s ← Go.runOps (bumpAt prevs) s (from1 s.maxLevel)
  let s ← Go.runOps (widthAtLevel n prevs) s (from1 level)
  pure { s with length := s.length + 1 }

/-- skiplist.go:147-154: unlink `n` at level `i`. -/
def unlinkAt (n : Nat) (prevs : List Nat) (s : SkipList F) (i : Nat) : Go (SkipList F) := do
  let p ← idx prevs i
  if i < (s.store n).level then do
    let q ← s.nextAt n i
    let s ← s.setNext p i q
    let w ← s.widthAt n i
    s.addWidth p i (w - 1)
  else s.addWidth p i (-1)

/-- `node.val == val`. -/
def valEq (s : SkipList F) (a : Nat) (x : F) : Bool :=
  match (s.store a).val with
  | some v => v =ᵇ x
  | none => false

/-- skiplist.go:142-159 `Remove`. -/
def remove (s : SkipList F) (x : F) : Go (SkipList F) := do
  let prevs ← s.getPrevs x
  let p ← idx prevs 0
  match ← s.nextAt p 0 with
  | none => pure s
  | some n =>
    if s.valEq n x then do
      let s ← Go.runOps (unlinkAt n prevs) s (List.range prevs.length)
      pure { s with length := s.length - 1 }
    else pure s

/-- skiplist.go:171-174: inner loop of `Select`; a nil node panics. -/
def selWalk (s : SkipList F) (k : Int) (i : Nat) : Nat → Option Nat → Int → Go (Option Nat × Int)
  | 0, _, _ => .hang
  | _ + 1, none, _ => .panic
  | f + 1, some a, pos => do
    let w ← s.widthAt a i
    if pos + w ≤ k then do
      let nx ← s.nextAt a i
      selWalk s k i f nx (pos + w)
    else pure (some a, pos)

/-- skiplist.go:170-175: levels `i-1` down to 0. -/
def selDown (s : SkipList F) (k : Int) : Nat → Option Nat → Int → Go (Option Nat)
  | 0, a, _ => .val a
  | i + 1, a, pos => do
    let r ← s.selWalk k i (s.alloc + 1) a pos
    selDown s k i r.1 r.2

/-- skiplist.go:162-178 `Select`; `none` is the nil node. The result is the node's value: the head's zero value would be returned
as `none` too (it is proved not to happen where it matters). -/
def select (s : SkipList F) (k : Int) : Go (Option F) :=
  if k < 0 ∨ k ≥ s.length then .val none
  else do
    match ← s.selDown (k + 1) s.maxLevel (some 0) 0 with
    | none => .panic
    | some a => pure (s.store a).val

/-- skiplist.go:185-188: inner loop of `Rank`. -/
def rankWalk (s : SkipList F) (x : F) (i : Nat) : Nat → Nat → Int → Go (Nat × Int)
  | 0, _, _ => .hang
  | f + 1, a, rank => do
    match ← s.nextAt a i with
    | none => pure (a, rank)
    | some n =>
      if s.valLt n x then do
        let w ← s.widthAt a i
        rankWalk s x i f n (rank + w)
      else pure (a, rank)

/-- skiplist.go:184-189. -/
def rankDown (s : SkipList F) (x : F) : Nat → Nat → Int → Go Int
  | 0, _, r => .val r
  | i + 1, a, r => do
    let p ← s.rankWalk x i (s.alloc + 1) a r
    rankDown s x i p.1 p.2

/-- skiplist.go:181-192 `Rank`. -/
def rank (s : SkipList F) (x : F) : Go Int := s.rankDown x s.maxLevel 0 0

/-- skiplist.go:96-98 `Size`. -/
def size (s : SkipList F) : Int := s.length

/-- skiplist.go:101-109 `Clear`. -/
def clear (s : SkipList F) : SkipList F :=
  { s.upd 0 { s.store 0 with next := fun _ => none, width := fun _ => 1, level := s.maxLevel } with length := 0 }

/-- One client operation. -/
def step (s : SkipList F) : Spec.OSOp F → Go (SkipList F)
  | .add x => s.add x
  | .remove x => s.remove x
  | .clear => .val s.clear

/-- A client history on a new list. -/
def run (maxLevel : Nat) (draws : Nat → Nat → Bool) (ops : List (Spec.OSOp F)) : Go (SkipList F) :=
  Go.runOps step (new maxLevel draws) ops

end SkipList
end Verif.Skip
