import Verif.Base

/-!
# Model of `quantile/ost/avl` (node.go, tree.go)

A pointer to a `Node` is a value of `Node F`; `nil` is the nil pointer.  The code owns each node through
exactly one pointer, so in-place mutation is modelled by returning the new value.  Dereferencing nil is
`Go.panic`.  Go's `int` fields are unbounded `Int`.
-/

namespace Verif.Avl
open Verif


variable {F : Type}

/-- node.go:12-18 `type Node struct { left, right *Node; val float64; height, size int }`; `nil` is the nil pointer. -/
inductive Node (F : Type) where
  | nil
  | node (left : Node F) (val : F) (right : Node F) (height : Int) (size : Int)
  deriving DecidableEq, Repr

namespace Node

/-- node.go:20-25 `max`. -/
def gmax (x y : Int) : Int := if x > y then x else y

/-- node.go:28-34 `NewNode`. -/
def newNode (v : F) : Node F := node nil v nil 0 1

/-- node.go:53-58 `Height`. -/
def height : Node F → Int
  | nil => -1
  | node _ _ _ h _ => h

/-- node.go:61-66 `Size`. -/
def size : Node F → Int
  | nil => 0
  | node _ _ _ _ s => s

/-- node.go:167-169 `heightDiff`; the receiver is dereferenced. -/
def heightDiff : Node F → Go Int
  | nil => .panic
  | node l _ r _ _ => .val (l.height - r.height)

/-- node.go:171-185 `rotateLeft`; `n.right` is dereferenced. -/
def rotateLeft : Node F → Go (Node F)
  | node l v (node rl rv rr _ _) _ s =>
    let n := node l v rl (gmax l.height rl.height + 1) (l.size + rl.size + 1)
    .val (node n rv rr (gmax n.height rr.height + 1) s)
  | _ => .panic

/-- node.go:187-201 `rotateRight`; `n.left` is dereferenced. -/
def rotateRight : Node F → Go (Node F)
  | node (node ll lv lr _ _) v r _ s =>
    let n := node lr v r (gmax lr.height r.height + 1) (lr.size + r.size + 1)
    .val (node ll lv n (gmax ll.height n.height + 1) s)
  | _ => .panic

/-- node.go:147-165 `balance`. -/
def balance : Node F → Go (Node F)
  | nil => .panic
  | node l v r h s =>
    if l.height - r.height < -1 then do
      let d ← r.heightDiff
      let r' ← if d > 0 then r.rotateRight else pure r
      rotateLeft (node l v r' h s)
    else if l.height - r.height > 1 then do
      let d ← l.heightDiff
      let l' ← if d < 0 then l.rotateLeft else pure l
      rotateRight (node l' v r h s)
    else
      pure (node l v r h s)

/-- node.go:90-92 (also 119-121, 138-140): recompute `size` and `height`, then `balance`. -/
def fixup (l : Node F) (v : F) (r : Node F) : Go (Node F) :=
  balance (node l v r (gmax l.height r.height + 1) (l.size + r.size + 1))

/-- node.go:81-93 `add`. -/
def add [GoOrd F] : Node F → F → Go (Node F)
  | nil, x => .val (newNode x)
  | node l v r _ _, x =>
    if x ≤ᵇ v then do
      let l' ← add l x
      fixup l' v r
    else do
      let r' ← add r x
      fixup l v r'

/-- node.go:124-130 `min`; only the value of the returned node is used by the caller (node.go:114-116
overwrites both children), so the value is returned. The receiver is dereferenced. -/
def min : Node F → Go F
  | nil => .panic
  | node l v _ _ _ =>
    match l with
    | nil => .val v
    | node .. => min l

/-- node.go:132-141 `removeMin`. The receiver is dereferenced. -/
def removeMin : Node F → Go (Node F)
  | nil => .panic
  | node l v r _ _ =>
    match l with
    | nil => .val r
    | node .. => do
      let l' ← removeMin l
      fixup l' v r

/-- node.go:95-122 `remove`. -/
def remove [GoOrd F] : Node F → F → Go (Node F)
  | nil, _ => .val nil
  | node l v r _ _, x =>
    if x <ᵇ v then do
      let l' ← remove l x
      fixup l' v r
    else if v <ᵇ x then do
      let r' ← remove r x
      fixup l v r'
    else
      match l, r with
      | nil, _ => .val r
      | _, nil => .val l
      | _, _ => do
        let m ← min r
        let r' ← removeMin r
        fixup l m r'

/-- node.go:209-222 `Select`; `none` is the nil `order.Node`, `some v` a node whose `Value()` is `v`. -/
def select : Node F → Int → Option F
  | nil, _ => none
  | node l v r _ _, k =>
    if k < l.size then select l k
    else if k > l.size then select r (k - l.size - 1)
    else some v

/-- node.go:226-235 `Rank`. -/
def rank [GoOrd F] : Node F → F → Int
  | nil, _ => 0
  | node l v r _ _, x =>
    if x <ᵇ v then rank l x
    else if v <ᵇ x then 1 + l.size + rank r x
    else l.size

end Node

/-- tree.go:8-10 `type Tree struct { root *Node }`. -/
structure Tree (F : Type) where
  root : Node F
  deriving DecidableEq, Repr

namespace Tree

/-- The zero value `avl.Tree{}` (impl.go:40). -/
def empty : Tree F := ⟨.nil⟩

/-- tree.go:13-15 `Size`. -/
def size (t : Tree F) : Int := t.root.size

/-- tree.go:18-20 `Height`. -/
def height (t : Tree F) : Int := t.root.height

/-- tree.go:23-25 `Add`. -/
def add [GoOrd F] (t : Tree F) (x : F) : Go (Tree F) := do
  let r ← t.root.add x
  pure ⟨r⟩

/-- tree.go:28-30 `Remove`. -/
def remove [GoOrd F] (t : Tree F) (x : F) : Go (Tree F) := do
  let r ← t.root.remove x
  pure ⟨r⟩

/-- tree.go:33-35 `Select`. -/
def select (t : Tree F) (k : Int) : Option F := t.root.select k

/-- tree.go:38-40 `Rank`. -/
def rank [GoOrd F] (t : Tree F) (x : F) : Int := t.root.rank x

/-- tree.go:48-50 `Clear`. -/
def clear (_ : Tree F) : Tree F := empty

end Tree
end Verif.Avl
