import Verif.Base

/-!
# Model of `quantile/ost/rb` (node.go, tree.go)

As for the AVL tree: `nil` is the nil pointer, dereferencing it is `Go.panic`, `int` is `Int`.
`Color` is a Boolean, `true` = Red (node.go:12-18).
`remove` and `removeMin` recurse on restructured trees, so the model gives them fuel; running out of fuel is `Go.hang`
and the callers supply the number of nodes plus one.
-/

namespace Verif.Rb
open Verif

variable {F : Type}

/-- node.go:30-36 `type Node struct`. -/
inductive Node (F : Type) where
  | nil
  | node (left : Node F) (val : F) (right : Node F) (color : Bool) (size : Int)
  deriving DecidableEq, Repr

namespace Node

/-- node.go:39-45 `NewNode`: a red leaf. -/
def newNode (v : F) : Node F := node nil v nil true 1

/-- node.go:64-69 `Size`. -/
def size : Node F → Int
  | nil => 0
  | node _ _ _ _ s => s

/-- node.go:78-83 `Color`: nil is black. -/
def color : Node F → Bool
  | nil => false
  | node _ _ _ c _ => c

/-- The test `n == nil`. -/
def isNil : Node F → Bool
  | nil => true
  | node .. => false

/-- The field access `n.left`. -/
def leftG : Node F → Go (Node F)
  | nil => .panic
  | node l _ _ _ _ => .val l

/-- The condition `n.left.Color() == Red && n.left.left.Color() == Red` (node.go:176, 191) for `n.left = l`. -/
def redRed : Node F → Bool
  | node ll _ _ true _ => ll.color
  | _ => false

/-- The condition `n.left.Color() == Black && n.left.left.Color() == Black` (node.go:110, 140; 121 with `n.right`), for the
child `l`; a nil child is black and is then dereferenced. -/
def blackBlack (l : Node F) : Go Bool :=
  if l.color then .val false
  else do
    let ll ← l.leftG
    pure (!ll.color)

/-- node.go:202-211 `rotateLeft`. -/
def rotateLeft : Node F → Go (Node F)
  | node l v (node rl rv rr _ _) c s =>
    .val (node (node l v rl true (l.size + rl.size + 1)) rv rr c s)
  | _ => .panic

/-- node.go:213-222 `rotateRight`. -/
def rotateRight : Node F → Go (Node F)
  | node (node ll lv lr _ _) v r c s =>
    .val (node ll lv (node lr v r true (lr.size + r.size + 1)) c s)
  | _ => .panic

/-- node.go:224-228 `flipColors`. -/
def flipColors : Node F → Go (Node F)
  | node (node ll lv lr lc ls) v (node rl rv rr rc rs) c s =>
    .val (node (node ll lv lr (!lc) ls) v (node rl rv rr (!rc) rs) (!c) s)
  | _ => .panic

/-- node.go:230-238 `moveRedLeft`. -/
def moveRedLeft (n : Node F) : Go (Node F) := do
  let n ← n.flipColors
  match n with
  | nil => .panic
  | node l v r c s => do
    let rl ← r.leftG
    if rl.color then do
      let r' ← r.rotateRight
      let n ← rotateLeft (node l v r' c s)
      n.flipColors
    else pure n

/-- node.go:240-247 `moveRedRight`. -/
def moveRedRight (n : Node F) : Go (Node F) := do
  let n ← n.flipColors
  match n with
  | nil => .panic
  | node l _ _ _ _ => do
    let ll ← l.leftG
    if ll.color then do
      let n ← n.rotateRight
      n.flipColors
    else pure n

/-- node.go:183 / 198: `n.size = n.left.Size() + n.right.Size() + 1`. -/
def resize : Node F → Go (Node F)
  | nil => .panic
  | node l v r c _ => .val (node l v r c (l.size + r.size + 1))

/-- node.go:176-184 and 191-199: the common tail of `addBalance` and `removeBalance`. -/
def balanceTail (n : Node F) : Go (Node F) := do
  let n ← (match n with
    | nil => .panic
    | node l _ _ _ _ => if l.redRed then n.rotateRight else .val n : Go (Node F))
  let n ← (match n with
    | nil => .panic
    | node l _ r _ _ => if l.color && r.color then n.flipColors else .val n : Go (Node F))
  n.resize

/-- node.go:172-185 `addBalance`. -/
def addBalance : Node F → Go (Node F)
  | nil => .panic
  | n@(node l _ r _ _) => do
    let n ← (if !l.color && r.color then n.rotateLeft else .val n : Go (Node F))
    n.balanceTail

/-- node.go:187-200 `removeBalance`. -/
def removeBalance : Node F → Go (Node F)
  | nil => .panic
  | n@(node _ _ r _ _) => do
    let n ← (if r.color then n.rotateLeft else .val n : Go (Node F))
    n.balanceTail

/-- node.go:93-102 `add`. -/
def add [GoOrd F] : Node F → F → Go (Node F)
  | nil, x => .val (newNode x)
  | node l v r c s, x =>
    if x ≤ᵇ v then do
      let l' ← add l x
      addBalance (node l' v r c s)
    else do
      let r' ← add r x
      addBalance (node l v r' c s)

/-- node.go:155-166 `contains`. -/
def contains [GoOrd F] : Node F → F → Bool
  | nil, _ => false
  | node l v r _ _, x =>
    if x =ᵇ v then true
    else if x <ᵇ v then contains l x
    else contains r x

/-- node.go:148-153 `min`; the caller uses only the value (node.go:125-126). -/
def min : Node F → Go F
  | nil => .panic
  | node l v _ _ _ =>
    match l with
    | nil => .val v
    | node .. => min l

/-- node.go:136-146 `removeMin`. -/
def removeMin : Nat → Node F → Go (Node F)
  | 0, _ => .hang
  | fuel + 1, n =>
    match n with
    | nil => .panic
    | node nil _ _ _ _ => .val nil
    | node l@(node ..) _ _ _ _ => do
      let bb ← l.blackBlack
      let n ← (if bb then n.moveRedLeft else .val n : Go (Node F))
      match n with
      | nil => .panic
      | node l v r c s => do
        let l' ← removeMin fuel l
        removeBalance (node l' v r c s)

/-- node.go:104-134 `remove`. -/
def remove [GoOrd F] : Nat → Node F → F → Go (Node F)
  | 0, _, _ => .hang
  | fuel + 1, n, x =>
    if !n.contains x then .val n
    else
      match n with
      | nil => .panic
      | node l v _ _ _ =>
        if x <ᵇ v then do
          let bb ← l.blackBlack
          let n ← (if bb then n.moveRedLeft else .val n : Go (Node F))
          match n with
          | nil => .panic
          | node l v r c s => do
            let l' ← remove fuel l x
            removeBalance (node l' v r c s)
        else do
          let n ← (if l.color then n.rotateRight else .val n : Go (Node F))
          match n with
          | nil => .panic
          | node _ v r _ _ =>
            if (x =ᵇ v) && r.isNil then .val nil
            else do
              let bb ← r.blackBlack
              let n ← (if bb then n.moveRedRight else .val n : Go (Node F))
              match n with
              | nil => .panic
              | node l v r c s =>
                if x =ᵇ v then do
                  let m ← r.min
                  let r' ← removeMin fuel r
                  removeBalance (node l m r' c s)
                else do
                  let r' ← remove fuel r x
                  removeBalance (node l v r' c s)

/-- Number of nodes (only used to supply fuel). -/
def nodes : Node F → Nat
  | nil => 0
  | node l _ r _ _ => nodes l + nodes r + 1

/-- node.go:255-268 `Select`. -/
def select : Node F → Int → Option F
  | nil, _ => none
  | node l v r _ _, k =>
    if k < l.size then select l k
    else if k > l.size then select r (k - l.size - 1)
    else some v

/-- node.go:272-281 `Rank`. -/
def rank [GoOrd F] : Node F → F → Int
  | nil, _ => 0
  | node l v r _ _, x =>
    if x <ᵇ v then rank l x
    else if v <ᵇ x then 1 + l.size + rank r x
    else l.size

end Node

/-- tree.go:8-10 `type Tree struct { root *Node }`. -/
structure Tree (F : Type) where
  root : Node F
  deriving DecidableEq, Repr

namespace Tree

/-- The zero value `rb.Tree{}` (impl.go). -/
def empty : Tree F := ⟨.nil⟩

/-- tree.go `Size`. -/
def size (t : Tree F) : Int := t.root.size

/-- tree.go `Add`. -/
def add [GoOrd F] (t : Tree F) (x : F) : Go (Tree F) := do
  let r ← t.root.add x
  pure ⟨r⟩

/-- tree.go `Remove`. -/
def remove [GoOrd F] (t : Tree F) (x : F) : Go (Tree F) := do
  let r ← t.root.remove (t.root.nodes + 1) x
  pure ⟨r⟩

/-- tree.go `Select`. -/
def select (t : Tree F) (k : Int) : Option F := t.root.select k

/-- tree.go `Rank`. -/
def rank [GoOrd F] (t : Tree F) (x : F) : Int := t.root.rank x

/-- tree.go `Clear`. -/
def clear (_ : Tree F) : Tree F := empty

end Tree
end Verif.Rb
