import Verif.Model.Avl
import Verif.Model.Rb
import Verif.Model.SkipList

/-!
# Model of the `String` methods of the order statistics

avl/node.go:74-79 and 250-280, avl/tree.go:42-45, the same code in rb/node.go:85-91 and 296-326 and rb/tree.go, and
skiplist.go:38-46 and 195-206. A string is a `List Char`. The formatting of a `float64` (`%f` for the trees, `FormatFloat(·, 'e', 9, 64)`
for the skip list) is a parameter `fmt`.
-/

namespace Verif
open Verif

variable {F : Type}

namespace Avl

/-- `n != nil`. -/
def Node.present : Node F → Bool
  | .nil => false
  | .node .. => true

/-- avl/node.go:250-280 `treeString`; the receiver is dereferenced. -/
def Node.treeString (fmt : F → List Char) : Node F → List Char → List Char → Bool → Go (List Char)
  | .nil, _, _, _ => .panic
  | .node l v r _ _, pre, result, isTail =>
    if isTail then
      (if r.present then r.treeString fmt (pre ++ "│   ".toList) result false else pure result) >>= fun result =>
      let result := result ++ pre ++ "└── ".toList ++ fmt v ++ "\n".toList
      if l.present then l.treeString fmt (pre ++ "    ".toList) result true else pure result
    else
      (if r.present then r.treeString fmt (pre ++ "    ".toList) result false else pure result) >>= fun result =>
      let result := result ++ pre ++ "┌── ".toList ++ fmt v ++ "\n".toList
      if l.present then l.treeString fmt (pre ++ "│   ".toList) result true else pure result

/-- avl/node.go:74-79 `TreeString`. -/
def Node.string (fmt : F → List Char) (n : Node F) : Go (List Char) :=
  if n.present then n.treeString fmt [] [] true else .val []

/-- avl/tree.go:42-45 `String`. -/
def Tree.string (fmt : F → List Char) (t : Tree F) : Go (List Char) := t.root.string fmt

end Avl

namespace Rb

/-- `n != nil`. -/
def Node.present : Node F → Bool
  | .nil => false
  | .node .. => true

/-- rb/node.go:296-326 `treeString`; the receiver is dereferenced. -/
def Node.treeString (fmt : F → List Char) : Node F → List Char → List Char → Bool → Go (List Char)
  | .nil, _, _, _ => .panic
  | .node l v r _ _, pre, result, isTail =>
    if isTail then
      (if r.present then r.treeString fmt (pre ++ "│   ".toList) result false else pure result) >>= fun result =>
      let result := result ++ pre ++ "└── ".toList ++ fmt v ++ "\n".toList
      if l.present then l.treeString fmt (pre ++ "    ".toList) result true else pure result
    else
      (if r.present then r.treeString fmt (pre ++ "    ".toList) result false else pure result) >>= fun result =>
      let result := result ++ pre ++ "┌── ".toList ++ fmt v ++ "\n".toList
      if l.present then l.treeString fmt (pre ++ "│   ".toList) result true else pure result

/-- rb/node.go:86-91 `TreeString`. -/
def Node.string (fmt : F → List Char) (n : Node F) : Go (List Char) :=
  if n.present then n.treeString fmt [] [] true else .val []

/-- rb/tree.go `String`. -/
def Tree.string (fmt : F → List Char) (t : Tree F) : Go (List Char) := t.root.string fmt

end Rb

namespace Skip

/-- `strings.Repeat("-", n)`: panics on a negative count. -/
def dashes (n : Int) : Go (List Char) := if n < 0 then .panic else .val (List.replicate n.toNat '-')

namespace SkipList

/-- skiplist.go:38-46 `string` on a node that is not nil. -/
def nodeString (fmt : F → List Char) (s : SkipList F) (a : Nat) : List Char :=
  match (s.store a).val with
  | none => "head".toList
  | some v => fmt v

/-- skiplist.go:198-203: the inner loop of `String`, with the line end that follows it. -/
def stringLine (fmt : F → List Char) (s : SkipList F) (i : Nat) : Nat → Option Nat → List Char → Go (List Char)
  | _, none, result => .val (result ++ "tail".toList ++ "\n".toList)
  | 0, some _, _ => .hang
  | f + 1, some a, result => do
    let w ← s.widthAt a i
    let d ← dashes w
    let result := result ++ (s.nodeString fmt a ++ d)
    let n ← s.nextAt a i
    stringLine fmt s i f n result

/-- skiplist.go:197: the outer loop, from level `i - 1` down to level 0. The fuel is one more than the number of nodes ever
allocated; running out of it would be a cycle (`hang`). -/
def stringDown (fmt : F → List Char) (s : SkipList F) : Nat → List Char → Go (List Char)
  | 0, result => .val result
  | i + 1, result => do
    let result ← s.stringLine fmt i (s.alloc + 1) (some 0) result
    stringDown fmt s i result

/-- skiplist.go:195-206 `String`. -/
def string (fmt : F → List Char) (s : SkipList F) : Go (List Char) := s.stringDown fmt s.maxLevel []

end SkipList
end Skip
end Verif
