import Mathlib.Data.List.Forall2

/-! # What the strings of the order statistics ought to look like -/

namespace Verif.Spec

/-- One line of a tree drawing: `4 d + 1` characters of branches (`d` the depth), `── `, the value, a newline. -/
def TreeLine {F : Type} (fmt : F → List Char) (e : Nat × F) (line : List Char) : Prop :=
  ∃ branches : List Char, branches.length = 4 * e.1 + 1 ∧ (∀ c ∈ branches, c ∈ ['│', ' ', '└', '┌']) ∧
    line = branches ++ ['─', '─', ' '] ++ fmt e.2 ++ ['\n']

/-- The drawing consists of one line for each entry (depth, value), in order. -/
def TreeDrawing {F : Type} (fmt : F → List Char) (es : List (Nat × F)) (s : List Char) : Prop :=
  ∃ lines : List (List Char), List.Forall₂ (TreeLine fmt) es lines ∧ s = lines.flatten

/-- One line of the drawing of a skip list: every stored value takes one dash, and is printed if it is present on the level. -/
def skipLine {F : Type} (fmt : F → List Char) (vals : List (F × Bool)) : List Char :=
  "head".toList ++ vals.flatMap (fun v => '-' :: if v.2 then fmt v.1 else []) ++ "-tail\n".toList

/-- The bottom line: all the values. -/
def skipBottom {F : Type} (fmt : F → List Char) (xs : List F) : List Char :=
  "head".toList ++ xs.flatMap (fun v => '-' :: fmt v) ++ "-tail\n".toList

end Verif.Spec
