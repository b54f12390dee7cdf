import Verif.Spec.Window
import Mathlib.Tactic.SplitIfs
import Mathlib.Data.List.Infix

/-! # Facts about the last-`w` window -/

namespace Verif.Spec
variable {F : Type}

@[simp] theorem since_nil : since ([] : List (MOp F)) = [] := rfl

@[simp] theorem since_push (ops : List (MOp F)) (x : F) : since (ops ++ [.push x]) = since ops ++ [x] := by
  simp [since]

@[simp] theorem since_clear (ops : List (MOp F)) : since (ops ++ [.clear]) = ([] : List F) := by
  simp [since]

theorem lastN_zero (xs : List F) : lastN 0 xs = xs := by simp [lastN]

theorem lastN_length_le {w : Nat} (hw : w ≠ 0) (xs : List F) : (lastN w xs).length ≤ w := by
  simp only [lastN, if_neg hw, List.length_drop]; omega

theorem lastN_length (w : Nat) (xs : List F) :
    (lastN w xs).length = if w = 0 then xs.length else min xs.length w := by
  unfold lastN; split_ifs
  · rfl
  · rw [List.length_drop]; omega

@[simp] theorem lastN_nil (w : Nat) : lastN w ([] : List F) = [] := by simp [lastN]

theorem lastN_snoc_full {w : Nat} (hw : w ≠ 0) (xs : List F) (x : F) (h : (lastN w xs).length = w) :
    lastN w (xs ++ [x]) = (lastN w xs).tail ++ [x] := by
  simp only [lastN, if_neg hw, List.length_drop] at h ⊢
  rw [List.tail_drop, List.drop_append_of_le_length (by simp; omega)]
  congr 2
  simp; omega

theorem lastN_snoc_room {w : Nat} (hw : w ≠ 0) (xs : List F) (x : F) (h : (lastN w xs).length ≠ w) :
    lastN w (xs ++ [x]) = lastN w xs ++ [x] := by
  simp only [lastN, if_neg hw, List.length_drop] at h ⊢
  have h1 : xs.length - w = 0 := by omega
  have h2 : (xs ++ [x]).length - w = 0 := by simp; omega
  rw [h1, h2]; simp

theorem lastN_ne_nil {w : Nat} {xs : List F} (h : xs ≠ []) : lastN w xs ≠ [] := by
  intro c
  have := lastN_length w xs
  rw [c] at this
  have hx := List.length_pos_iff.2 h
  split_ifs at this <;> simp at this <;> omega

theorem windowOf_clear (w : Nat) (ops : List (MOp F)) : windowOf w (ops ++ [.clear]) = ([] : List F) := by
  simp [windowOf]

theorem windowOf_push (w : Nat) (ops : List (MOp F)) (x : F) :
    windowOf w (ops ++ [.push x]) = lastN w (since ops ++ [x]) := by
  simp [windowOf]

end Verif.Spec
