import Verif.Proofs.Avl
import Mathlib.Order.Fin.Basic

/-! # C01–C05: the AVL order statistic tree -/

namespace Verif.Props
open Verif Verif.Spec

variable {F : Type} [LinearOrder F]

/-- C01. After any history the tree answers `Size` and `Select` exactly like the multiset of live values
(one occurrence deleted per `Remove` of a present value, nothing for an absent one). -/
theorem C01_avl_contents (ops : List (OSOp F)) :
    ∃ t, Avl.Tree.run ops = .val t ∧ Describes t.size t.select (bag ops) := by
  obtain ⟨t, e, i⟩ := Avl.Tree.run_inv ops
  exact ⟨t, e, i.size, i.select⟩

/-- The multiset semantics really deletes one occurrence and ignores absent values. -/
example : bag [OSOp.add 3, .add (1 : ℤ), .add 3, .remove 3, .remove 7] = {1, 3} := by decide

/-- C02. `Select k` is a value occurring in the tree with at most `k` smaller and more than `k`
smaller-or-equal values when `0 ≤ k < Size()`, and nil for every other integer. -/
theorem C02_avl_select (ops : List (OSOp F)) (t : Avl.Tree F) (h : Avl.Tree.run ops = .val t) (k : Int) :
    (0 ≤ k → k < t.size → ∃ v, t.select k = some v ∧ IsKth (bag ops) k.toNat v) ∧
    (k < 0 ∨ t.size ≤ k → t.select k = none) := by
  have i := Avl.Tree.run_of_val h
  constructor
  · intro h0 hk
    obtain ⟨v, e, hv⟩ := kth_isKth (bag ops) h0 (by rw [← i.size]; exact hk)
    exact ⟨v, by rw [i.select, e], hv⟩
  · intro hk
    rw [i.select]; exact kth_out _ (by rw [← i.size]; exact hk)

example : (do let t ← Avl.Tree.run [OSOp.add 3, .add (1 : ℤ), .add 3, .remove 3, .add 2]
              pure (t.select 1, t.select (-1), t.select 3)) = .val (some 2, none, none) := by decide

/-- C03, refuted as stated: with the same value stored twice `Rank` of that value is not the number of strictly
smaller values (`avl.Tree{}`; Add(1); Add(1); Rank(1) = 1). -/
theorem C03_avl_rank_refuted :
    ¬ ∀ (ops : List (OSOp ℤ)) (t : Avl.Tree ℤ), Avl.Tree.run ops = .val t →
      ∀ x, t.rank x = rankOf (bag ops) x := by
  intro h
  have := h [.add 1, .add 1] _ rfl 1
  revert this; decide

/-- C03, what holds: `Rank` is exact for every value stored at most once (in particular for absent values), and for any
value it never undercounts and overcounts by less than the number of stored copies.
Missing for the full statement: exactness for values stored more than once, which is false. -/
theorem C03_avl_rank_partial (ops : List (OSOp F)) (t : Avl.Tree F) (h : Avl.Tree.run ops = .val t) (x : F) :
    ((bag ops).count x ≤ 1 → t.rank x = rankOf (bag ops) x) ∧
    (rankOf (bag ops) x : Int) ≤ t.rank x ∧
    (x ∈ bag ops → t.rank x < rankOf (bag ops) x + (bag ops).count x) := by
  have i := (Avl.Tree.run_of_val h).rank x
  refine ⟨fun hc => ?_, i.1, fun hm => ?_⟩
  · omega
  · have := Multiset.one_le_count_iff_mem.2 hm; omega

/-- C03, second half: `Select(Rank(v))` has value `v` whenever `v` is stored, duplicates or not. -/
theorem C03_avl_select_rank_partial (ops : List (OSOp F)) (t : Avl.Tree F) (h : Avl.Tree.run ops = .val t) (x : F)
    (hx : x ∈ bag ops) : t.select (t.rank x) = some x := by
  have i := Avl.Tree.run_of_val h
  have hr := i.rank x
  have h1 := Multiset.one_le_count_iff_mem.2 hx
  have hle : (rankOf (bag ops) x) + (bag ops).count x = ((bag ops).filter (· ≤ x)).card := by
    rw [rankOf, Multiset.count, Multiset.countP_eq_card_filter, ← Multiset.card_add]
    congr 1
    rw [Multiset.filter_add_filter]
    have : (bag ops).filter (fun a => a < x ∧ x = a) = 0 :=
      Multiset.filter_eq_nil.2 (fun a _ h => absurd h.1 (not_lt.2 h.2.le))
    rw [this, add_zero]
    exact Multiset.filter_congr (fun a _ => by rw [le_iff_lt_or_eq, eq_comm (a := x)])
  have hk : IsKth (bag ops) (t.rank x).toNat x :=
    ⟨hx, by have := hr.1; unfold rankOf at *; omega, by rw [← hle]; omega⟩
  have hlt : ((bag ops).filter (· ≤ x)).card ≤ (bag ops).card := Multiset.card_le_card (Multiset.filter_le _ _)
  obtain ⟨v, e, hv⟩ := kth_isKth (bag ops) (k := t.rank x) (by omega) (by omega)
  rw [i.select, e, IsKth.unique hv hk]

example : 2 ∈ bag [OSOp.add (1 : ℤ), .add 2, .add 2, .add 2] ∧
    (do let t ← Avl.Tree.run [OSOp.add (1 : ℤ), .add 2, .add 2, .add 2]
        pure (t.rank 2, t.rank 3)) = .val (2, 4) := by decide

/-- C04. No history panics or hangs. (`Select`, `Rank`, `Size`, `Height` are total functions of the model: none of them
contains a dereference that is not guarded by a nil check in the code.) -/
theorem C04_avl_no_panic (ops : List (OSOp F)) : ∃ t, Avl.Tree.run ops = .val t := by
  obtain ⟨t, e, -⟩ := Avl.Tree.run_inv ops
  exact ⟨t, e⟩

/-- C05. `Height()` is the real height, every node is balanced, and `Size()+1 ≥ Fib(Height()+3)`. -/
theorem C05_avl_balanced (ops : List (OSOp F)) (t : Avl.Tree F) (h : Avl.Tree.run ops = .val t) :
    t.height = t.root.realHeight ∧ t.root.Balanced ∧
    (Nat.fib (t.height + 3).toNat : Int) ≤ t.size + 1 := by
  have i := Avl.Tree.run_of_val h
  refine ⟨i.wf.height_eq, i.wf.balanced, ?_⟩
  rw [i.size, ← i.content, Multiset.coe_card]
  exact_mod_cast i.wf.fib_le

example : (do let t ← Avl.Tree.run (((List.range 12).map fun i : ℕ => OSOp.add (i : ℤ)) ++ [OSOp.remove 3, OSOp.remove 5])
              pure (t.height, t.size)) = .val (3, 10) := by decide

end Verif.Props
