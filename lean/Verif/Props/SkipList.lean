import Verif.Proofs.SkipRun
import Mathlib.Algebra.Order.Ring.Int

/-! # C11–C13: the skip list

`draws` ranges over all outcomes of the level generator, `M` over all maximum levels `≥ 1` (option.go accepts 1..64). -/

namespace Verif.Props
open Verif Verif.Spec Verif.Skip

variable {F : Type} [LinearOrder F] [Nonempty F]

/-- C11. Whatever levels are drawn: level 0 is the sorted list of the live multiset, each level is a sublist of the one below, and
`Size` is the number of live values. (`level s i` lists the values met by following the level-`i` pointers from the head.) -/
theorem C11_skip_contents (M : Nat) (hM : 0 < M) (draws : Nat → Nat → Bool) (ops : List (OSOp F)) :
    ∃ s, SkipList.run M draws ops = .val s ∧ (level s 0).Pairwise (· ≤ ·) ∧ ((level s 0 : List F) : Multiset F) = bag ops ∧
      (∀ i, i + 1 < M → (level s (i + 1)).Sublist (level s i)) ∧ s.size = (bag ops).card := by
  obtain ⟨s, e, h⟩ := run_rep hM draws ops
  have hs := skip_size h
  obtain ⟨rfl, A, V, h1, h2⟩ := h
  refine ⟨s, e, ?_, ?_, fun i hi => level_sublist h1.links hi, hs⟩
  · rw [level_zero h1.links]; exact h1.links.sorted
  · rw [level_zero h1.links, h2]

example : (do let s ← SkipList.run 3 (fun n i => n % 2 == 0 && i ≤ 2) [OSOp.add (5 : ℤ), .add 3, .add 4, .add 3, .remove 3, .add 9]
              pure (level s 0, level s 1, level s 2, s.size)) = .val ([3, 4, 5, 9], [4, 5, 9], [4, 5, 9], 4) := by decide

/-- C12, refuted as stated: Add 5 (two levels), Add 5 (one level), Add 3 (two levels); then `Select(1)` is 3 although the second
smallest value is 5, and `Rank(4)` is 2 although only one value is smaller than 4. -/
theorem C12_skip_select_rank_refuted :
    ∃ draws : Nat → Nat → Bool, ∃ s : SkipList ℤ, SkipList.run 2 draws [.add 5, .add 5, .add 3] = .val s ∧
      s.select 1 = .val (some 3) ∧ ¬ IsKth (bag [.add 5, .add 5, .add 3]) 1 (3 : ℤ) ∧
      s.rank 4 = .val 2 ∧ rankOf (bag [.add 5, .add 5, .add 3]) (4 : ℤ) = 1 := by
  refine ⟨fun n _ => n != 1, _, rfl, ?_, ?_, ?_, ?_⟩
  · decide
  · intro h
    have h3 := h.2.2
    revert h3; decide
  · decide
  · decide

/-- C12, what holds: histories that never add a value already stored (values may be re-added after removal). Missing: histories
storing duplicates, where the code is wrong. For those only the range of the answers is known, see the next theorem. -/
theorem C12_skip_select_rank_partial (M : Nat) (hM : 0 < M) (draws : Nat → Nat → Bool) (ops : List (OSOp F))
    (hf : AddsFresh ops) :
    ∃ s, SkipList.run M draws ops = .val s ∧
      (∀ k : Int, ∃ r, s.select k = .val r ∧
        (0 ≤ k → k < (bag ops).card → ∃ v, r = some v ∧ IsKth (bag ops) k.toNat v) ∧
        (k < 0 ∨ (bag ops).card ≤ k → r = none)) ∧
      ∀ x, s.rank x = .val (rankOf (bag ops) x : Int) := by
  obtain ⟨s, e, h⟩ := run_repE hM draws ops hf
  refine ⟨s, e, fun k => ⟨_, skip_select h k, fun h0 hk => ?_, fun hk => kth_out _ hk⟩, fun x => ?_⟩
  · exact kth_isKth (bag ops) h0 hk
  · obtain ⟨hM, A, V, h1, h2, hE, -⟩ := h
    obtain ⟨r, e1, g⟩ := h1.rank x
    rw [e1, g hE, h2]

theorem addsFresh_example : AddsFresh [OSOp.add (5 : ℤ), .add 3, .remove 5, .add 5] := by
  intro pre x post h
  rcases pre with _ | ⟨a1, _ | ⟨a2, _ | ⟨a3, _ | ⟨a4, pre⟩⟩⟩⟩ <;> simp at h
  · obtain ⟨rfl, rfl⟩ := h; decide
  · obtain ⟨rfl, rfl, rfl⟩ := h; decide
  · obtain ⟨rfl, rfl, rfl, rfl, rfl⟩ := h; decide

example : AddsFresh [OSOp.add (5 : ℤ), .add 3, .remove 5, .add 5] ∧
    (do let s ← SkipList.run 3 (fun n _ => n != 1) [OSOp.add (5 : ℤ), .add 3, .remove 5, .add 5]
        let a ← s.select 1
        let r ← s.rank 4
        pure (a, r)) = .val (some 5, 1) := ⟨addsFresh_example, by decide⟩

/-- C12, duplicates allowed: `Select` is nil exactly out of range and otherwise returns some stored value. -/
theorem C12_skip_select_member_partial (M : Nat) (hM : 0 < M) (draws : Nat → Nat → Bool) (ops : List (OSOp F)) :
    ∃ s, SkipList.run M draws ops = .val s ∧
      ∀ k : Int, ∃ r, s.select k = .val r ∧ (0 ≤ k → k < (bag ops).card → ∃ v ∈ bag ops, r = some v) ∧
        (k < 0 ∨ (bag ops).card ≤ k → r = none) := by
  obtain ⟨s, e, -, A, V, h1, h2⟩ := run_rep hM draws ops
  refine ⟨s, e, fun k => ?_⟩
  obtain ⟨r, e1, g1, g2, -⟩ := h1.select k
  have hc : (bag ops).card = A.length := by rw [← h2]; simp
  refine ⟨r, e1, fun h0 hk => ?_, fun hk => g1 (by rw [hc] at hk; exact hk)⟩
  obtain ⟨a, ha, hr⟩ := g2 h0 (by rw [hc] at hk; exact hk)
  exact ⟨V a, by rw [← h2]; simpa using ⟨a, ha, rfl⟩, hr⟩

/-- C13. No history panics or loops, and neither does any query after it: duplicates included, whatever levels are drawn. -/
theorem C13_skip_no_panic (M : Nat) (hM : 0 < M) (draws : Nat → Nat → Bool) (ops : List (OSOp F)) :
    ∃ s, SkipList.run M draws ops = .val s ∧ (∀ k, ∃ r, s.select k = .val r) ∧ ∀ x, ∃ r, s.rank x = .val r := by
  obtain ⟨s, e, -, A, V, h1, h2⟩ := run_rep hM draws ops
  refine ⟨s, e, fun k => ?_, fun x => ?_⟩
  · obtain ⟨r, e1, -⟩ := h1.select k; exact ⟨r, e1⟩
  · obtain ⟨r, e1, -⟩ := h1.rank x; exact ⟨r, e1⟩

example : (do let s ← SkipList.run 2 (fun n _ => n != 1) [OSOp.add (5 : ℤ), .add 5, .add 3, .remove 5, .remove 7]
              let a ← s.select 1
              let b ← s.select 2
              pure (a, b)) = .val (some 5, none) := by decide

end Verif.Props
