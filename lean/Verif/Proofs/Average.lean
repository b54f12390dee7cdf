import Verif.Spec.Average
import Verif.Proofs.SkipCost
import Mathlib.Algebra.Order.BigOperators.Group.Finset
import Mathlib.Algebra.Order.Field.Basic
import Mathlib.Algebra.Order.Ring.Rat
import Mathlib.Tactic.FieldSimp
import Mathlib.Tactic.Linarith
import Mathlib.Tactic.Positivity
import Mathlib.Tactic.Ring

/-! # Averages over draws: independence, and the expected number of nodes met on a search path -/

namespace Verif.Skip
open Finset

section
variable {ι K : Type} [Fintype ι] [DecidableEq ι] [Fintype K]

/-- One draw is independent of a quantity that does not look at it. -/
theorem sum_indep (a : ι) (f : K → ℚ) (v : (ι → K) → ℚ) (hv : ∀ d k, v (Function.update d a k) = v d) :
    (Fintype.card K : ℚ) * ∑ d, f (d a) * v d = (∑ k, f k) * ∑ d, v d := by
  let e : (ι → K) × K → (ι → K) × K := fun p => (Function.update p.1 a p.2, p.1 a)
  have he : Function.Involutive e := by
    rintro ⟨d, k⟩
    simp [e]
  have h := Equiv.sum_comp he.toPerm fun p : (ι → K) × K => f (p.1 a) * v p.1
  rw [Fintype.sum_prod_type, Fintype.sum_prod_type] at h
  simp only [Function.Involutive.coe_toPerm, e, Function.update_self, hv] at h
  rw [Finset.sum_mul_sum, Finset.sum_comm, h]
  simp [Finset.mul_sum]

/-- The number of draws for which one coordinate satisfies `p`. -/
theorem sum_one (a : ι) (p : K → Prop) [DecidablePred p] :
    (Fintype.card K : ℚ) * ∑ d : ι → K, (if p (d a) then 1 else 0) = (univ.filter p).card * (Fintype.card K : ℚ) ^ Fintype.card ι := by
  have h := sum_indep a (fun k => if p k then 1 else 0) (fun _ => (1 : ℚ)) fun _ _ => rfl
  simp only [mul_one] at h
  rw [h]
  simp

variable (g : K → Nat)

theorem visits_cons (m h : Nat) (hs : List Nat) :
    visits m (h :: hs) = (if h = m then 1 else 0) + (if h ≤ m then 1 else 0) * visits m hs := by
  unfold visits
  rw [List.takeWhile_cons]
  by_cases h1 : h ≤ m
  · rw [if_pos (by simpa using h1), List.count_cons]
    by_cases h2 : h = m
    · simp [h2]; omega
    · simp [h1, h2]
  · rw [if_neg (by simpa using h1)]
    simp [h1, show h ≠ m by omega]

theorem visits_update {m : Nat} {a : ι} {L : List ι} (ha : a ∉ L) (d : ι → K) (k : K) :
    visits m (L.map fun b => g (Function.update d a k b)) = visits m (L.map fun b => g (d b)) := by
  congr 1
  apply List.map_congr_left
  intro b hb
  rw [Function.update_of_ne]
  rintro rfl; exact ha hb

/-- Of independent heights, the expected number equal to `m` before the first larger one is at most the quotient of the probabilities. -/
theorem visits_sum {m : Nat} : ∀ {L : List ι}, L.Nodup →
    (∑ d : ι → K, (visits m (L.map fun b => g (d b)) : ℚ)) * (univ.filter fun k => m < g k).card ≤
      (univ.filter fun k => g k = m).card * (Fintype.card K : ℚ) ^ Fintype.card ι := by
  intro L
  induction L with
  | nil => intro _; simp [visits]; positivity
  | cons a L ih =>
    intro hL
    have hL' := List.nodup_cons.1 hL
    have ih := ih hL'.2
    set r : ℚ := ((univ.filter fun k : K => m < g k).card : ℚ) with hr
    set q : ℚ := ((univ.filter fun k : K => g k = m).card : ℚ) with hq
    set N : ℚ := (Fintype.card K : ℚ) with hN
    set T : ℚ := N ^ Fintype.card ι with hT
    set S : ℚ := ∑ d : ι → K, (visits m (L.map fun b => g (d b)) : ℚ) with hS
    by_cases hK : Fintype.card K = 0
    · have : IsEmpty K := Fintype.card_eq_zero_iff.1 hK
      have : IsEmpty (ι → K) := ⟨fun d => IsEmpty.elim ‹IsEmpty K› (d a)⟩
      rw [Finset.univ_eq_empty, Finset.sum_empty, zero_mul]
      positivity
    have hN0 : 0 < N := by rw [hN]; exact_mod_cast Nat.pos_of_ne_zero hK
    have e1 : N * ∑ d : ι → K, (if g (d a) = m then (1 : ℚ) else 0) = q * T := sum_one a fun k => g k = m
    have e2 : N * ∑ d : ι → K, (if g (d a) ≤ m then (1 : ℚ) else 0) * (visits m (L.map fun b => g (d b)) : ℚ) = (N - r) * S := by
      rw [sum_indep a (fun k => if g k ≤ m then (1 : ℚ) else 0) _ fun d k => by rw [visits_update g hL'.1]]
      congr 1
      have : (univ.filter fun k : K => g k ≤ m).card + (univ.filter fun k : K => m < g k).card = Fintype.card K := by
        have := Finset.card_filter_add_card_filter_not (s := (univ : Finset K)) (fun k => g k ≤ m)
        rw [← Finset.card_univ]
        simpa only [not_le] using this
      rw [Finset.sum_boole, hN, ← this]
      push_cast
      ring
    have e3 : N * ∑ d : ι → K, (visits m ((a :: L).map fun b => g (d b)) : ℚ) = q * T + (N - r) * S := by
      rw [← e1, ← e2, ← mul_add, ← Finset.sum_add_distrib]
      congr 1
      apply Finset.sum_congr rfl
      intro d _
      rw [List.map_cons, visits_cons]
      push_cast
      rfl
    have hNr : 0 ≤ N - r := by
      rw [sub_nonneg, hN, hr]
      exact_mod_cast Finset.card_le_univ _
    have hr0 : 0 ≤ r := by rw [hr]; positivity
    have hm : N * ((∑ d : ι → K, (visits m ((a :: L).map fun b => g (d b)) : ℚ)) * r) ≤ N * (q * T) := by
      calc _ = q * T * r + (N - r) * (S * r) := by rw [← mul_assoc, e3]; ring
        _ ≤ q * T * r + (N - r) * (q * T) := by have := mul_le_mul_of_nonneg_left ih hNr; linarith
        _ = _ := by ring
    exact le_of_mul_le_mul_left hm hN0

/-- The expected number of nodes of the largest height. -/
theorem visits_top {m : Nat} (hg : ∀ k, g k ≤ m) : ∀ (L : List ι),
    (Fintype.card K : ℚ) * (∑ d : ι → K, (visits m (L.map fun b => g (d b)) : ℚ)) =
      L.length * ((univ.filter fun k => g k = m).card * (Fintype.card K : ℚ) ^ Fintype.card ι) := by
  intro L
  induction L with
  | nil => simp [visits]
  | cons a L ih =>
    have e : ∀ d : ι → K, (visits m ((a :: L).map fun b => g (d b)) : ℚ) =
        (if g (d a) = m then 1 else 0) + (visits m (L.map fun b => g (d b)) : ℚ) := by
      intro d
      rw [List.map_cons, visits_cons, if_pos (hg (d a))]
      push_cast
      ring
    simp only [e, Finset.sum_add_distrib, mul_add, ih, sum_one a fun k => g k = m, List.length_cons]
    push_cast
    ring

end

end Verif.Skip
