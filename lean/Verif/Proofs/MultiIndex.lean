import Verif.Spec.Joint
import Mathlib.Data.Nat.Choose.Sum
import Mathlib.Data.List.Forall2
import Mathlib.Algebra.BigOperators.Group.List.Basic
import Mathlib.Algebra.BigOperators.Ring.List
import Mathlib.Tactic.Ring
import Mathlib.Tactic.LinearCombination

/-! # Multi-indices: the multivariate binomial theorem over lists -/

set_option linter.unusedSectionVars false
set_option linter.unusedSimpArgs false

namespace Verif.Joint
open Verif.Spec

/-- All tuples below `t`. -/
def below : List Nat → List (List Nat)
  | [] => [[]]
  | n :: ns => (List.range (n + 1)).flatMap (fun i => (below ns).map (i :: ·))

theorem mem_below {m t : List Nat} : m ∈ below t ↔ Below m t := by
  unfold Below
  induction t generalizing m with
  | nil => simp [below]
  | cons n ns ih =>
    simp only [below, List.mem_flatMap, List.mem_range, List.mem_map]
    constructor
    · rintro ⟨i, hi, b, hb, rfl⟩
      exact List.Forall₂.cons (by omega) (ih.1 hb)
    · intro h
      cases h with
      | cons h1 h2 => exact ⟨_, by omega, _, ih.2 h2, rfl⟩

theorem nodup_below (t : List Nat) : (below t).Nodup := by
  induction t with
  | nil => simp [below]
  | cons n ns ih =>
    rw [below, List.nodup_flatMap]
    refine ⟨fun i _ => ih.map (fun a b h => by simpa using h), ?_⟩
    refine List.Pairwise.imp ?_ (List.nodup_range (n := n + 1))
    intro i j hij
    simp only [List.disjoint_left, Function.onFun, List.mem_map]
    rintro _ ⟨a, _, rfl⟩ ⟨b, _, h⟩
    simp at h; exact hij h.1.symm

theorem _root_.Verif.Spec.Below.length {m t : List Nat} (h : Below m t) : m.length = t.length := List.Forall₂.length_eq h

theorem _root_.Verif.Spec.Below.refl (t : List Nat) : Below t t := by
  unfold Below
  induction t with
  | nil => exact .nil
  | cons n ns ih => exact .cons (Nat.le_refl _) ih

theorem _root_.Verif.Spec.Below.trans {a b c : List Nat} (h1 : Below a b) (h2 : Below b c) : Below a c := by
  unfold Below at *
  induction h1 generalizing c with
  | nil => exact h2
  | cons h _ ih =>
    cases h2 with
    | cons h' t' => exact .cons (Nat.le_trans h h') (ih t')

theorem _root_.Verif.Spec.Below.sum_le {m t : List Nat} (h : Below m t) : m.sum ≤ t.sum := by
  unfold Below at h
  induction h with
  | nil => exact Nat.le_refl _
  | cons h _ ih => simp only [List.sum_cons]; omega

theorem _root_.Verif.Spec.Below.eq_of_sum {m t : List Nat} (h : Below m t) (hs : t.sum ≤ m.sum) : m = t := by
  unfold Below at h
  induction h with
  | nil => rfl
  | @cons a b m t h h' ih =>
    have := Below.sum_le h'
    simp only [List.sum_cons] at hs
    rw [ih (by omega), show a = b by omega]

theorem _root_.Verif.Spec.Below.antisymm {a b : List Nat} (h1 : Below a b) (h2 : Below b a) : a = b := h1.eq_of_sum h2.sum_le

theorem _root_.Verif.Spec.Below.mem_le {m t : List Nat} (h : Below m t) {B : Nat} (ht : ∀ k ∈ t, k ≤ B) : ∀ k ∈ m, k ≤ B := by
  unfold Below at h
  induction h with
  | nil => exact ht
  | @cons a b m t h h' ih =>
    intro k hk
    rcases List.mem_cons.1 hk with rfl | hk
    · exact Nat.le_trans h (ht b List.mem_cons_self)
    · exact ih (fun k hk => ht k (List.mem_cons_of_mem _ hk)) k hk

/-- The zero tuple of the same length. -/
def zeros (t : List Nat) : List Nat := List.replicate t.length 0

theorem zeros_below (t : List Nat) : Below (zeros t) t := by
  unfold zeros Below
  induction t with
  | nil => exact .nil
  | cons n ns ih => exact .cons (Nat.zero_le _) ih

theorem sum_zeros (t : List Nat) : (zeros t).sum = 0 := by simp [zeros]

theorem _root_.Verif.Spec.Below.eq_zeros {m t : List Nat} (h : Below m t) (h0 : m.sum = 0) : m = zeros t := by
  unfold Below at h
  induction h with
  | nil => rfl
  | @cons a b m t h h' ih =>
    simp only [List.sum_cons] at h0
    rw [ih (by omega), show a = 0 by omega]
    rfl

/-- Componentwise difference. -/
def msub (a b : List Nat) : List Nat := List.zipWith (· - ·) a b

theorem msub_below {a b : List Nat} (h : Below b a) : Below (msub a b) a := by
  unfold Below msub at *
  induction h with
  | nil => exact .nil
  | cons h _ ih => exact .cons (Nat.sub_le _ _) ih

theorem msub_sum {a b : List Nat} (h : Below b a) : (msub a b).sum + b.sum = a.sum := by
  unfold Below at h
  induction h with
  | nil => rfl
  | cons h _ ih =>
    simp only [msub, List.zipWith_cons_cons, List.sum_cons] at ih ⊢
    omega

theorem msub_zeros (a : List Nat) : msub a (zeros a) = a := by
  unfold msub zeros
  induction a with
  | nil => rfl
  | cons n ns ih => simp [List.replicate_succ, ih]

theorem msub_self (a : List Nat) : msub a a = zeros a := by
  unfold msub zeros
  induction a with
  | nil => rfl
  | cons n ns ih => simp [List.replicate_succ, ih]

/-- Product of binomial coefficients. -/
def mchoose : List Nat → List Nat → Nat
  | n :: ns, k :: ks => n.choose k * mchoose ns ks
  | _, _ => 1

theorem mchoose_zeros (a : List Nat) : mchoose a (zeros a) = 1 := by
  unfold zeros
  induction a with
  | nil => rfl
  | cons n ns ih => simp [List.replicate_succ, mchoose, ih]

theorem mchoose_self (a : List Nat) : mchoose a a = 1 := by
  induction a with
  | nil => rfl
  | cons n ns ih => simp [mchoose, ih]

theorem mchoose_le {a b : List Nat} (h : Below b a) : mchoose a b ≤ 2 ^ a.sum := by
  unfold Below at h
  induction h with
  | nil => simp [mchoose]
  | @cons k n b a h h' ih =>
    simp only [mchoose, List.sum_cons, Nat.pow_add]
    exact Nat.mul_le_mul (Nat.choose_le_two_pow n k) ih

theorem mchoose_pos {a b : List Nat} (h : Below b a) : 0 < mchoose a b := by
  unfold Below at h
  induction h with
  | nil => simp [mchoose]
  | cons h _ ih => exact Nat.mul_pos (Nat.choose_pos h) ih

variable {K : Type} [Field K]

/-- Product of powers. -/
def mpow : List K → List Nat → K
  | x :: xs, n :: ns => x ^ n * mpow xs ns
  | _, _ => 1

theorem mpow_zeros (x : List K) (a : List Nat) : mpow x (zeros a) = 1 := by
  unfold zeros
  induction a generalizing x with
  | nil => cases x <;> rfl
  | cons n ns ih => cases x <;> simp [List.replicate_succ, mpow, ih]

theorem mpow_smul (c : K) {x : List K} {b : List Nat} (h : x.length = b.length) :
    mpow (x.map (c * ·)) b = c ^ b.sum * mpow x b := by
  induction x generalizing b with
  | nil => cases b with
    | nil => simp [mpow]
    | cons => simp at h
  | cons x xs ih => cases b with
    | nil => simp at h
    | cons n ns =>
      simp only [List.map_cons, mpow, List.sum_cons]
      rw [ih (by simpa using h), mul_pow, pow_add]; ring

theorem sum_range_list (f : Nat → K) (n : Nat) : ((List.range n).map f).sum = ∑ i ∈ Finset.range n, f i := by
  induction n with
  | zero => simp
  | succ n ih => rw [List.range_succ, Finset.sum_range_succ, List.map_append, List.sum_append, ih]; simp

theorem sum_flatMap {α : Type} (l : List α) (f : α → List K) : (l.flatMap f).sum = (l.map (fun a => (f a).sum)).sum := by
  induction l with
  | nil => simp
  | cons a l ih => simp [ih]

/-- The multivariate binomial theorem. -/
theorem mpow_sub {y t : List K} {a : List Nat} (hy : y.length = a.length) (ht : t.length = a.length) :
    mpow (List.zipWith (· - ·) y t) a =
      ((below a).map (fun b => (mchoose a b : K) * (-1) ^ b.sum * mpow t b * mpow y (msub a b))).sum := by
  induction a generalizing y t with
  | nil => cases y <;> cases t <;> simp_all [below, mpow, mchoose, msub]
  | cons n ns ih =>
    obtain ⟨y0, y, rfl⟩ : ∃ y0 ys, y = y0 :: ys := by cases y <;> simp_all
    obtain ⟨t0, t, rfl⟩ : ∃ y0 ys, t = y0 :: ys := by cases t <;> simp_all
    simp only [List.zipWith_cons_cons, mpow, below]
    rw [ih (by simpa using hy) (by simpa using ht), List.map_flatMap, sum_flatMap]
    have hb : (y0 - t0) ^ n = ((List.range (n + 1)).map (fun i => ((n.choose i : K) * (-1) ^ i * t0 ^ i * y0 ^ (n - i)))).sum := by
      rw [sum_range_list, sub_eq_add_neg, add_comm, add_pow]
      apply Finset.sum_congr rfl
      intro i _
      rw [neg_pow]; ring
    rw [hb, ← List.sum_map_mul_right]
    congr 1
    apply List.map_congr_left
    intro i _
    rw [List.map_map, ← List.sum_map_mul_left]
    congr 1
    apply List.map_congr_left
    intro b _
    simp only [Function.comp_apply, mchoose, List.sum_cons, mpow, msub, List.zipWith_cons_cons, Nat.cast_mul, pow_add]
    ring

/-! ## Weighted sums over data points -/

/-- Weighted joint power sum about `μ`. -/
def wj (ps : List (K × List K)) (μ : List K) (a : List Nat) : K :=
  (ps.map (fun p => p.1 * mpow (List.zipWith (· - ·) p.2 μ) a)).sum

theorem wj_append (ps qs : List (K × List K)) (μ : List K) (a : List Nat) : wj (ps ++ qs) μ a = wj ps μ a + wj qs μ a := by
  simp [wj]

theorem wj_scale (s : K) (ps : List (K × List K)) (μ : List K) (a : List Nat) :
    wj (ps.map (fun p => (s * p.1, p.2))) μ a = s * wj ps μ a := by
  simp only [wj, List.map_map, ← List.sum_map_mul_left]
  congr 1
  apply List.map_congr_left
  intro p _
  simp only [Function.comp_apply]; ring

theorem wj_zeros (ps : List (K × List K)) (μ : List K) (a : List Nat) : wj ps μ (zeros a) = (ps.map Prod.fst).sum := by
  simp [wj, mpow_zeros]

theorem sub_add_list (x μ t : List K) :
    List.zipWith (· - ·) x (List.zipWith (· + ·) μ t) = List.zipWith (· - ·) (List.zipWith (· - ·) x μ) t := by
  induction x generalizing μ t with
  | nil => simp
  | cons x xs ih => cases μ <;> cases t <;> simp_all [sub_sub]

theorem wj_shift {ps : List (K × List K)} {μ t : List K} {a : List Nat} (hp : ∀ p ∈ ps, p.2.length = a.length)
    (hμ : μ.length = a.length) (ht : t.length = a.length) :
    wj ps (List.zipWith (· + ·) μ t) a =
      ((below a).map (fun b => (mchoose a b : K) * (-1) ^ b.sum * mpow t b * wj ps μ (msub a b))).sum := by
  induction ps with
  | nil => simp [wj]
  | cons p ps ih =>
    have h1 := ih (fun p h => hp p (List.mem_cons_of_mem _ h))
    have h2 := hp p List.mem_cons_self
    simp only [wj, List.map_cons, List.sum_cons] at h1 ⊢
    rw [h1, sub_add_list, mpow_sub (by simp [h2, hμ]) ht, ← List.sum_map_mul_left, ← List.sum_map_add]
    congr 1
    apply List.map_congr_left
    intro b _
    ring

theorem sum_ite_mem {α : Type} [DecidableEq α] {l : List α} (hn : l.Nodup) {x : α} (hx : x ∈ l) (v : K) :
    (l.map (fun b => if b = x then v else 0)).sum = v := by
  induction l with
  | nil => simp at hx
  | cons y l ih =>
    rw [List.nodup_cons] at hn
    simp only [List.map_cons, List.sum_cons]
    rcases List.mem_cons.1 hx with rfl | hx'
    · have : (l.map (fun b => if b = x then v else 0)).sum = 0 := by
        rw [List.map_congr_left (g := fun _ => (0 : K))]
        · simp
        · intro b hb
          rw [if_neg]; rintro rfl; exact hn.1 hb
      simp [this]
    · rw [ih hn.2 hx', if_neg (by rintro rfl; exact hn.1 hx'), zero_add]

end Verif.Joint
