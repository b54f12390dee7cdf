import Verif.Model.Moment
import Verif.Spec.Moment
import Verif.Proofs.MathUtil
import Verif.Proofs.Window
import Mathlib.Data.Nat.Choose.Sum
import Mathlib.Algebra.BigOperators.Group.List.Basic
import Mathlib.Algebra.CharZero.Defs
import Mathlib.Tactic.Ring
import Mathlib.Tactic.FieldSimp
import Mathlib.Tactic.LinearCombination

/-! # `moment.Core`: Pébay's formulas -/

set_option linter.unusedSectionVars false
set_option linter.unusedSimpArgs false

namespace Verif.Moment
open Verif Verif.Spec Verif.MathUtil Finset

variable {K : Type} [Field K]

/-! ## The weighted binomial shift -/

/-- Weighted power sum about `μ`. -/
def wsum (ps : List (K × K)) (μ : K) (k : Nat) : K := (ps.map (fun p => p.1 * (p.2 - μ) ^ k)).sum

theorem wsum_shift (ps : List (K × K)) (μ t : K) (k : Nat) :
    wsum ps (μ + t) k = ∑ i ∈ range (k + 1), (k.choose i : K) * (-t) ^ i * wsum ps μ (k - i) := by
  induction ps with
  | nil => simp [wsum]
  | cons p ps ih =>
    simp only [wsum, List.map_cons, List.sum_cons] at ih ⊢
    rw [ih]
    have : p.2 - (μ + t) = -t + (p.2 - μ) := by ring
    rw [this, add_pow, Finset.mul_sum, ← Finset.sum_add_distrib]
    apply Finset.sum_congr rfl
    intro i _
    ring

theorem wsum_shift' (ps : List (K × K)) (μ t : K) (k : Nat) (h1 : wsum ps μ 1 = 0) :
    wsum ps (μ + t) (k + 2) = wsum ps μ (k + 2) +
      (∑ j ∈ range k, ((k + 2).choose (j + 1) : K) * (-1) ^ (j + 1) * t ^ (j + 1) * wsum ps μ (k + 2 - (j + 1))) +
      (-t) ^ (k + 2) * wsum ps μ 0 := by
  rw [wsum_shift, Finset.sum_range_succ, Finset.sum_range_succ, Finset.sum_range_succ']
  have e1 : k + 2 - (k + 1) = 1 := by omega
  have e2 : k + 2 - (k + 2) = 0 := by omega
  rw [e1, e2, h1]
  simp only [Nat.choose_zero_right, Nat.choose_self, Nat.cast_one, pow_zero, Nat.sub_zero, one_mul, mul_zero, add_zero]
  have : ∀ j, ((k + 2).choose (j + 1) : K) * (-t) ^ (j + 1) * wsum ps μ (k + 2 - (j + 1)) =
      ((k + 2).choose (j + 1) : K) * (-1) ^ (j + 1) * t ^ (j + 1) * wsum ps μ (k + 2 - (j + 1)) := by
    intro j
    rw [neg_pow t]; ring
  simp only [this]
  ring

theorem wsum_append (ps qs : List (K × K)) (μ : K) (k : Nat) : wsum (ps ++ qs) μ k = wsum ps μ k + wsum qs μ k := by
  simp [wsum]

theorem wsum_scale (ps : List (K × K)) (a μ : K) (k : Nat) : wsum (ps.map (fun p => (a * p.1, p.2))) μ k = a * wsum ps μ k := by
  induction ps with
  | nil => simp [wsum]
  | cons p ps ih =>
    simp only [wsum, List.map_cons, List.sum_cons] at ih ⊢
    rw [ih]; ring

/-- All weights 1. -/
def ones (xs : List K) : List (K × K) := xs.map (fun x => (1, x))

theorem wsum_ones (xs : List K) (μ : K) (k : Nat) : wsum (ones xs) μ k = (xs.map (fun x => (x - μ) ^ k)).sum := by
  simp [wsum, ones, Function.comp_def]

theorem csum_eq (k : Nat) (xs : List K) : csum k xs = wsum (ones xs) (Spec.mean xs) k := by rw [wsum_ones]; rfl

theorem wsum_ones_zero (xs : List K) (μ : K) : wsum (ones xs) μ 0 = xs.length := by
  rw [wsum_ones]; simp

theorem sum_sub_const (xs : List K) (μ : K) : (xs.map (fun x => (x - μ) ^ 1)).sum = xs.sum - xs.length * μ := by
  induction xs with
  | nil => simp
  | cons x xs ih => simp only [List.map_cons, List.sum_cons, ih, List.length_cons]; push_cast; ring

theorem csum_one [CharZero K] (xs : List K) : csum 1 xs = 0 := by
  rw [csum, sum_sub_const, Spec.mean]
  by_cases h : xs = []
  · simp [h]
  · have : (xs.length : K) ≠ 0 := by
      have := List.length_pos_iff.2 h
      exact_mod_cast this.ne'
    field_simp; ring

theorem mean_snoc [CharZero K] (xs : List K) (x : K) : Spec.mean (xs ++ [x]) = Spec.mean xs + (x - Spec.mean xs) / (xs.length + 1) := by
  have h2 : (xs.length : K) + 1 ≠ 0 := by exact_mod_cast Nat.succ_ne_zero xs.length
  unfold Spec.mean
  by_cases h : xs = []
  · simp [h]
  · have h1 : (xs.length : K) ≠ 0 := by
      have := List.length_pos_iff.2 h
      exact_mod_cast this.ne'
    simp only [List.sum_append, List.sum_cons, List.sum_nil, List.length_append, List.length_cons, List.length_nil]
    push_cast
    rw [add_zero]
    field_simp; ring

/-- Pébay's update of the central power sums. -/
theorem csum_snoc [CharZero K] (xs : List K) (x : K) (k : Nat) :
    csum (k + 2) (xs ++ [x]) = csum (k + 2) xs +
      (xs.length : K) / (xs.length + 1) ^ (k + 2) * ((xs.length : K) ^ (k + 1) + (-1) ^ (k + 2)) * (x - Spec.mean xs) ^ (k + 2) +
      ∑ j ∈ range k, ((k + 2).choose (j + 1) : K) * (-1) ^ (j + 1) * ((x - Spec.mean xs) / (xs.length + 1)) ^ (j + 1) *
        csum (k + 2 - (j + 1)) xs := by
  have h2 : (xs.length : K) + 1 ≠ 0 := by exact_mod_cast Nat.succ_ne_zero xs.length
  rw [csum_eq, mean_snoc]
  have hone : ones (xs ++ [x]) = ones xs ++ [(1, x)] := by simp [ones]
  rw [hone, wsum_append, wsum_shift' _ _ _ _ (by rw [← csum_eq, csum_one]), wsum_ones_zero]
  simp only [← csum_eq]
  have hx : wsum [((1 : K), x)] (Spec.mean xs + (x - Spec.mean xs) / (xs.length + 1)) (k + 2) =
      ((xs.length : K) / (xs.length + 1)) ^ (k + 2) * (x - Spec.mean xs) ^ (k + 2) := by
    simp only [wsum, List.map_cons, List.map_nil, List.sum_cons, List.sum_nil, one_mul, add_zero]
    rw [← mul_pow]
    congr 1
    field_simp; ring
  rw [hx]
  have hc : (-((x - Spec.mean xs) / (xs.length + 1))) ^ (k + 2) * (xs.length : K) + ((xs.length : K) / (xs.length + 1)) ^ (k + 2) * (x - Spec.mean xs) ^ (k + 2)
      = (xs.length : K) / (xs.length + 1) ^ (k + 2) * ((xs.length : K) ^ (k + 1) + (-1) ^ (k + 2)) * (x - Spec.mean xs) ^ (k + 2) := by
    rw [neg_pow ((x - Spec.mean xs) / (xs.length + 1)), div_pow, div_pow]
    field_simp
    ring
  linear_combination hc

theorem mean_perm {xs ys : List K} (h : xs.Perm ys) : Spec.mean xs = Spec.mean ys := by
  unfold Spec.mean; rw [h.sum_eq, h.length_eq]

theorem csum_perm {xs ys : List K} (h : xs.Perm ys) (k : Nat) : csum k xs = csum k ys := by
  unfold csum; rw [mean_perm h]; exact (h.map _).sum_eq

/-! ## The loops -/

theorem coef_eq {k i : Nat} (hi : i ≤ k) (hk : k ≤ 20) : (coef k i : Go K) = .val ((k.choose i : K) * (-1) ^ i) := by
  unfold coef
  rw [binom_exact hi hk]
  simp only
  have hle : k.choose i ≤ k.factorial := by
    rw [Nat.choose_eq_factorial_div_factorial hi]; exact Nat.div_le_self _ _
  have hlt := factorial_lt hk
  have hw : wrap ((k.choose i : Int) * sign i) = (k.choose i : Int) * sign i := by
    unfold sign
    split_ifs <;> exact wrap_small (by omega) (by omega)
  rw [hw, sign_eq]
  push_cast; rfl

theorem sumLoop_val {term : Nat → Go K} {f : Nat → K} (n i : Nat) (acc : K) (h : ∀ j, i ≤ j → j < i + n → term j = .val (f j)) :
    sumLoop term n i acc = .val (acc + ∑ j ∈ range n, f (i + j)) := by
  induction n generalizing i acc with
  | zero => simp [sumLoop]
  | succ n ih =>
    simp only [sumLoop]
    rw [h i (Nat.le_refl _) (by omega)]
    simp only
    rw [ih (i + 1) (acc + f i) (fun j h1 h2 => h j (by omega) (by omega)), Finset.sum_range_succ']
    congr 1
    have : ∀ j, f (i + 1 + j) = f (i + (j + 1)) := fun j => by congr 1; omega
    simp only [this, Nat.add_zero]
    ring

/-- The value of `coef` where it has one. -/
def coefV (k i : Nat) : K :=
  match (coef k i : Go K) with
  | .val v => v
  | _ => 0

theorem coef_ok {k i : Nat} (hi : i ≤ k) (hk : k ≤ 65) : (coef k i : Go K) = .val (coefV k i) := by
  obtain ⟨v, hv⟩ := binom_no_panic hi hk
  unfold coefV
  unfold coef
  rw [hv]

theorem coefV_eq {k i : Nat} (hi : i ≤ k) (hk : k ≤ 20) : (coefV k i : K) = (k.choose i : K) * (-1) ^ i := by
  unfold coefV
  rw [coef_eq hi hk]

/-- The new `sums[k]`. -/
def addVal (count delta : K) (s : Nat → K) (k : Nat) : K :=
  s (k + 2) + (count - 1) / count ^ (k + 2) * ((count - 1) ^ (k + 1) + (-1) ^ (k + 2)) * delta ^ (k + 2) +
    ∑ j ∈ range k, coefV (k + 2) (j + 1) * (delta / count) ^ (j + 1) * s (k + 2 - (j + 1))

theorem addVal_congr {count delta : K} {s s' : Nat → K} {k : Nat} (h : ∀ j, 2 ≤ j → j ≤ k + 2 → s j = s' j) :
    addVal count delta s k = addVal count delta s' k := by
  unfold addVal
  rw [h (k + 2) (by omega) (Nat.le_refl _)]
  congr 1
  apply Finset.sum_congr rfl
  intro j hj
  rw [Finset.mem_range] at hj
  rw [h _ (by omega) (by omega)]

theorem addEntry_val {count delta : K} {s : Nat → K} {k : Nat} (hk : k + 2 ≤ 65) :
    addEntry count delta s (k + 2) = .val (addVal count delta s k) := by
  unfold addEntry
  rw [sumLoop_val (f := fun i => coefV (k + 2) i * (delta / count) ^ i * s (k + 2 - i))]
  · unfold addVal
    have e1 : k + 2 - 2 = k := by omega
    have e2 : k + 2 - 1 = k + 1 := by omega
    have hs : (((sign ((k + 2 : Nat) : Int)) : Int) : K) = (-1) ^ (k + 2) := by rw [sign_eq]; push_cast; rfl
    rw [e1, e2, hs]
    simp only [Nat.add_comm 1]
  · intro j h1 h2
    rw [coef_ok (by omega) hk]
    rfl

theorem addLoop_val {count delta : K} (n : Nat) (s : Nat → K) (hn : n ≤ 65) :
    ∃ s', addLoop count delta n s = .val s' ∧ (∀ k, k + 2 ≤ n → s' (k + 2) = addVal count delta s k) ∧
      ∀ k, (k < 2 ∨ n < k) → s' k = s k := by
  induction n generalizing s with
  | zero => exact ⟨s, rfl, fun k h => by omega, fun _ _ => rfl⟩
  | succ n ih =>
    cases n with
    | zero => exact ⟨s, rfl, fun k h => by omega, fun _ _ => rfl⟩
    | succ n =>
      simp only [addLoop]
      rw [addEntry_val hn]
      simp only
      obtain ⟨s', e, h1, h2⟩ := ih (Function.update s (n + 2) (addVal count delta s n)) (by omega)
      refine ⟨s', e, ?_, ?_⟩
      · intro k hk
        by_cases hk2 : k = n
        · subst hk2
          rw [h2 _ (by omega)]; simp
        · rw [h1 k (by omega)]
          apply addVal_congr
          intro j _ hj
          rw [Function.update_of_ne (by omega)]
      · intro k hk
        rw [h2 k (by omega), Function.update_of_ne (by omega)]

/-- Undoing: where `S` came from `T` by `add` up to `b`, the loop of `remove` turns `S` into `T` up to `b`. -/
theorem removeLoop_val {count delta : K} {S T : Nat → K} {b : Nat} (hT : ∀ k, k + 2 ≤ b → S (k + 2) = addVal (count + 1) delta T k)
    (m : Nat) (hm : m ≤ 65) :
    ∀ (n : Nat) (k : Nat) (s : Nat → K), k + 2 + n = m + 1 → (∀ j, 2 ≤ j → j < k + 2 → j ≤ b → s j = T j) →
      (∀ j, k + 2 ≤ j → j ≤ m → j ≤ b → s j = S j) →
      ∃ s', removeLoop count delta n (k + 2) s = .val s' ∧ (∀ j, 2 ≤ j → j ≤ m → j ≤ b → s' j = T j) ∧
        ∀ j, (j < 2 ∨ m < j) → s' j = s j := by
  intro n
  induction n with
  | zero => intro k s hk h1 h2; exact ⟨s, rfl, fun j a b c => h1 j a (by omega) c, fun _ _ => rfl⟩
  | succ n ih =>
    intro k s hk h1 h2
    simp only [removeLoop]
    have hent : ∃ v, removeEntry count delta s (k + 2) = .val v ∧ (k + 2 ≤ b → v = T (k + 2)) := by
      unfold removeEntry
      rw [sumLoop_val (f := fun i => -(coefV (k + 2) i * (delta / (count + 1)) ^ i * s (k + 2 - i)))]
      · refine ⟨_, rfl, fun hb => ?_⟩
        have e1 : k + 2 - 2 = k := by omega
        have e2 : k + 2 - 1 = k + 1 := by omega
        have hs : (((sign ((k + 2 : Nat) : Int)) : Int) : K) = (-1) ^ (k + 2) := by rw [sign_eq]; push_cast; rfl
        have hS := hT k hb
        rw [h2 (k + 2) (Nat.le_refl _) (by omega) hb, hS]
        unfold addVal
        rw [e1, e2, hs, Finset.sum_neg_distrib]
        have hsum : ∑ j ∈ range k, coefV (k + 2) (1 + j) * (delta / (count + 1)) ^ (1 + j) * s (k + 2 - (1 + j))
            = ∑ j ∈ range k, coefV (k + 2) (j + 1) * (delta / (count + 1)) ^ (j + 1) * T (k + 2 - (j + 1)) := by
          apply Finset.sum_congr rfl
          intro j hj
          rw [Finset.mem_range] at hj
          rw [Nat.add_comm 1 j, h1 _ (by omega) (by omega) (by omega)]
        rw [hsum, add_sub_cancel_right]
        ring
      · intro j a b
        rw [coef_ok (by omega) (by omega)]
        rfl
    obtain ⟨v, hent, hv⟩ := hent
    rw [hent]
    simp only
    obtain ⟨s', e, a, b⟩ := ih (k + 1) (Function.update s (k + 2) v) (by omega)
      (fun j p q r => by
        by_cases hj : j = k + 2
        · subst hj; simp [hv r]
        · rw [Function.update_of_ne hj]; exact h1 j p (by omega) r)
      (fun j p q r => by rw [Function.update_of_ne (by omega)]; exact h2 j (by omega) q r)
    exact ⟨s', e, a, fun j hj => by rw [b j hj, Function.update_of_ne (by omega)]⟩

/-- `remove` undoes `add` in every state with at least one value, whatever the tracked exponents (as long as neither panics). -/
theorem remove_add [CharZero K] {c : Core K} (hc : 0 < c.count) (hl : c.len ≤ 66) (x : K) :
    ∃ c', add c x = .val c' ∧ remove c' x = .val c := by
  obtain ⟨s', e, h1, h2⟩ := addLoop_val (count := ((c.count + 1 : Int) : K)) (delta := x - c.mean) (c.len - 1) c.sums (by omega)
  refine ⟨_, by unfold add; simp only; rw [e], ?_⟩
  have hn : (c.count : K) ≠ 0 := by exact_mod_cast hc.ne'
  have hn1 : (c.count : K) + 1 ≠ 0 := by
    have : c.count + 1 ≠ 0 := by omega
    exact_mod_cast this
  have hcount : c.count + 1 - 1 = c.count := by omega
  have hmean : c.mean + (x - c.mean) / ((c.count : K) + 1) - (x - (c.mean + (x - c.mean) / ((c.count : K) + 1))) / (c.count : K) = c.mean := by
    field_simp; ring
  unfold remove
  simp only
  rw [hcount, if_pos hc]
  push_cast
  rw [hmean]
  obtain ⟨s'', e', h3, h4⟩ := removeLoop_val (count := (c.count : K)) (delta := x - c.mean) (S := s') (T := c.sums) (b := c.len - 1)
      (fun k hk => by rw [h1 k hk]; push_cast; rfl) (max (c.len - 1) 1) (by omega) (c.len - 2) 0 s'
      (by omega) (fun j a b => by omega) (fun j a b c => rfl)
  rw [e']
  have hs : s'' = c.sums := by
    funext j
    by_cases hj : 2 ≤ j ∧ j ≤ c.len - 1
    · exact h3 j hj.1 (by omega) hj.2
    · rw [h4 j (by omega), h2 j (by omega)]
  rw [hs]

/-! ## The representation -/

/-- The core describes the values `xs` (exponents to 20, beyond which the coefficients overflow). -/
structure Rep (c : Core K) (xs : List K) : Prop where
  count : c.count = xs.length
  mean : c.mean = Spec.mean xs
  low : ∀ k, k < 2 → c.sums k = 0
  sums : ∀ k, 2 ≤ k → k < c.len → k ≤ 20 → c.sums k = csum k xs
  zero : xs = [] → ∀ k, c.sums k = 0

theorem Rep.perm {c : Core K} {xs ys : List K} (h : Rep c xs) (p : xs.Perm ys) : Rep c ys :=
  ⟨by rw [h.count, p.length_eq], by rw [h.mean, mean_perm p], h.low, fun k a b d => by rw [h.sums k a b d, csum_perm p],
    fun e => h.zero (by subst e; exact p.eq_nil)⟩

/-- The parts `add` and `remove` leave alone. -/
def Same (c c' : Core K) : Prop := c'.len = c.len ∧ c'.window = c.window ∧ c'.decay = c.decay ∧ c'.queue = c.queue

theorem csum_snoc' [CharZero K] (xs : List K) (x : K) (k : Nat) (hk : k + 2 ≤ 20) :
    csum (k + 2) (xs ++ [x]) = addVal ((xs.length : K) + 1) (x - Spec.mean xs) (fun k => csum k xs) k := by
  rw [csum_snoc]
  unfold addVal
  rw [add_sub_cancel_right]
  congr 1
  apply Finset.sum_congr rfl
  intro j hj
  rw [Finset.mem_range] at hj
  rw [coefV_eq (by omega) hk]

theorem add_rep [CharZero K] {c : Core K} {xs : List K} (h : Rep c xs) (hl : c.len ≤ 66) (x : K) :
    ∃ c', add c x = .val c' ∧ Rep c' (xs ++ [x]) ∧ Same c c' := by
  unfold add
  obtain ⟨s', e, h1, h2⟩ := addLoop_val (count := ((c.count + 1 : Int) : K)) (delta := x - c.mean) (c.len - 1) c.sums (by omega)
  simp only
  rw [e]
  have hc : ((c.count + 1 : Int) : K) = (xs.length : K) + 1 := by rw [h.count]; push_cast; rfl
  refine ⟨_, rfl, ⟨?_, ?_, ?_, ?_, by simp⟩, rfl, rfl, rfl, rfl⟩
  · simp [h.count]
  · show c.mean + (x - c.mean) / ((c.count + 1 : Int) : K) = _
    rw [hc, h.mean, mean_snoc]
  · intro k hk
    show s' k = 0
    rw [h2 k (Or.inl hk), h.low k hk]
  · intro k hk hkl hk20
    show s' k = _
    have hkl : k < c.len := hkl
    obtain ⟨k, rfl⟩ := Nat.exists_eq_add_of_le' hk
    rw [h1 k (by omega), csum_snoc' _ _ _ hk20, hc, h.mean]
    exact addVal_congr fun j a b => h.sums j a (by omega) (by omega)

theorem remove_rep [CharZero K] {c : Core K} {xs : List K} {x : K} (h : Rep c (x :: xs)) (hl : c.len ≤ 66) :
    ∃ c', remove c x = .val c' ∧ Rep c' xs ∧ Same c c' := by
  have h' : Rep c (xs ++ [x]) := h.perm (List.perm_append_singleton x xs).symm
  have hcnt : c.count - 1 = xs.length := by rw [h.count]; simp
  by_cases hx : xs = []
  · subst hx
    refine ⟨_, if_neg (by rw [hcnt]; simp), ⟨hcnt, by simp [Spec.mean], fun _ _ => rfl, fun k _ _ _ => by simp [csum], fun _ _ => rfl⟩,
      rfl, rfl, rfl, rfl⟩
  · have hpos : 0 < xs.length := List.length_pos_iff.2 hx
    have hn : (xs.length : K) ≠ 0 := by exact_mod_cast hpos.ne'
    have hn1 : (xs.length : K) + 1 ≠ 0 := by exact_mod_cast Nat.succ_ne_zero xs.length
    have hk : ((c.count - 1 : Int) : K) = (xs.length : K) := by rw [hcnt]; push_cast; rfl
    have hmean : c.mean - (x - c.mean) / (xs.length : K) = Spec.mean xs := by
      rw [h'.mean, mean_snoc]; field_simp; ring
    obtain ⟨s', e, h1, h2⟩ := removeLoop_val (count := (xs.length : K)) (delta := x - Spec.mean xs)
      (S := fun k => csum k (xs ++ [x])) (T := fun k => csum k xs) (b := 20) (fun k hk => csum_snoc' xs x k hk)
      (max (c.len - 1) 1) (by omega) (c.len - 2) 0 c.sums
      (by omega) (fun j a b => by omega) (fun j a b d => by
        rcases Nat.lt_or_ge j c.len with hj | hj
        · exact h'.sums j a hj d
        · omega)
    refine ⟨{ c with count := c.count - 1, mean := Spec.mean xs, sums := s' }, ?_, ⟨hcnt, rfl, ?_, ?_, fun e => absurd e hx⟩,
      rfl, rfl, rfl, rfl⟩
    · unfold remove
      simp only
      rw [if_pos (by rw [hcnt]; exact_mod_cast hpos), hk, hmean, e]
    · intro k hk2
      show s' k = 0
      rw [h2 k (Or.inl hk2), h.low k hk2]
    · intro k a b d
      have b : k < c.len := b
      exact h1 k a (by omega) d

theorem remove_add_fresh {c : Core K} (hc : c.count = 0) (hm : c.mean = 0) (hs : ∀ k, c.sums k = 0) (hl : c.len ≤ 66) (x : K) :
    ∃ c', add c x = .val c' ∧ remove c' x = .val c := by
  obtain ⟨s', e, h1, h2⟩ := addLoop_val (count := ((c.count + 1 : Int) : K)) (delta := x - c.mean) (c.len - 1) c.sums (by omega)
  refine ⟨_, by unfold add; simp only; rw [e], ?_⟩
  unfold remove
  simp only
  rw [if_neg (by omega)]
  have : (fun _ : Nat => (0 : K)) = c.sums := by funext k; rw [hs]
  rw [this, ← hm]
  have hc' : c.count + 1 - 1 = c.count := by omega
  rw [hc']

/-! ## Windows -/

/-- State of a windowed or global core (no decay) after the values `xs` since the last `Clear`. -/
structure W (w : Nat) (xs : List K) (c : Core K) : Prop where
  win : c.window = w
  dec : c.decay = none
  cap : c.queue.cap = Ring.roundUp w
  live : c.queue.disposed = false
  q : w ≠ 0 → c.queue.items = lastN w xs
  rep : Rep c (lastN w xs)

theorem pushAdd_none {c c' : Core K} {x : K} (hd : c.decay = none) (e : add c x = .val c') : pushAdd c x = .val (c', none) := by
  unfold pushAdd
  rw [hd]
  simp only
  rw [e]

theorem push_W [CharZero K] {w : Nat} {xs : List K} {c : Core K} (h : W w xs c) (hl : c.len ≤ 66) (x : K) :
    ∃ c', push c x = .val (c', none) ∧ W w (xs ++ [x]) c' ∧ c'.len = c.len := by
  unfold push
  by_cases hw : w = 0
  · subst hw
    rw [if_neg (by rw [h.win]; simp)]
    have hr := h.rep
    rw [lastN_zero] at hr
    obtain ⟨c', e, hr', a1, a2, a3, a4⟩ := add_rep hr hl x
    refine ⟨c', by unfold pushAdd; rw [h.dec]; simp only; rw [e], ⟨by rw [a2, h.win], by rw [a3, h.dec], by rw [a4, h.cap], by rw [a4, h.live],
      fun c => absurd rfl c, by rw [lastN_zero]; exact hr'⟩, a1⟩
  · rw [if_pos (by rw [h.win]; exact_mod_cast hw)]
    have key : ∃ c1, evict c = .val (.ok c1) ∧ c1.window = w ∧ c1.decay = none ∧ c1.queue.cap = Ring.roundUp w ∧
        c1.queue.disposed = false ∧ c1.len = c.len ∧ Rep c1 c1.queue.items ∧ c1.queue.items ++ [x] = lastN w (xs ++ [x]) ∧
        c1.queue.items.length < w := by
      unfold evict
      have hq := h.q hw
      by_cases hf : (lastN w xs).length = w
      · have hlen : (c.queue.len : Int) = c.window := by rw [h.win, Ring.len, hq, hf]
        rw [if_pos hlen]
        obtain ⟨y, ys, hy⟩ : ∃ y ys, lastN w xs = y :: ys := by
          apply List.exists_cons_of_ne_nil
          intro hn
          rw [hn] at hf
          exact hw hf.symm
        rw [Ring.get_ok h.live (hq.trans hy)]
        simp only
        have hr : Rep { c with queue := { c.queue with items := ys } } (y :: ys) := by
          have := h.rep
          rw [hy] at this
          exact ⟨this.count, this.mean, this.low, this.sums, by simp⟩
        obtain ⟨c', e, hr', a1, a2, a3, a4⟩ := remove_rep hr hl
        rw [e]
        refine ⟨c', rfl, by rw [a2]; exact h.win, by rw [a3]; exact h.dec, by rw [a4]; exact h.cap, by rw [a4]; exact h.live, a1,
          by rw [a4]; exact hr', ?_, ?_⟩
        · rw [a4, lastN_snoc_full hw _ _ hf, hy]; rfl
        · rw [a4]
          rw [hy] at hf
          simp at hf ⊢; omega
      · have hlen : ¬ (c.queue.len : Int) = c.window := by
          rw [h.win, Ring.len, hq]; exact_mod_cast hf
        rw [if_neg hlen]
        refine ⟨c, rfl, h.win, h.dec, h.cap, h.live, rfl, by rw [hq]; exact h.rep, ?_, ?_⟩
        · rw [hq, lastN_snoc_room hw _ _ hf]
        · rw [hq]; have := lastN_length_le hw xs; omega
    obtain ⟨c1, e, b1, b2, b3, b4, b5, b6, b7, b8⟩ := key
    rw [e]
    simp only
    rw [Ring.put_ok b4 (by have := Ring.le_roundUp w; omega)]
    simp only
    have hr : Rep { c1 with queue := { c1.queue with items := c1.queue.items ++ [x] } } c1.queue.items :=
      ⟨b6.count, b6.mean, b6.low, b6.sums, b6.zero⟩
    obtain ⟨c', e', hr', a1, a2, a3, a4⟩ := add_rep hr (by simp only; omega) x
    refine ⟨c', pushAdd_none b2 e', ⟨by rw [a2]; exact b1, by rw [a3]; exact b2, by rw [a4]; exact b3,
      by rw [a4]; exact b4, fun _ => by rw [a4]; exact b7, by rw [← b7]; exact hr'⟩, by rw [a1]; exact b5⟩

theorem clear_W {w : Nat} {xs : List K} {c : Core K} (h : W w xs c) : W w ([] : List K) (clear c) :=
  ⟨h.win, h.dec, by simp [clear, Ring.new, h.win], rfl, fun _ => by simp [clear, Ring.new],
    ⟨by simp [clear], by simp [clear, Spec.mean], fun _ _ => rfl, fun k _ _ _ => by simp [clear, csum], fun _ _ => rfl⟩⟩

theorem mk_W {cfg : Config K} {w : Nat} (hw : cfg.window = some (w : Int)) (hd : cfg.decay = none) : W w ([] : List K) (mk cfg) :=
  ⟨by simp [mk, hw], hd, by simp [mk, Ring.new, hw], rfl, fun _ => by simp [mk, Ring.new],
    ⟨by simp [mk], by simp [mk, Spec.mean], fun _ _ => rfl, fun k _ _ _ => by simp [mk, csum], fun _ _ => rfl⟩⟩

theorem run_W [CharZero K] {w : Nat} {c : Core K} (h : W w ([] : List K) c) (hl : c.len ≤ 66) (ops : List (MOp K)) :
    ∃ c', run c ops = .val (c', []) ∧ W w (since ops) c' ∧ c'.len = c.len := by
  induction ops using List.reverseRecOn with
  | nil => exact ⟨c, rfl, h, rfl⟩
  | append_singleton ops op ih =>
    obtain ⟨c', e, hW, hlen⟩ := ih
    unfold run at e ⊢
    rw [Go.runOps_append, e]
    cases op with
    | push x =>
      obtain ⟨c'', e', hW', hl'⟩ := push_W hW (by omega) x
      exact ⟨c'', by simp [Go.runOps, logged, step, e'], by rw [since_push]; exact hW', by omega⟩
    | clear =>
      exact ⟨clear c', by simp [Go.runOps, logged, step], by rw [since_clear]; exact clear_W hW, hlen⟩

/-! ## Decay -/

/-- The weights paired with the values. -/
def pairs {α : Type} (d : K) (xs : List α) : List (K × α) := xs.zipIdx.map (fun p => (ewWeight d xs.length p.2, p.1))

theorem ewTotal_pairs {α : Type} (d : K) (f : α → K) (xs : List α) : ewTotal d f xs = ((pairs d xs).map (fun p => p.1 * f p.2)).sum := by
  simp [ewTotal, pairs, Function.comp_def]

theorem ewMoment_eq (d : K) (k : Nat) (xs : List K) : ewMoment d k xs = wsum (pairs d xs) (ewMean d xs) k := by
  rw [ewMoment, ewTotal_pairs]; rfl

theorem pairs_one {α : Type} (d : K) (x : α) : pairs d [x] = [(1, x)] := by simp [pairs, ewWeight]

theorem pairs_snoc {α : Type} (d : K) {xs : List α} (h : xs ≠ []) (x : α) :
    pairs d (xs ++ [x]) = (pairs d xs).map (fun p => ((1 - d) * p.1, p.2)) ++ [(d, x)] := by
  have hpos := List.length_pos_iff.2 h
  unfold pairs
  rw [List.zipIdx_append]
  simp only [List.map_append, List.length_append, List.length_cons, List.length_nil, List.map_map, List.zipIdx_cons, List.zipIdx_nil,
    List.map_cons, List.map_nil]
  congr 1
  · apply List.map_congr_left
    rintro ⟨y, i⟩ hm
    have hi : i < xs.length := by
      have := List.snd_lt_of_mem_zipIdx hm
      simpa using this
    simp only [Function.comp_apply, ewWeight, Prod.mk.injEq, and_true]
    by_cases h0 : i = 0
    · simp only [h0, if_true]
      rw [← pow_succ']
      congr 1; omega
    · simp only [h0, if_false]
      have : xs.length + (0 + 1) - 1 - i = (xs.length - 1 - i) + 1 := by omega
      rw [this, pow_succ]; ring
  · have : 0 + xs.length ≠ 0 := by omega
    simp only [ewWeight, this, if_false]
    have : xs.length + (0 + 1) - 1 - (0 + xs.length) = 0 := by omega
    rw [this]; simp

theorem pairs_weight (d : K) {xs : List K} (h : xs ≠ []) (μ : K) : wsum (pairs d xs) μ 0 = 1 := by
  induction xs using List.reverseRecOn with
  | nil => exact absurd rfl h
  | append_singleton xs x ih =>
    by_cases hx : xs = []
    · subst hx; rw [List.nil_append, pairs_one]; simp [wsum]
    · rw [pairs_snoc d hx, wsum_append, wsum_scale, ih hx]
      simp [wsum]

theorem wsum_one (ps : List (K × K)) (μ : K) : wsum ps μ 1 = (ps.map (fun p => p.1 * p.2)).sum - μ * wsum ps μ 0 := by
  induction ps with
  | nil => simp [wsum]
  | cons p ps ih =>
    simp only [wsum, List.map_cons, List.sum_cons] at ih ⊢
    rw [ih]; ring

theorem pairs_center (d : K) {xs : List K} : wsum (pairs d xs) (ewMean d xs) 1 = 0 := by
  by_cases h : xs = []
  · subst h; simp [pairs, wsum]
  · rw [wsum_one, pairs_weight d h, ewMean, ewTotal_pairs]; ring

theorem ewMean_one (d x : K) : ewMean d [x] = x := by rw [ewMean, ewTotal_pairs, pairs_one]; simp

theorem ewMean_snoc (d : K) {xs : List K} (h : xs ≠ []) (x : K) : ewMean d (xs ++ [x]) = ewMean d xs + d * (x - ewMean d xs) := by
  have hs : ∀ (ps : List (K × K)) (a : K), ((ps.map (fun p => (a * p.1, p.2))).map (fun p => p.1 * p.2)).sum = a * (ps.map (fun p => p.1 * p.2)).sum := by
    intro ps a
    induction ps with
    | nil => simp
    | cons p ps ih => simp only [List.map_cons, List.sum_cons, ih]; ring
  rw [ewMean, ewTotal_pairs, pairs_snoc d h, List.map_append, List.sum_append, hs, ewMean, ewTotal_pairs]
  simp only [List.map_cons, List.map_nil, List.sum_cons, List.sum_nil]
  ring

/-- The new `sums[k]` of `addDecay`. -/
def decayVal (d delta : K) (s : Nat → K) (k : Nat) : K :=
  (1 - d) * s (k + 2) + ((1 - d) * (-d) ^ (k + 2) + d * (1 - d) ^ (k + 2)) * delta ^ (k + 2) +
    ∑ j ∈ range k, coefV (k + 2) (j + 1) * (d * delta) ^ (j + 1) * (1 - d) * s (k + 2 - (j + 1))

theorem decayVal_congr {d delta : K} {s s' : Nat → K} {k : Nat} (h : ∀ j, 2 ≤ j → j ≤ k + 2 → s j = s' j) :
    decayVal d delta s k = decayVal d delta s' k := by
  unfold decayVal
  rw [h (k + 2) (by omega) (Nat.le_refl _)]
  congr 1
  apply Finset.sum_congr rfl
  intro j hj
  rw [Finset.mem_range] at hj
  rw [h _ (by omega) (by omega)]

theorem decayEntry_val {d delta : K} {s : Nat → K} {k : Nat} (hk : k + 2 ≤ 65) :
    decayEntry d delta s (k + 2) = .val (decayVal d delta s k) := by
  unfold decayEntry
  rw [sumLoop_val (f := fun i => coefV (k + 2) i * (d * delta) ^ i * (1 - d) * s (k + 2 - i))]
  · unfold decayVal
    have e1 : k + 2 - 2 = k := by omega
    rw [e1]
    simp only [Nat.add_comm 1]
  · intro j h1 h2
    rw [coef_ok (by omega) hk]
    rfl

theorem decayLoop_val {d delta : K} (n : Nat) (s : Nat → K) (hn : n ≤ 65) :
    ∃ s', decayLoop d delta n s = .val s' ∧ (∀ k, k + 2 ≤ n → s' (k + 2) = decayVal d delta s k) ∧
      ∀ k, (k < 2 ∨ n < k) → s' k = s k := by
  induction n generalizing s with
  | zero => exact ⟨s, rfl, fun k h => by omega, fun _ _ => rfl⟩
  | succ n ih =>
    cases n with
    | zero => exact ⟨s, rfl, fun k h => by omega, fun _ _ => rfl⟩
    | succ n =>
      simp only [decayLoop]
      rw [decayEntry_val hn]
      simp only
      obtain ⟨s', e, h1, h2⟩ := ih (Function.update s (n + 2) (decayVal d delta s n)) (by omega)
      refine ⟨s', e, ?_, ?_⟩
      · intro k hk
        by_cases hk2 : k = n
        · subst hk2
          rw [h2 _ (by omega)]; simp
        · rw [h1 k (by omega)]
          apply decayVal_congr
          intro j _ hj
          rw [Function.update_of_ne (by omega)]
      · intro k hk
        rw [h2 k (by omega), Function.update_of_ne (by omega)]

theorem ewMoment_snoc (d : K) {xs : List K} (h : xs ≠ []) (x : K) (k : Nat) (hk : k + 2 ≤ 20) :
    ewMoment d (k + 2) (xs ++ [x]) = decayVal d (x - ewMean d xs) (fun k => ewMoment d k xs) k := by
  rw [ewMoment_eq, ewMean_snoc d h, pairs_snoc d h, wsum_append, wsum_scale, wsum_shift' _ _ _ _ (pairs_center d), pairs_weight d h]
  unfold decayVal
  have hsum : ∑ j ∈ range k, coefV (k + 2) (j + 1) * (d * (x - ewMean d xs)) ^ (j + 1) * (1 - d) * ewMoment d (k + 2 - (j + 1)) xs
      = (1 - d) * ∑ j ∈ range k, ((k + 2).choose (j + 1) : K) * (-1) ^ (j + 1) * (d * (x - ewMean d xs)) ^ (j + 1) *
        wsum (pairs d xs) (ewMean d xs) (k + 2 - (j + 1)) := by
    rw [Finset.mul_sum]
    apply Finset.sum_congr rfl
    intro j hj
    rw [Finset.mem_range] at hj
    rw [coefV_eq (by omega) hk, ewMoment_eq]; ring
  have he := ewMoment_eq d (k + 2) xs
  rw [hsum]
  simp only [he]
  have hx : wsum [(d, x)] (ewMean d xs + d * (x - ewMean d xs)) (k + 2) = d * (1 - d) ^ (k + 2) * (x - ewMean d xs) ^ (k + 2) := by
    simp only [wsum, List.map_cons, List.map_nil, List.sum_cons, List.sum_nil, add_zero]
    rw [mul_assoc, ← mul_pow]
    congr 2; ring
  rw [hx]
  have hp : (-(d * (x - ewMean d xs))) ^ (k + 2) = (-d) ^ (k + 2) * (x - ewMean d xs) ^ (k + 2) := by
    rw [← mul_pow]; congr 1; ring
  rw [hp]; ring

/-- State of a decaying core after the values `xs` since the last `Clear`. -/
structure D (d : K) (xs : List K) (c : Core K) : Prop where
  win : c.window = 0
  dec : c.decay = some d
  count : c.count = xs.length
  mean : c.mean = ewMean d xs
  low : ∀ k, k < 2 → c.sums k = 0
  sums : ∀ k, 2 ≤ k → k < c.len → k ≤ 20 → c.sums k = ewMoment d k xs
  none : xs = [] → ∀ k, c.sums k = 0

theorem addDecay_D {d : K} {xs : List K} {c : Core K} (h : D d xs c) (hl : c.len ≤ 66) (x : K) :
    ∃ c', addDecay d c x = .val c' ∧ D d (xs ++ [x]) c' ∧ c'.len = c.len := by
  unfold addDecay
  obtain ⟨s', e, h1, h2⟩ := decayLoop_val (d := if c.count + 1 = 1 then 1 else d) (delta := x - c.mean) (c.len - 1) c.sums (by omega)
  simp only
  rw [e]
  by_cases hx : xs = []
  · subst hx
    have hc : c.count = 0 := by rw [h.count]; rfl
    have hm : c.mean = 0 := by rw [h.mean]; simp [ewMean, ewTotal]
    simp only [hc, zero_add, if_true, hm] at h1 e ⊢
    refine ⟨_, rfl, ⟨h.win, h.dec, by simp, ?_, ?_, ?_, by simp⟩, rfl⟩
    · simp [ewMean_one]
    · intro k hk
      show s' k = 0
      rw [h2 k (Or.inl hk), h.low k hk]
    · intro k hk hkl hk20
      have hkl : k < c.len := hkl
      show s' k = _
      obtain ⟨k, rfl⟩ := Nat.exists_eq_add_of_le' hk
      rw [h1 k (by omega), List.nil_append, ewMoment_eq, ewMean_one, pairs_one]
      simp [decayVal, wsum]
  · have hc : ¬ c.count + 1 = 1 := by
      rw [h.count]
      have := List.length_pos_iff.2 hx
      omega
    simp only [hc, if_false] at h1 e ⊢
    refine ⟨_, rfl, ⟨h.win, h.dec, by simp [h.count], ?_, ?_, ?_, by simp⟩, rfl⟩
    · show c.mean + d * (x - c.mean) = _
      rw [h.mean, ewMean_snoc d hx]
    · intro k hk
      show s' k = 0
      rw [h2 k (Or.inl hk), h.low k hk]
    · intro k hk hkl hk20
      have hkl : k < c.len := hkl
      show s' k = _
      obtain ⟨k, rfl⟩ := Nat.exists_eq_add_of_le' hk
      rw [h1 k (by omega), ewMoment_snoc d hx _ _ hk20, h.mean]
      exact decayVal_congr fun j a b => h.sums j a (by omega) (by omega)

theorem push_D {d : K} {xs : List K} {c : Core K} (h : D d xs c) (hl : c.len ≤ 66) (x : K) :
    ∃ c', push c x = .val (c', .none) ∧ D d (xs ++ [x]) c' ∧ c'.len = c.len := by
  obtain ⟨c', e, hD, hlen⟩ := addDecay_D h hl x
  refine ⟨c', ?_, hD, hlen⟩
  unfold push
  rw [if_neg (by rw [h.win]; simp)]
  unfold pushAdd
  rw [h.dec]
  simp only
  rw [e]

theorem clear_D {d : K} {xs : List K} {c : Core K} (h : D d xs c) : D d ([] : List K) (clear c) :=
  ⟨h.win, h.dec, by simp [clear], by simp [clear, ewMean, ewTotal], fun _ _ => rfl, fun k _ _ _ => by simp [clear, ewMoment, ewTotal],
    fun _ _ => rfl⟩

theorem mk_D {cfg : Config K} {d : K} (hw : cfg.window = some 0) (hd : cfg.decay = some d) : D d ([] : List K) (mk cfg) :=
  ⟨by simp [mk, hw], hd, by simp [mk], by simp [mk, ewMean, ewTotal], fun _ _ => rfl, fun k _ _ _ => by simp [mk, ewMoment, ewTotal],
    fun _ _ => rfl⟩

theorem run_D {d : K} {c : Core K} (h : D d ([] : List K) c) (hl : c.len ≤ 66) (ops : List (MOp K)) :
    ∃ c', run c ops = .val (c', []) ∧ D d (since ops) c' ∧ c'.len = c.len := by
  induction ops using List.reverseRecOn with
  | nil => exact ⟨c, rfl, h, rfl⟩
  | append_singleton ops op ih =>
    obtain ⟨c', e, hW, hlen⟩ := ih
    unfold run at e ⊢
    rw [Go.runOps_append, e]
    cases op with
    | push x =>
      obtain ⟨c'', e', hW', hl'⟩ := push_D hW (by omega) x
      exact ⟨c'', by simp [Go.runOps, logged, step, e'], by rw [since_push]; exact hW', by omega⟩
    | clear =>
      exact ⟨clear c', by simp [Go.runOps, logged, step], by rw [since_clear]; exact clear_D hW, hlen⟩

/-! ## What never changes -/

/-- The configuration part of the state. -/
def Frame (c c' : Core K) : Prop := c'.len = c.len ∧ c'.window = c.window ∧ c'.decay = c.decay

theorem add_frame {c c' : Core K} {x : K} (h : add c x = .val c') : Frame c c' := by
  unfold add at h
  simp only at h
  split at h <;> simp at h
  subst h; exact ⟨rfl, rfl, rfl⟩

theorem addDecay_frame {c c' : Core K} {d x : K} (h : addDecay d c x = .val c') : Frame c c' := by
  unfold addDecay at h
  simp only at h
  split at h <;> simp at h
  subst h; exact ⟨rfl, rfl, rfl⟩

theorem remove_frame {c c' : Core K} {x : K} (h : remove c x = .val c') : Frame c c' := by
  unfold remove at h
  simp only at h
  split_ifs at h
  · split at h <;> simp at h
    subst h; exact ⟨rfl, rfl, rfl⟩
  · simp at h
    subst h; exact ⟨rfl, rfl, rfl⟩

theorem evict_frame {c c' : Core K} (h : evict c = .val (.ok c')) : Frame c c' := by
  unfold evict at h
  split_ifs at h
  · split at h <;> (try simp at h)
    split at h <;> simp at h
    subst h
    rename_i e
    have := remove_frame e
    exact this
  · simp at h; subst h; exact ⟨rfl, rfl, rfl⟩

theorem pushAdd_frame {c c' : Core K} {x : K} {o : Option Err} (h : pushAdd c x = .val (c', o)) : Frame c c' := by
  unfold pushAdd at h
  split at h <;> simp at h
  obtain ⟨rfl, -⟩ := h
  rename_i e
  split at e
  · exact add_frame e
  · exact addDecay_frame e

theorem push_frame {c c' : Core K} {x : K} {o : Option Err} (h : push c x = .val (c', o)) : Frame c c' := by
  unfold push at h
  split_ifs at h
  · split at h <;> (try simp at h)
    · obtain ⟨rfl, -⟩ := h; exact ⟨rfl, rfl, rfl⟩
    · rename_i c1 e1
      have f1 := evict_frame e1
      split at h <;> (try simp at h)
      · obtain ⟨rfl, -⟩ := h; exact f1
      · have f2 := pushAdd_frame h
        exact ⟨f2.1.trans f1.1, f2.2.1.trans f1.2.1, f2.2.2.trans f1.2.2⟩
  · exact pushAdd_frame h

theorem step_frame {c c' : Core K} {op : MOp K} {o : Option Err} (h : step c op = .val (c', o)) : Frame c c' := by
  cases op with
  | push x => exact push_frame h
  | clear =>
    simp [step] at h
    obtain ⟨rfl, -⟩ := h
    exact ⟨rfl, rfl, rfl⟩

theorem run_frame {c c' : Core K} {ops : List (MOp K)} {es : List Err} (h : run c ops = .val (c', es)) : Frame c c' := by
  induction ops using List.reverseRecOn generalizing c' es with
  | nil =>
    simp [run, Go.runOps] at h
    obtain ⟨rfl, -⟩ := h
    exact ⟨rfl, rfl, rfl⟩
  | append_singleton ops op ih =>
    unfold run at h ih
    rw [Go.runOps_append] at h
    cases e : Go.runOps (logged step) (c, []) ops with
    | panic => rw [e] at h; simp at h
    | hang => rw [e] at h; simp at h
    | val p =>
      obtain ⟨c1, es1⟩ := p
      rw [e] at h
      have f1 := ih e
      cases e2 : step c1 op with
      | panic => simp [Go.runOps, logged, e2] at h
      | hang => simp [Go.runOps, logged, e2] at h
      | val q =>
        obtain ⟨c2, o⟩ := q
        simp [Go.runOps, logged, e2] at h
        obtain ⟨rfl, -⟩ := h
        have f2 := step_frame e2
        exact ⟨f2.1.trans f1.1, f2.2.1.trans f1.2.1, f2.2.2.trans f1.2.2⟩

theorem clear_mk {cfg : Config K} {c : Core K} (h : Frame (mk cfg) c) : clear c = mk cfg := by
  obtain ⟨h1, h2, h3⟩ := h
  unfold clear
  rw [h1, h2, h3]
  simp [mk]

/-! ## Panics -/

theorem sumLoop_panic {term : Nat → Go K} (hh : ∀ j, term j ≠ .hang) (n i : Nat) (acc : K) (h : ∃ j, i ≤ j ∧ j < i + n ∧ term j = .panic) :
    sumLoop term n i acc = .panic := by
  induction n generalizing i acc with
  | zero => obtain ⟨j, a, b, -⟩ := h; omega
  | succ n ih =>
    simp only [sumLoop]
    cases e : term i with
    | panic => rfl
    | hang => exact absurd e (hh i)
    | val t =>
      apply ih
      obtain ⟨j, a, b, hj⟩ := h
      refine ⟨j, ?_, by omega, hj⟩
      by_contra hc
      have : j = i := by omega
      rw [this, e] at hj
      simp at hj

theorem binom_ne_hang (n k : Int) : binom n k ≠ .hang := by
  unfold binom
  split_ifs with h
  · simp
  · have hf : ∀ z, factorial z ≠ .hang := by
      intro z; unfold factorial; split_ifs <;> simp
    have hq : ∀ a b, quo a b ≠ .hang := by
      intro a b; unfold quo; split_ifs <;> simp
    cases e1 : factorial n with
    | panic => simp
    | hang => exact absurd e1 (hf _)
    | val a =>
      cases e2 : factorial k with
      | panic => simp
      | hang => exact absurd e2 (hf _)
      | val b =>
        cases e3 : factorial (n - k) with
        | panic => simp
        | hang => exact absurd e3 (hf _)
        | val c => simpa using hq _ _

theorem coef_ne_hang (k i : Nat) : (coef k i : Go K) ≠ .hang := by
  unfold coef
  have := binom_ne_hang k i
  cases e : binom k i <;> simp_all

theorem coef_panics {k : Nat} (hk : 66 ≤ k) : ∃ i, 1 ≤ i ∧ i ≤ k - 2 ∧ (coef k i : Go K) = .panic := by
  obtain ⟨i, a, b, e⟩ := binom_panics hk
  exact ⟨i, a, b, by unfold coef; rw [e]⟩

theorem addLoop_panic {count delta : K} {n : Nat} (s : Nat → K) (hn : 66 ≤ n) : addLoop count delta n s = .panic := by
  obtain ⟨n, rfl⟩ := Nat.exists_eq_add_of_le' (show 2 ≤ n by omega)
  simp only [addLoop]
  obtain ⟨i, a, b, e⟩ := coef_panics (K := K) hn
  have : addEntry count delta s (n + 2) = .panic := by
    apply sumLoop_panic
    · intro j
      have := coef_ne_hang (K := K) (n + 2) j
      cases e : (coef (n + 2) j : Go K) <;> simp_all
    · exact ⟨i, a, by omega, by rw [e]; rfl⟩
  rw [this]

theorem decayLoop_panic {d delta : K} {n : Nat} (s : Nat → K) (hn : 66 ≤ n) : decayLoop d delta n s = .panic := by
  obtain ⟨n, rfl⟩ := Nat.exists_eq_add_of_le' (show 2 ≤ n by omega)
  simp only [decayLoop]
  obtain ⟨i, a, b, e⟩ := coef_panics (K := K) hn
  have : decayEntry d delta s (n + 2) = .panic := by
    apply sumLoop_panic
    · intro j
      have := coef_ne_hang (K := K) (n + 2) j
      cases e : (coef (n + 2) j : Go K) <;> simp_all
    · exact ⟨i, a, by omega, by rw [e]; rfl⟩
  rw [this]

/-- With an exponent of 66 or more the first `Push` panics. -/
theorem push_panic {c : Core K} (hl : 67 ≤ c.len) (hw : 0 ≤ c.window) (hq : c.queue = Ring.new c.window.toNat) (x : K) :
    push c x = .panic := by
  have hadd : ∀ c' : Core K, c'.len = c.len → pushAdd c' x = .panic := by
    intro c' hc
    unfold pushAdd
    cases hd : c'.decay with
    | none =>
      have : add c' x = .panic := by
        unfold add; simp only; rw [addLoop_panic _ (by omega)]
      simp only [this]
    | some d =>
      have : addDecay d c' x = .panic := by
        unfold addDecay; simp only; rw [decayLoop_panic _ (by omega)]
      simp only [this]
  unfold push
  split_ifs with h
  · have hpos : 0 < c.window.toNat := by omega
    have he : evict c = .val (.ok c) := by
      unfold evict
      rw [if_neg]
      rw [hq]
      simp [Ring.new, Ring.len]; omega
    rw [he]
    simp only
    have h1 : c.queue.disposed = false := by rw [hq]; rfl
    have h2 : c.queue.items.length < c.queue.cap := by
      rw [hq]
      have := Ring.le_roundUp c.window.toNat
      simp [Ring.new]; omega
    rw [Ring.put_ok h1 h2]
    simp only
    exact hadd _ rfl
  · exact hadd _ rfl

/-! ## Configurations -/

theorem le_foldl_max (z a : Int) (l : List Int) : z ≤ l.foldl max a ↔ z ≤ a ∨ ∃ j ∈ l, z ≤ j := by
  induction l generalizing a with
  | nil => simp
  | cons b l ih => rw [List.foldl_cons, ih]; simp [or_assoc]

theorem lt_len {cfg : Config K} (k : Nat) : k < (mk cfg).len ↔ ∃ j ∈ cfg.sums.getD [], (k : Int) ≤ j := by
  have h := le_foldl_max (k : Int) (-1) (cfg.sums.getD [])
  have : k < (mk cfg).len ↔ (k : Int) ≤ (cfg.sums.getD []).foldl max (-1) := by
    show k < ((cfg.sums.getD []).foldl max (-1) + 1).toNat ↔ _
    omega
  rw [this, h]
  constructor
  · rintro (h | h)
    · omega
    · exact h
  · exact Or.inr

theorem len_le {cfg : Config K} {n : Nat} (h : ∀ j ∈ cfg.sums.getD [], j ≤ n) : (mk cfg).len ≤ n + 1 := by
  by_contra hc
  obtain ⟨j, hj, hk⟩ := (lt_len (cfg := cfg) (n + 1)).1 (by omega)
  have := h j hj
  push_cast at hk
  omega

section
variable [LinearOrder K]

/-- The configurations `NewCore` documents as valid. -/
def Valid (cfg : Config K) : Prop :=
  ∃ w : Nat, cfg.window = some (w : Int) ∧ (∀ d, cfg.decay = some d → 0 < d ∧ d < 1 ∧ w = 0) ∧ ∀ k ∈ cfg.sums.getD [], 0 < k

theorem newCore_iff (cfg : Config K) (c : Core K) : newCore cfg = .ok c ↔ Valid cfg ∧ c = mk (setDefaults cfg) := by
  have key : validate 0 1 (setDefaults cfg) = none ↔ Valid cfg := by
    unfold validate Valid setDefaults
    simp only
    cases hw : cfg.window with
    | none => simp
    | some w =>
      simp only
      by_cases hneg : w < 0
      · rw [if_pos hneg]
        simp only [reduceCtorEq, false_iff]
        rintro ⟨w', h, -⟩
        simp at h; omega
      · rw [if_neg hneg]
        have hany : ((cfg.sums.getD []).any (· ≤ 0)) = true ↔ ¬ ∀ k ∈ cfg.sums.getD [], 0 < k := by
          simp
        obtain ⟨w', rfl⟩ : ∃ w' : Nat, w = w' := ⟨w.toNat, by omega⟩
        cases hd : cfg.decay with
        | none =>
          simp only [Option.getD_some]
          split_ifs with h
          · simp only [reduceCtorEq, false_iff]
            rintro ⟨w, -, -, h'⟩
            exact hany.1 h h'
          · simp only [true_iff]
            exact ⟨w', rfl, by simp, by rw [hany] at h; exact not_not.1 h⟩
        | some d =>
          simp only [Option.getD_some, goLe_eq]
          by_cases h1 : d ≤ 0
          · simp [h1, not_lt.2 h1]
          · by_cases h2 : 1 ≤ d
            · simp [h2, not_lt.2 h2]
            · have hb : (decide (d ≤ 0) || decide (1 ≤ d)) = false := by simp [h1, h2]
              rw [hb]
              simp only [Bool.false_eq_true, if_false]
              by_cases h3 : (w' : Int) > 0
              · rw [if_pos h3]
                simp only [reduceCtorEq, false_iff]
                rintro ⟨w, e, h, -⟩
                have := (h d rfl).2.2
                simp at e; omega
              · rw [if_neg h3]
                split_ifs with h
                · simp only [reduceCtorEq, false_iff]
                  rintro ⟨w, -, -, h'⟩
                  exact hany.1 h h'
                · simp only [true_iff]
                  refine ⟨w', rfl, ?_, by rw [hany] at h; exact not_not.1 h⟩
                  rintro d' h
                  simp at h; subst h
                  exact ⟨not_le.1 h1, not_le.1 h2, by omega⟩
  unfold newCore
  cases hv : validate 0 1 (setDefaults cfg) with
  | none => simp [key.1 hv, eq_comm]
  | some e =>
    simp only [reduceCtorEq, false_iff]
    rintro ⟨h, -⟩
    rw [key.2 h] at hv
    simp at hv

theorem newCore_error {cfg : Config K} (h : ¬ Valid cfg) : ∃ e, newCore cfg = .error e := by
  cases he : newCore cfg with
  | error e => exact ⟨e, rfl⟩
  | ok c => exact absurd ((newCore_iff cfg c).1 he).1 h

end

end Verif.Moment
