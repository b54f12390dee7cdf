import Verif.Proofs.Moment
import Verif.Proofs.JointMetric
import Verif.Proofs.Window

/-! # How much the past weighs in the exponentially weighted quantities -/

set_option linter.unusedSectionVars false

namespace Verif.Forget
open Verif Verif.Spec

variable {K : Type} [Field K] [LinearOrder K] [IsStrictOrderedRing K]

theorem ewTotal_snoc {α : Type} (d : K) (f : α → K) {xs : List α} (h : xs ≠ []) (x : α) :
    ewTotal d f (xs ++ [x]) = (1 - d) * ewTotal d f xs + d * f x := by
  have e : ∀ ps : List (K × α), ((ps.map fun p => ((1 - d) * p.1, p.2)).map fun p => p.1 * f p.2).sum = (1 - d) * (ps.map fun p => p.1 * f p.2).sum := by
    intro ps
    induction ps with
    | nil => simp
    | cons p ps ih => simp only [List.map_cons, List.sum_cons, ih]; ring
  rw [Moment.ewTotal_pairs, Moment.ewTotal_pairs, Moment.pairs_snoc d h, List.map_append, List.sum_append, e]
  simp

theorem ewTotal_one {α : Type} (d : K) (f : α → K) (x : α) : ewTotal d f [x] = f x := by
  rw [Moment.ewTotal_pairs, Moment.pairs_one]
  simp

/-- After the same `n` values two weighted sums have come closer by `(1 - d)^n`. -/
theorem ewTotal_diff {α : Type} (d : K) (f : α → K) {xs xs' : List α} (h : xs ≠ []) (h' : xs' ≠ []) (ys : List α) :
    ewTotal d f (xs ++ ys) - ewTotal d f (xs' ++ ys) = (1 - d) ^ ys.length * (ewTotal d f xs - ewTotal d f xs') := by
  induction ys using List.reverseRecOn with
  | nil => simp
  | append_singleton ys y ih =>
    rw [← List.append_assoc, ← List.append_assoc, ewTotal_snoc d f (by simp [h]), ewTotal_snoc d f (by simp [h']), List.length_append,
      List.length_singleton, pow_succ]
    linear_combination (1 - d) * ih

theorem ewTotal_sub {α : Type} (d : K) (f g : α → K) (xs : List α) : ewTotal d f xs - ewTotal d g xs = ewTotal d (fun x => f x - g x) xs := by
  induction xs using List.reverseRecOn with
  | nil => simp [ewTotal]
  | append_singleton xs x ih =>
    by_cases h : xs = []
    · subst h; simp only [List.nil_append, ewTotal_one]
    · rw [ewTotal_snoc d f h, ewTotal_snoc d g h, ewTotal_snoc d _ h]
      linear_combination (1 - d) * ih

theorem ewTotal_le {α : Type} {d C : K} (hd0 : 0 ≤ d) (hd1 : d ≤ 1) (hC : 0 ≤ C) {f : α → K} {xs : List α} (h : ∀ x ∈ xs, |f x| ≤ C) :
    |ewTotal d f xs| ≤ C := by
  induction xs using List.reverseRecOn with
  | nil => simpa [ewTotal] using hC
  | append_singleton xs x ih =>
    by_cases hnil : xs = []
    · subst hnil
      rw [List.nil_append, ewTotal_one]
      exact h x (by simp)
    · rw [ewTotal_snoc d f hnil]
      have h1 := ih (fun y hy => h y (by simp [hy]))
      have h2 := abs_add_le ((1 - d) * ewTotal d f xs) (d * f x)
      rw [abs_mul, abs_mul, abs_of_nonneg (show 0 ≤ 1 - d by linarith), abs_of_nonneg hd0] at h2
      have h3 := mul_le_mul_of_nonneg_left h1 (show 0 ≤ 1 - d by linarith)
      have h4 := mul_le_mul_of_nonneg_left (h x (by simp)) hd0
      linarith

theorem ewTotal_forget {α : Type} {d C : K} (hd0 : 0 ≤ d) (hd1 : d ≤ 1) (hC : 0 ≤ C) {f : α → K} {xs xs' : List α} (h : xs ≠ []) (h' : xs' ≠ [])
    (hx : ∀ x ∈ xs, |f x| ≤ C) (hx' : ∀ x ∈ xs', |f x| ≤ C) (ys : List α) :
    |ewTotal d f (xs ++ ys) - ewTotal d f (xs' ++ ys)| ≤ 2 * C * (1 - d) ^ ys.length := by
  rw [ewTotal_diff d f h h', abs_mul, abs_of_nonneg (pow_nonneg (by linarith) _)]
  have h1 : |ewTotal d f xs - ewTotal d f xs'| ≤ 2 * C :=
    (abs_sub _ _).trans (by linarith [ewTotal_le hd0 hd1 hC hx, ewTotal_le hd0 hd1 hC hx'])
  have := mul_le_mul_of_nonneg_left h1 (pow_nonneg (show 0 ≤ 1 - d by linarith) ys.length)
  linarith

theorem pow_sub_le {a b B : K} (ha : |a| ≤ B) (hb : |b| ≤ B) (k : Nat) : |a ^ k - b ^ k| ≤ k * B ^ (k - 1) * |a - b| := by
  have hB : 0 ≤ B := (abs_nonneg _).trans ha
  induction k with
  | zero => simp
  | succ k ih =>
    have e : a ^ (k + 1) - b ^ (k + 1) = a * (a ^ k - b ^ k) + (a - b) * b ^ k := by ring
    rw [e]
    refine (abs_add_le _ _).trans ?_
    rw [abs_mul, abs_mul, abs_pow]
    have h1 := mul_le_mul ha ih (abs_nonneg _) hB
    have h2 := mul_le_mul_of_nonneg_left (pow_le_pow_left₀ (abs_nonneg _) hb k) (abs_nonneg (a - b))
    have h3 : B * (k * B ^ (k - 1) * |a - b|) = k * B ^ k * |a - b| := by
      cases k with
      | zero => simp
      | succ k => rw [Nat.add_sub_cancel, pow_succ]; ring
    rw [h3] at h1
    push_cast
    linarith

theorem ewMean_forget {d M : K} (hd0 : 0 ≤ d) (hd1 : d ≤ 1) (hM : 0 ≤ M) {xs xs' ys : List K} (h : xs ≠ []) (h' : xs' ≠ [])
    (hx : ∀ x ∈ xs, |x| ≤ M) (hx' : ∀ x ∈ xs', |x| ≤ M) :
    |ewMean d (xs ++ ys) - ewMean d (xs' ++ ys)| ≤ 2 * M * (1 - d) ^ ys.length :=
  ewTotal_forget hd0 hd1 hM h h' hx hx' ys

theorem ewMoment_forget {d M : K} (hd0 : 0 ≤ d) (hd1 : d ≤ 1) (hM : 0 ≤ M) {xs xs' ys : List K} (h : xs ≠ []) (h' : xs' ≠ [])
    (hx : ∀ x ∈ xs, |x| ≤ M) (hx' : ∀ x ∈ xs', |x| ≤ M) (hy : ∀ y ∈ ys, |y| ≤ M) (k : Nat) :
    |ewMoment d k (xs ++ ys) - ewMoment d k (xs' ++ ys)| ≤ (k + 2) * (2 * M) ^ k * (1 - d) ^ ys.length := by
  have hr : 0 ≤ (1 - d) ^ ys.length := pow_nonneg (by linarith) _
  have hz : ∀ z ∈ xs ++ ys, |z| ≤ M := fun z hz => (List.mem_append.1 hz).elim (hx z) (hy z)
  have hz' : ∀ z ∈ xs' ++ ys, |z| ≤ M := fun z hz => (List.mem_append.1 hz).elim (hx' z) (hy z)
  have m1 : |ewMean d (xs ++ ys)| ≤ M := ewTotal_le hd0 hd1 hM hz
  have m2 : |ewMean d (xs' ++ ys)| ≤ M := ewTotal_le hd0 hd1 hM hz'
  have hm := ewMean_forget hd0 hd1 hM h h' hx hx' (ys := ys)
  unfold ewMoment
  generalize ewMean d (xs ++ ys) = μ at *
  generalize ewMean d (xs' ++ ys) = μ' at *
  have dev : ∀ {z m : K}, |z| ≤ M → |m| ≤ M → |z - m| ≤ 2 * M := fun hz hm => (abs_sub _ _).trans (by linarith)
  have devk : ∀ {z m : K}, |z| ≤ M → |m| ≤ M → |(z - m) ^ k| ≤ (2 * M) ^ k := fun hz hm => by
    rw [abs_pow]; exact pow_le_pow_left₀ (abs_nonneg _) (dev hz hm) k
  have a1 : |ewTotal d (fun x => (x - μ) ^ k) (xs ++ ys) - ewTotal d (fun x => (x - μ') ^ k) (xs ++ ys)| ≤
      k * (2 * M) ^ k * (1 - d) ^ ys.length := by
    rw [ewTotal_sub]
    refine ewTotal_le hd0 hd1 (by positivity) fun z hz1 => ?_
    refine (pow_sub_le (dev (hz z hz1) m1) (dev (hz z hz1) m2) k).trans ?_
    rw [show z - μ - (z - μ') = -(μ - μ') by ring, abs_neg]
    refine (mul_le_mul_of_nonneg_left hm (by positivity)).trans (le_of_eq ?_)
    cases k with
    | zero => simp
    | succ k => rw [Nat.add_sub_cancel, pow_succ]; ring
  have a2 := ewTotal_forget hd0 hd1 (by positivity) (C := (2 * M) ^ k) (f := fun x => (x - μ') ^ k) h h' (fun z hz => devk (hx z hz) m2)
    (fun z hz => devk (hx' z hz) m2) ys
  have := abs_sub_le (ewTotal d (fun x => (x - μ) ^ k) (xs ++ ys)) (ewTotal d (fun x => (x - μ') ^ k) (xs ++ ys))
    (ewTotal d (fun x => (x - μ') ^ k) (xs' ++ ys))
  linarith

theorem coord_append (j : Nat) (xs ys : List (List K)) : coord j (xs ++ ys) = coord j xs ++ coord j ys := by simp [coord]

theorem ewCov_forget {d M₁ M₂ : K} (hd0 : 0 ≤ d) (hd1 : d ≤ 1) (hM₁ : 0 ≤ M₁) (hM₂ : 0 ≤ M₂) {xs xs' ys : List (List K)} (h : xs ≠ []) (h' : xs' ≠ [])
    (hb : ∀ p ∈ xs ++ xs' ++ ys, |p.getD 0 0| ≤ M₁ ∧ |p.getD 1 0| ≤ M₂) :
    |ewCov d (xs ++ ys) - ewCov d (xs' ++ ys)| ≤ 16 * (M₁ * M₂) * (1 - d) ^ ys.length := by
  have hr : 0 ≤ (1 - d) ^ ys.length := pow_nonneg (by linarith) _
  have hx : ∀ p ∈ xs, |p.getD 0 0| ≤ M₁ ∧ |p.getD 1 0| ≤ M₂ := fun p hp => hb p (by simp [hp])
  have hx' : ∀ p ∈ xs', |p.getD 0 0| ≤ M₁ ∧ |p.getD 1 0| ≤ M₂ := fun p hp => hb p (by simp [hp])
  have hz : ∀ p ∈ xs ++ ys, |p.getD 0 0| ≤ M₁ ∧ |p.getD 1 0| ≤ M₂ := fun p hp => hb p (by simp at hp ⊢; tauto)
  have hz' : ∀ p ∈ xs' ++ ys, |p.getD 0 0| ≤ M₁ ∧ |p.getD 1 0| ≤ M₂ := fun p hp => hb p (by simp at hp ⊢; tauto)
  have cb : ∀ {j : Nat} {M : K} {l : List (List K)}, (∀ p ∈ l, |p.getD j 0| ≤ M) → ∀ x ∈ coord j l, |x| ≤ M := by
    intro j M l hl x hx
    obtain ⟨p, hp, rfl⟩ := List.mem_map.1 hx
    exact hl p hp
  have cn : ∀ {j : Nat} {l : List (List K)}, l ≠ [] → coord j l ≠ [] := fun h => by simpa [coord] using h
  have m1 : |ewMean d (coord 0 (xs ++ ys))| ≤ M₁ := ewTotal_le hd0 hd1 hM₁ (cb fun p hp => (hz p hp).1)
  have m1' : |ewMean d (coord 0 (xs' ++ ys))| ≤ M₁ := ewTotal_le hd0 hd1 hM₁ (cb fun p hp => (hz' p hp).1)
  have m2 : |ewMean d (coord 1 (xs ++ ys))| ≤ M₂ := ewTotal_le hd0 hd1 hM₂ (cb fun p hp => (hz p hp).2)
  have m2' : |ewMean d (coord 1 (xs' ++ ys))| ≤ M₂ := ewTotal_le hd0 hd1 hM₂ (cb fun p hp => (hz' p hp).2)
  have d1 := ewMean_forget hd0 hd1 hM₁ (cn (j := 0) h) (cn h') (cb fun p hp => (hx p hp).1) (cb fun p hp => (hx' p hp).1) (ys := coord 0 ys)
  have d2 := ewMean_forget hd0 hd1 hM₂ (cn (j := 1) h) (cn h') (cb fun p hp => (hx p hp).2) (cb fun p hp => (hx' p hp).2) (ys := coord 1 ys)
  rw [← coord_append, ← coord_append, show (coord 0 ys).length = ys.length by simp [coord]] at d1
  rw [← coord_append, ← coord_append, show (coord 1 ys).length = ys.length by simp [coord]] at d2
  unfold ewCov
  generalize ewMean d (coord 0 (xs ++ ys)) = μ at *
  generalize ewMean d (coord 0 (xs' ++ ys)) = μ' at *
  generalize ewMean d (coord 1 (xs ++ ys)) = ν at *
  generalize ewMean d (coord 1 (xs' ++ ys)) = ν' at *
  have dev : ∀ {z m M : K}, |z| ≤ M → |m| ≤ M → |z - m| ≤ 2 * M := fun hz hm => (abs_sub _ _).trans (by linarith)
  have devp : ∀ p : List K, |p.getD 0 0| ≤ M₁ ∧ |p.getD 1 0| ≤ M₂ → |(p.getD 0 0 - μ') * (p.getD 1 0 - ν')| ≤ 4 * (M₁ * M₂) := fun p hp => by
    rw [abs_mul]
    have := mul_le_mul (dev hp.1 m1') (dev hp.2 m2') (abs_nonneg _) (by positivity)
    linarith
  have a1 : |ewTotal d (fun p : List K => (p.getD 0 0 - μ) * (p.getD 1 0 - ν)) (xs ++ ys) -
      ewTotal d (fun p => (p.getD 0 0 - μ') * (p.getD 1 0 - ν')) (xs ++ ys)| ≤ 8 * (M₁ * M₂) * (1 - d) ^ ys.length := by
    rw [ewTotal_sub]
    refine ewTotal_le hd0 hd1 (by positivity) fun p hp => ?_
    obtain ⟨p1, p2⟩ := hz p hp
    rw [show (p.getD 0 0 - μ) * (p.getD 1 0 - ν) - (p.getD 0 0 - μ') * (p.getD 1 0 - ν') =
      -((μ - μ') * (p.getD 1 0 - ν)) + -((p.getD 0 0 - μ') * (ν - ν')) by ring]
    refine (abs_add_le _ _).trans ?_
    rw [abs_neg, abs_neg, abs_mul, abs_mul]
    have h1 := mul_le_mul d1 (dev p2 m2) (abs_nonneg _) (by positivity)
    have h2 := mul_le_mul (dev p1 m1') d2 (abs_nonneg _) (by positivity)
    linarith
  have a2 := ewTotal_forget hd0 hd1 (C := 4 * (M₁ * M₂)) (by positivity) (f := fun p : List K => (p.getD 0 0 - μ') * (p.getD 1 0 - ν')) h h'
    (fun p hp => devp p (hx p hp)) (fun p hp => devp p (hx' p hp)) ys
  have := abs_sub_le (ewTotal d (fun p : List K => (p.getD 0 0 - μ) * (p.getD 1 0 - ν)) (xs ++ ys))
    (ewTotal d (fun p => (p.getD 0 0 - μ') * (p.getD 1 0 - ν')) (xs ++ ys)) (ewTotal d (fun p => (p.getD 0 0 - μ') * (p.getD 1 0 - ν')) (xs' ++ ys))
  linarith

end Verif.Forget
