import Verif.Model.MomentMetric
import Verif.Proofs.Moment
import Mathlib.Algebra.Order.BigOperators.Group.List
import Mathlib.Tactic.Positivity
import Mathlib.Tactic.Linarith

/-! # The laws of central power sums and the metrics of package `moment` -/

set_option linter.unusedSectionVars false
set_option linter.unusedSimpArgs false

namespace Verif.Moment
open Verif Verif.Spec

section xf
variable {K : Type} [Field K] [LinearOrder K]
@[simp] theorem nan_div (a : XF K) : XF.div .nan a = .nan := by cases a <;> rfl
@[simp] theorem div_nan (a : XF K) : XF.div a .nan = .nan := by cases a <;> rfl
@[simp] theorem nan_mul (a : XF K) : XF.mul .nan a = .nan := by cases a <;> rfl
@[simp] theorem mul_nan (a : XF K) : XF.mul a .nan = .nan := by cases a <;> rfl
@[simp] theorem nan_sub (a : XF K) : XF.sub .nan a = .nan := by cases a <;> rfl
end xf

section laws
variable {K : Type} [Field K]

theorem sum_map_affine (a b : K) (xs : List K) : (xs.map (fun x => a * x + b)).sum = a * xs.sum + xs.length * b := by
  induction xs with
  | nil => simp
  | cons x xs ih => simp only [List.map_cons, List.sum_cons, ih, List.length_cons]; push_cast; ring

theorem mean_affine [CharZero K] (a b : K) {xs : List K} (h : xs ≠ []) :
    Spec.mean (xs.map (fun x => a * x + b)) = a * Spec.mean xs + b := by
  have : (xs.length : K) ≠ 0 := by
    have := List.length_pos_iff.2 h
    exact_mod_cast this.ne'
  unfold Spec.mean
  rw [sum_map_affine, List.length_map]
  field_simp

theorem sum_map_mul (a : K) (f : K → K) (xs : List K) : (xs.map (fun x => a * f x)).sum = a * (xs.map f).sum := by
  induction xs with
  | nil => simp
  | cons x xs ih => simp only [List.map_cons, List.sum_cons, ih]; ring

theorem csum_affine [CharZero K] (a b : K) (k : Nat) (xs : List K) : csum k (xs.map (fun x => a * x + b)) = a ^ k * csum k xs := by
  by_cases h : xs = []
  · subst h; simp [csum]
  · unfold csum
    rw [mean_affine a b h, List.map_map, ← sum_map_mul]
    congr 1
    apply List.map_congr_left
    intro x _
    simp only [Function.comp_apply]
    rw [← mul_pow]; congr 1; ring

theorem csum_zero (xs : List K) : csum 0 xs = xs.length := by simp [csum]

theorem csum_three_two [CharZero K] (a b : K) : csum 3 [a, b] = 0 := by
  simp only [csum, Spec.mean, List.map_cons, List.map_nil, List.sum_cons, List.sum_nil, List.length_cons, List.length_nil]
  push_cast
  field_simp; ring

theorem csum_single (x : K) {k : Nat} (hk : k ≠ 0) : csum k [x] = 0 := by
  simp [csum, Spec.mean, hk]

variable [LinearOrder K] [IsStrictOrderedRing K]

theorem csum_two_nonneg (xs : List K) : 0 ≤ csum 2 xs := by
  unfold csum
  apply List.sum_nonneg
  intro y hy
  obtain ⟨x, -, rfl⟩ := List.mem_map.1 hy
  positivity

theorem sum_sq_eq_zero {ys : List K} (h : (ys.map (fun y => y ^ 2)).sum = 0) : ∀ y ∈ ys, y = 0 := by
  induction ys with
  | nil => simp
  | cons y ys ih =>
    simp only [List.map_cons, List.sum_cons] at h
    have h1 : 0 ≤ (ys.map (fun y => y ^ 2)).sum := by
      apply List.sum_nonneg
      intro z hz
      obtain ⟨x, -, rfl⟩ := List.mem_map.1 hz
      positivity
    have h2 : 0 ≤ y ^ 2 := by positivity
    intro z hz
    rcases List.mem_cons.1 hz with rfl | hz
    · have : z ^ 2 = 0 := by linarith
      simpa using this
    · exact ih (by linarith) z hz

theorem mean_const {xs : List K} {a : K} (hx : xs ≠ []) (h : ∀ x ∈ xs, x = a) : Spec.mean xs = a := by
  have hn : (xs.length : K) ≠ 0 := by
    have := List.length_pos_iff.2 hx
    exact_mod_cast this.ne'
  have : xs.sum = xs.length * a := by
    rw [List.eq_replicate_of_mem h]
    simp
  rw [Spec.mean, this]
  field_simp

theorem csum_two_eq_zero_iff (xs : List K) : csum 2 xs = 0 ↔ ∀ x ∈ xs, ∀ y ∈ xs, x = y := by
  constructor
  · intro h x hx y hy
    have := sum_sq_eq_zero (ys := xs.map (fun x => x - Spec.mean xs)) (by rw [List.map_map]; exact h)
    have h1 := this (x - Spec.mean xs) (List.mem_map.2 ⟨x, hx, rfl⟩)
    have h2 := this (y - Spec.mean xs) (List.mem_map.2 ⟨y, hy, rfl⟩)
    linarith
  · intro h
    cases xs with
    | nil => simp [csum]
    | cons a xs =>
      have hm : Spec.mean (a :: xs) = a := mean_const (by simp) fun x hx => h x hx a (by simp)
      unfold csum
      rw [hm]
      apply List.sum_eq_zero
      intro z hz
      obtain ⟨x, hx, rfl⟩ := List.mem_map.1 hz
      rw [h x hx a (by simp)]; simp

/-- Cauchy-Schwarz for a list. -/
theorem sq_sum_le (ys : List K) : ys.sum ^ 2 ≤ ys.length * (ys.map (fun y => y ^ 2)).sum := by
  induction ys with
  | nil => simp
  | cons y ys ih =>
    simp only [List.map_cons, List.sum_cons, List.length_cons]
    push_cast
    by_cases hn : ys = []
    · subst hn; simp
    · have hpos : (0 : K) < ys.length := by
        have := List.length_pos_iff.2 hn
        exact_mod_cast this
      have hs : 0 ≤ (ys.length : K) * (ys.map (fun y => y ^ 2)).sum - ys.sum ^ 2 := by linarith
      have h2 : 0 ≤ ((ys.length : K) * y - ys.sum) ^ 2 := by positivity
      have key : (ys.length : K) * (((ys.length : K) + 1) * (y ^ 2 + (ys.map (fun y => y ^ 2)).sum) - (y + ys.sum) ^ 2) =
          ((ys.length : K) * y - ys.sum) ^ 2 + ((ys.length : K) + 1) * ((ys.length : K) * (ys.map (fun y => y ^ 2)).sum - ys.sum ^ 2) := by
        ring
      have : 0 ≤ (ys.length : K) * (((ys.length : K) + 1) * (y ^ 2 + (ys.map (fun y => y ^ 2)).sum) - (y + ys.sum) ^ 2) := by
        rw [key]; positivity
      have := nonneg_of_mul_nonneg_right this hpos
      linarith

theorem csum_two_sq_le (xs : List K) : csum 2 xs ^ 2 ≤ xs.length * csum 4 xs := by
  have := sq_sum_le (xs.map (fun x => (x - Spec.mean xs) ^ 2))
  rw [List.length_map, List.map_map] at this
  have e : ((fun y : K => y ^ 2) ∘ fun x => (x - Spec.mean xs) ^ 2) = fun x => (x - Spec.mean xs) ^ 4 := by
    funext x; simp only [Function.comp_apply]; ring
  rw [e] at this
  exact this

theorem exKurtosis_ge {xs : List K} (h : csum 2 xs ≠ 0) : -2 ≤ exKurtosis xs := by
  have hx : xs ≠ [] := by rintro rfl; simp [csum] at h
  have hn : (0 : K) < xs.length := by
    have := List.length_pos_iff.2 hx
    exact_mod_cast this
  have hp : 0 < csum 2 xs ^ 2 := by positivity
  unfold exKurtosis popMoment
  have : csum 4 xs / xs.length / (csum 2 xs / xs.length) ^ 2 = xs.length * csum 4 xs / csum 2 xs ^ 2 := by
    field_simp
  rw [this]
  have h1 : 1 ≤ xs.length * csum 4 xs / csum 2 xs ^ 2 := by
    rw [le_div_iff₀ hp, one_mul]; exact csum_two_sq_le xs
  linarith

end laws

/-! ## Metrics -/

section metrics
variable {K : Type} [Field K]
open Metric

theorem metric_push {m : Metric K} {c c' : Core K} {x : K} (hc : m.core = some c) (e : Moment.push c x = .val (c', none)) :
    Metric.push m x = .val ({ m with core := some c' }, none) := by
  unfold Metric.push
  rw [hc]
  simp only
  rw [e]

theorem metric_run {m : Metric K} {c : Core K} (hc : m.core = some c) {ops : List (MOp K)} {c' : Core K}
    (e : Moment.run c ops = .val (c', [])) : Metric.run m ops = .val ({ m with core := some c' }, []) := by
  induction ops using List.reverseRecOn generalizing c' with
  | nil =>
    simp [Moment.run, Go.runOps] at e
    subst e
    cases m
    simp at hc
    subst hc
    rfl
  | append_singleton ops op ih =>
    unfold Moment.run at e ih
    rw [Go.runOps_append] at e
    cases e1 : Go.runOps (logged Moment.step) (c, []) ops with
    | panic => rw [e1] at e; simp at e
    | hang => rw [e1] at e; simp at e
    | val q =>
      obtain ⟨c1, es⟩ := q
      rw [e1] at e
      cases e2 : Moment.step c1 op with
      | panic => simp [Go.runOps, logged, e2] at e
      | hang => simp [Go.runOps, logged, e2] at e
      | val q =>
        obtain ⟨c2, o⟩ := q
        simp [Go.runOps, logged, e2] at e
        obtain ⟨rfl, hes, ho⟩ := e
        subst hes; subst ho
        have := ih e1
        unfold Metric.run at this ⊢
        rw [Go.runOps_append, this]
        cases op with
        | push x =>
          have h := metric_push (m := { m with core := some c1 }) rfl (show Moment.push c1 x = .val (c2, none) from e2)
          simp [Go.runOps, logged, Metric.step, h]
        | clear =>
          simp [Moment.step] at e2
          subst e2
          simp [Go.runOps, logged, Metric.step, Metric.clear]

theorem windowOf_eq (w : Nat) (ops : List (MOp K)) : windowOf w ops = lastN w (since ops) := rfl

variable [LinearOrder K]

theorem init_ok {k : Kind K} (hv : Valid (config k)) : (Metric.new k).init = (⟨k, some (mk (setDefaults (config k)))⟩, none) := by
  have := (newCore_iff (config k) _).2 ⟨hv, rfl⟩
  unfold Metric.init
  simp only [Metric.new]
  rw [this]

theorem init_error {k : Kind K} (hv : ¬ Valid (config k)) : ∃ e, (Metric.new k).init = (Metric.new k, some e) := by
  obtain ⟨e, he⟩ := newCore_error hv
  exact ⟨_, by unfold Metric.init; simp only [Metric.new]; rw [he]⟩

theorem metric_W [CharZero K] {k : Kind K} {w : Nat} (hv : Valid (config k)) (hw : (config k).window = some (w : Int)) (hd : (config k).decay = none)
    (hs : ∀ j ∈ (config k).sums.getD [], j ≤ 65) (ops : List (MOp K)) :
    ∃ c, Metric.run ((Metric.new k).init).1 ops = .val (⟨k, some c⟩, []) ∧ W w (since ops) c ∧ c.len = (mk (setDefaults (config k))).len := by
  have hW := mk_W (cfg := setDefaults (config k)) (w := w) hw hd
  have hl : (mk (setDefaults (config k))).len ≤ 66 := len_le (n := 65) (by simpa [setDefaults] using hs)
  obtain ⟨c, e, hW', hlen⟩ := run_W hW hl ops
  refine ⟨c, ?_, hW', hlen⟩
  rw [init_ok hv]
  exact metric_run (m := ⟨k, some (mk (setDefaults (config k)))⟩) rfl e

theorem metric_D {k : Kind K} {d : K} (hv : Valid (config k)) (hw : (config k).window = some 0) (hd : (config k).decay = some d)
    (hs : ∀ j ∈ (config k).sums.getD [], j ≤ 65) (ops : List (MOp K)) :
    ∃ c, Metric.run ((Metric.new k).init).1 ops = .val (⟨k, some c⟩, []) ∧ D d (since ops) c ∧ c.len = (mk (setDefaults (config k))).len := by
  have hW := mk_D (cfg := setDefaults (config k)) hw hd
  have hl : (mk (setDefaults (config k))).len ≤ 66 := len_le (n := 65) (by simpa [setDefaults] using hs)
  obtain ⟨c, e, hW', hlen⟩ := run_D hW hl ops
  refine ⟨c, ?_, hW', hlen⟩
  rw [init_ok hv]
  exact metric_run (m := ⟨k, some (mk (setDefaults (config k)))⟩) rfl e

/-! ### Reading the core -/

theorem W.count {w : Nat} {xs : List K} {c : Core K} (h : W w xs c) : c.count = (lastN w xs).length := h.rep.count

theorem W.sum_ok [CharZero K] {w : Nat} {xs : List K} {c : Core K} (h : W w xs c) (hx : lastN w xs ≠ []) {k : Nat} (h1 : 1 ≤ k) (hl : k < c.len) (hk : k ≤ 20) :
    Moment.sum c k = .ok (csum k (lastN w xs)) := by
  unfold Moment.sum
  have h0 : ¬ c.count = 0 := by
    rw [h.count]
    have := List.length_pos_iff.2 hx
    omega
  rw [if_neg h0, if_neg (by omega), Int.toNat_natCast]
  congr 1
  by_cases h2 : k = 1
  · subst h2; rw [h.rep.low 1 (by omega), csum_one]
  · exact h.rep.sums k (by omega) hl hk

theorem W.sum_error {w : Nat} {xs : List K} {c : Core K} (h : W w xs c) (hx : lastN w xs = []) (k : Int) :
    Moment.sum c k = .error "no values seen yet" := by
  unfold Moment.sum
  rw [if_pos (by rw [h.count, hx]; rfl)]

theorem D.sum_ok {d : K} {xs : List K} {c : Core K} (h : D d xs c) (hx : xs ≠ []) {k : Nat} (h1 : 1 ≤ k) (hl : k < c.len) (hk : k ≤ 20) :
    Moment.sum c k = .ok (ewMoment d k xs) := by
  unfold Moment.sum
  have h0 : ¬ c.count = 0 := by
    rw [h.count]
    have := List.length_pos_iff.2 hx
    omega
  rw [if_neg h0, if_neg (by omega), Int.toNat_natCast]
  congr 1
  by_cases h2 : k = 1
  · subst h2; rw [h.low 1 (by omega), ewMoment_eq, pairs_center]
  · exact h.sums k (by omega) hl hk

theorem D.sum_error {d : K} {xs : List K} {c : Core K} (h : D d xs c) (hx : xs = []) (k : Int) :
    Moment.sum c k = .error "no values seen yet" := by
  unfold Moment.sum
  rw [if_pos (by rw [h.count, hx]; rfl)]

/-! ### Values -/

theorem momentValue_ok [CharZero K] {w : Nat} {xs : List K} {c : Core K} (h : W w xs c) (hx : 2 ≤ (lastN w xs).length) {k : Nat} (h1 : 1 ≤ k)
    (hl : k < c.len) (hk : k ≤ 20) : momentValue (k : Int) (some c) = .ok (.fin (sampleMoment k (lastN w xs))) := by
  unfold momentValue
  simp only
  rw [h.sum_ok (by rintro e; rw [e] at hx; simp at hx) h1 hl hk]
  simp only [Metric.wrap, XF.div, cnt, h.count]
  rw [if_neg]
  · push_cast; rfl
  · intro hc
    have : ((lastN w xs).length : K) = 1 := by
      push_cast at hc; linear_combination hc
    have : (lastN w xs).length = 1 := by exact_mod_cast this
    omega

theorem momentValue_one [CharZero K] {w : Nat} {xs : List K} {c : Core K} (h : W w xs c) (hx : (lastN w xs).length = 1) {k : Nat} (h1 : 1 ≤ k)
    (hl : k < c.len) (hk : k ≤ 20) : momentValue (k : Int) (some c) = .ok .nan := by
  unfold momentValue
  simp only
  rw [h.sum_ok (by rintro e; rw [e] at hx; simp at hx) h1 hl hk]
  obtain ⟨a, ha⟩ := List.length_eq_one_iff.1 hx
  simp [Metric.wrap, XF.div, cnt, h.count, ha, csum_single, show k ≠ 0 by omega]

theorem momentValue_none {w : Nat} {xs : List K} {c : Core K} (h : W w xs c) (hx : lastN w xs = []) (k : Int) :
    momentValue k (some c) = .error "error retrieving sum: no values seen yet" := by
  unfold momentValue
  simp only
  rw [h.sum_error hx]
  rfl

end metrics

section real
open Metric

/-- The power 1.5 on the reals. -/
noncomputable def p15 (x : ℝ) : ℝ := x ^ (3 / 2 : ℝ)

theorem std_ok {w : Nat} {xs : List ℝ} {c : Core ℝ} (h : W w xs c) (hx : 2 ≤ (lastN w xs).length) (hl : 2 < c.len) :
    stdValue Real.sqrt (some c) = .ok (.fin (sampleStd (lastN w xs))) := by
  unfold stdValue
  simp only
  have := momentValue_ok h hx (k := 2) (by omega) hl (by omega)
  rw [show ((2 : Nat) : Int) = 2 from rfl] at this
  rw [this]
  simp only [Metric.wrap, XF.sqrt]
  rw [if_neg]
  · rfl
  · have h1 : (1 : ℝ) ≤ ((lastN w xs).length : ℝ) := by exact_mod_cast (by omega : 1 ≤ (lastN w xs).length)
    have := csum_two_nonneg (lastN w xs)
    exact not_lt.2 (div_nonneg this (by linarith))

theorem std_one {w : Nat} {xs : List ℝ} {c : Core ℝ} (h : W w xs c) (hx : (lastN w xs).length = 1) (hl : 2 < c.len) :
    stdValue Real.sqrt (some c) = .ok .nan := by
  unfold stdValue
  simp only
  have := momentValue_one h hx (k := 2) (by omega) hl (by omega)
  rw [show ((2 : Nat) : Int) = 2 from rfl] at this
  rw [this]
  rfl

theorem sample_pop {k : Nat} {xs : List ℝ} (hx : 2 ≤ xs.length) :
    sampleMoment k xs * (((xs.length : ℝ) - 1) / xs.length) = popMoment k xs := by
  have h1 : ((xs.length : ℝ) - 1) ≠ 0 := by
    have : (2 : ℝ) ≤ xs.length := by exact_mod_cast hx
    intro h; linarith
  have h2 : (xs.length : ℝ) ≠ 0 := by
    have : (2 : ℝ) ≤ xs.length := by exact_mod_cast hx
    intro h; linarith
  unfold sampleMoment popMoment
  field_simp

theorem skewness_val {w : Nat} {xs : List ℝ} {c : Core ℝ} (h : W w xs c) (hx : 1 ≤ (lastN w xs).length) (hl : 3 < c.len) :
    (3 ≤ (lastN w xs).length ∧ csum 2 (lastN w xs) ≠ 0 →
      skewnessValue Real.sqrt p15 (some c) = .ok (.fin (Spec.skewness (lastN w xs)))) ∧
    (¬ (3 ≤ (lastN w xs).length ∧ csum 2 (lastN w xs) ≠ 0) → skewnessValue Real.sqrt p15 (some c) = .ok .nan) := by
  set ys := lastN w xs with hys
  have hcnt : cnt c = (ys.length : ℝ) := by simp [cnt, h.count, hys]
  have h0 : ¬ (ys.length : ℝ) = 0 := by
    have : (ys.length : ℝ) ≥ 1 := by exact_mod_cast hx
    intro h; linarith
  unfold skewnessValue
  simp only
  rw [hcnt, if_neg h0]
  by_cases h1 : ys.length = 1
  · have e2 := momentValue_one h h1 (k := 2) (by omega) (by omega) (by omega)
    have e3 := momentValue_one h h1 (k := 3) (by omega) (by omega) (by omega)
    rw [show ((2 : Nat) : Int) = 2 from rfl] at e2
    rw [show ((3 : Nat) : Int) = 3 from rfl] at e3
    rw [e2, e3]
    constructor
    · rintro ⟨h, -⟩; omega
    · intro _
      simp only [Metric.wrap, nan_mul, mul_nan, XF.pow15, nan_div]
  · have h2 : 2 ≤ ys.length := by omega
    have e2 := momentValue_ok h h2 (k := 2) (by omega) (by omega) (by omega)
    have e3 := momentValue_ok h h2 (k := 3) (by omega) (by omega) (by omega)
    rw [show ((2 : Nat) : Int) = 2 from rfl] at e2
    rw [show ((3 : Nat) : Int) = 3 from rfl] at e3
    rw [e2, e3]
    have hge : (2 : ℝ) ≤ ys.length := by exact_mod_cast h2
    have hdiv : XF.div (.fin ((ys.length : ℝ) - 1)) (.fin (ys.length : ℝ)) = .fin (((ys.length : ℝ) - 1) / ys.length) := by
      simp only [XF.div]; rw [if_neg h0]
    have hsq : XF.sqrt Real.sqrt (.fin ((ys.length : ℝ) * (ys.length - 1))) = .fin (Real.sqrt (ys.length * (ys.length - 1))) := by
      simp only [XF.sqrt]
      rw [if_neg]
      have : 0 ≤ (ys.length : ℝ) * (ys.length - 1) := mul_nonneg (by linarith) (by linarith)
      exact not_lt.2 this
    have hvar : 0 ≤ popMoment 2 ys := div_nonneg (csum_two_nonneg ys) (by linarith)
    simp only [Metric.wrap, hdiv, XF.mul, hsq, ← hys]
    rw [sample_pop h2, sample_pop h2]
    have hp : XF.pow15 p15 (.fin (popMoment 2 ys)) = .fin (p15 (popMoment 2 ys)) := by
      simp only [XF.pow15]; rw [if_neg (not_lt.2 hvar)]
    rw [hp]
    by_cases h3 : ys.length = 2
    · constructor
      · rintro ⟨h, -⟩; omega
      · intro _
        obtain ⟨a, b, hab⟩ := List.length_eq_two.1 h3
        have hm : popMoment 3 ys = 0 := by unfold popMoment; rw [hab, csum_three_two]; simp
        rw [hm]
        have : (ys.length : ℝ) - 2 = 0 := by rw [h3]; norm_num
        have hs : ¬ Real.sqrt ((ys.length : ℝ) * (ys.length - 1)) = 0 := by
          rw [h3]; push_cast
          rw [Real.sqrt_eq_zero (by norm_num)]; norm_num
        simp only [XF.div, this, if_true, hs, if_false]
    · have hd : ¬ (ys.length : ℝ) - 2 = 0 := by
        have : (3 : ℝ) ≤ ys.length := by exact_mod_cast (by omega : 3 ≤ ys.length)
        intro h; linarith
      constructor
      · rintro ⟨-, hv⟩
        have hpm : 0 < popMoment 2 ys := by
          rcases hvar.lt_or_eq with h | h
          · exact h
          · exfalso
            apply hv
            have := h.symm
            unfold popMoment at this
            rcases div_eq_zero_iff.1 this with h | h
            · exact h
            · exact absurd h h0
        have hpp : ¬ p15 (popMoment 2 ys) = 0 := (Real.rpow_pos_of_pos hpm _).ne'
        simp only [XF.div, hd, hpp, if_false]
        rfl
      · intro hn
        have hv : csum 2 ys = 0 := by
          by_contra hc; exact hn ⟨by omega, hc⟩
        have hpm : popMoment 2 ys = 0 := by unfold popMoment; rw [hv]; simp
        have hpp : p15 (popMoment 2 ys) = 0 := by rw [hpm]; unfold p15; exact Real.zero_rpow (by norm_num)
        have hm3 : popMoment 3 ys = 0 := by
          have hall := (csum_two_eq_zero_iff ys).1 hv
          obtain ⟨a, as, ha⟩ := List.exists_cons_of_ne_nil (List.ne_nil_of_length_pos (by omega : 0 < ys.length))
          have hm : Spec.mean ys = a := mean_const (List.ne_nil_of_length_pos (by omega)) fun x hx => hall x hx a (by rw [ha]; simp)
          unfold popMoment csum
          rw [hm]
          have : (ys.map (fun x => (x - a) ^ 3)).sum = 0 := by
            apply List.sum_eq_zero
            intro z hz
            obtain ⟨x, hx, rfl⟩ := List.mem_map.1 hz
            rw [hall x hx a (by rw [ha]; simp)]; simp
          rw [this]; simp
        rw [hm3, hpp]
        simp [XF.div, hd]

theorem csum_zero_of_const {K : Type} [Field K] [LinearOrder K] [IsStrictOrderedRing K] {ys : List K} (h : csum 2 ys = 0) {k : Nat} (hk : k ≠ 0) :
    csum k ys = 0 := by
  have hall := (csum_two_eq_zero_iff ys).1 h
  cases ys with
  | nil => simp [csum]
  | cons a as =>
    have hm : Spec.mean (a :: as) = a := mean_const (by simp) fun x hx => hall x hx a (by simp)
    unfold csum
    rw [hm]
    apply List.sum_eq_zero
    intro z hz
    obtain ⟨x, hx, rfl⟩ := List.mem_map.1 hz
    rw [hall x hx a (by simp)]; simp [hk]

theorem kurtosis_val {w : Nat} {xs : List ℝ} {c : Core ℝ} (h : W w xs c) (hx : 1 ≤ (lastN w xs).length) (hl : 4 < c.len) :
    (csum 2 (lastN w xs) ≠ 0 → kurtosisValue (some c) = .ok (.fin (exKurtosis (lastN w xs)))) ∧
    (csum 2 (lastN w xs) = 0 → kurtosisValue (some c) = .ok .nan) := by
  set ys := lastN w xs with hys
  have hcnt : cnt c = (ys.length : ℝ) := by simp [cnt, h.count, hys]
  have h0 : ¬ (ys.length : ℝ) = 0 := by
    have : (ys.length : ℝ) ≥ 1 := by exact_mod_cast hx
    intro h; linarith
  unfold kurtosisValue
  simp only
  rw [hcnt, if_neg h0]
  by_cases h1 : ys.length = 1
  · have e2 := momentValue_one h h1 (k := 2) (by omega) (by omega) (by omega)
    have e4 := momentValue_one h h1 (k := 4) (by omega) (by omega) (by omega)
    rw [show ((2 : Nat) : Int) = 2 from rfl] at e2
    rw [show ((4 : Nat) : Int) = 4 from rfl] at e4
    rw [e2, e4]
    obtain ⟨a, ha⟩ := List.length_eq_one_iff.1 h1
    constructor
    · intro hc; rw [ha, csum_single a (by omega)] at hc; exact absurd rfl hc
    · intro _
      simp [Metric.wrap, XF.mul, XF.sq, XF.div, XF.sub]
  · have h2 : 2 ≤ ys.length := by omega
    have e2 := momentValue_ok h h2 (k := 2) (by omega) (by omega) (by omega)
    have e4 := momentValue_ok h h2 (k := 4) (by omega) (by omega) (by omega)
    rw [show ((2 : Nat) : Int) = 2 from rfl] at e2
    rw [show ((4 : Nat) : Int) = 4 from rfl] at e4
    rw [e2, e4]
    have hdiv : XF.div (.fin ((ys.length : ℝ) - 1)) (.fin (ys.length : ℝ)) = .fin (((ys.length : ℝ) - 1) / ys.length) := by
      simp only [XF.div]; rw [if_neg h0]
    simp only [Metric.wrap, hdiv, XF.mul, XF.sq, ← hys]
    rw [sample_pop h2, sample_pop h2]
    constructor
    · intro hc
      have : ¬ popMoment 2 ys ^ 2 = 0 := by
        unfold popMoment
        intro h
        have := pow_eq_zero_iff (n := 2) (by norm_num) |>.1 h
        rcases div_eq_zero_iff.1 this with h | h
        · exact hc h
        · exact h0 h
      simp only [XF.div, this, if_false, XF.sub]
      rfl
    · intro hc
      have h4 : popMoment 4 ys = 0 := by unfold popMoment; rw [csum_zero_of_const hc (by omega)]; simp
      have h22 : popMoment 2 ys ^ 2 = 0 := by unfold popMoment; rw [hc]; simp
      rw [h4, h22]
      simp [XF.div, XF.sub]

end real

end Verif.Moment
