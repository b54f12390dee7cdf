import Verif.Proofs.Decide
import Verif.Proofs.MomentMetric
import Verif.Proofs.MomentConfig

/-! # C30–C35, C37–C41: package `moment`

Histories are lists of `Push`/`Clear` calls; `windowOf w ops` is the list of the last `w` values pushed since the last `Clear` (all of
them for `w = 0`), `since ops` all the values pushed since the last `Clear`. The arithmetic is exact in a linearly ordered field `K`, in
`ℝ` where roots occur. -/

set_option linter.unusedSectionVars false

namespace Verif.Props
open Verif Verif.Spec Verif.Moment

section core
variable {K : Type} [Field K] [LinearOrder K] [IsStrictOrderedRing K]

/-- A helper: what a run of a core without decay leaves behind. -/
theorem moment_core_run {cfg : Config K} {c : Core K} (hn : newCore cfg = .ok c) (hd : cfg.decay = none)
    (hs : ∀ k ∈ cfg.sums.getD [], k ≤ 65) (ops : List (MOp K)) :
    ∃ (w : Nat) (c' : Core K), cfg.window = some (w : Int) ∧ run c ops = .val (c', []) ∧ W w (since ops) c' ∧
      c'.len = (mk (setDefaults cfg)).len := by
  obtain ⟨⟨w, hw, -, -⟩, rfl⟩ := (newCore_iff cfg c).1 hn
  have hW := mk_W (cfg := setDefaults cfg) (w := w) hw hd
  obtain ⟨c', e, h1, h2⟩ := run_W hW (len_le (n := 65) (by simpa [setDefaults] using hs)) ops
  exact ⟨w, c', hw, e, h1, h2⟩

/-- C30, in full for cores that do not panic (see C41: all exponents at most 65): `Count` and `Mean` after any history of a core without
decay. -/
theorem C30_count_mean {cfg : Config K} {c : Core K} (hn : newCore cfg = .ok c) (hd : cfg.decay = none)
    (hs : ∀ k ∈ cfg.sums.getD [], k ≤ 65) (ops : List (MOp K)) :
    ∃ (w : Nat) (c' : Core K), cfg.window = some (w : Int) ∧ run c ops = .val (c', []) ∧
      count c' = (windowOf w ops).length ∧
      (windowOf w ops ≠ [] → mean c' = .ok ((windowOf w ops).sum / (windowOf w ops).length)) ∧
      (windowOf w ops = [] → ∃ e, mean c' = .error e) ∧ (windowOf w ops = [] ↔ since ops = []) := by
  obtain ⟨w, c', hw, e, hW, -⟩ := moment_core_run hn hd hs ops
  refine ⟨w, c', hw, e, hW.count, fun hne => ?_, fun he => ⟨_, if_pos ?_⟩, ?_⟩
  · unfold Moment.mean
    rw [if_neg, hW.rep.mean]
    · rfl
    · rw [hW.count]
      have := List.length_pos_iff.2 hne
      unfold windowOf at this
      omega
  · rw [hW.count]
    have : lastN w (since ops) = [] := he
    rw [this]; rfl
  · refine ⟨fun h => ?_, fun h => by simp [windowOf, h]⟩
    by_contra hne
    exact lastN_ne_nil hne h

/-- C31, in full: `Sum(k)` for every tracked `k ≤ 20` (the bound in the property; the configuration may contain larger exponents up to 65,
where the core does not panic) and the exact error condition. -/
theorem C31_sum {cfg : Config K} {c : Core K} (hn : newCore cfg = .ok c) (hd : cfg.decay = none)
    (hs : ∀ k ∈ cfg.sums.getD [], k ≤ 65) (ops : List (MOp K)) :
    ∃ (w : Nat) (c' : Core K), cfg.window = some (w : Int) ∧ run c ops = .val (c', []) ∧
      (∀ k : Nat, 1 ≤ k → (∃ j ∈ cfg.sums.getD [], (k : Int) ≤ j) → k ≤ 20 → windowOf w ops ≠ [] →
        sum c' k = .ok ((windowOf w ops).map (fun x => (x - (windowOf w ops).sum / (windowOf w ops).length) ^ k)).sum) ∧
      (∀ k : Int, (∃ e, sum c' k = .error e) ↔ (windowOf w ops = [] ∨ k ≤ 0 ∨ ∀ j ∈ cfg.sums.getD [], j < k)) := by
  obtain ⟨w, c', hw, e, hW, hlen⟩ := moment_core_run hn hd hs ops
  refine ⟨w, c', hw, e, fun k h1 hk h20 hne => ?_, fun k => ?_⟩
  · refine hW.sum_ok hne h1 ?_ h20
    rw [hlen, lt_len]
    simpa [setDefaults] using hk
  · have hcount : c'.count = 0 ↔ windowOf w ops = [] := by
      rw [hW.count]
      unfold windowOf
      rw [← List.length_eq_zero_iff]; omega
    have hge : 0 < k → ((k ≥ c'.len) ↔ ∀ j ∈ cfg.sums.getD [], j < k) := by
      intro hk
      obtain ⟨n, rfl⟩ : ∃ n : Nat, k = n := ⟨k.toNat, by omega⟩
      have := lt_len (cfg := setDefaults cfg) n
      rw [← hlen] at this
      constructor
      · intro h j hj
        by_contra hc
        have := this.2 ⟨j, by simpa [setDefaults] using hj, by omega⟩
        omega
      · intro h
        by_contra hc
        obtain ⟨j, hj, hk⟩ := this.1 (by omega)
        have := h j (by simpa [setDefaults] using hj)
        omega
    unfold sum
    by_cases h0 : c'.count = 0
    · rw [if_pos h0]
      exact ⟨fun _ => Or.inl (hcount.1 h0), fun _ => ⟨_, rfl⟩⟩
    · rw [if_neg h0]
      split_ifs with h
      · refine ⟨fun _ => Or.inr ?_, fun _ => ⟨_, rfl⟩⟩
        rcases Int.lt_or_le 0 k with hk | hk
        · rcases h with h | h
          · omega
          · exact Or.inr ((hge hk).1 h)
        · exact Or.inl hk
      · refine ⟨fun ⟨_, e⟩ => (by cases e), fun hc => ?_⟩
        exfalso
        rcases hc with hc | hc | hc
        · exact h0 (hcount.2 hc)
        · omega
        · exact h (Or.inr ((hge (by omega)).2 hc))

/-- The observations of a test run: count, mean and sums 1..4. -/
def momentObs : Go (Core ℚ × List Err) → Option (Int × Except Err ℚ × List (Except Err ℚ) × List Err)
  | .val (c, es) => some (count c, mean c, [sum c 0, sum c 1, sum c 2, sum c 3, sum c 4, sum c 5], es)
  | _ => none

/-- core_test.go:126-175: window 3 after 1, 2, 3, 4, 8. -/
example : ∃ c, newCore (⟨some [1, 2, 3, 4], some 3, none⟩ : Config ℚ) = .ok c ∧
    momentObs (run c [.push 1, .push 2, .push 3, .push 4, .push 8]) =
      some (3, .ok 5, [.error "not a tracked power sum", .ok 0, .ok 14, .ok 18, .ok 98, .error "not a tracked power sum"], []) :=
  ⟨_, rfl, by decide +kernel⟩

/-- A history with a `Clear` and a window that is not full; `windowOf` is `[8, 6]`. -/
example : ∃ c, newCore (⟨some [4], some 3, none⟩ : Config ℚ) = .ok c ∧
    windowOf 3 [MOp.push (1 : ℚ), .push 2, .clear, .push 8, .push 6] = [8, 6] ∧
    momentObs (run c [.push 1, .push 2, .clear, .push 8, .push 6]) =
      some (2, .ok 7, [.error "not a tracked power sum", .ok 0, .ok 2, .ok 0, .ok 2, .error "not a tracked power sum"], []) :=
  ⟨_, rfl, by decide +kernel, by decide +kernel⟩

/-- C32, in full. In every state a core without decay can reach, adding a value and removing it again gives back exactly the same state:
mean, count and every sum (also those beyond 20, although they may be wrong). -/
theorem C32_remove_undoes_add {cfg : Config K} {c : Core K} (hn : newCore cfg = .ok c) (hd : cfg.decay = none)
    (hs : ∀ k ∈ cfg.sums.getD [], k ≤ 65) (ops : List (MOp K)) (x : K) :
    ∃ c' c'', run c ops = .val (c', []) ∧ add c' x = .val c'' ∧ remove c'' x = .val c' := by
  have hl := len_le (cfg := setDefaults cfg) (n := 65) (by simpa [setDefaults] using hs)
  obtain ⟨w, c', hw, e, hW, hlen⟩ := moment_core_run hn hd hs ops
  by_cases h0 : lastN w (since ops) = []
  · obtain ⟨c'', h1, h2⟩ := remove_add_fresh (c := c') (by rw [hW.count, h0]; rfl) (by rw [hW.rep.mean, h0]; simp [Spec.mean])
      (hW.rep.zero h0) (by omega) x
    exact ⟨c', c'', e, h1, h2⟩
  · have hpos : 0 < c'.count := by
      rw [hW.count]
      have := List.length_pos_iff.2 h0
      omega
    obtain ⟨c'', h1, h2⟩ := remove_add hpos (by omega : c'.len ≤ 66) x
    exact ⟨c', c'', e, h1, h2⟩

/-- C32, second half: the order in which the values of the window arrived does not matter to any observation (`Sum(k)` for `k ≤ 20`). -/
theorem C32_order {cfg : Config K} {c : Core K} (hn : newCore cfg = .ok c) (hd : cfg.decay = none)
    (hs : ∀ k ∈ cfg.sums.getD [], k ≤ 65) (ops ops' : List (MOp K)) {w : Nat} (hw : cfg.window = some (w : Int))
    (hp : (windowOf w ops).Perm (windowOf w ops')) :
    ∃ c1 c2, run c ops = .val (c1, []) ∧ run c ops' = .val (c2, []) ∧ count c1 = count c2 ∧ mean c1 = mean c2 ∧
      ∀ k : Int, k ≤ 20 → sum c1 k = sum c2 k := by
  obtain ⟨w1, c1, hw1, e1, W1, l1⟩ := moment_core_run hn hd hs ops
  obtain ⟨w2, c2, hw2, e2, W2, l2⟩ := moment_core_run hn hd hs ops'
  have a1 : w1 = w := by rw [hw] at hw1; have := Option.some.inj hw1; omega
  have a2 : w2 = w := by rw [hw] at hw2; have := Option.some.inj hw2; omega
  subst a1; subst a2
  have R1 : Rep c1 (windowOf w2 ops') := W1.rep.perm hp
  have R2 : Rep c2 (windowOf w2 ops') := W2.rep
  have hcount : c1.count = c2.count := by rw [R1.count, R2.count]
  refine ⟨c1, c2, e1, e2, hcount, ?_, ?_⟩
  · unfold Moment.mean; rw [hcount, R1.mean, R2.mean]
  · intro k hk
    have hl : c1.len = c2.len := by rw [l1, l2]
    unfold sum
    rw [hcount, hl]
    split_ifs with h1 h2
    · rfl
    · rfl
    · congr 1
      by_cases h : k.toNat < 2
      · rw [R1.low _ h, R2.low _ h]
      · rw [R1.sums _ (by omega) (by omega) (by omega), R2.sums _ (by omega) (by omega) (by omega)]

/-- Two different histories with permuted windows. -/
example : (windowOf 3 [MOp.push (9 : ℚ), .push 1, .push 2, .push 4]).Perm (windowOf 3 [MOp.push 4, .push 1, .push 2]) := by
  decide +kernel

end core

section decay
variable {K : Type} [Field K] [LinearOrder K] [IsStrictOrderedRing K]
open Metric

/-- C33, EWMA: after the values `x₁ … xₙ` since the last `Clear`, `Value` is `∑ wᵢ xᵢ` with `w₁ = (1-d)^(n-1)`, `wᵢ = d(1-d)^(n-i)`. -/
theorem C33_ewma {d : K} (h0 : 0 < d) (h1 : d < 1) (r p : K → K) (ops : List (MOp K)) :
    ∃ m, run ((new (.ewma d)).init).1 ops = .val (m, []) ∧
      (since ops ≠ [] → value r p m = .ok (.fin (ewTotal d (fun x => x) (since ops)))) ∧
      (since ops = [] → ∃ e, value r p m = .error e) := by
  obtain ⟨c, e, hD, -⟩ := metric_D (k := .ewma d) ⟨0, rfl, by simp [config]; exact ⟨h0, h1⟩, by simp [config]⟩ rfl rfl (by simp [config]) ops
  refine ⟨_, e, fun hx => ?_, fun hx => ?_⟩
  · simp only [value, meanValue, Moment.mean]
    rw [if_neg, hD.mean]
    · rfl
    · rw [hD.count]
      have := List.length_pos_iff.2 hx
      omega
  · simp only [value, meanValue, Moment.mean]
    rw [if_pos (by rw [hD.count, hx]; rfl)]
    exact ⟨_, rfl⟩

/-- C33, EWMMoment: for every `1 ≤ k ≤ 20`, `Value` is `∑ wᵢ (xᵢ - EWMA)^k`. -/
theorem C33_ewm_moment {d : K} (h0 : 0 < d) (h1 : d < 1) {k : Nat} (hk : 1 ≤ k) (hk20 : k ≤ 20) (r p : K → K) (ops : List (MOp K)) :
    ∃ m, run ((new (.ewmMoment k d)).init).1 ops = .val (m, []) ∧
      (since ops ≠ [] → value r p m = .ok (.fin (ewTotal d (fun x => (x - ewTotal d (fun x => x) (since ops)) ^ k) (since ops)))) ∧
      (since ops = [] → ∃ e, value r p m = .error e) := by
  obtain ⟨c, e, hD, hlen⟩ := metric_D (k := .ewmMoment k d) ⟨0, rfl, by simp [config]; exact ⟨h0, h1⟩, by simp [config]; omega⟩ rfl rfl
    (by simp [config]; omega) ops
  refine ⟨_, e, fun hx => ?_, fun hx => ?_⟩
  · simp only [value, ewmMomentValue]
    rw [hD.sum_ok hx hk (by rw [hlen, lt_len]; simp [setDefaults, config]) hk20]
    rfl
  · simp only [value, ewmMomentValue]
    rw [hD.sum_error hx]
    exact ⟨_, rfl⟩

/-- C33: the weights sum to one and are positive. -/
theorem C33_weights {d : K} (h0 : 0 < d) (h1 : d < 1) {xs : List K} (hx : xs ≠ []) :
    ewTotal d (fun _ => 1) xs = 1 ∧ ∀ n i, 0 < ewWeight d n i := by
  constructor
  · have := pairs_weight d hx 0
    rw [ewTotal_pairs]
    simpa [wsum] using this
  · intro n i
    have : 0 < 1 - d := by linarith
    unfold ewWeight
    split_ifs <;> positivity

theorem ewTotal_nonneg {d : K} (h0 : 0 < d) (h1 : d < 1) {f : K → K} (hf : ∀ x, 0 ≤ f x) (xs : List K) : 0 ≤ ewTotal d f xs := by
  unfold ewTotal
  apply List.sum_nonneg
  intro y hy
  obtain ⟨p, -, rfl⟩ := List.mem_map.1 hy
  have : 0 < 1 - d := by linarith
  have hw : 0 < ewWeight d xs.length p.2 := by
    unfold ewWeight
    split_ifs <;> positivity
  exact mul_nonneg hw.le (hf _)

/-- C33, EWMStd: the square root of `∑ wᵢ (xᵢ - EWMA)²`. -/
theorem C33_ewm_std {d : ℝ} (h0 : 0 < d) (h1 : d < 1) (p : ℝ → ℝ) (ops : List (MOp ℝ)) :
    ∃ m, run ((new (.ewmStd d)).init).1 ops = .val (m, []) ∧
      (since ops ≠ [] → value Real.sqrt p m =
        .ok (.fin (Real.sqrt (ewTotal d (fun x => (x - ewTotal d (fun x => x) (since ops)) ^ 2) (since ops))))) ∧
      (since ops = [] → ∃ e, value Real.sqrt p m = .error e) := by
  obtain ⟨c, e, hD, hlen⟩ := metric_D (k := .ewmStd d) ⟨0, rfl, by simp [config]; exact ⟨h0, h1⟩, by simp [config]⟩ rfl rfl
    (by simp [config]) ops
  refine ⟨_, e, fun hx => ?_, fun hx => ?_⟩
  · simp only [value, ewmStdValue, ewmMomentValue]
    have := hD.sum_ok hx (k := 2) (by omega) (by rw [hlen, lt_len]; simp [setDefaults, config]) (by omega)
    rw [show ((2 : Nat) : Int) = 2 from rfl] at this
    rw [this]
    simp only [Metric.wrap, XF.sqrt]
    rw [if_neg]
    · rfl
    · exact not_lt.2 (ewTotal_nonneg h0 h1 (fun x => by positivity) _)
  · simp only [value, ewmStdValue, ewmMomentValue]
    rw [hD.sum_error hx]
    exact ⟨_, rfl⟩

/-- ewma_test.go, core_test.go:142-175: decay 0.3 after 3, 4, 8; the second number is the second weighted central moment. -/
example : ewTotal (3 / 10 : ℚ) (fun x => x) [3, 4, 8] = 471 / 100 ∧ ewMoment (3 / 10 : ℚ) 2 [3, 4, 8] = 47859 / 10000 := by
  decide +kernel

example : validate 0 1 (setDefaults (⟨some [1, 2, 3, 4], some 0, some (3 / 10)⟩ : Config ℚ)) = none ∧
    momentObs (Moment.run (mk ⟨some [1, 2, 3, 4], some 0, some (3 / 10)⟩) [.push 3, .push 4, .push 8]) = some (3, .ok (471 / 100), [.error "not a tracked power sum", .ok 0,
      .ok (47859 / 10000), .ok (8158122 / 1000000), .ok (3939138357 / 100000000), .error "not a tracked power sum"], []) := by
  decide +kernel

end decay

section values
open Metric

/-- C34, Mean: the arithmetic mean of the window, an error when it is empty. -/
theorem C34_mean {K : Type} [Field K] [LinearOrder K] [IsStrictOrderedRing K] (w : Nat) (r p : K → K) (ops : List (MOp K)) :
    ∃ m, run ((new (.mean w)).init).1 ops = .val (m, []) ∧
      (windowOf w ops ≠ [] → value r p m = .ok (.fin ((windowOf w ops).sum / (windowOf w ops).length))) ∧
      (windowOf w ops = [] → ∃ e, value r p m = .error e) := by
  obtain ⟨c, e, hW, -⟩ := metric_W (k := .mean w) ⟨w, rfl, by simp [config], by simp [config]⟩ rfl rfl (by simp [config]) ops
  refine ⟨_, e, fun hx => ?_, fun hx => ?_⟩
  · simp only [value, meanValue, Moment.mean]
    rw [if_neg, hW.rep.mean]
    · rfl
    · rw [hW.count]
      have := List.length_pos_iff.2 hx
      unfold windowOf at this
      omega
  · have : lastN w (since ops) = [] := hx
    simp only [value, meanValue, Moment.mean]
    rw [if_pos (by rw [hW.count, this]; rfl)]
    exact ⟨_, rfl⟩

/-- C34, Moment(k), `1 ≤ k ≤ 20`: `∑ (x - mean)^k / (n - 1)` for `n ≥ 2`, NaN for one value, an error for none. -/
theorem C34_moment {K : Type} [Field K] [LinearOrder K] [IsStrictOrderedRing K] (w : Nat) {k : Nat} (hk : 1 ≤ k) (hk20 : k ≤ 20) (r p : K → K)
    (ops : List (MOp K)) :
    ∃ m, run ((new (.moment k w)).init).1 ops = .val (m, []) ∧
      (2 ≤ (windowOf w ops).length → value r p m = .ok (.fin (csum k (windowOf w ops) / ((windowOf w ops).length - 1)))) ∧
      ((windowOf w ops).length = 1 → value r p m = .ok .nan) ∧
      (windowOf w ops = [] → ∃ e, value r p m = .error e) := by
  obtain ⟨c, e, hW, hlen⟩ := metric_W (k := .moment k w) ⟨w, rfl, by simp [config], by simp [config]; omega⟩ rfl rfl (by simp [config]; omega) ops
  have hl : k < c.len := by rw [hlen, lt_len]; simp [setDefaults, config]
  exact ⟨_, e, fun hx => momentValue_ok hW hx hk hl hk20, fun hx => momentValue_one hW hx hk hl hk20, fun hx => ⟨_, momentValue_none hW hx _⟩⟩

/-- C34, Std: the sample standard deviation for at least two values, NaN for one, an error for none. -/
theorem C34_std (w : Nat) (p : ℝ → ℝ) (ops : List (MOp ℝ)) :
    ∃ m, run ((new (.std w)).init).1 ops = .val (m, []) ∧
      (2 ≤ (windowOf w ops).length → value Real.sqrt p m =
        .ok (.fin (Real.sqrt (csum 2 (windowOf w ops) / ((windowOf w ops).length - 1))))) ∧
      ((windowOf w ops).length = 1 → value Real.sqrt p m = .ok .nan) ∧
      (windowOf w ops = [] → ∃ e, value Real.sqrt p m = .error e) := by
  obtain ⟨c, e, hW, hlen⟩ := metric_W (k := .std w) ⟨w, rfl, by simp [config], by simp [config]⟩ rfl rfl (by simp [config]) ops
  have hl : 2 < c.len := by rw [hlen, lt_len]; simp [setDefaults, config]
  refine ⟨_, e, fun hx => std_ok hW hx hl, fun hx => std_one hW hx hl, fun hx => ?_⟩
  simp only [value, stdValue]
  rw [momentValue_none hW hx]
  exact ⟨_, rfl⟩

/-- C34, Skewness: the adjusted Fisher-Pearson coefficient for at least three values that are not all equal; in every other case with a
value NaN (never a finite number, and not an infinity either); an error when there are none. -/
theorem C34_skewness (w : Nat) (ops : List (MOp ℝ)) :
    ∃ m, run ((new (.skewness w)).init).1 ops = .val (m, []) ∧
      (3 ≤ (windowOf w ops).length → csum 2 (windowOf w ops) ≠ 0 → value Real.sqrt p15 m = .ok (.fin (Spec.skewness (windowOf w ops)))) ∧
      (windowOf w ops ≠ [] → ¬ (3 ≤ (windowOf w ops).length ∧ csum 2 (windowOf w ops) ≠ 0) → value Real.sqrt p15 m = .ok .nan) ∧
      (windowOf w ops = [] → ∃ e, value Real.sqrt p15 m = .error e) := by
  obtain ⟨c, e, hW, hlen⟩ := metric_W (k := .skewness w) ⟨w, rfl, by simp [config], by simp [config]⟩ rfl rfl (by simp [config]) ops
  have hl : 3 < c.len := by rw [hlen, lt_len]; simp [setDefaults, config]
  refine ⟨_, e, fun h3 hv => ?_, fun hne h => ?_, fun hx => ?_⟩
  · exact (skewness_val hW (by unfold windowOf at h3; omega) hl).1 ⟨h3, hv⟩
  · exact (skewness_val hW (List.length_pos_iff.2 hne) hl).2 h
  · have hx : lastN w (since ops) = [] := hx
    simp only [value, skewnessValue]
    rw [if_pos (by simp [cnt, hW.count, hx])]
    exact ⟨_, rfl⟩

/-- C34, Kurtosis: the excess kurtosis when the values are not all equal, NaN when they are, an error when there are none. -/
theorem C34_kurtosis (w : Nat) (r p : ℝ → ℝ) (ops : List (MOp ℝ)) :
    ∃ m, run ((new (.kurtosis w)).init).1 ops = .val (m, []) ∧
      (csum 2 (windowOf w ops) ≠ 0 → value r p m = .ok (.fin (exKurtosis (windowOf w ops)))) ∧
      (windowOf w ops ≠ [] → csum 2 (windowOf w ops) = 0 → value r p m = .ok .nan) ∧
      (windowOf w ops = [] → ∃ e, value r p m = .error e) := by
  obtain ⟨c, e, hW, hlen⟩ := metric_W (k := .kurtosis w) ⟨w, rfl, by simp [config], by simp [config]⟩ rfl rfl (by simp [config]) ops
  have hl : 4 < c.len := by rw [hlen, lt_len]; simp [setDefaults, config]
  refine ⟨_, e, fun hv => ?_, fun hne h => ?_, fun hx => ?_⟩
  · have hne : lastN w (since ops) ≠ [] := by
      intro h
      apply hv
      unfold windowOf
      rw [h]; simp [csum]
    exact (kurtosis_val hW (List.length_pos_iff.2 hne) hl).1 hv
  · exact (kurtosis_val hW (List.length_pos_iff.2 hne) hl).2 h
  · have hx : lastN w (since ops) = [] := hx
    simp only [value, kurtosisValue]
    rw [if_pos (by simp [cnt, hW.count, hx])]
    exact ⟨_, rfl⟩

/-- A window meeting the hypotheses of the finite cases above (kurtosis_test.go, skewness_test.go use the same values). -/
example : windowOf 3 [MOp.push (1 : ℝ), .push 2, .push 3, .push 4, .push 8] = [3, 4, 8] ∧ csum 2 ([3, 4, 8] : List ℝ) = 14 ∧
    csum 2 ([3, 4, 8] : List ℝ) ≠ 0 := by
  have : csum 2 ([3, 4, 8] : List ℝ) = 14 := by simp [csum, Spec.mean]; norm_num
  exact ⟨by simp [windowOf, since, lastN], this, by rw [this]; norm_num⟩

end values

section laws
variable {K : Type} [Field K] [LinearOrder K] [IsStrictOrderedRing K]

/-- A history with every pushed value changed by `f`. -/
def mapOps (f : K → K) (ops : List (MOp K)) : List (MOp K) :=
  ops.map (fun o => match o with | .push x => .push (f x) | .clear => .clear)

theorem since_mapOps (f : K → K) (ops : List (MOp K)) : since (mapOps f ops) = (since ops).map f := by
  induction ops using List.reverseRecOn with
  | nil => rfl
  | append_singleton ops op ih =>
    unfold mapOps at ih ⊢
    rw [List.map_append]
    cases op with
    | push x => simp only [List.map_cons, List.map_nil, since_push, ih, List.map_append]
    | clear => simp only [List.map_cons, List.map_nil, since_clear]

theorem windowOf_mapOps (f : K → K) (w : Nat) (ops : List (MOp K)) : windowOf w (mapOps f ops) = (windowOf w ops).map f := by
  unfold windowOf
  rw [since_mapOps]
  unfold lastN
  split_ifs <;> simp [List.map_drop]

/-- C35, shift and scale: feeding `a·x + b` instead of `x` turns the mean into `a·mean + b` and `Sum(k)` into `a^k·Sum(k)`. -/
theorem C35_affine {cfg : Config K} {c : Core K} (hn : newCore cfg = .ok c) (hd : cfg.decay = none)
    (hs : ∀ k ∈ cfg.sums.getD [], k ≤ 65) (ops : List (MOp K)) (a b : K) :
    ∃ c1 c2, run c ops = .val (c1, []) ∧ run c (mapOps (fun x => a * x + b) ops) = .val (c2, []) ∧ count c2 = count c1 ∧
      (∀ μ, mean c1 = .ok μ → mean c2 = .ok (a * μ + b)) ∧
      ∀ k : Nat, k ≤ 20 → ∀ s, sum c1 k = .ok s → sum c2 k = .ok (a ^ k * s) := by
  obtain ⟨w1, c1, hw1, e1, W1, l1⟩ := moment_core_run hn hd hs ops
  obtain ⟨w2, c2, hw2, e2, W2, l2⟩ := moment_core_run hn hd hs (mapOps (fun x => a * x + b) ops)
  have a2 : w2 = w1 := by rw [hw1] at hw2; have := Option.some.inj hw2; omega
  subst a2
  have hwin : lastN w2 (since (mapOps (fun x => a * x + b) ops)) = (lastN w2 (since ops)).map (fun x => a * x + b) := windowOf_mapOps _ w2 ops
  have hcount : c2.count = c1.count := by rw [W1.count, W2.count, hwin, List.length_map]
  have hne : c1.count ≠ 0 → lastN w2 (since ops) ≠ [] := by
    intro h hc
    rw [W1.count, hc] at h
    exact h rfl
  refine ⟨c1, c2, e1, e2, hcount, ?_, ?_⟩
  · intro μ h
    unfold Moment.mean at h ⊢
    rw [hcount]
    split_ifs at h ⊢ with h0
    have h := Except.ok.inj h
    rw [W2.rep.mean, hwin, mean_affine a b (hne h0), ← W1.rep.mean, h]
  · intro k hk s h
    have hlow : ¬ c1.count = 0 ∧ ¬ ((k : Int) ≤ 0 ∨ (k : Int) ≥ c1.len) := by
      unfold sum at h
      split_ifs at h with h0 h1
      exact ⟨h0, h1⟩
    have h1 := W1.sum_ok (hne hlow.1) (k := k) (by omega) (by omega) hk
    have h2 := W2.sum_ok (by rw [hwin]; simpa using hne hlow.1) (k := k) (by omega) (by rw [l2, ← l1]; omega) hk
    rw [h1] at h
    have h := Except.ok.inj h
    rw [h2, hwin, csum_affine, h]

/-- C35, variance: `Sum(2)` (and with it the sample variance) is never negative and zero exactly for constant windows. -/
theorem C35_variance {cfg : Config K} {c : Core K} (hn : newCore cfg = .ok c) (hd : cfg.decay = none)
    (hs : ∀ k ∈ cfg.sums.getD [], k ≤ 65) (ops : List (MOp K)) :
    ∃ (w : Nat) (c' : Core K), cfg.window = some (w : Int) ∧ run c ops = .val (c', []) ∧ ∀ s, sum c' 2 = .ok s →
      0 ≤ s ∧ (s = 0 ↔ ∀ x ∈ windowOf w ops, ∀ y ∈ windowOf w ops, x = y) := by
  obtain ⟨w, c', hw, e, hW, hlen⟩ := moment_core_run hn hd hs ops
  refine ⟨w, c', hw, e, fun s h => ?_⟩
  have hlow : ¬ c'.count = 0 ∧ ¬ ((2 : Int) ≤ 0 ∨ (2 : Int) ≥ c'.len) := by
    unfold sum at h
    split_ifs at h with h0 h1
    exact ⟨h0, h1⟩
  have hne : lastN w (since ops) ≠ [] := by
    intro hc
    apply hlow.1
    rw [hW.count, hc]; rfl
  have h1 := hW.sum_ok hne (k := 2) (by omega) (by omega) (by omega)
  rw [show ((2 : Nat) : Int) = 2 from rfl, h] at h1
  have h1 := Except.ok.inj h1
  subst h1
  exact ⟨csum_two_nonneg _, csum_two_eq_zero_iff _⟩

/-- C35, kurtosis: whenever `Kurtosis.Value` is a finite number it is at least -2. -/
theorem C35_kurtosis (w : Nat) (r p : ℝ → ℝ) (ops : List (MOp ℝ)) :
    ∃ m, Metric.run ((Metric.new (.kurtosis w)).init).1 ops = .val (m, []) ∧ ∀ v, Metric.value r p m = .ok (.fin v) → -2 ≤ v := by
  obtain ⟨m, e, h1, h2, h3⟩ := C34_kurtosis w r p ops
  refine ⟨m, e, fun v hv => ?_⟩
  by_cases hne : windowOf w ops = []
  · obtain ⟨e', h⟩ := h3 hne
    rw [h] at hv
    cases hv
  · by_cases h0 : csum 2 (windowOf w ops) = 0
    · rw [h2 hne h0] at hv
      cases hv
    · rw [h1 h0] at hv
      cases hv
      exact exKurtosis_ge h0

/-- The bound is reached: the excess kurtosis of a fair coin is -2. -/
example : exKurtosis ([0, 1] : List ℚ) = -2 := by decide +kernel

end laws

section uninit
variable {K : Type} [Field K] [LinearOrder K]

/-- C37, package moment: before `Init` (or after a failed one) every operation of every metric refuses to work and changes nothing. -/
theorem C37_moment_uninitialised (k : Kind K) (r p : K → K) (x : K) :
    Metric.push (Metric.new k) x = .val (Metric.new k, some "Core is not set") ∧
    Metric.value r p (Metric.new k) = .error "Core is not set" ∧ Metric.clear (Metric.new k) = Metric.new k ∧
    ∀ e, (Metric.new k).init.2 = some e → (Metric.new k).init.1 = Metric.new k := by
  refine ⟨rfl, ?_, rfl, ?_⟩
  · cases k <;> rfl
  · intro e h
    unfold Metric.init at h ⊢
    split at h
    · rfl
    · simp at h

/-- `Init` fails for some metrics and succeeds for others. -/
example : ((Metric.new (.mean (-1) : Kind ℚ)).init).2 = some "error creating Core: error validating config: config has a negative window" ∧
    ((Metric.new (.ewma (3 / 10) : Kind ℚ)).init).2 = none := by decide +kernel

end uninit

section config
variable {K : Type} [Field K] [LinearOrder K]

/-- C38, in full for decays that are numbers: `NewCore` succeeds exactly for the documented configurations. -/
theorem C38_new_core_partial (cfg : Config K) : (∃ c, newCore cfg = .ok c) ↔
    (∃ w : Int, cfg.window = some w ∧ 0 ≤ w ∧ (∀ d, cfg.decay = some d → 0 < d ∧ d < 1 ∧ w = 0) ∧ ∀ k ∈ cfg.sums.getD [], 0 < k) := by
  have h : (∃ c, newCore cfg = .ok c) ↔ Valid cfg := by
    constructor
    · rintro ⟨c, h⟩; exact ((newCore_iff cfg c).1 h).1
    · intro h; exact ⟨_, (newCore_iff cfg _).2 ⟨h, rfl⟩⟩
  rw [h]
  constructor
  · rintro ⟨w, h1, h2, h3⟩
    exact ⟨w, h1, by omega, fun d hd => ⟨(h2 d hd).1, (h2 d hd).2.1, by have := (h2 d hd).2.2; omega⟩, h3⟩
  · rintro ⟨w, h1, h0, h2, h3⟩
    exact ⟨w.toNat, by rw [h1]; congr 1; omega, fun d hd => ⟨(h2 d hd).1, (h2 d hd).2.1, by have := (h2 d hd).2.2; omega⟩, h3⟩

/-- C38, the part that fails: with a NaN among the numbers, a NaN decay is accepted (both comparisons of `validateConfig` are false). -/
theorem C38_nan_decay_refuted (zero one : K) (sums : Option (List Int)) (h : ∀ k ∈ sums.getD [], 0 < k) :
    validate (WithNaN.num zero) (WithNaN.num one) (setDefaults (⟨sums, some 0, some .nan⟩ : Config (WithNaN K))) = none := by
  have hany : ((sums.getD []).any (· ≤ 0)) = false := by
    simpa using h
  simp only [validate, setDefaults, Option.getD_some, hany]
  rfl

example : validate 0 1 (setDefaults (⟨some [2], some 0, some (1 / 2)⟩ : Config ℚ)) = none ∧
    validate 0 1 (setDefaults (⟨some [2], some 3, some (1 / 2)⟩ : Config ℚ)) = some "config cannot have Decay set with a nonzero window" := by
  decide +kernel

end config

section merge
variable {F : Type} [LinearOrder F]

/-- C39, success: the merged configuration tracks exactly the exponents that some configuration asks for, and its window and decay are
those that some configuration sets. -/
theorem C39_merge_ok {cs : List (Config F)} {m : Config F} (h : mergeConfigs cs = .ok m) :
    (∀ k, k ∈ m.sums.getD [] ↔ ∃ c ∈ cs, k ∈ c.sums.getD []) ∧ (∀ w, m.window = some w ↔ ∃ c ∈ cs, c.window = some w) ∧
    ∀ d, m.decay = some d ↔ ∃ c ∈ cs, c.decay = some d := by
  rcases mergeConfigs_spec cs with ⟨m', e, hm⟩ | ⟨⟨e', e⟩, -⟩
  · rw [h] at e; cases e
    exact ⟨hm.keys, hm.window, hm.decay⟩
  · rw [h] at e; cases e

/-- C39, failure: exactly the empty list and lists with two different set windows or decays. -/
theorem C39_merge_error (cs : List (Config F)) : (∃ e, mergeConfigs cs = .error e) ↔
    cs = [] ∨ ∃ a ∈ cs, ∃ b ∈ cs, (∃ w w', a.window = some w ∧ b.window = some w' ∧ w ≠ w') ∨
      ∃ d d', a.decay = some d ∧ b.decay = some d' ∧ d ≠ d' := by
  rcases mergeConfigs_spec cs with ⟨m, e, hm⟩ | ⟨he, hc⟩
  · rw [e]
    constructor
    · rintro ⟨e, h⟩; cases h
    · rintro (rfl | ⟨a, ha, b, hb, h⟩)
      · simp [mergeConfigs] at e
      · exact absurd h (hm.no_conflict ha hb)
  · exact ⟨fun _ => hc, fun _ => he⟩

/-- C39, order: reordering the configurations changes neither success nor the result (exponents as a set). -/
theorem C39_merge_order {cs cs' : List (Config F)} (hp : cs.Perm cs') {m : Config F} (h : mergeConfigs cs = .ok m) :
    ∃ m', mergeConfigs cs' = .ok m' ∧ (∀ k, k ∈ m'.sums.getD [] ↔ k ∈ m.sums.getD []) ∧ m'.window = m.window ∧ m'.decay = m.decay := by
  obtain ⟨h1, h2, h3⟩ := C39_merge_ok h
  cases e : mergeConfigs cs' with
  | error e' =>
    exfalso
    rcases (C39_merge_error cs').1 ⟨e', e⟩ with rfl | ⟨a, ha, b, hb, hc⟩
    · rw [hp.eq_nil] at h
      simp [mergeConfigs] at h
    · have : ∃ e, mergeConfigs cs = .error e := (C39_merge_error cs).2 (Or.inr ⟨a, hp.mem_iff.2 ha, b, hp.mem_iff.2 hb, hc⟩)
      obtain ⟨e, he⟩ := this
      rw [h] at he; cases he
  | ok m' =>
    obtain ⟨g1, g2, g3⟩ := C39_merge_ok e
    refine ⟨m', rfl, fun k => ?_, ?_, ?_⟩
    · rw [g1, h1]; simp only [hp.mem_iff]
    · apply Option.ext
      intro w
      rw [g2, h2]; simp only [hp.mem_iff]
    · apply Option.ext
      intro d
      rw [g3, h3]; simp only [hp.mem_iff]

/-- config_test.go: merging two configurations, and a conflict. -/
example : mergeConfigs [(⟨some [1, 2], some 3, none⟩ : Config ℚ), ⟨some [2, 4], none, none⟩] = .ok ⟨some [1, 2, 4], some 3, none⟩ ∧
    mergeConfigs [(⟨none, some 3, none⟩ : Config ℚ), ⟨none, some 4, none⟩] = .error "configs have differing windows" := by
  decide +kernel

end merge

section binom
open Verif.MathUtil

/-- C40, the part that holds: up to `n = 20`. -/
theorem C40_binom_partial {n k : Nat} (hk : k ≤ n) (hn : n ≤ 20) : binom n k = .val (n.choose k : Int) := binom_exact hk hn

/-- C40 fails from 21 on: `Binom(21, 1)` is -1 (`21!` does not fit an int64). -/
theorem C40_binom_refuted : binom (21 : Nat) (1 : Nat) = .val (-1) ∧ (21).choose 1 = 21 := by
  refine ⟨?_, rfl⟩
  rw [binom_eq (by decide) (by decide)]
  decide +kernel

/-- Consequence for the core: `Sum(21)` of 0, 2, 4 is reported as 2271562, its true value is 0. -/
theorem C40_core_sum_refuted : validate 0 1 (setDefaults (⟨some [21], some 0, none⟩ : Config ℚ)) = none ∧
    (match Moment.run (mk (⟨some [21], some 0, none⟩ : Config ℚ)) [.push 0, .push 2, .push 4] with
      | .val (c, _) => some (Moment.sum c 21)
      | _ => none) = some (.ok 2271562) ∧ csum 21 ([0, 2, 4] : List ℚ) = 0 := by
  decide +kernel

end binom

section panics
variable {K : Type} [Field K] [LinearOrder K] [IsStrictOrderedRing K]

/-- C41, the part that holds: when no configured exponent exceeds 65, no history panics, hangs or reports an error. -/
theorem C41_no_panic_partial {cfg : Config K} {c : Core K} (hn : newCore cfg = .ok c) (hs : ∀ k ∈ cfg.sums.getD [], k ≤ 65)
    (ops : List (MOp K)) : ∃ c', run c ops = .val (c', []) := by
  cases hd : cfg.decay with
  | none =>
    obtain ⟨w, c', -, e, -⟩ := moment_core_run hn hd hs ops
    exact ⟨c', e⟩
  | some d =>
    obtain ⟨⟨w, hw, h, -⟩, rfl⟩ := (newCore_iff cfg c).1 hn
    have hw0 := (h d hd).2.2
    subst hw0
    have hW := mk_D (cfg := setDefaults cfg) (d := d) hw hd
    obtain ⟨c', e, -⟩ := run_D hW (len_le (n := 65) (by simpa [setDefaults] using hs)) ops
    exact ⟨c', e⟩

/-- C41 fails exactly in the remaining cases: with an exponent of 66 or more the very first `Push` divides by zero (`Binom` of a product
of factorials divisible by 2^64), for every value, window and decay. -/
theorem C41_push_panics_refuted {cfg : Config K} {c : Core K} (hn : newCore cfg = .ok c) (hs : ∃ k ∈ cfg.sums.getD [], 66 ≤ k) (x : K) :
    push c x = .panic := by
  obtain ⟨⟨w, hw, -, -⟩, rfl⟩ := (newCore_iff cfg c).1 hn
  obtain ⟨k, hk, h66⟩ := hs
  have hl : 66 < (mk (setDefaults cfg)).len := (lt_len 66).2 ⟨k, by simpa [setDefaults] using hk, by omega⟩
  apply push_panic (by omega)
  · simp [mk, setDefaults, hw]
  · simp [mk, setDefaults, hw]

example : ∃ c, newCore (⟨some [66], some 0, none⟩ : Config ℚ) = .ok c := ⟨_, rfl⟩

end panics

end Verif.Props
