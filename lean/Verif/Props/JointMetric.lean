import Verif.Props.JointCore

/-! # C37, C45–C47: the metrics of package `joint`

As in `Props/JointCore.lean`; pushes of other than two values are rejected (C47) and left out of the data. -/

set_option linter.unusedSectionVars false

namespace Verif.Props
open Verif Verif.Spec Verif.Joint

section uninit
variable {K : Type} [Field K] [LinearOrder K]

/-- C37, package joint: before `Init` every operation of every metric on pairs refuses to work and changes nothing, and a failed `Init`
leaves the metric as it was. -/
theorem C37_joint_uninitialised (k : Kind K) (r : K → K) (xs : List K) :
    Metric.push (Metric.new k) xs = .val (Metric.new k, some "Core is not set") ∧
    Metric.value r (Metric.new k) = .error "Core is not set" ∧ Metric.clear (Metric.new k) = Metric.new k ∧
    ∀ m e, (Metric.new k).init = .val (m, some e) → m = Metric.new k := by
  refine ⟨rfl, ?_, rfl, ?_⟩
  · cases k <;> rfl
  · intro m e h
    unfold Metric.init at h
    split at h <;> cases h
    rfl

/-- C37, `Autocov` and `Autocorr`. -/
theorem C37_auto_uninitialised (corr : Bool) (lag window : Int) (a : Auto K) (ha : Auto.new corr lag window = .ok a) (r : K → K) (x : K) :
    Auto.push a x = .val (a, some "Core is not set") ∧ Auto.value r a = .error "Core is not set" ∧ Auto.clear a = a ∧
    ∀ m e, a.init = .val (m, some e) → m = a := by
  unfold Auto.new at ha
  split_ifs at ha
  cases ha
  refine ⟨rfl, rfl, rfl, ?_⟩
  intro m e h
  unfold Auto.init at h
  split at h <;> cases h
  rfl

example : ∃ a, Auto.new true 2 (-1) = Except.ok (a : Auto ℚ) ∧ ∃ e, a.init = .val (a, some e) := ⟨_, rfl, _, rfl⟩

end uninit

section cov
variable {K : Type} [Field K] [LinearOrder K] [IsStrictOrderedRing K]

/-- C47, metrics: in every state with a core, a push of other than two values is rejected without any effect. -/
theorem C47_metric (m : Metric K) (c : Core K) (hc : m.core = some c) (xs : List K) (h : xs.length ≠ 2) :
    Metric.push m xs = .val (m, some m.kind.arity) := by
  unfold Metric.push
  rw [hc]
  simp only
  rw [if_pos h]

/-- C45, `Cov`: the sample covariance of the current window; NaN for one pair, an error for none. -/
theorem C45_cov (w : Nat) (r : K → K) (ops : List (MOp (List K))) :
    ∃ m m' es, (Metric.new (.cov (w : Int))).init = .val (m, none) ∧ Metric.run m ops = .val (m', es) ∧
      es.length = ops.countP (fun o => !okArity 2 o) ∧
      (2 ≤ (windowOf w (ops.filter (okArity 2))).length → Metric.value r m' = .ok (.fin (sampleCov (windowOf w (ops.filter (okArity 2)))))) ∧
      ((windowOf w (ops.filter (okArity 2))).length = 1 → Metric.value r m' = .ok .nan) ∧
      (windowOf w (ops.filter (okArity 2)) = [] → ∃ e, Metric.value r m' = .error e) := by
  obtain ⟨c, e1, e2⟩ := init_ok (valid_cov (K := K) w)
  obtain ⟨c', e3, hW⟩ := metric_run_W good_cov (fun _ => noOverlap_cov) (k := .cov (w : Int)) (mk_W e2 (ts := [[1, 1]]) (w := w) rfl rfl rfl rfl) ops
  obtain ⟨h1, h2, h3⟩ := covValue_ok good_cov (tracked_self (by simp)) hW
  exact ⟨_, _, _, e1, e3, by simp, h1, h2, fun h => ⟨_, h3 h⟩⟩

/-- C45, `EWMCov`: the exponentially weighted covariance of all pairs. -/
theorem C45_ewmcov {d : K} (h0 : 0 < d) (h1 : d < 1) (r : K → K) (ops : List (MOp (List K))) :
    ∃ m m' es, (Metric.new (.ewmCov d)).init = .val (m, none) ∧ Metric.run m ops = .val (m', es) ∧
      es.length = ops.countP (fun o => !okArity 2 o) ∧
      (since (ops.filter (okArity 2)) ≠ [] → Metric.value r m' = .ok (.fin (ewCov d (since (ops.filter (okArity 2)))))) ∧
      (since (ops.filter (okArity 2)) = [] → ∃ e, Metric.value r m' = .error e) := by
  obtain ⟨c, e1, e2⟩ := init_ok (valid_ewmCov h0 h1)
  obtain ⟨c', e3, hD⟩ := metric_run_D good_cov (k := .ewmCov d) (mk_D e2 (ts := [[1, 1]]) rfl rfl rfl (d := d) rfl) ops
  refine ⟨_, _, _, e1, e3, by simp, fun hne => ?_, fun he => ?_⟩
  · have := hD.sum_ok good_cov hne (a := [1, 1]) (tracked_self (by simp)) (by simp)
    change Metric.ewmCovValue (some c') = _
    unfold Metric.ewmCovValue
    simp only
    rw [show ([1, 1] : Tuple) = up [1, 1] from rfl, this, ewJoint_11]
    rfl
  · refine ⟨"error retrieving sum: no values seen yet", ?_⟩
    change Metric.ewmCovValue (some c') = _
    unfold Metric.ewmCovValue
    simp only
    rw [hD.sum_error he]
    rfl

end cov

/-- C45, `Corr`: the Pearson coefficient of the current window if both variances are positive, and then it lies in [-1, 1]; NaN if a
variance is zero (also for one pair), an error for no pair. So whenever it is finite it lies in [-1, 1]. -/
theorem C45_corr (w : Nat) (ops : List (MOp (List ℝ))) :
    ∃ m m' es, (Metric.new (.corr (w : Int))).init = .val (m, none) ∧ Metric.run m ops = .val (m', es) ∧
      es.length = ops.countP (fun o => !okArity 2 o) ∧
      (csum 2 (coord 0 (windowOf w (ops.filter (okArity 2)))) ≠ 0 → csum 2 (coord 1 (windowOf w (ops.filter (okArity 2)))) ≠ 0 →
        Metric.value Real.sqrt m' = .ok (.fin (pearson (windowOf w (ops.filter (okArity 2)))))) ∧
      (windowOf w (ops.filter (okArity 2)) ≠ [] →
        csum 2 (coord 0 (windowOf w (ops.filter (okArity 2)))) = 0 ∨ csum 2 (coord 1 (windowOf w (ops.filter (okArity 2)))) = 0 →
        Metric.value Real.sqrt m' = .ok .nan) ∧
      (windowOf w (ops.filter (okArity 2)) = [] → ∃ e, Metric.value Real.sqrt m' = .error e) ∧
      ∀ v, Metric.value Real.sqrt m' = .ok (.fin v) → -1 ≤ v ∧ v ≤ 1 := by
  obtain ⟨c, e1, e2⟩ := init_ok (valid_corr (K := ℝ) w)
  obtain ⟨c', e3, hW⟩ := metric_run_W good_corr (fun _ => noOverlap_corr) (k := .corr (w : Int))
    (mk_W e2 (ts := [[1, 1], [2, 0], [0, 2]]) (w := w) rfl rfl rfl rfl) ops
  obtain ⟨h1, h2, h3⟩ := corrValue_W good_corr ⟨tracked_self (by simp), tracked_self (by simp), tracked_self (by simp)⟩ hW
  refine ⟨_, _, _, e1, e3, by simp, fun a b => (h1 a b).1, h2, fun h => ⟨_, h3 h⟩, fun v hv => ?_⟩
  change Metric.corrValue Real.sqrt (some c') = _ at hv
  by_cases hne : lastN w (since (ops.filter (okArity 2))) = []
  · rw [h3 hne] at hv; cases hv
  · by_cases ha : csum 2 (coord 0 (lastN w (since (ops.filter (okArity 2))))) = 0
    · rw [h2 hne (Or.inl ha)] at hv; cases hv
    · by_cases hb : csum 2 (coord 1 (lastN w (since (ops.filter (okArity 2))))) = 0
      · rw [h2 hne (Or.inr hb)] at hv; cases hv
      · rw [(h1 ha hb).1] at hv
        cases hv
        exact abs_le.1 (h1 ha hb).2

/-- C45, `EWMCorr`, likewise. -/
theorem C45_ewmcorr {d : ℝ} (h0 : 0 < d) (hd1 : d < 1) (ops : List (MOp (List ℝ))) :
    ∃ m m' es, (Metric.new (.ewmCorr d)).init = .val (m, none) ∧ Metric.run m ops = .val (m', es) ∧
      es.length = ops.countP (fun o => !okArity 2 o) ∧
      (ewMoment d 2 (coord 0 (since (ops.filter (okArity 2)))) ≠ 0 → ewMoment d 2 (coord 1 (since (ops.filter (okArity 2)))) ≠ 0 →
        Metric.value Real.sqrt m' = .ok (.fin (ewCorr d (since (ops.filter (okArity 2)))))) ∧
      (since (ops.filter (okArity 2)) ≠ [] →
        ewMoment d 2 (coord 0 (since (ops.filter (okArity 2)))) = 0 ∨ ewMoment d 2 (coord 1 (since (ops.filter (okArity 2)))) = 0 →
        Metric.value Real.sqrt m' = .ok .nan) ∧
      (since (ops.filter (okArity 2)) = [] → ∃ e, Metric.value Real.sqrt m' = .error e) ∧
      ∀ v, Metric.value Real.sqrt m' = .ok (.fin v) → -1 ≤ v ∧ v ≤ 1 := by
  obtain ⟨c, e1, e2⟩ := init_ok (valid_ewmCorr h0 hd1)
  obtain ⟨c', e3, hD⟩ := metric_run_D good_corr (k := .ewmCorr d) (mk_D e2 (ts := [[1, 1], [2, 0], [0, 2]]) rfl rfl rfl (d := d) rfl) ops
  obtain ⟨h1, h2, h3⟩ := corrValue_D good_corr ⟨tracked_self (by simp), tracked_self (by simp), tracked_self (by simp)⟩ h0 hd1 hD
  refine ⟨_, _, _, e1, e3, by simp, fun a b => (h1 a b).1, h2, fun h => ⟨_, h3 h⟩, fun v hv => ?_⟩
  change Metric.corrValue Real.sqrt (some c') = _ at hv
  by_cases hne : since (ops.filter (okArity 2)) = []
  · rw [h3 hne] at hv; cases hv
  · by_cases ha : ewMoment d 2 (coord 0 (since (ops.filter (okArity 2)))) = 0
    · rw [h2 hne (Or.inl ha)] at hv; cases hv
    · by_cases hb : ewMoment d 2 (coord 1 (since (ops.filter (okArity 2)))) = 0
      · rw [h2 hne (Or.inr hb)] at hv; cases hv
      · rw [(h1 ha hb).1] at hv
        cases hv
        exact abs_le.1 (h1 ha hb).2

/-- The value of a metric after a test run, with the exact square root where it is rational. -/
def pairTest (k : Kind ℚ) (r : ℚ → ℚ) (ops : List (MOp (List ℚ))) : Option (Except Err (XF ℚ) × List Err) :=
  match (Metric.new k).init with
  | .val (m, none) =>
    match Metric.run m ops with
    | .val (m', es) => some (Metric.value r m', es)
    | _ => none
  | _ => none

/-- Window 3 with an eviction and a rejected push; `r` is the root at the value that occurs. -/
example : pairTest (.cov 3) id [.push [9, 9], .push [1, 2], .push [1, 2, 3], .push [2, 4], .push [3, 9]] =
      some (.ok (.fin (7 / 2)), ["Cov expected 2 arguments"]) ∧ sampleCov [[(1 : ℚ), 2], [2, 4], [3, 9]] = 7 / 2 ∧
    pairTest (.corr 2) (fun x => if x = 1 / 4 then 1 / 2 else 0) [.push [9, 9], .push [1, 2], .push [2, 1]] = some (.ok (.fin (-1)), []) ∧
    pairTest (.cov 3) id [.push [9, 9]] = some (.ok .nan, []) ∧ pairTest (.ewmCov (1 / 2)) id [.push [0, 0], .push [1, 2]] =
      some (.ok (.fin (1 / 2)), []) ∧ ewCov (1 / 2 : ℚ) [[0, 0], [1, 2]] = 1 / 2 := by decide +kernel

section auto
variable {K : Type} [Field K] [LinearOrder K] [IsStrictOrderedRing K]

/-- The pairs of the specification written out: the `i`-th pair is `(x_{lag+i}, x_i)`. -/
theorem lagged_get (lag : Nat) (xs : List K) : (lagged lag xs).length = xs.length - lag ∧
    ∀ i (h : i + lag < xs.length), (lagged lag xs)[i]? = some [xs[i + lag], xs[i]] := by
  refine ⟨by simp [lagged], fun i h => ?_⟩
  have h1 : i < xs.length := by omega
  have h2 : xs[lag + i]? = some (xs[i + lag]) := by
    rw [Nat.add_comm lag i]
    exact List.getElem?_eq_getElem h
  simp [lagged, List.getElem?_zipWith, List.getElem?_drop, h1, h2]

/-- C46, `Autocov`: the sample covariance of the last `w` pairs `(x_t, x_{t-lag})`; an error exactly until `lag + 1` values have been
seen, NaN for one pair. -/
theorem C46_autocov (lag w : Nat) (r : K → K) (ops : List (MOp K)) :
    ∃ a a0 a', Auto.new false lag w = .ok a ∧ a.init = .val (a0, none) ∧ Auto.run a0 ops = .val (a', []) ∧
      (2 ≤ (lastN w (lagged lag (since ops))).length → Auto.value r a' = .ok (.fin (sampleCov (lastN w (lagged lag (since ops)))))) ∧
      ((lastN w (lagged lag (since ops))).length = 1 → Auto.value r a' = .ok .nan) ∧
      ((∃ e, Auto.value r a' = .error e) ↔ (since ops).length ≤ lag) := by
  obtain ⟨a, a0, h1, h2, h3⟩ := auto_init (K := K) false lag w
  obtain ⟨a', h4, h5⟩ := run_auto (ts := autoTuples false) good_cov (fun _ => noOverlap_cov) h3 ops
  obtain ⟨c, hc, hW⟩ := h5.core
  have hval : lastN w (lagged lag (since ops)) ≠ [] → Auto.value r a' = Metric.covValue (some c) := by
    intro hne
    unfold Auto.value
    rw [hc]
    simp only
    rw [if_neg, h5.kind]
    · rfl
    · rw [hW.count]
      have := List.length_pos_iff.2 hne
      omega
  obtain ⟨k1, k2, k3⟩ := covValue_ok (ts := autoTuples false) good_cov (tracked_self (by simp [autoTuples])) hW
  have hnil : lastN w (lagged lag (since ops)) = [] ↔ (since ops).length ≤ lag := by
    rw [← lagged_nil_iff]
    exact ⟨fun h => by by_contra hc; exact lastN_ne_nil hc h, fun h => by rw [h]; simp⟩
  refine ⟨a, a0, a', h1, h2, h4, fun h => ?_, fun h => ?_, ?_⟩
  · rw [hval (by intro c; rw [c] at h; simp at h), k1 h]
  · rw [hval (by intro c; rw [c] at h; simp at h), k2 h]
  · rw [← hnil]
    constructor
    · rintro ⟨e, he⟩
      by_contra hne
      rw [hval hne] at he
      have hpos := List.length_pos_iff.2 hne
      by_cases hl : 2 ≤ (lastN w (lagged lag (since ops))).length
      · rw [k1 hl] at he; cases he
      · rw [k2 (by omega)] at he; cases he
    · intro he
      unfold Auto.value
      rw [hc]
      simp only
      rw [if_pos (by rw [hW.count, he]; rfl)]
      exact ⟨_, rfl⟩

theorem coord_diag (xs : List K) : coord 0 (xs.map (fun x => [x, x])) = xs ∧ coord 1 (xs.map (fun x => [x, x])) = xs := by
  unfold coord
  simp only [List.map_map]
  exact ⟨List.map_id xs, List.map_id xs⟩

/-- The pairs for lag 0. -/
theorem lagged_zero (xs : List K) : coord 0 (lagged 0 xs) = xs ∧ coord 1 (lagged 0 xs) = xs ∧ lagged 0 xs = xs.map (fun x => [x, x]) := by
  have h : lagged 0 xs = xs.map (fun x => [x, x]) := by
    unfold lagged
    rw [List.drop_zero, List.zipWith_self]
  exact ⟨by rw [h]; exact (coord_diag xs).1, by rw [h]; exact (coord_diag xs).2, h⟩

theorem lastN_map {α β : Type} (w : Nat) (f : α → β) (xs : List α) : lastN w (xs.map f) = (lastN w xs).map f := by
  unfold lastN
  split_ifs
  · rfl
  · rw [List.length_map, List.map_drop]

/-- The covariance of the specification for lag 0 is the sample variance. -/
theorem sampleCov_lag_zero (w : Nat) (xs : List K) : sampleCov (lastN w (lagged 0 xs)) = csum 2 (lastN w xs) / ((lastN w xs).length - 1) := by
  rw [(lagged_zero xs).2.2, lastN_map]
  unfold sampleCov
  have h0 : coord 0 ((lastN w xs).map (fun x => [x, x])) = lastN w xs := (coord_diag _).1
  have h1 : coord 1 ((lastN w xs).map (fun x => [x, x])) = lastN w xs := (coord_diag _).2
  rw [h0, h1]
  unfold csum
  congr 2
  · rw [List.map_map]
    apply List.map_congr_left
    intro x _
    simp [pow_two]
  · simp

/-- C46, lag 0: `Autocov` is the sample variance of the last `w` values. -/
theorem C46_lag_zero (w : Nat) (r : K → K) (ops : List (MOp K)) :
    ∃ a a0 a', Auto.new false 0 w = .ok a ∧ a.init = .val (a0, none) ∧ Auto.run a0 ops = .val (a', []) ∧
      (2 ≤ (windowOf w ops).length → Auto.value r a' = .ok (.fin (csum 2 (windowOf w ops) / ((windowOf w ops).length - 1)))) := by
  obtain ⟨a, a0, a', h1, h2, h3, h4, -⟩ := C46_autocov 0 w r ops
  refine ⟨a, a0, a', h1, h2, h3, fun h => ?_⟩
  have hl : (lastN w (lagged 0 (since ops))).length = (windowOf w ops).length := by
    rw [(lagged_zero _).2.2, lastN_map, List.length_map]; rfl
  rw [h4 (by rw [hl]; exact h), sampleCov_lag_zero]
  rfl

end auto

/-- C46, `Autocorr`: the Pearson correlation of the last `w` pairs `(x_t, x_{t-lag})`, within [-1, 1]; NaN if a variance is zero; an error
exactly until `lag + 1` values have been seen; with lag 0 the value is 1. -/
theorem C46_autocorr (lag w : Nat) (ops : List (MOp ℝ)) :
    ∃ a a0 a', Auto.new true lag w = .ok a ∧ a.init = .val (a0, none) ∧ Auto.run a0 ops = .val (a', []) ∧
      (csum 2 (coord 0 (lastN w (lagged lag (since ops)))) ≠ 0 → csum 2 (coord 1 (lastN w (lagged lag (since ops)))) ≠ 0 →
        Auto.value Real.sqrt a' = .ok (.fin (pearson (lastN w (lagged lag (since ops))))) ∧
        |pearson (lastN w (lagged lag (since ops)))| ≤ 1) ∧
      (lastN w (lagged lag (since ops)) ≠ [] → csum 2 (coord 0 (lastN w (lagged lag (since ops)))) = 0 ∨
        csum 2 (coord 1 (lastN w (lagged lag (since ops)))) = 0 → Auto.value Real.sqrt a' = .ok .nan) ∧
      ((∃ e, Auto.value Real.sqrt a' = .error e) ↔ (since ops).length ≤ lag) ∧
      (lag = 0 → csum 2 (lastN w (since ops)) ≠ 0 → Auto.value Real.sqrt a' = .ok (.fin 1)) := by
  obtain ⟨a, a0, h1, h2, h3⟩ := auto_init (K := ℝ) true lag w
  obtain ⟨a', h4, h5⟩ := run_auto (ts := autoTuples true) good_corr (fun _ => noOverlap_corr) h3 ops
  obtain ⟨c, hc, hW⟩ := h5.core
  have hval : lastN w (lagged lag (since ops)) ≠ [] → Auto.value Real.sqrt a' = Metric.corrValue Real.sqrt (some c) := by
    intro hne
    unfold Auto.value
    rw [hc]
    simp only
    rw [if_neg, h5.kind]
    · rfl
    · rw [hW.count]
      have := List.length_pos_iff.2 hne
      omega
  obtain ⟨k1, k2, k3⟩ := corrValue_W (ts := autoTuples true) good_corr
    ⟨tracked_self (by simp [autoTuples]), tracked_self (by simp [autoTuples]), tracked_self (by simp [autoTuples])⟩ hW
  have hnil : lastN w (lagged lag (since ops)) = [] ↔ (since ops).length ≤ lag := by
    rw [← lagged_nil_iff]
    exact ⟨fun h => by by_contra hc; exact lastN_ne_nil hc h, fun h => by rw [h]; simp⟩
  have hne_of : ∀ {j}, csum 2 (coord j (lastN w (lagged lag (since ops)))) ≠ 0 → lastN w (lagged lag (since ops)) ≠ [] := by
    intro j h c
    rw [c] at h
    exact h (by simp [csum, coord])
  refine ⟨a, a0, a', h1, h2, h4, fun ha hb => ?_, fun hne h => ?_, ?_, ?_⟩
  · rw [hval (hne_of ha)]
    exact k1 ha hb
  · rw [hval hne, k2 hne h]
  · rw [← hnil]
    constructor
    · rintro ⟨e, he⟩
      by_contra hne
      rw [hval hne] at he
      by_cases ha : csum 2 (coord 0 (lastN w (lagged lag (since ops)))) = 0
      · rw [k2 hne (Or.inl ha)] at he; cases he
      · by_cases hb : csum 2 (coord 1 (lastN w (lagged lag (since ops)))) = 0
        · rw [k2 hne (Or.inr hb)] at he; cases he
        · rw [(k1 ha hb).1] at he; cases he
    · intro he
      unfold Auto.value
      rw [hc]
      simp only
      rw [if_pos (by rw [hW.count, he]; rfl)]
      exact ⟨_, rfl⟩
  · rintro rfl hcs
    have hL : lastN w (lagged 0 (since ops)) = (lastN w (since ops)).map (fun x => [x, x]) := by
      rw [(lagged_zero _).2.2, lastN_map]
    have c0 : coord 0 (lastN w (lagged 0 (since ops))) = lastN w (since ops) := by rw [hL]; exact (coord_diag _).1
    have c1 : coord 1 (lastN w (lagged 0 (since ops))) = lastN w (since ops) := by rw [hL]; exact (coord_diag _).2
    have hx : csum 2 (coord 0 (lastN w (lagged 0 (since ops)))) ≠ 0 := by rw [c0]; exact hcs
    have hy : csum 2 (coord 1 (lastN w (lagged 0 (since ops)))) ≠ 0 := by rw [c1]; exact hcs
    rw [hval (hne_of hx), (k1 hx hy).1, pearson_eq hx, c0, c1]
    have h11 : jsum [1, 1] (lastN w (lagged 0 (since ops))) = csum 2 (lastN w (since ops)) := by
      rw [jsum_11, c0, c1, hL]
      unfold csum
      rw [List.map_map]
      congr 1
      apply List.map_congr_left
      intro x _
      simp [pow_two]
    rw [h11, Real.mul_self_sqrt (Moment.csum_two_nonneg _), div_self hcs]

/-- The value of an auto-metric after a test run. -/
def autoTest (corr : Bool) (lag w : Int) (r : ℚ → ℚ) (ops : List (MOp ℚ)) : Option (Except Err (XF ℚ) × List Err) :=
  match Auto.new corr lag w with
  | .ok a =>
    match a.init with
    | .val (a, none) =>
      match Auto.run a ops with
      | .val (a', es) => some (Auto.value r a', es)
      | _ => none
    | _ => none
  | _ => none

/-- Lag 1, window 3, with an eviction; the pairs are (9,3), (2,9), (8,2). -/
example : autoTest false 1 3 id [.push 7, .push 1, .push 3, .push 9, .push 2, .push 8] =
      some (.ok (.fin (sampleCov [[9, 3], [2, 9], [8, 2]])), []) ∧ sampleCov [[(9 : ℚ), 3], [2, 9], [8, 2]] = -83 / 6 ∧
    lastN 3 (lagged 1 [(7 : ℚ), 1, 3, 9, 2, 8]) = [[9, 3], [2, 9], [8, 2]] ∧
    autoTest false 2 3 id [.push 7, .push 1] = some (.error "Not enough values seen", []) := by decide +kernel

end Verif.Props
