import Verif.Proofs.Forget
import Verif.Props.Moment
import Verif.Props.JointMetric
import Verif.Props.EwAccuracy

/-! # C104: the exponentially weighted metrics forget their past

Two metrics with arbitrary histories `ops` and `ops'`, each with at least one value since the last `Clear`, then see the same values `ys`. -/

namespace Verif.Props
open Verif Verif.Spec

theorem since_then {F : Type} (ops : List (MOp F)) (ys : List F) : since (ops ++ ys.map MOp.push) = since ops ++ ys := by
  induction ys using List.reverseRecOn with
  | nil => simp
  | append_singleton ys y ih => rw [List.map_append, List.map_singleton, ← List.append_assoc, since_push, ih, List.append_assoc]

section exact
open Verif.Moment Verif.Moment.Metric
variable {K : Type} [Field K] [LinearOrder K] [IsStrictOrderedRing K] {d : K}

/-- C104, `EWMA`: the two values differ by at most `2·M·(1 - d)^n` after the `n` common values. These need not be bounded. -/
theorem C104_ewma (h0 : 0 < d) (h1 : d < 1) (r p : K → K) {M : K} {ops ops' : List (MOp K)} (hne : since ops ≠ []) (hne' : since ops' ≠ [])
    (hx : ∀ x ∈ since ops, |x| ≤ M) (hx' : ∀ x ∈ since ops', |x| ≤ M) (ys : List K) :
    ∃ m m' v v', run ((new (.ewma d)).init).1 (ops ++ ys.map .push) = .val (m, []) ∧
      run ((new (.ewma d)).init).1 (ops' ++ ys.map .push) = .val (m', []) ∧
      value r p m = .ok (.fin v) ∧ value r p m' = .ok (.fin v') ∧ |v - v'| ≤ 2 * M * (1 - d) ^ ys.length := by
  obtain ⟨m, a, b, -⟩ := C33_ewma h0 h1 r p (ops ++ ys.map .push)
  obtain ⟨m', a', b', -⟩ := C33_ewma h0 h1 r p (ops' ++ ys.map .push)
  rw [since_then] at b b'
  obtain ⟨z, hz⟩ := List.exists_mem_of_ne_nil _ hne
  exact ⟨m, m', _, _, a, a', b (by simp [hne]), b' (by simp [hne']),
    Forget.ewMean_forget h0.le h1.le ((abs_nonneg z).trans (hx z hz)) hne hne' hx hx'⟩

/-- C104, `EWMMoment(k)`: the two values differ by at most `(k + 2)·(2M)^k·(1 - d)^n`. -/
theorem C104_ewm_moment (h0 : 0 < d) (h1 : d < 1) {k : Nat} (hk : 1 ≤ k) (hk20 : k ≤ 20) (r p : K → K) {M : K} {ops ops' : List (MOp K)}
    (hne : since ops ≠ []) (hne' : since ops' ≠ []) (hx : ∀ x ∈ since ops, |x| ≤ M) (hx' : ∀ x ∈ since ops', |x| ≤ M) {ys : List K}
    (hy : ∀ y ∈ ys, |y| ≤ M) :
    ∃ m m' v v', run ((new (.ewmMoment k d)).init).1 (ops ++ ys.map .push) = .val (m, []) ∧
      run ((new (.ewmMoment k d)).init).1 (ops' ++ ys.map .push) = .val (m', []) ∧
      value r p m = .ok (.fin v) ∧ value r p m' = .ok (.fin v') ∧ |v - v'| ≤ (k + 2) * (2 * M) ^ k * (1 - d) ^ ys.length := by
  obtain ⟨m, a, b, -⟩ := C33_ewm_moment h0 h1 hk hk20 r p (ops ++ ys.map .push)
  obtain ⟨m', a', b', -⟩ := C33_ewm_moment h0 h1 hk hk20 r p (ops' ++ ys.map .push)
  rw [since_then] at b b'
  obtain ⟨z, hz⟩ := List.exists_mem_of_ne_nil _ hne
  exact ⟨m, m', _, _, a, a', b (by simp [hne]), b' (by simp [hne']),
    Forget.ewMoment_forget h0.le h1.le ((abs_nonneg z).trans (hx z hz)) hne hne' hx hx' hy k⟩

/-- C104, `EWMCov`: the two values differ by at most `16·M₁·M₂·(1 - d)^n`. -/
theorem C104_ewmcov (h0 : 0 < d) (h1 : d < 1) (r : K → K) {M₁ M₂ : K} {ops ops' : List (MOp (List K))}
    (hne : since (ops.filter (okArity 2)) ≠ []) (hne' : since (ops'.filter (okArity 2)) ≠ []) {ys : List (List K)} (hl : ∀ y ∈ ys, y.length = 2)
    (hb : ∀ p ∈ since (ops.filter (okArity 2)) ++ since (ops'.filter (okArity 2)) ++ ys, |p.getD 0 0| ≤ M₁ ∧ |p.getD 1 0| ≤ M₂) :
    ∃ c m m' es es' v v', (Joint.Metric.new (.ewmCov d)).init = .val (c, none) ∧ Joint.Metric.run c (ops ++ ys.map .push) = .val (m, es) ∧
      Joint.Metric.run c (ops' ++ ys.map .push) = .val (m', es') ∧
      Joint.Metric.value r m = .ok (.fin v) ∧ Joint.Metric.value r m' = .ok (.fin v') ∧ |v - v'| ≤ 16 * (M₁ * M₂) * (1 - d) ^ ys.length := by
  have hf : ∀ o : List (MOp (List K)), since ((o ++ ys.map MOp.push).filter (okArity 2)) = since (o.filter (okArity 2)) ++ ys := by
    intro o
    have : (ys.map MOp.push).filter (okArity 2) = ys.map MOp.push := by
      rw [List.filter_eq_self]
      intro q hq
      obtain ⟨y, hy, rfl⟩ := List.mem_map.1 hq
      simp [okArity, hl y hy]
    rw [List.filter_append, this, since_then]
  obtain ⟨c, m, es, i, a, -, b, -⟩ := C45_ewmcov h0 h1 r (ops ++ ys.map .push)
  obtain ⟨c', m', es', i', a', -, b', -⟩ := C45_ewmcov h0 h1 r (ops' ++ ys.map .push)
  rw [i] at i'
  simp only [Go.val.injEq, Prod.mk.injEq, and_true] at i'
  subst i'
  rw [hf] at b b'
  obtain ⟨z, hz⟩ := List.exists_mem_of_ne_nil _ hne
  obtain ⟨z1, z2⟩ := hb z (by simp [hz])
  exact ⟨c, m, m', es, es', _, _, i, a, a', b (by simp [hne]), b' (by simp [hne']),
    Forget.ewCov_forget h0.le h1.le ((abs_nonneg _).trans z1) ((abs_nonneg _).trans z2) hne hne' hb⟩

end exact

section std
open Verif.Moment Verif.Moment.Metric

/-- C104, `EWMStd`: the two values differ by at most `4·M·√((1 - d)^n)`. -/
theorem C104_ewm_std {d : ℝ} (h0 : 0 < d) (h1 : d < 1) (p : ℝ → ℝ) {M : ℝ} {ops ops' : List (MOp ℝ)}
    (hne : since ops ≠ []) (hne' : since ops' ≠ []) (hx : ∀ x ∈ since ops, |x| ≤ M) (hx' : ∀ x ∈ since ops', |x| ≤ M) {ys : List ℝ}
    (hy : ∀ y ∈ ys, |y| ≤ M) :
    ∃ m m' v v', run ((new (.ewmStd d)).init).1 (ops ++ ys.map .push) = .val (m, []) ∧
      run ((new (.ewmStd d)).init).1 (ops' ++ ys.map .push) = .val (m', []) ∧
      value Real.sqrt p m = .ok (.fin v) ∧ value Real.sqrt p m' = .ok (.fin v') ∧ |v - v'| ≤ 4 * M * √((1 - d) ^ ys.length) := by
  obtain ⟨m, a, b, -⟩ := C33_ewm_std h0 h1 p (ops ++ ys.map .push)
  obtain ⟨m', a', b', -⟩ := C33_ewm_std h0 h1 p (ops' ++ ys.map .push)
  rw [since_then] at b b'
  obtain ⟨z, hz⟩ := List.exists_mem_of_ne_nil _ hne
  have hM := (abs_nonneg z).trans (hx z hz)
  refine ⟨m, m', _, _, a, a', b (by simp [hne]), b' (by simp [hne']), ?_⟩
  have h := Forget.ewMoment_forget h0.le h1.le hM hne hne' hx hx' hy 2
  have pos : ∀ xs : List ℝ, 0 ≤ ewMoment d 2 xs := fun xs => by
    unfold ewMoment
    generalize ewMean d xs = μ
    induction xs using List.reverseRecOn with
    | nil => simp [ewTotal]
    | append_singleton xs x ih =>
      by_cases hn : xs = []
      · subst hn
        rw [List.nil_append, Forget.ewTotal_one]
        positivity
      · rw [Forget.ewTotal_snoc d _ hn]
        have := mul_nonneg (show 0 ≤ 1 - d by linarith) ih
        have := mul_nonneg h0.le (sq_nonneg (x - μ))
        linarith
  have p1 := pos (since ops ++ ys)
  have p2 := pos (since ops' ++ ys)
  change |√(ewMoment d 2 (since ops ++ ys)) - √(ewMoment d 2 (since ops' ++ ys))| ≤ _
  generalize ewMoment d 2 (since ops ++ ys) = A at *
  generalize ewMoment d 2 (since ops' ++ ys) = B at *
  have key : |√A - √B| ≤ √|A - B| := by
    refine Real.abs_le_sqrt ?_
    rcases le_total A B with hAB | hAB
    · rw [abs_of_nonpos (by linarith)]
      have h1 := Real.sqrt_le_sqrt hAB
      nlinarith [Real.sq_sqrt p1, Real.sq_sqrt p2, Real.sqrt_nonneg A]
    · rw [abs_of_nonneg (by linarith)]
      have h1 := Real.sqrt_le_sqrt hAB
      nlinarith [Real.sq_sqrt p1, Real.sq_sqrt p2, Real.sqrt_nonneg B]
  refine key.trans ((Real.sqrt_le_sqrt h).trans (le_of_eq ?_))
  have hr : 0 ≤ (1 - d) ^ ys.length := pow_nonneg (by linarith) _
  rw [show ((2 : Nat) + 2 : ℝ) * (2 * M) ^ 2 * (1 - d) ^ ys.length = (4 * M) ^ 2 * (1 - d) ^ ys.length by push_cast; ring,
    Real.sqrt_mul (sq_nonneg _), Real.sqrt_sq (by linarith)]

end std

/-! ### In binary64 -/

section rounded
open Verif.FP
variable {pw : ℚ → Nat → ℚ} {u d : ℚ}

/-- C104, `EWMA` in binary64: what remains of the past is `2·M·(1 - d)^n`, the rest is rounding. -/
theorem C104_ewma_rounded {cfg : Moment.Config ℚ} {c : Moment.Core ℚ} (hn : newCore (Arith.rounded rnd64 pw) cfg = .ok c)
    (hd : cfg.decay = some d) (hrd : rnd64 d = d) (hs : ∀ k ∈ cfg.sums.getD [], k ≤ 65) {M : ℚ} (hM : rnd64 M = M) {ops ops' : List (MOp ℚ)}
    (hne : since ops ≠ []) (hne' : since ops' ≠ []) {ys : List ℚ} (hx : ∀ x ∈ since ops ++ since ops' ++ ys, rnd64 x = x ∧ |x| ≤ M) :
    ∃ m m' v v', run (Arith.rounded rnd64 pw) c (ops ++ ys.map .push) = .val (m, []) ∧
      run (Arith.rounded rnd64 pw) c (ops' ++ ys.map .push) = .val (m', []) ∧ mean m = .ok v ∧ mean m' = .ok v' ∧
      |v - v'| ≤ 2 * M * (1 - d) ^ ys.length + 2 * ((7 * (1 / 2 ^ 53 * M) + 4 * (1 / 2 ^ 1075)) / d) := by
  obtain ⟨w, -, -, hdd⟩ := newCore_ok _ hn
  obtain ⟨h0, h1, rfl⟩ := hdd d hd
  simp only [GoOrd.le, Arith.rounded, Int.cast_zero, Int.cast_one, rounding_rnd64.zero, rounding_rnd64.one, decide_eq_false_iff_not,
    not_le] at h0 h1
  obtain ⟨m, v, a, b, e⟩ := C69_ewma_accuracy hn hd hrd hs hM (ops ++ ys.map .push)
    (by rw [since_then]; intro x h; exact hx x (by simp at h ⊢; tauto)) (by rw [since_then]; simp [hne])
  obtain ⟨m', v', a', b', e'⟩ := C69_ewma_accuracy hn hd hrd hs hM (ops' ++ ys.map .push)
    (by rw [since_then]; intro x h; exact hx x (by simp at h ⊢; tauto)) (by rw [since_then]; simp [hne'])
  refine ⟨m, m', v, v', a, a', b, b', ?_⟩
  obtain ⟨z, hz⟩ := List.exists_mem_of_ne_nil _ hne
  have f := Forget.ewMean_forget h0.le h1.le ((abs_nonneg z).trans (hx z (by simp [hz])).2) hne hne' (fun x h => (hx x (by simp [h])).2)
    (fun x h => (hx x (by simp [h])).2) (ys := ys)
  rw [since_then] at e e'
  change |ewTotal d (fun x => x) (since ops ++ ys) - ewTotal d (fun x => x) (since ops' ++ ys)| ≤ _ at f
  generalize (7 * (1 / 2 ^ 53 * M) + 4 * (1 / 2 ^ 1075)) / d = E at *
  rw [abs_le] at e e' f ⊢
  constructor <;> linarith

/-- C104, `EWMMoment(k)` in binary64. -/
theorem C104_ewm_moment_rounded {cfg : Moment.Config ℚ} {c : Moment.Core ℚ} (hn : newCore (Arith.rounded rnd64 pw) cfg = .ok c)
    (hd : cfg.decay = some d) (hrd : rnd64 d = d) (hs : ∀ k ∈ cfg.sums.getD [], k ≤ 65) {k : Nat} (hk2 : 2 ≤ k) (hk : k ≤ 20)
    (h2 : ∃ i ∈ cfg.sums.getD [], (k : Int) ≤ i) (hu : 1 / 2 ^ 53 ≤ u) (hu1 : u ≤ 1 / 4096) (hP : PowAcc pw u (1 / 2 ^ 1075)) {M : ℚ}
    (hM : rnd64 M = M) (hM0 : 1 / 2 ^ 50 ≤ M) (hsm : errC k * (u / d) ≤ 2 ^ k) {ops ops' : List (MOp ℚ)}
    (hne : since ops ≠ []) (hne' : since ops' ≠ []) {ys : List ℚ} (hx : ∀ x ∈ since ops ++ since ops' ++ ys, rnd64 x = x ∧ |x| ≤ M) :
    ∃ m m' v v', run (Arith.rounded rnd64 pw) c (ops ++ ys.map .push) = .val (m, []) ∧
      run (Arith.rounded rnd64 pw) c (ops' ++ ys.map .push) = .val (m', []) ∧ ewmMomentValue m k = .ok v ∧ ewmMomentValue m' k = .ok v' ∧
      |v - v'| ≤ (k + 2) * (2 * M) ^ k * (1 - d) ^ ys.length + 2 * (errC k * (u / d) * M ^ k) := by
  obtain ⟨w, -, -, hdd⟩ := newCore_ok _ hn
  obtain ⟨h0, h1, rfl⟩ := hdd d hd
  simp only [GoOrd.le, Arith.rounded, Int.cast_zero, Int.cast_one, rounding_rnd64.zero, rounding_rnd64.one, decide_eq_false_iff_not,
    not_le] at h0 h1
  obtain ⟨m, v, a, b, e⟩ := C93_ewm_accuracy hn hd hrd hs hk2 hk h2 hu hu1 hP hM hM0 hsm (ops ++ ys.map .push)
    (by rw [since_then]; intro x h; exact hx x (by simp at h ⊢; tauto)) (by rw [since_then]; simp [hne])
  obtain ⟨m', v', a', b', e'⟩ := C93_ewm_accuracy hn hd hrd hs hk2 hk h2 hu hu1 hP hM hM0 hsm (ops' ++ ys.map .push)
    (by rw [since_then]; intro x h; exact hx x (by simp at h ⊢; tauto)) (by rw [since_then]; simp [hne'])
  refine ⟨m, m', v, v', a, a', by simp only [ewmMomentValue, b], by simp only [ewmMomentValue, b'], ?_⟩
  have f := Forget.ewMoment_forget h0.le h1.le (le_trans (by positivity) hM0) hne hne' (fun x h => (hx x (by simp [h])).2)
    (fun x h => (hx x (by simp [h])).2) (fun y h => (hx y (by simp [h])).2) (ys := ys) k
  rw [since_then] at e e'
  rw [abs_le] at e e' f ⊢
  constructor <;> linarith

/-- C104, `EWMCov` in binary64. -/
theorem C104_ewmcov_rounded (P : JFP.PowOK rnd64 pw) {cfg : Joint.Config ℚ} {c : Joint.Core ℚ}
    (hn : JFP.newCore (Arith.rounded rnd64 pw) cfg = .val (.ok c)) (hs : ∀ t ∈ cfg.sums.getD [], ∀ k ∈ t, k ≤ 65)
    (hi : NoCollision (cfg.sums.getD [])) (hd : cfg.decay = some d) (hrd : rnd64 d = d) (hv : Joint.varsOf cfg = 2)
    (ht : TracksZ (cfg.sums.getD []) [1, 1]) (hu : 1 / 2 ^ 53 ≤ u) (hu1 : u ≤ 1 / 4096) (hP : PowAcc pw u (1 / 2 ^ 1075))
    {M₁ M₂ : ℚ} (hM₁ : rnd64 M₁ = M₁) (hM₂ : rnd64 M₂ = M₂) (h₁ : 1 / 2 ^ 50 ≤ M₁) (h₂ : 1 / 2 ^ 50 ≤ M₂) (hsm : 200 * (u / d) ≤ 1)
    {ops ops' : List (MOp (List ℚ))} (hne : since (ops.filter (okArity 2)) ≠ []) (hne' : since (ops'.filter (okArity 2)) ≠ [])
    {ys : List (List ℚ)} (hl : ∀ y ∈ ys, y.length = 2)
    (hx₁ : BoundedAt 0 M₁ (since (ops.filter (okArity 2)) ++ since (ops'.filter (okArity 2)) ++ ys))
    (hx₂ : BoundedAt 1 M₂ (since (ops.filter (okArity 2)) ++ since (ops'.filter (okArity 2)) ++ ys)) :
    ∃ m m' es es' v v', JFP.run (Arith.rounded rnd64 pw) c (ops ++ ys.map .push) = .val (m, es) ∧
      JFP.run (Arith.rounded rnd64 pw) c (ops' ++ ys.map .push) = .val (m', es') ∧ JFP.ewmCovValue m = .ok v ∧ JFP.ewmCovValue m' = .ok v' ∧
      |v - v'| ≤ 16 * (M₁ * M₂) * (1 - d) ^ ys.length + 2 * (200 * (u / d) * (M₁ * M₂)) := by
  obtain ⟨h0, h1, -⟩ := decay_range hn hd
  have hf : ∀ o : List (MOp (List ℚ)), since ((o ++ ys.map MOp.push).filter (okArity 2)) = since (o.filter (okArity 2)) ++ ys := by
    intro o
    have : (ys.map MOp.push).filter (okArity 2) = ys.map MOp.push := by
      rw [List.filter_eq_self]
      intro q hq
      obtain ⟨y, hy, rfl⟩ := List.mem_map.1 hq
      simp [okArity, hl y hy]
    rw [List.filter_append, this, since_then]
  obtain ⟨m, es, v, a, b, e⟩ := C103_ewmcov_accuracy P hn hs hi hd hrd hv ht hu hu1 hP hM₁ hM₂ h₁ h₂ hsm (ops ++ ys.map .push)
    (by rw [hf]; intro x h; exact hx₁ x (by simp at h ⊢; tauto)) (by rw [hf]; intro x h; exact hx₂ x (by simp at h ⊢; tauto)) (by rw [hf]; simp [hne])
  obtain ⟨m', es', v', a', b', e'⟩ := C103_ewmcov_accuracy P hn hs hi hd hrd hv ht hu hu1 hP hM₁ hM₂ h₁ h₂ hsm (ops' ++ ys.map .push)
    (by rw [hf]; intro x h; exact hx₁ x (by simp at h ⊢; tauto)) (by rw [hf]; intro x h; exact hx₂ x (by simp at h ⊢; tauto)) (by rw [hf]; simp [hne'])
  refine ⟨m, m', es, es', v, v', a, a', b, b', ?_⟩
  have f := Forget.ewCov_forget h0.le h1.le (le_trans (by positivity) h₁) (le_trans (by positivity) h₂) hne hne' (ys := ys)
    (fun p hp => ⟨(hx₁ p hp).2, (hx₂ p hp).2⟩)
  rw [hf] at e e'
  rw [abs_le] at e e' f ⊢
  constructor <;> linarith

end rounded

/-! ## `EWMCorr` -/

theorem ewCov_cauchy {d : ℝ} (h0 : 0 < d) (h1 : d < 1) (data : List (List ℝ)) :
    |ewCov d data| ≤ √(ewMoment d 2 (coord 0 data) * ewMoment d 2 (coord 1 data)) := by
  obtain ⟨a, b, c⟩ := Joint.ewJoint_cs h0 h1 data
  rw [Joint.ewJoint_20] at a c
  rw [Joint.ewJoint_02] at b c
  rw [Joint.ewJoint_11] at c
  exact Real.abs_le_sqrt c

theorem ewCorr_forget {d M₁ M₂ κ : ℝ} (h0 : 0 < d) (h1 : d < 1) (hM₁ : 0 < M₁) (hM₂ : 0 < M₂) {xs xs' ys : List (List ℝ)} (h : xs ≠ []) (h' : xs' ≠ [])
    (hb : ∀ p ∈ xs ++ xs' ++ ys, |p.getD 0 0| ≤ M₁ ∧ |p.getD 1 0| ≤ M₂) (c₁ : M₁ ^ 2 ≤ κ ^ 2 * ewMoment d 2 (coord 0 (xs' ++ ys)))
    (c₂ : M₂ ^ 2 ≤ κ ^ 2 * ewMoment d 2 (coord 1 (xs' ++ ys))) (hsm : 16 * κ ^ 2 * (1 - d) ^ ys.length ≤ 1 / 100) :
    (0 < ewMoment d 2 (coord 0 (xs ++ ys)) ∧ 0 < ewMoment d 2 (coord 1 (xs ++ ys))) ∧
    (0 < ewMoment d 2 (coord 0 (xs' ++ ys)) ∧ 0 < ewMoment d 2 (coord 1 (xs' ++ ys))) ∧
    |ewCorr d (xs ++ ys) - ewCorr d (xs' ++ ys)| ≤ 52 * κ ^ 2 * (1 - d) ^ ys.length := by
  have hq : 0 ≤ (1 - d) ^ ys.length := pow_nonneg (by linarith) _
  have hC := Forget.ewCov_forget h0.le h1.le hM₁.le hM₂.le h h' hb
  have hX := Forget.ewMoment_forget (xs := coord 0 xs) (xs' := coord 0 xs') (ys := coord 0 ys) h0.le h1.le hM₁.le (by simpa [coord] using h)
    (by simpa [coord] using h') (by simp only [coord, List.mem_map]; rintro _ ⟨p, hp, rfl⟩; exact (hb p (by simp [hp])).1)
    (by simp only [coord, List.mem_map]; rintro _ ⟨p, hp, rfl⟩; exact (hb p (by simp [hp])).1)
    (by simp only [coord, List.mem_map]; rintro _ ⟨p, hp, rfl⟩; exact (hb p (by simp [hp])).1) 2
  have hY := Forget.ewMoment_forget (xs := coord 1 xs) (xs' := coord 1 xs') (ys := coord 1 ys) h0.le h1.le hM₂.le (by simpa [coord] using h)
    (by simpa [coord] using h') (by simp only [coord, List.mem_map]; rintro _ ⟨p, hp, rfl⟩; exact (hb p (by simp [hp])).2)
    (by simp only [coord, List.mem_map]; rintro _ ⟨p, hp, rfl⟩; exact (hb p (by simp [hp])).2)
    (by simp only [coord, List.mem_map]; rintro _ ⟨p, hp, rfl⟩; exact (hb p (by simp [hp])).2) 2
  have happ : ∀ (i : Nat) (a b : List (List ℝ)), coord i a ++ coord i b = coord i (a ++ b) := fun i a b => by simp [coord]
  have hlen : ∀ i : Nat, (coord i ys).length = ys.length := fun i => by simp [coord]
  rw [happ, happ, hlen] at hX hY
  have hcs := ewCov_cauchy h0 h1 (xs' ++ ys)
  unfold ewCorr
  generalize ewMoment d 2 (coord 0 (xs' ++ ys)) = X at *
  generalize ewMoment d 2 (coord 1 (xs' ++ ys)) = Y at *
  generalize ewMoment d 2 (coord 0 (xs ++ ys)) = x at *
  generalize ewMoment d 2 (coord 1 (xs ++ ys)) = y at *
  generalize ewCov d (xs' ++ ys) = C at *
  generalize ewCov d (xs ++ ys) = c at *
  generalize (1 - d) ^ ys.length = q at *
  have pos : ∀ M Z : ℝ, 0 < M → M ^ 2 ≤ κ ^ 2 * Z → 0 < Z := fun M Z hM hZ => by
    by_contra hn
    have : κ ^ 2 * Z ≤ 0 := mul_nonpos_of_nonneg_of_nonpos (sq_nonneg _) (not_lt.1 hn)
    have : 0 < M ^ 2 := by positivity
    linarith
  have pX := pos M₁ X hM₁ c₁
  have pY := pos M₂ Y hM₂ c₂
  have rel : ∀ M z Z : ℝ, M ^ 2 ≤ κ ^ 2 * Z → |z - Z| ≤ ((2 : Nat) + 2) * (2 * M) ^ 2 * q → |z - Z| ≤ 16 * κ ^ 2 * q * Z := fun M z Z hM hz => by
    have := mul_le_mul_of_nonneg_right hM hq
    push_cast at hz
    linarith
  have rX := rel M₁ x X c₁ hX
  have rY := rel M₂ y Y c₂ hY
  have px : 0 < x := by
    have h1 := (abs_le.1 rX).1
    have h2 := mul_le_mul_of_nonneg_right hsm pX.le
    linarith
  have py : 0 < y := by
    have h1 := (abs_le.1 rY).1
    have h2 := mul_le_mul_of_nonneg_right hsm pY.le
    linarith
  have hm : M₁ * M₂ ≤ κ ^ 2 * √(X * Y) := by
    refine le_of_sq_le_sq (b := κ ^ 2 * √(X * Y)) ?_ (by positivity)
    rw [mul_pow _ (√_), Real.sq_sqrt (by positivity)]
    calc (M₁ * M₂) ^ 2 = M₁ ^ 2 * M₂ ^ 2 := by ring
      _ ≤ (κ ^ 2 * X) * (κ ^ 2 * Y) := mul_le_mul c₁ c₂ (by positivity) (by positivity)
      _ = _ := by ring
  have rC : |c - C| ≤ 16 * κ ^ 2 * q * √(X * Y) := by
    have := mul_le_mul_of_nonneg_right hm hq
    linarith
  refine ⟨⟨px, py⟩, ⟨pX, pY⟩, ?_⟩
  have F := FP.corr_final (u := 0) (t := 0) (d := 16 * κ ^ 2 * q) (p := x * y) (r := √(x * y)) (g := c / √(x * y)) le_rfl (by norm_num) pX pY
    (by positivity) hsm rX rY rC hcs (by simp) (by simp) le_rfl (by simp) (by simp)
  rw [← Real.sqrt_mul px.le, ← Real.sqrt_mul pX.le]
  refine F.trans ?_
  have : 0 ≤ κ ^ 2 * q := by positivity
  linarith

/-- C104, `EWMCorr`: the two values differ by at most `52·κ²·(1 - d)^n`, when `M₁` and `M₂` are at most `κ` exponentially weighted standard deviations
of the coordinates, and `16·κ²·(1 - d)^n` is at most 1/100. -/
theorem C104_ewmcorr {d M₁ M₂ κ : ℝ} (h0 : 0 < d) (h1 : d < 1) (hM₁ : 0 < M₁) (hM₂ : 0 < M₂) {ops ops' : List (MOp (List ℝ))}
    (hne : since (ops.filter (okArity 2)) ≠ []) (hne' : since (ops'.filter (okArity 2)) ≠ []) {ys : List (List ℝ)} (hl : ∀ y ∈ ys, y.length = 2)
    (hb : ∀ p ∈ since (ops.filter (okArity 2)) ++ since (ops'.filter (okArity 2)) ++ ys, |p.getD 0 0| ≤ M₁ ∧ |p.getD 1 0| ≤ M₂)
    (c₁ : M₁ ^ 2 ≤ κ ^ 2 * ewMoment d 2 (coord 0 (since (ops'.filter (okArity 2)) ++ ys)))
    (c₂ : M₂ ^ 2 ≤ κ ^ 2 * ewMoment d 2 (coord 1 (since (ops'.filter (okArity 2)) ++ ys))) (hsm : 16 * κ ^ 2 * (1 - d) ^ ys.length ≤ 1 / 100) :
    ∃ c m m' es es' v v', (Joint.Metric.new (.ewmCorr d)).init = .val (c, none) ∧ Joint.Metric.run c (ops ++ ys.map .push) = .val (m, es) ∧
      Joint.Metric.run c (ops' ++ ys.map .push) = .val (m', es') ∧ Joint.Metric.value Real.sqrt m = .ok (.fin v) ∧
      Joint.Metric.value Real.sqrt m' = .ok (.fin v') ∧ |v - v'| ≤ 52 * κ ^ 2 * (1 - d) ^ ys.length := by
  have hf : ∀ o : List (MOp (List ℝ)), since ((o ++ ys.map MOp.push).filter (okArity 2)) = since (o.filter (okArity 2)) ++ ys := by
    intro o
    have : (ys.map MOp.push).filter (okArity 2) = ys.map MOp.push := by
      rw [List.filter_eq_self]
      intro q hq
      obtain ⟨y, hy, rfl⟩ := List.mem_map.1 hq
      simp [okArity, hl y hy]
    rw [List.filter_append, this, since_then]
  obtain ⟨⟨p1, p2⟩, ⟨p3, p4⟩, hd⟩ := ewCorr_forget h0 h1 hM₁ hM₂ hne hne' hb c₁ c₂ hsm
  obtain ⟨c, m, es, i, a, -, b, -⟩ := C45_ewmcorr h0 h1 (ops ++ ys.map .push)
  obtain ⟨c', m', es', i', a', -, b', -⟩ := C45_ewmcorr h0 h1 (ops' ++ ys.map .push)
  rw [i] at i'
  simp only [Go.val.injEq, Prod.mk.injEq, and_true] at i'
  subst i'
  rw [hf] at b b'
  exact ⟨c, m, m', es, es', _, _, i, a, a', b p1.ne' p2.ne', b' p3.ne' p4.ne', hd⟩

section rounded
open Verif.FP
variable {pw : ℚ → Nat → ℚ} {d u κ : ℚ}

/-- C104, `EWMCorr` in binary64: what is left is the error of C103, twice. -/
theorem C104_ewmcorr_rounded (P : JFP.PowOK rnd64 pw) {cfg : Joint.Config ℚ} {c : Joint.Core ℚ} (hc : CorrCore rnd64 pw cfg c)
    (hd : cfg.decay = some d) (hu : 1 / 2 ^ 53 ≤ u) (hu1 : u ≤ 1 / 4096) (hP : PowAcc pw u (1 / 2 ^ 1075)) {sq : ℚ → ℚ}
    (hsq : ∀ q : ℚ, 0 ≤ q → |(sq q : ℝ) - √(q : ℝ)| ≤ u * √(q : ℝ)) {ops ops' : List (MOp (List ℚ))}
    (hne : since (ops.filter (okArity 2)) ≠ []) (hne' : since (ops'.filter (okArity 2)) ≠ []) {ys : List (List ℚ)} (hl : ∀ y ∈ ys, y.length = 2)
    {M₁ M₂ : ℚ} (hκ : 1 ≤ κ) (H₁ : EwCoordOK 0 d M₁ κ (since (ops.filter (okArity 2)) ++ ys))
    (H₂ : EwCoordOK 1 d M₂ κ (since (ops.filter (okArity 2)) ++ ys)) (H₁' : EwCoordOK 0 d M₁ κ (since (ops'.filter (okArity 2)) ++ ys))
    (H₂' : EwCoordOK 1 d M₂ κ (since (ops'.filter (okArity 2)) ++ ys)) (hsm : 1920 * (u / d) * κ ^ 2 ≤ 1 / 100)
    (hq : 16 * κ ^ 2 * (1 - d) ^ ys.length ≤ 1 / 100) :
    ∃ m m' es es' v v', JFP.run (Arith.rounded rnd64 pw) c (ops ++ ys.map .push) = .val (m, es) ∧
      JFP.run (Arith.rounded rnd64 pw) c (ops' ++ ys.map .push) = .val (m', es') ∧ JFP.corrValue (Arith.rounded rnd64 pw) sq m = .ok v ∧
      JFP.corrValue (Arith.rounded rnd64 pw) sq m' = .ok v' ∧
      |v - v'| ≤ 52 * κ ^ 2 * (1 - d) ^ ys.length + 2 * (4400 * (u / d) * κ ^ 2) := by
  have hf : ∀ o : List (MOp (List ℚ)), since ((o ++ ys.map MOp.push).filter (okArity 2)) = since (o.filter (okArity 2)) ++ ys := by
    intro o
    have : (ys.map MOp.push).filter (okArity 2) = ys.map MOp.push := by
      rw [List.filter_eq_self]
      intro q hq
      obtain ⟨y, hy, rfl⟩ := List.mem_map.1 hq
      simp [okArity, hl y hy]
    rw [List.filter_append, this, since_then]
  obtain ⟨h0, h1, -⟩ := decay_range hc.new hd
  obtain ⟨m, es, v, a, b, e⟩ := C103_ewmcorr_accuracy P hc hd hu hu1 hP hsq (ops ++ ys.map .push) hκ (by rw [hf]; exact H₁) (by rw [hf]; exact H₂) hsm
  obtain ⟨m', es', v', a', b', e'⟩ := C103_ewmcorr_accuracy P hc hd hu hu1 hP hsq (ops' ++ ys.map .push) hκ (by rw [hf]; exact H₁')
    (by rw [hf]; exact H₂') hsm
  refine ⟨m, m', es, es', v, v', a, a', b, b', ?_⟩
  have hreal : ∀ x : List (List ℚ), realPoints (x ++ ys) = realPoints x ++ realPoints ys := fun x => List.map_append
  rw [hf, hreal] at e e'
  have low : ∀ M : ℚ, 1 / 2 ^ 50 ≤ M → (0 : ℝ) < M := fun M h => by
    have : (0 : ℚ) < M := lt_of_lt_of_le (by positivity) h
    exact_mod_cast this
  have cond : ∀ (i : Nat) (M : ℚ), M ^ 2 ≤ κ ^ 2 * ewMoment d 2 (coord i (since (ops'.filter (okArity 2)) ++ ys)) →
      (M : ℝ) ^ 2 ≤ (κ : ℝ) ^ 2 * ewMoment (d : ℝ) 2 (coord i (realPoints (since (ops'.filter (okArity 2))) ++ realPoints ys)) := fun i M h => by
    rw [← hreal, coord_real, ewMoment_reals]
    exact_mod_cast h
  have hb : ∀ p ∈ realPoints (since (ops.filter (okArity 2))) ++ realPoints (since (ops'.filter (okArity 2))) ++ realPoints ys,
      |p.getD 0 0| ≤ (M₁ : ℝ) ∧ |p.getD 1 0| ≤ (M₂ : ℝ) := by
    intro p hp
    have : ∃ x ∈ since (ops.filter (okArity 2)) ++ since (ops'.filter (okArity 2)) ++ ys, reals x = p := by
      rw [← List.mem_map]
      simpa [realPoints] using hp
    obtain ⟨x, hx, rfl⟩ := this
    have h2 : |x.getD 0 0| ≤ M₁ ∧ |x.getD 1 0| ≤ M₂ := by
      simp only [List.mem_append] at hx
      rcases hx with (hx | hx) | hx
      · exact ⟨(H₁.bound x (by simp [hx])).2, (H₂.bound x (by simp [hx])).2⟩
      · exact ⟨(H₁'.bound x (by simp [hx])).2, (H₂'.bound x (by simp [hx])).2⟩
      · exact ⟨(H₁.bound x (by simp [hx])).2, (H₂.bound x (by simp [hx])).2⟩
    rw [getD_reals, getD_reals]
    exact ⟨by exact_mod_cast h2.1, by exact_mod_cast h2.2⟩
  have F := (ewCorr_forget (d := (d : ℝ)) (κ := (κ : ℝ)) (by exact_mod_cast h0) (by exact_mod_cast h1) (low _ H₁.low) (low _ H₂.low)
    (xs := realPoints (since (ops.filter (okArity 2)))) (xs' := realPoints (since (ops'.filter (okArity 2)))) (ys := realPoints ys)
    (by simpa [realPoints] using hne) (by simpa [realPoints] using hne') hb (cond 0 M₁ H₁'.cond) (cond 1 M₂ H₂'.cond) (by
      rw [show (realPoints ys).length = ys.length from List.length_map _]
      have := (Rat.cast_le (K := ℝ)).2 hq
      push_cast at this
      exact this)).2.2
  rw [show (realPoints ys).length = ys.length from List.length_map _] at F
  have G : |(v : ℝ) - v'| ≤ 52 * (κ : ℝ) ^ 2 * (1 - d) ^ ys.length + 2 * (4400 * ((u : ℝ) / d) * κ ^ 2) := by
    rw [abs_le] at e e' F ⊢
    constructor <;> linarith
  exact_mod_cast G

end rounded

/-! A metric that sees the same point for ever keeps the correlation of its past: the weighted variances tend to zero, and their quotient does not
move. -/

theorem ewTotal_smul {α : Type} (d s : ℝ) (f : α → ℝ) (xs : List α) : ewTotal d (fun x => s * f x) xs = s * ewTotal d f xs := by
  unfold ewTotal
  rw [← List.sum_map_mul_left]
  congr 1
  refine List.map_congr_left fun p _ => ?_
  ring

theorem ewCorr_line {d : ℝ} {ts : List ℝ} (hV : 0 < ewMoment d 2 ts) (s : ℝ) (hs : s ^ 2 = 1) :
    ewMoment d 2 (coord 0 (ts.map fun t => [t, s * t])) = ewMoment d 2 ts ∧ ewMoment d 2 (coord 1 (ts.map fun t => [t, s * t])) = ewMoment d 2 ts ∧
    ewCorr d (ts.map fun t => [t, s * t]) = s := by
  have c0 : coord 0 (ts.map fun t => [t, s * t]) = ts := by simp [coord, Function.comp_def]
  have c1 : coord 1 (ts.map fun t => [t, s * t]) = ts.map (s * ·) := by simp [coord, Function.comp_def]
  have m1 : ewMean d (ts.map (s * ·)) = s * ewMean d ts := by
    unfold ewMean
    rw [Joint.ewTotal_map, ewTotal_smul]
  have v1 : ewMoment d 2 (ts.map (s * ·)) = ewMoment d 2 ts := by
    rw [ewMoment, m1, Joint.ewTotal_map, ewMoment]
    congr 1
    funext x
    calc (s * x - s * ewMean d ts) ^ 2 = s ^ 2 * (x - ewMean d ts) ^ 2 := by ring
      _ = _ := by rw [hs, one_mul]
  have cv : ewCov d (ts.map fun t => [t, s * t]) = s * ewMoment d 2 ts := by
    rw [ewCov, c0, c1, m1, Joint.ewTotal_map, ewMoment, ← ewTotal_smul]
    congr 1
    funext x
    simp only [List.getD_cons_zero, List.getD_cons_succ]
    ring
  refine ⟨by rw [c0], by rw [c1, v1], ?_⟩
  rw [ewCorr, cv, c0, c1, v1, Real.mul_self_sqrt hV.le, mul_div_assoc, div_self hV.ne', mul_one]

theorem ewMoment_pos_tail {d : ℝ} (h0 : 0 < d) (h1 : d < 1) (rest : List ℝ) : 0 < ewMoment d 2 (0 :: 1 :: rest) := by
  unfold ewMoment
  generalize ewMean d (0 :: 1 :: rest) = m
  unfold ewTotal
  rw [List.zipIdx_cons, List.zipIdx_cons, List.map_cons, List.map_cons, List.sum_cons, List.sum_cons]
  have hr : 0 ≤ ((rest.zipIdx (0 + 1 + 1)).map (fun p => ewWeight d (0 :: 1 :: rest : List ℝ).length p.2 * (p.1 - m) ^ 2)).sum := by
    refine List.sum_nonneg ?_
    simp only [List.mem_map]
    rintro _ ⟨p, -, rfl⟩
    exact mul_nonneg (Joint.ewWeight_nonneg h0 h1 _ _) (sq_nonneg _)
  have h2 : 0 < 1 - d := by linarith
  have w0 : 0 < ewWeight d (0 :: 1 :: rest : List ℝ).length 0 := by unfold ewWeight; rw [if_pos rfl]; positivity
  have w1 : 0 < ewWeight d (0 :: 1 :: rest : List ℝ).length (0 + 1) := by unfold ewWeight; rw [if_neg (by omega)]; positivity
  rcases eq_or_ne m 0 with rfl | hm
  · have : 0 < ewWeight d (0 :: 1 :: rest : List ℝ).length (0 + 1) * (1 - 0) ^ 2 := by positivity
    have : 0 ≤ ewWeight d (0 :: 1 :: rest : List ℝ).length 0 * ((0 : ℝ) - 0) ^ 2 := by positivity
    simp only at hr ⊢
    linarith
  · have : 0 < ewWeight d (0 :: 1 :: rest : List ℝ).length 0 * (0 - m) ^ 2 := by
      have : (0 - m) ≠ 0 := by simpa using hm
      positivity
    have : 0 ≤ ewWeight d (0 :: 1 :: rest : List ℝ).length (0 + 1) * (1 - m) ^ 2 := by positivity
    simp only at hr ⊢
    linarith

/-- C104 fails for `EWMCorr` without the condition on the variances: after (0, 0), (1, 1) or (0, 0), (1, -1) and then any number of points (0, 0) the
two values are 1 and -1. -/
theorem C104_ewmcorr_constant {d : ℝ} (h0 : 0 < d) (h1 : d < 1) (n : Nat) :
    ∃ c m m' es es', (Joint.Metric.new (.ewmCorr d)).init = .val (c, none) ∧
      Joint.Metric.run c ([.push [0, 0], .push [1, 1]] ++ (List.replicate n [0, 0]).map .push) = .val (m, es) ∧
      Joint.Metric.run c ([.push [0, 0], .push [1, -1]] ++ (List.replicate n [0, 0]).map .push) = .val (m', es') ∧
      Joint.Metric.value Real.sqrt m = .ok (.fin 1) ∧ Joint.Metric.value Real.sqrt m' = .ok (.fin (-1)) := by
  have key : ∀ s : ℝ, s ^ 2 = 1 → ∃ c m es, (Joint.Metric.new (.ewmCorr d)).init = .val (c, none) ∧
      Joint.Metric.run c ([.push [0, 0], .push [1, s]] ++ (List.replicate n [0, 0]).map .push) = .val (m, es) ∧
      Joint.Metric.value Real.sqrt m = .ok (.fin s) := by
    intro s hs
    obtain ⟨c, m, es, i, a, -, b, -⟩ := C45_ewmcorr h0 h1 ([.push [0, 0], .push [1, s]] ++ (List.replicate n [0, 0]).map .push)
    refine ⟨c, m, es, i, a, ?_⟩
    have hd : since (([.push [0, 0], .push [1, s]] ++ (List.replicate n [0, 0]).map MOp.push : List (MOp (List ℝ))).filter (okArity 2)) =
        (0 :: 1 :: List.replicate n 0).map fun t => [t, s * t] := by
      have hf : ([.push [0, 0], .push [1, s]] ++ (List.replicate n [0, 0]).map MOp.push : List (MOp (List ℝ))).filter (okArity 2) =
          [.push [0, 0], .push [1, s]] ++ (List.replicate n [0, 0]).map MOp.push := by
        rw [List.filter_eq_self]
        intro q hq
        simp only [List.mem_append, List.mem_cons, List.not_mem_nil, or_false, List.mem_map, List.mem_replicate] at hq
        rcases hq with (rfl | rfl) | ⟨_, ⟨-, rfl⟩, rfl⟩ <;> simp [okArity]
      rw [hf, since_then]
      simp [since]
    have hV := ewMoment_pos_tail h0 h1 (List.replicate n 0)
    obtain ⟨e0, e1, e2⟩ := ewCorr_line hV s hs
    rw [hd, e0, e1, e2] at b
    exact b hV.ne' hV.ne'
  obtain ⟨c, m, es, i, a, v⟩ := key 1 (by norm_num)
  obtain ⟨c', m', es', i', a', v'⟩ := key (-1) (by norm_num)
  rw [i] at i'
  simp only [Go.val.injEq, Prod.mk.injEq, and_true] at i'
  subst i'
  exact ⟨c, m, m', es, es', i, a, a', v, v'⟩

/-- The condition on the variances holds for points that keep moving: with decay 1/2, the points (-1, -1), (1, 1) at the end of any of the two
histories have `M = 1`, `κ = 2`, and after twenty more such points less than 10⁻³ is left. -/
example : (1 : ℚ) ^ 2 ≤ 2 ^ 2 * ewMoment (1 / 2 : ℚ) 2 (coord 0 ([[0, 0], [1, 1]] ++ [[-1, -1], [1, 1]])) ∧
    16 * (2 : ℚ) ^ 2 * (1 - 1 / 2) ^ 20 ≤ 1 / 100 ∧ 52 * (2 : ℚ) ^ 2 * (1 - 1 / 2) ^ 20 ≤ 1 / 10 ^ 3 := by
  refine ⟨by decide +kernel, by norm_num, by norm_num⟩

/-- With decay 1/2, two histories of values up to 100, after forty common values: less than 10⁻⁹ remains in the mean; a single old value of 100
does remain. -/
example : 2 * (100 : ℚ) * (1 - 1 / 2) ^ 40 ≤ 1 / 10 ^ 9 ∧ since [MOp.push 3, MOp.clear, MOp.push (100 : ℚ)] = [100] ∧
    ewMean (1 / 2 : ℚ) ([100] ++ [1, 1]) - ewMean (1 / 2) ([-100] ++ [1, 1]) = 2 * 100 * (1 - 1 / 2) ^ 2 := by
  refine ⟨by norm_num, rfl, ?_⟩
  norm_num [ewMean, ewTotal, ewWeight, List.zipIdx]

end Verif.Props
