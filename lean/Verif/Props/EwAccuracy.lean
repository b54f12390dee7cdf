import Verif.Model.EwValue
import Verif.Proofs.EwPair
import Verif.Props.CorrAccuracy

/-! # C103: accuracy of `EWMStd`, `EWMCov` and `EWMCorr` in binary64

`d` is the decay, `M`, `M₁`, `M₂` bound the absolute values of the data since the last `Clear`, and for the metrics with a square root they are at
most `κ ≥ 1` exponentially weighted standard deviations. No bound depends on the number of values. -/

namespace Verif.Props
open Verif Verif.Spec Verif.FP

/-! ### The specification over the reals -/

theorem ewTotal_cast {α : Type} (d : ℚ) (f : α → ℚ) (xs : List α) : ewTotal (d : ℝ) (fun x => (f x : ℝ)) xs = ((ewTotal d f xs : ℚ) : ℝ) := by
  unfold ewTotal
  generalize xs.zipIdx = ys
  induction ys with
  | nil => simp
  | cons y ys ih =>
    simp only [List.map_cons, List.sum_cons]
    rw [ih]
    push_cast
    congr 2
    unfold ewWeight
    split <;> push_cast <;> rfl

theorem ewMean_reals (d : ℚ) (xs : List ℚ) : ewMean (d : ℝ) (reals xs) = ((ewMean d xs : ℚ) : ℝ) := by
  rw [ewMean, ewMean, reals, Joint.ewTotal_map, ewTotal_cast d (fun x => x)]

theorem ewMoment_reals (d : ℚ) (k : Nat) (xs : List ℚ) : ewMoment (d : ℝ) k (reals xs) = ((ewMoment d k xs : ℚ) : ℝ) := by
  rw [ewMoment, ewMean_reals, ewMoment, reals, Joint.ewTotal_map, ← ewTotal_cast]
  push_cast
  rfl

theorem ewCov_real (d : ℚ) (data : List (List ℚ)) : ewCov (d : ℝ) (realPoints data) = ((ewCov d data : ℚ) : ℝ) := by
  rw [ewCov, coord_real, coord_real, ewMean_reals, ewMean_reals, ewCov, realPoints, Joint.ewTotal_map, ← ewTotal_cast]
  simp only [getD_reals]
  push_cast
  rfl

theorem ewPair_pairs (d : ℚ) (data : List (List ℚ)) : ewPair d (JFP.pairs 0 0 1 data) = ewCov d data := by
  rw [ewPair, JFP.pairs_fst, JFP.pairs_snd, JFP.pairs, Joint.ewTotal_map]
  rfl

theorem ewCov_le {d : ℚ} (h0 : 0 < d) (h1 : d < 1) (data : List (List ℚ)) :
    0 ≤ ewMoment d 2 (coord 0 data) ∧ 0 ≤ ewMoment d 2 (coord 1 data) ∧
      |((ewCov d data : ℚ) : ℝ)| ≤ √(((ewMoment d 2 (coord 0 data) : ℚ) : ℝ) * ((ewMoment d 2 (coord 1 data) : ℚ) : ℝ)) := by
  obtain ⟨a, b, c⟩ := Joint.ewJoint_cs h0 h1 data
  rw [Joint.ewJoint_20] at a c
  rw [Joint.ewJoint_02] at b c
  rw [Joint.ewJoint_11] at c
  exact ⟨a, b, Real.abs_le_sqrt (by exact_mod_cast c)⟩

/-- Pearson's correlation with weights. -/
theorem ewCorr_sums {d : ℚ} (h0 : 0 < d) (h1 : d < 1) (data : List (List ℚ)) :
    ewCorr (d : ℝ) (realPoints data) =
      (ewCov d data : ℚ) / √(((ewMoment d 2 (coord 0 data) : ℚ) : ℝ) * ((ewMoment d 2 (coord 1 data) : ℚ) : ℝ)) := by
  rw [ewCorr, ewCov_real, coord_real, coord_real, ewMoment_reals, ewMoment_reals,
    ← Real.sqrt_mul (by exact_mod_cast (ewCov_le h0 h1 data).1)]

section
variable {pw : ℚ → Nat → ℚ} {u d κ : ℚ}

theorem small2_ew {M₁ M₂ : ℚ} (hu : 1 / 2 ^ 53 ≤ u) (hu1 : u ≤ 1 / 4096) (h₁ : 1 / 2 ^ 50 ≤ M₁) (h₂ : 1 / 2 ^ 50 ≤ M₂) :
    Small2 u (1 / 2 ^ 1075) M₁ M₂ 1 := by
  have hu0 : 0 ≤ u := le_trans (by positivity) hu
  have huu : (1 / 2 ^ 53 : ℚ) * (1 / 2 ^ 53) ≤ u * u := mul_self_le_mul_self (by positivity) hu
  have hp : ∀ {a b : ℚ}, 1 / 2 ^ 50 ≤ a → 1 / 2 ^ 50 ≤ b → (1 : ℚ) / 2 ^ 1075 ≤ u * u * (a * b) := fun {a b} ha hb => by
    have h1 : (1 / 2 ^ 50 : ℚ) * (1 / 2 ^ 50) ≤ a * b := mul_le_mul ha hb (by positivity) (le_trans (by positivity) ha)
    refine le_trans ?_ (mul_le_mul huu h1 (by positivity) (by positivity))
    decide +kernel
  have hq : ∀ {a : ℚ}, 1 / 2 ^ 50 ≤ a → Small u (1 / 2 ^ 1075) a 1 := fun {a} ha => by
    refine ⟨hu0, by positivity, by linarith, by rw [Nat.cast_one]; linarith, le_trans (by positivity) ha, le_trans (by decide +kernel) huu, ?_, hp ha ha⟩
    refine le_trans ?_ (mul_le_mul huu ha (by positivity) (by positivity))
    decide +kernel
  exact ⟨hq h₁, hq h₂, hp h₁ h₂⟩

/-- The decay of a core is in (0, 1), and its window is 0. -/
theorem decay_range {cfg : Joint.Config ℚ} {c : Joint.Core ℚ} (hn : JFP.newCore (Arith.rounded rnd64 pw) cfg = .val (.ok c))
    (hd : cfg.decay = some d) : 0 < d ∧ d < 1 ∧ cfg.window = some 0 := by
  obtain ⟨c', hc'⟩ := moment_companion _ hn
  obtain ⟨w, hw, -, hdd⟩ := newCore_ok _ hc'
  obtain ⟨a, b, rfl⟩ := hdd d hd
  simp only [GoOrd.le, Arith.rounded, Int.cast_zero, Int.cast_one, rounding_rnd64.zero, rounding_rnd64.one, decide_eq_false_iff_not,
    not_le] at a b
  exact ⟨a, b, by simpa using hw⟩

/-- C103, `EWMCov`, in binary64: it is off by at most `200·(u/d)·M₁·M₂`, however many points are pushed. -/
theorem C103_ewmcov_accuracy (P : JFP.PowOK rnd64 pw) {cfg : Joint.Config ℚ} {c : Joint.Core ℚ}
    (hn : JFP.newCore (Arith.rounded rnd64 pw) cfg = .val (.ok c)) (hs : ∀ t ∈ cfg.sums.getD [], ∀ k ∈ t, k ≤ 65)
    (hi : NoCollision (cfg.sums.getD [])) (hd : cfg.decay = some d) (hrd : rnd64 d = d) (hv : Joint.varsOf cfg = 2)
    (ht : TracksZ (cfg.sums.getD []) [1, 1]) (hu : 1 / 2 ^ 53 ≤ u) (hu1 : u ≤ 1 / 4096) (hP : PowAcc pw u (1 / 2 ^ 1075))
    {M₁ M₂ : ℚ} (hM₁ : rnd64 M₁ = M₁) (hM₂ : rnd64 M₂ = M₂) (h₁ : 1 / 2 ^ 50 ≤ M₁) (h₂ : 1 / 2 ^ 50 ≤ M₂) (hsm : 200 * (u / d) ≤ 1)
    (ops : List (MOp (List ℚ))) (hx₁ : BoundedAt 0 M₁ (since (ops.filter (okArity 2))))
    (hx₂ : BoundedAt 1 M₂ (since (ops.filter (okArity 2)))) (hne : since (ops.filter (okArity 2)) ≠ []) :
    ∃ e es v, JFP.run (Arith.rounded rnd64 pw) c ops = .val (e, es) ∧ JFP.ewmCovValue e = .ok v ∧
      |v - ewCov d (since (ops.filter (okArity 2)))| ≤ 200 * (u / d) * (M₁ * M₂) := by
  obtain ⟨hd0, hd1, hw⟩ := decay_range hn hd
  obtain ⟨e, r, hc, -, -, h⟩ := joint_second rounding_rnd64 P hn hs hi (w := 0) (by simpa using hw) (fun h => absurd h (by omega))
    (by simpa [hd] using hrd) (n := 2) (by exact_mod_cast hv) ops
  have h11 := h 0 1 (by omega) (by omega) ht hne
  change JFP.sum e [1, 1] = _ at h11
  rw [hd] at h11
  refine ⟨e, _, JFP.pairS (Arith.rounded rnd64 pw) (fun a b => rnd64 (a * b)) 0 (some d) (JFP.pairs 0 0 1 (since (ops.filter (okArity 2)))), r,
    by simp only [JFP.ewmCovValue, h11], ?_⟩
  have := pairS_ew_err (pw := pw) rounding_rnd64 (accuracy_weaken hu) (small2_ew hu hu1 h₁ h₂)
    (tiny64 hu hu1 h₁ (n := 1) (k := 2) (by rw [Nat.cast_one, one_mul]; linarith) (by norm_num)) hP hM₁ hM₂ hrd hd0 hd1 hsm
    (JFP.pairs 0 0 1 (since (ops.filter (okArity 2)))) (boundedPairs64 hx₁ hx₂)
  rw [ewPair_pairs, if_neg (by simpa [JFP.pairs] using hne)] at this
  refine this.trans (le_of_eq ?_)
  ring

/-- C103, the exponentially weighted variances of a joint core are as accurate as those of a moment core (C93). -/
theorem C103_square_accuracy (P : JFP.PowOK rnd64 pw) {cfg : Joint.Config ℚ} {c : Joint.Core ℚ}
    (hn : JFP.newCore (Arith.rounded rnd64 pw) cfg = .val (.ok c)) (hs : ∀ t ∈ cfg.sums.getD [], ∀ k ∈ t, k ≤ 65)
    (hi : NoCollision (cfg.sums.getD [])) (hd : cfg.decay = some d) (hrd : rnd64 d = d) {n : Nat} (hv : Joint.varsOf cfg = n) {i : Nat} (hin : i < n)
    (ht : TracksZ (cfg.sums.getD []) ((List.replicate n 0).set i 2)) (hu : 1 / 2 ^ 53 ≤ u) (hu1 : u ≤ 1 / 4096)
    (hP : PowAcc pw u (1 / 2 ^ 1075)) {M : ℚ} (hM : rnd64 M = M) (hM0 : 1 / 2 ^ 50 ≤ M) (hsm : 480 * (u / d) ≤ 1)
    (ops : List (MOp (List ℚ))) (hx : BoundedAt i M (since (ops.filter (okArity n)))) (hne : since (ops.filter (okArity n)) ≠ []) :
    ∃ e es v, JFP.run (Arith.rounded rnd64 pw) c ops = .val (e, es) ∧ JFP.sum e ((List.replicate n 0).set i 2) = .ok v ∧
      |v - ewMoment d 2 (coord i (since (ops.filter (okArity n))))| ≤ 1920 * (u / d) * M ^ 2 := by
  obtain ⟨-, -, hw⟩ := decay_range hn hd
  obtain ⟨c', hc'⟩ := moment_companion _ hn
  obtain ⟨e, es, e', r, r', hm⟩ := C74_square_partial rounding_rnd64 P hn hs hi (w := 0) (by simpa using hw) (fun h => absurd h (by omega)) hc'
    (by simp) ⟨2, by simp, le_rfl⟩ rfl rfl (by simpa [hd] using hrd) hv hin ht ops
  have hcol : since (columnOps (0 : ℚ) i n ops) = coord i (since (ops.filter (okArity n))) := since_columnOps _ _ _ _
  obtain ⟨e2, v, r2, h1, h2⟩ := C93_ewm_accuracy hc' hd hrd (by simp) (k := 2) le_rfl (by norm_num) ⟨2, by simp, le_rfl⟩ hu hu1 hP hM hM0
    (by rw [errC_two]; norm_num; linarith) (columnOps 0 i n ops) (by
      rw [hcol]
      intro y hy
      obtain ⟨x, hx', rfl⟩ := List.mem_map.1 hy
      exact hx x hx') (by rw [hcol]; simpa [coord] using hne)
  rw [r'] at r2
  simp only [Go.val.injEq, Prod.mk.injEq, and_true] at r2
  subst r2
  rw [hcol, errC_two] at h2
  exact ⟨e, es, v, r, (hm v).2 h1, h2⟩

/-- The exponentially weighted standard deviation from the variance. -/
theorem ewmstd_of_moment (hd0 : 0 < d) (hd1 : d < 1) (hu : 1 / 2 ^ 53 ≤ u) {sq : ℚ → ℚ} (hsq : ∀ q : ℚ, 0 ≤ q → |(sq q : ℝ) - √(q : ℝ)| ≤ u * √(q : ℝ))
    {M : ℚ} (hM0 : 1 / 2 ^ 50 ≤ M) {xs : List ℚ} (hκ : 1 ≤ κ) (hcond : M ^ 2 ≤ κ ^ 2 * ewMoment d 2 xs) (hsm : 1920 * (u / d) * κ ^ 2 ≤ 1 / 100) {v : ℚ}
    (hb : |v - ewMoment d 2 xs| ≤ 1920 * (u / d) * M ^ 2) :
    0 ≤ v ∧ |(sq v : ℝ) - √(ewMoment (d : ℝ) 2 (reals xs))| ≤ 2000 * (u / d) * κ ^ 2 * √(ewMoment (d : ℝ) 2 (reals xs)) := by
  have hu0 : 0 ≤ u := le_trans (by positivity) hu
  have hκ2 : 1 ≤ κ ^ 2 := one_le_pow₀ hκ
  have hud : 0 ≤ u / d := div_nonneg hu0 hd0.le
  have hudκ : u / d ≤ u / d * κ ^ 2 := le_mul_of_one_le_right hud hκ2
  have huu : u ≤ u / d := by rw [le_div_iff₀ hd0]; exact mul_le_of_le_one_right hu0 hd1.le
  have hMp : 0 < M := lt_of_lt_of_le (by positivity) hM0
  rw [ewMoment_reals]
  generalize ewMoment d 2 xs = X at *
  have hX0 : 0 < X := by
    by_contra h
    push Not at h
    have : κ ^ 2 * X ≤ 0 := mul_nonpos_of_nonneg_of_nonpos (by positivity) h
    have : 0 < M ^ 2 := by positivity
    linarith
  have hb' : |v - X| ≤ 1920 * (u / d) * κ ^ 2 * X := by
    have := mul_le_mul_of_nonneg_left hcond (show 0 ≤ 1920 * (u / d) by positivity)
    linarith
  have hv0 : 0 ≤ v := by
    have h1 := (abs_le.1 hb').1
    have h3 := mul_le_mul_of_nonneg_right hsm hX0.le
    linarith
  refine ⟨hv0, ?_⟩
  have hbR : |(v : ℝ) - X| ≤ 1920 * (u / d) * κ ^ 2 * X := by exact_mod_cast hb'
  have hsR : 1920 * ((u : ℝ) / d) * κ ^ 2 ≤ 1 / 100 := by simpa using (Rat.cast_le (K := ℝ)).2 hsm
  have huR : (u : ℝ) ≤ u / d * κ ^ 2 := by exact_mod_cast huu.trans hudκ
  have hu0R : (0 : ℝ) ≤ u := by exact_mod_cast hu0
  have h1 := sqrt_err (show (0 : ℝ) < X by exact_mod_cast hX0) hbR (by linarith)
  have h3 := hsq v hv0
  have h4 : |(sq v : ℝ) - √X| ≤ |(sq v : ℝ) - √v| + |√v - √X| := abs_sub_le _ _ _
  have hr := Real.sqrt_nonneg (X : ℝ)
  have h5 : √(v : ℝ) ≤ 2 * √X := by
    have h6 := (abs_le.1 h1).2
    have := mul_le_mul_of_nonneg_right hsR hr
    linarith
  have h6 := mul_le_mul huR h5 (Real.sqrt_nonneg _) (hu0R.trans huR)
  have h7 : 0 ≤ (u : ℝ) / d * κ ^ 2 * √X := mul_nonneg (hu0R.trans huR) hr
  linarith

/-- C103, `EWMStd`, in binary64 with a square root of relative error `u`: its relative error is at most `2000·(u/d)·κ²`, however many values are
pushed. -/
theorem C103_ewmstd_accuracy {cfg : Moment.Config ℚ} {c : Moment.Core ℚ} (hn : newCore (Arith.rounded rnd64 pw) cfg = .ok c)
    (hd : cfg.decay = some d) (hrd : rnd64 d = d) (hs : ∀ k ∈ cfg.sums.getD [], k ≤ 65) (h2 : ∃ i ∈ cfg.sums.getD [], 2 ≤ i)
    (hu : 1 / 2 ^ 53 ≤ u) (hu1 : u ≤ 1 / 4096) (hP : PowAcc pw u (1 / 2 ^ 1075)) {sq : ℚ → ℚ}
    (hsq : ∀ q : ℚ, 0 ≤ q → |(sq q : ℝ) - √(q : ℝ)| ≤ u * √(q : ℝ)) {M : ℚ} (hM : rnd64 M = M) (hM0 : 1 / 2 ^ 50 ≤ M) (ops : List (MOp ℚ))
    (hx : ∀ x ∈ since ops, rnd64 x = x ∧ |x| ≤ M) (hκ : 1 ≤ κ) (hcond : M ^ 2 ≤ κ ^ 2 * ewMoment d 2 (since ops))
    (hsm : 1920 * (u / d) * κ ^ 2 ≤ 1 / 100) :
    ∃ c' g, run (Arith.rounded rnd64 pw) c ops = .val (c', []) ∧ ewmStdValue sq c' = .ok g ∧
      |(g : ℝ) - √(ewMoment (d : ℝ) 2 (reals (since ops)))| ≤ 2000 * (u / d) * κ ^ 2 * √(ewMoment (d : ℝ) 2 (reals (since ops))) := by
  obtain ⟨w, hw, hc, hdd⟩ := newCore_ok _ hn
  obtain ⟨hd0, hd1, rfl⟩ := hdd d hd
  simp only [GoOrd.le, Arith.rounded, Int.cast_zero, Int.cast_one, rounding_rnd64.zero, rounding_rnd64.one, decide_eq_false_iff_not,
    not_le] at hd0 hd1
  have hu0 : 0 ≤ u := le_trans (by positivity) hu
  have hκ2 : 1 ≤ κ ^ 2 := one_le_pow₀ hκ
  have hud : 0 ≤ u / d := div_nonneg hu0 hd0.le
  have hudκ : u / d ≤ u / d * κ ^ 2 := le_mul_of_one_le_right hud hκ2
  have huu : u ≤ u / d := by rw [le_div_iff₀ hd0]; exact mul_le_of_le_one_right hu0 hd1.le
  have hMp : 0 < M := lt_of_lt_of_le (by positivity) hM0
  have hne : since ops ≠ [] := by
    intro h
    rw [h] at hcond
    have : 0 < M ^ 2 := by positivity
    simp [ewMoment, ewTotal] at hcond
    linarith
  obtain ⟨c', v, r, hv, hb⟩ := C93_ewm_accuracy hn hd hrd hs (k := 2) le_rfl (by norm_num) h2 hu hu1 hP hM hM0
    (by rw [errC_two]; norm_num; linarith) ops hx hne
  push_cast at hv
  rw [errC_two] at hb
  exact ⟨c', sq v, r, by simp only [ewmStdValue, ewmMomentValue, hv], (ewmstd_of_moment hd0 hd1 hu hsq hM0 hκ hcond hsm hb).2⟩

/-- What is assumed of one coordinate. -/
structure EwCoordOK (i : Nat) (d M κ : ℚ) (data : List (List ℚ)) : Prop where
  round : rnd64 M = M
  low : 1 / 2 ^ 50 ≤ M
  bound : BoundedAt i M data
  cond : M ^ 2 ≤ κ ^ 2 * ewMoment d 2 (coord i data)

/-- The exponentially weighted correlation from the three sums, which are not small and have two relative digits. -/
theorem ewcorr_of_sums (hd0 : 0 < d) (hd1 : d < 1) (hu : 1 / 2 ^ 53 ≤ u) (hu1 : u ≤ 1 / 4096) {sq : ℚ → ℚ}
    (hsq : ∀ q : ℚ, 0 ≤ q → |(sq q : ℝ) - √(q : ℝ)| ≤ u * √(q : ℝ)) {data : List (List ℚ)} {M₁ M₂ : ℚ} (hκ : 1 ≤ κ)
    (H₁ : EwCoordOK 0 d M₁ κ data) (H₂ : EwCoordOK 1 d M₂ κ data) (hsm : 1920 * (u / d) * κ ^ 2 ≤ 1 / 100) {s11 s20 s02 : ℚ}
    (b11 : |s11 - ewCov d data| ≤ 200 * (u / d) * (M₁ * M₂)) (b20 : |s20 - ewMoment d 2 (coord 0 data)| ≤ 1920 * (u / d) * M₁ ^ 2)
    (b02 : |s02 - ewMoment d 2 (coord 1 data)| ≤ 1920 * (u / d) * M₂ ^ 2) :
    (1 / 2 ^ 153 ≤ ewMoment d 2 (coord 0 data) ∧ |s20 - ewMoment d 2 (coord 0 data)| ≤ 1 / 100 * ewMoment d 2 (coord 0 data)) ∧
    (1 / 2 ^ 153 ≤ ewMoment d 2 (coord 1 data) ∧ |s02 - ewMoment d 2 (coord 1 data)| ≤ 1 / 100 * ewMoment d 2 (coord 1 data)) ∧
    |((rnd64 (s11 / sq (rnd64 (s20 * s02))) : ℚ) : ℝ) - ewCorr (d : ℝ) (realPoints data)| ≤ 4400 * (u / d) * κ ^ 2 := by
  have hu0 : 0 ≤ u := le_trans (by positivity) hu
  have hκ2 : 1 ≤ κ ^ 2 := one_le_pow₀ hκ
  have hud : 0 ≤ u / d := div_nonneg hu0 hd0.le
  have hudκ : u / d ≤ u / d * κ ^ 2 := le_mul_of_one_le_right hud hκ2
  have huu : u ≤ u / d := by rw [le_div_iff₀ hd0]; exact mul_le_of_le_one_right hu0 hd1.le
  have hM₁ := H₁.low
  have hM₂ := H₂.low
  have pM₁ : 0 < M₁ := lt_of_lt_of_le (by positivity) hM₁
  have pM₂ : 0 < M₂ := lt_of_lt_of_le (by positivity) hM₂
  have hS₁ := H₁.cond
  have hS₂ := H₂.cond
  have hC := (ewCov_le hd0 hd1 data).2.2
  rw [ewCorr_sums hd0 hd1]
  generalize ewMoment d 2 (coord 0 data) = X at *
  generalize ewMoment d 2 (coord 1 data) = Y at *
  generalize ewCov d data = C at *
  clear H₁ H₂
  have hκ53 : κ ^ 2 ≤ 2 ^ 53 := by
    have h1 : 1 / 2 ^ 53 * κ ^ 2 ≤ u / d * κ ^ 2 := mul_le_mul_of_nonneg_right (hu.trans huu) (by positivity)
    norm_num at h1 hsm ⊢
    linarith
  -- a variance is not small
  have key : ∀ M X : ℚ, 1 / 2 ^ 50 ≤ M → M ^ 2 ≤ κ ^ 2 * X → 1 / 2 ^ 153 ≤ X := fun M X h h' => by
    have h1 : (1 / 2 ^ 50 : ℚ) ^ 2 ≤ M ^ 2 := pow_le_pow_left₀ (by positivity) h 2
    have hX : 0 ≤ X := by
      by_contra hX
      push Not at hX
      have : κ ^ 2 * X < 0 := mul_neg_of_pos_of_neg (by linarith) hX
      have : (0 : ℚ) < (1 / 2 ^ 50) ^ 2 := by positivity
      linarith
    have h3 := mul_le_mul_of_nonneg_right hκ53 hX
    have h4 : (1 / 2 ^ 153 : ℚ) * 2 ^ 53 ≤ (1 / 2 ^ 50) ^ 2 := by decide +kernel
    have h5 : (1 / 2 ^ 153 : ℚ) * 2 ^ 53 ≤ X * 2 ^ 53 := by linarith
    exact le_of_mul_le_mul_right h5 (by positivity)
  have lX := key M₁ X hM₁ hS₁
  have lY := key M₂ Y hM₂ hS₂
  have pX : 0 < X := lt_of_lt_of_le (by positivity) lX
  have pY : 0 < Y := lt_of_lt_of_le (by positivity) lY
  have rel : ∀ s M X : ℚ, |s - X| ≤ 1920 * (u / d) * M ^ 2 → M ^ 2 ≤ κ ^ 2 * X → |s - X| ≤ 1920 * (u / d) * κ ^ 2 * X := fun s M X h h' => by
    have := mul_le_mul_of_nonneg_left h' (show (0 : ℚ) ≤ 1920 * (u / d) by positivity)
    linarith
  have a20 := rel s20 M₁ X b20 hS₁
  have a02 := rel s02 M₂ Y b02 hS₂
  have close : ∀ s X : ℚ, 0 < X → |s - X| ≤ 1920 * (u / d) * κ ^ 2 * X → |s - X| ≤ 1 / 100 * X := fun s X hX h =>
    h.trans (mul_le_mul_of_nonneg_right hsm hX.le)
  have n20 : 0 ≤ s20 := by
    have h1 := (abs_le.1 a20).1
    have h2 := mul_le_mul_of_nonneg_right hsm pX.le
    linarith
  have n02 : 0 ≤ s02 := by
    have h1 := (abs_le.1 a02).1
    have h2 := mul_le_mul_of_nonneg_right hsm pY.le
    linarith
  refine ⟨⟨lX, close s20 X pX a20⟩, ⟨lY, close s02 Y pY a02⟩, ?_⟩
  have hu53 : (1 : ℚ) / 2 ^ 1075 ≤ u * (X * Y) := by
    have h1 : (1 / 2 ^ 153 : ℚ) * (1 / 2 ^ 153) ≤ X * Y := mul_le_mul lX lY (by positivity) pX.le
    refine le_trans ?_ (mul_le_mul hu h1 (by positivity) hu0)
    decide +kernel
  have htu : (1 : ℚ) / 2 ^ 1075 ≤ u := le_trans (by decide +kernel) hu
  have acc := fun q => round_real hu q
  generalize (1 : ℚ) / 2 ^ 1075 = t at *
  clear key rel
  -- over the reals
  have R1 : (0 : ℝ) ≤ u := by exact_mod_cast hu0
  have R2 : (u : ℝ) ≤ 1 / 4096 := by simpa using (Rat.cast_le (K := ℝ)).2 hu1
  have R3 : 1920 * ((u : ℝ) / d) * κ ^ 2 ≤ 1 / 100 := by simpa using (Rat.cast_le (K := ℝ)).2 hsm
  have R4 : (u : ℝ) ≤ u / d * κ ^ 2 := by exact_mod_cast huu.trans hudκ
  have R5 : (0 : ℝ) ≤ u / d := by exact_mod_cast hud
  have pXR : (0 : ℝ) < X := by exact_mod_cast pX
  have pYR : (0 : ℝ) < Y := by exact_mod_cast pY
  have hm11 : ((M₁ : ℝ) * M₂) ≤ κ ^ 2 * √((X : ℝ) * Y) := by
    have h1 : ((M₁ : ℝ) * M₂) ^ 2 ≤ (κ ^ 2 * √((X : ℝ) * Y)) ^ 2 := by
      have h2 : M₁ ^ 2 * M₂ ^ 2 ≤ κ ^ 2 * X * (κ ^ 2 * Y) := mul_le_mul hS₁ hS₂ (by positivity) (by positivity)
      have h3 : (M₁ : ℝ) ^ 2 * M₂ ^ 2 ≤ κ ^ 2 * X * (κ ^ 2 * Y) := by exact_mod_cast h2
      rw [mul_pow _ (√_), Real.sq_sqrt (by positivity)]
      calc _ = (M₁ : ℝ) ^ 2 * M₂ ^ 2 := by ring
        _ ≤ _ := h3
        _ = _ := by ring
    exact le_of_sq_le_sq h1 (by positivity)
  have hc11 : |(s11 : ℝ) - C| ≤ 200 * (u / d) * κ ^ 2 * √((X : ℝ) * Y) := by
    have h1 : |(s11 : ℝ) - C| ≤ 200 * (u / d) * (M₁ * M₂) := by exact_mod_cast b11
    have h2 := mul_le_mul_of_nonneg_left hm11 (show 0 ≤ 200 * ((u : ℝ) / d) by positivity)
    linarith
  have F := corr_final (u := (u : ℝ)) (t := (t : ℝ)) (d := 1920 * ((u : ℝ) / d) * κ ^ 2) (X := (X : ℝ)) (Y := (Y : ℝ)) (C := (C : ℝ))
    (x := (s20 : ℝ)) (y := (s02 : ℝ)) (c := (s11 : ℝ)) (p := ((rnd64 (s20 * s02) : ℚ) : ℝ)) (r := (sq (rnd64 (s20 * s02)) : ℝ))
    (g := ((rnd64 (s11 / sq (rnd64 (s20 * s02))) : ℚ) : ℝ)) R1 R2 pXR pYR (by positivity) R3 (by exact_mod_cast a20) (by exact_mod_cast a02) hc11 hC
    (by have := acc (s20 * s02); push_cast at this ⊢; exact this) (by exact_mod_cast hu53) (by exact_mod_cast htu)
    (hsq _ (rounding_rnd64.nonneg (mul_nonneg n20 n02)))
    (by have := acc (s11 / sq (rnd64 (s20 * s02))); push_cast at this ⊢; exact this)
  refine F.trans ?_
  have h3 : 0 ≤ (u : ℝ) / d * κ ^ 2 := by positivity
  linarith

/-- C103, `EWMCorr`, in binary64 with a square root of relative error `u`: it is off by at most `4400·(u/d)·κ²`, however many points are pushed. -/
theorem C103_ewmcorr_accuracy (P : JFP.PowOK rnd64 pw) {cfg : Joint.Config ℚ} {c : Joint.Core ℚ} (hc : CorrCore rnd64 pw cfg c)
    (hd : cfg.decay = some d) (hu : 1 / 2 ^ 53 ≤ u) (hu1 : u ≤ 1 / 4096) (hP : PowAcc pw u (1 / 2 ^ 1075)) {sq : ℚ → ℚ}
    (hsq : ∀ q : ℚ, 0 ≤ q → |(sq q : ℝ) - √(q : ℝ)| ≤ u * √(q : ℝ)) (ops : List (MOp (List ℚ))) {M₁ M₂ : ℚ} (hκ : 1 ≤ κ)
    (H₁ : EwCoordOK 0 d M₁ κ (since (ops.filter (okArity 2)))) (H₂ : EwCoordOK 1 d M₂ κ (since (ops.filter (okArity 2))))
    (hsm : 1920 * (u / d) * κ ^ 2 ≤ 1 / 100) :
    ∃ e es g, JFP.run (Arith.rounded rnd64 pw) c ops = .val (e, es) ∧ JFP.corrValue (Arith.rounded rnd64 pw) sq e = .ok g ∧
      |(g : ℝ) - ewCorr (d : ℝ) (realPoints (since (ops.filter (okArity 2))))| ≤ 4400 * (u / d) * κ ^ 2 := by
  obtain ⟨hd0, hd1, -⟩ := decay_range hc.new hd
  have hrd := hc.decay d hd
  have hu0 : 0 ≤ u := le_trans (by positivity) hu
  have hκ2 : 1 ≤ κ ^ 2 := one_le_pow₀ hκ
  have hud : 0 ≤ u / d := div_nonneg hu0 hd0.le
  have hudκ : u / d ≤ u / d * κ ^ 2 := le_mul_of_one_le_right hud hκ2
  have huu : u ≤ u / d := by rw [le_div_iff₀ hd0]; exact mul_le_of_le_one_right hu0 hd1.le
  have hM₁ := H₁.low
  have hM₂ := H₂.low
  have pM₁ : 0 < M₁ := lt_of_lt_of_le (by positivity) hM₁
  have pM₂ : 0 < M₂ := lt_of_lt_of_le (by positivity) hM₂
  have hne : since (ops.filter (okArity 2)) ≠ [] := by
    intro h
    have hcond := H₁.cond
    rw [h] at hcond
    have : 0 < M₁ ^ 2 := by positivity
    simp [coord, ewMoment, ewTotal] at hcond
    linarith
  obtain ⟨e, es, s11, r, k11, b11⟩ := C103_ewmcov_accuracy P hc.new hc.small hc.coll hd hrd hc.vars hc.track.1 hu hu1 hP H₁.round H₂.round hM₁ hM₂
    (by linarith) ops H₁.bound H₂.bound hne
  obtain ⟨e1, es1, s20, r1, k20, b20⟩ := C103_square_accuracy P hc.new hc.small hc.coll hd hrd (n := 2) (by exact_mod_cast hc.vars) (i := 0)
    (by omega) hc.track.2.1 hu hu1 hP H₁.round hM₁ (by linarith) ops H₁.bound hne
  obtain ⟨e2, es2, s02, r2, k02, b02⟩ := C103_square_accuracy P hc.new hc.small hc.coll hd hrd (n := 2) (by exact_mod_cast hc.vars) (i := 1)
    (by omega) hc.track.2.2 hu hu1 hP H₂.round hM₂ (by linarith) ops H₂.bound hne
  rw [r] at r1 r2
  simp only [Go.val.injEq, Prod.mk.injEq] at r1 r2
  obtain ⟨rfl, rfl⟩ := r1
  obtain ⟨rfl, rfl⟩ := r2
  change JFP.sum e [2, 0] = _ at k20
  change JFP.sum e [0, 2] = _ at k02
  have k11' : JFP.sum e [1, 1] = .ok s11 := by
    unfold JFP.ewmCovValue at k11
    cases h : JFP.sum e [1, 1] with
    | error x => rw [h] at k11; simp at k11
    | ok x => rw [h] at k11; simpa using k11
  exact ⟨e, es, rnd64 (s11 / sq (rnd64 (s20 * s02))), r, by simp only [JFP.corrValue, k11', k20, k02]; rfl,
    (ewcorr_of_sums hd0 hd1 hu hu1 hsq hκ H₁ H₂ hsm b11 b20 b02).2.2⟩

end

/-- Three points. -/
def ewPoints : List (List ℚ) := [[1, 1], [-1, 1], [1, -1]]

/-- The hypotheses on the core hold for `NewEWMCorr(1/1024)` and a correctly rounded power. -/
example : ∃ c, CorrCore rnd64 (fun x k => rnd64 (x ^ k)) ⟨some [[1, 1], [2, 0], [0, 2]], some 0, none, some (1 / 1024)⟩ c := by
  have h : (jObs Arith.b64 ⟨some [[1, 1], [2, 0], [0, 2]], some 0, none, some (1 / 1024)⟩ [] []).isSome = true := by decide +kernel
  obtain ⟨⟨⟨l, x, y⟩, n, es⟩, h⟩ := Option.isSome_iff_exists.1 h
  obtain ⟨c, e, hc, -⟩ := jObs_run h
  exact ⟨c, corrCore_ok (by intro x hx; cases hx; decide +kernel) hc⟩

/-- Those on the data hold for three points and the decay 1/2, those on the sizes for `κ = 10`: the correlation is right up to 10⁻¹⁰. -/
example : EwCoordOK 0 (1 / 2) 1 10 ewPoints ∧ EwCoordOK 1 (1 / 2) 1 10 ewPoints ∧ PowAcc (fun x k => rnd64 (x ^ k)) (1 / 2 ^ 53) (1 / 2 ^ 1075) ∧
    1920 * (1 / 2 ^ 53 / (1 / 2)) * 10 ^ 2 ≤ (1 / 100 : ℚ) ∧ 4400 * (1 / 2 ^ 53 / (1 / 2)) * 10 ^ 2 ≤ (1 / 10 ^ 10 : ℚ) := by
  refine ⟨⟨by decide +kernel, by norm_num, ?_, by decide +kernel⟩, ⟨by decide +kernel, by norm_num, ?_, by decide +kernel⟩, powAcc64 le_rfl,
    by norm_num, by norm_num⟩ <;>
  · unfold BoundedAt
    decide +kernel

/-- Those on `EWMStd` hold for four values and the decay 1/4. -/
example : (∀ x ∈ ([3, -1, 2, -3] : List ℚ), rnd64 x = x ∧ |x| ≤ 3) ∧ (3 : ℚ) ^ 2 ≤ 2 ^ 2 * ewMoment (1 / 4) 2 [3, -1, 2, -3] ∧
    1920 * (1 / 2 ^ 53 / (1 / 4)) * 2 ^ 2 ≤ (1 / 100 : ℚ) := ⟨by decide +kernel, by decide +kernel, by norm_num⟩

end Verif.Props
