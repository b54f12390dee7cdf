import Verif.Props.RatiosIEEE
import Verif.Props.JointOverflow
import Verif.Props.AutoFP

/-! # C107: accuracy of `EWMStd`, `Corr`, `EWMCorr` and `Autocorr` in binary64 with overflow, infinities and NaN -/

namespace Verif.Props
open Verif Verif.Spec Verif.FP

attribute [local irreducible] two

section
variable {pw : ℚ → Nat → ℚ} {u κ : ℚ}

/-- C107, `EWMStd`, however many values are pushed: as C103, also with overflow, as long as `32·(1 + 4·M²) < 2^1024`. -/
theorem C107_ewmstd {cfg : Moment.Config (XF ℚ)} {c : Moment.Core (XF ℚ)} (hn : newCore (ieeeOf rnd64 pw over64) cfg = .ok c) {d : ℚ}
    (hd : cfg.decay = some (.fin d)) (hrd : rnd64 d = d) (hs : ∀ k ∈ cfg.sums.getD [], k ≤ 65) (h2 : ∃ i ∈ cfg.sums.getD [], 2 ≤ i)
    (hu : 1 / 2 ^ 53 ≤ u) (hu1 : u ≤ 1 / 4096) (hP : PowAcc pw u (1 / 2 ^ 1075)) {sq : ℚ → ℚ}
    (hsq : ∀ q : ℚ, 0 ≤ q → |(sq q : ℝ) - √(q : ℝ)| ≤ u * √(q : ℝ)) {sqX : XF ℚ → XF ℚ} (hsqX : ∀ q : ℚ, 0 ≤ q → sqX (.fin q) = .fin (sq q))
    {M : ℚ} (hM : rnd64 M = M) (hM0 : 1 / 2 ^ 50 ≤ M) (ops : List (MOp ℚ)) (hx : ∀ x ∈ since ops, rnd64 x = x ∧ |x| ≤ M) (hκ : 1 ≤ κ)
    (hcond : M ^ 2 ≤ κ ^ 2 * ewMoment d 2 (since ops)) (hsm : 1920 * (u / d) * κ ^ 2 ≤ 1 / 100) (hfit : 32 * (1 + (2 * M) ^ 2) < two 1024) :
    ∃ c' g, run (ieeeOf rnd64 pw over64) c (finOps ops) = .val (c', []) ∧ ewmStdValue sqX c' = .ok (.fin g) ∧
      |(g : ℝ) - √(ewMoment (d : ℝ) 2 (reals (since ops)))| ≤ 2000 * (u / d) * κ ^ 2 * √(ewMoment (d : ℝ) 2 (reals (since ops))) := by
  have hd01 : 0 < d ∧ d < 1 := by
    obtain ⟨w, -, -, hdd⟩ := newCore_ok _ hn
    obtain ⟨a, b, -⟩ := hdd _ hd
    have e0 : (ieeeOf rnd64 pw over64).ofInt 0 = .fin 0 := by simpa using ieee_ofNat (pw := pw) (n := 0) (by norm_num)
    have e1 : (ieeeOf rnd64 pw over64).ofInt 1 = .fin 1 := by simpa using ieee_ofNat (pw := pw) (n := 1) (by norm_num)
    rw [e0] at a
    rw [e1] at b
    simp only [GoOrd.le, decide_eq_false_iff_not, not_le] at a b
    exact ⟨a, b⟩
  obtain ⟨hd0, hd1⟩ := hd01
  have hud : 0 ≤ u / d := div_nonneg (le_trans (by positivity) hu) hd0.le
  have hudκ : u / d ≤ u / d * κ ^ 2 := le_mul_of_one_le_right hud (one_le_pow₀ hκ)
  have hMp : 0 < M := lt_of_lt_of_le (by positivity) hM0
  have hne : since ops ≠ [] := by
    intro h
    rw [h] at hcond
    have : 0 < M ^ 2 := by positivity
    simp [ewMoment, ewTotal] at hcond
    linarith
  obtain ⟨c', m, v, r, -, -, hv, hb⟩ := C94_ewm hn hd hrd hs (k := 2) le_rfl (by norm_num) h2 hu hu1 hP hM hM0
    (by rw [errC_two]; norm_num; linarith) ops hx hne (by norm_num at hfit ⊢; exact hfit)
  rw [errC_two] at hb
  obtain ⟨h0, h1⟩ := ewmstd_of_moment hd0 hd1 hu hsq hM0 hκ hcond hsm hb
  push_cast at hv
  exact ⟨c', sq v, r, by simp only [ewmStdValue, ewmMomentValue, hv, hsqX v h0], h1⟩

/-- The formula of `Corr` overflows nowhere. -/
theorem corrValue_fin {sq : ℚ → ℚ} (hu1 : u ≤ 1 / 4096) (hsq : ∀ q : ℚ, 0 ≤ q → |(sq q : ℝ) - √(q : ℝ)| ≤ u * √(q : ℝ))
    {sqX : XF ℚ → XF ℚ} (hsqX : ∀ q : ℚ, 0 ≤ q → sqX (.fin q) = .fin (sq q)) {e : Joint.Core (XF ℚ)} {s11 s20 s02 X Y B : ℚ}
    (h11 : JFP.sum e [1, 1] = .ok (.fin s11)) (h20 : JFP.sum e [2, 0] = .ok (.fin s20)) (h02 : JFP.sum e [0, 2] = .ok (.fin s02))
    (hX : 1 / 2 ^ 450 ≤ X ∧ |s20 - X| ≤ 1 / 100 * X) (hY : 1 / 2 ^ 450 ≤ Y ∧ |s02 - Y| ≤ 1 / 100 * Y) (hXB : X ≤ B) (hYB : Y ≤ B) (hB : 1 ≤ B)
    (hfit : 4 * (B * B) < two 1024) (hg : |((rnd64 (s11 / sq (rnd64 (s20 * s02))) : ℚ) : ℝ)| ≤ 2) :
    JFP.corrValue (ieeeOf rnd64 pw over64) sqX e = .ok (.fin (rnd64 (s11 / sq (rnd64 (s20 * s02))))) := by
  have x0 := hX.1
  have y0 := hY.1
  have x1 := abs_le.1 hX.2
  have y1 := abs_le.1 hY.2
  have t0 : (0 : ℚ) < 1 / 2 ^ 450 := by positivity
  have lX : 99 / 100 * (1 / 2 ^ 450) ≤ s20 := by linarith
  have lY : 99 / 100 * (1 / 2 ^ 450) ≤ s02 := by linarith
  have u20 : s20 ≤ 101 / 100 * B := by linarith
  have u02 : s02 ≤ 101 / 100 * B := by linarith
  have hp0 : 0 < rnd64 (s20 * s02) := by
    have h1 : (1 / 2 ^ 902 : ℚ) ≤ s20 * s02 := by
      refine le_trans ?_ (mul_le_mul lX lY (by positivity) (by linarith))
      decide +kernel
    have h3 := rounding_rnd64.mono h1
    rw [show rnd64 (1 / 2 ^ 902) = 1 / 2 ^ 902 by decide +kernel] at h3
    exact lt_of_lt_of_le (by positivity) h3
  have hpl : |rnd64 (s20 * s02)| < two 1024 := by
    refine rnd_lt (B := 2 * (B * B)) ?_ (by nlinarith) (by linarith)
    rw [abs_of_nonneg (mul_nonneg (by linarith) (by linarith))]
    have := mul_le_mul u20 u02 (by linarith) (by linarith)
    have h3 : 0 ≤ B * B := mul_self_nonneg B
    linarith
  have hs0 : sq (rnd64 (s20 * s02)) ≠ 0 := by
    have h1 := hsq _ hp0.le
    have h3 : 0 < √((rnd64 (s20 * s02) : ℚ) : ℝ) := Real.sqrt_pos.2 (by exact_mod_cast hp0)
    intro h
    rw [h, Rat.cast_zero, zero_sub, abs_neg, abs_of_pos h3] at h1
    have h4 : (u : ℝ) ≤ 1 / 4096 := by simpa using (Rat.cast_le (K := ℝ)).2 hu1
    have := mul_le_mul_of_nonneg_right h4 h3.le
    linarith
  have hg' : |rnd64 (s11 / sq (rnd64 (s20 * s02)))| ≤ 2 := by exact_mod_cast hg
  simp only [JFP.corrValue, h11, h20, h02, ieee_mul hpl, hsqX _ hp0.le,
    ieee_div hs0 (lt_of_le_of_lt hg' (lt_of_le_of_lt (by norm_num) two_room))]

theorem pearson_le {data : List (List ℚ)} (h : 2 ≤ data.length) : |pearson (realPoints data)| ≤ 1 := by
  rw [pearson_sums h, abs_div, abs_of_nonneg (Real.sqrt_nonneg _)]
  exact div_le_one_of_le₀ (crossSum_le data) (Real.sqrt_nonneg _)

theorem ewCorr_le {d : ℚ} (h0 : 0 < d) (h1 : d < 1) (data : List (List ℚ)) : |ewCorr (d : ℝ) (realPoints data)| ≤ 1 := by
  rw [ewCorr_sums h0 h1, abs_div, abs_of_nonneg (Real.sqrt_nonneg _)]
  exact div_le_one_of_le₀ (ewCov_le h0 h1 data).2.2 (Real.sqrt_nonneg _)

theorem pts_of_coords {M₁ M₂ M : ℚ} {data : List (List ℚ)} (hl : ∀ x ∈ data, x.length = 2) (h₁ : BoundedAt 0 M₁ data) (h₂ : BoundedAt 1 M₂ data)
    (l₁ : M₁ ≤ M) (l₂ : M₂ ≤ M) : BoundedPts M data := by
  intro x hx a ha
  obtain ⟨p, q, rfl⟩ := List.length_eq_two.1 (hl x hx)
  have a1 := h₁ _ hx
  have a2 := h₂ _ hx
  simp only [List.getD_cons_zero, List.getD_cons_succ, List.mem_cons, List.not_mem_nil, or_false] at a1 a2 ha
  rcases ha with rfl | rfl
  · exact ⟨a1.1, a1.2.trans l₁⟩
  · exact ⟨a2.1, a2.2.trans l₂⟩

/-- What the theorems on `Corr` and `EWMCorr` assume of a core, as `CorrCore`, for IEEE arithmetic. -/
structure CorrCoreX (pw : ℚ → Nat → ℚ) (cfg : Joint.Config (XF ℚ)) (c : Joint.Core (XF ℚ)) : Prop where
  new : JFP.newCore (ieeeOf rnd64 pw over64) cfg = .val (.ok c)
  vars : Joint.varsOf cfg = 2
  small : ∀ t ∈ cfg.sums.getD [], ∀ k ∈ t, k ≤ 65
  coll : NoCollision (cfg.sums.getD [])
  track : TracksZ (cfg.sums.getD []) [1, 1] ∧ TracksZ (cfg.sums.getD []) [2, 0] ∧ TracksZ (cfg.sums.getD []) [0, 2]

/-- C107, `Corr` without a window: as C98, also with overflow, as long as `100000·((N + 1)·M²)² < 2^1024`, `M ≥ 1` bounding all coordinates. -/
theorem C107_corr (P : JFP.PowOK rnd64 pw) (hP : ∀ x, |pw x 2 - x * x| ≤ 1 / 2 ^ 53 * (x * x) + 1 / 2 ^ 1075) {cfg : Joint.Config (XF ℚ)}
    {c : Joint.Core (XF ℚ)} (hc : CorrCoreX pw cfg c) (hw : cfg.window = some 0) (hd : cfg.decay = none) {sq : ℚ → ℚ}
    (hsq : ∀ q : ℚ, 0 ≤ q → |(sq q : ℝ) - √(q : ℝ)| ≤ ((1 / 2 ^ 53 : ℚ) : ℝ) * √(q : ℝ)) {sqX : XF ℚ → XF ℚ}
    (hsqX : ∀ q : ℚ, 0 ≤ q → sqX (.fin q) = .fin (sq q)) (ops : List (MOp (List ℚ))) {N : Nat}
    (hN : (since (ops.filter (okArity 2))).length = N) {M₁ M₂ M : ℚ} (hκ : 1 ≤ κ) (H₁ : CoordOK 0 M₁ κ (since (ops.filter (okArity 2))))
    (H₂ : CoordOK 1 M₂ κ (since (ops.filter (okArity 2)))) (hN2 : 2 ≤ N) (hlen : N ≤ 2 ^ 43) (hsm : 2 * (N + 40) * (1 / 2 ^ 53) * κ ^ 2 ≤ 1 / 100)
    (hM : rnd64 M = M) (hM1 : 1 ≤ M) (l₁ : M₁ ≤ M) (l₂ : M₂ ≤ M) (hfit : 100000 * ((N + 1) * (M * M)) ^ 2 < two 1024) :
    ∃ e es g, JFP.run (ieeeOf rnd64 pw over64) c (finPts ops) = .val (e, es) ∧ JFP.corrValue (ieeeOf rnd64 pw over64) sqX e = .ok (.fin g) ∧
      |(g : ℝ) - pearson (realPoints (since (ops.filter (okArity 2))))| ≤ 10 * (N + 30) * ((1 / 2 ^ 53 : ℚ) : ℝ) * κ ^ 2 := by
  have hl := since_arity 2 ops
  have hMM : 1 ≤ M * M := one_le_mul_of_one_le_of_one_le hM1 hM1
  have hNq : (2 : ℚ) ≤ N := by exact_mod_cast hN2
  have hNM : 1 ≤ (N + 1) * (M * M) := one_le_mul_of_one_le_of_one_le (by linarith) hMM
  have hfit1 : 100000 * ((N + 1) * (M * M)) < two 1024 := by
    have := le_mul_of_one_le_left (show 0 ≤ (N + 1) * (M * M) by linarith) hNM
    rw [pow_two] at hfit
    linarith
  have hx := pts_of_coords hl H₁.bound H₂.bound l₁ l₂
  have low : ∀ M : ℚ, 1 / 2 ^ 200 ≤ M → 1 / 2 ^ 480 ≤ M := fun M h => le_trans (by decide +kernel) h
  obtain ⟨e, es, r, -, k11⟩ := ieee_sum P hP hc.new hc.small hc.coll hw hd (n := 2) (by exact_mod_cast hc.vars) (i := 0) (j := 1) (by omega) (by omega)
    hc.track.1 hM hM1 ops hN hlen hx (by omega) hfit1
  obtain ⟨e1, es1, r1, k20⟩ := ieee_square P hP hc.new hc.small hc.coll hw hd (n := 2) (by exact_mod_cast hc.vars) (i := 0) (by omega)
    hc.track.2.1 hM hM1 ops hN hlen hx (by omega) hfit1
  obtain ⟨e2, es2, r2, k02⟩ := ieee_square P hP hc.new hc.small hc.coll hw hd (n := 2) (by exact_mod_cast hc.vars) (i := 1) (by omega)
    hc.track.2.2 hM hM1 ops hN hlen hx (by omega) hfit1
  rw [r] at r1 r2
  simp only [Go.val.injEq, Prod.mk.injEq] at r1 r2
  obtain ⟨rfl, rfl⟩ := r1
  obtain ⟨rfl, rfl⟩ := r2
  change JFP.sum e [1, 1] = _ at k11
  change JFP.sum e [2, 0] = _ at k20
  change JFP.sum e [0, 2] = _ at k02
  have hcl : ∀ i, (JFP.column (0 : ℚ) i (since (ops.filter (okArity 2)))).length = N := fun i => by simp [JFP.column, hN]
  have sqe : ∀ i M', rnd64 M' = M' → 1 / 2 ^ 200 ≤ M' → BoundedAt i M' (since (ops.filter (okArity 2))) →
      |(mst (Arith.rounded rnd64 pw) 0 none (JFP.column 0 i (since (ops.filter (okArity 2))))).2 2 - csum 2 (coord i (since (ops.filter (okArity 2))))| ≤
        2 * N * (N + 40) * (1 / 2 ^ 53) * M' ^ 2 := fun i M' h1 h2 h3 => by
    have := mst_square (pw := pw) (xs := JFP.column 0 i (since (ops.filter (okArity 2)))) h1 (low _ h2) (by rw [hcl]; exact hlen)
      (pow_powSq P hP (by rw [hcl]; exact hlen)) (column_bounded h3) (by intro h; have := hcl i; rw [h, List.length_nil] at this; omega)
    rwa [hcl] at this
  obtain ⟨gX, gY, hb⟩ := corr_of_sums hsq hN hκ H₁ H₂ hN2 hsm
    (pair_sum_err P hP H₁.round H₂.round (low _ H₁.low) (low _ H₂.low) hN hlen H₁.bound H₂.bound) (sqe 0 M₁ H₁.round H₁.low H₁.bound)
    (sqe 1 M₂ H₂.round H₂.low H₂.bound)
  have hcs : ∀ i, i < 2 → csum 2 (coord i (since (ops.filter (okArity 2)))) ≤ 4 * ((N + 1) * (M * M)) := fun i hi => by
    have h1 := abs_csum_le (show 0 ≤ M by linarith) (fun x hx' => (column_bounded (hx.at hl hi) x hx').2) 2
    rw [hcl] at h1
    have h3 := (le_abs_self _).trans h1
    change csum 2 (coord i (since (ops.filter (okArity 2)))) ≤ _ at h3
    linarith
  refine ⟨e, es, _, r, corrValue_fin (u := 1 / 2 ^ 53) (by norm_num) hsq hsqX k11 k20 k02 gX gY (hcs 0 (by omega)) (hcs 1 (by omega)) (by linarith) ?_ ?_,
    hb⟩
  · have h3 : 0 ≤ ((N + 1) * (M * M)) ^ 2 := sq_nonneg _
    linarith
  · have h1 := pearson_le (data := since (ops.filter (okArity 2))) (by omega)
    have h3 := abs_sub_abs_le_abs_sub (((rnd64 ((JFP.pairS (Arith.rounded rnd64 pw) (fun a b => rnd64 (a * b)) 0 none
      (JFP.pairs 0 0 1 (since (ops.filter (okArity 2))))) / sq (rnd64 ((mst (Arith.rounded rnd64 pw) 0 none (JFP.column 0 0
      (since (ops.filter (okArity 2))))).2 2 * (mst (Arith.rounded rnd64 pw) 0 none (JFP.column 0 1 (since (ops.filter (okArity 2))))).2 2))) : ℚ)) : ℝ)
      (pearson (realPoints (since (ops.filter (okArity 2)))))
    have h4 : 2 * ((N : ℝ) + 40) * ((1 / 2 ^ 53 : ℚ) : ℝ) * κ ^ 2 ≤ 1 / 100 := by simpa using (Rat.cast_le (K := ℝ)).2 hsm
    have h5 : (0 : ℝ) ≤ ((1 / 2 ^ 53 : ℚ) : ℝ) := by exact_mod_cast (show (0 : ℚ) ≤ 1 / 2 ^ 53 by positivity)
    have h6 : 0 ≤ ((1 / 2 ^ 53 : ℚ) : ℝ) * (κ : ℝ) ^ 2 := by positivity
    have h7 : 10 * ((N : ℝ) + 30) * ((1 / 2 ^ 53 : ℚ) : ℝ) * κ ^ 2 ≤ 10 * ((N : ℝ) + 40) * ((1 / 2 ^ 53 : ℚ) : ℝ) * κ ^ 2 := by
      rw [mul_assoc _ _ ((κ : ℝ) ^ 2), mul_assoc _ _ ((κ : ℝ) ^ 2)]
      exact mul_le_mul_of_nonneg_right (by linarith) h6
    linarith

/-- C107, `EWMCorr`, however many points are pushed: as C103, also with overflow, as long as `100000·M⁴ < 2^1024`. -/
theorem C107_ewmcorr {d : ℚ} (P : JFP.PowOK rnd64 pw) (hu : 1 / 2 ^ 53 ≤ u) (hu1 : u ≤ 1 / 4096) (hP : PowAcc pw u (1 / 2 ^ 1075))
    {cfg : Joint.Config (XF ℚ)} {c : Joint.Core (XF ℚ)} (hc : CorrCoreX pw cfg c) (hd : cfg.decay = some (.fin d)) (hrd : rnd64 d = d) {sq : ℚ → ℚ}
    (hsq : ∀ q : ℚ, 0 ≤ q → |(sq q : ℝ) - √(q : ℝ)| ≤ u * √(q : ℝ)) {sqX : XF ℚ → XF ℚ} (hsqX : ∀ q : ℚ, 0 ≤ q → sqX (.fin q) = .fin (sq q))
    (ops : List (MOp (List ℚ))) {M₁ M₂ M : ℚ} (hκ : 1 ≤ κ) (H₁ : EwCoordOK 0 d M₁ κ (since (ops.filter (okArity 2))))
    (H₂ : EwCoordOK 1 d M₂ κ (since (ops.filter (okArity 2)))) (hsm : 1920 * (u / d) * κ ^ 2 ≤ 1 / 100)
    (hM : rnd64 M = M) (hM1 : 1 ≤ M) (l₁ : M₁ ≤ M) (l₂ : M₂ ≤ M) (hfit : 100000 * (M * M) ^ 2 < two 1024) :
    ∃ e es g, JFP.run (ieeeOf rnd64 pw over64) c (finPts ops) = .val (e, es) ∧ JFP.corrValue (ieeeOf rnd64 pw over64) sqX e = .ok (.fin g) ∧
      |(g : ℝ) - ewCorr (d : ℝ) (realPoints (since (ops.filter (okArity 2))))| ≤ 4400 * (u / d) * κ ^ 2 := by
  obtain ⟨hd0, hd1, hw⟩ := fin_decay hc.new hd
  have hl := since_arity 2 ops
  have hMM : 1 ≤ M * M := one_le_mul_of_one_le_of_one_le hM1 hM1
  have hfit1 : 100000 * (M * M) < two 1024 := by
    have := le_mul_of_one_le_left (show 0 ≤ M * M by linarith) hMM
    rw [pow_two] at hfit
    linarith
  have hud : 0 ≤ u / d := div_nonneg (le_trans (by positivity) hu) hd0.le
  have hudκ : u / d ≤ u / d * κ ^ 2 := le_mul_of_one_le_right hud (one_le_pow₀ hκ)
  have hx := pts_of_coords hl H₁.bound H₂.bound l₁ l₂
  have hne : since (ops.filter (okArity 2)) ≠ [] := by
    intro h
    have hcond := H₁.cond
    rw [h] at hcond
    have h0 : 0 < M₁ := lt_of_lt_of_le (by positivity) H₁.low
    have : 0 < M₁ ^ 2 := by positivity
    simp [coord, ewMoment, ewTotal] at hcond
    linarith
  obtain ⟨e, es, r, k11⟩ := ieee_ewmcov P hu hu1 hP hc.new hc.small hc.coll hd hrd hc.vars hc.track.1 hM hM1 (by linarith) ops hx hne hfit1
  obtain ⟨e1, es1, r1, k20⟩ := ieee_ewsquare P hu hu1 hP hc.new hc.small hc.coll hd hrd (n := 2) (by exact_mod_cast hc.vars) (i := 0) (by omega)
    hc.track.2.1 hM hM1 (by linarith) ops hx hne hfit1
  obtain ⟨e2, es2, r2, k02⟩ := ieee_ewsquare P hu hu1 hP hc.new hc.small hc.coll hd hrd (n := 2) (by exact_mod_cast hc.vars) (i := 1) (by omega)
    hc.track.2.2 hM hM1 (by linarith) ops hx hne hfit1
  rw [r] at r1 r2
  simp only [Go.val.injEq, Prod.mk.injEq] at r1 r2
  obtain ⟨rfl, rfl⟩ := r1
  obtain ⟨rfl, rfl⟩ := r2
  change JFP.sum e [2, 0] = _ at k20
  change JFP.sum e [0, 2] = _ at k02
  have sqe : ∀ i M', rnd64 M' = M' → 1 / 2 ^ 50 ≤ M' → BoundedAt i M' (since (ops.filter (okArity 2))) →
      |(mst (Arith.rounded rnd64 pw) 0 (some d) (JFP.column 0 i (since (ops.filter (okArity 2))))).2 2 -
        ewMoment d 2 (coord i (since (ops.filter (okArity 2))))| ≤ 1920 * (u / d) * M' ^ 2 := fun i M' h1 h2 h3 =>
    mst_ew_square (pw := pw) hd0 hd1 hrd h1 h2 hu hu1 hP (by linarith) (column_bounded h3) (by simpa [JFP.column] using hne)
  obtain ⟨gX, gY, hb⟩ := ewcorr_of_sums hd0 hd1 hu hu1 hsq hκ H₁ H₂ hsm
    (pair_ew_err hu hu1 hP hrd hd0 hd1 H₁.round H₂.round H₁.low H₂.low (by linarith) H₁.bound H₂.bound hne) (sqe 0 M₁ H₁.round H₁.low H₁.bound)
    (sqe 1 M₂ H₂.round H₂.low H₂.bound)
  have hcs : ∀ i, i < 2 → ewMoment d 2 (coord i (since (ops.filter (okArity 2)))) ≤ 4 * (M * M) := fun i hi => by
    have h1 := abs_ewMoment_le hd0.le hd1.le (show 0 ≤ M by linarith) (fun x hx' => (column_bounded (hx.at hl hi) x hx').2) 2
    have h3 := (le_abs_self _).trans h1
    change ewMoment d 2 (coord i (since (ops.filter (okArity 2)))) ≤ _ at h3
    linarith
  have h153 : (1 : ℚ) / 2 ^ 450 ≤ 1 / 2 ^ 153 := by decide +kernel
  refine ⟨e, es, _, r, corrValue_fin (u := u) hu1 hsq hsqX k11 k20 k02 ⟨h153.trans gX.1, gX.2⟩ ⟨h153.trans gY.1, gY.2⟩ (hcs 0 (by omega))
    (hcs 1 (by omega)) (by linarith) ?_ ?_, hb⟩
  · have h3 : 0 ≤ (M * M) ^ 2 := sq_nonneg _
    linarith
  · have h1 := ewCorr_le hd0 hd1 (since (ops.filter (okArity 2)))
    have h3 := abs_sub_abs_le_abs_sub (((rnd64 ((JFP.pairS (Arith.rounded rnd64 pw) (fun a b => rnd64 (a * b)) 0 (some d)
      (JFP.pairs 0 0 1 (since (ops.filter (okArity 2))))) / sq (rnd64 ((mst (Arith.rounded rnd64 pw) 0 (some d) (JFP.column 0 0
      (since (ops.filter (okArity 2))))).2 2 * (mst (Arith.rounded rnd64 pw) 0 (some d) (JFP.column 0 1 (since (ops.filter (okArity 2))))).2 2))) : ℚ)) : ℝ)
      (ewCorr (d : ℝ) (realPoints (since (ops.filter (okArity 2)))))
    have h4 : 1920 * ((u : ℝ) / d) * κ ^ 2 ≤ 1 / 100 := by simpa using (Rat.cast_le (K := ℝ)).2 hsm
    linarith

/-- C107, `Autocorr` without a window: as C106, also with overflow. -/
theorem C107_autocorr (P : JFP.PowOK rnd64 pw) (hP : ∀ x, |pw x 2 - x * x| ≤ 1 / 2 ^ 53 * (x * x) + 1 / 2 ^ 1075) (lag : Nat) {M : ℚ} {sq : ℚ → ℚ}
    (hsq : ∀ q : ℚ, 0 ≤ q → |(sq q : ℝ) - √(q : ℝ)| ≤ ((1 / 2 ^ 53 : ℚ) : ℝ) * √(q : ℝ)) {sqX : XF ℚ → XF ℚ}
    (hsqX : ∀ q : ℚ, 0 ≤ q → sqX (.fin q) = .fin (sq q)) (ops : List (MOp ℚ)) {N : Nat} (hN : (since ops).length = N + lag) (hκ : 1 ≤ κ)
    (hM : rnd64 M = M) (hM1 : 1 ≤ M) (hx : ∀ x ∈ since ops, rnd64 x = x ∧ |x| ≤ M) (h0 : M ^ 2 ≤ κ ^ 2 * popMoment 2 ((since ops).drop lag))
    (h1 : M ^ 2 ≤ κ ^ 2 * popMoment 2 ((since ops).take N)) (hN2 : 2 ≤ N) (hlen : N ≤ 2 ^ 43)
    (hsm : 2 * (N + 40) * (1 / 2 ^ 53) * κ ^ 2 ≤ 1 / 100) (hfit : 100000 * ((N + 1) * (M * M)) ^ 2 < two 1024) :
    ∃ g, aObs (ieeeOf rnd64 pw over64) true lag 0 sqX (finOps ops) = some (.ok (.fin g), []) ∧
      |(g : ℝ) - pearson (realPoints (lagged lag (since ops)))| ≤ 10 * (N + 30) * ((1 / 2 ^ 53 : ℚ) : ℝ) * κ ^ 2 := by
  obtain ⟨c, hn⟩ := JFP.auto_newCore (ieeeOf rnd64 pw over64) true 0
  have hs := JFP.filter_pushes (JFP.lagged_arity lag (since ops))
  have hb : ∀ i, i < 2 → BoundedAt i M (lagged lag (since ops)) := by
    intro i hi p hp
    obtain ⟨x, h2, y, h3, rfl⟩ := lagged_mem hp
    match i with
    | 0 => exact hx x h2
    | 1 => exact hx y h3
    | i + 2 => omega
  obtain ⟨c0, c1⟩ := coord_lagged hN
  have hM200 : (1 : ℚ) / 2 ^ 200 ≤ M := le_trans (by decide +kernel) hM1
  obtain ⟨e, es, v, r, hv, hb⟩ := C107_corr P hP (cfg := JFP.autoConfig (XF ℚ) true 0) (c := c)
    ⟨hn, rfl, JFP.auto_exp true 0, noCollision_auto true 0, ⟨⟨[1, 1], by simp [JFP.autoConfig], by decide⟩,
      ⟨[2, 0], by simp [JFP.autoConfig], by decide⟩, ⟨[0, 2], by simp [JFP.autoConfig], by decide⟩⟩⟩ rfl rfl hsq hsqX
    ((lagged lag (since ops)).map MOp.push) (N := N) (by rw [hs, JFP.since_pushes, lagged_length]; omega) hκ
    (by rw [hs, JFP.since_pushes]; exact ⟨hM, hM200, hb 0 (by omega), by rw [c0]; exact h0⟩)
    (by rw [hs, JFP.since_pushes]; exact ⟨hM, hM200, hb 1 (by omega), by rw [c1]; exact h1⟩) hN2 hlen hsm hM hM1 le_rfl le_rfl hfit
  rw [hs, JFP.since_pushes] at hb
  refine ⟨v, ?_, hb⟩
  have := aObs_eq (ieeeOf rnd64 pw over64) (corr := true) (lag := lag) (w := 0) (sqrt := sqX) (ops := finOps ops) hn
    (by rw [since_finOps, lagged_finPts]; exact r) (by rw [since_finOps, List.length_map]; omega)
  rw [if_pos rfl, hv] at this
  exact this

end

/-- The hypotheses on the numbers hold for a million values of up to 2^240 and the kurtosis, of up to 2^490 and `Std`, and for a million points of up to
2^240 and `Corr`. -/
example : (8 * 2 ^ 4 * ((10 ^ 6 : Nat) * (1 + (2 * 2 ^ 240) ^ 4)) : ℚ) < two 1024 ∧ (32 * ((10 ^ 6 : Nat) * (1 + (2 * 2 ^ 490) ^ 2)) : ℚ) < two 1024 ∧
    (100000 * (((10 ^ 6 : Nat) + 1) * (2 ^ 240 * 2 ^ 240)) ^ 2 : ℚ) < two 1024 := by decide +kernel

/-- The hypotheses on the data hold for five values around 2^201, with the values of the example of C97 scaled. -/
example : Spread (1 / 2 ^ 53) (7 * 2 ^ 200) 4 [2 ^ 200, 3 * 2 ^ 200, 3 * 2 ^ 200, 2 * 2 ^ 200, 7 * 2 ^ 200] ∧
    (8 * 2 ^ 4 * ((5 : Nat) * (1 + (2 * (7 * 2 ^ 200)) ^ 4)) : ℚ) < two 1024 := by
  refine ⟨⟨by decide +kernel, by norm_num, ?_, by norm_num, by decide +kernel, by norm_num⟩, by decide +kernel⟩
  intro x hx
  simp only [List.mem_cons, List.not_mem_nil, or_false] at hx
  rcases hx with rfl | rfl | rfl | rfl | rfl <;> exact ⟨by decide +kernel, by decide +kernel⟩

set_option synthInstance.maxSize 512 in
set_option synthInstance.maxHeartbeats 200000 in
/-- There is a core as assumed: that of `Corr`. -/
example : ∃ c, CorrCoreX (fun x k => rnd64 (x ^ k)) ⟨some [[1, 1], [2, 0], [0, 2]], some 0, none, none⟩ c := by
  have h1 : jObs Arith.ieee64 ⟨some [[1, 1], [2, 0], [0, 2]], some 0, none, none⟩ (finPts [.push [0, 0]]) [] =
      some (([], .ok (.fin 0), .ok (.fin 0)), 1, []) := by decide +kernel
  obtain ⟨c, -, h1, -⟩ := jObs_run h1
  exact ⟨c, h1, rfl, by simp, noCollision_of_small (n := 2) (by omega) (by simp) (by simp [Moderate]),
    ⟨[1, 1], by simp, by decide⟩, ⟨[2, 0], by simp, by decide⟩, ⟨[0, 2], by simp, by decide⟩⟩

/-- The values of `Kurtosis` of a run, for tests. -/
def kurtObs {F : Type} (A : Arith F) : Go (Moment.Core F × List Err) → Option (Except Err F × List Err)
  | .val (c, es) => some (kurtosisValue A c, es)
  | _ => none

/-- C107 fails for larger data, of which the variance is nowhere near overflowing: the `Kurtosis` of 0, 2^300, 0, 2^300 is NaN instead of -2, that of
seven zeros and 2^256 is infinite. -/
theorem C107_kurtosis_large : (∃ c c' : Moment.Core (XF ℚ), newCore Arith.ieee64 ⟨some [4], some 0, none⟩ = .ok c ∧
      run Arith.ieee64 c (finOps [.push 0, .push (2 ^ 300), .push 0, .push (2 ^ 300)]) = .val (c', []) ∧
      kurtosisValue Arith.ieee64 c' = .ok .nan ∧ exKurtosis [0, 2 ^ 300, 0, (2 : ℚ) ^ 300] = -2) ∧
    ∃ c c' : Moment.Core (XF ℚ), newCore Arith.ieee64 ⟨some [4], some 0, none⟩ = .ok c ∧
      run Arith.ieee64 c (finOps (List.replicate 7 (.push 0) ++ [.push (2 ^ 256)])) = .val (c', []) ∧ kurtosisValue Arith.ieee64 c' = .ok (.inf false) := by
  have key : ∀ (r : Go (Moment.Core (XF ℚ) × List Err)) v, kurtObs Arith.ieee64 r = some (v, []) →
      ∃ c', r = .val (c', []) ∧ kurtosisValue Arith.ieee64 c' = v := by
    intro r v h
    rcases r with ⟨c', es⟩ | _ | _
    · simp only [kurtObs, Option.some.injEq, Prod.mk.injEq] at h
      obtain ⟨h1, rfl⟩ := h
      exact ⟨c', rfl, h1⟩
    · simp [kurtObs] at h
    · simp [kurtObs] at h
  obtain ⟨c1, r1, k1⟩ := key (run Arith.ieee64 (mk Arith.ieee64 ⟨some [4], some 0, none⟩) (finOps [.push 0, .push (2 ^ 300), .push 0, .push (2 ^ 300)]))
    (.ok .nan) (by decide +kernel)
  obtain ⟨c2, r2, k2⟩ := key (run Arith.ieee64 (mk Arith.ieee64 ⟨some [4], some 0, none⟩) (finOps (List.replicate 7 (.push 0) ++ [.push (2 ^ 256)])))
    (.ok (.inf false)) (by decide +kernel)
  exact ⟨⟨_, c1, rfl, r1, k1, by decide +kernel⟩, _, c2, rfl, r2, k2⟩

set_option synthInstance.maxSize 512 in
set_option synthInstance.maxHeartbeats 200000 in
/-- C107 fails for larger points, of which no sum overflows: the `Corr` of (0, 0), (2^300, 2^300) is 0 instead of 1, as the product of the sums of squares
is infinite. -/
theorem C107_corr_large {sqX : XF ℚ → XF ℚ} (hsq : sqX (.inf false) = .inf false) :
    ∃ c e, JFP.newCore Arith.ieee64 ⟨some [[1, 1], [2, 0], [0, 2]], some 0, none, none⟩ = .val (.ok c) ∧
      JFP.run Arith.ieee64 c (finPts [.push [0, 0], .push [2 ^ 300, 2 ^ 300]]) = .val (e, []) ∧ JFP.corrValue Arith.ieee64 sqX e = .ok (XF.fin 0) ∧
      pearson (realPoints [[0, 0], [2 ^ 300, 2 ^ 300]]) = 1 := by
  have h : jObs Arith.ieee64 ⟨some [[1, 1], [2, 0], [0, 2]], some 0, none, none⟩ (finPts [.push [0, 0], .push [2 ^ 300, 2 ^ 300]])
      [[1, 1], [2, 0], [0, 2]] = some (([.ok (.fin (2 ^ 599)), .ok (.fin (2 ^ 599)), .ok (.fin (2 ^ 599))], .ok (.fin (2 ^ 299)), .ok (.fin (2 ^ 299))),
        2, []) := by decide +kernel
  obtain ⟨c, e, h1, h2, h3, -⟩ := jObs_run h
  simp only [List.map_cons, List.map_nil, List.cons.injEq, and_true] at h3
  have hm : Arith.ieee64.mul (.fin (2 ^ 599)) (.fin (2 ^ 599)) = .inf false := by decide +kernel
  refine ⟨c, e, h1, h2, by simp only [JFP.corrValue, h3.1, h3.2.1, h3.2.2, hm, hsq]; rfl, ?_⟩
  rw [pearson_sums (by decide)]
  have a : crossSum 0 1 [[0, 0], [2 ^ 300, (2 : ℚ) ^ 300]] = 2 ^ 599 := by decide +kernel
  have b : csum 2 (coord 0 [[0, 0], [2 ^ 300, (2 : ℚ) ^ 300]]) = 2 ^ 599 := by decide +kernel
  have d : csum 2 (coord 1 [[0, 0], [2 ^ 300, (2 : ℚ) ^ 300]]) = 2 ^ 599 := by decide +kernel
  rw [a, b, d, Real.sqrt_mul_self (by positivity)]
  exact div_self (by positivity)

end Verif.Props
