import Verif.Props.Ratios
import Verif.Props.CorrRange
import Verif.Props.Covariance

/-! # C98: accuracy of `Corr` in binary64

`N` is the number of points since the last `Clear`, `M₁`, `M₂` bound the absolute values of their coordinates, and both are at most `κ ≥ 1`
population standard deviations. -/

namespace Verif.Props
open Verif Verif.Spec Verif.FP

section
variable {pw : ℚ → Nat → ℚ}

/-- The sums of squares of a joint core without a window and decay are as accurate as those of a moment core (C82). -/
theorem C98_square_accuracy (P : JFP.PowOK rnd64 pw) {cfg : Joint.Config ℚ} {c : Joint.Core ℚ}
    (hn : JFP.newCore (Arith.rounded rnd64 pw) cfg = .val (.ok c)) (hs : ∀ t ∈ cfg.sums.getD [], ∀ k ∈ t, k ≤ 65)
    (hi : NoCollision (cfg.sums.getD [])) (hw : cfg.window = some 0)
    (hd : cfg.decay = none) {n : Nat} (hv : Joint.varsOf cfg = n) {i : Nat} (hin : i < n)
    (ht : TracksZ (cfg.sums.getD []) ((List.replicate n 0).set i 2)) {M : ℚ} (hM : rnd64 M = M) (hM0 : 1 / 2 ^ 480 ≤ M)
    (ops : List (MOp (List ℚ))) {N : Nat}
    (hN : (since (ops.filter (okArity n))).length = N) (hlen : N ≤ 2 ^ 43) (hP : PowSq pw (1 / 2 ^ 53) (1 / 2 ^ 1075) N)
    (hx : BoundedAt i M (since (ops.filter (okArity n)))) (hne : N ≠ 0) :
    ∃ e es v, JFP.run (Arith.rounded rnd64 pw) c ops = .val (e, es) ∧ JFP.sum e ((List.replicate n 0).set i 2) = .ok v ∧
      |v - csum 2 (coord i (since (ops.filter (okArity n))))| ≤ 2 * N * (N + 40) * (1 / 2 ^ 53) * M ^ 2 := by
  obtain ⟨c', hc'⟩ := moment_companion _ hn
  obtain ⟨e, es, e', r, r', hm⟩ := C74_square_partial rounding_rnd64 P hn hs hi (w := 0) (by simpa using hw) (fun h => absurd h (by omega)) hc'
    (by simp) ⟨2, by simp, le_rfl⟩ rfl rfl (by simp [hd]) hv hin ht ops
  have hcol : since (columnOps (0 : ℚ) i n ops) = coord i (since (ops.filter (okArity n))) := since_columnOps _ _ _ _
  have hcl : (since (columnOps (0 : ℚ) i n ops)).length = N := by simp [hcol, coord, hN]
  obtain ⟨e2, v, r2, h1, h2⟩ := C82_sum_accuracy hc' hw hd (by simp) ⟨2, by simp, le_rfl⟩ hM hM0 (columnOps 0 i n ops) (by rw [hcl]; exact hlen)
    (by rw [hcl]; exact hP) (by
      rw [hcol]
      intro y hy
      obtain ⟨x, hx', rfl⟩ := List.mem_map.1 hy
      exact hx x hx') (by
      intro h
      rw [h] at hcl
      exact hne hcl.symm)
  rw [r'] at r2
  simp only [Go.val.injEq, Prod.mk.injEq, and_true] at r2
  subst r2
  rw [hcl, hcol] at h2
  exact ⟨e, es, v, r, (hm v).2 h1, h2⟩

/-- The points as real ones. -/
def realPoints (data : List (List ℚ)) : List (List ℝ) := data.map reals

theorem getD_reals (x : List ℚ) (j : Nat) : (reals x).getD j 0 = ((x.getD j 0 : ℚ) : ℝ) := by
  simp only [reals, List.getD_eq_getElem?_getD, List.getElem?_map]
  cases x[j]? <;> simp

theorem coord_real (j : Nat) (data : List (List ℚ)) : coord j (realPoints data) = reals (coord j data) := by
  simp only [coord, realPoints, List.map_map]
  conv_rhs => rw [reals, List.map_map]
  exact List.map_congr_left fun x _ => getD_reals x j

theorem crossSum_real (data : List (List ℚ)) :
    ((realPoints data).map (fun p => (p.getD 0 0 - Spec.mean (coord 0 (realPoints data))) *
      (p.getD 1 0 - Spec.mean (coord 1 (realPoints data))))).sum = ((crossSum 0 1 data : ℚ) : ℝ) := by
  rw [coord_real, coord_real, mean_reals, mean_reals, crossSum]
  generalize Spec.mean (coord 0 data) = a
  generalize Spec.mean (coord 1 data) = b
  induction data with
  | nil => simp [realPoints]
  | cons x data ih =>
    simp only [realPoints, List.map_cons, List.sum_cons, getD_reals] at ih ⊢
    rw [ih]
    push_cast
    rfl

/-- Pearson's correlation by sums. -/
theorem pearson_sums {data : List (List ℚ)} (h : 2 ≤ data.length) :
    pearson (realPoints data) = (crossSum 0 1 data : ℚ) / √(((csum 2 (coord 0 data) : ℚ) : ℝ) * ((csum 2 (coord 1 data) : ℚ) : ℝ)) := by
  have hn : (0 : ℝ) < (data.length : ℝ) - 1 := by
    have : (2 : ℝ) ≤ data.length := by exact_mod_cast h
    linarith
  have hc : ∀ j, 0 ≤ ((csum 2 (coord j data) : ℚ) : ℝ) := fun j => by
    have : (0 : ℚ) ≤ csum 2 (coord j data) := List.sum_nonneg (by simp only [List.mem_map]; rintro y ⟨x, -, rfl⟩; positivity)
    exact_mod_cast this
  have hl : (realPoints data).length = data.length := List.length_map _
  have hk : ∀ j, sampleMoment 2 (coord j (realPoints data)) = ((csum 2 (coord j data) : ℚ) : ℝ) / ((data.length : ℝ) - 1) := fun j => by
    rw [sampleMoment, coord_real, csum_reals]
    simp [reals, coord]
  rw [pearson, sampleCov, crossSum_real, hl, sampleStd, sampleStd, hk, hk, ← Real.sqrt_mul (div_nonneg (hc 0) hn.le),
    div_mul_div_comm, Real.sqrt_div (mul_nonneg (hc 0) (hc 1)), Real.sqrt_mul_self hn.le, div_div_div_cancel_right₀ hn.ne']

theorem crossSum_le (data : List (List ℚ)) :
    |((crossSum 0 1 data : ℚ) : ℝ)| ≤ √(((csum 2 (coord 0 data) : ℚ) : ℝ) * ((csum 2 (coord 1 data) : ℚ) : ℝ)) := by
  refine Real.abs_le_sqrt ?_
  have h := (Joint.cauchy data (w := fun _ => (1 : ℚ)) (a := fun p => p.getD 0 0 - Spec.mean (coord 0 data))
    (b := fun p => p.getD 1 0 - Spec.mean (coord 1 data)) (fun _ _ => zero_le_one)).2.2
  simp only [one_mul] at h
  have e : ∀ j, csum 2 (coord j data) = (data.map fun p => (p.getD j 0 - Spec.mean (coord j data)) ^ 2).sum := fun j => by
    simp [csum, coord, Function.comp_def]
  rw [e 0, e 1]
  exact_mod_cast h

/-- What is assumed of one coordinate. -/
structure CoordOK (i : Nat) (M κ : ℚ) (data : List (List ℚ)) : Prop where
  round : rnd64 M = M
  low : 1 / 2 ^ 200 ≤ M
  bound : BoundedAt i M data
  cond : M ^ 2 ≤ κ ^ 2 * popMoment 2 (coord i data)

variable {κ : ℚ}

theorem CoordOK.sum {i : Nat} {M : ℚ} {data : List (List ℚ)} (H : CoordOK i M κ data) {N : Nat} (hN : data.length = N) :
    N ≠ 0 ∧ N * M ^ 2 ≤ κ ^ 2 * csum 2 (coord i data) := by
  have hM : 0 < M := lt_of_lt_of_le (by positivity) H.low
  have hM2 : 0 < M ^ 2 := by positivity
  have h := H.cond
  have hl : (coord i data).length = N := by simp [coord, hN]
  rw [popMoment, hl] at h
  have h0 : N ≠ 0 := by
    rintro rfl
    simp at h
    linarith
  refine ⟨h0, ?_⟩
  have hp : (0 : ℚ) < N := by exact_mod_cast Nat.pos_of_ne_zero h0
  rw [← mul_div_assoc, le_div_iff₀ hp] at h
  linarith

/-- The correlation from the three sums, which are not small and have two relative digits. -/
theorem corr_of_sums {sq : ℚ → ℚ} (hsq : ∀ q : ℚ, 0 ≤ q → |(sq q : ℝ) - √(q : ℝ)| ≤ ((1 / 2 ^ 53 : ℚ) : ℝ) * √(q : ℝ)) {data : List (List ℚ)} {N : Nat}
    (hN : data.length = N) {M₁ M₂ : ℚ} (hκ : 1 ≤ κ) (H₁ : CoordOK 0 M₁ κ data) (H₂ : CoordOK 1 M₂ κ data) (hN2 : 2 ≤ N)
    (hsm : 2 * (N + 40) * (1 / 2 ^ 53) * κ ^ 2 ≤ 1 / 100) {s11 s20 s02 : ℚ}
    (b11 : |s11 - crossSum 0 1 data| ≤ 4 * N * (N + 20) * (1 / 2 ^ 53) * (M₁ * M₂))
    (b20 : |s20 - csum 2 (coord 0 data)| ≤ 2 * N * (N + 40) * (1 / 2 ^ 53) * M₁ ^ 2)
    (b02 : |s02 - csum 2 (coord 1 data)| ≤ 2 * N * (N + 40) * (1 / 2 ^ 53) * M₂ ^ 2) :
    (1 / 2 ^ 450 ≤ csum 2 (coord 0 data) ∧ |s20 - csum 2 (coord 0 data)| ≤ 1 / 100 * csum 2 (coord 0 data)) ∧
    (1 / 2 ^ 450 ≤ csum 2 (coord 1 data) ∧ |s02 - csum 2 (coord 1 data)| ≤ 1 / 100 * csum 2 (coord 1 data)) ∧
    |((rnd64 (s11 / sq (rnd64 (s20 * s02))) : ℚ) : ℝ) - pearson (realPoints data)| ≤ 10 * (N + 30) * ((1 / 2 ^ 53 : ℚ) : ℝ) * κ ^ 2 := by
  have hκ2 : 1 ≤ κ ^ 2 := one_le_pow₀ hκ
  have hNq : (2 : ℚ) ≤ N := by exact_mod_cast hN2
  have hκ40 : κ ^ 2 ≤ 2 ^ 46 := by
    by_contra h
    push Not at h
    have : (2 * (0 + 40) * (1 / 2 ^ 53) : ℚ) * 2 ^ 46 ≤ 2 * (N + 40) * (1 / 2 ^ 53) * κ ^ 2 :=
      mul_le_mul (by norm_num; linarith) h.le (by positivity) (by positivity)
    norm_num at this hsm
    linarith
  have hS₁ := (H₁.sum hN).2
  have hS₂ := (H₂.sum hN).2
  have hM₁ := H₁.low
  have hM₂ := H₂.low
  have hC := crossSum_le data
  rw [pearson_sums (by omega)]
  generalize csum 2 (coord 0 data) = X at *
  generalize csum 2 (coord 1 data) = Y at *
  generalize crossSum 0 1 data = C at *
  clear H₁ H₂ hN
  -- a sum of squares is not small
  have key : ∀ M X : ℚ, 1 / 2 ^ 200 ≤ M → N * M ^ 2 ≤ κ ^ 2 * X → 1 / 2 ^ 450 ≤ X := fun M X h h' => by
    have h1 : (1 / 2 ^ 200 : ℚ) ^ 2 ≤ M ^ 2 := pow_le_pow_left₀ (by positivity) h 2
    have h2 : 1 * (1 / 2 ^ 200 : ℚ) ^ 2 ≤ N * M ^ 2 := mul_le_mul (by linarith) h1 (by positivity) (by positivity)
    have hX : 0 ≤ X := by
      by_contra hX
      push Not at hX
      have : κ ^ 2 * X < 0 := mul_neg_of_pos_of_neg (by linarith) hX
      have : (0 : ℚ) < 1 * (1 / 2 ^ 200) ^ 2 := by positivity
      linarith
    have h3 := mul_le_mul_of_nonneg_right hκ40 hX
    have h4 : (1 / 2 ^ 450 : ℚ) * 2 ^ 46 ≤ 1 * (1 / 2 ^ 200) ^ 2 := by decide +kernel
    have h5 : (1 / 2 ^ 450 : ℚ) * 2 ^ 46 ≤ X * 2 ^ 46 := by linarith
    exact le_of_mul_le_mul_right h5 (by positivity)
  have lX := key M₁ X hM₁ hS₁
  have lY := key M₂ Y hM₂ hS₂
  have pX : 0 < X := lt_of_lt_of_le (by positivity) lX
  have pY : 0 < Y := lt_of_lt_of_le (by positivity) lY
  have pM₁ : 0 < M₁ := lt_of_lt_of_le (by positivity) hM₁
  have pM₂ : 0 < M₂ := lt_of_lt_of_le (by positivity) hM₂
  have rel : ∀ s M X : ℚ, |s - X| ≤ 2 * N * (N + 40) * (1 / 2 ^ 53) * M ^ 2 → N * M ^ 2 ≤ κ ^ 2 * X →
      |s - X| ≤ 2 * (N + 40) * (1 / 2 ^ 53) * κ ^ 2 * X := fun s M X h h' => by
    have := mul_le_mul_of_nonneg_left h' (show (0 : ℚ) ≤ 2 * (N + 40) * (1 / 2 ^ 53) by positivity)
    linarith
  have a20 := rel s20 M₁ X b20 hS₁
  have a02 := rel s02 M₂ Y b02 hS₂
  have close : ∀ s X : ℚ, 0 < X → |s - X| ≤ 2 * (N + 40) * (1 / 2 ^ 53) * κ ^ 2 * X → |s - X| ≤ 1 / 100 * X := fun s X hX h =>
    h.trans (mul_le_mul_of_nonneg_right hsm hX.le)
  have n20 : 0 ≤ s20 := by
    have h1 := (abs_le.1 a20).1
    have h2 := mul_le_mul_of_nonneg_right hsm pX.le
    linarith
  have n02 : 0 ≤ s02 := by
    have h1 := (abs_le.1 a02).1
    have h2 := mul_le_mul_of_nonneg_right hsm pY.le
    linarith
  have g20 := close s20 X pX a20
  have g02 := close s02 Y pY a02
  refine ⟨⟨lX, g20⟩, ⟨lY, g02⟩, ?_⟩
  have hu53 : (1 : ℚ) / 2 ^ 1075 ≤ 1 / 2 ^ 53 * (X * Y) := by
    have h1 : (1 / 2 ^ 450 : ℚ) * (1 / 2 ^ 450) ≤ X * Y := mul_le_mul lX lY (by positivity) pX.le
    refine le_trans ?_ (mul_le_mul_of_nonneg_left h1 (by positivity))
    decide +kernel
  have htu : (1 : ℚ) / 2 ^ 1075 ≤ 1 / 2 ^ 53 := by decide +kernel
  have hu1 : (1 : ℚ) / 2 ^ 53 ≤ 1 / 4096 := by norm_num
  have hup : (0 : ℚ) ≤ 1 / 2 ^ 53 := by positivity
  have acc := fun q => round_real (u := 1 / 2 ^ 53) le_rfl q
  generalize (1 : ℚ) / 2 ^ 53 = u at *
  generalize (1 : ℚ) / 2 ^ 1075 = t at *
  clear key rel close g20 g02
  -- over the reals
  have R1 : (0 : ℝ) ≤ u := by exact_mod_cast hup
  have R2 : (u : ℝ) ≤ 1 / 4096 := by simpa using (Rat.cast_le (K := ℝ)).2 hu1
  have R3 : 2 * ((N : ℝ) + 40) * u * κ ^ 2 ≤ 1 / 100 := by simpa using (Rat.cast_le (K := ℝ)).2 hsm
  have hκR : (1 : ℝ) ≤ κ := by exact_mod_cast hκ
  have pXR : (0 : ℝ) < X := by exact_mod_cast pX
  have pYR : (0 : ℝ) < Y := by exact_mod_cast pY
  have hm11 : (N : ℝ) * (M₁ * M₂) ≤ κ ^ 2 * √((X : ℝ) * Y) := by
    have h1 : ((N : ℝ) * (M₁ * M₂)) ^ 2 ≤ (κ ^ 2 * √((X : ℝ) * Y)) ^ 2 := by
      have h2 : (N * M₁ ^ 2) * (N * M₂ ^ 2) ≤ κ ^ 2 * X * (κ ^ 2 * Y) := mul_le_mul hS₁ hS₂ (by positivity) (by positivity)
      have h3 : ((N : ℝ) * M₁ ^ 2) * (N * M₂ ^ 2) ≤ κ ^ 2 * X * (κ ^ 2 * Y) := by exact_mod_cast h2
      rw [mul_pow _ (√_), Real.sq_sqrt (by positivity)]
      calc _ = ((N : ℝ) * M₁ ^ 2) * (N * M₂ ^ 2) := by ring
        _ ≤ _ := h3
        _ = _ := by ring
    exact le_of_sq_le_sq h1 (by positivity)
  have hc11 : |(s11 : ℝ) - C| ≤ 4 * (N + 20) * u * κ ^ 2 * √((X : ℝ) * Y) := by
    have h1 : |(s11 : ℝ) - C| ≤ 4 * N * (N + 20) * u * (M₁ * M₂) := by exact_mod_cast b11
    have h2 := mul_le_mul_of_nonneg_left hm11 (show 0 ≤ 4 * ((N : ℝ) + 20) * u by positivity)
    linarith
  have F := corr_final (u := (u : ℝ)) (t := (t : ℝ)) (d := 2 * ((N : ℝ) + 40) * u * κ ^ 2) (X := (X : ℝ)) (Y := (Y : ℝ)) (C := (C : ℝ))
    (x := (s20 : ℝ)) (y := (s02 : ℝ)) (c := (s11 : ℝ)) (p := ((rnd64 (s20 * s02) : ℚ) : ℝ)) (r := (sq (rnd64 (s20 * s02)) : ℝ))
    (g := ((rnd64 (s11 / sq (rnd64 (s20 * s02))) : ℚ) : ℝ)) R1 R2 pXR pYR (by positivity) R3 (by exact_mod_cast a20) (by exact_mod_cast a02) hc11 hC
    (by have := acc (s20 * s02); push_cast at this ⊢; exact this) (by exact_mod_cast hu53) (by exact_mod_cast htu)
    (hsq _ (rounding_rnd64.nonneg (mul_nonneg n20 n02)))
    (by have := acc (s11 / sq (rnd64 (s20 * s02))); push_cast at this ⊢; exact this)
  refine F.trans ?_
  have h1 : (u : ℝ) ≤ u * κ ^ 2 := le_mul_of_one_le_right R1 (one_le_pow₀ hκR)
  have h2 : 0 ≤ (N : ℝ) * (u * κ ^ 2) := by positivity
  have h3 : 0 ≤ (u : ℝ) * κ ^ 2 := by positivity
  linarith

/-- C98, `Corr` without a window, in binary64 with a square root of relative error 2⁻⁵³: it is off by at most `10·(N + 30)·2⁻⁵³·κ²`. -/
theorem C98_corr_accuracy (P : JFP.PowOK rnd64 pw) {cfg : Joint.Config ℚ} {c : Joint.Core ℚ} (hc : CorrCore rnd64 pw cfg c)
    (hw : cfg.window = some 0) (hd : cfg.decay = none) {sq : ℚ → ℚ}
    (hsq : ∀ q : ℚ, 0 ≤ q → |(sq q : ℝ) - √(q : ℝ)| ≤ ((1 / 2 ^ 53 : ℚ) : ℝ) * √(q : ℝ)) (ops : List (MOp (List ℚ))) {N : Nat}
    (hN : (since (ops.filter (okArity 2))).length = N) (hP : PowSq pw (1 / 2 ^ 53) (1 / 2 ^ 1075) N) {M₁ M₂ : ℚ} (hκ : 1 ≤ κ)
    (H₁ : CoordOK 0 M₁ κ (since (ops.filter (okArity 2)))) (H₂ : CoordOK 1 M₂ κ (since (ops.filter (okArity 2)))) (hN2 : 2 ≤ N) (hlen : N ≤ 2 ^ 43)
    (hsm : 2 * (N + 40) * (1 / 2 ^ 53) * κ ^ 2 ≤ 1 / 100) :
    ∃ e es g, JFP.run (Arith.rounded rnd64 pw) c ops = .val (e, es) ∧ JFP.corrValue (Arith.rounded rnd64 pw) sq e = .ok g ∧
      |(g : ℝ) - pearson (realPoints (since (ops.filter (okArity 2))))| ≤ 10 * (N + 30) * ((1 / 2 ^ 53 : ℚ) : ℝ) * κ ^ 2 := by
  have low : ∀ M : ℚ, 1 / 2 ^ 200 ≤ M → 1 / 2 ^ 480 ≤ M := fun M h => le_trans (by decide +kernel) h
  obtain ⟨e, es, s11, r, -, k11, b11⟩ := C83_sum_accuracy P hc.new hc.small hc.coll hw hd (n := 2) (by exact_mod_cast hc.vars) (i := 0) (j := 1)
    (by omega) (by omega) hc.track.1 H₁.round H₂.round (low _ H₁.low) (low _ H₂.low) ops hN hlen hP H₁.bound H₂.bound (by omega)
  obtain ⟨e1, es1, s20, r1, k20, b20⟩ := C98_square_accuracy P hc.new hc.small hc.coll hw hd (n := 2) (by exact_mod_cast hc.vars) (i := 0)
    (by omega) hc.track.2.1 H₁.round (low _ H₁.low) ops hN hlen hP H₁.bound (by omega)
  obtain ⟨e2, es2, s02, r2, k02, b02⟩ := C98_square_accuracy P hc.new hc.small hc.coll hw hd (n := 2) (by exact_mod_cast hc.vars) (i := 1)
    (by omega) hc.track.2.2 H₂.round (low _ H₂.low) ops hN hlen hP H₂.bound (by omega)
  rw [r] at r1 r2
  simp only [Go.val.injEq, Prod.mk.injEq] at r1 r2
  obtain ⟨rfl, rfl⟩ := r1
  obtain ⟨rfl, rfl⟩ := r2
  change JFP.sum e [1, 1] = _ at k11
  change JFP.sum e [2, 0] = _ at k20
  change JFP.sum e [0, 2] = _ at k02
  exact ⟨e, es, rnd64 (s11 / sq (rnd64 (s20 * s02))), r, by simp only [JFP.corrValue, k11, k20, k02]; rfl,
    (corr_of_sums hsq hN hκ H₁ H₂ hN2 hsm b11 b20 b02).2.2⟩

end

/-- Three points far from the origin. -/
def farPoints : List (List ℚ) :=
  [[9007199254740992, 9007199254740994], [9007199254740994, 9007199254740992], [9007199254740994, 9007199254740994]]

/-- C98 fails without a bound on `κ`: the correlation of `farPoints` is -1/2, that computed in binary64 is about 1/7; the covariance has the wrong
sign, too. -/
theorem C98_not_uniform {sq : ℚ → ℚ} (hsq : ∀ q : ℚ, 0 ≤ q → |(sq q : ℝ) - √(q : ℝ)| ≤ ((1 / 2 ^ 53 : ℚ) : ℝ) * √(q : ℝ)) :
    ∃ (c e : Joint.Core ℚ) (g v : ℚ), JFP.newCore Arith.b64 ⟨some [[1, 1], [2, 0], [0, 2]], some 0, none, none⟩ = .val (.ok c) ∧
      JFP.run Arith.b64 c (farPoints.map .push) = .val (e, []) ∧ JFP.corrValue Arith.b64 sq e = .ok g ∧ 1 / 8 ≤ g ∧
      JFP.covValue Arith.b64 e = .ok v ∧ 0 < v ∧ sampleCov farPoints < 0 ∧ pearson (realPoints farPoints) = -1 / 2 := by
  have h : jObs Arith.b64 ⟨some [[1, 1], [2, 0], [0, 2]], some 0, none, none⟩ (farPoints.map .push) [[1, 1], [2, 0], [0, 2]] =
      some (([.ok (1501199875790165 / 2251799813685248), .ok (2627099782632789 / 562949953421312), .ok (2627099782632789 / 562949953421312)],
        .ok 9007199254740992, .ok 9007199254740992), 3, []) := by decide +kernel
  obtain ⟨c, e, h1, h2, h3, -, -, hcnt⟩ := jObs_run h
  simp only [List.map_cons, List.map_nil, List.cons.injEq, and_true] at h3
  obtain ⟨k1, k2, k3⟩ := h3
  set q : ℚ := rnd64 (2627099782632789 / 562949953421312 * (2627099782632789 / 562949953421312)) with hq
  have hq1 : (4 : ℚ) ^ 2 ≤ q := by rw [hq]; decide +kernel
  have hq2 : q ≤ (47 / 10 : ℚ) ^ 2 := by rw [hq]; decide +kernel
  refine ⟨c, e, rnd64 (1501199875790165 / 2251799813685248 / sq q), rnd64 (1501199875790165 / 2251799813685248 / rnd64 (rnd64 3 - rnd64 1)), h1, h2,
    by simp only [JFP.corrValue, k1, k2, k3]; rfl, ?_, by simp only [JFP.covValue, k1, hcnt]; simp [Arith.b64, Arith.rounded],
    by decide +kernel, by decide +kernel, ?_⟩
  · have r1 : (4 : ℝ) ≤ √(q : ℝ) := Real.le_sqrt_of_sq_le (by exact_mod_cast hq1)
    have r2 : √(q : ℝ) ≤ 47 / 10 := Real.sqrt_le_iff.2 ⟨by norm_num, by
      have := (Rat.cast_le (K := ℝ)).2 hq2
      push_cast at this
      exact this⟩
    have hs := abs_le.1 (hsq q (le_trans (by norm_num) hq1))
    have hu : ((1 / 2 ^ 53 : ℚ) : ℝ) ≤ 1 / 100 := by norm_num
    have hu' := mul_le_mul_of_nonneg_right hu (show 0 ≤ √(q : ℝ) by linarith)
    have l1 : (0 : ℚ) < sq q := by
      have : (0 : ℝ) < sq q := by linarith [hs.1]
      exact_mod_cast this
    have l2 : sq q ≤ 5 := by
      have : (sq q : ℝ) ≤ 5 := by linarith [hs.2]
      exact_mod_cast this
    have h8 : rnd64 (1 / 8) = 1 / 8 := by decide +kernel
    rw [← h8]
    refine rounding_rnd64.mono ?_
    rw [le_div_iff₀ l1]
    norm_num
    linarith
  · rw [pearson_sums (by decide)]
    have c1 : crossSum 0 1 farPoints = -4 / 3 := by decide +kernel
    have c2 : csum 2 (coord 0 farPoints) = 8 / 3 := by decide +kernel
    have c3 : csum 2 (coord 1 farPoints) = 8 / 3 := by decide +kernel
    rw [c1, c2, c3, Real.sqrt_mul_self (by norm_num)]
    norm_num

/-- The hypotheses hold for the points (1, 2), (3, 1), (2, 5), (7, 4) with `M₁ = 7`, `M₂ = 5`, `κ = 4`: the correlation is right up to 10⁻¹². -/
example : CoordOK 0 7 4 [[1, 2], [3, 1], [2, 5], [7, 4]] ∧ CoordOK 1 5 4 [[1, 2], [3, 1], [2, 5], [7, 4]] ∧
    (2 * (4 + 40) * (1 / 2 ^ 53) * 4 ^ 2 : ℚ) ≤ 1 / 100 ∧ (10 * (4 + 30) * (1 / 2 ^ 53) * 4 ^ 2 : ℚ) ≤ 1 / 10 ^ 12 ∧
    PowSq (fun x k => rnd64 (x ^ k)) (1 / 2 ^ 53) (1 / 2 ^ 1075) 4 := by
  refine ⟨⟨by decide +kernel, by decide +kernel, ?_, by decide +kernel⟩, ⟨by decide +kernel, by decide +kernel, ?_, by decide +kernel⟩,
    by norm_num, by norm_num, powSq64 (by norm_num)⟩ <;>
  · intro x hx
    simp only [List.mem_cons, List.not_mem_nil, or_false] at hx
    rcases hx with rfl | rfl | rfl | rfl <;> exact ⟨by decide +kernel, by decide +kernel⟩

end Verif.Props
