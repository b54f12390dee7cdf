import Verif.Proofs.LinearDrift
import Verif.Props.Variance

/-! # C83: accuracy of the sums of products of joint cores, and with them of the covariance, in binary64

`i < j` are two variables of a core of `n`; `M₁`, `M₂` bound the absolute values of their coordinates since the last `Clear`. The sums of squares
of the same core are covered by C82 through C74 (`C83_square`). -/

namespace Verif.Props
open Verif Verif.Spec Verif.FP

/-- The sum over the data of the products of the deviations of coordinates `i` and `j` from their means. -/
def crossSum (i j : Nat) (data : List (List ℚ)) : ℚ :=
  (data.map fun x => (x.getD i 0 - Spec.mean (coord i data)) * (x.getD j 0 - Spec.mean (coord j data))).sum

theorem cpair_pairs (i j : Nat) (data : List (List ℚ)) : cpair (JFP.pairs 0 i j data) = crossSum i j data := by
  unfold cpair crossSum
  rw [JFP.pairs_fst, JFP.pairs_snd]
  simp [JFP.pairs, JFP.column, coord, Function.comp_def]

/-- What is assumed of one coordinate: representable values, bounded by `M`. -/
def BoundedAt (i : Nat) (M : ℚ) (data : List (List ℚ)) : Prop := ∀ x ∈ data, rnd64 (x.getD i 0) = x.getD i 0 ∧ |x.getD i 0| ≤ M

theorem boundedPairs64 {i j : Nat} {M₁ M₂ : ℚ} {data : List (List ℚ)} (h₁ : BoundedAt i M₁ data) (h₂ : BoundedAt j M₂ data) :
    BoundedPairs rnd64 M₁ M₂ (JFP.pairs 0 i j data) := by
  intro p hp
  obtain ⟨x, hx, rfl⟩ := List.mem_map.1 hp
  exact ⟨h₁ x hx, h₂ x hx⟩

theorem small2_64 {M₁ M₂ : ℚ} (h₁ : 1 / 2 ^ 480 ≤ M₁) (h₂ : 1 / 2 ^ 480 ≤ M₂) {n : Nat} (hn : n ≤ 2 ^ 43) :
    Small2 (1 / 2 ^ 53) (1 / 2 ^ 1075) M₁ M₂ n := by
  refine ⟨small64 h₁ hn, small64 h₂ hn, ?_⟩
  have hMM : (1 / 2 ^ 480 : ℚ) * (1 / 2 ^ 480) ≤ M₁ * M₂ := mul_le_mul h₁ h₂ (by positivity) (le_trans (by positivity) h₁)
  calc (1 : ℚ) / 2 ^ 1075 ≤ 1 / 2 ^ 53 * (1 / 2 ^ 53) * (1 / 2 ^ 480 * (1 / 2 ^ 480)) := by decide +kernel
    _ ≤ _ := mul_le_mul_of_nonneg_left hMM (by positivity)

section
variable {pw : ℚ → Nat → ℚ}

/-- C83, windows of 0 without decay, in binary64: the sum of products of variables `i` and `j` differs from the exact one by at most
`4·N·(N + 20)·2⁻⁵³·M₁·M₂` after `N` points. -/
theorem C83_sum_accuracy (P : JFP.PowOK rnd64 pw) {cfg : Joint.Config ℚ} {c : Joint.Core ℚ}
    (hn : JFP.newCore (Arith.rounded rnd64 pw) cfg = .val (.ok c)) (hs : ∀ t ∈ cfg.sums.getD [], ∀ k ∈ t, k ≤ 65)
    (hi : NoCollision (cfg.sums.getD [])) (hw : cfg.window = some 0) (hd : cfg.decay = none) {n : Nat} (hv : Joint.varsOf cfg = n) {i j : Nat}
    (hij : i < j) (hj : j < n) (ht : TracksZ (cfg.sums.getD []) (((List.replicate n 0).set i 1).set j 1)) {M₁ M₂ : ℚ} (hM₁ : rnd64 M₁ = M₁)
    (hM₂ : rnd64 M₂ = M₂) (h₁ : 1 / 2 ^ 480 ≤ M₁) (h₂ : 1 / 2 ^ 480 ≤ M₂) (ops : List (MOp (List ℚ))) {N : Nat}
    (hN : (since (ops.filter (okArity n))).length = N) (hlen : N ≤ 2 ^ 43) (hP : PowSq pw (1 / 2 ^ 53) (1 / 2 ^ 1075) N)
    (hx₁ : BoundedAt i M₁ (since (ops.filter (okArity n)))) (hx₂ : BoundedAt j M₂ (since (ops.filter (okArity n)))) (hne : N ≠ 0) :
    ∃ e es v, JFP.run (Arith.rounded rnd64 pw) c ops = .val (e, es) ∧ e.count = N ∧ JFP.sum e (((List.replicate n 0).set i 1).set j 1) = .ok v ∧
      |v - crossSum i j (since (ops.filter (okArity n)))| ≤ 4 * N * (N + 20) * (1 / 2 ^ 53) * (M₁ * M₂) := by
  obtain ⟨e, r, hc, -, -, h⟩ := joint_second rounding_rnd64 P hn hs hi (w := 0) (by simpa using hw) (fun h => absurd h (by omega)) (by simp [hd]) hv ops
  have hne' : since (ops.filter (okArity n)) ≠ [] := by
    intro h
    rw [h] at hN
    exact hne hN.symm
  refine ⟨e, _, _, r, ?_, h i j hij hj ht hne', ?_⟩
  · rw [hc, windowOf, lastN_zero, hN]
  · have hlp : (JFP.pairs 0 i j (since (ops.filter (okArity n)))).length = N := by simp [JFP.pairs, hN]
    have := pairS_err (pw := pw) rounding_rnd64 accuracy_rnd64 (N := N) (fun m h => rnd64_nat (by omega)) (small2_64 h₁ h₂ hlen) hP hM₁ hM₂
      (JFP.pairs 0 i j (since (ops.filter (okArity n)))) hlp.le (boundedPairs64 hx₁ hx₂)
    rw [cpair_pairs, hlp] at this
    rw [hd]
    refine this.trans (le_of_eq ?_)
    ring

/-- C83, the covariance: the value of `Cov` of at least two points is off by at most `8·(N + 22)·2⁻⁵³·M₁·M₂`. -/
theorem C83_cov_accuracy (P : JFP.PowOK rnd64 pw) {cfg : Joint.Config ℚ} {c : Joint.Core ℚ}
    (hn : JFP.newCore (Arith.rounded rnd64 pw) cfg = .val (.ok c)) (hs : ∀ t ∈ cfg.sums.getD [], ∀ k ∈ t, k ≤ 65)
    (hi : NoCollision (cfg.sums.getD [])) (hw : cfg.window = some 0) (hd : cfg.decay = none) (hv : Joint.varsOf cfg = 2)
    (ht : TracksZ (cfg.sums.getD []) [1, 1]) {M₁ M₂ : ℚ} (hM₁ : rnd64 M₁ = M₁)
    (hM₂ : rnd64 M₂ = M₂) (h₁ : 1 / 2 ^ 480 ≤ M₁) (h₂ : 1 / 2 ^ 480 ≤ M₂) (ops : List (MOp (List ℚ))) {N : Nat}
    (hN : (since (ops.filter (okArity 2))).length = N) (hlen : N ≤ 2 ^ 43) (hP : PowSq pw (1 / 2 ^ 53) (1 / 2 ^ 1075) N)
    (hx₁ : BoundedAt 0 M₁ (since (ops.filter (okArity 2)))) (hx₂ : BoundedAt 1 M₂ (since (ops.filter (okArity 2)))) (hne : 2 ≤ N) :
    ∃ e es v, JFP.run (Arith.rounded rnd64 pw) c ops = .val (e, es) ∧ JFP.covValue (Arith.rounded rnd64 pw) e = .ok v ∧
      |v - sampleCov (since (ops.filter (okArity 2)))| ≤ 8 * (N + 22) * (1 / 2 ^ 53) * (M₁ * M₂) := by
  obtain ⟨e, es, s, r, hcnt, hsum, hb⟩ := C83_sum_accuracy P hn hs hi hw hd (n := 2) (by exact_mod_cast hv) (i := 0) (j := 1) (by omega) (by omega) ht
    hM₁ hM₂ h₁ h₂ ops hN hlen hP hx₁ hx₂ (by omega)
  have hv : JFP.covValue (Arith.rounded rnd64 pw) e = .ok (rnd64 (s / (N - 1))) := by
    have e1 : rnd64 ((N : Int) : ℚ) = N := by
      rw [Int.cast_natCast]; exact rnd64_nat (by omega)
    have e2 : rnd64 ((N : ℚ) - 1) = N - 1 := by
      have := rnd64_nat (n := N - 1) (by omega)
      rwa [Nat.cast_sub (by omega), Nat.cast_one] at this
    have hsum' : JFP.sum e [1, 1] = .ok s := hsum
    simp only [JFP.covValue, hsum', hcnt, Arith.rounded, Int.cast_one, rounding_rnd64.one, e1, e2]
  refine ⟨e, es, _, r, hv, ?_⟩
  have hcov : sampleCov (since (ops.filter (okArity 2))) = crossSum 0 1 (since (ops.filter (okArity 2))) / (N - 1) := by
    rw [← hN]; rfl
  rw [hcov]
  have S := small2_64 h₁ h₂ hlen
  have hE := accuracy_rnd64 (s / ((N : ℚ) - 1))
  have hS1 := cpair_le S.fst.M0 S.snd.M0 (ps := JFP.pairs 0 0 1 (since (ops.filter (okArity 2))))
    (fun p hp => ⟨(boundedPairs64 hx₁ hx₂ p hp).1.2, (boundedPairs64 hx₁ hx₂ p hp).2.2⟩)
  rw [cpair_pairs, show (JFP.pairs (0 : ℚ) 0 1 (since (ops.filter (okArity 2)))).length = N by simp [JFP.pairs, hN]] at hS1
  have hn2 : (2 : ℚ) ≤ N := by exact_mod_cast hne
  have hnu := S.fst.Nu
  have hu1 := S.fst.u1
  have htM := S.prod
  have hMM : 0 ≤ M₁ * M₂ := mul_nonneg S.fst.M0 S.snd.M0
  generalize (1 : ℚ) / 2 ^ 53 = u at *
  generalize (1 : ℚ) / 2 ^ 1075 = t at *
  have hu := S.fst.u0
  have hU : 0 ≤ u * (M₁ * M₂) := mul_nonneg hu hMM
  set n : ℚ := (N : ℚ)
  set Q := crossSum 0 1 (since (ops.filter (okArity 2)))
  have hn1 : 0 < n - 1 := by linarith
  have hd1 : |s / (n - 1) - Q / (n - 1)| ≤ 8 * (n + 20) * (u * (M₁ * M₂)) := by
    rw [← sub_div, abs_div, abs_of_pos hn1, div_le_iff₀ hn1]
    refine hb.trans ?_
    have : 4 * n * ((n + 20) * (u * (M₁ * M₂))) ≤ 8 * (n - 1) * ((n + 20) * (u * (M₁ * M₂))) :=
      mul_le_mul_of_nonneg_right (by linarith) (by positivity)
    linarith
  have hQ : |Q / (n - 1)| ≤ 8 * (M₁ * M₂) := by
    rw [abs_div, abs_of_pos hn1, div_le_iff₀ hn1]
    have : n * (M₁ * M₂) ≤ 2 * (n - 1) * (M₁ * M₂) := mul_le_mul_of_nonneg_right (by linarith) hMM
    linarith
  have hq : |s / (n - 1)| ≤ 8 * (n + 20) * (u * (M₁ * M₂)) + 8 * (M₁ * M₂) := by
    rw [abs_le] at hd1 hQ ⊢
    constructor <;> linarith
  have h3 := mul_le_mul_of_nonneg_left hq hu
  have h4 : u * (8 * (n + 20) * (u * (M₁ * M₂))) ≤ (8 + 160) * (u * (M₁ * M₂)) / 1024 := by
    have a := mul_le_mul_of_nonneg_right hnu hU
    have b := mul_le_mul_of_nonneg_right hu1 hU
    linarith
  have h5 : t ≤ u * (M₁ * M₂) / 1024 := by
    have b := mul_le_mul_of_nonneg_right hu1 hU
    linarith
  have h6 := abs_add_le (rnd64 (s / (n - 1)) - s / (n - 1)) (s / (n - 1) - Q / (n - 1))
  rw [sub_add_sub_cancel] at h6
  linarith

/-- C83, any window, in binary64: the sum of products differs from that of the `L` points in the window by at most
`250·N·L·2⁻⁵³·M₁·M₂`, where `N` points were pushed since `Clear` and the bounds hold for all of them. -/
theorem C83_window_drift (P : JFP.PowOK rnd64 pw) {cfg : Joint.Config ℚ} {c : Joint.Core ℚ}
    (hn : JFP.newCore (Arith.rounded rnd64 pw) cfg = .val (.ok c)) (hs : ∀ t ∈ cfg.sums.getD [], ∀ k ∈ t, k ≤ 65)
    (hi : NoCollision (cfg.sums.getD [])) {w : Nat} (hw : cfg.window = some (w : Int)) (hov : 2 ≤ w → NoOverlapZ (cfg.sums.getD []))
    (hd : cfg.decay = none) {n : Nat} (hv : Joint.varsOf cfg = n) {i j : Nat}
    (hij : i < j) (hj : j < n) (ht : TracksZ (cfg.sums.getD []) (((List.replicate n 0).set i 1).set j 1)) {M₁ M₂ : ℚ}
    (h₁ : 1 / 2 ^ 480 ≤ M₁) (h₂ : 1 / 2 ^ 480 ≤ M₂) (ops : List (MOp (List ℚ))) {N : Nat}
    (hN : (since (ops.filter (okArity n))).length = N) (hlen : N ≤ 2 ^ 43) (hP : PowSq pw (1 / 2 ^ 53) (1 / 2 ^ 1075) N)
    (hx₁ : BoundedAt i M₁ (since (ops.filter (okArity n)))) (hx₂ : BoundedAt j M₂ (since (ops.filter (okArity n)))) (hne : N ≠ 0) :
    ∃ e es v, JFP.run (Arith.rounded rnd64 pw) c ops = .val (e, es) ∧ JFP.sum e (((List.replicate n 0).set i 1).set j 1) = .ok v ∧
      |v - crossSum i j (windowOf w (ops.filter (okArity n)))| ≤ 250 * N * (windowOf w (ops.filter (okArity n))).length * (1 / 2 ^ 53) * (M₁ * M₂) := by
  obtain ⟨e, r, hc, -, -, h⟩ := joint_second rounding_rnd64 P hn hs hi hw hov (by simp [hd]) hv ops
  have hne' : since (ops.filter (okArity n)) ≠ [] := by
    intro h
    rw [h] at hN
    exact hne hN.symm
  refine ⟨e, _, _, r, h i j hij hj ht hne', ?_⟩
  have hlp : (JFP.pairs 0 i j (since (ops.filter (okArity n)))).length = N := by simp [JFP.pairs, hN]
  have := pairS_linear (pw := pw) rounding_rnd64 accuracy_rnd64 (fun a b => accuracy_rnd64 (a * b)) (N := N) (fun m h => rnd64_nat (by omega))
    (small2_64 h₁ h₂ hlen) hP w
    (JFP.pairs 0 i j (since (ops.filter (okArity n)))) hlp.le (boundedPairs64 hx₁ hx₂)
  have hl : lastN w (JFP.pairs 0 i j (since (ops.filter (okArity n)))) = JFP.pairs 0 i j (windowOf w (ops.filter (okArity n))) :=
    JFP.lastN_map _ _ _
  rw [hl, cpair_pairs, hlp, show ∀ xs : List (List ℚ), (JFP.pairs 0 i j xs).length = xs.length from fun xs => by simp [JFP.pairs]] at this
  rw [hd]
  refine this.trans (le_of_eq ?_)
  ring

/-- C83, the sums of squares of a joint core, any window: those of `Core` on the column, hence with the bounds of C82. -/
theorem C83_square_drift (P : JFP.PowOK rnd64 pw) {cfg : Joint.Config ℚ} {c : Joint.Core ℚ}
    (hn : JFP.newCore (Arith.rounded rnd64 pw) cfg = .val (.ok c)) (hs : ∀ t ∈ cfg.sums.getD [], ∀ k ∈ t, k ≤ 65)
    (hi : NoCollision (cfg.sums.getD [])) {w : Nat} (hw : cfg.window = some (w : Int)) (hov : 2 ≤ w → NoOverlapZ (cfg.sums.getD []))
    (hd : cfg.decay = none) {n : Nat} (hv : Joint.varsOf cfg = n) {i : Nat} (hin : i < n)
    (ht : TracksZ (cfg.sums.getD []) ((List.replicate n 0).set i 2)) {M : ℚ} (hM : 1 / 2 ^ 480 ≤ M) (ops : List (MOp (List ℚ))) {N : Nat}
    (hN : (since (ops.filter (okArity n))).length = N) (hlen : N ≤ 2 ^ 43) (hP : PowSq pw (1 / 2 ^ 53) (1 / 2 ^ 1075) N)
    (hx : BoundedAt i M (since (ops.filter (okArity n)))) (hne : N ≠ 0) :
    ∃ e es v, JFP.run (Arith.rounded rnd64 pw) c ops = .val (e, es) ∧ JFP.sum e ((List.replicate n 0).set i 2) = .ok v ∧
      |v - csum 2 (coord i (windowOf w (ops.filter (okArity n))))| ≤ 250 * N * (windowOf w (ops.filter (okArity n))).length * (1 / 2 ^ 53) * M ^ 2 := by
  obtain ⟨c', hc'⟩ := moment_companion _ hn
  obtain ⟨e, es, e', r, r', hm⟩ := C74_square_partial rounding_rnd64 P hn hs hi hw hov hc' (by simp)
    ⟨2, by simp, le_rfl⟩ rfl rfl (by simp [hd]) hv hin ht ops
  have hcol : since (columnOps (0 : ℚ) i n ops) = coord i (since (ops.filter (okArity n))) := since_columnOps _ _ _ _
  have hwin : windowOf w (columnOps (0 : ℚ) i n ops) = coord i (windowOf w (ops.filter (okArity n))) := by
    unfold windowOf
    rw [hcol]
    exact JFP.lastN_map _ _ _
  have hcl : (since (columnOps (0 : ℚ) i n ops)).length = N := by simp [hcol, coord, hN]
  obtain ⟨e2, v, r2, h1, h2⟩ := C82_window_drift hc' hw hd (by simp) ⟨2, by simp, le_rfl⟩ hM (columnOps 0 i n ops) (by rw [hcl]; exact hlen)
    (by rw [hcl]; exact hP) (by
      rw [hcol]
      intro y hy
      obtain ⟨x, hx', rfl⟩ := List.mem_map.1 hy
      exact hx x hx') (by
      intro h
      rw [h] at hcl
      exact hne hcl.symm)
  rw [r'] at r2
  simp only [Go.val.injEq, Prod.mk.injEq, and_true] at r2
  subst r2
  rw [hwin, hcl, coord, List.length_map, ← coord] at h2
  exact ⟨e, es, v, r, (hm v).2 h1, h2⟩

end

/-- The bounds cannot be relative to the spread of the data: on the points (2^53, 2^53), (2^53 + 2, 2^53 + 2) twice, the sum of products is 8/3
and the computed one is about 14/3. -/
theorem C83_not_relative : ∃ (c e : Joint.Core ℚ) (v : ℚ), JFP.newCore Arith.b64 ⟨some [[1, 1]], some 0, none, none⟩ = .val (.ok c) ∧
    JFP.run Arith.b64 c [.push [9007199254740992, 9007199254740992], .push [9007199254740994, 9007199254740994],
      .push [9007199254740994, 9007199254740994]] = .val (e, []) ∧
    crossSum 0 1 [[9007199254740992, 9007199254740992], [9007199254740994, 9007199254740994], [9007199254740994, 9007199254740994]] = 8 / 3 ∧
    JFP.sum e [1, 1] = .ok v ∧ 7 / 4 * (8 / 3) - 1 / 10 ^ 10 < v := by
  have h : jObs Arith.b64 ⟨some [[1, 1]], some 0, none, none⟩ [.push [9007199254740992, 9007199254740992],
      .push [9007199254740994, 9007199254740994], .push [9007199254740994, 9007199254740994]] [[1, 1]] =
      some (([.ok (2627099782632789 / 562949953421312)], .ok 9007199254740992, .ok 9007199254740992), 3, []) := by decide +kernel
  obtain ⟨c, e, h1, h2, h3, -⟩ := jObs_run h
  refine ⟨c, e, 2627099782632789 / 562949953421312, h1, h2, by norm_num [crossSum, Spec.mean, coord], ?_, ?_⟩
  · exact (List.cons.inj h3).1
  · decide +kernel

/-- The hypotheses hold for a core of `Cov` in binary64 with coordinates up to 1000 and 10: a million points give a covariance that is right up to
0.00001. -/
example : rnd64 1000 = 1000 ∧ rnd64 10 = 10 ∧ JFP.PowOK rnd64 (fun x k => rnd64 (x ^ k)) ∧ NoCollision [[1, 1]] ∧ TracksZ [[1, 1]] [1, 1] ∧
    PowSq (fun x k => rnd64 (x ^ k)) (1 / 2 ^ 53) (1 / 2 ^ 1075) (10 ^ 6) ∧ (8 : ℚ) * (10 ^ 6 + 22) * (1 / 2 ^ 53) * (1000 * 10) ≤ 1 / 10 ^ 5 :=
  ⟨by decide +kernel, by decide +kernel, powOK64, noCollision_of_small (n := 2) (by omega) (by simp) (by simp [Moderate]), ⟨[1, 1], by simp, by decide⟩,
    powSq64 (by norm_num), by norm_num⟩

end Verif.Props
