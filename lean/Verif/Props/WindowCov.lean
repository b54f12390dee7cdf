import Verif.Props.WindowRatios

/-! # C110: `Cov`, `Autocov` and the variance with a window

C109 bounds the errors of the ratios `Std`, `Corr` and `Autocorr` for data that vary enough. Here the errors of `Cov`, `Autocov` and `Moment` of order 2
are bounded for all data: by the number of pushes since the last `Clear` and the size of the values, whatever the window. As soon as the exact
result is larger than the bound, the computed one has the right sign. -/

namespace Verif.Props
open Verif Verif.Spec Verif.FP

/-- The bound on the errors: `N` pushes since the last `Clear`, products of size at most `B`. -/
def covDrift (N : Nat) (B : ℚ) : ℚ := 505 * N * (1 / 2 ^ 53) * B

section
variable {pw : ℚ → Nat → ℚ}

theorem lastN_subset {α : Type} (w : Nat) (xs : List α) : lastN w xs ⊆ xs := by
  unfold lastN
  split
  · exact List.Subset.refl _
  · exact List.drop_subset _ _

theorem noOverlap_autocov (w : Nat) : NoOverlapZ ((JFP.autoConfig ℚ false w).sums.getD []) := by
  have e : (JFP.autoConfig ℚ false w).sums.getD [] = [[1, 1]] := rfl
  unfold NoOverlapZ
  rw [e]
  exact List.pairwise_singleton _ _

/-- The last step: the quotient of the sum and `L - 1`. -/
theorem quot_drift {N L : Nat} (hL : 2 ≤ L) (hLN : L ≤ N) {B Q s : ℚ} (hB : 0 ≤ B) (ht : 1 / 2 ^ 1075 ≤ 1 / 2 ^ 53 * (1 / 2 ^ 53) * B)
    (h : |s - Q| ≤ 250 * N * L * (1 / 2 ^ 53) * B) (hQ : |Q| ≤ L * (4 * B)) :
    |rnd64 (s / (L - 1)) - Q / (L - 1)| ≤ covDrift N B := by
  have hE := accuracy_rnd64 (s / ((L : ℚ) - 1))
  have hl2 : (2 : ℚ) ≤ L := by exact_mod_cast hL
  have hln : (L : ℚ) ≤ N := by exact_mod_cast hLN
  have hu1 : (1 : ℚ) / 2 ^ 53 ≤ 1 / 1024 := by norm_num
  have hu0 : (0 : ℚ) ≤ 1 / 2 ^ 53 := by positivity
  unfold covDrift
  generalize (1 : ℚ) / 2 ^ 53 = u at *
  generalize (1 : ℚ) / 2 ^ 1075 = t at *
  generalize (L : ℚ) = l at *
  generalize (N : ℚ) = n at *
  have hl1 : 0 < l - 1 := by linarith
  have hU : 0 ≤ u * B := mul_nonneg hu0 hB
  have hn : 0 ≤ n * (l - 1) * (u * B) := by
    have : 0 ≤ n := by linarith
    positivity
  have hl2' : l * (u * B) ≤ 2 * ((l - 1) * (u * B)) := by
    have := mul_le_mul_of_nonneg_right (show l ≤ 2 * (l - 1) by linarith) hU
    linarith
  have hnl : n * l * (u * B) ≤ 2 * (n * (l - 1) * (u * B)) := by
    have := mul_le_mul_of_nonneg_left hl2' (show 0 ≤ n by linarith)
    linarith
  have h2n : 2 * ((l - 1) * (u * B)) ≤ n * (l - 1) * (u * B) := by
    have := mul_le_mul_of_nonneg_right (show 2 ≤ n by linarith) (mul_nonneg hl1.le hU)
    linarith
  have hs : |s| ≤ 250 * (n * l) * (u * B) + 4 * l * B := by
    have := abs_add_le (s - Q) Q
    rw [sub_add_cancel] at this
    linarith
  have e1 : |rnd64 (s / (l - 1)) - Q / (l - 1)| ≤ u * |s / (l - 1)| + t + |s / (l - 1) - Q / (l - 1)| :=
    (abs_sub_le _ _ _).trans (by linarith)
  refine e1.trans ?_
  rw [← sub_div, abs_div, abs_div, abs_of_pos hl1, ← mul_le_mul_iff_of_pos_right hl1]
  have e2 : (u * (|s| / (l - 1)) + t + |s - Q| / (l - 1)) * (l - 1) = u * |s| + t * (l - 1) + |s - Q| := by field_simp
  rw [e2]
  have e3 := mul_le_mul_of_nonneg_left hs hu0
  have e4 := mul_le_mul_of_nonneg_right ht hl1.le
  have e5 : u * (250 * (n * l) * (u * B)) ≤ 1 / 1024 * (250 * (n * l) * (u * B)) :=
    mul_le_mul_of_nonneg_right hu1 (by have : 0 ≤ n := by linarith
                                       positivity)
  have e6 : u * u * B * (l - 1) ≤ (l - 1) * (u * B) / 1024 := by
    have := mul_le_mul_of_nonneg_right hu1 (mul_nonneg hl1.le hU)
    linarith
  linarith

/-- A number within `δ` of one larger than `δ` has the same sign. -/
theorem sign_of_close {v q δ : ℚ} (h : |v - q| ≤ δ) (hq : δ < |q|) : (0 < v ↔ 0 < q) ∧ (v < 0 ↔ q < 0) := by
  have h1 := abs_le.1 h
  rcases abs_cases q with ⟨h2, h3⟩ | ⟨h2, h3⟩ <;> refine ⟨⟨fun _ => ?_, fun _ => ?_⟩, ⟨fun _ => ?_, fun _ => ?_⟩⟩ <;> linarith

/-- C110, `Moment` of order 2 with a window, in binary64. -/
theorem C110_variance {cfg : Moment.Config ℚ} {c : Moment.Core ℚ} (hn : newCore (Arith.rounded rnd64 pw) cfg = .ok c) {w : Nat}
    (hw : cfg.window = some (w : Int)) (hd : cfg.decay = none) (hs : ∀ k ∈ cfg.sums.getD [], k ≤ 65) (h2 : ∃ k ∈ cfg.sums.getD [], 2 ≤ k)
    (ops : List (MOp ℚ)) {N L : Nat} (hN : (since ops).length = N) (hLw : (windowOf w ops).length = L) (hlen : N ≤ 2 ^ 43)
    (hP : PowSq pw (1 / 2 ^ 53) (1 / 2 ^ 1075) N) {M : ℚ} (hM : 1 / 2 ^ 480 ≤ M) (hx : ∀ x ∈ since ops, rnd64 x = x ∧ |x| ≤ M) (hL : 2 ≤ L) :
    ∃ c' v, run (Arith.rounded rnd64 pw) c ops = .val (c', []) ∧ momentValue (Arith.rounded rnd64 pw) c' 2 = .ok v ∧
      |v - sampleMoment 2 (windowOf w ops)| ≤ covDrift N (M * M) ∧ (covDrift N (M * M) < sampleMoment 2 (windowOf w ops) → 0 < v) := by
  have hLN : L ≤ N := by
    rw [← hLw, ← hN, windowOf]
    exact lastN_le _ _
  obtain ⟨c', s, r, k, b⟩ := C82_window_drift hn hw hd hs h2 hM ops (by rw [hN]; exact hlen) (by rw [hN]; exact hP) hx (by
      intro h
      rw [h] at hN
      simp at hN
      omega)
  rw [hN, hLw] at b
  have hcnt : c'.count = (L : Int) := by
    obtain ⟨w2, c2, hw2, r2, hcnt, -⟩ := C64_any_arithmetic _ hn hs ops
    rw [r] at r2
    simp only [Go.val.injEq, Prod.mk.injEq, and_true] at r2
    subst r2
    have : w2 = w := by
      rw [hw] at hw2
      have := Option.some.inj hw2
      omega
    rw [hcnt, this, hLw]
  have hv : momentValue (Arith.rounded rnd64 pw) c' 2 = .ok (rnd64 (s / (L - 1))) := by
    have e1 : rnd64 ((L : Int) : ℚ) = L := by
      rw [Int.cast_natCast]; exact rnd64_nat (by omega)
    have e2 : rnd64 ((L : ℚ) - 1) = L - 1 := by
      have := rnd64_nat (n := L - 1) (by omega)
      rwa [Nat.cast_sub (by omega), Nat.cast_one] at this
    have k' : sum c' 2 = .ok s := k
    simp only [momentValue, k', hcnt, Arith.rounded, Int.cast_one, rounding_rnd64.one, e1, e2]
  refine ⟨c', _, r, hv, ?_⟩
  suffices h : |rnd64 (s / (L - 1)) - sampleMoment 2 (windowOf w ops)| ≤ covDrift N (M * M) from
    ⟨h, fun h1 => by linarith [(abs_le.1 h).1]⟩
  have hm : sampleMoment 2 (windowOf w ops) = csum 2 (windowOf w ops) / (L - 1) := by
    rw [← hLw]; rfl
  rw [hm]
  have S := small64 hM hlen
  refine quot_drift hL hLN (mul_nonneg S.M0 S.M0) S.tMM (b.trans (le_of_eq (by ring))) ?_
  rw [abs_of_nonneg (FP.csum_two_nonneg _)]
  refine (FP.csum_two_le (xs := windowOf w ops) S.M0 fun x h => (hx x (lastN_subset _ _ h)).2).trans ?_
  rw [hLw]
  have : 0 ≤ (L : ℚ) * (M * M) := mul_nonneg (Nat.cast_nonneg _) (mul_nonneg S.M0 S.M0)
  linarith

/-- C110, `Cov` with a window, in binary64. -/
theorem C110_cov (P : JFP.PowOK rnd64 pw) {cfg : Joint.Config ℚ} {c : Joint.Core ℚ}
    (hn : JFP.newCore (Arith.rounded rnd64 pw) cfg = .val (.ok c)) (hs : ∀ t ∈ cfg.sums.getD [], ∀ k ∈ t, k ≤ 65)
    (hi : NoCollision (cfg.sums.getD [])) {w : Nat} (hw : cfg.window = some (w : Int)) (hov : 2 ≤ w → NoOverlapZ (cfg.sums.getD []))
    (hd : cfg.decay = none) (hv : Joint.varsOf cfg = 2) (ht : TracksZ (cfg.sums.getD []) [1, 1]) {M₁ M₂ : ℚ}
    (h₁ : 1 / 2 ^ 480 ≤ M₁) (h₂ : 1 / 2 ^ 480 ≤ M₂) (ops : List (MOp (List ℚ))) {N L : Nat}
    (hN : (since (ops.filter (okArity 2))).length = N) (hLw : (windowOf w (ops.filter (okArity 2))).length = L) (hlen : N ≤ 2 ^ 43)
    (hP : PowSq pw (1 / 2 ^ 53) (1 / 2 ^ 1075) N) (hx₁ : BoundedAt 0 M₁ (since (ops.filter (okArity 2))))
    (hx₂ : BoundedAt 1 M₂ (since (ops.filter (okArity 2)))) (hL : 2 ≤ L) :
    ∃ e es v, JFP.run (Arith.rounded rnd64 pw) c ops = .val (e, es) ∧ JFP.covValue (Arith.rounded rnd64 pw) e = .ok v ∧
      |v - sampleCov (windowOf w (ops.filter (okArity 2)))| ≤ covDrift N (M₁ * M₂) ∧
      (covDrift N (M₁ * M₂) < |sampleCov (windowOf w (ops.filter (okArity 2)))| →
        (0 < v ↔ 0 < sampleCov (windowOf w (ops.filter (okArity 2)))) ∧ (v < 0 ↔ sampleCov (windowOf w (ops.filter (okArity 2))) < 0)) := by
  have hLN : L ≤ N := by
    rw [← hLw, ← hN, windowOf]
    exact lastN_le _ _
  obtain ⟨e, es, s, r, k, b⟩ := C83_window_drift P hn hs hi hw hov hd (n := 2) (by exact_mod_cast hv) (i := 0) (j := 1) (by omega) (by omega) ht
    h₁ h₂ ops hN hlen hP hx₁ hx₂ (by omega)
  rw [hLw] at b
  obtain ⟨e', r', hc', -⟩ := joint_second rounding_rnd64 P hn hs hi hw hov (by simp [hd]) (n := 2) (by exact_mod_cast hv) ops
  rw [r] at r'
  simp only [Go.val.injEq, Prod.mk.injEq] at r'
  obtain ⟨rfl, rfl⟩ := r'
  rw [hLw] at hc'
  have hv : JFP.covValue (Arith.rounded rnd64 pw) e = .ok (rnd64 (s / (L - 1))) := by
    have e1 : rnd64 ((L : Int) : ℚ) = L := by
      rw [Int.cast_natCast]; exact rnd64_nat (by omega)
    have e2 : rnd64 ((L : ℚ) - 1) = L - 1 := by
      have := rnd64_nat (n := L - 1) (by omega)
      rwa [Nat.cast_sub (by omega), Nat.cast_one] at this
    have k' : JFP.sum e [1, 1] = .ok s := k
    simp only [JFP.covValue, k', hc', Arith.rounded, Int.cast_one, rounding_rnd64.one, e1, e2]
  refine ⟨e, _, _, r, hv, ?_⟩
  suffices h : |rnd64 (s / (L - 1)) - sampleCov (windowOf w (ops.filter (okArity 2)))| ≤ covDrift N (M₁ * M₂) from ⟨h, sign_of_close h⟩
  have hcov : sampleCov (windowOf w (ops.filter (okArity 2))) = crossSum 0 1 (windowOf w (ops.filter (okArity 2))) / (L - 1) := by
    rw [← hLw]; rfl
  rw [hcov]
  have S := small2_64 h₁ h₂ hlen
  refine quot_drift hL hLN (mul_nonneg S.fst.M0 S.snd.M0) S.prod b ?_
  have hsub : ∀ p ∈ windowOf w (ops.filter (okArity 2)), p ∈ since (ops.filter (okArity 2)) := fun p hp => lastN_subset _ _ hp
  have := cpair_le S.fst.M0 S.snd.M0 (ps := JFP.pairs 0 0 1 (windowOf w (ops.filter (okArity 2))))
    (fun p hp => by
      have := boundedPairs64 (fun x hx => hx₁ x (hsub x hx)) (fun x hx => hx₂ x (hsub x hx)) p hp
      exact ⟨this.1.2, this.2.2⟩)
  rwa [cpair_pairs, show (JFP.pairs (0 : ℚ) 0 1 (windowOf w (ops.filter (okArity 2)))).length = L by simp [JFP.pairs, hLw]] at this

/-- C110, `Autocov` with a window, in binary64: `N` lagged pairs since the last `Clear`, `L` of them in the window. -/
theorem C110_autocov (P : JFP.PowOK rnd64 pw) (lag w : Nat) (sqrt : ℚ → ℚ) {M : ℚ} (hM : 1 / 2 ^ 480 ≤ M) (ops : List (MOp ℚ)) {N L : Nat}
    (hN : (since ops).length = N + lag) (hLw : (lastN w (lagged lag (since ops))).length = L) (hlen : N ≤ 2 ^ 43)
    (hP : PowSq pw (1 / 2 ^ 53) (1 / 2 ^ 1075) N) (hx : ∀ x ∈ since ops, rnd64 x = x ∧ |x| ≤ M) (hL : 2 ≤ L) :
    ∃ v, aObs (Arith.rounded rnd64 pw) false lag w sqrt ops = some (.ok v, []) ∧
      |v - sampleCov (lastN w (lagged lag (since ops)))| ≤ covDrift N (M * M) ∧
      (covDrift N (M * M) < |sampleCov (lastN w (lagged lag (since ops)))| →
        (0 < v ↔ 0 < sampleCov (lastN w (lagged lag (since ops)))) ∧ (v < 0 ↔ sampleCov (lastN w (lagged lag (since ops))) < 0)) := by
  have hl : (lagged lag (since ops)).length = N := by rw [lagged_length]; omega
  have hLN : L ≤ N := by
    rw [← hLw, ← hl]
    exact lastN_le _ _
  obtain ⟨c, hn⟩ := JFP.auto_newCore (Arith.rounded rnd64 pw) false w
  have hs := JFP.filter_pushes (JFP.lagged_arity lag (since ops))
  have hb : ∀ i, i < 2 → BoundedAt i M (lagged lag (since ops)) := by
    intro i hi p hp
    obtain ⟨x, h2, y, h3, rfl⟩ := lagged_mem hp
    match i with
    | 0 => exact hx x h2
    | 1 => exact hx y h3
    | i + 2 => omega
  obtain ⟨e, es, v, r, hv, hb⟩ := C110_cov P hn (JFP.auto_exp false w) (noCollision_auto false w) (w := w) rfl (fun _ => noOverlap_autocov w) rfl
    (JFP.auto_vars false w) ⟨[1, 1], by simp [JFP.autoConfig], by decide⟩ hM hM ((lagged lag (since ops)).map MOp.push) (N := N) (L := L)
    (by rw [hs, JFP.since_pushes]; exact hl) (by rw [hs, windowOf, JFP.since_pushes]; exact hLw) hlen hP
    (by rw [hs, JFP.since_pushes]; exact hb 0 (by omega)) (by rw [hs, JFP.since_pushes]; exact hb 1 (by omega)) hL
  rw [hs, windowOf, JFP.since_pushes] at hb
  refine ⟨v, ?_, hb⟩
  have := aObs_eq (Arith.rounded rnd64 pw) (corr := false) (lag := lag) (w := w) (sqrt := sqrt) (ops := ops) hn r (by omega)
  rw [if_neg (by simp), hv] at this
  exact this

end

/-- C110, the bound has to take the values that have left the window into account: after (2⁶⁰, 2⁶⁰) the window of three only ever holds (1, 3), (2, 2),
(3, 1), with covariance -1, and `Cov` is 1281 for ever. -/
theorem C110_cov_outlier_forever (k : Nat) :
    ∃ c e : Joint.Core ℚ, JFP.newCore Arith.b64 ⟨some [[1, 1]], some 3, none, none⟩ = .val (.ok c) ∧
      JFP.run Arith.b64 c ((outliers k).map .push) = .val (e, []) ∧ JFP.covValue Arith.b64 e = .ok 1281 ∧
      windowOf 3 ((outliers k).map .push) = [[1, 3], [2, 2], [3, 1]] ∧ sampleCov [[(1 : ℚ), 3], [2, 2], [3, 1]] = -1 := by
  have hl : ∀ x ∈ outliers k, x.length = 2 := by
    intro x hx
    simp only [outliers, List.mem_append, List.mem_flatten, List.mem_replicate] at hx
    rcases hx with hx | ⟨l, ⟨-, rfl⟩, hx⟩ <;>
    · simp only [List.mem_cons, List.not_mem_nil, or_false] at hx
      rcases hx with rfl | rfl | rfl | rfl <;> rfl
  have hs0 : since ((outliers k).map MOp.push) = outliers k := JFP.since_pushes _
  have hf : ((outliers k).map MOp.push).filter (okArity 2) = (outliers k).map MOp.push := JFP.filter_pushes hl
  have hw : windowOf 3 ((outliers k).map MOp.push) = [[1, 3], [2, 2], [3, 1]] := by
    rw [windowOf, hs0, outliers, flatten_lastN (by omega) (by decide +kernel)]
    decide +kernel
  obtain ⟨c, hn⟩ : ∃ c, JFP.newCore Arith.b64 ⟨some [[1, 1]], some 3, none, none⟩ = .val (.ok c) := by
    obtain ⟨c, hn⟩ := JFP.auto_newCore Arith.b64 false 3
    exact ⟨c, hn⟩
  obtain ⟨e, r, hcnt, -, -, h11⟩ := joint_second rounding_rnd64 powOK64 (cfg := ⟨some [[1, 1]], some 3, none, none⟩) hn
    (JFP.auto_exp false 3) (noCollision_auto false 3) (w := 3) rfl (fun _ => noOverlap_autocov 3) (by simp) (n := 2) rfl ((outliers k).map MOp.push)
  have hne : outliers k ≠ [] := by simp [outliers]
  rw [hf, hs0] at h11
  rw [hf, hw] at hcnt
  have k11 := h11 0 1 (by omega) (by omega) ⟨[1, 1], by simp, by decide⟩ hne
  have he : JFP.arityErrors 2 ((outliers k).map MOp.push) = ([] : List Err) := arityErrors_pushes hl
  rw [he] at r
  have hm : memory2 Arith.b64 (fun a b => rnd64 (a * b)) 3 (JFP.pairs 0 0 1 (outliers k)) =
      ([(1, 3), (2, 2), (3, 1)], (3072768495757995 / 70368744177664, 5455043689272661 / 2199023255552), (43, 2646), 2562) := by
    have : JFP.pairs 0 0 1 (outliers k) = [(2 ^ 60, 2 ^ 60), (1, 3), (2, 2), (3, 1)] ++ (List.replicate k [((1 : ℚ), (3 : ℚ)), (2, 2), (3, 1)]).flatten := by
      simp [outliers, JFP.pairs, List.map_flatten]
    rw [this, memory2_cycle (by omega) (by decide +kernel)]
    decide +kernel
  simp only [memory2, memory, Prod.mk.injEq] at hm
  obtain ⟨-, -, -, m11⟩ := hm
  have k11' : JFP.sum e [1, 1] = .ok 2562 := by rw [← m11]; exact k11
  refine ⟨c, e, hn, r, ?_, hw, by decide +kernel⟩
  simp only [JFP.covValue, k11', hcnt]
  congr 1
  change Arith.b64.div 2562 (Arith.b64.sub (Arith.b64.ofInt 3) (Arith.b64.ofInt 1)) = 1281
  decide +kernel

/-- The hypotheses hold for the points (9, 9), (1, 2), (3, 1), (2, 5), (7, 4) and a window of four; the covariance 4/3 is far above the bound, so `Cov`
is positive. -/
example : BoundedAt 0 9 [[9, 9], [1, 2], [3, 1], [2, 5], [7, 4]] ∧ BoundedAt 1 9 [[9, 9], [1, 2], [3, 1], [2, 5], [7, 4]] ∧
    (lastN 4 [[(9 : ℚ), 9], [1, 2], [3, 1], [2, 5], [7, 4]]).length = 4 ∧ PowSq (fun x k => rnd64 (x ^ k)) (1 / 2 ^ 53) (1 / 2 ^ 1075) 5 ∧
    covDrift 5 (9 * 9) < |sampleCov (lastN 4 [[(9 : ℚ), 9], [1, 2], [3, 1], [2, 5], [7, 4]])| ∧
    sampleCov (lastN 4 [[(9 : ℚ), 9], [1, 2], [3, 1], [2, 5], [7, 4]]) = 4 / 3 := by
  refine ⟨?_, ?_, by decide +kernel, powSq64 (by norm_num), by decide +kernel, by decide +kernel⟩ <;>
  · intro x hx
    simp only [List.mem_cons, List.not_mem_nil, or_false] at hx
    rcases hx with rfl | rfl | rfl | rfl | rfl <;> exact ⟨by decide +kernel, by decide +kernel⟩

end Verif.Props
