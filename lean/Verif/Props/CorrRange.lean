import Verif.Proofs.CorrRange
import Verif.Props.JointRounded

/-! # C75, range: how far `Corr` and `EWMCorr` leave [-1, 1] in binary64 -/

namespace Verif.Props
open Verif Verif.Spec
open Verif.FP (Arith Rounding rnd64)
open Verif.JFP (PowOK)

/-- C75, range, partial: without a window (which includes `EWMCorr`) `Corr` exceeds 1 in absolute value by at most (5 n + 12)·2^-53 after `n`
points, provided both sums of squares are at least 2^-511, whatever the points are. Missing: smaller sums (`C75_underflow_refuted`), windows
(`C75_window_range_refuted`) and overflow (`C75_overflow_refuted`). That the excess is not always zero is `C75_range_refuted`. -/
theorem C75_range_partial {pw : ℚ → Nat → ℚ} (P : PowOK rnd64 pw) (hsq : ∀ x, rnd64 x = x → pw x 2 = rnd64 (x * x)) {cfg : Joint.Config ℚ}
    {c : Joint.Core ℚ} (hc : CorrCore rnd64 pw cfg c) (hw : cfg.window = some 0) {sqrt : ℚ → ℚ}
    (hsqrt : ∀ q, 0 ≤ q → FP.SqrtOf rnd64 q (sqrt q)) (ops : List (MOp (List ℚ))) (hlen : (since (ops.filter (okArity 2))).length ≤ 2 ^ 40) :
    ∃ e es, JFP.run (Arith.rounded rnd64 pw) c ops = .val (e, es) ∧
      ∀ b d, JFP.sum e [2, 0] = .ok b → JFP.sum e [0, 2] = .ok d → FP.two (-511) ≤ b → FP.two (-511) ≤ d →
        ∃ v, JFP.corrValue (Arith.rounded rnd64 pw) sqrt e = .ok v ∧
          |v| ≤ 1 + (5 * (since (ops.filter (okArity 2))).length + 12) / 2 ^ 53 := by
  have R := FP.rounding_rnd64
  have hE := FP.accuracy_rnd64
  obtain ⟨n, w, hw', -, -, -, hdec, -⟩ := JFP.newCore_ok _ hc.new
  obtain rfl : w = 0 := by rw [hw] at hw'; injection hw' with h; exact_mod_cast h.symm
  obtain ⟨e, r, h0, h1⟩ := corr_sums R P hc hw ops
  refine ⟨e, _, r, fun b d hb hd tb td => ?_⟩
  set data := since (ops.filter (okArity 2)) with hdata
  have hne : data ≠ [] := by
    intro h
    rw [h0 _ h] at hb
    exact absurd hb (by simp)
  obtain ⟨s20, s02, s11⟩ := h1 hne
  have hm := fun l => JFP.pairS_mst R (pw := pw) (f := fun a b => rnd64 (a * b)) (fun x h => (hsq x h).symm) 0 cfg.decay l
  rw [← hm] at s20 s02
  set ps := JFP.pairs (0 : ℚ) 0 1 data with hps
  have hl : ps.length = data.length := by simp [hps, JFP.pairs]
  have m1 : (JFP.column (0 : ℚ) 0 data).map (fun x => (x, x)) = ps.map fun p => (p.1, p.1) := by simp [hps, JFP.pairs, JFP.column]
  have m2 : (JFP.column (0 : ℚ) 1 data).map (fun x => (x, x)) = ps.map fun p => (p.2, p.2) := by simp [hps, JFP.pairs, JFP.column]
  rw [m1, hb] at s20
  rw [m2, hd] at s02
  injection s20 with s20
  injection s02 with s02
  set N := data.length
  have hNq : (N : ℚ) ≤ 2 ^ 40 := by exact_mod_cast hlen
  have hN0 : (1 : ℚ) ≤ N := by exact_mod_cast List.length_pos_iff.2 hne
  have hdd : ∀ dd, cfg.decay = some dd → rnd64 dd = dd ∧ 0 ≤ dd ∧ dd ≤ 1 := by
    intro dd h
    obtain ⟨x, y, -⟩ := hdec dd h
    simp only [GoOrd.le, Arith.rounded, Int.cast_zero, Int.cast_one, R.zero, R.one, decide_eq_false_iff_not, not_le] at x y
    exact ⟨hc.decay dd h, x.le, y.le⟩
  set u : ℚ := 1 / 2 ^ 53 with hu
  set t : ℚ := 1 / 2 ^ 1075 with ht
  have hu0 : 0 ≤ u := by positivity
  have ht0 : 0 ≤ t := by positivity
  have htu : t ≤ u * u := by rw [hu, ht]; decide +kernel
  have hNu : (N : ℚ) * u ≤ 1 / 8192 := by
    have := mul_le_mul_of_nonneg_right hNq hu0
    refine this.trans ?_
    rw [hu]; norm_num
  obtain ⟨X₀, X, Y, hP, hX, hY, hC, ha, ⟨-, hb'⟩, -, hc'⟩ := FP.corr_cauchy (pw := pw) R hE hu0 (by rw [hu]; norm_num) ht0 htu hsq P.one (N := N)
    (fun n h => FP.rnd64_nat (by omega)) (by linarith) hdd ps (by omega)
  rw [← s20] at hb'
  rw [← s02] at hc'
  rw [hl] at ha hb' hc'
  set α := (1 + u) ^ (2 * N + 1) with hα
  set β := (1 - u) ^ (2 * N + 1) with hβ
  set y : ℚ := (2 * N + 1) * u with hy
  have hβy : 1 - y ≤ β := by
    have := one_add_mul_le_pow (a := -u) (by rw [hu]; norm_num) (2 * N + 1)
    push_cast at this
    rw [hβ, hy]
    rw [← sub_eq_add_neg] at this
    linarith
  have hα0 : 0 ≤ α := by positivity
  have hαβ : α * β ≤ 1 := by
    rw [hα, hβ, ← mul_pow]
    exact pow_le_one₀ (by rw [hu]; norm_num) (by rw [hu]; norm_num)
  have hy1 : y ≤ 1 / 256 := by
    rw [hy]
    have : u ≤ N * u := le_mul_of_one_le_left hu0 hN0
    linarith
  have hαy : α * (1 - y) ≤ 1 := (mul_le_mul_of_nonneg_left hβy hα0).trans hαβ
  have hα2 : (1 + u) ^ (2 * N) ≤ 2 := by
    have h1 : (1 + u) ^ (2 * N) ≤ α := pow_le_pow_right₀ (by linarith) (by omega)
    have h2 : α * (1 / 2) ≤ α * (1 - y) := mul_le_mul_of_nonneg_left (by linarith) hα0
    linarith
  have hτ : 6 * (N : ℚ) * t * (1 + u) ^ (2 * N) ≤ u * FP.two (-511) := by
    have h1 : 6 * (N : ℚ) * t * (1 + u) ^ (2 * N) ≤ 6 * 2 ^ 40 * t * 2 :=
      mul_le_mul (mul_le_mul_of_nonneg_right (by linarith) ht0) hα2 (by positivity) (by positivity)
    refine h1.trans ?_
    rw [hu, ht]
    decide +kernel
  have hT : 0 < FP.two (-511) := by rw [FP.two_eq]; positivity
  obtain ⟨hv, hq⟩ := FP.corr_quotient R hE hu0 ht0 htu hP hX hY hC ha hb' hc' hT tb td hτ (by rw [hu, ht]; decide +kernel)
    (by rw [hu, ht]; decide +kernel) (y := y) (by rw [hy]; nlinarith) hy1 hαy hα0 hβy
    (hsqrt _ (R.nonneg (mul_nonneg (hT.le.trans tb) (hT.le.trans td))))
  refine ⟨rnd64 (JFP.pairS (Arith.rounded rnd64 pw) (fun a b => rnd64 (a * b)) 0 cfg.decay ps / sqrt (rnd64 (b * d))), ?_, hq.trans ?_⟩
  · unfold JFP.corrValue
    rw [s11, hb, hd]
    rfl
  · have : (5 * (N : ℚ) + 12) / 2 ^ 53 = (5 * N + 12) * u := by rw [hu, mul_one_div]
    rw [this, hy]
    nlinarith

/-- The configurations of `Corr` without a window and of `EWMCorr` with decay 1/2 meet the hypotheses; for the points (0,0), (0,0), (5,15) the
sums of squares are above the bound. -/
example : (∃ c, JFP.newCore Arith.b64 ⟨some [[1, 1], [2, 0], [0, 2]], some 0, none, none⟩ = .val (.ok c) ∧
      CorrCore rnd64 (fun x k => rnd64 (x ^ k)) ⟨some [[1, 1], [2, 0], [0, 2]], some 0, none, none⟩ c) ∧
    (∃ c, JFP.newCore Arith.b64 ⟨some [[1, 1], [2, 0], [0, 2]], some 0, none, some (1 / 2)⟩ = .val (.ok c) ∧
      CorrCore rnd64 (fun x k => rnd64 (x ^ k)) ⟨some [[1, 1], [2, 0], [0, 2]], some 0, none, some (1 / 2)⟩ c) ∧
    FP.two (-511) ≤ 2345624805922133 / 140737488355328 := by
  refine ⟨?_, ?_, by decide +kernel⟩
  · have h : jObs Arith.b64 ⟨some [[1, 1], [2, 0], [0, 2]], some 0, none, none⟩ [.push [0, 0]] [] = some (([], .ok 0, .ok 0), 1, []) := by
      decide +kernel
    obtain ⟨c, e, h1, -⟩ := jObs_run h
    exact ⟨c, h1, corrCore_ok (by simp) h1⟩
  · have h : jObs Arith.b64 ⟨some [[1, 1], [2, 0], [0, 2]], some 0, none, some (1 / 2)⟩ [.push [0, 0]] [] = some (([], .ok 0, .ok 0), 1, []) := by
      decide +kernel
    obtain ⟨c, e, h1, -⟩ := jObs_run h
    exact ⟨c, h1, corrCore_ok (by rintro x ⟨⟩; decide +kernel) h1⟩

/-- C75, range with a window, is false by any margin: window 3 holding (1,0), (2,2), (1,1) after (804564, 846876518) was evicted; the correlation
of the three points is √3/2, and `Corr` is above 10⁷. -/
theorem C75_window_range_refuted {sqrt : ℚ → ℚ} (hsqrt : ∀ q, 0 ≤ q → FP.SqrtOf rnd64 q (sqrt q)) : ∃ (c e : Joint.Core ℚ) (v : ℚ),
    JFP.newCore Arith.b64 ⟨some [[1, 1], [2, 0], [0, 2]], some 3, none, none⟩ = .val (.ok c) ∧
    JFP.run Arith.b64 c [.push [804564, 846876518], .push [1, 0], .push [2, 2], .push [1, 1]] = .val (e, []) ∧
    JFP.corrValue Arith.b64 sqrt e = .ok v ∧ 10 ^ 7 < v := by
  have h : jObs Arith.b64 ⟨some [[1, 1], [2, 0], [0, 2]], some 3, none, none⟩
      [.push [804564, 846876518], .push [1, 0], .push [2, 2], .push [1, 1]] [[1, 1], [2, 0], [0, 2]] =
      some (([.ok (4503599716848981 / 4503599627370496), .ok (6004799503160661 / 9007199254740992),
        .ok (6004799503160661 / 2535301200456458802993406410752)], .ok (6004799503160661 / 4503599627370496),
        .ok (4503599806327467 / 4503599627370496)), 3, []) := by decide +kernel
  obtain ⟨c, e, h1, h2, h3, -⟩ := jObs_run h
  simp only [List.map_cons, List.map_nil, List.cons.injEq, and_true] at h3
  set q : ℚ := rnd64 (6004799503160661 / 9007199254740992 * (6004799503160661 / 2535301200456458802993406410752)) with hq
  have hs := hsqrt q (by rw [hq]; decide +kernel)
  have hlo := (hs (1 / 10 ^ 8) (by norm_num)).1 (by rw [hq]; decide +kernel)
  have hhi := (hs (1 / 25000000) (by norm_num)).2 (by rw [hq]; decide +kernel)
  have hpos : 0 < sqrt q := lt_of_lt_of_le (by decide +kernel) hlo
  have hle : sqrt q ≤ 1 / 20000000 := hhi.trans (by decide +kernel)
  refine ⟨c, e, rnd64 (4503599716848981 / 4503599627370496 / sqrt q), h1, h2, ?_, ?_⟩
  · unfold JFP.corrValue
    rw [h3.1, h3.2.1, h3.2.2]
    rfl
  · have hdiv : (20000000 : ℚ) ≤ 4503599716848981 / 4503599627370496 / sqrt q := by
      rw [le_div_iff₀ hpos]
      linarith
    refine lt_of_lt_of_le ?_ (FP.rounding_rnd64.mono hdiv)
    decide +kernel

set_option synthInstance.maxSize 512 in
set_option synthInstance.maxHeartbeats 200000 in
/-- C75, overflow: two points (0,0), (2^300,2^300): `Corr` is 0 in IEEE arithmetic, though the two variables are equal and not constant. -/
theorem C75_overflow_refuted (r : ℚ → ℚ) : ∃ c e : Joint.Core (XF ℚ),
    JFP.newCore Arith.ieee64 ⟨some [[1, 1], [2, 0], [0, 2]], some 0, none, none⟩ = .val (.ok c) ∧
    JFP.run Arith.ieee64 c [.push [.fin 0, .fin 0], .push [.fin (FP.two 300), .fin (FP.two 300)]] = .val (e, []) ∧
    JFP.corrValue Arith.ieee64 (XF.sqrt r) e = .ok (.fin 0) := by
  have h : jObs Arith.ieee64 ⟨some [[1, 1], [2, 0], [0, 2]], some 0, none, none⟩
      [.push [.fin 0, .fin 0], .push [.fin (FP.two 300), .fin (FP.two 300)]] [[1, 1], [2, 0], [0, 2]] =
      some (([.ok (.fin (FP.two 599)), .ok (.fin (FP.two 599)), .ok (.fin (FP.two 599))],
        .ok (.fin (FP.two 299)), .ok (.fin (FP.two 299))), 2, []) := by decide +kernel
  obtain ⟨c, e, h1, h2, h3, -⟩ := jObs_run h
  simp only [List.map_cons, List.map_nil, List.cons.injEq, and_true] at h3
  refine ⟨c, e, h1, h2, ?_⟩
  have hm : Arith.ieee64.mul (.fin (FP.two 599)) (.fin (FP.two 599)) = .inf false := by decide +kernel
  have hd : Arith.ieee64.div (.fin (FP.two 599)) (.inf false) = .fin 0 := by decide +kernel
  unfold JFP.corrValue
  rw [h3.1, h3.2.1, h3.2.2]
  simp only [hm, XF.sqrt, hd]

end Verif.Props
