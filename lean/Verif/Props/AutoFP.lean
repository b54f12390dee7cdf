import Verif.Proofs.AutoFP
import Verif.Props.JointOverflow
import Verif.Props.CorrAccuracy
import Verif.Props.Symmetry

/-! # C106: `Autocov` and `Autocorr` in floating-point arithmetic

Whatever the arithmetic, they are to the bit `Cov` and `Corr` of the pairs `(x_t, x_{t-lag})`, so what is known of these carries over. -/

namespace Verif.Props
open Verif Verif.Spec Verif.FP
open Verif.Joint (Tuple Auto)

section any
variable {F : Type} [GoOrd F] (A : Arith F)

/-- The sums that `Corr` and `Cov` ask for are there once there is a pair. -/
theorem auto_sums {corr : Bool} {w : Nat} {ps : List (List F)} {e : Joint.Core F}
    (B : JFP.Book 2 w none ((JFP.autoConfig F corr w).sums.getD []) ps e) (hne : ps ≠ []) :
    (∃ v, JFP.sum e [1, 1] = .ok v) ∧ (corr = true → (∃ v, JFP.sum e [2, 0] = .ok v) ∧ ∃ v, JFP.sum e [0, 2] = .ok v) := by
  have key : ∀ t : Tuple, t ∈ (JFP.autoConfig F corr w).sums.getD [] → (∀ k ∈ t, 0 ≤ k) → ∃ v, JFP.sum e t = .ok v := by
    intro t ht hk
    have h := (B.keys (Joint.hash t)).2 ⟨t, ht, t, by
      unfold Joint.Under
      exact List.forall₂_same.2 fun k h => ⟨hk k h, le_refl k⟩, rfl⟩
    obtain ⟨v, hv⟩ := Option.ne_none_iff_exists'.1 h
    exact ⟨v, joint_sum_ok B hne hv⟩
  refine ⟨key _ (by cases corr <;> simp [JFP.autoConfig]) (by simp), ?_⟩
  rintro rfl
  exact ⟨key _ (by simp [JFP.autoConfig]) (by simp), key _ (by simp [JFP.autoConfig]) (by simp)⟩

/-- C106, any arithmetic, any lag and window, any calls: no call of `Push` fails, and `Value` is to the bit that of `Cov` (`Corr`) after the pairs
`(x_t, x_{t-lag})` of the values since the last `Clear`; it is an error exactly until `lag + 1` values have been seen. -/
theorem C106_lagged_pairs (corr : Bool) (lag w : Nat) (sqrt : F → F) (ops : List (MOp F)) :
    ∃ a a0 a' c e, Auto.new corr lag w = .ok a ∧ JFP.Auto.init A a = .val (a0, none) ∧ JFP.Auto.run A a0 ops = .val (a', []) ∧
      JFP.newCore A (JFP.autoConfig F corr w) = .val (.ok c) ∧ JFP.run A c ((lagged lag (since ops)).map MOp.push) = .val (e, []) ∧
      (lag < (since ops).length → JFP.Auto.value A sqrt a' = if corr then JFP.corrValue A sqrt e else JFP.covValue A e) ∧
      ((∃ err, JFP.Auto.value A sqrt a' = .error err) ↔ (since ops).length ≤ lag) := by
  obtain ⟨c, hn⟩ := JFP.auto_newCore A corr w
  obtain ⟨a', h1, h2⟩ := JFP.auto_run A hn (lag := lag) ops
  obtain ⟨e, he, r⟩ := h2.core
  obtain ⟨e2, r2, B⟩ := JFP.auto_core A hn (JFP.lagged_arity lag (since ops))
  have : e2 = e := by rw [r] at r2; simpa using r2.symm
  subst this
  have hv : lag < (since ops).length → JFP.Auto.value A sqrt a' = if corr then JFP.corrValue A sqrt e2 else JFP.covValue A e2 := by
    intro hl
    have hne : lagged lag (since ops) ≠ [] := fun h => absurd (JFP.lagged_nil.1 h) (by omega)
    unfold JFP.Auto.value
    rw [he]
    simp only
    rw [if_neg, h2.kind]
    rw [B.count]
    have := List.length_pos_iff.2 (lastN_ne_nil (w := w) hne)
    omega
  refine ⟨⟨corr, lag, w, Ring.new lag, none⟩, _, a', c, e2, ?_, JFP.auto_init A hn, h1, hn, r, hv, ?_⟩
  · unfold Auto.new
    rw [if_neg (by omega), Int.toNat_natCast]
  · constructor
    · rintro ⟨err, h⟩
      by_contra hl
      rw [hv (by omega)] at h
      have hne : lagged lag (since ops) ≠ [] := fun h => absurd (JFP.lagged_nil.1 h) (by omega)
      obtain ⟨⟨s, hs⟩, hc⟩ := auto_sums B hne
      cases corr with
      | false => simp [JFP.covValue, hs] at h
      | true =>
        obtain ⟨⟨x, hx⟩, y, hy⟩ := hc rfl
        simp [JFP.corrValue, hs, hx, hy] at h
    · intro hl
      unfold JFP.Auto.value
      rw [he]
      simp only
      rw [if_pos]
      · exact ⟨_, rfl⟩
      · rw [B.count, JFP.lagged_nil.2 hl]
        simp

/-- C106 for `Clear`: whatever was pushed, rounding errors, infinities and NaN included, it gives back exactly the metric as `Init` left it. -/
theorem C106_clear (corr : Bool) (lag w : Nat) (ops : List (MOp F)) :
    ∃ a a0, Auto.new corr lag w = .ok a ∧ JFP.Auto.init A a = .val (a0, none) ∧ JFP.Auto.run A a0 (ops ++ [.clear]) = .val (a0, []) := by
  obtain ⟨c, hn⟩ := JFP.auto_newCore A corr w
  obtain ⟨a', h1, h2⟩ := JFP.auto_run A hn (lag := lag) ops
  refine ⟨⟨corr, lag, w, Ring.new lag, none⟩, _, ?_, JFP.auto_init A hn, ?_⟩
  · unfold Auto.new
    rw [if_neg (by omega), Int.toNat_natCast]
  · unfold JFP.Auto.run at h1 ⊢
    rw [Go.runOps_append, h1]
    simp [Go.runOps, logged, JFP.Auto.step, JFP.auto_clear A hn h2]

/-- What a run of `Autocov` or `Autocorr` gives at the end: its value and the errors of the calls. -/
def aObs (corr : Bool) (lag w : Int) (sqrt : F → F) (ops : List (MOp F)) : Option (Except Err F × List Err) :=
  match Auto.new corr lag w with
  | .error _ => none
  | .ok a =>
    match JFP.Auto.init A a with
    | .val (a0, none) =>
      match JFP.Auto.run A a0 ops with
      | .val (a', es) => some (JFP.Auto.value A sqrt a', es)
      | _ => none
    | _ => none

/-- The value in terms of the pairs. -/
theorem aObs_eq {corr : Bool} {lag w : Nat} {sqrt : F → F} {ops : List (MOp F)} {c : Joint.Core F}
    (hn : JFP.newCore A (JFP.autoConfig F corr w) = .val (.ok c)) {e : Joint.Core F} {es : List Err}
    (hr : JFP.run A c ((lagged lag (since ops)).map MOp.push) = .val (e, es)) (hl : lag < (since ops).length) :
    aObs A corr lag w sqrt ops = some (if corr then JFP.corrValue A sqrt e else JFP.covValue A e, []) := by
  obtain ⟨a, a0, a', c', e', h1, h2, h3, h4, h5, h6, -⟩ := C106_lagged_pairs A corr lag w sqrt ops
  have : c' = c := by rw [hn] at h4; simpa using h4.symm
  subst this
  have : e' = e := by
    rw [hr] at h5
    simp at h5
    exact h5.1.symm
  subst this
  unfold aObs
  rw [h1]
  simp only
  rw [h2]
  simp only
  rw [h3]
  simp only
  rw [h6 hl]

/-- Before there is a pair. -/
theorem aObs_short {corr : Bool} {lag w : Nat} {sqrt : F → F} {ops : List (MOp F)} (hl : (since ops).length ≤ lag) :
    aObs A corr lag w sqrt ops = some (.error "Not enough values seen", []) := by
  obtain ⟨c, hn⟩ := JFP.auto_newCore A corr w
  obtain ⟨a', h1, h2⟩ := JFP.auto_run A hn (lag := lag) ops
  obtain ⟨e, he, r⟩ := h2.core
  obtain ⟨e2, r2, B⟩ := JFP.auto_core A hn (JFP.lagged_arity lag (since ops))
  have : e2 = e := by rw [r] at r2; simpa using r2.symm
  subst this
  have h0 : Auto.new corr lag w = .ok (⟨corr, lag, w, Ring.new lag, none⟩ : Auto F) := by
    unfold Auto.new
    rw [if_neg (by omega), Int.toNat_natCast]
  unfold aObs
  rw [h0]
  simp only
  rw [JFP.auto_init A hn]
  simp only
  rw [h1]
  simp only
  unfold JFP.Auto.value
  rw [he]
  simp only
  rw [if_pos]
  rw [B.count, JFP.lagged_nil.2 hl]
  simp

end any

/-! ## Accuracy -/

variable {pw : ℚ → Nat → ℚ}

theorem lagged_mem {F : Type} {lag : Nat} {xs : List F} {p : List F} (hp : p ∈ lagged lag xs) : ∃ x ∈ xs, ∃ y ∈ xs, p = [x, y] := by
  unfold lagged at hp
  obtain ⟨i, hi, rfl⟩ := List.mem_iff_getElem.1 hp
  refine ⟨(xs.drop lag)[i]'(by simp at hi ⊢; omega), ?_, xs[i]'(by simp at hi; omega), List.getElem_mem _, by simp⟩
  exact List.mem_of_mem_drop (List.getElem_mem _)

theorem lagged_length {F : Type} (lag : Nat) (xs : List F) : (lagged lag xs).length = xs.length - lag := by simp [lagged]

theorem noCollision_auto (corr : Bool) {F : Type} (w : Nat) : NoCollision ((JFP.autoConfig F corr w).sums.getD []) := by
  cases corr
  · exact noCollision_of_small (n := 2) (by omega) (by simp [JFP.autoConfig]) (by simp [JFP.autoConfig, Moderate])
  · exact noCollision_of_small (n := 2) (by omega) (by simp [JFP.autoConfig]) (by simp [JFP.autoConfig, Moderate])

theorem lagged_finPts (lag : Nat) (xs : List ℚ) : (lagged lag (xs.map XF.fin)).map MOp.push = finPts ((lagged lag xs).map MOp.push) := by
  unfold finPts lagged
  rw [← List.map_drop, List.zipWith_map, List.map_map, List.map_zipWith, List.map_zipWith]
  rfl

/-- The two columns of pairs: the values without the first `lag`, and without the last `lag`. -/
theorem coord_lagged {lag N : Nat} {xs : List ℚ} (h : xs.length = N + lag) :
    coord 0 (lagged lag xs) = xs.drop lag ∧ coord 1 (lagged lag xs) = xs.take N := by
  constructor
  · apply List.ext_getElem
    · simp [coord, lagged]
    · intro i h1 h2
      simp [coord, lagged]
  · apply List.ext_getElem
    · simp [coord, lagged]
      omega
    · intro i h1 h2
      simp [coord, lagged]

/-- C106, accuracy of the global `Autocov` in binary64 without overflow: `N` pairs of values of size at most `M`. -/
theorem C106_autocov_accuracy (P : JFP.PowOK rnd64 pw) (lag : Nat) {M : ℚ} (hM : rnd64 M = M) (h1 : 1 / 2 ^ 480 ≤ M) (sqrt : ℚ → ℚ)
    (ops : List (MOp ℚ)) {N : Nat} (hN : (since ops).length = N + lag) (hlen : N ≤ 2 ^ 43) (hP : PowSq pw (1 / 2 ^ 53) (1 / 2 ^ 1075) N)
    (hx : ∀ x ∈ since ops, rnd64 x = x ∧ |x| ≤ M) (hne : 2 ≤ N) :
    ∃ v, aObs (Arith.rounded rnd64 pw) false lag 0 sqrt ops = some (.ok v, []) ∧
      |v - sampleCov (lagged lag (since ops))| ≤ 8 * (N + 22) * (1 / 2 ^ 53) * (M * M) := by
  obtain ⟨c, hn⟩ := JFP.auto_newCore (Arith.rounded rnd64 pw) false 0
  have hs := JFP.filter_pushes (JFP.lagged_arity lag (since ops))
  have hb : ∀ i, i < 2 → BoundedAt i M (lagged lag (since ops)) := by
    intro i hi p hp
    obtain ⟨x, h2, y, h3, rfl⟩ := lagged_mem hp
    match i with
    | 0 => exact hx x h2
    | 1 => exact hx y h3
    | i + 2 => omega
  obtain ⟨e, es, v, r, hv, hb⟩ := C83_cov_accuracy P hn (JFP.auto_exp false 0) (noCollision_auto false 0) rfl rfl (JFP.auto_vars false 0)
    ⟨[1, 1], by simp [JFP.autoConfig], by decide⟩ hM hM h1 h1 ((lagged lag (since ops)).map MOp.push) (N := N)
    (by rw [hs, JFP.since_pushes, lagged_length]; omega) hlen hP (by rw [hs, JFP.since_pushes]; exact hb 0 (by omega))
    (by rw [hs, JFP.since_pushes]; exact hb 1 (by omega)) hne
  rw [hs, JFP.since_pushes] at hb
  refine ⟨v, ?_, hb⟩
  have := aObs_eq (Arith.rounded rnd64 pw) (corr := false) (lag := lag) (w := 0) (sqrt := sqrt) (ops := ops) hn r (by omega)
  rw [if_neg (by simp), hv] at this
  exact this

/-- C106, binary64 with infinities and NaN: the same for values of moderate size, with no overflow. -/
theorem C106_autocov_ieee (P : JFP.PowOK rnd64 pw) (hP : ∀ x, |pw x 2 - x * x| ≤ 1 / 2 ^ 53 * (x * x) + 1 / 2 ^ 1075) (lag : Nat) {M : ℚ}
    (hM : rnd64 M = M) (hM1 : 1 ≤ M) (sqrt : XF ℚ → XF ℚ) (ops : List (MOp ℚ)) {N : Nat} (hN : (since ops).length = N + lag) (hlen : N ≤ 2 ^ 43)
    (hx : ∀ x ∈ since ops, rnd64 x = x ∧ |x| ≤ M) (hne : 2 ≤ N) (hfit : 100000 * ((N + 1) * (M * M)) < two 1024) :
    ∃ v, aObs (ieeeOf rnd64 pw over64) false lag 0 sqrt (finOps ops) = some (.ok (.fin v), []) ∧
      |v - sampleCov (lagged lag (since ops))| ≤ 8 * (N + 22) * (1 / 2 ^ 53) * (M * M) := by
  obtain ⟨c, hn⟩ := JFP.auto_newCore (ieeeOf rnd64 pw over64) false 0
  have hs := JFP.filter_pushes (JFP.lagged_arity lag (since ops))
  obtain ⟨e, es, v, r, hv, hb⟩ := C105_cov P hP hn (JFP.auto_exp false 0) (noCollision_auto false 0) rfl rfl (JFP.auto_vars false 0)
    ⟨[1, 1], by simp [JFP.autoConfig], by decide⟩ hM hM1 ((lagged lag (since ops)).map MOp.push) (N := N)
    (by rw [hs, JFP.since_pushes, lagged_length]; omega) hlen
    (by
      rw [hs, JFP.since_pushes]
      intro p hp a ha
      obtain ⟨x, h2, y, h3, rfl⟩ := lagged_mem hp
      simp only [List.mem_cons, List.not_mem_nil, or_false] at ha
      rcases ha with rfl | rfl
      · exact hx _ h2
      · exact hx _ h3) hne hfit
  rw [hs, JFP.since_pushes] at hb
  refine ⟨v, ?_, hb⟩
  have := aObs_eq (ieeeOf rnd64 pw over64) (corr := false) (lag := lag) (w := 0) (sqrt := sqrt) (ops := finOps ops) hn
    (by rw [since_finOps, lagged_finPts]; exact r) (by rw [since_finOps, List.length_map]; omega)
  rw [if_neg (by simp), hv] at this
  exact this

theorem noOverlap_auto : NoOverlapZ ((JFP.autoConfig ℚ true 0).sums.getD []) := by
  have := Joint.noOverlap_corr
  unfold NoOverlapZ
  unfold Joint.NoOverlap at this
  have e : (JFP.autoConfig ℚ true 0).sums.getD [] = [[1, 1], [2, 0], [0, 2]].map Joint.up := rfl
  rw [e, List.pairwise_map]
  exact this.imp fun h a h1 h2 => h a (belowZ_up.1 h1) (belowZ_up.1 h2)

/-- C106, accuracy of the global `Autocorr` in binary64 without overflow; `M/κ` is a lower bound of the standard deviations of the two columns of
pairs. -/
theorem C106_autocorr_accuracy (P : JFP.PowOK rnd64 pw) (lag : Nat) {M κ : ℚ} {sq : ℚ → ℚ}
    (hsq : ∀ q : ℚ, 0 ≤ q → |(sq q : ℝ) - √(q : ℝ)| ≤ ((1 / 2 ^ 53 : ℚ) : ℝ) * √(q : ℝ)) (ops : List (MOp ℚ)) {N : Nat}
    (hN : (since ops).length = N + lag) (hP : PowSq pw (1 / 2 ^ 53) (1 / 2 ^ 1075) N) (hκ : 1 ≤ κ) (hM : rnd64 M = M) (hM0 : 1 / 2 ^ 200 ≤ M)
    (hx : ∀ x ∈ since ops, rnd64 x = x ∧ |x| ≤ M) (h0 : M ^ 2 ≤ κ ^ 2 * popMoment 2 ((since ops).drop lag))
    (h1 : M ^ 2 ≤ κ ^ 2 * popMoment 2 ((since ops).take N)) (hN2 : 2 ≤ N) (hlen : N ≤ 2 ^ 43)
    (hsm : 2 * (N + 40) * (1 / 2 ^ 53) * κ ^ 2 ≤ 1 / 100) :
    ∃ g, aObs (Arith.rounded rnd64 pw) true lag 0 sq ops = some (.ok g, []) ∧
      |(g : ℝ) - pearson (realPoints (lagged lag (since ops)))| ≤ 10 * (N + 30) * ((1 / 2 ^ 53 : ℚ) : ℝ) * κ ^ 2 := by
  obtain ⟨c, hn⟩ := JFP.auto_newCore (Arith.rounded rnd64 pw) true 0
  have hs := JFP.filter_pushes (JFP.lagged_arity lag (since ops))
  have hb : ∀ i, i < 2 → BoundedAt i M (lagged lag (since ops)) := by
    intro i hi p hp
    obtain ⟨x, h2, y, h3, rfl⟩ := lagged_mem hp
    match i with
    | 0 => exact hx x h2
    | 1 => exact hx y h3
    | i + 2 => omega
  obtain ⟨c0, c1⟩ := coord_lagged hN
  have hcc : CorrCore rnd64 pw (JFP.autoConfig ℚ true 0) c :=
    ⟨hn, rfl, JFP.auto_exp true 0, noCollision_auto true 0, noOverlap_auto, ⟨⟨[1, 1], by simp [JFP.autoConfig], by decide⟩,
      ⟨[2, 0], by simp [JFP.autoConfig], by decide⟩, ⟨[0, 2], by simp [JFP.autoConfig], by decide⟩⟩, by simp [JFP.autoConfig]⟩
  obtain ⟨e, es, v, r, hv, hb⟩ := C98_corr_accuracy P hcc rfl rfl hsq ((lagged lag (since ops)).map MOp.push) (N := N)
    (by rw [hs, JFP.since_pushes, lagged_length]; omega) hP hκ
    (by rw [hs, JFP.since_pushes]; exact ⟨hM, hM0, hb 0 (by omega), by rw [c0]; exact h0⟩)
    (by rw [hs, JFP.since_pushes]; exact ⟨hM, hM0, hb 1 (by omega), by rw [c1]; exact h1⟩) hN2 hlen hsm
  rw [hs, JFP.since_pushes] at hb
  refine ⟨v, ?_, hb⟩
  have := aObs_eq (Arith.rounded rnd64 pw) (corr := true) (lag := lag) (w := 0) (sqrt := sq) (ops := ops) hn r (by omega)
  rw [if_pos rfl, hv] at this
  exact this

/-! ## Negation -/

/-- C106: negating all values changes nothing, to the bit, in any arithmetic in which negation commutes with the operations; any lag and window. -/
theorem C106_negate {F : Type} [GoOrd F] {A : Arith F} (O : OddArith A) (corr : Bool) (lag w : Nat) (sqrt : F → F) (ops : List (MOp F)) :
    aObs A corr lag w sqrt (mapPush A.neg ops) = aObs A corr lag w sqrt ops := by
  have hsince : since (mapPush A.neg ops) = (since ops).map A.neg := since_mapPush A.neg ops
  by_cases hl : (since ops).length ≤ lag
  · rw [aObs_short A hl, aObs_short A (by rw [hsince, List.length_map]; exact hl)]
  obtain ⟨c, hn⟩ := JFP.auto_newCore A corr w
  obtain ⟨e, e', es, h1, h2, h3, -, h5⟩ := C81_negate_joint O hn (JFP.auto_exp corr w) (noCollision_auto corr w) [true, true]
    (by rw [JFP.auto_vars]; rfl) ((lagged lag (since ops)).map MOp.push)
  have hlag : mapPush (onVars (fun b x => if b then A.neg x else x) [true, true]) ((lagged lag (since ops)).map MOp.push) =
      (lagged lag (since (mapPush A.neg ops))).map MOp.push := by
    rw [hsince]
    unfold lagged mapPush
    rw [← List.map_drop, List.zipWith_map, List.map_map, List.map_zipWith, List.map_zipWith]
    rfl
  rw [hlag] at h2
  rw [aObs_eq A hn h1 (by omega), aObs_eq A hn h2 (by rw [hsince, List.length_map]; omega)]
  have a := h5 [1, 1] ⟨[1, 1], by cases corr <;> simp [JFP.autoConfig], by decide⟩
  simp only [List.map_cons, List.map_nil, show (Int.ofNat 1) = 1 from rfl] at a
  have hid : ∀ (y : Except Err F), y.map (fun x => x) = y := by intro y; cases y <;> rfl
  simp only [show (marked [true, true] [1, 1] % 2 = 1) = False by simp [marked]] at a
  simp only [if_false, hid] at a
  cases corr with
  | false =>
    simp only [JFP.covValue, a, h3]
    rfl
  | true =>
    have b := h5 [2, 0] ⟨[2, 0], by simp [JFP.autoConfig], by decide⟩
    have b' := h5 [0, 2] ⟨[0, 2], by simp [JFP.autoConfig], by decide⟩
    simp only [List.map_cons, List.map_nil, show (Int.ofNat 2) = 2 from rfl, show (Int.ofNat 0) = 0 from rfl] at b b'
    simp only [show (marked [true, true] [2, 0] % 2 = 1) = False by simp [marked]] at b
    simp only [show (marked [true, true] [0, 2] % 2 = 1) = False by simp [marked]] at b'
    simp only [if_false, hid] at b b'
    simp only [JFP.corrValue, a, b, b']
    rfl

/-! ## Windows -/

/-- C106 is false for windows: with lag 0 and window 2 `Autocov`, a variance, is negative after 0.1, 0.7, 0.7, in binary64. -/
theorem C106_window_autocov_refuted (sqrt : ℚ → ℚ) : ∃ v, aObs Arith.b64 false 0 2 sqrt [.push v01, .push v07, .push v07] = some (.ok v, []) ∧ v < 0 := by
  have h : jObs Arith.b64 ⟨some [[1, 1]], some 2, none, none⟩ [.push [v01, v01], .push [v07, v07], .push [v07, v07]] [[1, 1]] =
      some (([.ok (-9007199254740991 / 162259276829213363391578010288128)], .ok v07, .ok v07), 2, []) := by decide +kernel
  obtain ⟨c, e, h1, h2, h3, -, -, h4⟩ := jObs_run h
  simp only [List.map_cons, List.map_nil, List.cons.injEq, and_true] at h3
  have := aObs_eq Arith.b64 (corr := false) (lag := 0) (w := 2) (sqrt := sqrt) (ops := [.push v01, .push v07, .push v07]) h1 h2 (by decide)
  have hd : rnd64 (-9007199254740991 / 162259276829213363391578010288128 / rnd64 (rnd64 ((2 : Int) : ℚ) - rnd64 ((1 : Int) : ℚ))) < 0 := by decide +kernel
  exact ⟨_, this.trans (by simp only [JFP.covValue, h3, h4]; rfl), hd⟩

/-- C106 is false for windows of at least two when a value is infinite or NaN: once the pair in which it is the older value has left the window,
`Autocov` and `Autocorr` are NaN, whatever is pushed, until `Clear`. -/
theorem C106_poison_refuted {rnd : ℚ → XF ℚ} {pw : ℚ → Nat → XF ℚ} (corr : Bool) (lag : Nat) {w : Nat} (hw2 : 2 ≤ w)
    (hcnt : ∀ n : Nat, 1 ≤ n → n ≤ w → ∃ q, 0 < q ∧ rnd (n : Int) = .fin q) (sqrt : XF ℚ → XF ℚ) (ops : List (MOp (XF ℚ)))
    (hbad : ∃ y ∈ (since ops).take ((since ops).length - lag - w), ∀ q, y ≠ .fin q) :
    aObs (Arith.ieee rnd pw) corr lag w sqrt ops = some (.ok .nan, []) := by
  obtain ⟨c, hn⟩ := JFP.auto_newCore (Arith.ieee rnd pw) corr w
  have hs := JFP.filter_pushes (JFP.lagged_arity lag (since ops))
  obtain ⟨y, hy, hyf⟩ := hbad
  obtain ⟨i, hi, rfl⟩ := List.mem_iff_getElem.1 hy
  have hi' : i < (since ops).length - lag - w ∧ i < (since ops).length := by simpa using hi
  obtain ⟨e, es, r, -, h⟩ := C78_poison_refuted hn (by cases corr <;> simp [JFP.autoConfig]) (noCollision_auto corr w) rfl hw2 hcnt (n := 2)
    (JFP.auto_vars corr w) (i := 1) (by omega) ((lagged lag (since ops)).map MOp.push) (by
      rw [hs, JFP.since_pushes, lagged_length]
      refine ⟨(lagged lag (since ops))[i]'(by rw [lagged_length]; omega), ?_, ?_⟩
      · rw [List.mem_take_iff_getElem]
        exact ⟨i, by rw [lagged_length]; omega, rfl⟩
      · intro v hv q
        have : v = (since ops)[i] := by simpa [lagged] using hv.symm
        rw [this]
        simpa using hyf q)
  have a := h [1, 1] ⟨[1, 1], by cases corr <;> simp [JFP.autoConfig], by decide⟩ ⟨1, rfl, by omega⟩
  simp only [List.map_cons, List.map_nil, show (Int.ofNat 1) = 1 from rfl] at a
  rw [aObs_eq _ hn r (by omega)]
  cases corr with
  | false =>
    simp only [JFP.covValue, a]
    rfl
  | true =>
    have b' := h [0, 2] ⟨[0, 2], by simp [JFP.autoConfig], by decide⟩ ⟨2, rfl, by omega⟩
    simp only [List.map_cons, List.map_nil, show (Int.ofNat 2) = 2 from rfl, show (Int.ofNat 0) = 0 from rfl] at b'
    obtain ⟨e', r', B⟩ := JFP.auto_core _ hn (JFP.lagged_arity lag (since ops))
    have : e' = e := by rw [r] at r'; simp at r'; exact r'.1.symm
    subst this
    obtain ⟨-, hc⟩ := auto_sums B (fun h => absurd (JFP.lagged_nil.1 h) (by omega))
    obtain ⟨⟨x, hx⟩, -⟩ := hc rfl
    simp only [JFP.corrValue, a, b', hx]
    rfl

/-- C106 is false for windows: with lag 0 and window 2 `Autocorr` is -1 after 5000000000000001, 6000000000000000, 0, 1, in binary64. -/
theorem C106_window_autocorr_refuted {sqrt : ℚ → ℚ} (hsqrt : ∀ q, 0 ≤ q → FP.SqrtOf rnd64 q (sqrt q)) :
    aObs Arith.b64 true 0 2 sqrt [.push 5000000000000001, .push 6000000000000000, .push 0, .push 1] = some (.ok (-1), []) := by
  obtain ⟨c, e, h1, h2, h3⟩ := C75_window_refuted hsqrt
  have := aObs_eq Arith.b64 (corr := true) (lag := 0) (w := 2) (sqrt := sqrt) (ops := [.push 5000000000000001, .push 6000000000000000, .push 0, .push 1]) h1 h2
    (by decide)
  rw [if_pos rfl, h3] at this
  exact this

/-! ## The hypotheses are met -/

/-- Lag 2 in binary64, a value before a `Clear`, then five values: the sample covariance of the pairs (5,1), (2,7), (8,5). -/
example : aObs Arith.b64 false 2 0 id [.push 9, .clear, .push 1, .push 7, .push 5, .push 2, .push 8] = some (.ok (-3), []) ∧
    aObs Arith.b64 false 2 0 id [.push 9, .clear, .push 1, .push 7] = some (.error "Not enough values seen", []) ∧
    sampleCov (lagged 2 [1, 7, 5, 2, 8] : List (List ℚ)) = -3 := by decide +kernel

/-- The hypotheses of the accuracy theorems for these values: `N = 3` pairs, `M = 8`, `κ = 4`. -/
example : (since [.push 9, .clear, .push 1, .push 7, .push 5, .push 2, .push (8 : ℚ)]).length = 3 + 2 ∧ rnd64 8 = 8 ∧ (1 / 2 ^ 480 : ℚ) ≤ 8 ∧
    (∀ x ∈ ([1, 7, 5, 2, 8] : List ℚ), rnd64 x = x ∧ |x| ≤ 8) ∧ (8 : ℚ) ^ 2 ≤ 4 ^ 2 * popMoment 2 (([1, 7, 5, 2, 8] : List ℚ).drop 2) ∧
    (8 : ℚ) ^ 2 ≤ 4 ^ 2 * popMoment 2 (([1, 7, 5, 2, 8] : List ℚ).take 3) ∧ (2 * (3 + 40) * (1 / 2 ^ 53) * 4 ^ 2 : ℚ) ≤ 1 / 100 ∧
    (100000 * ((3 + 1) * (8 * 8)) : ℚ) < two 1024 := by
  decide +kernel

example : PowSq (fun x k => rnd64 (x ^ k)) (1 / 2 ^ 53) (1 / 2 ^ 1075) 3 ∧ JFP.PowOK rnd64 (fun x k => rnd64 (x ^ k)) := ⟨powSq64 (by norm_num), powOK64⟩

set_option synthInstance.maxSize 512 in
set_option synthInstance.maxHeartbeats 200000 in
/-- Lag 1, window 2 in binary64: a NaN, then numbers; the NaN has been out of the window for two calls. -/
example : aObs Arith.ieee64 false 1 2 id [.push .nan, .push (.fin 1), .push (.fin 5), .push (.fin 2), .push (.fin 4), .push (.fin 8)] =
    some (.ok .nan, []) ∧ ([XF.nan, .fin 1, .fin 5, .fin 2, .fin 4, .fin 8] : List (XF ℚ)).take (6 - 1 - 2) = [XF.nan, .fin 1, .fin 5] := by decide +kernel

end Verif.Props
