import Verif.Proofs.Decide
import Verif.Proofs.Rounded

/-! # C64–C69: package `moment` in floating-point arithmetic

`Arith F` is a bare set of operations. `Arith.rounded rnd pw` is rational arithmetic in which every operation is rounded by `rnd` (powers by
`pw`), `rnd64` rounds to IEEE binary64 (no overflow), `Arith.ieee` has infinities and NaN. Over the operations of a field the model is the
exact one of `Model/Moment.lean` (`C64_exact`). A value `x` is representable when `rnd x = x`. -/

namespace Verif.Props
open Verif Verif.Spec Verif.FP
open Verif.Moment (Core Config)

/-! ## C64 -/

/-- The model over an arbitrary arithmetic, at exact arithmetic, is the exact model. -/
theorem C64_exact {K : Type} [Field K] [LinearOrder K] (cfg : Config K) :
    newCore (Arith.exact K) cfg = Moment.newCore cfg ∧ ∀ c ops, run (Arith.exact K) c ops = Moment.run c ops := by
  refine ⟨?_, run_exact⟩
  unfold newCore Moment.newCore
  rw [mk_exact]
  simp only [Arith.exact, Int.cast_zero, Int.cast_one]
  cases Moment.validate 0 1 (Moment.setDefaults cfg) <;> rfl

/-- C64, in full for exponents at most 65 (beyond, see C41): whatever the operations on numbers return, no `Push` panics, hangs or fails,
`Count` is the number of values in the window, `Mean` and `Sum(k)` fail exactly when the window is empty or `k` is not tracked, and the queue
holds the window. -/
theorem C64_any_arithmetic {F : Type} [GoOrd F] (A : Arith F) {cfg : Config F} {c : Core F} (hn : newCore A cfg = .ok c)
    (hs : ∀ k ∈ cfg.sums.getD [], k ≤ 65) (ops : List (MOp F)) :
    ∃ (w : Nat) (c' : Core F), cfg.window = some (w : Int) ∧ run A c ops = .val (c', []) ∧ c'.count = (windowOf w ops).length ∧
      ((∃ e, mean c' = .error e) ↔ since ops = []) ∧
      (∀ k : Int, (∃ e, sum c' k = .error e) ↔ (since ops = [] ∨ k ≤ 0 ∨ ∀ j ∈ cfg.sums.getD [], j < k)) ∧
      (w ≠ 0 → c'.queue.items = windowOf w ops) := by
  obtain ⟨w, hw, hc, -⟩ := newCore_ok A hn
  obtain ⟨c', e, B, -⟩ := core_track A hn hs hw (track_true A w cfg.decay c.len) ops
  refine ⟨w, c', hw, e, B.count, B.mean_error, fun k => ?_, B.q⟩
  unfold FP.sum
  rw [B.count, B.len]
  by_cases hx : since ops = []
  · rw [hx]; simp
  · have hpos := List.length_pos_iff.2 (lastN_ne_nil (w := w) hx)
    rw [if_neg (by omega)]
    by_cases hk : k ≤ 0
    · rw [if_pos (.inl hk)]; simp [hk]
    · have hlt := lt_mk_len A (cfg := cfg) k.toNat
      rw [← hc, Int.toNat_of_nonneg (by omega)] at hlt
      by_cases hk2 : k ≥ c.len
      · rw [if_pos (.inr hk2)]
        refine ⟨fun _ => .inr (.inr fun j hj => ?_), fun _ => ⟨_, rfl⟩⟩
        by_contra hcon
        have := hlt.2 ⟨j, hj, by omega⟩
        omega
      · rw [if_neg (by omega)]
        refine ⟨fun he => ?_, fun h => ?_⟩
        · obtain ⟨_, e⟩ := he; cases e
        rcases h with h | h | h
        · exact absurd h hx
        · exact absurd h hk
        · obtain ⟨j, hj, hkj⟩ := hlt.1 (by omega)
          have := h j hj
          omega

/-- An arithmetic in which nothing is true: everything is 7. -/
example : ∃ c, newCore (⟨fun _ _ => 7, fun _ _ => 7, fun _ _ => 7, fun _ _ => 7, fun _ => 7, fun _ _ => 7, fun _ => 7⟩ : Arith ℚ)
    ⟨some [4], some 3, none⟩ = .ok c := ⟨_, rfl⟩

/-! ## C65 -/

/-- C65, in full: when all values since the last `Clear` are the same representable number, `Mean` is that number and every tracked `Sum` is
zero, exactly, in every arithmetic that rounds 0 and 1 to themselves; with any window or decay. -/
theorem C65_constant {rnd : ℚ → ℚ} {pw : ℚ → Nat → ℚ} (h0 : rnd 0 = 0) (h1 : rnd 1 = 1) (hpw : ∀ k, 1 ≤ k → pw 0 k = 0) {cfg : Config ℚ}
    {c : Core ℚ} (hn : newCore (Arith.rounded rnd pw) cfg = .ok c) (hs : ∀ k ∈ cfg.sums.getD [], k ≤ 65) {x : ℚ} (hx : rnd x = x)
    (ops : List (MOp ℚ)) (hne : since ops ≠ []) (hall : ∀ y ∈ since ops, y = x) :
    ∃ c', run (Arith.rounded rnd pw) c ops = .val (c', []) ∧ mean c' = .ok x ∧
      ∀ k : Nat, 1 ≤ k → (∃ j ∈ cfg.sums.getD [], (k : Int) ≤ j) → sum c' k = .ok 0 := by
  obtain ⟨w, hw, hc, -⟩ := newCore_ok _ hn
  obtain ⟨c', e, B, hI⟩ := core_track _ hn hs hw (track_const h0 h1 hpw hx w cfg.decay c.len) ops
  obtain ⟨a, -, s0⟩ := hI hall
  refine ⟨c', e, by rw [B.mean_ok hne, a hne], fun k hk hj => ?_⟩
  rw [B.sum_ok hne hk (by rw [hc]; exact (lt_mk_len _ k).2 hj), s0]

/-- For example 0.1 in binary64, which is not 1/10. -/
example : rnd64 (rnd64 (1 / 10)) = rnd64 (1 / 10) ∧ rnd64 (1 / 10) ≠ 1 / 10 ∧ rnd64 0 = 0 ∧ rnd64 1 = 1 := by decide +kernel

/-! ## C66 -/

/-- C66 for cores that do not evict (window 0, with or without decay): `Sum(2)` is never negative, and neither is the value under the root
of `Std`. Missing: windowed cores, where it is false (`C66_window_refuted`). -/
theorem C66_variance_partial {rnd : ℚ → ℚ} (R : Rounding rnd) {pw : ℚ → Nat → ℚ} (hpe : ∀ x k, Even k → 0 ≤ pw x k)
    (hpn : ∀ x k, 0 ≤ x → 0 ≤ pw x k) {cfg : Config ℚ} {c : Core ℚ} (hn : newCore (Arith.rounded rnd pw) cfg = .ok c)
    (hw : cfg.window = some 0) (hs : ∀ k ∈ cfg.sums.getD [], k ≤ 65) (ops : List (MOp ℚ)) :
    ∃ c', run (Arith.rounded rnd pw) c ops = .val (c', []) ∧ (∀ v, sum c' 2 = .ok v → 0 ≤ v) ∧
      ∀ v, momentValue (Arith.rounded rnd pw) c' 2 = .ok v → 0 ≤ v := by
  obtain ⟨w, hw', hc, hd⟩ := newCore_ok _ hn
  have hdec : ∀ dd, cfg.decay = some dd → 0 ≤ dd ∧ dd ≤ 1 := by
    intro dd h
    obtain ⟨a, b, -⟩ := hd dd h
    simp only [GoOrd.le, Arith.rounded, Int.cast_zero, Int.cast_one, R.zero, R.one, decide_eq_false_iff_not, not_le] at a b
    exact ⟨a.le, b.le⟩
  obtain ⟨c', e, B, hI⟩ := core_track _ hn hs (w := 0) hw (track_nonneg R hpe hpn hdec c.len) ops
  have h2 : ∀ v, sum c' 2 = .ok v → 0 ≤ v := by
    intro v h
    unfold FP.sum at h
    split_ifs at h
    rw [← Except.ok.inj h]
    exact hI
  refine ⟨c', e, h2, fun v h => ?_⟩
  unfold momentValue at h
  cases hsum : FP.sum c' 2 with
  | error e => rw [hsum] at h; exact absurd h (by simp)
  | ok s =>
    rw [hsum] at h
    rw [← Except.ok.inj h]
    have hc0 : c'.count ≠ 0 := by
      intro h0
      unfold FP.sum at hsum
      rw [if_pos h0] at hsum
      exact absurd hsum (by simp)
    have hc1 : 1 ≤ c'.count := by
      have := B.count
      omega
    have h1 := R.one_le hc1
    refine R.nonneg (div_nonneg (h2 s hsum) (R.nonneg ?_))
    simp only [Arith.rounded, Int.cast_one, R.one]
    linarith

/-- Observations of a test run: mean, sums 2 and 3, count and errors. -/
def fpObs {F : Type} : Go (Core F × List Err) → Option ((Except Err F × Except Err F) × (Except Err F × Int) × List Err)
  | .val (c, es) => some ((mean c, sum c 2), (sum c 3, c.count), es)
  | _ => none

theorem fpObs_run {F : Type} {r : Go (Core F × List Err)} {m s2 s3 : Except Err F} {n : Int} (h : fpObs r = some ((m, s2), (s3, n), [])) :
    ∃ c', r = .val (c', []) ∧ mean c' = m ∧ sum c' 2 = s2 ∧ sum c' 3 = s3 ∧ c'.count = n := by
  rcases r with ⟨c', es⟩ | _ | _
  · simp only [fpObs, Option.some.injEq, Prod.mk.injEq] at h
    obtain ⟨⟨h1, h2⟩, ⟨h3, h4⟩, rfl⟩ := h
    exact ⟨c', rfl, h1, h2, h3, h4⟩
  · simp [fpObs] at h
  · simp [fpObs] at h

/-- The values 0.1 and 0.7 in binary64. -/
def v01 : ℚ := rnd64 (1 / 10)
def v07 : ℚ := rnd64 (7 / 10)

/-- C66 is false for windowed cores in binary64: window 2, `Push` 0.1, 0.7, 0.7. The window holds 0.7 twice, and `Sum(2)` is negative. -/
theorem C66_window_refuted : ∃ (c c' : Core ℚ) (v : ℚ), newCore Arith.b64 ⟨some [2], some 2, none⟩ = .ok c ∧
    run Arith.b64 c [.push v01, .push v07, .push v07] = .val (c', []) ∧
    windowOf 2 [.push v01, .push v07, .push v07] = [v07, v07] ∧ sum c' 2 = .ok v ∧ v < 0 := by
  have h : fpObs (run Arith.b64 (mk Arith.b64 ⟨some [2], some 2, none⟩) [.push v01, .push v07, .push v07]) =
      some ((.ok (rnd64 (7 / 10)), .ok (-9007199254740991 / 162259276829213363391578010288128)), (.error "not a tracked power sum", 2), []) := by decide +kernel
  obtain ⟨c', e, -, h2, -⟩ := fpObs_run h
  exact ⟨_, c', _, rfl, e, by simp [windowOf, since, lastN], h2, by norm_num⟩

/-- The effect on the metric: `Std` of the window [0.7, 0.7] is NaN instead of 0 (IEEE arithmetic; whatever root is used for non-negative
numbers, `math.Sqrt` of a negative number is NaN). -/
theorem C66_std_nan_refuted (r : ℚ → ℚ) : ∃ (c c' : Core (XF ℚ)), newCore Arith.ieee64 ⟨some [2], some 2, none⟩ = .ok c ∧
    run Arith.ieee64 c [.push (.fin v01), .push (.fin v07), .push (.fin v07)] = .val (c', []) ∧
    stdValue Arith.ieee64 (XF.sqrt r) c' = .ok .nan := by
  have h : fpObs (run Arith.ieee64 (mk Arith.ieee64 ⟨some [2], some 2, none⟩) [.push (.fin v01), .push (.fin v07), .push (.fin v07)]) =
      some ((.ok (.fin (rnd64 (7 / 10))), .ok (.fin (-9007199254740991 / 162259276829213363391578010288128))), (.error "not a tracked power sum", 2), []) := by decide +kernel
  obtain ⟨c', e, -, h2, -, h4⟩ := fpObs_run h
  refine ⟨_, c', rfl, e, ?_⟩
  have hv : Arith.ieee64.div (.fin (-9007199254740991 / 162259276829213363391578010288128)) (Arith.ieee64.sub (Arith.ieee64.ofInt 2) (Arith.ieee64.ofInt 1)) =
      .fin (-9007199254740991 / 162259276829213363391578010288128) := by decide +kernel
  simp only [stdValue, momentValue, h2, h4, hv, XF.sqrt]
  rw [if_pos (by norm_num)]

/-- The hypotheses of the positive half hold for binary64. -/
example : Rounding rnd64 ∧ (∀ x k, Even k → 0 ≤ rnd64 (x ^ k)) ∧ (∀ x k, 0 ≤ x → 0 ≤ rnd64 (x ^ k)) :=
  ⟨rounding_rnd64, fun x _ h => rounding_rnd64.nonneg (Even.pow_nonneg h x), fun _ k h => rounding_rnd64.nonneg (pow_nonneg h k)⟩

/-! ## C67 -/

/-- C67 for cores that do not evict (window 0, with or without decay): `Mean` lies between any representable bounds of the values pushed since
the last `Clear`. Missing: windowed cores, where it is false (`C67_window_refuted`). -/
theorem C67_mean_range_partial {rnd : ℚ → ℚ} (R : Rounding rnd) {pw : ℚ → Nat → ℚ} {cfg : Config ℚ} {c : Core ℚ}
    (hn : newCore (Arith.rounded rnd pw) cfg = .ok c) (hw : cfg.window = some 0) (hs : ∀ k ∈ cfg.sums.getD [], k ≤ 65)
    (hdec : ∀ d, cfg.decay = some d → rnd d = d) {lo hi : ℚ} (hlo : rnd lo = lo) (hhi : rnd hi = hi) (ops : List (MOp ℚ))
    (hx : ∀ x ∈ since ops, rnd x = x ∧ lo ≤ x ∧ x ≤ hi) (hne : since ops ≠ []) :
    ∃ c' v, run (Arith.rounded rnd pw) c ops = .val (c', []) ∧ mean c' = .ok v ∧ lo ≤ v ∧ v ≤ hi := by
  obtain ⟨w, hw', hc, hd⟩ := newCore_ok _ hn
  have hdd : ∀ dd, cfg.decay = some dd → rnd dd = dd ∧ 0 ≤ dd ∧ dd < 1 := by
    intro dd h
    obtain ⟨a, b, -⟩ := hd dd h
    simp only [GoOrd.le, Arith.rounded, Int.cast_zero, Int.cast_one, R.zero, R.one, decide_eq_false_iff_not, not_le] at a b
    exact ⟨hdec dd h, a.le, b⟩
  obtain ⟨c', e, B, hI⟩ := core_track _ hn hs (w := 0) hw (track_range R hdd hlo hhi c.len) ops
  exact ⟨c', _, e, B.mean_ok hne, (hI hx).2.2 hne⟩

/-- C67 is false for windowed cores in binary64: window 2, `Push` 1e16, 1, 1. The window holds 1 twice, `Mean` is 0.5. -/
theorem C67_window_refuted : ∃ (c c' : Core ℚ), newCore Arith.b64 ⟨some [2], some 2, none⟩ = .ok c ∧
    run Arith.b64 c [.push (10 ^ 16), .push 1, .push 1] = .val (c', []) ∧
    windowOf 2 [.push (10 ^ 16), .push 1, .push 1] = [(1 : ℚ), 1] ∧ mean c' = .ok (1 / 2) ∧ sum c' 2 = .ok (1 / 2) := by
  have h : fpObs (run Arith.b64 (mk Arith.b64 ⟨some [2], some 2, none⟩) [.push (10 ^ 16), .push 1, .push 1]) =
      some ((.ok (1 / 2), .ok (1 / 2)), (.error "not a tracked power sum", 2), []) := by decide +kernel
  obtain ⟨c', e, h1, h2, -⟩ := fpObs_run h
  exact ⟨_, c', rfl, e, by simp [windowOf, since, lastN], h1, h2⟩

/-- Decay 0.3 in binary64 is a decay that meets the hypotheses. -/
example : rnd64 (rnd64 (3 / 10)) = rnd64 (3 / 10) ∧ ∃ c, newCore Arith.b64 ⟨none, some 0, some (rnd64 (3 / 10))⟩ = .ok c :=
  ⟨by decide +kernel, by
    have : Moment.validate (rnd64 0) (rnd64 1) ⟨some [], some 0, some (rnd64 (3 / 10))⟩ = none := by decide +kernel
    exact ⟨mk Arith.b64 ⟨some [], some 0, some (rnd64 (3 / 10))⟩, by
      simp only [newCore, Moment.setDefaults, Arith.b64, Arith.rounded, Option.getD_none, Int.cast_zero, Int.cast_one, this]⟩⟩

/-! ## C68 -/

/-- C68 is false for every window of at least two: once a NaN or an infinity has been pushed and has left the window, `Mean` and all tracked
`Sum(k)`, `k ≥ 2`, are NaN, whatever is pushed, until `Clear`. In any IEEE arithmetic in which the counts up to the window are finite. -/
theorem C68_poison_refuted {rnd : ℚ → XF ℚ} {pw : ℚ → Nat → XF ℚ} {cfg : Config (XF ℚ)} {c : Core (XF ℚ)}
    (hn : newCore (Arith.ieee rnd pw) cfg = .ok c) (hs : ∀ k ∈ cfg.sums.getD [], k ≤ 65) {w : Nat} (hw : cfg.window = some (w : Int))
    (hw2 : 2 ≤ w) (hcnt : ∀ n : Nat, 1 ≤ n → n ≤ w → ∃ q, 0 < q ∧ rnd (n : Int) = .fin q) (ops : List (MOp (XF ℚ)))
    (hbad : ∃ y ∈ (since ops).take ((since ops).length - w), ∀ q, y ≠ .fin q) :
    ∃ c', run (Arith.ieee rnd pw) c ops = .val (c', []) ∧ mean c' = .ok .nan ∧
      ∀ k : Nat, 2 ≤ k → (∃ j ∈ cfg.sums.getD [], (k : Int) ≤ j) → sum c' k = .ok .nan := by
  obtain ⟨w', hw', hc, hd⟩ := newCore_ok _ hn
  have hdn : cfg.decay = none := by
    cases h : cfg.decay with
    | none => rfl
    | some d =>
      obtain ⟨-, -, h0⟩ := hd d h
      rw [hw] at hw'
      have := Option.some.inj hw'
      omega
  obtain ⟨c', e, B, -, h2, h3⟩ := core_track _ hn hs hw (hdn ▸ track_poison hw2 hcnt c.len) ops
  obtain ⟨y, hy, hyf⟩ := hbad
  have hne : since ops ≠ [] := by
    intro h0
    rw [h0] at hy
    simp at hy
  refine ⟨c', e, ?_, fun k hk hj => ?_⟩
  · rw [B.mean_ok hne, h2 ⟨y, ?_, hyf⟩]
    rw [List.dropLast_eq_take]
    refine List.mem_of_mem_take (i := (since ops).length - w) ?_
    rw [List.take_take, min_eq_left (by omega)]
    exact hy
  · rw [B.sum_ok hne (by omega) (by rw [hc]; exact (lt_mk_len _ k).2 hj), h3 ⟨y, hy, hyf⟩ k hk (by rw [hc]; exact (lt_mk_len _ k).2 hj)]

/-- C68 for window 1, any arithmetic: after a `Push` the numbers are those of a new core after the same `Push`. -/
theorem C68_window_one_partial {F : Type} [GoOrd F] (A : Arith F) {cfg : Config F} {c : Core F} (hn : newCore A cfg = .ok c)
    (hs : ∀ k ∈ cfg.sums.getD [], k ≤ 65) (hw : cfg.window = some 1) (ops : List (MOp F)) (x : F) :
    ∃ c1 c2, run A c (ops ++ [.push x]) = .val (c1, []) ∧ run A c [.push x] = .val (c2, []) ∧ mean c1 = mean c2 ∧
      ∀ k, sum c1 k = sum c2 k := by
  obtain ⟨w', hw', hc, hd⟩ := newCore_ok _ hn
  have hdn : cfg.decay = none := by
    cases h : cfg.decay with
    | none => rfl
    | some d =>
      obtain ⟨-, -, h0⟩ := hd d h
      rw [hw] at hw'
      have := Option.some.inj hw'
      omega
  obtain ⟨c1, e1, B1, -, I1⟩ := core_track _ hn hs (w := 1) hw (hdn ▸ track_one A c.len) (ops ++ [.push x])
  obtain ⟨c2, e2, B2, -, I2⟩ := core_track _ hn hs (w := 1) hw (hdn ▸ track_one A c.len) [.push x]
  obtain ⟨a, b⟩ := (I1 x (by simp)).unique A (I2 x (by simp [since]))
  have hcount : c1.count = c2.count := by
    rw [B1.count, B2.count, lastN_length, lastN_length]
    simp [since]
  refine ⟨c1, c2, e1, e2, by simp only [FP.mean, hcount, a], fun k => by simp only [FP.sum, hcount, B1.len, B2.len, b]⟩

/-- C68 for `Clear`, any arithmetic: it gives back exactly the new core. -/
theorem C68_clear_partial {F : Type} [GoOrd F] (A : Arith F) {cfg : Config F} {c : Core F} (hn : newCore A cfg = .ok c)
    (hs : ∀ k ∈ cfg.sums.getD [], k ≤ 65) (ops : List (MOp F)) : run A c (ops ++ [.clear]) = .val (c, []) := by
  obtain ⟨w, hw, hc, -⟩ := newCore_ok _ hn
  obtain ⟨c', e, B, -⟩ := core_track A hn hs hw (track_true A w cfg.decay c.len) ops
  unfold FP.run at e ⊢
  rw [Go.runOps_append, e]
  simp only [Go.runOps, logged, step]
  have h1 : c'.len = c.len := B.len
  have h2 : c'.window = w := B.win
  have h3 : c'.decay = cfg.decay := B.dec
  have : FP.clear A c' = c := by
    rw [hc] at h1 ⊢
    unfold FP.clear
    rw [h1, h2, h3]
    simp [mk, Moment.setDefaults, hw]
  simp [this]

/-- Window 3 in binary64: a NaN, then five numbers; `Mean`, `Sum(2)` and `Sum(3)` of [3, 4, 5] are NaN. The counts meet the hypothesis. -/
example : fpObs (run Arith.ieee64 (mk Arith.ieee64 ⟨some [3], some 3, none⟩)
      [.push .nan, .push (.fin 1), .push (.fin 2), .push (.fin 3), .push (.fin 4), .push (.fin 5)]) =
    some ((.ok .nan, .ok .nan), (.ok .nan, 3), []) ∧
    over64 (rnd64 1) = .fin 1 ∧ over64 (rnd64 2) = .fin 2 ∧ over64 (rnd64 3) = .fin 3 := by decide +kernel

/-! ## C69 -/

section
variable {pw : ℚ → Nat → ℚ}

/-- C69, windows of 0 without decay, in binary64: after `n < 2 ^ 53` values of absolute value at most `M`, `Mean` differs from the exact mean
by at most `((n + 13) / 2)·2⁻⁵³·M + (n + 3)·2⁻¹⁰⁷⁵`. -/
theorem C69_mean_accuracy {cfg : Config ℚ} {c : Core ℚ} (hn : newCore (Arith.rounded rnd64 pw) cfg = .ok c) (hw : cfg.window = some 0)
    (hd : cfg.decay = none) (hs : ∀ k ∈ cfg.sums.getD [], k ≤ 65) {M : ℚ} (hM : rnd64 M = M) (ops : List (MOp ℚ))
    (hlen : (since ops).length < 2 ^ 53) (hx : ∀ x ∈ since ops, rnd64 x = x ∧ |x| ≤ M) (hne : since ops ≠ []) :
    ∃ c' v, run (Arith.rounded rnd64 pw) c ops = .val (c', []) ∧ mean c' = .ok v ∧
      |v - (since ops).sum / (since ops).length| ≤
        ((since ops).length + 13) / 2 * (1 / 2 ^ 53 * M) + ((since ops).length + 3) * (1 / 2 ^ 1075) := by
  have hM0 : 0 ≤ M := by
    obtain ⟨x, hx'⟩ := List.exists_mem_of_ne_nil _ hne
    exact (abs_nonneg x).trans (hx x hx').2
  obtain ⟨c', e, B, hI⟩ := core_track _ hn hs (w := 0) hw
    (hd ▸ track_mean_err rounding_rnd64 accuracy_rnd64 (by norm_num) (by norm_num) (N := 2 ^ 53 - 1) (fun n h => rnd64_nat (by omega)) hM hM0
      c.len) ops
  obtain ⟨-, -, h⟩ := hI (by omega) hx
  refine ⟨c', _, e, B.mean_ok hne, ?_⟩
  have hpos : (0 : ℚ) < (since ops).length := by exact_mod_cast List.length_pos_iff.2 hne
  rw [mul_comm, ← le_div_iff₀ hpos] at h
  refine h.trans ?_
  unfold meanErr
  rw [div_le_iff₀ hpos]
  set n : ℚ := ((since ops).length : ℚ)
  generalize hu : (1 : ℚ) / 2 ^ 53 = u
  generalize ht : (1 : ℚ) / 2 ^ 1075 = t
  have hu0 : 0 ≤ u := by rw [← hu]; positivity
  have ht0 : 0 ≤ t := by rw [← ht]; positivity
  have hu1 : u ≤ 1 := by rw [← hu]; norm_num
  have h1 : u * u * M ≤ u * M := by
    have := mul_le_mul_of_nonneg_right hu1 (mul_nonneg hu0 hM0)
    linarith
  have h2 : u * t ≤ t := by
    have := mul_le_mul_of_nonneg_right hu1 ht0
    linarith
  have h3 := mul_le_mul_of_nonneg_left h1 hpos.le
  have h4 := mul_le_mul_of_nonneg_left h2 hpos.le
  have h5 : 0 ≤ n * (u * M) := by positivity
  have h6 : 0 ≤ n * t := by positivity
  linarith

/-- C69, EWMA in binary64: the error is at most `(7·2⁻⁵³·M + 4·2⁻¹⁰⁷⁵) / d`, however many values are pushed. -/
theorem C69_ewma_accuracy {cfg : Config ℚ} {c : Core ℚ} (hn : newCore (Arith.rounded rnd64 pw) cfg = .ok c) {d : ℚ}
    (hd : cfg.decay = some d) (hrd : rnd64 d = d) (hs : ∀ k ∈ cfg.sums.getD [], k ≤ 65) {M : ℚ} (hM : rnd64 M = M) (ops : List (MOp ℚ))
    (hx : ∀ x ∈ since ops, rnd64 x = x ∧ |x| ≤ M) (hne : since ops ≠ []) :
    ∃ c' v, run (Arith.rounded rnd64 pw) c ops = .val (c', []) ∧ mean c' = .ok v ∧
      |v - ewTotal d (fun x => x) (since ops)| ≤ (7 * (1 / 2 ^ 53 * M) + 4 * (1 / 2 ^ 1075)) / d := by
  have hM0 : 0 ≤ M := by
    obtain ⟨x, hx'⟩ := List.exists_mem_of_ne_nil _ hne
    exact (abs_nonneg x).trans (hx x hx').2
  obtain ⟨w, hw, hc, hdd⟩ := newCore_ok _ hn
  obtain ⟨a, b, rfl⟩ := hdd d hd
  simp only [GoOrd.le, Arith.rounded, Int.cast_zero, Int.cast_one, rounding_rnd64.zero, rounding_rnd64.one, decide_eq_false_iff_not,
    not_le] at a b
  obtain ⟨c', e, B, hI⟩ := core_track _ hn hs hw
    (hd ▸ track_ew_err rounding_rnd64 accuracy_rnd64 (by norm_num) (by norm_num) hrd a b hM hM0 c.len) ops
  obtain ⟨-, -, -, h⟩ := hI hx
  refine ⟨c', _, e, B.mean_ok hne, ?_⟩
  rw [le_div_iff₀ a, mul_comm]
  refine (show d * |c'.mean - ewMean d (since ops)| ≤ _ from h).trans ?_
  generalize hu : (1 : ℚ) / 2 ^ 53 = u
  generalize ht : (1 : ℚ) / 2 ^ 1075 = t
  have hu0 : 0 ≤ u := by rw [← hu]; positivity
  have ht0 : 0 ≤ t := by rw [← ht]; positivity
  have hu1 : u ≤ 1 := by rw [← hu]; norm_num
  have h1 : u * u * M ≤ u * M := by
    have := mul_le_mul_of_nonneg_right hu1 (mul_nonneg hu0 hM0)
    linarith
  have h2 : u * t ≤ t := by
    have := mul_le_mul_of_nonneg_right hu1 ht0
    linarith
  have huM : 0 ≤ u * M := by positivity
  have huuM : 0 ≤ u * u * M := by positivity
  have hut : 0 ≤ u * t := by positivity
  have h7 : d * (4 * (u * M) + 2 * (u * u * M) + u * t + t) ≤ 1 * (4 * (u * M) + 2 * (u * u * M) + u * t + t) :=
    mul_le_mul_of_nonneg_right b.le (by positivity)
  linarith

/-- C69, any window, in binary64: after `n` values of absolute value at most `M` since the last `Clear`, `Mean` differs from the exact mean of
the window by at most `n·(48·2⁻⁵³·M + 8·2⁻¹⁰⁷⁵)`, as long as this is at most `M`. `M` bounds all values since `Clear`, not only those in the
window; by `C67_window_refuted` it must. -/
theorem C69_window_drift {cfg : Config ℚ} {c : Core ℚ} (hn : newCore (Arith.rounded rnd64 pw) cfg = .ok c) {w : Nat}
    (hw : cfg.window = some (w : Int)) (hd : cfg.decay = none) (hs : ∀ k ∈ cfg.sums.getD [], k ≤ 65) {M : ℚ} (ops : List (MOp ℚ))
    (hlen : (since ops).length < 2 ^ 53) (hx : ∀ x ∈ since ops, rnd64 x = x ∧ |x| ≤ M) (hne : since ops ≠ [])
    (hsmall : (since ops).length * (48 * (1 / 2 ^ 53 * M) + 8 * (1 / 2 ^ 1075)) ≤ M) :
    ∃ c' v, run (Arith.rounded rnd64 pw) c ops = .val (c', []) ∧ mean c' = .ok v ∧
      |v - (windowOf w ops).sum / (windowOf w ops).length| ≤ (since ops).length * (48 * (1 / 2 ^ 53 * M) + 8 * (1 / 2 ^ 1075)) := by
  have hM0 : 0 ≤ M := by
    obtain ⟨x, hx'⟩ := List.exists_mem_of_ne_nil _ hne
    exact (abs_nonneg x).trans (hx x hx').2
  obtain ⟨c', e, B, hI⟩ := core_track _ hn hs hw
    (hd ▸ track_drift rounding_rnd64 accuracy_rnd64 (by norm_num) (by norm_num) (by norm_num) (N := (since ops).length)
      (fun n h => rnd64_nat (by omega)) hM0 hsmall w c.len) ops
  exact ⟨c', _, e, B.mean_ok hne, (hI le_rfl hx).2⟩

end

/-- The hypotheses of the drift bound for a million values up to 1000. -/
example : (10 ^ 6 : ℚ) * (48 * (1 / 2 ^ 53 * 1000) + 8 * (1 / 2 ^ 1075)) ≤ 1000 ∧
    (10 ^ 6 : ℚ) * (48 * (1 / 2 ^ 53 * 1000) + 8 * (1 / 2 ^ 1075)) ≤ 6 / 10 ^ 6 := by decide +kernel

end Verif.Props
