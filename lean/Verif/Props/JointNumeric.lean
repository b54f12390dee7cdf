import Verif.Proofs.JointConst
import Verif.Proofs.JointPoison
import Verif.Props.JointRounded

/-! # C76–C78: the numbers of a joint core in floating-point arithmetic

Constant streams, the range and accuracy of the means, the sign of the variances, and what NaN and infinities do. -/

namespace Verif.Props
open Verif Verif.Spec
open Verif.FP (Arith Rounding rnd64 NonFinite)
open Verif.Joint (Tuple)
open Verif.JFP (PowOK)

/-! ## C76 -/

/-- A helper: `Mean(i)` of a core that has seen values. -/
theorem joint_mean_ok {F : Type} {A : Arith F} {n w : Nat} {d : Option F} {ts : List Tuple} {xs : List (List F)} {c : Joint.Core F}
    (B : JFP.Book n w d ts xs c) (hx : xs ≠ []) {i : Nat} (hi : i < n) : JFP.mean A c i = .ok (c.means.getD i (A.ofInt 0)) := by
  have h0 : c.count ≠ 0 := by
    rw [B.count]
    have := List.length_pos_iff.2 (lastN_ne_nil (w := w) hx)
    omega
  unfold JFP.mean
  rw [if_neg h0, if_neg (by rw [B.mlen]; omega)]
  simp

/-- A helper: `Sum` of a core that has seen values. -/
theorem joint_sum_ok {F : Type} {n w : Nat} {d : Option F} {ts : List Tuple} {xs : List (List F)} {c : Joint.Core F}
    (B : JFP.Book n w d ts xs c) (hx : xs ≠ []) {a : Tuple} {v : F} (hv : c.sums (Joint.hash a) = some v) : JFP.sum c a = .ok v := by
  have h0 : c.count ≠ 0 := by
    rw [B.count]
    have := List.length_pos_iff.2 (lastN_ne_nil (w := w) hx)
    omega
  unfold JFP.sum
  rw [if_neg h0, hv]

/-- C76, in full for exponents at most 65: a core, windowed, decaying or not, whatever it tracks (even tuples with colliding hashes), that has
seen one point of representable coordinates any number of times reports its coordinates as means, exactly, and all sums as exactly zero. -/
theorem C76_constant {rnd : ℚ → ℚ} {pw : ℚ → Nat → ℚ} (h0 : rnd 0 = 0) (h1 : rnd 1 = 1) (hpw : ∀ k, 1 ≤ k → pw 0 k = 0) {cfg : Joint.Config ℚ}
    {c : Joint.Core ℚ} (hn : JFP.newCore (Arith.rounded rnd pw) cfg = .val (.ok c)) (hs : ∀ t ∈ cfg.sums.getD [], (∀ k ∈ t, k ≤ 65) ∧ t.sum < 2 ^ 63)
    {n : Nat} (hv : Joint.varsOf cfg = n) {x : List ℚ} (hxl : x.length = n) (hx : ∀ a ∈ x, rnd a = a) (ops : List (MOp (List ℚ)))
    (hne : since (ops.filter (okArity n)) ≠ []) (hall : ∀ y ∈ since (ops.filter (okArity n)), y = x) :
    ∃ e es, JFP.run (Arith.rounded rnd pw) c ops = .val (e, es) ∧ (∀ (i : Nat) (a : ℚ), x[i]? = some a → JFP.mean (Arith.rounded rnd pw) e i = .ok a) ∧
      ∀ m, TracksZ (cfg.sums.getD []) m → JFP.sum e (m.map Int.ofNat) = .ok 0 := by
  obtain ⟨n', w, hw, hv', -, hts, -⟩ := JFP.newCore_ok _ hn
  have e1 : n' = n := by rw [hv] at hv'; exact_mod_cast hv'.symm
  subst e1
  have hT : ∀ t ∈ cfg.sums.getD [], JFP.TOK n' t := fun t ht => ⟨(hts t ht).1, fun k hk => ⟨(hts t ht).2.1 k hk, (hs t ht).1 k hk⟩⟩
  obtain ⟨e, r, B, hI⟩ := JFP.core_track _ hn (fun t ht => (hs t ht).1) hw hv
    (JFP.track_const h0 h1 hpw hxl hx w cfg.decay hT (fun t ht => (hs t ht).2)) ops
  obtain ⟨a, -, z, -⟩ := hI hall
  refine ⟨e, _, r, fun i b hb => ?_, fun m hm => ?_⟩
  · have hi : i < n' := by
      rw [← hxl]
      exact (List.getElem?_eq_some_iff.1 hb).1
    rw [joint_mean_ok B hne hi, a hne, List.getD_eq_getElem?_getD, hb]
    rfl
  · obtain ⟨t, ht, hu⟩ := tr_tracksZ.2 hm
    have hk := (B.keys (Joint.hash (m.map Int.ofNat))).2 ⟨t, ht, _, hu, rfl⟩
    obtain ⟨v, hvv⟩ := Option.ne_none_iff_exists'.1 hk
    rw [joint_sum_ok B hne hvv, z _ _ hvv]
    simp [Arith.rounded, h0]

/-- The hypotheses hold for binary64, with overlapping tuples, for the point (0.1, 0.7). -/
example : rnd64 0 = 0 ∧ rnd64 1 = 1 ∧ (∀ k, 1 ≤ k → rnd64 ((0 : ℚ) ^ k) = 0) ∧ (∀ a ∈ [rnd64 (1 / 10), rnd64 (7 / 10)], rnd64 a = a) ∧
    (jObs Arith.b64 ⟨some [[2, 1], [1, 2]], some 2, none, none⟩ [] []).isSome ∧ TracksZ [[2, 1], [1, 2]] [1, 1] :=
  ⟨FP.rounding_rnd64.zero, FP.rounding_rnd64.one, fun k hk => by rw [zero_pow (by omega), FP.rounding_rnd64.zero],
    by simp [FP.rounding_rnd64.idem], by decide +kernel, ⟨[2, 1], by simp, by decide⟩⟩

/-! ## C77 -/

/-- A helper: a moment core for one variable. -/
theorem moment_companion {F : Type} [GoOrd F] (A : Arith F) {cfg : Joint.Config F} {c : Joint.Core F} (hn : JFP.newCore A cfg = .val (.ok c)) :
    ∃ c', FP.newCore A ⟨some [2], cfg.window, cfg.decay⟩ = .ok c' := by
  obtain ⟨n, w, hw, -, -, -, hd, -⟩ := JFP.newCore_ok A hn
  unfold FP.newCore Moment.setDefaults Moment.validate
  simp only [hw, Option.getD_some]
  rw [if_neg (by omega)]
  cases h : cfg.decay with
  | none => exact ⟨_, rfl⟩
  | some d =>
    obtain ⟨a, b, rfl⟩ := hd d h
    simp [a, b]

/-- A helper: the values of one variable. -/
theorem since_column {F : Type} (z : F) (i n : Nat) (ops : List (MOp (List F))) {P : F → Prop} (hi : i < n)
    (h : ∀ x ∈ since (ops.filter (okArity n)), ∀ v, x[i]? = some v → P v) : ∀ v ∈ since (columnOps z i n ops), P v := by
  rw [since_columnOps]
  intro v hv
  obtain ⟨x, hx, rfl⟩ := List.mem_map.1 hv
  have hl := since_arity n ops x hx
  refine h x hx _ ?_
  rw [List.getElem?_eq_getElem (by omega), List.getD_eq_getElem?_getD, List.getElem?_eq_getElem (by omega)]
  rfl

theorem since_column_ne {F : Type} (z : F) {i n : Nat} {ops : List (MOp (List F))} (hne : since (ops.filter (okArity n)) ≠ []) :
    since (columnOps z i n ops) ≠ [] := by
  rw [since_columnOps]
  unfold JFP.column
  simpa using hne

/-- C77, range, partial: in rounded arithmetic, without a window, with or without decay, `Mean(i)` lies between the least and the largest value
of variable `i`. Missing: windows, for which it is false (`C77_window_refuted`). -/
theorem C77_mean_range_partial {rnd : ℚ → ℚ} (R : Rounding rnd) {pw : ℚ → Nat → ℚ} {cfg : Joint.Config ℚ} {c : Joint.Core ℚ}
    (hn : JFP.newCore (Arith.rounded rnd pw) cfg = .val (.ok c)) (hw : cfg.window = some 0) (hs : ∀ t ∈ cfg.sums.getD [], ∀ k ∈ t, k ≤ 65)
    (hdec : ∀ d, cfg.decay = some d → rnd d = d) {n : Nat} (hv : Joint.varsOf cfg = n) {i : Nat} (hi : i < n) {lo hi' : ℚ} (hlo : rnd lo = lo)
    (hhi : rnd hi' = hi') (ops : List (MOp (List ℚ)))
    (hx : ∀ x ∈ since (ops.filter (okArity n)), ∀ v, x[i]? = some v → rnd v = v ∧ lo ≤ v ∧ v ≤ hi') (hne : since (ops.filter (okArity n)) ≠ []) :
    ∃ e es v, JFP.run (Arith.rounded rnd pw) c ops = .val (e, es) ∧ JFP.mean (Arith.rounded rnd pw) e i = .ok v ∧ lo ≤ v ∧ v ≤ hi' := by
  obtain ⟨c', hc'⟩ := moment_companion _ hn
  obtain ⟨e, es, e', r, r', -, hm⟩ := C74_mean _ hn hs hc' (by simp) rfl rfl hv hi ops
  obtain ⟨e2, v, r2, h1, h2⟩ := C67_mean_range_partial R hc' hw (by simp) hdec hlo hhi (columnOps ((Arith.rounded rnd pw).ofInt 0) i n ops)
    (since_column _ i n ops hi hx) (since_column_ne _ hne)
  rw [r'] at r2
  simp only [Go.val.injEq, Prod.mk.injEq, and_true] at r2
  exact ⟨e, es, v, r, (hm v).2 (r2 ▸ h1), h2⟩

/-- C77, variances, partial: in rounded arithmetic, without a window, with or without decay, the sums of squares (`Sum` of the tuple with 2 at
one variable) are not negative, so `Std`-like metrics are not NaN. Missing: windows, for which it is false (`C77_window_refuted`). -/
theorem C77_variance_partial {rnd : ℚ → ℚ} (R : Rounding rnd) {pw : ℚ → Nat → ℚ} (P : PowOK rnd pw) (hpe : ∀ x k, Even k → 0 ≤ pw x k)
    (hpn : ∀ x k, 0 ≤ x → 0 ≤ pw x k) {cfg : Joint.Config ℚ} {c : Joint.Core ℚ} (hn : JFP.newCore (Arith.rounded rnd pw) cfg = .val (.ok c))
    (hw : cfg.window = some 0) (hs : ∀ t ∈ cfg.sums.getD [], ∀ k ∈ t, k ≤ 65) (hc : NoCollision (cfg.sums.getD []))
    (hdr : ∀ d, cfg.decay = some d → rnd d = d) {n : Nat} (hv : Joint.varsOf cfg = n) {i : Nat} (hi : i < n)
    (ht : TracksZ (cfg.sums.getD []) ((List.replicate n 0).set i 2)) (ops : List (MOp (List ℚ))) :
    ∃ e es, JFP.run (Arith.rounded rnd pw) c ops = .val (e, es) ∧ ∀ v, JFP.sum e ((List.replicate n 0).set i 2) = .ok v → 0 ≤ v := by
  obtain ⟨c', hc'⟩ := moment_companion _ hn
  obtain ⟨e, es, e', r, r', hm⟩ := C74_square_partial R P hn hs hc (w := 0) (by simpa using hw) (fun h => absurd h (by omega)) hc' (by simp)
    ⟨2, by simp, le_rfl⟩ rfl rfl hdr hv hi ht ops
  obtain ⟨e2, r2, h1, -⟩ := C66_variance_partial R hpe hpn hc' hw (by simp) (columnOps 0 i n ops)
  rw [r'] at r2
  simp only [Go.val.injEq, Prod.mk.injEq, and_true] at r2
  exact ⟨e, es, r, fun v hv => h1 v (r2 ▸ (hm v).1 hv)⟩

/-- C77, accuracy, binary64 without overflow, no window and no decay: `Mean(i)` is off by at most about (n/2 + 6.5)·2⁻⁵³ times the largest
magnitude of variable `i`. -/
theorem C77_mean_accuracy {pw : ℚ → Nat → ℚ} {cfg : Joint.Config ℚ} {c : Joint.Core ℚ}
    (hn : JFP.newCore (Arith.rounded rnd64 pw) cfg = .val (.ok c)) (hw : cfg.window = some 0) (hd : cfg.decay = none)
    (hs : ∀ t ∈ cfg.sums.getD [], ∀ k ∈ t, k ≤ 65) {n : Nat} (hv : Joint.varsOf cfg = n) {i : Nat} (hi : i < n) {M : ℚ} (hM : rnd64 M = M)
    (ops : List (MOp (List ℚ))) (hlen : (since (ops.filter (okArity n))).length < 2 ^ 53)
    (hx : ∀ x ∈ since (ops.filter (okArity n)), ∀ v, x[i]? = some v → rnd64 v = v ∧ |v| ≤ M) (hne : since (ops.filter (okArity n)) ≠ []) :
    ∃ e es v, JFP.run (Arith.rounded rnd64 pw) c ops = .val (e, es) ∧ JFP.mean (Arith.rounded rnd64 pw) e i = .ok v ∧
      |v - (coord i (since (ops.filter (okArity n)))).sum / (since (ops.filter (okArity n))).length| ≤
        ((since (ops.filter (okArity n))).length + 13) / 2 * (1 / 2 ^ 53 * M) + ((since (ops.filter (okArity n))).length + 3) * (1 / 2 ^ 1075) := by
  obtain ⟨c', hc'⟩ := moment_companion _ hn
  obtain ⟨e, es, e', r, r', -, hm⟩ := C74_mean _ hn hs hc' (by simp) rfl rfl hv hi ops
  have hz : (Arith.rounded rnd64 pw).ofInt 0 = 0 := by simp [Arith.rounded, FP.rounding_rnd64.zero]
  rw [hz] at r'
  have hcol : since (columnOps (0 : ℚ) i n ops) = coord i (since (ops.filter (okArity n))) := since_columnOps _ _ _ _
  have hcl : (coord i (since (ops.filter (okArity n)))).length = (since (ops.filter (okArity n))).length := by simp [coord]
  obtain ⟨e2, v, r2, h1, h2⟩ := C69_mean_accuracy hc' hw hd (by simp) hM (columnOps 0 i n ops) (by rw [hcol, hcl]; exact hlen)
    (since_column _ i n ops hi hx) (since_column_ne _ hne)
  rw [r'] at r2
  simp only [Go.val.injEq, Prod.mk.injEq, and_true] at r2
  rw [hcol, hcl] at h2
  exact ⟨e, es, v, r, (hm v).2 (r2 ▸ h1), h2⟩

/-- C77, accuracy in a window, binary64 without overflow: the error of `Mean(i)` grows at most linearly with the number of points since the
last `Clear`. -/
theorem C77_window_drift {pw : ℚ → Nat → ℚ} {cfg : Joint.Config ℚ} {c : Joint.Core ℚ}
    (hn : JFP.newCore (Arith.rounded rnd64 pw) cfg = .val (.ok c)) {w : Nat} (hw : cfg.window = some (w : Int)) (hd : cfg.decay = none)
    (hs : ∀ t ∈ cfg.sums.getD [], ∀ k ∈ t, k ≤ 65) {n : Nat} (hv : Joint.varsOf cfg = n) {i : Nat} (hi : i < n) {M : ℚ}
    (ops : List (MOp (List ℚ))) (hlen : (since (ops.filter (okArity n))).length < 2 ^ 53)
    (hx : ∀ x ∈ since (ops.filter (okArity n)), ∀ v, x[i]? = some v → rnd64 v = v ∧ |v| ≤ M) (hne : since (ops.filter (okArity n)) ≠ [])
    (hsmall : (since (ops.filter (okArity n))).length * (48 * (1 / 2 ^ 53 * M) + 8 * (1 / 2 ^ 1075)) ≤ M) :
    ∃ e es v, JFP.run (Arith.rounded rnd64 pw) c ops = .val (e, es) ∧ JFP.mean (Arith.rounded rnd64 pw) e i = .ok v ∧
      |v - Spec.mean (coord i (windowOf w (ops.filter (okArity n))))| ≤
        (since (ops.filter (okArity n))).length * (48 * (1 / 2 ^ 53 * M) + 8 * (1 / 2 ^ 1075)) := by
  obtain ⟨c', hc'⟩ := moment_companion _ hn
  obtain ⟨e, es, e', r, r', -, hm⟩ := C74_mean _ hn hs hc' (by simp) rfl rfl hv hi ops
  have hz : (Arith.rounded rnd64 pw).ofInt 0 = 0 := by simp [Arith.rounded, FP.rounding_rnd64.zero]
  rw [hz] at r'
  have hcol : since (columnOps (0 : ℚ) i n ops) = coord i (since (ops.filter (okArity n))) := since_columnOps _ _ _ _
  have hwin : windowOf w (columnOps (0 : ℚ) i n ops) = coord i (windowOf w (ops.filter (okArity n))) := by
    unfold windowOf
    rw [hcol]
    exact JFP.lastN_map _ _ _
  have hcl : (coord i (since (ops.filter (okArity n)))).length = (since (ops.filter (okArity n))).length := by simp [coord]
  obtain ⟨e2, v, r2, h1, h2⟩ := C69_window_drift hc' hw hd (by simp) (M := M) (columnOps 0 i n ops) (by rw [hcol, hcl]; exact hlen)
    (since_column _ i n ops hi hx) (since_column_ne _ hne) (by rw [hcol, hcl]; exact hsmall)
  rw [r'] at r2
  simp only [Go.val.injEq, Prod.mk.injEq, and_true] at r2
  rw [hwin, hcol, hcl] at h2
  exact ⟨e, es, v, r, (hm v).2 (r2 ▸ h1), h2⟩

/-- C77 is false for windowed cores in binary64: window 2, points (1e16, 0), (1, 0), (1, 0). The window holds (1, 0) twice, `Mean(0)` is 0.5.
And (0.1, 0), (0.7, 0), (0.7, 0): the variance of the first variable over two equal values is negative. -/
theorem C77_window_refuted : (∃ c e : Joint.Core ℚ, JFP.newCore Arith.b64 ⟨some [[2, 0]], some 2, none, none⟩ = .val (.ok c) ∧
    JFP.run Arith.b64 c [.push [10 ^ 16, 0], .push [1, 0], .push [1, 0]] = .val (e, []) ∧ JFP.mean Arith.b64 e 0 = .ok (1 / 2)) ∧
    ∃ (c e : Joint.Core ℚ) (v : ℚ), JFP.newCore Arith.b64 ⟨some [[2, 0]], some 2, none, none⟩ = .val (.ok c) ∧
    JFP.run Arith.b64 c [.push [v01, 0], .push [v07, 0], .push [v07, 0]] = .val (e, []) ∧ JFP.sum e [2, 0] = .ok v ∧ v < 0 := by
  constructor
  · have h : jObs Arith.b64 ⟨some [[2, 0]], some 2, none, none⟩ [.push [10 ^ 16, 0], .push [1, 0], .push [1, 0]] [] =
        some (([], .ok (1 / 2), .ok 0), 2, []) := by decide +kernel
    obtain ⟨c, e, h1, h2, -, h3, -⟩ := jObs_run h
    exact ⟨c, e, h1, h2, h3⟩
  · have h : jObs Arith.b64 ⟨some [[2, 0]], some 2, none, none⟩ [.push [v01, 0], .push [v07, 0], .push [v07, 0]] [[2, 0]] =
        some (([.ok (-9007199254740991 / 162259276829213363391578010288128)], .ok (rnd64 (7 / 10)), .ok 0), 2, []) := by decide +kernel
    obtain ⟨c, e, h1, h2, h3, -⟩ := jObs_run h
    simp only [List.map_cons, List.map_nil, List.cons.injEq, and_true] at h3
    exact ⟨c, e, _, h1, h2, h3, by norm_num⟩

/-- The hypotheses of the positive parts hold for binary64 and the tuples of `Corr`. -/
example : Rounding rnd64 ∧ PowOK rnd64 (fun x k => rnd64 (x ^ k)) ∧ (∀ x k, Even k → 0 ≤ rnd64 (x ^ k)) ∧
    (∀ x k, 0 ≤ x → 0 ≤ rnd64 (x ^ k)) ∧ TracksZ [[1, 1], [2, 0], [0, 2]] ((List.replicate 2 0).set 1 2) :=
  ⟨FP.rounding_rnd64, powOK64, fun x _ h => FP.rounding_rnd64.nonneg (Even.pow_nonneg h x),
    fun _ k h => FP.rounding_rnd64.nonneg (pow_nonneg h k), ⟨[0, 2], by simp, by decide⟩⟩

/-! ## C78 -/

/-- C78 is false for every window of at least two: once a point with a NaN or infinite coordinate `i` has been pushed and has left the window,
`Mean(i)` and the `Sum` of every tracked tuple that involves variable `i` are NaN, whatever is pushed, until `Clear`. -/
theorem C78_poison_refuted {rnd : ℚ → XF ℚ} {pw : ℚ → Nat → XF ℚ} {cfg : Joint.Config (XF ℚ)} {c : Joint.Core (XF ℚ)}
    (hn : JFP.newCore (Arith.ieee rnd pw) cfg = .val (.ok c)) (hs : ∀ t ∈ cfg.sums.getD [], (∀ k ∈ t, k ≤ 65) ∧ t.sum < 2 ^ 63)
    (hc : NoCollision (cfg.sums.getD [])) {w : Nat} (hw : cfg.window = some (w : Int)) (hw2 : 2 ≤ w)
    (hcnt : ∀ n : Nat, 1 ≤ n → n ≤ w → ∃ q, 0 < q ∧ rnd (n : Int) = .fin q) {n : Nat} (hv : Joint.varsOf cfg = n) {i : Nat} (hi : i < n)
    (ops : List (MOp (List (XF ℚ))))
    (hbad : ∃ y ∈ (since (ops.filter (okArity n))).take ((since (ops.filter (okArity n))).length - w), ∀ v, y[i]? = some v → ∀ q, v ≠ .fin q) :
    ∃ e es, JFP.run (Arith.ieee rnd pw) c ops = .val (e, es) ∧ JFP.mean (Arith.ieee rnd pw) e i = .ok .nan ∧
      ∀ m, TracksZ (cfg.sums.getD []) m → (∃ k, m[i]? = some k ∧ 1 ≤ k) → JFP.sum e (m.map Int.ofNat) = .ok .nan := by
  obtain ⟨n', w', hw', hv', -, hts, hd, -⟩ := JFP.newCore_ok _ hn
  have e1 : n' = n := by rw [hv] at hv'; exact_mod_cast hv'.symm
  have e2 : w' = w := by rw [hw] at hw'; exact_mod_cast (Option.some.inj hw').symm
  subst e1; subst e2
  have hdn : cfg.decay = none := by
    cases h : cfg.decay with
    | none => rfl
    | some d =>
      obtain ⟨-, -, h0⟩ := hd d h
      omega
  have hT : ∀ t ∈ cfg.sums.getD [], JFP.TOK n' t := fun t ht => ⟨(hts t ht).1, fun k hk => ⟨(hts t ht).2.1 k hk, (hs t ht).1 k hk⟩⟩
  obtain ⟨e, r, B, -, h2, h3⟩ := JFP.core_track _ hn (fun t ht => (hs t ht).1) hw hv
    (hdn ▸ JFP.track_poison hw2 hcnt hT (noColl_of hc) (fun t ht => (hs t ht).2) hi) ops
  obtain ⟨y, hy, hyf⟩ := hbad
  have hne : since (ops.filter (okArity n')) ≠ [] := by
    intro h0
    rw [h0] at hy
    simp at hy
  have hsub : ∀ k, k ≤ w' → y ∈ (since (ops.filter (okArity n'))).take ((since (ops.filter (okArity n'))).length - k) := by
    intro k hk
    refine List.mem_of_mem_take (i := (since (ops.filter (okArity n'))).length - w') ?_
    rw [List.take_take, min_eq_left (by omega)]
    exact hy
  refine ⟨e, _, r, ?_, fun m hm hmi => ?_⟩
  · rw [joint_mean_ok B hne hi]
    refine congrArg Except.ok (h2 ⟨y, ?_, hyf⟩)
    rw [List.dropLast_eq_take]
    exact hsub 1 (by omega)
  · refine joint_sum_ok B hne (h3 ⟨y, ?_, hyf⟩ _ (tr_tracksZ.2 hm) ?_)
    · rw [List.dropLast_eq_take, List.dropLast_eq_take, List.length_take, List.take_take]
      have := hsub 2 hw2
      convert this using 2
      omega
    · obtain ⟨k, hk, h1⟩ := hmi
      exact ⟨k, by simp [hk], by exact_mod_cast h1⟩

set_option synthInstance.maxSize 512 in
set_option synthInstance.maxHeartbeats 200000 in
/-- Window 2 in binary64: a point (NaN, 0), then three numbers; `Mean(0)`, `Sum{1,1}` and `Sum{2,0}` are NaN, `Sum{0,2}` and `Mean(1)` are not. -/
example : jObs Arith.ieee64 ⟨some [[1, 1], [2, 0], [0, 2]], some 2, none, none⟩
      [.push [.nan, .fin 0], .push [.fin 1, .fin 1], .push [.fin 2, .fin 2], .push [.fin 4, .fin 4]] [[1, 1], [2, 0], [0, 2]] =
    some (([.ok .nan, .ok .nan, .ok (.fin 2)], .ok .nan, .ok (.fin 3)), 2, []) ∧
    FP.over64 (rnd64 1) = .fin 1 ∧ FP.over64 (rnd64 2) = .fin 2 := by decide +kernel

/-- C78 for `Clear`, any arithmetic: it gives back exactly the new core. -/
theorem C78_clear_partial {F : Type} [GoOrd F] (A : Arith F) {cfg : Joint.Config F} {c : Joint.Core F} (hn : JFP.newCore A cfg = .val (.ok c))
    (hs : ∀ t ∈ cfg.sums.getD [], ∀ k ∈ t, k ≤ 65) (ops : List (MOp (List F))) : ∃ es, JFP.run A c (ops ++ [.clear]) = .val (c, es) := by
  obtain ⟨n, w, hw, hv, -, -, -, B0, hm0, z1, z2⟩ := JFP.newCore_ok A hn
  obtain ⟨e, r, B, -⟩ := JFP.core_track A hn hs hw hv (JFP.track_true A n w cfg.decay _) ops
  have hq : c.queue = Ring.new w ∧ c.count = 0 := by
    unfold JFP.newCore at hn
    cases h : Joint.validate (A.ofInt 0) (A.ofInt 1) (Joint.setDefaults cfg) with
    | some e => rw [h] at hn; simp at hn
    | none =>
      rw [h] at hn
      unfold JFP.mk at hn
      simp only at hn
      cases h' : JFP.initSums A ((Joint.setDefaults cfg).sums.getD []) (fun _ => none) with
      | panic => rw [h'] at hn; simp at hn
      | hang => rw [h'] at hn; simp at hn
      | val m =>
        rw [h'] at hn
        simp only [Go.val.injEq, Except.ok.injEq] at hn
        rw [← hn]
        simp [Joint.setDefaults, hw]
  have hmap : ∀ m m' : Joint.Map F, Joint.KeyInv (Joint.keyOf (cfg.sums.getD [])) m → Joint.KeyInv (Joint.keyOf (cfg.sums.getD [])) m' →
      JFP.AllZero A m → JFP.AllZero A m' → m = m' := by
    intro m m' k1 k2 a1 a2
    funext k
    cases h : m k with
    | none =>
      cases h' : m' k with
      | none => rfl
      | some v => exact absurd h ((k1 k).2 ((k2 k).1 (by simp [h'])))
    | some v =>
      cases h' : m' k with
      | none => exact absurd h' ((k2 k).2 ((k1 k).1 (by simp [h])))
      | some v' => rw [a1 k v h, a2 k v' h']
  have hc : JFP.clear A e = c := by
    have h1 := hmap (JFP.zeroMap A e.sums) c.sums (JFP.zeroMap_keys A B.keys) B0.keys (JFP.zeroMap_zero A _) z1
    have h2 := hmap (JFP.zeroMap A e.newSums) c.newSums (JFP.zeroMap_keys A B.nkeys) B0.nkeys (JFP.zeroMap_zero A _) z2
    unfold JFP.clear
    rw [h1, h2, B.win, List.map_const', B.mlen, ← hm0, Int.toNat_natCast, ← hq.1, ← hq.2,
      B.dec, B.tup, ← B0.win, ← B0.dec, ← B0.tup]
  refine ⟨JFP.arityErrors n ops, ?_⟩
  unfold JFP.run at r ⊢
  rw [Go.runOps_append, r]
  simp [Go.runOps, logged, JFP.step, hc]

/-- C78 for window 1, any arithmetic: after a `Push` the numbers are those of a new core after the same `Push`. -/
theorem C78_window_one_partial {F : Type} [GoOrd F] (A : Arith F) {cfg : Joint.Config F} {c : Joint.Core F} (hn : JFP.newCore A cfg = .val (.ok c))
    (hs : ∀ t ∈ cfg.sums.getD [], ∀ k ∈ t, k ≤ 65) (hc : NoCollision (cfg.sums.getD [])) (hw : cfg.window = some 1) {n : Nat}
    (hv : Joint.varsOf cfg = n) (ops : List (MOp (List F))) {x : List F} (hx : x.length = n) :
    ∃ e es e', JFP.run A c (ops ++ [.push x]) = .val (e, es) ∧ JFP.run A c [.push x] = .val (e', []) ∧ (∀ i, JFP.mean A e i = JFP.mean A e' i) ∧
      ∀ m, TracksZ (cfg.sums.getD []) m → JFP.sum e (m.map Int.ofNat) = JFP.sum e' (m.map Int.ofNat) := by
  obtain ⟨_, w, hww, -, -, -, hd, -⟩ := JFP.newCore_ok A hn
  have e2 : w = 1 := by rw [hw] at hww; exact_mod_cast (Option.some.inj hww).symm
  subst e2
  have hdn : cfg.decay = none := by
    cases h : cfg.decay with
    | none => rfl
    | some d =>
      obtain ⟨-, -, h0⟩ := hd d h
      omega
  have hf : (ops ++ [MOp.push x]).filter (okArity n) = ops.filter (okArity n) ++ [.push x] := by simp [okArity, hx]
  have hf' : [MOp.push x].filter (okArity n) = [.push x] := by simp [okArity, hx]
  obtain ⟨e, r, c1, l1, h1, h2⟩ := joint_gst A hn hs hc (w := 1) (by simpa using hw) hv (fun h => absurd h (by omega)) (ops ++ [.push x])
  obtain ⟨e', r', c1', l1', h1', h2'⟩ := joint_gst A hn hs hc (w := 1) (by simpa using hw) hv (fun h => absurd h (by omega)) [.push x]
  rw [hf, since_push, hdn] at h1 h2
  rw [hf', show since [MOp.push x] = [] ++ [x] from since_push [] x, hdn] at h1' h2'
  have hlen : ∀ xs : List (List F), (lastN 1 (xs ++ [x])).length = 1 := by
    intro xs
    rw [lastN_length]
    simp
  have hroom : ∀ xs : List (List F), JFP.roomG A n 1 xs (JFP.gst A n 1 none xs) = (List.replicate n (A.ofInt 0), fun _ => A.ofInt 0) := by
    intro xs
    by_cases h : xs = []
    · subst h
      rw [JFP.roomG_room A (.inr (by simp [lastN]))]
      rfl
    · exact JFP.roomG_one A rfl h
  have hg : ∀ xs : List (List F), JFP.gst A n 1 none (xs ++ [x]) = JFP.gst A n 1 none ([] ++ [x]) := by
    intro xs
    rw [JFP.gst_add, JFP.gst_add, hroom, hroom, hlen, hlen]
  have hcount : e.count = e'.count := by
    rw [c1, c1', windowOf, windowOf, hf, hf', since_push, show since [MOp.push x] = [] ++ [x] from since_push [] x, hlen, hlen]
  rw [hg] at h1 h2
  refine ⟨e, _, e', r, ?_, fun i => ?_, fun m hm => ?_⟩
  · rw [r']
    simp [JFP.arityErrors, okArity, hx]
  · unfold JFP.mean
    rw [hcount, h1, h1']
  · unfold JFP.sum
    rw [hcount, h2 m hm, h2' m hm]

end Verif.Props
