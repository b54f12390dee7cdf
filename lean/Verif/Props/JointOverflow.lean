import Verif.Proofs.JointOverflow
import Verif.Props.NoOverflow
import Verif.Props.EwAccuracy

/-! # C105: joint cores do not overflow on data of moderate size

The arithmetic has infinities and NaN: `ieeeOf rnd64 pw over64` is binary64 with the power function `pw`. The bounds of C83, C98 and C103 are for
rounding without overflow; here it is shown that they hold with overflow too. `M ≥ 1` bounds the absolute values of all coordinates of all points
since the last `Clear`, `N` is the number of these points. -/

namespace Verif.Props
open Verif Verif.Spec Verif.FP
open Verif.Joint (Tuple)

/-- Finite points as points of the IEEE arithmetic. -/
def finPts (ops : List (MOp (List ℚ))) : List (MOp (List (XF ℚ))) :=
  ops.map fun
    | .push x => .push (x.map XF.fin)
    | .clear => .clear

theorem finPts_filter (n : Nat) (ops : List (MOp (List ℚ))) : (finPts ops).filter (okArity n) = finPts (ops.filter (okArity n)) := by
  induction ops with
  | nil => rfl
  | cons o ops ih =>
    have h : finPts (o :: ops) = (match o with | .push x => .push (x.map XF.fin) | .clear => .clear) :: finPts ops := rfl
    rw [h, List.filter_cons, List.filter_cons, ih]
    cases o with
    | push x =>
      by_cases hx : x.length = n <;> simp [okArity, hx, finPts]
    | clear => rfl

theorem since_finPts (ops : List (MOp (List ℚ))) : since (finPts ops) = (since ops).map (List.map XF.fin) := by
  induction ops using List.reverseRecOn with
  | nil => rfl
  | append_singleton ops op ih =>
    unfold finPts at ih ⊢
    rw [List.map_append]
    cases op with
    | push x => simp only [List.map_cons, List.map_nil, since_push, ih, List.map_append]
    | clear => simp only [List.map_cons, List.map_nil, since_clear]

/-- What is assumed of the points: representable coordinates, bounded by `M`. -/
def BoundedPts (M : ℚ) (data : List (List ℚ)) : Prop := ∀ x ∈ data, ∀ a ∈ x, rnd64 a = a ∧ |a| ≤ M

theorem BoundedPts.at {M : ℚ} {data : List (List ℚ)} (h : BoundedPts M data) {n i : Nat} (hl : ∀ x ∈ data, x.length = n) (hi : i < n) :
    BoundedAt i M data := by
  intro x hx
  have hxl := hl x hx
  have : x.getD i 0 ∈ x := by
    rw [List.getD_eq_getElem?_getD, List.getElem?_eq_getElem (by omega)]
    exact List.getElem_mem _
  exact h x hx _ this

theorem prefix_pts {M : ℚ} {data ys : List (List ℚ)} (hp : ys <+: data) (h : BoundedPts M data) : BoundedPts M ys :=
  fun x hx => h x (hp.subset hx)

theorem column_bounded {i : Nat} {M : ℚ} {data : List (List ℚ)} (h : BoundedAt i M data) :
    ∀ y ∈ JFP.column 0 i data, rnd64 y = y ∧ |y| ≤ M := by
  intro y hy
  obtain ⟨x, hx, rfl⟩ := List.mem_map.1 hy
  exact h x hx

theorem fits_room {M : ℚ} (hM1 : 1 ≤ M) (h : 100000 * (M * M) < two 1024) : 2 ^ 80 * (2 + 4 * M) < two 1024 ∧ 2000 * ((2 + 4 * M) * (2 + 4 * M)) < two 1024 := by
  have hM : M < 2 ^ 512 := by
    by_contra hc
    push Not at hc
    have h1 := mul_self_le_mul_self (by positivity) hc
    have h2 : two 1024 ≤ (2 ^ 512 : ℚ) * 2 ^ 512 := by decide +kernel
    have h3 : (0 : ℚ) < 2 ^ 512 * 2 ^ 512 := by positivity
    generalize (2 ^ 512 : ℚ) * 2 ^ 512 = q at *
    linarith
  constructor
  · refine lt_of_le_of_lt (b := 2 ^ 80 * (6 * 2 ^ 512)) (mul_le_mul_of_nonneg_left ?_ (by positivity)) (by decide +kernel)
    generalize (2 ^ 512 : ℚ) = q at *
    linarith
  · refine lt_of_le_of_lt ?_ h
    have h1 : (2 + 4 * M) * (2 + 4 * M) ≤ (6 * M) * (6 * M) := mul_self_le_mul_self (by linarith) (by linarith)
    have : 0 ≤ M * M := mul_self_nonneg M
    linarith

attribute [local irreducible] two

section
variable {pw : ℚ → Nat → ℚ} {u : ℚ}

theorem fits64 (P : JFP.PowOK rnd64 pw) (hu : 1 / 2 ^ 53 ≤ u) (hu1 : u ≤ 1 / 4096) (hsq : ∀ x, |pw x 2 - x * x| ≤ u * (x * x) + 1 / 2 ^ 1075) {M : ℚ}
    (hM1 : 1 ≤ M) (h : 100000 * (M * M) < two 1024) : JFP.Fits rnd64 pw u (1 / 2 ^ 1075) (two 1024) (2 + 4 * M) over64 where
  R := rounding_rnd64
  P := P
  acc := accuracy_weaken hu
  u0 := le_trans (by positivity) hu
  u1 := hu1
  t0 := by positivity
  t1 := by decide +kernel
  sq := hsq
  ov := over64_fin
  D1 := by linarith
  room1 := (fits_room hM1 h).1
  room2 := (fits_room hM1 h).2

/-- The means along the way. -/
theorem means_le {d : Option ℚ} (hd : ∀ dd, d = some dd → rnd64 dd = dd ∧ 0 < dd ∧ dd < 1) {n : Nat} {M : ℚ} (hM : rnd64 M = M) (hM0 : 0 ≤ M)
    {data : List (List ℚ)} (hl : ∀ x ∈ data, x.length = n) (hlen : d = none → data.length ≤ 2 ^ 43) (hx : BoundedPts M data) :
    ∀ m ∈ (JFP.gst (Arith.rounded rnd64 pw) n 0 d data).1, |m| ≤ M := by
  intro m hm
  obtain ⟨i, hi, rfl⟩ := List.getElem_of_mem hm
  rw [JFP.gst_length _ data hl] at hi
  have hz : (Arith.rounded rnd64 pw).ofInt 0 = 0 := by simp [Arith.rounded, rounding_rnd64.zero]
  have h1 := JFP.mean_col (Arith.rounded rnd64 pw) (w := 0) (d := d) hi data hl
  rw [hz, List.getD_eq_getElem?_getD, List.getElem?_eq_getElem (by rw [JFP.gst_length _ data hl]; exact hi), Option.getD_some] at h1
  rw [h1]
  have hb := column_bounded (hx.at hl hi)
  cases d with
  | none =>
    have hcl : (JFP.column 0 i data).length ≤ 2 ^ 43 := by simpa [JFP.column] using hlen rfl
    exact (((Track.closed (track_mean_err (pw := pw) rounding_rnd64 accuracy_rnd64 (by positivity) (by positivity) (N := 2 ^ 43)
      (fun n h => rnd64_nat (by omega)) hM hM0 0) (JFP.column 0 i data)).1 hcl hb).2).1
  | some dd =>
    obtain ⟨h1, h2, h3⟩ := hd dd rfl
    have := (Track.closed_decay (track_ew_err (pw := pw) rounding_rnd64 accuracy_rnd64 (by positivity) (by positivity) h1 h2 h3 hM hM0 0)
      (JFP.column 0 i data)) hb
    unfold JFP.roomMean at this
    rw [roomM_room _ (Or.inl rfl)] at this
    exact this.2.2.1

/-- A run in IEEE arithmetic is the run without overflow. -/
theorem joint_ieee {M B : ℚ} (X : JFP.Fits rnd64 pw u (1 / 2 ^ 1075) (two 1024) (2 + 4 * M) over64) {cfg : Joint.Config (XF ℚ)} {c : Joint.Core (XF ℚ)}
    (hn : JFP.newCore (ieeeOf rnd64 pw over64) cfg = .val (.ok c)) (hs : ∀ t ∈ cfg.sums.getD [], ∀ k ∈ t, k ≤ 65)
    (hi : NoCollision (cfg.sums.getD [])) (hw : cfg.window = some 0) {d : Option ℚ} (hd : cfg.decay = d.map XF.fin)
    (hdr : ∀ dd, d = some dd → rnd64 dd = dd ∧ 0 < dd ∧ dd < 1) {n : Nat} (hv : Joint.varsOf cfg = n) {m : List Nat} (ht : TracksZ (cfg.sums.getD []) m)
    (hm : JFP.TOK n (m.map Int.ofNat)) (h2 : (m.map Int.ofNat).sum = 2) (hB1 : 1 ≤ B) (hB : 4 * B < two 1024) (hM : rnd64 M = M) (hM0 : 0 ≤ M)
    (ops : List (MOp (List ℚ))) (hx : BoundedPts M (since (ops.filter (okArity n)))) (hlen : d = none → (since (ops.filter (okArity n))).length ≤ 2 ^ 43)
    (hsum : ∀ ys, ys <+: since (ops.filter (okArity n)) →
      rnd64 ((JFP.gst (Arith.rounded rnd64 pw) n 0 d ys).2 (m.map Int.ofNat)) = (JFP.gst (Arith.rounded rnd64 pw) n 0 d ys).2 (m.map Int.ofNat) ∧
      |(JFP.gst (Arith.rounded rnd64 pw) n 0 d ys).2 (m.map Int.ofNat)| ≤ B)
    (hne : since (ops.filter (okArity n)) ≠ []) :
    ∃ e es, JFP.run (ieeeOf rnd64 pw over64) c (finPts ops) = .val (e, es) ∧ e.count = (since (ops.filter (okArity n))).length ∧
      e.means = (JFP.gst (Arith.rounded rnd64 pw) n 0 d (since (ops.filter (okArity n)))).1.map XF.fin ∧
      JFP.sum e (m.map Int.ofNat) = .ok (.fin ((JFP.gst (Arith.rounded rnd64 pw) n 0 d (since (ops.filter (okArity n)))).2 (m.map Int.ofNat))) := by
  obtain ⟨e, r, h1, -, h3, h4⟩ := joint_gst _ hn hs hi (w := 0) (by simpa using hw) hv (fun h => absurd h (by omega)) (finPts ops)
  rw [finPts_filter, windowOf, lastN_zero, since_finPts, List.length_map] at h1
  rw [finPts_filter, since_finPts, hd] at h3 h4
  have hl := since_arity n ops
  obtain ⟨g1, -, g2⟩ := JFP.gst_fin X (N := 2 ^ 43) (n := n) (fun m h => rnd64_nat (by omega)) (d := d)
    (fun _ => ⟨by push_cast; exact lt_of_le_of_lt (by norm_num) lt1024.2.2.1, by decide +kernel⟩)
    (fun dd h => ⟨(hdr dd h).1, (hdr dd h).2.1, (hdr dd h).2.2.le⟩) hB1 hB hM0 hm h2 (since (ops.filter (okArity n))) hlen
    ⟨hl, fun x hx' a ha => (hx x hx' a ha).2, fun ys hp => means_le hdr hM hM0 (fun x h => hl x (hp.subset h))
      (fun h => hp.length_le.trans (hlen h)) (prefix_pts hp hx), hsum⟩
  refine ⟨e, _, r, h1, by rw [h3, g1], ?_⟩
  have h0 : e.count ≠ 0 := by
    rw [h1]
    have := List.length_pos_iff.2 hne
    omega
  unfold JFP.sum
  rw [if_neg h0, h4 m ht, g2]

theorem fin_decay {cfg : Joint.Config (XF ℚ)} {c : Joint.Core (XF ℚ)} (hn : JFP.newCore (ieeeOf rnd64 pw over64) cfg = .val (.ok c)) {d : ℚ}
    (hd : cfg.decay = some (.fin d)) : 0 < d ∧ d < 1 ∧ cfg.window = some 0 := by
  obtain ⟨n, w, hw, -, -, -, hdd, -⟩ := JFP.newCore_ok _ hn
  obtain ⟨a, b, rfl⟩ := hdd _ hd
  have e0 : (ieeeOf rnd64 pw over64).ofInt 0 = .fin 0 := by
    show over64 (rnd64 ((0 : Int) : ℚ)) = _
    rw [Int.cast_zero, rounding_rnd64.zero]
    exact over64_fin _ (by rw [abs_zero]; linarith [lt1024.1])
  have e1 : (ieeeOf rnd64 pw over64).ofInt 1 = .fin 1 := by
    show over64 (rnd64 ((1 : Int) : ℚ)) = _
    rw [Int.cast_one, rounding_rnd64.one]
    exact over64_fin _ (by rw [abs_one]; exact lt1024.1)
  rw [e0] at a
  rw [e1] at b
  have a' : decide (d ≤ 0) = false := a
  have b' : decide ((1 : ℚ) ≤ d) = false := b
  simp only [decide_eq_false_iff_not, not_le] at a' b'
  exact ⟨a', b', by simpa using hw⟩

theorem room_none {M : ℚ} (hM1 : 1 ≤ M) {N : Nat} (hfit : 100000 * ((N + 1) * (M * M)) < two 1024) :
    100000 * (M * M) < two 1024 ∧ 1 ≤ 1 + 5 * (N * (M * M)) ∧ 4 * (1 + 5 * (N * (M * M))) < two 1024 := by
  have h1 : 1 ≤ M * M := one_le_mul_of_one_le_of_one_le hM1 hM1
  have h2 : 0 ≤ (N : ℚ) * (M * M) := by positivity
  refine ⟨by linarith, by linarith, by linarith⟩

theorem pow_powSq {N : Nat} (P : JFP.PowOK rnd64 pw) (hP : ∀ x, |pw x 2 - x * x| ≤ 1 / 2 ^ 53 * (x * x) + 1 / 2 ^ 1075) (hN : N ≤ 2 ^ 43) :
    PowSq pw (1 / 2 ^ 53) (1 / 2 ^ 1075) N :=
  ⟨hP, fun n hn => P.one _ (rnd64_nat (by omega))⟩

theorem ieee_sum (P : JFP.PowOK rnd64 pw) (hP : ∀ x, |pw x 2 - x * x| ≤ 1 / 2 ^ 53 * (x * x) + 1 / 2 ^ 1075) {cfg : Joint.Config (XF ℚ)}
    {c : Joint.Core (XF ℚ)} (hn : JFP.newCore (ieeeOf rnd64 pw over64) cfg = .val (.ok c)) (hs : ∀ t ∈ cfg.sums.getD [], ∀ k ∈ t, k ≤ 65)
    (hi : NoCollision (cfg.sums.getD [])) (hw : cfg.window = some 0) (hd : cfg.decay = none) {n : Nat} (hv : Joint.varsOf cfg = n) {i j : Nat}
    (hij : i < j) (hj : j < n) (ht : TracksZ (cfg.sums.getD []) (((List.replicate n 0).set i 1).set j 1)) {M : ℚ} (hM : rnd64 M = M) (hM1 : 1 ≤ M)
    (ops : List (MOp (List ℚ))) {N : Nat} (hN : (since (ops.filter (okArity n))).length = N) (hlen : N ≤ 2 ^ 43)
    (hx : BoundedPts M (since (ops.filter (okArity n)))) (hne : N ≠ 0) (hfit : 100000 * ((N + 1) * (M * M)) < two 1024) :
    ∃ e es, JFP.run (ieeeOf rnd64 pw over64) c (finPts ops) = .val (e, es) ∧ e.count = N ∧
      JFP.sum e (((List.replicate n 0).set i 1).set j 1) = .ok (.fin (JFP.pairS (Arith.rounded rnd64 pw) (fun a b => rnd64 (a * b)) 0 none
        (JFP.pairs 0 i j (since (ops.filter (okArity n)))))) := by
  obtain ⟨f1, f2, f3⟩ := room_none hM1 hfit
  have he : (((List.replicate n 0).set i 1).set j 1 : List Nat).map Int.ofNat = JFP.pairTuple n i j := by
    simp [JFP.pairTuple, JFP.atTuple, List.map_set]
  have hl := since_arity n ops
  have hM480 : (1 : ℚ) / 2 ^ 480 ≤ M := le_trans (by decide +kernel) hM1
  have S := small2_64 hM480 hM480 hlen
  have err : ∀ ys, ys <+: since (ops.filter (okArity n)) →
      |JFP.pairS (Arith.rounded rnd64 pw) (fun a b => rnd64 (a * b)) 0 none (JFP.pairs 0 i j ys) - crossSum i j ys| ≤
        (4 * (ys.length * ys.length) + 80 * ys.length) * (1 / 2 ^ 53 * (M * M)) := fun ys hp => by
    have hly : ∀ x ∈ ys, x.length = n := fun x h => hl x (hp.subset h)
    have hb := prefix_pts hp hx
    have := pairS_err (pw := pw) rounding_rnd64 accuracy_rnd64 (N := N) (fun m h => rnd64_nat (by omega)) S (pow_powSq P hP hlen) hM hM
      (JFP.pairs 0 i j ys) (by simpa [JFP.pairs, hN] using hp.length_le) (boundedPairs64 (hb.at hly (by omega)) (hb.at hly hj))
    rwa [cpair_pairs, show (JFP.pairs (0 : ℚ) i j ys).length = ys.length by simp [JFP.pairs]] at this
  have hne' : since (ops.filter (okArity n)) ≠ [] := by
    intro h
    rw [h] at hN
    exact hne hN.symm
  obtain ⟨e, es, r, hc, -, hsum⟩ := joint_ieee (B := 1 + 5 * (N * (M * M))) (fits64 P le_rfl (by norm_num) hP hM1 f1) hn hs hi hw (d := none) hd
    (by simp) hv ht (he ▸ JFP.pairTuple_tok) (he ▸ JFP.pairTuple_sum hij hj) f2 f3 hM (by linarith) ops hx (fun _ => hN ▸ hlen) (fun ys hp => by
      have hly : ∀ x ∈ ys, x.length = n := fun x h => hl x (hp.subset h)
      have hb := prefix_pts hp hx
      rw [he, JFP.sum_mixed rounding_rnd64 P (by simp) hij hj ys hly]
      refine ⟨(JFP.pairS_repr rounding_rnd64 _ _ _ _).1, ?_⟩
      have h1 := err ys hp
      have h2 := cpair_le S.fst.M0 S.snd.M0 (ps := JFP.pairs 0 i j ys)
        (fun p hp => ⟨(boundedPairs64 (hb.at hly (by omega)) (hb.at hly hj) p hp).1.2, (boundedPairs64 (hb.at hly (by omega)) (hb.at hly hj) p hp).2.2⟩)
      rw [cpair_pairs, show (JFP.pairs (0 : ℚ) i j ys).length = ys.length by simp [JFP.pairs]] at h2
      have hk : (ys.length : ℚ) ≤ N := by exact_mod_cast hN ▸ hp.length_le
      have hnu := S.fst.Nu
      have hu1 := S.fst.u1
      have hu0 := S.fst.u0
      have h3 := abs_sub_abs_le_abs_sub
        (JFP.pairS (Arith.rounded rnd64 pw) (fun a b => rnd64 (a * b)) 0 none (JFP.pairs 0 i j ys)) (crossSum i j ys)
      have hMM : 0 ≤ M * M := mul_self_nonneg M
      have hk0 : (0 : ℚ) ≤ ys.length := by positivity
      have hu2 : (1 : ℚ) / 2 ^ 53 ≤ 1 / 4096 := by norm_num
      generalize (1 : ℚ) / 2 ^ 53 = u at *
      generalize (ys.length : ℚ) = k at *
      have h4 : k * u ≤ 1 / 1024 := (mul_le_mul_of_nonneg_right hk hu0).trans hnu
      have h5 : (4 * (k * k) + 80 * k) * u ≤ k := by
        have a := mul_le_mul_of_nonneg_left h4 hk0
        have b := mul_le_mul_of_nonneg_left hu2 hk0
        linarith
      have h6 := mul_le_mul_of_nonneg_right h5 hMM
      have h7 := mul_le_mul_of_nonneg_right hk hMM
      linarith) hne'
  rw [he, JFP.sum_mixed rounding_rnd64 P (by simp) hij hj _ hl] at hsum
  exact ⟨e, es, r, by rw [hc, hN], hsum⟩

theorem pair_sum_err (P : JFP.PowOK rnd64 pw) (hP : ∀ x, |pw x 2 - x * x| ≤ 1 / 2 ^ 53 * (x * x) + 1 / 2 ^ 1075) {i j : Nat} {M₁ M₂ : ℚ}
    (hM₁ : rnd64 M₁ = M₁) (hM₂ : rnd64 M₂ = M₂) (l₁ : 1 / 2 ^ 480 ≤ M₁) (l₂ : 1 / 2 ^ 480 ≤ M₂) {data : List (List ℚ)} {N : Nat}
    (hN : data.length = N) (hlen : N ≤ 2 ^ 43) (hx₁ : BoundedAt i M₁ data) (hx₂ : BoundedAt j M₂ data) :
    |JFP.pairS (Arith.rounded rnd64 pw) (fun a b => rnd64 (a * b)) 0 none (JFP.pairs 0 i j data) - crossSum i j data| ≤
      4 * N * (N + 20) * (1 / 2 ^ 53) * (M₁ * M₂) := by
  have := pairS_err (pw := pw) rounding_rnd64 accuracy_rnd64 (N := N) (fun m h => rnd64_nat (by omega)) (small2_64 l₁ l₂ hlen) (pow_powSq P hP hlen)
    hM₁ hM₂ (JFP.pairs 0 i j data) (by simp [JFP.pairs, hN]) (boundedPairs64 hx₁ hx₂)
  rw [cpair_pairs, show (JFP.pairs (0 : ℚ) i j data).length = N by simp [JFP.pairs, hN]] at this
  exact this.trans (le_of_eq (by ring))

/-- C105, windows of 0 without decay, products: no infinity and no NaN appears as long as `100000·(N + 1)·M² < 2^1024`; the error is that of C83. -/
theorem C105_sum (P : JFP.PowOK rnd64 pw) (hP : ∀ x, |pw x 2 - x * x| ≤ 1 / 2 ^ 53 * (x * x) + 1 / 2 ^ 1075) {cfg : Joint.Config (XF ℚ)}
    {c : Joint.Core (XF ℚ)} (hn : JFP.newCore (ieeeOf rnd64 pw over64) cfg = .val (.ok c)) (hs : ∀ t ∈ cfg.sums.getD [], ∀ k ∈ t, k ≤ 65)
    (hi : NoCollision (cfg.sums.getD [])) (hw : cfg.window = some 0) (hd : cfg.decay = none) {n : Nat} (hv : Joint.varsOf cfg = n) {i j : Nat}
    (hij : i < j) (hj : j < n) (ht : TracksZ (cfg.sums.getD []) (((List.replicate n 0).set i 1).set j 1)) {M : ℚ} (hM : rnd64 M = M) (hM1 : 1 ≤ M)
    (ops : List (MOp (List ℚ))) {N : Nat} (hN : (since (ops.filter (okArity n))).length = N) (hlen : N ≤ 2 ^ 43)
    (hx : BoundedPts M (since (ops.filter (okArity n)))) (hne : N ≠ 0) (hfit : 100000 * ((N + 1) * (M * M)) < two 1024) :
    ∃ e es v, JFP.run (ieeeOf rnd64 pw over64) c (finPts ops) = .val (e, es) ∧ e.count = N ∧
      JFP.sum e (((List.replicate n 0).set i 1).set j 1) = .ok (.fin v) ∧
      |v - crossSum i j (since (ops.filter (okArity n)))| ≤ 4 * N * (N + 20) * (1 / 2 ^ 53) * (M * M) := by
  obtain ⟨e, es, r, hc, h⟩ := ieee_sum P hP hn hs hi hw hd hv hij hj ht hM hM1 ops hN hlen hx hne hfit
  have hl := since_arity n ops
  have hM480 : (1 : ℚ) / 2 ^ 480 ≤ M := le_trans (by decide +kernel) hM1
  exact ⟨e, es, _, r, hc, h, pair_sum_err P hP hM hM hM480 hM480 hN hlen (hx.at hl (by omega)) (hx.at hl hj)⟩

/-- The second power sum of a column, as a number. -/
theorem mst_square {xs : List ℚ} {M : ℚ} (hM : rnd64 M = M) (hM1 : 1 / 2 ^ 480 ≤ M) (hlen : xs.length ≤ 2 ^ 43)
    (hP : PowSq pw (1 / 2 ^ 53) (1 / 2 ^ 1075) xs.length) (hx : ∀ x ∈ xs, rnd64 x = x ∧ |x| ≤ M) (hne : xs ≠ []) :
    |(mst (Arith.rounded rnd64 pw) 0 none xs).2 2 - csum 2 xs| ≤ 2 * xs.length * (xs.length + 40) * (1 / 2 ^ 53) * M ^ 2 := by
  obtain ⟨c, hc⟩ : ∃ c, FP.newCore (Arith.rounded rnd64 pw) ⟨some [2], some 0, none⟩ = .ok c := ⟨_, rfl⟩
  have hsince : since (xs.map MOp.push) = xs := by
    clear hlen hP hx hne
    induction xs using List.reverseRecOn with
    | nil => rfl
    | append_singleton xs x ih => rw [List.map_append, List.map_cons, List.map_nil, since_push, ih]
  obtain ⟨e, r, -, -, h⟩ := moment_mst _ hc (by simp) (w := 0) rfl (xs.map MOp.push)
  obtain ⟨e', v, r', hv, hb⟩ := C82_sum_accuracy hc rfl rfl (by simp) ⟨2, by simp, le_rfl⟩ hM hM1 (xs.map MOp.push)
    (by rwa [hsince]) (by rwa [hsince]) (by rwa [hsince]) (by rwa [hsince])
  rw [r] at r'
  simp only [Go.val.injEq, Prod.mk.injEq, and_true] at r'
  subst r'
  have h2 := h (by rwa [hsince]) 2 (by omega) ⟨2, by simp, le_rfl⟩
  rw [hsince] at h2 hb
  have hv' : FP.sum e ((2 : Nat) : Int) = .ok v := hv
  rw [h2] at hv'
  cases hv'
  exact hb

theorem mst_ew_square {u d : ℚ} (hd0 : 0 < d) (hd1 : d < 1) (hrd : rnd64 d = d) {xs : List ℚ} {M : ℚ} (hM : rnd64 M = M) (hM1 : 1 / 2 ^ 50 ≤ M)
    (hu : 1 / 2 ^ 53 ≤ u) (hu1 : u ≤ 1 / 4096) (hP : PowAcc pw u (1 / 2 ^ 1075)) (hsm : 480 * (u / d) ≤ 1)
    (hx : ∀ x ∈ xs, rnd64 x = x ∧ |x| ≤ M) (hne : xs ≠ []) :
    |(mst (Arith.rounded rnd64 pw) 0 (some d) xs).2 2 - ewMoment d 2 xs| ≤ 1920 * (u / d) * M ^ 2 := by
  obtain ⟨c, hc⟩ : ∃ c, FP.newCore (Arith.rounded rnd64 pw) ⟨some [2], some 0, some d⟩ = .ok c := by
    have a : ¬ d ≤ (Arith.rounded rnd64 pw).ofInt 0 := by
      simpa [Arith.rounded, rounding_rnd64.zero] using hd0
    have b : ¬ (Arith.rounded rnd64 pw).ofInt 1 ≤ d := by
      simpa [Arith.rounded, rounding_rnd64.one] using hd1
    unfold FP.newCore Moment.setDefaults Moment.validate
    simp [a, b]
  have hsince : since (xs.map MOp.push) = xs := by
    clear hx hne
    induction xs using List.reverseRecOn with
    | nil => rfl
    | append_singleton xs x ih => rw [List.map_append, List.map_cons, List.map_nil, since_push, ih]
  obtain ⟨e, r, -, -, h⟩ := moment_mst _ hc (by simp) (w := 0) rfl (xs.map MOp.push)
  obtain ⟨e', v, r', hv, hb⟩ := C93_ewm_accuracy hc rfl hrd (by simp) (k := 2) le_rfl (by norm_num) ⟨2, by simp, le_rfl⟩ hu hu1 hP hM
    hM1 (by rw [errC_two]; norm_num; linarith) (xs.map MOp.push) (by rwa [hsince]) (by rwa [hsince])
  rw [r] at r'
  simp only [Go.val.injEq, Prod.mk.injEq, and_true] at r'
  subst r'
  have h2 := h (by rwa [hsince]) 2 (by omega) ⟨2, by simp, le_rfl⟩
  rw [hsince] at h2
  rw [hsince, errC_two] at hb
  rw [h2] at hv
  cases hv
  exact hb

theorem sq_repr (d : Option ℚ) (xs : List ℚ) :
    rnd64 ((mst (Arith.rounded rnd64 pw) 0 d xs).2 2) = (mst (Arith.rounded rnd64 pw) 0 d xs).2 2 := by
  rw [← JFP.pairS_mst rounding_rnd64 (f := fun a _ => pw a 2) (fun _ _ => rfl)]
  exact (JFP.pairS_repr rounding_rnd64 _ _ _ _).1

theorem mst_none_nil (d : Option ℚ) : (mst (Arith.rounded rnd64 pw) 0 d []).2 2 = 0 := by
  simp [FP.mst_nil, Arith.rounded, rounding_rnd64.zero]

theorem ieee_square (P : JFP.PowOK rnd64 pw) (hP : ∀ x, |pw x 2 - x * x| ≤ 1 / 2 ^ 53 * (x * x) + 1 / 2 ^ 1075) {cfg : Joint.Config (XF ℚ)}
    {c : Joint.Core (XF ℚ)} (hn : JFP.newCore (ieeeOf rnd64 pw over64) cfg = .val (.ok c)) (hs : ∀ t ∈ cfg.sums.getD [], ∀ k ∈ t, k ≤ 65)
    (hi : NoCollision (cfg.sums.getD [])) (hw : cfg.window = some 0) (hd : cfg.decay = none) {n : Nat} (hv : Joint.varsOf cfg = n) {i : Nat}
    (hin : i < n) (ht : TracksZ (cfg.sums.getD []) ((List.replicate n 0).set i 2)) {M : ℚ} (hM : rnd64 M = M) (hM1 : 1 ≤ M)
    (ops : List (MOp (List ℚ))) {N : Nat} (hN : (since (ops.filter (okArity n))).length = N) (hlen : N ≤ 2 ^ 43)
    (hx : BoundedPts M (since (ops.filter (okArity n)))) (hne : N ≠ 0) (hfit : 100000 * ((N + 1) * (M * M)) < two 1024) :
    ∃ e es, JFP.run (ieeeOf rnd64 pw over64) c (finPts ops) = .val (e, es) ∧
      JFP.sum e ((List.replicate n 0).set i 2) =
        .ok (.fin ((mst (Arith.rounded rnd64 pw) 0 none (JFP.column 0 i (since (ops.filter (okArity n))))).2 2)) := by
  obtain ⟨f1, f2, f3⟩ := room_none hM1 hfit
  have he : ((List.replicate n 0).set i 2 : List Nat).map Int.ofNat = JFP.atTuple n i 2 := by simp [JFP.atTuple, List.map_set]
  have hl := since_arity n ops
  have hM480 : (1 : ℚ) / 2 ^ 480 ≤ M := le_trans (by decide +kernel) hM1
  have S := small64 hM480 hlen
  have hcl : ∀ ys : List (List ℚ), (JFP.column 0 i ys).length = ys.length := fun ys => by simp [JFP.column]
  have err : ∀ ys, ys <+: since (ops.filter (okArity n)) → ys ≠ [] →
      |(mst (Arith.rounded rnd64 pw) 0 none (JFP.column 0 i ys)).2 2 - csum 2 (JFP.column 0 i ys)| ≤
        2 * ys.length * (ys.length + 40) * (1 / 2 ^ 53) * M ^ 2 := fun ys hp hy => by
    have hly : ∀ x ∈ ys, x.length = n := fun x h => hl x (hp.subset h)
    have hk : ys.length ≤ 2 ^ 43 := hp.length_le.trans (hN ▸ hlen)
    have := mst_square (pw := pw) (xs := JFP.column 0 i ys) hM hM480 (by rw [hcl]; exact hk) (pow_powSq P hP (by rw [hcl]; exact hk))
      (column_bounded ((prefix_pts hp hx).at hly hin)) (by simpa [JFP.column] using hy)
    rwa [hcl] at this
  have hne' : since (ops.filter (okArity n)) ≠ [] := by
    intro h
    rw [h] at hN
    exact hne hN.symm
  obtain ⟨e, es, r, hc, -, hsum⟩ := joint_ieee (B := 1 + 5 * (N * (M * M))) (fits64 P le_rfl (by norm_num) hP hM1 f1) hn hs hi hw (d := none) hd
    (by simp) hv ht (he ▸ JFP.atTuple_tok (k := 2) (by omega)) (he ▸ JFP.atTuple_sum hin) f2 f3 hM (by linarith) ops hx (fun _ => hN ▸ hlen)
    (fun ys hp => by
      have hly : ∀ x ∈ ys, x.length = n := fun x h => hl x (hp.subset h)
      rw [he, JFP.sum_sq rounding_rnd64 P (by simp) hin ys hly]
      refine ⟨sq_repr _ _, ?_⟩
      by_cases hy : ys = []
      · rw [hy, show JFP.column (0 : ℚ) i [] = [] from rfl, mst_none_nil, abs_zero]
        linarith
      have h1 := err ys hp hy
      have h2 := abs_csum_le S.M0 (fun x hx' => (column_bounded ((prefix_pts hp hx).at hly hin) x hx').2) 2
      rw [hcl] at h2
      have hk : (ys.length : ℚ) ≤ N := by exact_mod_cast hN ▸ hp.length_le
      have hnu := S.Nu
      have hu0 := S.u0
      have h3 := abs_sub_abs_le_abs_sub ((mst (Arith.rounded rnd64 pw) 0 none (JFP.column 0 i ys)).2 2) (csum 2 (JFP.column 0 i ys))
      have hMM : 0 ≤ M * M := mul_self_nonneg M
      have hk0 : (0 : ℚ) ≤ ys.length := by positivity
      have hu2 : (1 : ℚ) / 2 ^ 53 ≤ 1 / 4096 := by norm_num
      generalize (1 : ℚ) / 2 ^ 53 = u at *
      generalize (ys.length : ℚ) = k at *
      have h4 : k * u ≤ 1 / 1024 := (mul_le_mul_of_nonneg_right hk hu0).trans hnu
      have h5 : 2 * k * (k + 40) * u ≤ k := by
        have a := mul_le_mul_of_nonneg_left h4 hk0
        have b := mul_le_mul_of_nonneg_left hu2 hk0
        linarith
      have h6 := mul_le_mul_of_nonneg_right h5 hMM
      have h7 := mul_le_mul_of_nonneg_right hk hMM
      linarith) hne'
  rw [he, JFP.sum_sq rounding_rnd64 P (by simp) hin _ hl] at hsum
  exact ⟨e, es, r, hsum⟩

/-- C105, windows of 0 without decay, squares; the error is that of C98. -/
theorem C105_square (P : JFP.PowOK rnd64 pw) (hP : ∀ x, |pw x 2 - x * x| ≤ 1 / 2 ^ 53 * (x * x) + 1 / 2 ^ 1075) {cfg : Joint.Config (XF ℚ)}
    {c : Joint.Core (XF ℚ)} (hn : JFP.newCore (ieeeOf rnd64 pw over64) cfg = .val (.ok c)) (hs : ∀ t ∈ cfg.sums.getD [], ∀ k ∈ t, k ≤ 65)
    (hi : NoCollision (cfg.sums.getD [])) (hw : cfg.window = some 0) (hd : cfg.decay = none) {n : Nat} (hv : Joint.varsOf cfg = n) {i : Nat}
    (hin : i < n) (ht : TracksZ (cfg.sums.getD []) ((List.replicate n 0).set i 2)) {M : ℚ} (hM : rnd64 M = M) (hM1 : 1 ≤ M)
    (ops : List (MOp (List ℚ))) {N : Nat} (hN : (since (ops.filter (okArity n))).length = N) (hlen : N ≤ 2 ^ 43)
    (hx : BoundedPts M (since (ops.filter (okArity n)))) (hne : N ≠ 0) (hfit : 100000 * ((N + 1) * (M * M)) < two 1024) :
    ∃ e es v, JFP.run (ieeeOf rnd64 pw over64) c (finPts ops) = .val (e, es) ∧ JFP.sum e ((List.replicate n 0).set i 2) = .ok (.fin v) ∧
      |v - csum 2 (coord i (since (ops.filter (okArity n))))| ≤ 2 * N * (N + 40) * (1 / 2 ^ 53) * M ^ 2 := by
  obtain ⟨e, es, r, h⟩ := ieee_square P hP hn hs hi hw hd hv hin ht hM hM1 ops hN hlen hx hne hfit
  refine ⟨e, es, _, r, h, ?_⟩
  have hcl : (JFP.column (0 : ℚ) i (since (ops.filter (okArity n)))).length = N := by simp [JFP.column, hN]
  have := mst_square (pw := pw) (xs := JFP.column 0 i (since (ops.filter (okArity n)))) hM (le_trans (by decide +kernel) hM1) (by rw [hcl]; exact hlen)
    (pow_powSq P hP (by rw [hcl]; exact hlen)) (column_bounded (hx.at (since_arity n ops) hin)) (by rintro h; rw [h] at hcl; exact hne hcl.symm)
  rwa [hcl] at this

/-- C105, `Cov` of at least two points; the error is that of C83. -/
theorem C105_cov (P : JFP.PowOK rnd64 pw) (hP : ∀ x, |pw x 2 - x * x| ≤ 1 / 2 ^ 53 * (x * x) + 1 / 2 ^ 1075) {cfg : Joint.Config (XF ℚ)}
    {c : Joint.Core (XF ℚ)} (hn : JFP.newCore (ieeeOf rnd64 pw over64) cfg = .val (.ok c)) (hs : ∀ t ∈ cfg.sums.getD [], ∀ k ∈ t, k ≤ 65)
    (hi : NoCollision (cfg.sums.getD [])) (hw : cfg.window = some 0) (hd : cfg.decay = none) (hv : Joint.varsOf cfg = 2)
    (ht : TracksZ (cfg.sums.getD []) [1, 1]) {M : ℚ} (hM : rnd64 M = M) (hM1 : 1 ≤ M) (ops : List (MOp (List ℚ))) {N : Nat}
    (hN : (since (ops.filter (okArity 2))).length = N) (hlen : N ≤ 2 ^ 43) (hx : BoundedPts M (since (ops.filter (okArity 2)))) (hne : 2 ≤ N)
    (hfit : 100000 * ((N + 1) * (M * M)) < two 1024) :
    ∃ e es v, JFP.run (ieeeOf rnd64 pw over64) c (finPts ops) = .val (e, es) ∧ JFP.covValue (ieeeOf rnd64 pw over64) e = .ok (.fin v) ∧
      |v - sampleCov (since (ops.filter (okArity 2)))| ≤ 8 * (N + 22) * (1 / 2 ^ 53) * (M * M) := by
  obtain ⟨e, es, s, r, hcnt, hsum, hb⟩ := C105_sum P hP hn hs hi hw hd (n := 2) (by exact_mod_cast hv) (i := 0) (j := 1) (by omega) (by omega) ht
    hM hM1 ops hN hlen hx (by omega) hfit
  have hl := since_arity 2 ops
  have hM480 : (1 : ℚ) / 2 ^ 480 ≤ M := le_trans (by decide +kernel) hM1
  have S := small2_64 hM480 hM480 hlen
  have hcov : sampleCov (since (ops.filter (okArity 2))) = crossSum 0 1 (since (ops.filter (okArity 2))) / (N - 1) := by
    rw [← hN]; rfl
  have hn2 : (2 : ℚ) ≤ N := by exact_mod_cast hne
  have key : |rnd64 (s / (N - 1)) - sampleCov (since (ops.filter (okArity 2)))| ≤ 8 * (N + 22) * (1 / 2 ^ 53) * (M * M) ∧
      |rnd64 (s / (N - 1))| ≤ 17 * (M * M) := by
    rw [hcov]
    have hE := accuracy_rnd64 (s / ((N : ℚ) - 1))
    have hS1 := cpair_le S.fst.M0 S.snd.M0 (ps := JFP.pairs 0 0 1 (since (ops.filter (okArity 2))))
      (fun p hp => ⟨(boundedPairs64 (hx.at hl (by omega)) (hx.at hl (by omega)) p hp).1.2, (boundedPairs64 (hx.at hl (by omega)) (hx.at hl (by omega)) p hp).2.2⟩)
    rw [cpair_pairs, show (JFP.pairs (0 : ℚ) 0 1 (since (ops.filter (okArity 2)))).length = N by simp [JFP.pairs, hN]] at hS1
    have hnu := S.fst.Nu
    have hu1 := S.fst.u1
    have htM := S.prod
    have hMM : 0 ≤ M * M := mul_self_nonneg M
    generalize (1 : ℚ) / 2 ^ 53 = u at *
    generalize (1 : ℚ) / 2 ^ 1075 = t at *
    have hu := S.fst.u0
    have hU : 0 ≤ u * (M * M) := mul_nonneg hu hMM
    set n : ℚ := (N : ℚ)
    set Q := crossSum 0 1 (since (ops.filter (okArity 2)))
    have hn1 : 0 < n - 1 := by linarith
    have hd1 : |s / (n - 1) - Q / (n - 1)| ≤ 8 * (n + 20) * (u * (M * M)) := by
      rw [← sub_div, abs_div, abs_of_pos hn1, div_le_iff₀ hn1]
      refine hb.trans ?_
      have : 4 * n * ((n + 20) * (u * (M * M))) ≤ 8 * (n - 1) * ((n + 20) * (u * (M * M))) :=
        mul_le_mul_of_nonneg_right (by linarith) (by positivity)
      linarith
    have hQ : |Q / (n - 1)| ≤ 8 * (M * M) := by
      rw [abs_div, abs_of_pos hn1, div_le_iff₀ hn1]
      have : n * (M * M) ≤ 2 * (n - 1) * (M * M) := mul_le_mul_of_nonneg_right (by linarith) hMM
      linarith
    have hq : |s / (n - 1)| ≤ 8 * (n + 20) * (u * (M * M)) + 8 * (M * M) := by
      rw [abs_le] at hd1 hQ ⊢
      constructor <;> linarith
    have h3 := mul_le_mul_of_nonneg_left hq hu
    have h4 : u * (8 * (n + 20) * (u * (M * M))) ≤ (8 + 160) * (u * (M * M)) / 1024 := by
      have a := mul_le_mul_of_nonneg_right hnu hU
      have b := mul_le_mul_of_nonneg_right hu1 hU
      linarith
    have h5 : t ≤ u * (M * M) / 1024 := by
      have b := mul_le_mul_of_nonneg_right hu1 hU
      linarith
    have h6 := abs_add_le (rnd64 (s / (n - 1)) - s / (n - 1)) (s / (n - 1) - Q / (n - 1))
    rw [sub_add_sub_cancel] at h6
    have h7 : |rnd64 (s / (n - 1)) - Q / (n - 1)| ≤ 8 * (n + 22) * u * (M * M) := by linarith
    refine ⟨h7, ?_⟩
    have h8 := abs_sub_abs_le_abs_sub (rnd64 (s / (n - 1))) (Q / (n - 1))
    have h9 := mul_le_mul_of_nonneg_right hnu hMM
    have h10 := mul_le_mul_of_nonneg_right hu1 hMM
    linarith
  refine ⟨e, es, _, r, ?_, key.1⟩
  have hsum' : JFP.sum e [1, 1] = .ok (.fin s) := hsum
  have hMM : 0 ≤ M * M := mul_self_nonneg M
  have hNM : 0 ≤ (N : ℚ) * (M * M) := by positivity
  have hbig := lt1024.2.1
  have hN53 : (N : ℚ) ≤ 2 ^ 53 := by exact_mod_cast hlen.trans (by norm_num)
  have e0 : (ieeeOf rnd64 pw over64).ofInt 1 = .fin 1 := by
    show over64 (rnd64 ((1 : Int) : ℚ)) = _
    rw [Int.cast_one, rounding_rnd64.one]
    exact over64_fin _ (by rw [abs_one]; exact lt1024.1)
  have e1 : (ieeeOf rnd64 pw over64).ofInt (N : Int) = .fin N := by
    show over64 (rnd64 (((N : Nat) : Int) : ℚ)) = _
    rw [Int.cast_natCast, rnd64_nat (by omega)]
    exact over64_fin _ (by rw [abs_of_nonneg (by linarith)]; linarith)
  have e2 : (ieeeOf rnd64 pw over64).sub (.fin (N : ℚ)) (.fin 1) = .fin (N - 1) := by
    show over64 (rnd64 ((N : ℚ) - 1)) = _
    have h1 : rnd64 ((N : ℚ) - 1) = N - 1 := by
      have := rnd64_nat (n := N - 1) (by omega)
      rwa [Nat.cast_sub (by omega), Nat.cast_one] at this
    rw [h1]
    exact over64_fin _ (by rw [abs_of_nonneg (by linarith)]; linarith)
  have e3 : (ieeeOf rnd64 pw over64).div (.fin s) (.fin ((N : ℚ) - 1)) = .fin (rnd64 (s / (N - 1))) := by
    show (if ((N : ℚ) - 1) = 0 then _ else over64 (rnd64 (s / (N - 1)))) = _
    rw [if_neg (by linarith)]
    exact over64_fin _ (lt_of_le_of_lt key.2 (by linarith))
  simp only [JFP.covValue, hsum', hcnt, e0, e1, e2, e3]

theorem ieee_ewmcov {d : ℚ} (P : JFP.PowOK rnd64 pw) (hu : 1 / 2 ^ 53 ≤ u) (hu1 : u ≤ 1 / 4096) (hP : PowAcc pw u (1 / 2 ^ 1075))
    {cfg : Joint.Config (XF ℚ)} {c : Joint.Core (XF ℚ)} (hn : JFP.newCore (ieeeOf rnd64 pw over64) cfg = .val (.ok c))
    (hs : ∀ t ∈ cfg.sums.getD [], ∀ k ∈ t, k ≤ 65) (hi : NoCollision (cfg.sums.getD [])) (hd : cfg.decay = some (.fin d)) (hrd : rnd64 d = d)
    (hv : Joint.varsOf cfg = 2) (ht : TracksZ (cfg.sums.getD []) [1, 1]) {M : ℚ} (hM : rnd64 M = M) (hM1 : 1 ≤ M) (hsm : 200 * (u / d) ≤ 1)
    (ops : List (MOp (List ℚ))) (hx : BoundedPts M (since (ops.filter (okArity 2)))) (hne : since (ops.filter (okArity 2)) ≠ [])
    (hfit : 100000 * (M * M) < two 1024) :
    ∃ e es, JFP.run (ieeeOf rnd64 pw over64) c (finPts ops) = .val (e, es) ∧
      JFP.sum e [1, 1] = .ok (.fin (JFP.pairS (Arith.rounded rnd64 pw) (fun a b => rnd64 (a * b)) 0 (some d)
        (JFP.pairs 0 0 1 (since (ops.filter (okArity 2)))))) := by
  obtain ⟨hd0, hd1, hw⟩ := fin_decay hn hd
  have hl := since_arity 2 ops
  have hM50 : (1 : ℚ) / 2 ^ 50 ≤ M := le_trans (by norm_num) hM1
  have hMM : 1 ≤ M * M := one_le_mul_of_one_le_of_one_le hM1 hM1
  have hsq : ∀ x, |pw x 2 - x * x| ≤ u * (x * x) + 1 / 2 ^ 1075 := fun x => by
    have := hP x 2
    rwa [sq_abs, pow_two] at this
  have hu0 : 0 ≤ u := le_trans (by positivity) hu
  have err : ∀ ys, ys <+: since (ops.filter (okArity 2)) →
      |JFP.pairS (Arith.rounded rnd64 pw) (fun a b => rnd64 (a * b)) 0 (some d) (JFP.pairs 0 0 1 ys) - ewCov d ys| ≤ 200 * (u / d) * (M * M) ∧
      |ewCov d ys| ≤ 4 * (M * M) := fun ys hp => by
    have hly : ∀ x ∈ ys, x.length = 2 := fun x h => hl x (hp.subset h)
    have hb := prefix_pts hp hx
    have hbp := boundedPairs64 (i := 0) (j := 1) (hb.at hly (by omega)) (hb.at hly (by omega))
    have := pairS_ew_err (pw := pw) rounding_rnd64 (accuracy_weaken hu) (small2_ew hu hu1 hM50 hM50)
      (tiny64 hu hu1 hM50 (n := 1) (k := 2) (by rw [Nat.cast_one, one_mul]; linarith) (by norm_num)) hP hM hM hrd hd0 hd1 hsm
      (JFP.pairs 0 0 1 ys) hbp
    have h4 := abs_ewPair_le hd0.le hd1.le (by linarith) (by linarith) hbp
    rw [ewPair_pairs] at this h4
    refine ⟨this.trans ?_, h4⟩
    split
    · rw [zero_mul]
      have : 0 ≤ u / d := div_nonneg hu0 hd0.le
      positivity
    · exact le_of_eq (by ring)
  have e11 : JFP.pairTuple 2 0 1 = ([1, 1] : List Nat).map Int.ofNat := rfl
  obtain ⟨e, es, r, hc, -, hsum⟩ := joint_ieee (B := 5 * (M * M)) (fits64 P hu hu1 hsq hM1 hfit) hn hs hi hw (d := some d) hd
    (fun dd h => by cases h; exact ⟨hrd, hd0, hd1⟩) (n := 2) (by exact_mod_cast hv) ht (e11 ▸ JFP.pairTuple_tok)
    (e11 ▸ JFP.pairTuple_sum (by omega) (by omega)) (by linarith) (by linarith) hM (by linarith) ops hx (by simp) (fun ys hp => by
      have hly : ∀ x ∈ ys, x.length = 2 := fun x h => hl x (hp.subset h)
      rw [← e11, JFP.sum_mixed rounding_rnd64 P (fun dd h => by cases h; exact hrd) (by omega) (by omega) ys hly]
      refine ⟨(JFP.pairS_repr rounding_rnd64 _ _ _ _).1, ?_⟩
      obtain ⟨h1, h2⟩ := err ys hp
      have h3 := abs_sub_abs_le_abs_sub
        (JFP.pairS (Arith.rounded rnd64 pw) (fun a b => rnd64 (a * b)) 0 (some d) (JFP.pairs 0 0 1 ys)) (ewCov d ys)
      have h4 := mul_le_mul_of_nonneg_right hsm (show 0 ≤ M * M by linarith)
      linarith) hne
  rw [← e11, JFP.sum_mixed rounding_rnd64 P (fun dd h => by cases h; exact hrd) (by omega) (by omega) _ hl] at hsum
  exact ⟨e, es, r, hsum⟩

theorem pair_ew_err {d : ℚ} (hu : 1 / 2 ^ 53 ≤ u) (hu1 : u ≤ 1 / 4096) (hP : PowAcc pw u (1 / 2 ^ 1075)) (hrd : rnd64 d = d) (hd0 : 0 < d)
    (hd1 : d < 1) {M₁ M₂ : ℚ} (hM₁ : rnd64 M₁ = M₁) (hM₂ : rnd64 M₂ = M₂) (l₁ : 1 / 2 ^ 50 ≤ M₁) (l₂ : 1 / 2 ^ 50 ≤ M₂) (hsm : 200 * (u / d) ≤ 1)
    {data : List (List ℚ)} (hx₁ : BoundedAt 0 M₁ data) (hx₂ : BoundedAt 1 M₂ data) (hne : data ≠ []) :
    |JFP.pairS (Arith.rounded rnd64 pw) (fun a b => rnd64 (a * b)) 0 (some d) (JFP.pairs 0 0 1 data) - ewCov d data| ≤ 200 * (u / d) * (M₁ * M₂) := by
  have := pairS_ew_err (pw := pw) rounding_rnd64 (accuracy_weaken hu) (small2_ew hu hu1 l₁ l₂)
    (tiny64 hu hu1 l₁ (n := 1) (k := 2) (by rw [Nat.cast_one, one_mul]; linarith) (by norm_num)) hP hM₁ hM₂ hrd hd0 hd1 hsm
    (JFP.pairs 0 0 1 data) (boundedPairs64 hx₁ hx₂)
  rw [ewPair_pairs, if_neg (by simpa [JFP.pairs] using hne)] at this
  exact this.trans (le_of_eq (by ring))

/-- C105, `EWMCov`, however many points are pushed: no infinity and no NaN appears as long as `100000·M² < 2^1024`; the error is that of C103. -/
theorem C105_ewmcov {d : ℚ} (P : JFP.PowOK rnd64 pw) (hu : 1 / 2 ^ 53 ≤ u) (hu1 : u ≤ 1 / 4096) (hP : PowAcc pw u (1 / 2 ^ 1075))
    {cfg : Joint.Config (XF ℚ)} {c : Joint.Core (XF ℚ)} (hn : JFP.newCore (ieeeOf rnd64 pw over64) cfg = .val (.ok c))
    (hs : ∀ t ∈ cfg.sums.getD [], ∀ k ∈ t, k ≤ 65) (hi : NoCollision (cfg.sums.getD [])) (hd : cfg.decay = some (.fin d)) (hrd : rnd64 d = d)
    (hv : Joint.varsOf cfg = 2) (ht : TracksZ (cfg.sums.getD []) [1, 1]) {M : ℚ} (hM : rnd64 M = M) (hM1 : 1 ≤ M) (hsm : 200 * (u / d) ≤ 1)
    (ops : List (MOp (List ℚ))) (hx : BoundedPts M (since (ops.filter (okArity 2)))) (hne : since (ops.filter (okArity 2)) ≠ [])
    (hfit : 100000 * (M * M) < two 1024) :
    ∃ e es v, JFP.run (ieeeOf rnd64 pw over64) c (finPts ops) = .val (e, es) ∧ JFP.ewmCovValue e = .ok (.fin v) ∧
      |v - ewCov d (since (ops.filter (okArity 2)))| ≤ 200 * (u / d) * (M * M) := by
  obtain ⟨e, es, r, h⟩ := ieee_ewmcov P hu hu1 hP hn hs hi hd hrd hv ht hM hM1 hsm ops hx hne hfit
  obtain ⟨hd0, hd1, -⟩ := fin_decay hn hd
  have hl := since_arity 2 ops
  have hM50 : (1 : ℚ) / 2 ^ 50 ≤ M := le_trans (by norm_num) hM1
  exact ⟨e, es, _, r, by rw [JFP.ewmCovValue, h],
    pair_ew_err hu hu1 hP hrd hd0 hd1 hM hM hM50 hM50 hsm (hx.at hl (by omega)) (hx.at hl (by omega)) hne⟩

theorem ieee_ewsquare {d : ℚ} (P : JFP.PowOK rnd64 pw) (hu : 1 / 2 ^ 53 ≤ u) (hu1 : u ≤ 1 / 4096) (hP : PowAcc pw u (1 / 2 ^ 1075))
    {cfg : Joint.Config (XF ℚ)} {c : Joint.Core (XF ℚ)} (hn : JFP.newCore (ieeeOf rnd64 pw over64) cfg = .val (.ok c))
    (hs : ∀ t ∈ cfg.sums.getD [], ∀ k ∈ t, k ≤ 65) (hi : NoCollision (cfg.sums.getD [])) (hd : cfg.decay = some (.fin d)) (hrd : rnd64 d = d)
    {n : Nat} (hv : Joint.varsOf cfg = n) {i : Nat} (hin : i < n) (ht : TracksZ (cfg.sums.getD []) ((List.replicate n 0).set i 2)) {M : ℚ}
    (hM : rnd64 M = M) (hM1 : 1 ≤ M) (hsm : 480 * (u / d) ≤ 1)
    (ops : List (MOp (List ℚ))) (hx : BoundedPts M (since (ops.filter (okArity n)))) (hne : since (ops.filter (okArity n)) ≠ [])
    (hfit : 100000 * (M * M) < two 1024) :
    ∃ e es, JFP.run (ieeeOf rnd64 pw over64) c (finPts ops) = .val (e, es) ∧
      JFP.sum e ((List.replicate n 0).set i 2) =
        .ok (.fin ((mst (Arith.rounded rnd64 pw) 0 (some d) (JFP.column 0 i (since (ops.filter (okArity n))))).2 2)) := by
  obtain ⟨hd0, hd1, hw⟩ := fin_decay hn hd
  have hl := since_arity n ops
  have hMM : 1 ≤ M * M := one_le_mul_of_one_le_of_one_le hM1 hM1
  have hsq : ∀ x, |pw x 2 - x * x| ≤ u * (x * x) + 1 / 2 ^ 1075 := fun x => by
    have := hP x 2
    rwa [sq_abs, pow_two] at this
  have hrd' : ∀ dd, some d = some dd → rnd64 dd = dd := fun dd h => by cases h; exact hrd
  have he : ((List.replicate n 0).set i 2 : List Nat).map Int.ofNat = JFP.atTuple n i 2 := by simp [JFP.atTuple, List.map_set]
  have err : ∀ ys, ys <+: since (ops.filter (okArity n)) → ys ≠ [] →
      |(mst (Arith.rounded rnd64 pw) 0 (some d) (JFP.column 0 i ys)).2 2 - ewMoment d 2 (JFP.column 0 i ys)| ≤ 1920 * (u / d) * M ^ 2 :=
    fun ys hp hy => by
      have hly : ∀ x ∈ ys, x.length = n := fun x h => hl x (hp.subset h)
      exact mst_ew_square (pw := pw) hd0 hd1 hrd hM (le_trans (by norm_num) hM1) hu hu1 hP hsm (column_bounded ((prefix_pts hp hx).at hly hin))
        (by simpa [JFP.column] using hy)
  obtain ⟨e, es, r, hc, -, hsum⟩ := joint_ieee (B := 8 * (M * M)) (fits64 P hu hu1 hsq hM1 hfit) hn hs hi hw (d := some d) hd
    (fun dd h => by cases h; exact ⟨hrd, hd0, hd1⟩) hv ht (he ▸ JFP.atTuple_tok (k := 2) (by omega)) (he ▸ JFP.atTuple_sum hin)
    (by linarith) (by linarith) hM (by linarith) ops hx (by simp) (fun ys hp => by
      have hly : ∀ x ∈ ys, x.length = n := fun x h => hl x (hp.subset h)
      rw [he, JFP.sum_sq rounding_rnd64 P hrd' hin ys hly]
      refine ⟨sq_repr _ _, ?_⟩
      by_cases hy : ys = []
      · rw [hy, show JFP.column (0 : ℚ) i [] = [] from rfl, mst_none_nil, abs_zero]
        linarith
      have h1 := err ys hp hy
      have h2 := abs_ewMoment_le hd0.le hd1.le (show 0 ≤ M by linarith)
        (fun x hx' => (column_bounded ((prefix_pts hp hx).at hly hin) x hx').2) 2
      have h3 := abs_sub_abs_le_abs_sub ((mst (Arith.rounded rnd64 pw) 0 (some d) (JFP.column 0 i ys)).2 2) (ewMoment d 2 (JFP.column 0 i ys))
      have h4 := mul_le_mul_of_nonneg_right hsm (show 0 ≤ M * M by linarith)
      linarith) hne
  rw [he, JFP.sum_sq rounding_rnd64 P hrd' hin _ hl] at hsum
  exact ⟨e, es, r, hsum⟩

/-- C105, the exponentially weighted variances of a joint core, however many points are pushed; the error is that of C103. -/
theorem C105_ewsquare {d : ℚ} (P : JFP.PowOK rnd64 pw) (hu : 1 / 2 ^ 53 ≤ u) (hu1 : u ≤ 1 / 4096) (hP : PowAcc pw u (1 / 2 ^ 1075))
    {cfg : Joint.Config (XF ℚ)} {c : Joint.Core (XF ℚ)} (hn : JFP.newCore (ieeeOf rnd64 pw over64) cfg = .val (.ok c))
    (hs : ∀ t ∈ cfg.sums.getD [], ∀ k ∈ t, k ≤ 65) (hi : NoCollision (cfg.sums.getD [])) (hd : cfg.decay = some (.fin d)) (hrd : rnd64 d = d)
    {n : Nat} (hv : Joint.varsOf cfg = n) {i : Nat} (hin : i < n) (ht : TracksZ (cfg.sums.getD []) ((List.replicate n 0).set i 2)) {M : ℚ}
    (hM : rnd64 M = M) (hM1 : 1 ≤ M) (hsm : 480 * (u / d) ≤ 1)
    (ops : List (MOp (List ℚ))) (hx : BoundedPts M (since (ops.filter (okArity n)))) (hne : since (ops.filter (okArity n)) ≠ [])
    (hfit : 100000 * (M * M) < two 1024) :
    ∃ e es v, JFP.run (ieeeOf rnd64 pw over64) c (finPts ops) = .val (e, es) ∧ JFP.sum e ((List.replicate n 0).set i 2) = .ok (.fin v) ∧
      |v - ewMoment d 2 (coord i (since (ops.filter (okArity n))))| ≤ 1920 * (u / d) * M ^ 2 := by
  obtain ⟨e, es, r, h⟩ := ieee_ewsquare P hu hu1 hP hn hs hi hd hrd hv hin ht hM hM1 hsm ops hx hne hfit
  obtain ⟨hd0, hd1, -⟩ := fin_decay hn hd
  exact ⟨e, es, _, r, h, mst_ew_square (pw := pw) hd0 hd1 hrd hM (le_trans (by norm_num) hM1) hu hu1 hP hsm
    (column_bounded (hx.at (since_arity n ops) hin)) (by simpa [JFP.column] using hne)⟩

end

/-- The hypotheses on the numbers hold for a million points of up to 2^490. -/
example : JFP.PowOK rnd64 (fun x k => rnd64 (x ^ k)) ∧ rnd64 (2 ^ 490) = 2 ^ 490 ∧ (1 : ℚ) ≤ 2 ^ 490 ∧
    100000 * (((1000000 : Nat) + 1) * ((2 : ℚ) ^ 490 * 2 ^ 490)) < two 1024 := by
  exact ⟨powOK64, by decide +kernel, by decide +kernel, by decide +kernel⟩

set_option synthInstance.maxSize 512 in
set_option synthInstance.maxHeartbeats 200000 in
/-- So do those on the cores of `Cov` and `EWMCov`. -/
example : (∃ c, JFP.newCore Arith.ieee64 ⟨some [[1, 1]], some 0, none, none⟩ = .val (.ok c)) ∧
    (∃ c, JFP.newCore Arith.ieee64 ⟨some [[1, 1]], some 0, none, some (.fin (1 / 2))⟩ = .val (.ok c)) ∧ TracksZ [[1, 1]] [1, 1] := by
  have h1 : jObs Arith.ieee64 ⟨some [[1, 1]], some 0, none, none⟩ (finPts [.push [0, 0]]) [] = some (([], .ok (.fin 0), .ok (.fin 0)), 1, []) := by
    decide +kernel
  have h2 : jObs Arith.ieee64 ⟨some [[1, 1]], some 0, none, some (.fin (1 / 2))⟩ (finPts [.push [0, 0]]) [] =
      some (([], .ok (.fin 0), .ok (.fin 0)), 1, []) := by decide +kernel
  obtain ⟨c, -, h1, -⟩ := jObs_run h1
  obtain ⟨c', -, h2, -⟩ := jObs_run h2
  exact ⟨⟨c, h1⟩, ⟨c', h2⟩, ⟨[1, 1], by simp, by decide⟩⟩

set_option synthInstance.maxSize 512 in
set_option synthInstance.maxHeartbeats 200000 in
/-- Beyond, the conclusion fails: the second variable of (-2^1023, 0), (2^1023, 0) is constant, so the covariance is 0, but it is NaN. -/
theorem C105_large : ∃ c e, JFP.newCore Arith.ieee64 ⟨some [[1, 1]], some 0, none, none⟩ = .val (.ok c) ∧
    JFP.run Arith.ieee64 c (finPts [.push [-2 ^ 1023, 0], .push [2 ^ 1023, 0]]) = .val (e, []) ∧ JFP.covValue Arith.ieee64 e = .ok XF.nan ∧
    sampleCov [[-2 ^ 1023, 0], [2 ^ 1023, (0 : ℚ)]] = 0 := by
  have h : jObs Arith.ieee64 ⟨some [[1, 1]], some 0, none, none⟩ (finPts [.push [-2 ^ 1023, 0], .push [2 ^ 1023, 0]]) [[1, 1]] =
      some (([.ok .nan], .ok (.inf false), .ok (.fin 0)), 2, []) := by decide +kernel
  obtain ⟨c, e, h1, h2, h3, -⟩ := jObs_run h
  simp only [List.map_cons, List.map_nil, List.cons.injEq, and_true] at h3
  refine ⟨c, e, h1, h2, by simp only [JFP.covValue, h3]; rfl, by decide +kernel⟩

end Verif.Props
