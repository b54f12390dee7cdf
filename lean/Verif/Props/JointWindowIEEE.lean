import Verif.Proofs.JointWindowFin
import Verif.Props.WindowIEEE
import Verif.Props.CorrIEEE

/-! # C105, C109 and C110 for joint cores with a window, with overflow

C105 shows that joint cores without a window do not overflow on data of moderate size. Here the same is shown for all windows: the computed sums are
finite and the bounds of C83, C109 and C110 hold in full IEEE arithmetic. `M ≥ 1` bounds the absolute values of all coordinates of all points since
the last `Clear`, `N` is the number of these points, those outside the window included. -/

namespace Verif.Props
open Verif Verif.Spec Verif.FP
open Verif.Joint (Tuple)

theorem fits_room_window {M : ℚ} (hM1 : 1 ≤ M) (h : 10 ^ 7 * (M * M) < two 1024) :
    2 ^ 80 * (22 + 38 * (2 * M)) < two 1024 ∧ 2000 * ((22 + 38 * (2 * M)) * (22 + 38 * (2 * M))) < 4 * two 1024 ∧
      (22 + 38 * (2 * M)) * (22 + 38 * (2 * M)) ≤ 9604 * (M * M) := by
  have hM : M < 2 ^ 512 := by
    by_contra hc
    push Not at hc
    have h1 := mul_self_le_mul_self (by positivity) hc
    have h2 : two 1024 ≤ (2 ^ 512 : ℚ) * 2 ^ 512 := by decide +kernel
    have h3 : (0 : ℚ) < 2 ^ 512 * 2 ^ 512 := by positivity
    generalize (2 ^ 512 : ℚ) * 2 ^ 512 = q at *
    linarith
  have h1 : (22 + 38 * (2 * M)) * (22 + 38 * (2 * M)) ≤ (98 * M) * (98 * M) := mul_self_le_mul_self (by linarith) (by linarith)
  have : 0 ≤ M * M := mul_self_nonneg M
  refine ⟨?_, by linarith, by linarith⟩
  refine lt_of_le_of_lt (b := 2 ^ 80 * (98 * 2 ^ 512)) (mul_le_mul_of_nonneg_left ?_ (by positivity)) (by decide +kernel)
  generalize (2 ^ 512 : ℚ) = q at *
  linarith

attribute [local irreducible] two

section
variable {pw : ℚ → Nat → ℚ} {κ : ℚ}

theorem fits64_window (P : JFP.PowOK rnd64 pw) (hsq : ∀ x, |pw x 2 - x * x| ≤ 1 / 2 ^ 53 * (x * x) + 1 / 2 ^ 1075) {M : ℚ}
    (hM1 : 1 ≤ M) (h : 10 ^ 8 * (M * M) < two 1024) : JFP.Fits rnd64 pw (1 / 2 ^ 53) (1 / 2 ^ 1075) (two 1024) (22 + 38 * (2 * M)) over64 where
  R := rounding_rnd64
  P := P
  acc := accuracy_rnd64
  u0 := by positivity
  u1 := by norm_num
  t0 := by positivity
  t1 := by decide +kernel
  sq := hsq
  ov := over64_fin
  D1 := by linarith
  room1 := (fits_room_window hM1 (by nlinarith)).1
  room2 := by
    have := (fits_room_window hM1 (by nlinarith)).2.2
    linarith

/-- The means along the way. -/
theorem means_window {n w : Nat} {M : ℚ} (hM1 : 1 ≤ M) {data : List (List ℚ)} (hl : ∀ x ∈ data, x.length = n) (hlen : data.length ≤ 2 ^ 43)
    (hx : BoundedPts M data) : ∀ m ∈ (JFP.gst (Arith.rounded rnd64 pw) n w none data).1, |m| ≤ 2 * M := by
  intro m hm
  obtain ⟨i, hi, rfl⟩ := List.getElem_of_mem hm
  rw [JFP.gst_length _ data hl] at hi
  have hz : (Arith.rounded rnd64 pw).ofInt 0 = 0 := by simp [Arith.rounded, rounding_rnd64.zero]
  have h1 := JFP.mean_col (Arith.rounded rnd64 pw) (w := w) (d := none) hi data hl
  rw [hz, List.getD_eq_getElem?_getD, List.getElem?_eq_getElem (by rw [JFP.gst_length _ data hl]; exact hi), Option.getD_some] at h1
  rw [h1]
  have hb := column_bounded (hx.at hl hi)
  have hcl : (JFP.column 0 i data).length ≤ 2 ^ 43 := by simpa [JFP.column] using hlen
  have hM0 : 0 ≤ M := by linarith
  have hsmall : ((2 ^ 43 : Nat) : ℚ) * (48 * (1 / 2 ^ 53 * M) + 8 * (1 / 2 ^ 1075)) ≤ M := by
    have h2 : ((2 ^ 43 : Nat) : ℚ) * (8 * (1 / 2 ^ 1075)) ≤ 1 / 2 := by decide +kernel
    have h3 : ((2 ^ 43 : Nat) : ℚ) * (48 * (1 / 2 ^ 53)) ≤ 1 / 2 := by norm_num
    have h4 := mul_le_mul_of_nonneg_right h3 hM0
    linarith
  have h2 := ((Track.closed (track_drift (pw := pw) rounding_rnd64 accuracy_rnd64 (by positivity) (by norm_num) (by positivity) (N := 2 ^ 43)
    (fun n h => rnd64_nat (by omega)) hM0 hsmall w 0) (JFP.column 0 i data)).1 hcl hb).2
  have h3 := abs_mean_le hM0 (xs := lastN w (JFP.column 0 i data)) fun x h => (hb x (lastN_subset _ _ h)).2
  have h4 := abs_sub_abs_le_abs_sub (mst (Arith.rounded rnd64 pw) w none (JFP.column 0 i data)).1 (Spec.mean (lastN w (JFP.column 0 i data)))
  have h5 : ((JFP.column 0 i data).length : ℚ) * (48 * (1 / 2 ^ 53 * M) + 8 * (1 / 2 ^ 1075)) ≤
      ((2 ^ 43 : Nat) : ℚ) * (48 * (1 / 2 ^ 53 * M) + 8 * (1 / 2 ^ 1075)) :=
    mul_le_mul_of_nonneg_right (by exact_mod_cast hcl) (by positivity)
  linarith

/-- A run in IEEE arithmetic is the run without overflow. -/
theorem joint_ieee_window {M B : ℚ} (X : JFP.Fits rnd64 pw (1 / 2 ^ 53) (1 / 2 ^ 1075) (two 1024) (22 + 38 * (2 * M)) over64)
    {cfg : Joint.Config (XF ℚ)} {c : Joint.Core (XF ℚ)}
    (hn : JFP.newCore (ieeeOf rnd64 pw over64) cfg = .val (.ok c)) (hs : ∀ t ∈ cfg.sums.getD [], ∀ k ∈ t, k ≤ 65)
    (hi : NoCollision (cfg.sums.getD [])) {w : Nat} (hw : cfg.window = some (w : Int)) (hov : 2 ≤ w → NoOverlapZ (cfg.sums.getD []))
    (hd : cfg.decay = none) {n : Nat} (hv : Joint.varsOf cfg = n) {m : List Nat} (ht : TracksZ (cfg.sums.getD []) m)
    (hm : JFP.TOK n (m.map Int.ofNat)) (h2 : (m.map Int.ofNat).sum = 2) (hB0 : 0 ≤ B)
    (hB : 2 * B + 512 * ((22 + 38 * (2 * M)) * (22 + 38 * (2 * M))) < two 1024) (hM1 : 1 ≤ M)
    (ops : List (MOp (List ℚ))) (hx : BoundedPts M (since (ops.filter (okArity n)))) (hlen : (since (ops.filter (okArity n))).length ≤ 2 ^ 43)
    (hsum : ∀ ys, ys <+: since (ops.filter (okArity n)) →
      rnd64 ((JFP.gst (Arith.rounded rnd64 pw) n w none ys).2 (m.map Int.ofNat)) = (JFP.gst (Arith.rounded rnd64 pw) n w none ys).2 (m.map Int.ofNat) ∧
      |(JFP.gst (Arith.rounded rnd64 pw) n w none ys).2 (m.map Int.ofNat)| ≤ B)
    (hne : since (ops.filter (okArity n)) ≠ []) :
    ∃ e, JFP.run (ieeeOf rnd64 pw over64) c (finPts ops) = .val (e, JFP.arityErrors n (finPts ops)) ∧
      e.count = (windowOf w (ops.filter (okArity n))).length ∧
      e.means = (JFP.gst (Arith.rounded rnd64 pw) n w none (since (ops.filter (okArity n)))).1.map XF.fin ∧
      JFP.sum e (m.map Int.ofNat) = .ok (.fin ((JFP.gst (Arith.rounded rnd64 pw) n w none (since (ops.filter (okArity n)))).2 (m.map Int.ofNat))) := by
  have hl := since_arity n ops
  have Y : JFP.AlongW rnd64 pw n w (m.map Int.ofNat) (2 * M) B (since (ops.filter (okArity n))) :=
    ⟨hl, fun x hx' a ha => (hx x hx' a ha).2.trans (by linarith), fun ys hp => means_window hM1 (fun x h => hl x (hp.subset h))
      (hp.length_le.trans hlen) (prefix_pts hp hx), hsum⟩
  have hM0 : 0 ≤ 2 * M := by linarith
  have hN : ∀ m : Nat, m ≤ 2 ^ 43 → rnd64 (m : ℚ) = m := fun m h => rnd64_nat (by omega)
  have hNΩ : 2 * (((2 ^ 43 : Nat) : ℚ) * (2 ^ 43 : Nat)) + 1 < two 1024 := by push_cast; exact lt_of_le_of_lt (by norm_num) lt1024.2.2.1
  have hNt : ((2 ^ 43 : Nat) : ℚ) * (1 / 2 ^ 1075) ≤ 1 := by decide +kernel
  have G := fun ys (hp : ys <+: since (ops.filter (okArity n))) => JFP.gst_fin_window X le_rfl hM0 hN hNΩ hNt hB0 hB hm h2 ys
    (hp.length_le.trans hlen) (Y.prefix hp)
  obtain ⟨n', w', hw', hv', -, hts, -, -⟩ := JFP.newCore_ok _ hn
  have e1 : n' = n := by rw [hv] at hv'; exact_mod_cast hv'.symm
  subst e1
  have T := JFP.track_gst' (ieeeOf rnd64 pw over64) (n := n') (w := w) (ts := cfg.sums.getD [])
    (fun t ht => ⟨(hts t ht).1, fun k hk => ⟨(hts t ht).2.1 k hk, hs t ht k hk⟩⟩) (noColl_of hi) (fun h => noOver_of (hov h))
    (Good := fun zs => ∃ ys, ys <+: since (ops.filter (okArity n')) ∧ zs = ys.map (List.map XF.fin))
    (fun xs x => by
      rintro ⟨ys, hp, he⟩
      obtain ⟨l1, l2, rfl, rfl, -⟩ := List.map_eq_append_iff.1 he.symm
      exact ⟨l1, (List.prefix_append _ _).trans hp, rfl⟩)
    (by
      rintro xs y ys ⟨zs, hp, rfl⟩ h3 h4 h5
      obtain ⟨⟨g1, g2, g3⟩, -⟩ := G zs hp
      have Y' := Y.prefix hp
      obtain ⟨s1, s2⟩ := Y'.sum zs List.prefix_rfl
      exact (JFP.room_fin X le_rfl hM0 (w := w) hN hNΩ hNt hB0 hB hm h2 (hp.length_le.trans hlen) Y'.data (Y'.mean zs List.prefix_rfl) g1 g2 g3 s1 s2
        (fun a ha h => (JFP.gst_zero X.R X.P (by simp) (d := none) zs ha h).2)).2 y ys h3 h4 h5)
    (by
      rintro xs x ⟨zs, hp, he⟩
      obtain ⟨l1, l2, rfl, rfl, he2⟩ := List.map_eq_append_iff.1 he.symm
      obtain ⟨x', rfl, rfl⟩ : ∃ x', l2 = [x'] ∧ x = x'.map XF.fin := by
        obtain ⟨x', h1, h2⟩ := List.map_eq_singleton_iff.1 he2
        exact ⟨x', h1, h2.symm⟩
      have := (G _ hp).2 l1 x' rfl
      simpa only [List.map_append, List.map_cons, List.map_nil] using this)
  obtain ⟨e, r, Bk, hI⟩ := JFP.core_track _ hn hs hw hv (hd ▸ T) (finPts ops)
  rw [finPts_filter, since_finPts, hd] at hI
  obtain ⟨⟨h3, -, h4⟩, -⟩ := hI ⟨_, List.prefix_rfl, rfl⟩
  obtain ⟨⟨g1, -, g2⟩, -⟩ := G _ List.prefix_rfl
  have hcnt : e.count = (windowOf w (ops.filter (okArity n'))).length := by
    rw [Bk.count, finPts_filter, since_finPts, JFP.lastN_map, List.length_map]
    rfl
  refine ⟨e, r, hcnt, by rw [h3, g1], ?_⟩
  have h0 : e.count ≠ 0 := by
    rw [hcnt, windowOf]
    have := List.length_pos_iff.2 (lastN_ne_nil (w := w) hne)
    omega
  unfold JFP.sum
  rw [if_neg h0, h4 _ (tr_tracksZ.2 ht), g2]

theorem room_window {M : ℚ} (hM1 : 1 ≤ M) {N : Nat} (hfit : 10 ^ 8 * ((N + 1) * (M * M)) < two 1024) :
    10 ^ 8 * (M * M) < two 1024 ∧ 0 ≤ 5 * ((N + 1) * (M * M)) ∧
      2 * (5 * ((N + 1) * (M * M))) + 512 * ((22 + 38 * (2 * M)) * (22 + 38 * (2 * M))) < two 1024 := by
  have h1 : 1 ≤ M * M := one_le_mul_of_one_le_of_one_le hM1 hM1
  have h2 : 0 ≤ (N : ℚ) * (M * M) := by positivity
  have h3 : 10 ^ 8 * (M * M) < two 1024 := by linarith
  have h4 := (fits_room_window hM1 (by linarith)).2.2
  refine ⟨h3, by positivity, by linarith⟩

/-- The bound on the drift, compared with the size of the sums. -/
theorem drift_le {N k l : Nat} (hlen : N ≤ 2 ^ 43) (hk : k ≤ N) (hl : l ≤ N) {B : ℚ} (hB : 0 ≤ B) :
    250 * k * l * (1 / 2 ^ 53 * B) ≤ (N + 1) * B := by
  have h1 : (k : ℚ) ≤ N := by exact_mod_cast hk
  have h1' : (l : ℚ) ≤ N := by exact_mod_cast hl
  have h2 : (N : ℚ) * (1 / 2 ^ 53) ≤ 1 / 1024 := by
    calc (N : ℚ) * (1 / 2 ^ 53) ≤ 2 ^ 43 * (1 / 2 ^ 53) := mul_le_mul_of_nonneg_right (by exact_mod_cast hlen) (by positivity)
      _ ≤ 1 / 1024 := by norm_num
  have h0 : (0 : ℚ) ≤ k := Nat.cast_nonneg _
  have h0' : (0 : ℚ) ≤ l := Nat.cast_nonneg _
  have h3 : (k : ℚ) * l ≤ N * (N + 1) := mul_le_mul h1 (by linarith) h0' (by linarith)
  have hu0 : (0 : ℚ) ≤ 1 / 2 ^ 53 := by positivity
  generalize (1 : ℚ) / 2 ^ 53 = u at *
  have h4 := mul_le_mul_of_nonneg_right h3 (mul_nonneg hu0 hB)
  have h5 := mul_le_mul_of_nonneg_right h2 (show 0 ≤ ((N : ℚ) + 1) * B by positivity)
  have h6 : 0 ≤ ((N : ℚ) + 1) * B := by positivity
  calc 250 * (k : ℚ) * l * (u * B) = 250 * (k * l * (u * B)) := by ring
    _ ≤ 250 * (N * (N + 1) * (u * B)) := by linarith
    _ = 250 * (N * u * ((N + 1) * B)) := by ring
    _ ≤ _ := by linarith

theorem ieee_sum_window (P : JFP.PowOK rnd64 pw) (hP : ∀ x, |pw x 2 - x * x| ≤ 1 / 2 ^ 53 * (x * x) + 1 / 2 ^ 1075) {cfg : Joint.Config (XF ℚ)}
    {c : Joint.Core (XF ℚ)} (hn : JFP.newCore (ieeeOf rnd64 pw over64) cfg = .val (.ok c)) (hs : ∀ t ∈ cfg.sums.getD [], ∀ k ∈ t, k ≤ 65)
    (hi : NoCollision (cfg.sums.getD [])) {w : Nat} (hw : cfg.window = some (w : Int)) (hov : 2 ≤ w → NoOverlapZ (cfg.sums.getD []))
    (hd : cfg.decay = none) {n : Nat} (hv : Joint.varsOf cfg = n) {i j : Nat}
    (hij : i < j) (hj : j < n) (ht : TracksZ (cfg.sums.getD []) (((List.replicate n 0).set i 1).set j 1)) {M : ℚ} (hM1 : 1 ≤ M)
    (ops : List (MOp (List ℚ))) {N : Nat} (hN : (since (ops.filter (okArity n))).length = N) (hlen : N ≤ 2 ^ 43)
    (hx : BoundedPts M (since (ops.filter (okArity n)))) (hne : N ≠ 0) (hfit : 10 ^ 8 * ((N + 1) * (M * M)) < two 1024) :
    ∃ e, JFP.run (ieeeOf rnd64 pw over64) c (finPts ops) = .val (e, JFP.arityErrors n (finPts ops)) ∧
      e.count = (windowOf w (ops.filter (okArity n))).length ∧
      JFP.sum e (((List.replicate n 0).set i 1).set j 1) = .ok (.fin (JFP.pairS (Arith.rounded rnd64 pw) (fun a b => rnd64 (a * b)) w none
        (JFP.pairs 0 i j (since (ops.filter (okArity n)))))) := by
  obtain ⟨f1, f2, f3⟩ := room_window hM1 hfit
  have he : (((List.replicate n 0).set i 1).set j 1 : List Nat).map Int.ofNat = JFP.pairTuple n i j := by
    simp [JFP.pairTuple, JFP.atTuple, List.map_set]
  have hl := since_arity n ops
  have hM480 : (1 : ℚ) / 2 ^ 480 ≤ M := le_trans (by decide +kernel) hM1
  have S := small2_64 hM480 hM480 hlen
  have hne' : since (ops.filter (okArity n)) ≠ [] := by
    intro h
    rw [h] at hN
    exact hne hN.symm
  obtain ⟨e, r, hc, -, hsum⟩ := joint_ieee_window (B := 5 * ((N + 1) * (M * M))) (fits64_window P hP hM1 f1) hn hs hi hw hov hd
    hv ht (he ▸ JFP.pairTuple_tok) (he ▸ JFP.pairTuple_sum hij hj) f2 f3 hM1 ops hx (hN ▸ hlen) (fun ys hp => by
      have hly : ∀ x ∈ ys, x.length = n := fun x h => hl x (hp.subset h)
      have hb := prefix_pts hp hx
      have hbp := boundedPairs64 (hb.at hly (show i < n by omega)) (hb.at hly hj)
      rw [he, JFP.sum_mixed rounding_rnd64 P (by simp) hij hj ys hly]
      refine ⟨(JFP.pairS_repr rounding_rnd64 _ _ _ _).1, ?_⟩
      have hk : ys.length ≤ N := hN ▸ hp.length_le
      have hpl : (JFP.pairs (0 : ℚ) i j ys).length = ys.length := by simp [JFP.pairs]
      have h1 := pairS_linear (pw := pw) rounding_rnd64 accuracy_rnd64 (fun a b => accuracy_rnd64 (a * b)) (N := N) (fun m h => rnd64_nat (by omega)) S (pow_powSq P hP hlen) w
        (JFP.pairs 0 i j ys) (by rw [hpl]; exact hk) hbp
      rw [hpl] at h1
      have h2 := cpair_le S.fst.M0 S.snd.M0 (ps := lastN w (JFP.pairs 0 i j ys))
        (fun p hp => ⟨(hbp p (lastN_subset _ _ hp)).1.2, (hbp p (lastN_subset _ _ hp)).2.2⟩)
      have h3 := abs_sub_abs_le_abs_sub
        (JFP.pairS (Arith.rounded rnd64 pw) (fun a b => rnd64 (a * b)) w none (JFP.pairs 0 i j ys)) (cpair (lastN w (JFP.pairs 0 i j ys)))
      have hMM : 0 ≤ M * M := mul_self_nonneg M
      have h5' : (lastN w (JFP.pairs (0 : ℚ) i j ys)).length ≤ N := by
        have := lastN_le w (JFP.pairs (0 : ℚ) i j ys)
        rw [hpl] at this
        exact this.trans hk
      have h4 := drift_le hlen hk h5' hMM
      have h5 : ((lastN w (JFP.pairs (0 : ℚ) i j ys)).length : ℚ) ≤ N := by exact_mod_cast h5'
      have h6 := mul_le_mul_of_nonneg_right h5 (show 0 ≤ 4 * (M * M) by positivity)
      linarith) hne'
  rw [he, JFP.sum_mixed rounding_rnd64 P (by simp) hij hj _ hl] at hsum
  exact ⟨e, r, hc, hsum⟩

/-- The second power sum of a column, as a number. -/
theorem mst_square_window {w : Nat} {xs : List ℚ} {M : ℚ} (hM1 : 1 / 2 ^ 480 ≤ M) (hlen : xs.length ≤ 2 ^ 43)
    (hP : PowSq pw (1 / 2 ^ 53) (1 / 2 ^ 1075) xs.length) (hx : ∀ x ∈ xs, rnd64 x = x ∧ |x| ≤ M) :
    |(mst (Arith.rounded rnd64 pw) w none xs).2 2 - csum 2 (lastN w xs)| ≤ 250 * xs.length * (lastN w xs).length * (1 / 2 ^ 53) * M ^ 2 :=
  (mst_linear (pw := pw) rounding_rnd64 accuracy_rnd64 (N := xs.length) (fun n h => rnd64_nat (by omega)) (small64 hM1 hlen) hP w xs le_rfl hx).trans
    (le_of_eq (by ring))

theorem ieee_square_window (P : JFP.PowOK rnd64 pw) (hP : ∀ x, |pw x 2 - x * x| ≤ 1 / 2 ^ 53 * (x * x) + 1 / 2 ^ 1075) {cfg : Joint.Config (XF ℚ)}
    {c : Joint.Core (XF ℚ)} (hn : JFP.newCore (ieeeOf rnd64 pw over64) cfg = .val (.ok c)) (hs : ∀ t ∈ cfg.sums.getD [], ∀ k ∈ t, k ≤ 65)
    (hi : NoCollision (cfg.sums.getD [])) {w : Nat} (hw : cfg.window = some (w : Int)) (hov : 2 ≤ w → NoOverlapZ (cfg.sums.getD []))
    (hd : cfg.decay = none) {n : Nat} (hv : Joint.varsOf cfg = n) {i : Nat}
    (hin : i < n) (ht : TracksZ (cfg.sums.getD []) ((List.replicate n 0).set i 2)) {M : ℚ} (hM1 : 1 ≤ M)
    (ops : List (MOp (List ℚ))) {N : Nat} (hN : (since (ops.filter (okArity n))).length = N) (hlen : N ≤ 2 ^ 43)
    (hx : BoundedPts M (since (ops.filter (okArity n)))) (hne : N ≠ 0) (hfit : 10 ^ 8 * ((N + 1) * (M * M)) < two 1024) :
    ∃ e, JFP.run (ieeeOf rnd64 pw over64) c (finPts ops) = .val (e, JFP.arityErrors n (finPts ops)) ∧
      JFP.sum e ((List.replicate n 0).set i 2) =
        .ok (.fin ((mst (Arith.rounded rnd64 pw) w none (JFP.column 0 i (since (ops.filter (okArity n))))).2 2)) := by
  obtain ⟨f1, f2, f3⟩ := room_window hM1 hfit
  have he : ((List.replicate n 0).set i 2 : List Nat).map Int.ofNat = JFP.atTuple n i 2 := by simp [JFP.atTuple, List.map_set]
  have hl := since_arity n ops
  have hM480 : (1 : ℚ) / 2 ^ 480 ≤ M := le_trans (by decide +kernel) hM1
  have S := small64 hM480 hlen
  have hcl : ∀ ys : List (List ℚ), (JFP.column 0 i ys).length = ys.length := fun ys => by simp [JFP.column]
  have hne' : since (ops.filter (okArity n)) ≠ [] := by
    intro h
    rw [h] at hN
    exact hne hN.symm
  obtain ⟨e, r, hc, -, hsum⟩ := joint_ieee_window (B := 5 * ((N + 1) * (M * M))) (fits64_window P hP hM1 f1) hn hs hi hw hov hd
    hv ht (he ▸ JFP.atTuple_tok (k := 2) (by omega)) (he ▸ JFP.atTuple_sum hin) f2 f3 hM1 ops hx (hN ▸ hlen)
    (fun ys hp => by
      have hly : ∀ x ∈ ys, x.length = n := fun x h => hl x (hp.subset h)
      have hb := column_bounded ((prefix_pts hp hx).at hly hin)
      rw [he, JFP.sum_sq rounding_rnd64 P (by simp) hin ys hly]
      refine ⟨?_, ?_⟩
      · rw [← JFP.pairS_mst rounding_rnd64 (f := fun a _ => pw a 2) (fun _ _ => rfl)]
        exact (JFP.pairS_repr rounding_rnd64 _ _ _ _).1
      by_cases hy : ys = []
      · rw [hy, show JFP.column (0 : ℚ) i [] = [] from rfl, FP.mst_nil]
        simp only [Arith.rounded, Int.cast_zero, rounding_rnd64.zero, abs_zero]
        exact f2
      have hk : ys.length ≤ N := hN ▸ hp.length_le
      have h1 := mst_square_window (pw := pw) (w := w) (xs := JFP.column 0 i ys) hM480 (by rw [hcl]; omega)
        (pow_powSq P hP (by rw [hcl]; omega)) hb
      rw [hcl] at h1
      have h2 := FP.csum_two_le (xs := lastN w (JFP.column 0 i ys)) S.M0 fun x h => (hb x (lastN_subset _ _ h)).2
      have h0 := FP.csum_two_nonneg (lastN w (JFP.column 0 i ys))
      have h3 := abs_sub_abs_le_abs_sub ((mst (Arith.rounded rnd64 pw) w none (JFP.column 0 i ys)).2 2) (csum 2 (lastN w (JFP.column 0 i ys)))
      rw [abs_of_nonneg h0] at h3
      have hMM : 0 ≤ M * M := mul_self_nonneg M
      have h5' : (lastN w (JFP.column (0 : ℚ) i ys)).length ≤ N := by
        have := lastN_le w (JFP.column (0 : ℚ) i ys)
        rw [hcl] at this
        exact this.trans hk
      have h4 := drift_le hlen hk h5' hMM
      have h5 : ((lastN w (JFP.column (0 : ℚ) i ys)).length : ℚ) ≤ N := by exact_mod_cast h5'
      have h6 := mul_le_mul_of_nonneg_right h5 hMM
      linarith) hne'
  rw [he, JFP.sum_sq rounding_rnd64 P (by simp) hin _ hl] at hsum
  exact ⟨e, r, hsum⟩

/-- The error of the sum of products, as a number. -/
theorem pair_drift (P : JFP.PowOK rnd64 pw) (hP : ∀ x, |pw x 2 - x * x| ≤ 1 / 2 ^ 53 * (x * x) + 1 / 2 ^ 1075) {M₁ M₂ : ℚ} (h₁ : 1 / 2 ^ 480 ≤ M₁)
    (h₂ : 1 / 2 ^ 480 ≤ M₂) {data : List (List ℚ)} {N : Nat} (hN : data.length = N) (hlen : N ≤ 2 ^ 43) {i j : Nat} (hx₁ : BoundedAt i M₁ data)
    (hx₂ : BoundedAt j M₂ data) (w : Nat) :
    |JFP.pairS (Arith.rounded rnd64 pw) (fun a b => rnd64 (a * b)) w none (JFP.pairs 0 i j data) - crossSum i j (lastN w data)| ≤
      250 * N * (lastN w data).length * (1 / 2 ^ 53) * (M₁ * M₂) := by
  have hlp : (JFP.pairs 0 i j data).length = N := by simp [JFP.pairs, hN]
  have := pairS_linear (pw := pw) rounding_rnd64 accuracy_rnd64 (fun a b => accuracy_rnd64 (a * b)) (N := N) (fun m h => rnd64_nat (by omega))
    (small2_64 h₁ h₂ hlen) (pow_powSq P hP hlen) w (JFP.pairs 0 i j data) hlp.le (boundedPairs64 hx₁ hx₂)
  have hl : lastN w (JFP.pairs 0 i j data) = JFP.pairs 0 i j (lastN w data) := JFP.lastN_map _ _ _
  rw [hl, cpair_pairs, hlp, show (JFP.pairs 0 i j (lastN w data)).length = (lastN w data).length by simp [JFP.pairs]] at this
  exact this.trans (le_of_eq (by ring))

/-- The error of the sum of squares, as a number. -/
theorem square_drift (P : JFP.PowOK rnd64 pw) (hP : ∀ x, |pw x 2 - x * x| ≤ 1 / 2 ^ 53 * (x * x) + 1 / 2 ^ 1075) {M : ℚ} (hM : 1 / 2 ^ 480 ≤ M)
    {data : List (List ℚ)} {N : Nat} (hN : data.length = N) (hlen : N ≤ 2 ^ 43) {i : Nat} (hx : BoundedAt i M data) (w : Nat) :
    |(mst (Arith.rounded rnd64 pw) w none (JFP.column 0 i data)).2 2 - csum 2 (coord i (lastN w data))| ≤ 250 * N * (lastN w data).length * (1 / 2 ^ 53) * M ^ 2 := by
  have hcl : (JFP.column 0 i data).length = N := by simp [JFP.column, hN]
  have := mst_square_window (pw := pw) (w := w) (xs := JFP.column 0 i data) hM (by rw [hcl]; exact hlen) (pow_powSq P hP (by rw [hcl]; exact hlen))
    (column_bounded hx)
  have hl : lastN w (JFP.column 0 i data) = coord i (lastN w data) := JFP.lastN_map _ _ _
  rwa [hcl, hl, coord, List.length_map, ← coord] at this

/-- C105, a sum of products of a joint core with any window: it is finite and within the bound of C83, as long as `10⁸·(N + 1)·M² < 2^1024`. -/
theorem C105_window_sum (P : JFP.PowOK rnd64 pw) (hP : ∀ x, |pw x 2 - x * x| ≤ 1 / 2 ^ 53 * (x * x) + 1 / 2 ^ 1075) {cfg : Joint.Config (XF ℚ)}
    {c : Joint.Core (XF ℚ)} (hn : JFP.newCore (ieeeOf rnd64 pw over64) cfg = .val (.ok c)) (hs : ∀ t ∈ cfg.sums.getD [], ∀ k ∈ t, k ≤ 65)
    (hi : NoCollision (cfg.sums.getD [])) {w : Nat} (hw : cfg.window = some (w : Int)) (hov : 2 ≤ w → NoOverlapZ (cfg.sums.getD []))
    (hd : cfg.decay = none) {n : Nat} (hv : Joint.varsOf cfg = n) {i j : Nat}
    (hij : i < j) (hj : j < n) (ht : TracksZ (cfg.sums.getD []) (((List.replicate n 0).set i 1).set j 1)) {M : ℚ} (hM1 : 1 ≤ M)
    (ops : List (MOp (List ℚ))) {N : Nat} (hN : (since (ops.filter (okArity n))).length = N) (hlen : N ≤ 2 ^ 43)
    (hx : BoundedPts M (since (ops.filter (okArity n)))) (hne : N ≠ 0) (hfit : 10 ^ 8 * ((N + 1) * (M * M)) < two 1024) :
    ∃ e es v, JFP.run (ieeeOf rnd64 pw over64) c (finPts ops) = .val (e, es) ∧ e.count = (windowOf w (ops.filter (okArity n))).length ∧
      JFP.sum e (((List.replicate n 0).set i 1).set j 1) = .ok (.fin v) ∧
      |v - crossSum i j (windowOf w (ops.filter (okArity n)))| ≤ 250 * N * (windowOf w (ops.filter (okArity n))).length * (1 / 2 ^ 53) * (M * M) := by
  obtain ⟨e, r, hc, hsum⟩ := ieee_sum_window P hP hn hs hi hw hov hd hv hij hj ht hM1 ops hN hlen hx hne hfit
  have hM480 : (1 : ℚ) / 2 ^ 480 ≤ M := le_trans (by decide +kernel) hM1
  exact ⟨e, _, _, r, hc, hsum, pair_drift P hP hM480 hM480 hN hlen (hx.at (since_arity n ops) (by omega)) (hx.at (since_arity n ops) hj) w⟩

/-- C105, a sum of squares of a joint core with any window. -/
theorem C105_window_square (P : JFP.PowOK rnd64 pw) (hP : ∀ x, |pw x 2 - x * x| ≤ 1 / 2 ^ 53 * (x * x) + 1 / 2 ^ 1075) {cfg : Joint.Config (XF ℚ)}
    {c : Joint.Core (XF ℚ)} (hn : JFP.newCore (ieeeOf rnd64 pw over64) cfg = .val (.ok c)) (hs : ∀ t ∈ cfg.sums.getD [], ∀ k ∈ t, k ≤ 65)
    (hi : NoCollision (cfg.sums.getD [])) {w : Nat} (hw : cfg.window = some (w : Int)) (hov : 2 ≤ w → NoOverlapZ (cfg.sums.getD []))
    (hd : cfg.decay = none) {n : Nat} (hv : Joint.varsOf cfg = n) {i : Nat}
    (hin : i < n) (ht : TracksZ (cfg.sums.getD []) ((List.replicate n 0).set i 2)) {M : ℚ} (hM1 : 1 ≤ M)
    (ops : List (MOp (List ℚ))) {N : Nat} (hN : (since (ops.filter (okArity n))).length = N) (hlen : N ≤ 2 ^ 43)
    (hx : BoundedPts M (since (ops.filter (okArity n)))) (hne : N ≠ 0) (hfit : 10 ^ 8 * ((N + 1) * (M * M)) < two 1024) :
    ∃ e es v, JFP.run (ieeeOf rnd64 pw over64) c (finPts ops) = .val (e, es) ∧ JFP.sum e ((List.replicate n 0).set i 2) = .ok (.fin v) ∧
      |v - csum 2 (coord i (windowOf w (ops.filter (okArity n))))| ≤ 250 * N * (windowOf w (ops.filter (okArity n))).length * (1 / 2 ^ 53) * M ^ 2 := by
  obtain ⟨e, r, hsum⟩ := ieee_square_window P hP hn hs hi hw hov hd hv hin ht hM1 ops hN hlen hx hne hfit
  exact ⟨e, _, _, r, hsum, square_drift P hP (le_trans (by decide +kernel) hM1) hN hlen (hx.at (since_arity n ops) hin) w⟩

/-- C110, `Cov` with a window, also with overflow, as long as `10⁸·(N + 1)·M² < 2^1024`. -/
theorem C110_cov_ieee (P : JFP.PowOK rnd64 pw) (hP : ∀ x, |pw x 2 - x * x| ≤ 1 / 2 ^ 53 * (x * x) + 1 / 2 ^ 1075) {cfg : Joint.Config (XF ℚ)}
    {c : Joint.Core (XF ℚ)} (hn : JFP.newCore (ieeeOf rnd64 pw over64) cfg = .val (.ok c)) (hs : ∀ t ∈ cfg.sums.getD [], ∀ k ∈ t, k ≤ 65)
    (hi : NoCollision (cfg.sums.getD [])) {w : Nat} (hw : cfg.window = some (w : Int)) (hov : 2 ≤ w → NoOverlapZ (cfg.sums.getD []))
    (hd : cfg.decay = none) (hv : Joint.varsOf cfg = 2) (ht : TracksZ (cfg.sums.getD []) [1, 1]) {M : ℚ} (hM1 : 1 ≤ M)
    (ops : List (MOp (List ℚ))) {N L : Nat} (hN : (since (ops.filter (okArity 2))).length = N)
    (hLw : (windowOf w (ops.filter (okArity 2))).length = L) (hlen : N ≤ 2 ^ 43) (hx : BoundedPts M (since (ops.filter (okArity 2)))) (hL : 2 ≤ L)
    (hfit : 10 ^ 8 * ((N + 1) * (M * M)) < two 1024) :
    ∃ e es v, JFP.run (ieeeOf rnd64 pw over64) c (finPts ops) = .val (e, es) ∧ JFP.covValue (ieeeOf rnd64 pw over64) e = .ok (.fin v) ∧
      |v - sampleCov (windowOf w (ops.filter (okArity 2)))| ≤ covDrift N (M * M) ∧
      (covDrift N (M * M) < |sampleCov (windowOf w (ops.filter (okArity 2)))| →
        (0 < v ↔ 0 < sampleCov (windowOf w (ops.filter (okArity 2)))) ∧ (v < 0 ↔ sampleCov (windowOf w (ops.filter (okArity 2))) < 0)) := by
  have hLN : L ≤ N := by
    rw [← hLw, ← hN, windowOf]
    exact lastN_le _ _
  obtain ⟨e, es, s, r, hcnt, hsum, b⟩ := C105_window_sum P hP hn hs hi hw hov hd (n := 2) (by exact_mod_cast hv) (i := 0) (j := 1) (by omega)
    (by omega) ht hM1 ops hN hlen hx (by omega) hfit
  rw [hLw] at hcnt b
  have hl := since_arity 2 ops
  have hM480 : (1 : ℚ) / 2 ^ 480 ≤ M := le_trans (by decide +kernel) hM1
  have S := small2_64 hM480 hM480 hlen
  have hMM : 0 ≤ M * M := mul_self_nonneg M
  have hcov : sampleCov (windowOf w (ops.filter (okArity 2))) = crossSum 0 1 (windowOf w (ops.filter (okArity 2))) / (L - 1) := by
    rw [← hLw]; rfl
  have hQ : |crossSum 0 1 (windowOf w (ops.filter (okArity 2)))| ≤ L * (4 * (M * M)) := by
    have hsub : ∀ p ∈ windowOf w (ops.filter (okArity 2)), p ∈ since (ops.filter (okArity 2)) := fun p hp => lastN_subset _ _ hp
    have := cpair_le S.fst.M0 S.snd.M0 (ps := JFP.pairs 0 0 1 (windowOf w (ops.filter (okArity 2))))
      (fun p hp => by
        have := boundedPairs64 (fun x h => hx.at hl (show 0 < 2 by omega) x (hsub x h)) (fun x h => hx.at hl (show 1 < 2 by omega) x (hsub x h)) p hp
        exact ⟨this.1.2, this.2.2⟩)
    rwa [cpair_pairs, show (JFP.pairs (0 : ℚ) 0 1 (windowOf w (ops.filter (okArity 2)))).length = L by simp [JFP.pairs, hLw]] at this
  have h := quot_drift hL hLN hMM S.prod b hQ
  rw [← hcov] at h
  have hl2 : (2 : ℚ) ≤ L := by exact_mod_cast hL
  have hln : (L : ℚ) ≤ N := by exact_mod_cast hLN
  have hl53 : (L : ℚ) < two 1024 := lt_of_le_of_lt (b := 2 ^ 53) (by exact_mod_cast (show L ≤ 2 ^ 53 by omega)) lt1024.2.1
  have e0 : (ieeeOf rnd64 pw over64).ofInt 1 = .fin 1 := by
    show over64 (rnd64 ((1 : Int) : ℚ)) = _
    rw [Int.cast_one, rounding_rnd64.one]
    exact over64_fin _ (by rw [abs_one]; linarith)
  have e1 : (ieeeOf rnd64 pw over64).ofInt (L : Int) = .fin L := by
    show over64 (rnd64 (((L : Nat) : Int) : ℚ)) = _
    rw [Int.cast_natCast, rnd64_nat (by omega)]
    exact over64_fin _ (by rw [abs_of_nonneg (by linarith)]; linarith)
  have e2 : (ieeeOf rnd64 pw over64).sub (.fin (L : ℚ)) (.fin 1) = .fin (L - 1) := by
    show over64 (rnd64 ((L : ℚ) - 1)) = _
    have h1 : rnd64 ((L : ℚ) - 1) = L - 1 := by
      have := rnd64_nat (n := L - 1) (by omega)
      rwa [Nat.cast_sub (by omega), Nat.cast_one] at this
    rw [h1]
    exact over64_fin _ (by rw [abs_of_nonneg (by linarith)]; linarith)
  have hval : |rnd64 (s / (L - 1))| < two 1024 := by
    have hl1 : (0 : ℚ) < L - 1 := by linarith
    have hq : |s / ((L : ℚ) - 1)| ≤ |s| := by
      rw [abs_div, abs_of_pos hl1]
      exact div_le_self (abs_nonneg _) (by linarith)
    have h1 := abs_add_le (s - crossSum 0 1 (windowOf w (ops.filter (okArity 2)))) (crossSum 0 1 (windowOf w (ops.filter (okArity 2))))
    rw [sub_add_cancel] at h1
    have h4 := drift_le hlen (le_refl N) hLN hMM
    have h6 := mul_le_mul_of_nonneg_right hln (show 0 ≤ 4 * (M * M) by positivity)
    have h7 : 0 ≤ (N : ℚ) * (M * M) := by positivity
    exact rnd_lt (B := 5 * ((N + 1) * (M * M))) (by linarith) (by linarith [one_le_mul_of_one_le_of_one_le hM1 hM1]) (by linarith)
  have e3 : (ieeeOf rnd64 pw over64).div (.fin s) (.fin ((L : ℚ) - 1)) = .fin (rnd64 (s / (L - 1))) := by
    show (if ((L : ℚ) - 1) = 0 then _ else over64 (rnd64 (s / (L - 1)))) = _
    rw [if_neg (by linarith)]
    exact over64_fin _ hval
  have hsum' : JFP.sum e [1, 1] = .ok (.fin s) := hsum
  exact ⟨e, es, _, r, by simp only [JFP.covValue, hsum', hcnt, e0, e1, e2, e3], h, sign_of_close h⟩

/-- C110, `Autocov` with a window, also with overflow. -/
theorem C110_autocov_ieee (P : JFP.PowOK rnd64 pw) (hP : ∀ x, |pw x 2 - x * x| ≤ 1 / 2 ^ 53 * (x * x) + 1 / 2 ^ 1075) (lag w : Nat)
    (sqX : XF ℚ → XF ℚ) {M : ℚ} (hM1 : 1 ≤ M) (ops : List (MOp ℚ)) {N L : Nat} (hN : (since ops).length = N + lag)
    (hLw : (lastN w (lagged lag (since ops))).length = L) (hlen : N ≤ 2 ^ 43) (hx : ∀ x ∈ since ops, rnd64 x = x ∧ |x| ≤ M) (hL : 2 ≤ L)
    (hfit : 10 ^ 8 * ((N + 1) * (M * M)) < two 1024) :
    ∃ v, aObs (ieeeOf rnd64 pw over64) false lag w sqX (finOps ops) = some (.ok (.fin v), []) ∧
      |v - sampleCov (lastN w (lagged lag (since ops)))| ≤ covDrift N (M * M) ∧
      (covDrift N (M * M) < |sampleCov (lastN w (lagged lag (since ops)))| →
        (0 < v ↔ 0 < sampleCov (lastN w (lagged lag (since ops)))) ∧ (v < 0 ↔ sampleCov (lastN w (lagged lag (since ops))) < 0)) := by
  have hl : (lagged lag (since ops)).length = N := by rw [lagged_length]; omega
  have hLN : L ≤ N := by
    rw [← hLw, ← hl]
    exact lastN_le _ _
  obtain ⟨c, hn⟩ := JFP.auto_newCore (ieeeOf rnd64 pw over64) false w
  have hs := JFP.filter_pushes (JFP.lagged_arity lag (since ops))
  obtain ⟨e, es, v, r, hv, hb⟩ := C110_cov_ieee P hP hn (JFP.auto_exp false w) (noCollision_auto false w) (w := w) rfl
    (fun _ => noOverlap_autocov w) rfl (JFP.auto_vars false w) ⟨[1, 1], by simp [JFP.autoConfig], by decide⟩ hM1
    ((lagged lag (since ops)).map MOp.push) (N := N) (L := L) (by rw [hs, JFP.since_pushes]; exact hl)
    (by rw [hs, windowOf, JFP.since_pushes]; exact hLw) hlen (by
      rw [hs, JFP.since_pushes]
      intro p hp a ha
      obtain ⟨x, h2, y, h3, rfl⟩ := lagged_mem hp
      simp only [List.mem_cons, List.not_mem_nil, or_false] at ha
      rcases ha with rfl | rfl
      · exact hx _ h2
      · exact hx _ h3) hL hfit
  rw [hs, windowOf, JFP.since_pushes] at hb
  refine ⟨v, ?_, hb⟩
  have := aObs_eq (ieeeOf rnd64 pw over64) (corr := false) (lag := lag) (w := w) (sqrt := sqX) (ops := finOps ops) hn
    (by rw [since_finOps, lagged_finPts]; exact r) (by rw [since_finOps, List.length_map]; omega)
  rw [if_neg (by simp), hv] at this
  exact this

/-- C109, `Corr` with a window, also with overflow, as long as `10⁸·((N + 1)·M²)² < 2^1024`, `M ≥ 1` bounding all coordinates. -/
theorem C109_corr_ieee (P : JFP.PowOK rnd64 pw) (hP : ∀ x, |pw x 2 - x * x| ≤ 1 / 2 ^ 53 * (x * x) + 1 / 2 ^ 1075) {cfg : Joint.Config (XF ℚ)}
    {c : Joint.Core (XF ℚ)} (hc : CorrCoreX pw cfg c) (hov : NoOverlapZ (cfg.sums.getD [])) {w : Nat} (hw : cfg.window = some (w : Int))
    (hd : cfg.decay = none) {sq : ℚ → ℚ}
    (hsq : ∀ q : ℚ, 0 ≤ q → |(sq q : ℝ) - √(q : ℝ)| ≤ ((1 / 2 ^ 53 : ℚ) : ℝ) * √(q : ℝ)) {sqX : XF ℚ → XF ℚ}
    (hsqX : ∀ q : ℚ, 0 ≤ q → sqX (.fin q) = .fin (sq q)) (ops : List (MOp (List ℚ))) {N L : Nat}
    (hN : (since (ops.filter (okArity 2))).length = N) (hLw : (windowOf w (ops.filter (okArity 2))).length = L) (hlen : N ≤ 2 ^ 43)
    {M₁ M₂ M : ℚ} (hκ : 1 ≤ κ) (H₁ : WinOK 0 w M₁ κ (since (ops.filter (okArity 2))))
    (H₂ : WinOK 1 w M₂ κ (since (ops.filter (okArity 2)))) (hL : 2 ≤ L) (hsm : driftOf N κ ≤ 1 / 100)
    (hM1 : 1 ≤ M) (l₁ : M₁ ≤ M) (l₂ : M₂ ≤ M) (hfit : 10 ^ 8 * ((N + 1) * (M * M)) ^ 2 < two 1024) :
    ∃ e es g, JFP.run (ieeeOf rnd64 pw over64) c (finPts ops) = .val (e, es) ∧ JFP.corrValue (ieeeOf rnd64 pw over64) sqX e = .ok (.fin g) ∧
      |(g : ℝ) - pearson (realPoints (windowOf w (ops.filter (okArity 2))))| ≤ 4 * (driftOf N κ : ℚ) := by
  have hl := since_arity 2 ops
  have hLN : L ≤ N := by
    rw [← hLw, ← hN, windowOf]
    exact lastN_le _ _
  have hMM : 1 ≤ M * M := one_le_mul_of_one_le_of_one_le hM1 hM1
  have hNq : (2 : ℚ) ≤ N := by exact_mod_cast hL.trans hLN
  have hNM : 1 ≤ (N + 1) * (M * M) := one_le_mul_of_one_le_of_one_le (by linarith) hMM
  have hfit1 : 10 ^ 8 * ((N + 1) * (M * M)) < two 1024 := by
    have := le_mul_of_one_le_left (show 0 ≤ (N + 1) * (M * M) by linarith) hNM
    rw [pow_two] at hfit
    linarith
  have hx := pts_of_coords hl H₁.bound H₂.bound l₁ l₂
  have low : ∀ M : ℚ, 1 / 2 ^ 200 ≤ M → 1 / 2 ^ 480 ≤ M := fun M h => le_trans (by decide +kernel) h
  obtain ⟨e, r, -, k11⟩ := ieee_sum_window P hP hc.new hc.small hc.coll hw (fun _ => hov) hd (n := 2) (by exact_mod_cast hc.vars) (i := 0) (j := 1)
    (by omega) (by omega) hc.track.1 hM1 ops hN hlen hx (by omega) hfit1
  obtain ⟨e1, r1, k20⟩ := ieee_square_window P hP hc.new hc.small hc.coll hw (fun _ => hov) hd (n := 2) (by exact_mod_cast hc.vars) (i := 0) (by omega)
    hc.track.2.1 hM1 ops hN hlen hx (by omega) hfit1
  obtain ⟨e2, r2, k02⟩ := ieee_square_window P hP hc.new hc.small hc.coll hw (fun _ => hov) hd (n := 2) (by exact_mod_cast hc.vars) (i := 1) (by omega)
    hc.track.2.2 hM1 ops hN hlen hx (by omega) hfit1
  rw [r] at r1 r2
  simp only [Go.val.injEq, Prod.mk.injEq, and_true] at r1 r2
  subst r1
  subst r2
  change JFP.sum e [1, 1] = _ at k11
  change JFP.sum e [2, 0] = _ at k20
  change JFP.sum e [0, 2] = _ at k02
  have b11 := pair_drift P hP (low _ H₁.low) (low _ H₂.low) hN hlen H₁.bound H₂.bound w
  have b20 := square_drift P hP (low _ H₁.low) hN hlen H₁.bound w
  have b02 := square_drift P hP (low _ H₂.low) hN hlen H₂.bound w
  rw [show (lastN w (since (ops.filter (okArity 2)))).length = L from hLw] at b11 b20 b02
  obtain ⟨gX, gY, hb⟩ := corr_of_window_sums hsq hLw hLN hκ H₁.low H₂.low H₁.cond H₂.cond hL hsm b11 b20 b02
  have hcs : ∀ i, i < 2 → csum 2 (coord i (windowOf w (ops.filter (okArity 2)))) ≤ (N + 1) * (M * M) := fun i hi => by
    have h1 := FP.csum_two_le (xs := coord i (windowOf w (ops.filter (okArity 2)))) (show 0 ≤ M by linarith) fun x h => by
      obtain ⟨p, hp, rfl⟩ := List.mem_map.1 h
      exact (hx.at hl hi p (lastN_subset _ _ hp)).2
    rw [show (coord i (windowOf w (ops.filter (okArity 2)))).length = L by simp [coord, hLw]] at h1
    have hln : (L : ℚ) ≤ N + 1 := by
      have : (L : ℚ) ≤ N := by exact_mod_cast hLN
      linarith
    exact h1.trans (mul_le_mul_of_nonneg_right hln (by linarith))
  refine ⟨e, _, _, r, corrValue_fin (u := 1 / 2 ^ 53) (by norm_num) hsq hsqX k11 k20 k02 gX gY (hcs 0 (by omega)) (hcs 1 (by omega)) hNM ?_ ?_, hb⟩
  · have h3 : 0 ≤ ((N + 1) * (M * M)) ^ 2 := sq_nonneg _
    linarith
  · have h1 := pearson_le (data := windowOf w (ops.filter (okArity 2))) (by omega)
    have h3 := (abs_sub_abs_le_abs_sub _ _).trans hb
    have h4 : ((driftOf N κ : ℚ) : ℝ) ≤ 1 / 100 := by simpa using (Rat.cast_le (K := ℝ)).2 hsm
    linarith

/-- C75, the range of `Corr` with a window, partial: at most `1 + 4·250·N·2⁻⁵³·κ²` under the conditions of `C109_corr_ieee`. Missing: other
histories, for which the range can be exceeded by a lot (`C75_window_range_refuted`). -/
theorem C75_window_range_partial (P : JFP.PowOK rnd64 pw) (hP : ∀ x, |pw x 2 - x * x| ≤ 1 / 2 ^ 53 * (x * x) + 1 / 2 ^ 1075)
    {cfg : Joint.Config (XF ℚ)} {c : Joint.Core (XF ℚ)} (hc : CorrCoreX pw cfg c) (hov : NoOverlapZ (cfg.sums.getD [])) {w : Nat}
    (hw : cfg.window = some (w : Int)) (hd : cfg.decay = none) {sq : ℚ → ℚ}
    (hsq : ∀ q : ℚ, 0 ≤ q → |(sq q : ℝ) - √(q : ℝ)| ≤ ((1 / 2 ^ 53 : ℚ) : ℝ) * √(q : ℝ)) {sqX : XF ℚ → XF ℚ}
    (hsqX : ∀ q : ℚ, 0 ≤ q → sqX (.fin q) = .fin (sq q)) (ops : List (MOp (List ℚ))) {N L : Nat}
    (hN : (since (ops.filter (okArity 2))).length = N) (hLw : (windowOf w (ops.filter (okArity 2))).length = L) (hlen : N ≤ 2 ^ 43)
    {M₁ M₂ M : ℚ} (hκ : 1 ≤ κ) (H₁ : WinOK 0 w M₁ κ (since (ops.filter (okArity 2))))
    (H₂ : WinOK 1 w M₂ κ (since (ops.filter (okArity 2)))) (hL : 2 ≤ L) (hsm : driftOf N κ ≤ 1 / 100)
    (hM1 : 1 ≤ M) (l₁ : M₁ ≤ M) (l₂ : M₂ ≤ M) (hfit : 10 ^ 8 * ((N + 1) * (M * M)) ^ 2 < two 1024) :
    ∃ e es g, JFP.run (ieeeOf rnd64 pw over64) c (finPts ops) = .val (e, es) ∧ JFP.corrValue (ieeeOf rnd64 pw over64) sqX e = .ok (.fin g) ∧
      |g| ≤ 1 + 4 * driftOf N κ := by
  obtain ⟨e, es, g, r, hv, hb⟩ := C109_corr_ieee P hP hc hov hw hd hsq hsqX ops hN hLw hlen hκ H₁ H₂ hL hsm hM1 l₁ l₂ hfit
  refine ⟨e, es, g, r, hv, ?_⟩
  have h1 := pearson_le (data := windowOf w (ops.filter (okArity 2))) (by omega)
  have h2 : |(g : ℝ)| ≤ 1 + 4 * (driftOf N κ : ℚ) := by
    have := abs_sub_abs_le_abs_sub (g : ℝ) (pearson (realPoints (windowOf w (ops.filter (okArity 2)))))
    linarith
  exact_mod_cast h2

/-- C109, `Autocorr` with a window, also with overflow. -/
theorem C109_autocorr_ieee (P : JFP.PowOK rnd64 pw) (hP : ∀ x, |pw x 2 - x * x| ≤ 1 / 2 ^ 53 * (x * x) + 1 / 2 ^ 1075) (lag w : Nat) {sq : ℚ → ℚ}
    (hsq : ∀ q : ℚ, 0 ≤ q → |(sq q : ℝ) - √(q : ℝ)| ≤ ((1 / 2 ^ 53 : ℚ) : ℝ) * √(q : ℝ)) {sqX : XF ℚ → XF ℚ}
    (hsqX : ∀ q : ℚ, 0 ≤ q → sqX (.fin q) = .fin (sq q)) (ops : List (MOp ℚ)) {N L : Nat} (hN : (since ops).length = N + lag)
    (hLw : (lastN w (lagged lag (since ops))).length = L) (hlen : N ≤ 2 ^ 43) (hκ : 1 ≤ κ) {M : ℚ} (hM1 : 1 ≤ M)
    (hx : ∀ x ∈ since ops, rnd64 x = x ∧ |x| ≤ M) (h0 : ∀ i, i < 2 → M ^ 2 ≤ κ ^ 2 * popMoment 2 (coord i (lastN w (lagged lag (since ops)))))
    (hL : 2 ≤ L) (hsm : driftOf N κ ≤ 1 / 100) (hfit : 10 ^ 8 * ((N + 1) * (M * M)) ^ 2 < two 1024) :
    ∃ g, aObs (ieeeOf rnd64 pw over64) true lag w sqX (finOps ops) = some (.ok (.fin g), []) ∧
      |(g : ℝ) - pearson (realPoints (lastN w (lagged lag (since ops))))| ≤ 4 * (driftOf N κ : ℚ) := by
  have hl : (lagged lag (since ops)).length = N := by rw [lagged_length]; omega
  have hLN : L ≤ N := by
    rw [← hLw, ← hl]
    exact lastN_le _ _
  obtain ⟨c, hn⟩ := JFP.auto_newCore (ieeeOf rnd64 pw over64) true w
  have hs := JFP.filter_pushes (JFP.lagged_arity lag (since ops))
  have hb : ∀ i, i < 2 → BoundedAt i M (lagged lag (since ops)) := by
    intro i hi p hp
    obtain ⟨x, h2, y, h3, rfl⟩ := lagged_mem hp
    match i with
    | 0 => exact hx x h2
    | 1 => exact hx y h3
    | i + 2 => omega
  have hM200 : (1 : ℚ) / 2 ^ 200 ≤ M := le_trans (by decide +kernel) hM1
  obtain ⟨e, es, v, r, hv, hb⟩ := C109_corr_ieee P hP (cfg := JFP.autoConfig (XF ℚ) true w) (c := c)
    ⟨hn, rfl, JFP.auto_exp true w, noCollision_auto true w, ⟨⟨[1, 1], by simp [JFP.autoConfig], by decide⟩,
      ⟨[2, 0], by simp [JFP.autoConfig], by decide⟩, ⟨[0, 2], by simp [JFP.autoConfig], by decide⟩⟩⟩ noOverlap_auto (w := w) rfl rfl hsq hsqX
    ((lagged lag (since ops)).map MOp.push) (N := N) (L := L) (by rw [hs, JFP.since_pushes]; exact hl)
    (by rw [hs, windowOf, JFP.since_pushes]; exact hLw) hlen hκ
    (by rw [hs, JFP.since_pushes]; exact ⟨hM200, hb 0 (by omega), h0 0 (by omega)⟩)
    (by rw [hs, JFP.since_pushes]; exact ⟨hM200, hb 1 (by omega), h0 1 (by omega)⟩) hL hsm hM1 le_rfl le_rfl hfit
  rw [hs, windowOf, JFP.since_pushes] at hb
  refine ⟨v, ?_, hb⟩
  have := aObs_eq (ieeeOf rnd64 pw over64) (corr := true) (lag := lag) (w := w) (sqrt := sqX) (ops := finOps ops) hn
    (by rw [since_finOps, lagged_finPts]; exact r) (by rw [since_finOps, List.length_map]; omega)
  rw [if_pos rfl, hv] at this
  exact this

end

/-- The hypotheses on the numbers hold for a million points of up to 2^480 and `Cov`, of up to 2^230 and `Corr`, with a window of a thousand. -/
example : (10 ^ 8 * (((10 ^ 6 : Nat) + 1) * (2 ^ 480 * 2 ^ 480)) : ℚ) < two 1024 ∧
    (10 ^ 8 * (((10 ^ 6 : Nat) + 1) * (2 ^ 230 * 2 ^ 230)) ^ 2 : ℚ) < two 1024 ∧ driftOf (10 ^ 6) 10 ≤ 1 / 100 := by decide +kernel

/-- The hypotheses on the data hold for the points (9, 9), (1, 2), (3, 1), (2, 5), (7, 4) times 2^200 and a window of four. -/
example : BoundedPts (9 * 2 ^ 200) ([[9 * 2 ^ 200, 9 * 2 ^ 200], [2 ^ 200, 2 * 2 ^ 200], [3 * 2 ^ 200, 2 ^ 200], [2 * 2 ^ 200, 5 * 2 ^ 200],
      [7 * 2 ^ 200, 4 * 2 ^ 200]] : List (List ℚ)) ∧
    WinOK 0 4 (9 * 2 ^ 200) 7 [[9 * 2 ^ 200, 9 * 2 ^ 200], [2 ^ 200, 2 * 2 ^ 200], [3 * 2 ^ 200, 2 ^ 200], [2 * 2 ^ 200, 5 * 2 ^ 200],
      [7 * 2 ^ 200, 4 * 2 ^ 200]] ∧ driftOf 5 7 ≤ 1 / 100 ∧ (10 ^ 8 * (((5 : Nat) + 1) * ((9 * 2 ^ 200) * (9 * 2 ^ 200))) ^ 2 : ℚ) < two 1024 := by
  refine ⟨?_, ⟨by decide +kernel, ?_, by decide +kernel⟩, by decide +kernel, by decide +kernel⟩
  · intro x hx a ha
    simp only [List.mem_cons, List.not_mem_nil, or_false] at hx
    rcases hx with rfl | rfl | rfl | rfl | rfl <;>
    · simp only [List.mem_cons, List.not_mem_nil, or_false] at ha
      rcases ha with rfl | rfl <;> exact ⟨by decide +kernel, by decide +kernel⟩
  · intro x hx
    simp only [List.mem_cons, List.not_mem_nil, or_false] at hx
    rcases hx with rfl | rfl | rfl | rfl | rfl <;> exact ⟨by decide +kernel, by decide +kernel⟩

set_option synthInstance.maxSize 512 in
set_option synthInstance.maxHeartbeats 200000 in
/-- There is a core as assumed: that of `Corr` with a window of four. -/
example : ∃ c, CorrCoreX (fun x k => rnd64 (x ^ k)) ⟨some [[1, 1], [2, 0], [0, 2]], some 4, none, none⟩ c ∧
    NoOverlapZ ((⟨some [[1, 1], [2, 0], [0, 2]], some 4, none, none⟩ : Joint.Config (XF ℚ)).sums.getD []) := by
  obtain ⟨c, hn⟩ := JFP.auto_newCore Arith.ieee64 true 4
  exact ⟨c, ⟨hn, rfl, JFP.auto_exp true 4, noCollision_auto true 4, ⟨⟨[1, 1], by simp, by decide⟩, ⟨[2, 0], by simp, by decide⟩,
    ⟨[0, 2], by simp, by decide⟩⟩⟩, noOverlap_auto⟩

set_option synthInstance.maxSize 512 in
set_option synthInstance.maxHeartbeats 200000 in
/-- C110, the size condition is needed: with a window of two `Cov` of (2^600, 2^600), (1, 2), (3, 5) is NaN although the window holds small points
only. -/
theorem C110_cov_large : ∃ c e, JFP.newCore Arith.ieee64 ⟨some [[1, 1]], some 2, none, none⟩ = .val (.ok c) ∧
    JFP.run Arith.ieee64 c (finPts [.push [2 ^ 600, 2 ^ 600], .push [1, 2], .push [3, 5]]) = .val (e, []) ∧
    JFP.sum e [1, 1] = .ok .nan ∧ JFP.covValue Arith.ieee64 e = .ok .nan ∧
    windowOf 2 ([.push [2 ^ 600, 2 ^ 600], .push [1, 2], .push [3, 5]] : List (MOp (List ℚ))) = [[1, 2], [3, 5]] := by
  have h : jObs Arith.ieee64 ⟨some [[1, 1]], some 2, none, none⟩ (finPts [.push [2 ^ 600, 2 ^ 600], .push [1, 2], .push [3, 5]]) [[1, 1]] =
      some (([.ok .nan], .ok (.fin (3 / 2)), .ok (.fin (5 / 2))), 2, []) := by decide +kernel
  obtain ⟨c, e, h1, h2, h3, -, -, h4⟩ := jObs_run h
  simp only [List.map_cons, List.map_nil, List.cons.injEq, and_true] at h3
  exact ⟨c, e, h1, h2, h3, by simp only [JFP.covValue, h3, h4]; rfl, by decide +kernel⟩

end Verif.Props
