import Verif.Props.Quantile
import Verif.Props.QuantileFP
import Verif.Props.MinMax
import Verif.Props.JointCore
import Verif.Props.JointRounded
import Verif.Props.Rounded

/-! # C84: only the multiset of the values in the window matters

Two histories, possibly of two metrics with different windows, whose windows hold the same values in some order. For the moment core in exact
arithmetic this is `C32_order`. -/

set_option linter.unusedSectionVars false

namespace Verif.Props
open Verif Verif.Spec Verif.Quant

section
variable {K : Type} [Field K] [LinearOrder K] [IsStrictOrderedRing K] [FloorRing K]

/-- A helper: `Value` looks at a container only through its size and `Select`. -/
theorem quantile_value_congr {F : Type} [GoOrd F] {st st' : Statistic F} (O : FOps F) (q : Quantile st) (q' : Quantile st')
    (hi : q.interpolation = q'.interpolation) (hs : st.size q.statistic = st'.size q'.statistic)
    (hk : ∀ k, st.select q.statistic k = st'.select q'.statistic k) (x : F) : q.value O x = q'.value O x := by
  have hsel : ∀ k, q.sel k = q'.sel k := fun k => by unfold Quantile.sel; rw [hk]
  unfold Quantile.value
  simp only [hi, hs, hsel]

/-- C84, `Quantile`, in full for the AVL tree and for the streams that the other containers handle (`ImplOK`): two metrics with the same
interpolation, any windows, any containers and any two histories, whose windows hold the same values, answer every `Value(x)` alike, to the bit
and with the same errors, in any arithmetic `O`. -/
theorem C84_quantile {window window' : Int} {os os' : List (Opt K)} {c c' : Cfg K} (hn : new 0 1 window os = .ok c)
    (hn' : new 0 1 window' os' = .ok c') (hi : c.interpolation = c'.interpolation) (draws draws' : Nat → Nat → Bool) (ops ops' : List (MOp K))
    (hok : ImplOK c window.toNat ops) (hok' : ImplOK c' window'.toNat ops')
    (hp : (windowOf window.toNat ops).Perm (windowOf window'.toNat ops')) :
    ∃ q q', (ofCfg c draws).run ops = .val (q, []) ∧ (ofCfg c' draws').run ops' = .val (q', []) ∧
      ∀ (O : FOps K) (x : K), q.value O x = q'.value O x := by
  obtain ⟨h0, hw, hs, -, -, -, -⟩ := new_ok hn
  obtain ⟨h0', hw', hs', -, -, -, -⟩ := new_ok hn'
  obtain ⟨okAdd, okRem, Rep, L, hL⟩ := statOf_lawful c hs draws
  obtain ⟨okAdd', okRem', Rep', L', hL'⟩ := statOf_lawful c' hs' draws'
  obtain ⟨q, e, i⟩ := run_spec L window.toNat c.interpolation ops (hL _ _ hok)
  obtain ⟨q', e', i'⟩ := run_spec L' window'.toNat c'.interpolation ops' (hL' _ _ hok')
  have hfr : ofCfg c draws = Quantile.fresh (statOf c draws) (window.toNat : Int) c.interpolation := by
    rw [ofCfg, hw, Int.toNat_of_nonneg h0]
  have hfr' : ofCfg c' draws' = Quantile.fresh (statOf c' draws') (window'.toNat : Int) c'.interpolation := by
    rw [ofCfg, hw', Int.toNat_of_nonneg h0']
  refine ⟨q, q', by rw [hfr]; exact e, by rw [hfr']; exact e', fun O x => ?_⟩
  have hm : ((windowOf window.toNat ops : List K) : Multiset K) = (windowOf window'.toNat ops' : List K) := Multiset.coe_eq_coe.2 hp
  refine quantile_value_congr O q q' (by rw [i.interp, i'.interp, hi]) ?_ (fun k => ?_) x
  · rw [L.size i.rep, L'.size i'.rep, hm]
  · rw [L.select i.rep, L'.select i'.rep, hm]

/-- An AVL and a red-black metric with different windows that hold the same values. -/
example : ∃ c c', new (0 : ℚ) 1 3 [.interpolation Nearest] = .ok c ∧ new (0 : ℚ) 1 0 [.impl RedBlack [], .interpolation Nearest] = .ok c' ∧
    c.interpolation = c'.interpolation ∧ ImplOK c 3 [MOp.push (9 : ℚ), .push 1, .push 4, .push 1] ∧
    ImplOK c' 0 [MOp.push (4 : ℚ), .push 1, .push 1] ∧
    (windowOf 3 [MOp.push (9 : ℚ), .push 1, .push 4, .push 1]).Perm (windowOf 0 [MOp.push (4 : ℚ), .push 1, .push 1]) :=
  ⟨_, _, rfl, rfl, rfl, implOK_avl rfl _ _, ⟨fun _ _ _ _ _ hw => absurd rfl hw, fun h => by cases h⟩, by decide +kernel⟩

/-- C84, `Quantile`, refuted for red-black windows with duplicates: window 4, 0, 0, 0, 0, 1 and 0, 0, 0, 1 leave the same values in the window, and
`Value(0.7)` is 0.4 and 0.1. -/
theorem C84_quantile_rb_refuted : ∃ c, new (0 : ℚ) 1 4 [.impl RedBlack []] = .ok c ∧
    (windowOf 4 ([0, 0, 0, 0, 1].map MOp.push : List (MOp ℚ))).Perm (windowOf 4 ([0, 0, 0, 1].map MOp.push)) ∧
    (∃ q, (ofCfg c (fun _ _ => false)).run ([0, 0, 0, 0, 1].map .push) = .val (q, []) ∧ q.value (exact ℚ) (7 / 10) = .val (.ok (4 / 10))) ∧
    ∃ q, (ofCfg c (fun _ _ => false)).run ([0, 0, 0, 1].map .push) = .val (q, []) ∧ q.value (exact ℚ) (7 / 10) = .val (.ok (1 / 10)) :=
  ⟨_, rfl, by decide +kernel, ⟨_, rfl, by decide +kernel⟩, _, rfl, by decide +kernel⟩

/-- C84, global `HeapMedian`, in full: two histories with the same values since the last `Clear` in any order give the same `Value`, in any
arithmetic. -/
theorem C84_heap_median (ops ops' : List (MOp K)) (hp : (since ops).Perm (since ops')) :
    ∃ s0 s s', HeapMedian.new (0 : K) 0 = .ok s0 ∧ HeapMedian.run s0 ops = .val (s, []) ∧ HeapMedian.run s0 ops' = .val (s', []) ∧
      ∀ O : FOps K, HeapMedian.value O s = HeapMedian.value O s' := by
  obtain ⟨s, e, h⟩ := HeapMedian.run_inv (w := 0) (by decide) (0 : K) ops
  obtain ⟨s', e', h'⟩ := HeapMedian.run_inv (w := 0) (by decide) (0 : K) ops'
  refine ⟨_, s, s', rfl, e, e', fun O => ?_⟩
  have hl := h.size
  have hl' := h'.size
  rw [lastN_zero] at hl hl'
  have hm : HeapMedian.content s = HeapMedian.content s' := by
    rw [h.exact (Or.inl rfl), h'.exact (Or.inl rfl)]
    exact Multiset.coe_eq_coe.2 hp
  by_cases hne : HeapMedian.all s = []
  · have hne' : HeapMedian.all s' = [] := by
      rw [← List.length_eq_zero_iff, hl', ← hp.length_eq, ← hl, hne]; rfl
    rw [(HeapMedian.value_in O h.c h.lo h.hi).1 hne, (HeapMedian.value_in O h'.c h'.lo h'.hi).1 hne']
  · have hne' : HeapMedian.all s' ≠ [] := by
      intro c
      apply hne
      rw [← List.length_eq_zero_iff, hl, hp.length_eq, ← hl', c]; rfl
    obtain ⟨v, e1, m1⟩ := (HeapMedian.value_in O h.c h.lo h.hi).2 hne
    obtain ⟨v', e2, m2⟩ := (HeapMedian.value_in O h'.c h'.lo h'.hi).2 hne'
    rw [e1, e2]
    rw [hm] at m1
    congr 2
    rcases m1 with ⟨i, hi, hv⟩ | ⟨i, a, b, hi, ha, hb, rfl⟩ <;> rcases m2 with ⟨j, hj, hw⟩ | ⟨j, a', b', hj, ha', hb', rfl⟩
    · obtain rfl : i = j := by omega
      exact IsKth.unique hv hw
    · omega
    · omega
    · obtain rfl : i = j := by omega
      rw [IsKth.unique ha ha', IsKth.unique hb hb']

example : (since [MOp.push (7 : ℚ), .clear, .push 4, .push 1, .push 3]).Perm (since [MOp.push (1 : ℚ), .push 3, .push 4]) := by decide +kernel

/-- C84, windowed `HeapMedian`, refuted: window 3; 3, 2, 1, 0, 5 and 1, 0, 5 leave the same window and give 2 and 1. -/
theorem C84_heap_median_window_refuted : ∃ s0 s s', HeapMedian.new (0 : ℚ) 3 = .ok s0 ∧
    windowOf 3 ([3, 2, 1, 0, 5].map MOp.push : List (MOp ℚ)) = windowOf 3 ([1, 0, 5].map MOp.push) ∧
    HeapMedian.run s0 ([3, 2, 1, 0, 5].map .push) = .val (s, []) ∧ HeapMedian.run s0 ([1, 0, 5].map .push) = .val (s', []) ∧
    HeapMedian.value (exact ℚ) s = .val (.ok 2) ∧ HeapMedian.value (exact ℚ) s' = .val (.ok 1) :=
  ⟨_, _, _, rfl, by decide +kernel, rfl, rfl, by decide +kernel, by decide +kernel⟩
end

section
variable {F : Type} [LinearOrder F] [BoundedOrder F]
open Verif.MinMax

/-- C84, `Max` and `Min`, in full (numbers without NaN). -/
theorem C84_min_max {w w' : Int} {s0 s0' : Max.St F} {t0 t0' : Min.St F} (hn : Max.new (Ext.ofOrder F) w = .ok s0)
    (hn' : Max.new (Ext.ofOrder F) w' = .ok s0') (hm : Min.new (Ext.ofOrder F) w = .ok t0) (hm' : Min.new (Ext.ofOrder F) w' = .ok t0')
    (ops ops' : List (MOp F)) (hp : (windowOf w.toNat ops).Perm (windowOf w'.toNat ops')) :
    ∃ s s' t t', Max.run (Ext.ofOrder F) s0 ops = .val (s, []) ∧ Max.run (Ext.ofOrder F) s0' ops' = .val (s', []) ∧
      Min.run (Ext.ofOrder F) t0 ops = .val (t, []) ∧ Min.run (Ext.ofOrder F) t0' ops' = .val (t', []) ∧
      Max.value s = Max.value s' ∧ Min.value t = Min.value t' := by
  obtain ⟨s, e1, a1, b1⟩ := C25_max hn ops
  obtain ⟨s', e2, a2, b2⟩ := C25_max hn' ops'
  obtain ⟨t, e3, a3, b3⟩ := C26_min hm ops
  obtain ⟨t', e4, a4, b4⟩ := C26_min hm' ops'
  have hnil : ∀ (w : Nat) (o : List (MOp F)), since o = [] ↔ windowOf w o = [] := by
    intro w o
    constructor
    · intro h; simp [windowOf, h, lastN]
    · intro h
      by_contra hne
      exact lastN_ne_nil hne h
  refine ⟨s, s', t, t', e1, e2, e3, e4, ?_, ?_⟩
  · by_cases h : since ops = []
    · have h' : since ops' = [] := by rw [hnil w'.toNat, ← List.perm_nil, ← (hnil w.toNat ops).1 h]; exact hp.symm
      rw [a1 h, a2 h']
    · have h' : since ops' ≠ [] := fun c => h (by rw [hnil w.toNat, ← List.perm_nil, ← (hnil w'.toNat ops').1 c]; exact hp)
      obtain ⟨v, x1, x2, x3⟩ := b1 h
      obtain ⟨v', y1, y2, y3⟩ := b2 h'
      rw [x1, y1, le_antisymm (y3 _ (hp.mem_iff.1 x2)) (x3 _ (hp.mem_iff.2 y2))]
  · by_cases h : since ops = []
    · have h' : since ops' = [] := by rw [hnil w'.toNat, ← List.perm_nil, ← (hnil w.toNat ops).1 h]; exact hp.symm
      rw [a3 h, a4 h']
    · have h' : since ops' ≠ [] := fun c => h (by rw [hnil w.toNat, ← List.perm_nil, ← (hnil w'.toNat ops').1 c]; exact hp)
      obtain ⟨v, x1, x2, x3⟩ := b3 h
      obtain ⟨v', y1, y2, y3⟩ := b4 h'
      rw [x1, y1, le_antisymm (x3 _ (hp.mem_iff.2 y2)) (y3 _ (hp.mem_iff.1 x2))]

example : (∃ s0, Max.new (Ext.ofOrder (Fin 10)) 3 = .ok s0) ∧ (∃ s0, Max.new (Ext.ofOrder (Fin 10)) 0 = .ok s0) ∧
    (windowOf 3 [MOp.push (9 : Fin 10), .push 8, .push 3, .push 5]).Perm (windowOf 0 [MOp.push 5, .push 8, .push 3]) :=
  ⟨⟨_, rfl⟩, ⟨_, rfl⟩, by decide +kernel⟩
end

section
variable {K : Type} [Field K] [LinearOrder K] [IsStrictOrderedRing K]

/-- C84, joint cores in exact arithmetic, partial: two histories whose windows hold the same points in any order give the same counts, means and
sums. Missing: windowed cores with overlapping tuples (`C43_overlap_refuted`) and exponents beyond those of C42. -/
theorem C84_joint_partial {cfg : Joint.Config K} {c : Joint.Core K} (hn : Joint.newCore cfg = .val (.ok c)) (hd : cfg.decay = none) {w : Nat}
    (hw : cfg.window = some (w : Int)) (hm : Moderate (cfg.sums.getD [])) (hi : NoCollision (cfg.sums.getD []))
    (hov : 2 ≤ w → NoOverlapZ (cfg.sums.getD [])) {n : Nat} (hv : Joint.varsOf cfg = n) (ops ops' : List (MOp (List K)))
    (hp : (windowOf w (ops.filter (okArity n))).Perm (windowOf w (ops'.filter (okArity n)))) :
    ∃ e e' es es', Joint.run c ops = .val (e, es) ∧ Joint.run c ops' = .val (e', es') ∧ Joint.count e = Joint.count e' ∧
      (∀ j : Nat, j < n → windowOf w (ops.filter (okArity n)) ≠ [] → Joint.mean e j = Joint.mean e' j) ∧
      ∀ m : List Nat, TracksZ (cfg.sums.getD []) m → m.sum ≠ 0 → windowOf w (ops.filter (okArity n)) ≠ [] →
        Joint.sum e (m.map Int.ofNat) = Joint.sum e' (m.map Int.ofNat) := by
  obtain ⟨e, es, r, -, a⟩ := C43_sum_window_partial hn hd hw hm hi hov hv ops
  obtain ⟨e', es', r', -, a'⟩ := C43_sum_window_partial hn hd hw hm hi hov hv ops'
  have hne : windowOf w (ops.filter (okArity n)) ≠ [] → windowOf w (ops'.filter (okArity n)) ≠ [] := by
    intro h c
    rw [c, List.perm_nil] at hp
    exact h hp
  have hcoord : ∀ j, (coord j (windowOf w (ops.filter (okArity n)))).sum = (coord j (windowOf w (ops'.filter (okArity n)))).sum :=
    fun j => (hp.map _).sum_eq
  refine ⟨e, e', es, es', r, r', ?_, fun j hj h => ?_, fun m ht h0 h => ?_⟩
  · rw [a.count, a'.count, hp.length_eq]
  · rw [a.mean h j hj, a'.mean (hne h) j hj, hcoord, hp.length_eq]
  · rw [a.sum h m ht h0, a'.sum (hne h) m ht h0]
    congr 1
    have hmean : ∀ j, mean (coord j (windowOf w (ops.filter (okArity n)))) = mean (coord j (windowOf w (ops'.filter (okArity n)))) := by
      intro j
      unfold Spec.mean
      rw [hcoord]
      simp [coord, hp.length_eq]
    unfold jsum
    simp only [hmean]
    exact (hp.map _).sum_eq
end

/-- Two histories whose windows hold the same points. -/
example : (windowOf 3 ([.push [9, 9], .push [1, 2], .push [3], .push [2, 5], .push [4, 4]].filter (okArity 2) : List (MOp (List ℚ)))).Perm
    (windowOf 3 ([.push [4, 4], .push [1, 2], .push [2, 5]].filter (okArity 2))) ∧
    Moderate [[1, 1]] ∧ NoCollision [[1, 1]] ∧ NoOverlapZ [[1, 1]] :=
  ⟨by decide +kernel, by simp [Moderate], noCollision_of_small (n := 2) (by omega) (by simp) (by simp [Moderate]), by simp [NoOverlapZ]⟩

/-- The mean and the errors of a test run. -/
def fpMean : Go (Moment.Core ℚ × List Err) → Option (Except Err ℚ × List Err)
  | .val (c, es) => some (FP.mean c, es)
  | _ => none

/-- C84 is false for `Mean` in binary64, even without eviction: 0, 1, 3 and 0, 3, 1 differ by 2^-52; 2^53, 1, -2^53 and 2^53, -2^53, 1 give 0 and
1/3. -/
theorem C84_mean_refuted : ∃ c c1 c2 c3 c4, FP.newCore FP.Arith.b64 ⟨none, some 0, none⟩ = .ok c ∧
    FP.run FP.Arith.b64 c [.push 0, .push 1, .push 3] = .val (c1, []) ∧ FP.mean c1 = .ok (FP.rnd64 (4 / 3) + 1 / 2 ^ 52) ∧
    FP.run FP.Arith.b64 c [.push 0, .push 3, .push 1] = .val (c2, []) ∧ FP.mean c2 = .ok (FP.rnd64 (4 / 3)) ∧
    FP.run FP.Arith.b64 c [.push (2 ^ 53), .push 1, .push (-2 ^ 53)] = .val (c3, []) ∧ FP.mean c3 = .ok 0 ∧
    FP.run FP.Arith.b64 c [.push (2 ^ 53), .push (-2 ^ 53), .push 1] = .val (c4, []) ∧ FP.mean c4 = .ok (FP.rnd64 (1 / 3)) := by
  have key : ∀ {xs : List (MOp ℚ)} {m : ℚ}, fpMean (FP.run FP.Arith.b64 (FP.mk FP.Arith.b64 ⟨none, some 0, none⟩) xs) = some (.ok m, []) →
      ∃ c', FP.run FP.Arith.b64 (FP.mk FP.Arith.b64 ⟨none, some 0, none⟩) xs = .val (c', []) ∧ FP.mean c' = .ok m := by
    intro xs m h
    match hr : FP.run FP.Arith.b64 (FP.mk FP.Arith.b64 ⟨none, some 0, none⟩) xs, h with
    | .val (c', es), h =>
      simp only [fpMean, Option.some.injEq, Prod.mk.injEq] at h
      exact ⟨c', by rw [h.2], h.1⟩
  obtain ⟨c1, a1, b1⟩ := key (xs := [.push 0, .push 1, .push 3]) (m := FP.rnd64 (4 / 3) + 1 / 2 ^ 52) (by decide +kernel)
  obtain ⟨c2, a2, b2⟩ := key (xs := [.push 0, .push 3, .push 1]) (m := FP.rnd64 (4 / 3)) (by decide +kernel)
  obtain ⟨c3, a3, b3⟩ := key (xs := [.push (2 ^ 53), .push 1, .push (-2 ^ 53)]) (m := 0) (by decide +kernel)
  obtain ⟨c4, a4, b4⟩ := key (xs := [.push (2 ^ 53), .push (-2 ^ 53), .push 1]) (m := FP.rnd64 (1 / 3)) (by decide +kernel)
  exact ⟨_, c1, c2, c3, c4, rfl, a1, b1, a2, b2, a3, b3, a4, b4⟩

end Verif.Props
