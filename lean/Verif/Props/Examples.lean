import Verif.Proofs.Examples
import Verif.Props.Moment
import Verif.Props.MinMax
import Verif.Props.Quantile
import Verif.Props.HeapMedian
import Verif.Props.JointMetric
import Verif.Proofs.HeapIncreasing

/-! # C99: the programs in `examples/` -/

namespace Verif.Props
open Verif Verif.Spec Verif.Examples

section
variable {M I V : Type}

/-- C99, all programs: when every metric, fed with the data on its own, takes all of it and has a value that JSON can express, the program
prints a table. -/
theorem C99_prints (o : Obj M I V) (finite : V → Prop) [DecidablePred finite] (ms : List M) (data : List I)
    (h : ∀ m ∈ ms, ∃ m' v, feed o m data = .val (m', none) ∧ o.value m' = .val (.ok v) ∧ finite v) :
    ∃ t, finish o finite ms data = .val (.printed t) := by
  obtain ⟨ms', vs, h1, h2, h3⟩ := runs_of_each o data finite ms h
  have hp : ∀ p ∈ table o ms' vs [], finite p.2 := by
    intro p hp
    rcases mem_table o ms' vs [] p hp with h | h
    · cases h
    · exact h3 _ h
  exact ⟨_, by rw [finish_table o finite h1 h2, report_printed hp]⟩

/-- C99, all programs: when a table is printed, every metric took all the data and has a value; the table shows under each name the value of
the last metric with that name, as if it had been alone; all shown values are finite; nothing else is shown. -/
theorem C99_table (o : Obj M I V) (finite : V → Prop) [DecidablePred finite]
    (hname : ∀ m x m' e, o.push m x = .val (m', e) → o.name m' = o.name m) (ms : List M) (data : List I) {t : Table V}
    (h : finish o finite ms data = .val (.printed t)) :
    (∀ m ∈ ms, ∃ m' v, feed o m data = .val (m', none) ∧ o.value m' = .val (.ok v)) ∧
    (∀ pre m post m' v, ms = pre ++ m :: post → (∀ x ∈ post, o.name x ≠ o.name m) → feed o m data = .val (m', none) →
      o.value m' = .val (.ok v) → t.get (o.name m) = some v ∧ finite v) ∧
    ∀ k, (∀ m ∈ ms, o.name m ≠ k) → t.get k = none := by
  obtain ⟨ms', vs, h1, h2, h3, h4⟩ := finish_inv o finite h
  refine ⟨runs_each o data h1 h2, ?_, ?_⟩
  · intro pre m post m' v e hl hf hv
    have hg : t.get (o.name m) = some v := by
      subst h3
      exact table_last o hname h1 h2 e hl hf hv []
    exact ⟨hg, h4 _ (mem_of_get hg)⟩
  · intro k hk
    subst h3
    exact table_absent o hname h1 h2 hk [] rfl

end

/-- C99, `examples/moment`: with `n` instead of 100 pushes the program prints a table exactly when `n ≥ 3`; it shows the mean and the
standard deviation of 0, …, n-1. From `n = 5` on the windowed metrics show the variance 5/2, the skewness 0 and the kurtosis -13/10. -/
theorem C99_moment (fmt : ℝ → List Char) (n : Nat) :
    (n < 3 → momentMain fmt Real.sqrt Moment.p15 n = .val .fatal) ∧
    (3 ≤ n → ∃ t, momentMain fmt Real.sqrt Moment.p15 n = .val (.printed t) ∧
      t.get "moment.Mean_{window:0}" = some (.fin (((n : ℝ) - 1) / 2)) ∧
      t.get "moment.Std_{window:0}" = some (.fin (Real.sqrt (n * (n + 1) / 12))) ∧
      (5 ≤ n → t.get "moment.Moment_{k:2,window:5}" = some (.fin (5 / 2)) ∧ t.get "moment.Skewness_{window:5}" = some (.fin 0) ∧
        t.get "moment.Kurtosis_{window:5}" = some (.fin (-13 / 10)))) := by
  set ops : List (MOp ℝ) := (counts ℝ n).map .push with hops
  have hs : since ops = counts ℝ n := since_pushes _
  have hw0 : windowOf 0 ops = counts ℝ n := by simp [windowOf, lastN, hs]
  have hw5 : windowOf 5 ops = lastN 5 (counts ℝ n) := by rw [windowOf, hs]
  obtain ⟨m1, r1, v1, z1⟩ := C34_mean 0 Real.sqrt Moment.p15 ops
  obtain ⟨m2, r2, v2, o2, z2⟩ := C34_std 0 Moment.p15 ops
  obtain ⟨m3, r3, v3, o3, z3⟩ := C34_moment (K := ℝ) 5 (k := 2) (by omega) (by omega) Real.sqrt Moment.p15 ops
  obtain ⟨m4, r4, v4, o4, z4⟩ := C34_skewness 5 ops
  obtain ⟨m5, r5, v5, o5, z5⟩ := C34_kurtosis 5 Real.sqrt Moment.p15 ops
  have hf : ∀ {m m' : Moment.Metric ℝ}, Moment.Metric.run m ops = .val (m', []) → feed (momentObj fmt Real.sqrt Moment.p15) m (counts ℝ n) = .val (m', none) :=
    fun {m m'} h => feed_of_run (momentObj fmt Real.sqrt Moment.p15) (fun x => x) (step := Moment.Metric.step) (fun _ _ _ _ h => h) _ _ _ h
  have hk : ∀ {m m' : Moment.Metric ℝ}, Moment.Metric.run m ops = .val (m', []) → m'.kind = m.kind := fun h =>
    feed_keeps _ Moment.Metric.kind (fun m x m' e h => by
      simp only [momentObj, Moment.Metric.push] at h
      split at h
      · cases h; rfl
      · split at h <;> cases h <;> rfl) _ _ _ _ (hf h)
  have hinit : momentInitialize [Moment.Metric.new (.mean 0), .new (.std 0), .new (.moment 2 5), .new (.skewness 5), .new (.kurtosis 5)] =
      (([((Moment.Metric.new (.mean (0 : Nat))).init).1, ((Moment.Metric.new (.std (0 : Nat))).init).1,
        ((Moment.Metric.new (.moment (2 : Nat) (5 : Nat))).init).1, ((Moment.Metric.new (.skewness (5 : Nat))).init).1,
        ((Moment.Metric.new (.kurtosis (5 : Nat))).init).1] : List (Moment.Metric ℝ)), []) := rfl
  have hrun : List.Forall₂ (fun m m' => feed (momentObj fmt Real.sqrt Moment.p15) m (counts ℝ n) = .val (m', none)) _ [m1, m2, m3, m4, m5] :=
    .cons (hf r1) (.cons (hf r2) (.cons (hf r3) (.cons (hf r4) (.cons (hf r5) .nil))))
  have n1 : (momentObj fmt Real.sqrt Moment.p15).name m1 = "moment.Mean_{window:0}" := by simp only [momentObj, hk r1]; rfl
  have n2 : (momentObj fmt Real.sqrt Moment.p15).name m2 = "moment.Std_{window:0}" := by simp only [momentObj, hk r2]; rfl
  have n3 : (momentObj fmt Real.sqrt Moment.p15).name m3 = "moment.Moment_{k:2,window:5}" := by simp only [momentObj, hk r3]; rfl
  have n4 : (momentObj fmt Real.sqrt Moment.p15).name m4 = "moment.Skewness_{window:5}" := by simp only [momentObj, hk r4]; rfl
  have n5 : (momentObj fmt Real.sqrt Moment.p15).name m5 = "moment.Kurtosis_{window:5}" := by simp only [momentObj, hk r5]; rfl
  have hfin : ∀ {a b c d e : XF ℝ}, Moment.Metric.value Real.sqrt Moment.p15 m1 = .ok a → Moment.Metric.value Real.sqrt Moment.p15 m2 = .ok b →
      Moment.Metric.value Real.sqrt Moment.p15 m3 = .ok c → Moment.Metric.value Real.sqrt Moment.p15 m4 = .ok d →
      Moment.Metric.value Real.sqrt Moment.p15 m5 = .ok e → ∃ t, momentMain fmt Real.sqrt Moment.p15 n = .val (report XFinite t) ∧
      (∀ p ∈ t, p.2 ∈ [a, b, c, d, e]) ∧ t.get "moment.Mean_{window:0}" = some a ∧ t.get "moment.Std_{window:0}" = some b ∧
      t.get "moment.Moment_{k:2,window:5}" = some c ∧ t.get "moment.Skewness_{window:5}" = some d ∧
      t.get "moment.Kurtosis_{window:5}" = some e := by
    intro a b c d e h1 h2 h3 h4 h5
    refine ⟨table (momentObj fmt Real.sqrt Moment.p15) [m1, m2, m3, m4, m5] [a, b, c, d, e] [], ?_, ?_, ?_, ?_, ?_, ?_, ?_⟩
    · simp only [momentMain]
      rw [hinit]
      exact finish_table _ _ hrun (.cons (by simp [momentObj, h1]) (.cons (by simp [momentObj, h2]) (.cons (by simp [momentObj, h3])
        (.cons (by simp [momentObj, h4]) (.cons (by simp [momentObj, h5]) .nil)))))
    · intro p hp
      rcases mem_table _ _ _ _ p hp with h | h
      · cases h
      · exact h
    all_goals
      simp only [table, n1, n2, n3, n4, n5, Table.get_set]
      simp
  have hlen5 : (windowOf 5 ops).length = min n 5 := by
    rw [hw5, lastN, if_neg (by decide), List.length_drop, counts_length]; omega
  constructor
  · intro hn
    have hle : lastN 5 (counts ℝ n) = counts ℝ n := lastN_all (by simp; omega)
    rcases Nat.eq_zero_or_pos n with h0 | h0
    · subst h0
      obtain ⟨e, he⟩ := z1 (by rw [hw0]; rfl)
      simp only [momentMain]
      rw [hinit]
      exact finish_error _ _ hrun (e := e) (by simp [momentObj, he])
    · have hne : windowOf 5 ops ≠ [] := List.length_pos_iff.1 (by omega)
      have hv4 := o4 hne (by omega)
      have hex : ∀ k : Moment.Metric ℝ, k = m1 ∨ k = m2 ∨ k = m3 ∨ k = m5 → ∃ v, Moment.Metric.value Real.sqrt Moment.p15 k = .ok v := by
        have hne0 : windowOf 0 ops ≠ [] := by rw [hw0]; exact List.length_pos_iff.1 (by simpa using h0)
        rintro k (rfl | rfl | rfl | rfl)
        · exact ⟨_, v1 hne0⟩
        · by_cases h : 2 ≤ (windowOf 0 ops).length
          · exact ⟨_, v2 h⟩
          · exact ⟨_, o2 (by have := List.length_pos_iff.2 hne0; omega)⟩
        · by_cases h : 2 ≤ (windowOf 5 ops).length
          · exact ⟨_, v3 h⟩
          · exact ⟨_, o3 (by omega)⟩
        · by_cases h : csum 2 (windowOf 5 ops) = 0
          · exact ⟨_, o5 hne h⟩
          · exact ⟨_, v5 h⟩
      obtain ⟨a, ha⟩ := hex m1 (by simp)
      obtain ⟨b, hb⟩ := hex m2 (by simp)
      obtain ⟨c, hc⟩ := hex m3 (by simp)
      obtain ⟨e, he⟩ := hex m5 (by simp)
      obtain ⟨t, h1, -, -, -, -, h2, -⟩ := hfin ha hb hc hv4 he
      rw [h1, report_fatal h2 (by rintro ⟨x, h⟩; cases h)]
  · intro hn
    have hn1 : (3 : ℝ) ≤ n := by exact_mod_cast hn
    have hne0 : windowOf 0 ops ≠ [] := by rw [hw0]; exact List.length_pos_iff.1 (by simp; omega)
    have hc5 : csum 2 (windowOf 5 ops) ≠ 0 := by
      rw [hw5]
      by_cases h : n ≤ 5
      · rw [lastN_all (by simpa using h), csum_counts]
        have : (0 : ℝ) < n * (n ^ 2 - 1) / 12 := by
          have : (0 : ℝ) < n ^ 2 - 1 := by nlinarith
          positivity
        exact this.ne'
      · obtain ⟨k, rfl⟩ : ∃ k, n = k + 5 := ⟨n - 5, by omega⟩
        rw [lastN_counts, csum_five]; norm_num
    have w1 := v1 hne0
    have w2 := v2 (by rw [hw0]; simp; omega)
    obtain ⟨t, h1, h2, g1, g2, g3, g4, g5⟩ := hfin w1 w2 (v3 (by omega)) (v4 (by omega) hc5) (v5 hc5)
    refine ⟨t, ?_, ?_, ?_, ?_⟩
    · rw [h1, report_printed]
      intro p hp
      have := h2 p hp
      simp only [List.mem_cons, List.not_mem_nil, or_false] at this
      rcases this with h | h | h | h | h <;> exact ⟨_, h⟩
    · rw [g1, hw0]
      have := mean_counts (K := ℝ) (n := n) (by omega)
      unfold mean at this
      rw [this]
    · rw [g2, hw0, csum_counts, counts_length]
      congr 3
      have : (n : ℝ) - 1 ≠ 0 := by linarith
      field_simp
      ring
    · intro h5
      obtain ⟨k, hk⟩ : ∃ k, n = k + 5 := ⟨n - 5, by omega⟩
      have hL : windowOf 5 ops = [(k : ℝ), k + 1, k + 2, k + 3, k + 4] := by rw [hw5, hk, lastN_counts]
      rw [g3, g4, g5, hL]
      refine ⟨?_, ?_, ?_⟩
      · rw [csum_five]; norm_num
      · unfold skewness popMoment
        rw [csum_five, csum_five]; norm_num
      · unfold exKurtosis popMoment
        rw [csum_five, csum_five]; norm_num

/-- The 100 pushes of the code. -/
example (fmt : ℝ → List Char) : ∃ t, momentMain fmt Real.sqrt Moment.p15 100 = .val (.printed t) ∧
    t.get "moment.Mean_{window:0}" = some (.fin (99 / 2)) := by
  obtain ⟨t, h, h1, -⟩ := (C99_moment fmt 100).2 (by omega)
  exact ⟨t, h, by rw [h1]; norm_num⟩

/-- C99, `examples/minmax`, for any data (no NaN): nothing is printed for no data; otherwise a table is printed if all data are finite, and a
printed table shows the least of the last five values and the greatest of all. -/
theorem C99_minmax {F : Type} [LinearOrder F] [BoundedOrder F] (fmt : F → List Char) (data : List F) :
    (data = [] → minmaxMain fmt (MinMax.Ext.ofOrder F) (fun x => x ≠ ⊥ ∧ x ≠ ⊤) data = .val .fatal) ∧
    (data ≠ [] → (∀ x ∈ data, x ≠ ⊥ ∧ x ≠ ⊤) →
      ∃ t a b, minmaxMain fmt (MinMax.Ext.ofOrder F) (fun x => x ≠ ⊥ ∧ x ≠ ⊤) data = .val (.printed t) ∧
        t.get "minmax.Min_{window:5}" = some a ∧ t.get "minmax.Max_{window:0}" = some b ∧
        (a ∈ lastN 5 data ∧ ∀ x ∈ lastN 5 data, a ≤ x) ∧ b ∈ data ∧ ∀ x ∈ data, x ≤ b) := by
  set ops : List (MOp F) := data.map .push with hops
  have hs : since ops = data := since_pushes _
  have hw0 : windowOf 0 ops = data := by simp [windowOf, lastN, hs]
  have hw5 : windowOf 5 ops = lastN 5 data := by rw [windowOf, hs]
  obtain ⟨m1, r1, z1, v1⟩ := C26_min (F := F) (window := 5) rfl ops
  obtain ⟨m2, r2, z2, v2⟩ := C25_max (F := F) (window := 0) rfl ops
  rw [hs] at z1 v1 z2 v2
  rw [show (5 : Int).toNat = 5 from rfl, hw5] at v1
  rw [show (0 : Int).toNat = 0 from rfl, hw0] at v2
  set o := minmaxObj fmt (MinMax.Ext.ofOrder F) with ho
  have f1 : feed o (.inl (MinMax.Min.fresh (MinMax.Ext.ofOrder F) 5)) data = .val (.inl m1, none) :=
    feed_of_run o Sum.inl (step := MinMax.Min.step (MinMax.Ext.ofOrder F))
      (fun n x n' e h => by simp only [MinMax.Min.step] at h; simp [ho, minmaxObj, h]) _ _ _ r1
  have f2 : feed o (.inr (MinMax.Max.fresh (MinMax.Ext.ofOrder F) 0)) data = .val (.inr m2, none) :=
    feed_of_run o Sum.inr (step := MinMax.Max.step (MinMax.Ext.ofOrder F))
      (fun n x n' e h => by simp only [MinMax.Max.step] at h; simp [ho, minmaxObj, h]) _ _ _ r2
  have hrun : List.Forall₂ (fun m m' => feed o m data = .val (m', none)) _ [.inl m1, .inr m2] := .cons f1 (.cons f2 .nil)
  have hn := minmax_name fmt (MinMax.Ext.ofOrder F)
  have n1 : o.name (.inl m1) = "minmax.Min_{window:5}" := by
    rw [feed_keeps o o.name hn _ _ _ _ f1]
    exact (rfl : (Names.MetricId.windowed .min 5).string fmt = _)
  have n2 : o.name (.inr m2) = "minmax.Max_{window:0}" := by
    rw [feed_keeps o o.name hn _ _ _ _ f2]
    exact (rfl : (Names.MetricId.windowed .max 0).string fmt = _)
  constructor
  · intro h
    exact finish_error o _ hrun (e := "no values seen yet") (z1 h)
  · intro hne hfin
    obtain ⟨a, ea, ha⟩ := v1 hne
    obtain ⟨b, eb, hb⟩ := v2 hne
    have hsub : ∀ x ∈ lastN 5 data, x ∈ data := fun x hx => by
      rw [lastN, if_neg (by decide)] at hx
      exact List.mem_of_mem_drop hx
    refine ⟨table o [.inl m1, .inr m2] [a, b] [], a, b, ?_, ?_, ?_, ha, hb⟩
    · have := finish_table o (fun x => x ≠ ⊥ ∧ x ≠ ⊤) hrun (vs := [a, b]) (.cons ea (.cons eb .nil))
      rw [report_printed] at this
      · exact this
      · intro p hp
        rcases mem_table o _ _ _ p hp with h | h
        · cases h
        · simp only [List.mem_cons, List.not_mem_nil, or_false] at h
          rcases h with h | h <;> rw [h]
          · exact hfin a (hsub a ha.1)
          · exact hfin b hb.1
    all_goals
      simp only [table, n1, n2, Table.get_set]
      simp

/-- The values 1, 2, …, 9 satisfy the hypotheses. -/
example : ([1, 2, 3, 4, 5, 6, 7, 8, 9] : List (Fin 11)) ≠ [] ∧ ∀ x ∈ ([1, 2, 3, 4, 5, 6, 7, 8, 9] : List (Fin 11)), x ≠ ⊥ ∧ x ≠ ⊤ := by decide

section
variable {K : Type} [Field K] [LinearOrder K] [IsStrictOrderedRing K] [FloorRing K]
open Quant

theorem median_three {a y z : K} (h1 : a < y) (h2 : y < z) : IsMedian (([a, y, z] : List K) : Multiset K) y := by
  refine .inl ⟨1, rfl, by simp, ?_, ?_⟩
  · simp [h1, h2.le, Multiset.filter_cons, Multiset.filter_singleton, ← Multiset.cons_coe, not_lt.2 h2.le]
  · simp [h1.le, h2, Multiset.filter_cons, Multiset.filter_singleton, ← Multiset.cons_coe, not_le.2 h2]

/-- C99, `examples/quantile`, for increasing data: nothing is printed for no data; otherwise a table with the median of all values, the
linear 1/4-quantile of the last three and (although `HeapMedian` with window 3 is wrong for other data, C22) their median. -/
theorem C99_quantile (fmt : K → List Char) (draws : Nat → Nat → Bool) (data : List K) (hinc : data.Pairwise (· < ·)) :
    (data = [] → quantileMain fmt (exact K) 0 1 (1 / 4) (fun _ => True) draws data = .val .fatal) ∧
    (data ≠ [] → ∃ t a b c, quantileMain fmt (exact K) 0 1 (1 / 4) (fun _ => True) draws data = .val (.printed t) ∧
      t.get "quantile.Median_{quantile:quantile.Quantile_{window:0,interpolation:4}}" = some a ∧
      t.get "quantile.Quantile_{window:3,interpolation:0}" = some b ∧ t.get "quantile.HeapMedian_{window:3}" = some c ∧
      IsMedian (data : List K) a ∧ IsQuantile .linear (lastN 3 data : List K) (1 / 4) b ∧ IsMedian (lastN 3 data : List K) c) := by
  set ops : List (MOp K) := data.map .push with hops
  have hs : since ops = data := since_pushes _
  have hw0 : windowOf 0 ops = data := by simp [windowOf, lastN, hs]
  have hw3 : windowOf 3 ops = lastN 3 data := by rw [windowOf, hs]
  have hc : newMedian (0 : K) 1 0 [.impl RedBlack []] = .ok ⟨0, RedBlack, ⟨12, none⟩, Midpoint⟩ := rfl
  have hd : Quant.new (0 : K) 1 3 [.interpolation Linear, .impl AVL []] = .ok ⟨3, AVL, ⟨12, none⟩, Linear⟩ := rfl
  have hh : HeapMedian.new (0 : K) 3 = .ok (HeapMedian.fresh 0 3) := rfl
  set c : Cfg K := ⟨0, RedBlack, ⟨12, none⟩, Midpoint⟩ with hcdef
  set d : Cfg K := ⟨3, AVL, ⟨12, none⟩, Linear⟩ with hddef
  set o := quantileObj fmt (exact K) (1 / 4) (statOf c draws) (statOf d draws) with ho
  have f1 : ∀ {q : Quantile (statOf c draws)}, (ofCfg c draws).run ops = .val (q, []) →
      feed o (.median (ofCfg c draws)) data = .val (.median q, none) := fun {q} r =>
    feed_of_run o QMetric.median (step := Quantile.step)
      (fun n x n' e h => by simp only [Quantile.step] at h; simp [ho, quantileObj, h]) _ _ _ r
  have f2 : ∀ {q : Quantile (statOf d draws)}, (ofCfg d draws).run ops = .val (q, []) →
      feed o (.quantile (ofCfg d draws)) data = .val (.quantile q, none) := fun {q} r =>
    feed_of_run o QMetric.quantile (step := Quantile.step)
      (fun n x n' e h => by simp only [Quantile.step] at h; simp [ho, quantileObj, h]) _ _ _ r
  have f3 : ∀ {q : HeapMedian.HM K}, HeapMedian.run (HeapMedian.fresh 0 3) ops = .val (q, []) →
      feed o (.heap (HeapMedian.fresh 0 3)) data = .val (.heap q, none) := fun {q} r =>
    feed_of_run o QMetric.heap (step := HeapMedian.step)
      (fun n x n' e h => by simp only [HeapMedian.step] at h; simp [ho, quantileObj, h]) _ _ _ r
  have hmain : quantileMain fmt (exact K) 0 1 (1 / 4) (fun _ => True) draws data =
      finish o (fun _ => True) [.median (ofCfg c draws), .quantile (ofCfg d draws), .heap (HeapMedian.fresh 0 3)] data := by
    simp only [quantileMain, hc, hd, hh]
    rfl
  constructor
  · intro h
    subst h
    rw [hmain]
    obtain ⟨e, he⟩ := ((C15_quantile_errors hc draws ops (q := ofCfg c draws) (log := []) rfl).2 (1 / 2)).1.2 (.inr (.inr rfl))
    exact finish_error o _ (.cons (f1 rfl) (.cons (f2 rfl) (.cons (f3 rfl) .nil))) (e := e)
      (by simpa [ho, quantileObj, Quantile.medianValue, exact] using he)
  · intro hne
    obtain ⟨q1, r1, ⟨a, ea, ha⟩, -⟩ := C18_median_iqr_impl_partial hc draws ops (fun _ _ _ _ _ hw => absurd rfl hw)
      (fun h => by cases h) (by rw [show (0 : Int).toNat = 0 from rfl, hw0]; exact hne)
    rw [show (0 : Int).toNat = 0 from rfl, hw0] at ha
    have hne3 : lastN 3 data ≠ [] := by
      have := List.length_pos_iff.2 hne
      rw [lastN, if_neg (by decide)]
      exact List.length_pos_iff.1 (by rw [List.length_drop]; omega)
    obtain ⟨q2, b, r2, eb, hb⟩ := C14_quantile_avl (m := .linear) hd rfl rfl draws ops (x := 1 / 4) (by norm_num) (by norm_num)
      (by rw [show (3 : Int).toNat = 3 from rfl, hw3]; exact hne3)
    rw [show (3 : Int).toNat = 3 from rfl, hw3] at hb
    obtain ⟨q3, r3, v, ev, hv⟩ : ∃ q3, HeapMedian.run (HeapMedian.fresh 0 3) ops = .val (q3, []) ∧ ∃ v,
        HeapMedian.value (exact K) q3 = .val (.ok v) ∧ IsMedian (lastN 3 data : List K) v := by
      by_cases hl : data.length < 3
      · obtain ⟨s0, s, v, S, e0, e1, e2, hm, -, -, -, hS⟩ := C22_heap_median_window_partial (w := 3) (by omega) ops (by rw [hs]; exact hne)
        cases e0
        rw [hS (by rw [hs]; omega), hw3] at hm
        exact ⟨s, e1, v, e2, hm⟩
      · obtain ⟨ys, a, y, z, e⟩ : ∃ ys a y z, data = ys ++ [a, y, z] := by
          have : (data.drop (data.length - 3)).length = 3 := by rw [List.length_drop]; omega
          match hd : data.drop (data.length - 3), this with
          | [a, y, z], _ => exact ⟨data.take (data.length - 3), a, y, z, by rw [← hd, List.take_append_drop]⟩
        obtain ⟨s, r, hcy⟩ := HeapMedian.run_increasing (0 : K) data hinc e
        have hl3 : lastN 3 data = [a, y, z] := by
          rw [e, lastN, if_neg (by decide)]
          simp
        have hp : [a, y, z].Pairwise (· < ·) := by
          rw [e] at hinc
          exact (List.pairwise_append.1 hinc).2.1
        simp only [List.pairwise_cons, List.mem_cons, List.not_mem_nil, or_false] at hp
        exact ⟨s, r, y, hcy.value _, by rw [hl3]; exact median_three (hp.1 y (.inl rfl)) (hp.2.1 z rfl)⟩
    have hrun : List.Forall₂ (fun m m' => feed o m data = .val (m', none)) _ [.median q1, .quantile q2, .heap q3] :=
      .cons (f1 r1) (.cons (f2 r2) (.cons (f3 r3) .nil))
    have hn := quantile_name fmt (exact K) (1 / 4) (s := statOf c draws) (t := statOf d draws)
    have n1 : o.name (.median q1) = "quantile.Median_{quantile:quantile.Quantile_{window:0,interpolation:4}}" := by
      rw [feed_keeps o o.name hn _ _ _ _ (f1 r1)]
      exact (rfl : (Names.MetricId.median 0 .redBlack).string fmt = _)
    have n2 : o.name (.quantile q2) = "quantile.Quantile_{window:3,interpolation:0}" := by
      rw [feed_keeps o o.name hn _ _ _ _ (f2 r2)]
      exact (rfl : (Names.MetricId.quantile 3 0 .avl).string fmt = _)
    have n3 : o.name (.heap q3) = "quantile.HeapMedian_{window:3}" := by
      rw [feed_keeps o o.name hn _ _ _ _ (f3 r3)]
      exact (rfl : (Names.MetricId.windowed .heapMedian 3).string fmt = _)
    refine ⟨table o [.median q1, .quantile q2, .heap q3] [a, b, v] [], a, b, v, ?_, ?_, ?_, ?_, ha, hb, hv⟩
    · rw [hmain, finish_table o _ hrun (vs := [a, b, v]) (.cons ea (.cons eb (.cons ev .nil))), report_printed (fun _ _ => trivial)]
    all_goals
      simp only [table, n1, n2, n3, Table.get_set]
      simp

theorem counts_pairwise (n : Nat) : (counts K n).Pairwise (· < ·) := by
  induction n with
  | zero => simp [counts]
  | succ n ih =>
    rw [counts_succ, List.pairwise_append]
    refine ⟨ih, by simp, ?_⟩
    intro a ha b hb
    simp only [counts, List.mem_map, List.mem_range] at ha
    obtain ⟨i, hi, rfl⟩ := ha
    simp only [List.mem_singleton] at hb
    subst hb
    exact_mod_cast hi

theorem kth_counts {n i : Nat} (h : i < n) : IsKth ((counts K n : List K) : Multiset K) i (i : K) := by
  have h1 : ∀ m, ((counts K m).filter (fun x => decide (x < (i : K)))).length = min m i := by
    intro m
    induction m with
    | zero => simp [counts]
    | succ m ih =>
      rw [counts_succ, List.filter_append, List.length_append, ih]
      by_cases hm : m < i
      · simp [hm]; omega
      · simp [hm]; omega
  have h2 : ∀ m, ((counts K m).filter (fun x => decide (x ≤ (i : K)))).length = min m (i + 1) := by
    intro m
    induction m with
    | zero => simp [counts]
    | succ m ih =>
      rw [counts_succ, List.filter_append, List.length_append, ih]
      by_cases hm : m ≤ i
      · simp [hm]; omega
      · simp [hm]; omega
  refine ⟨?_, ?_, ?_⟩
  · rw [Multiset.mem_coe, counts, List.mem_map]
    exact ⟨i, List.mem_range.2 h, rfl⟩
  · rw [Multiset.filter_coe, Multiset.coe_card, h1]; omega
  · rw [Multiset.filter_coe, Multiset.coe_card, h2]; omega

theorem median_counts {n : Nat} (h : n ≠ 0) : IsMedian ((counts K n : List K) : Multiset K) (((n : K) - 1) / 2) := by
  rcases Nat.even_or_odd' n with ⟨k, hk | hk⟩
  · obtain ⟨j, rfl⟩ : ∃ j, k = j + 1 := ⟨k - 1, by omega⟩
    refine .inr ⟨j, j, (j + 1 : Nat), by simp; omega, kth_counts (by omega), kth_counts (by omega), ?_⟩
    rw [hk]; push_cast; ring
  · refine .inl ⟨k, by simp [hk], ?_⟩
    have : ((n : K) - 1) / 2 = k := by rw [hk]; push_cast; ring
    rw [this]
    exact kth_counts (by omega)

/-- C99, `examples/quantile` as it is, with `n ≥ 3` instead of 100 pushes. -/
theorem C99_quantile_counts (fmt : K → List Char) (draws : Nat → Nat → Bool) {n : Nat} (hn : 3 ≤ n) :
    ∃ t, quantileMain fmt (exact K) 0 1 (1 / 4) (fun _ => True) draws (counts K n) = .val (.printed t) ∧
      t.get "quantile.Median_{quantile:quantile.Quantile_{window:0,interpolation:4}}" = some (((n : K) - 1) / 2) ∧
      t.get "quantile.Quantile_{window:3,interpolation:0}" = some ((n : K) - 5 / 2) ∧
      t.get "quantile.HeapMedian_{window:3}" = some ((n : K) - 2) := by
  obtain ⟨t, a, b, c, h, g1, g2, g3, ha, hb, hc⟩ := (C99_quantile fmt draws (counts K n) (counts_pairwise n)).2
    (List.length_pos_iff.1 (by simp; omega))
  obtain ⟨k, rfl⟩ : ∃ k, n = k + 3 := ⟨n - 3, by omega⟩
  have hl : lastN 3 (counts K (k + 3)) = [(k : K), k + 1, k + 2] := by
    have h : counts K (k + 3) = counts K k ++ [(k : K), k + 1, k + 2] := by
      simp only [counts_succ, show k + 3 = k + 2 + 1 from rfl]
      push_cast
      simp
    rw [h, lastN, if_neg (by decide), List.drop_append_of_le_length (by simp)]
    simp
  rw [hl] at hb hc
  have l1 : (k : K) < k + 1 := by linarith
  have l2 : (k : K) + 1 < k + 2 := by linarith
  have l3 : (k : K) < k + 2 := by linarith
  refine ⟨t, h, ?_, ?_, ?_⟩
  · rw [g1, ha.unique (median_counts (by omega))]
  · rw [g2]
    congr 1
    refine hb.unique (.inr ⟨0, k, k + 1, by norm_num, by norm_num, ⟨by simp, ?_, ?_⟩, ⟨by simp, ?_, ?_⟩, ?_⟩)
    · simp [Multiset.filter_cons, Multiset.filter_singleton, ← Multiset.cons_coe, not_lt.2 l1.le, not_lt.2 l3.le]
    · simp [Multiset.filter_cons, Multiset.filter_singleton, ← Multiset.cons_coe]
    · simp [Multiset.filter_cons, Multiset.filter_singleton, ← Multiset.cons_coe, not_lt.2 l2.le, l1]
    · simp [Multiset.filter_cons, Multiset.filter_singleton, ← Multiset.cons_coe, not_le.2 l2, l1.le]
    · simp [interpolate]
      ring
  · rw [g3, hc.unique (median_three l1 l2)]
    congr 1
    push_cast
    ring

end

/-! ## examples/joint -/

/-- The pushed pairs. -/
noncomputable def points (n : Nat) : List (List ℝ) := (counts ℝ n).map (fun i => [i, i * i])

/-- The values pushed to `Autocorr`. -/
noncomputable def squares (n : Nat) : List ℝ := (counts ℝ n).map (fun i => i * i)

theorem coord_zero_points (n : Nat) : coord 0 (points n) = counts ℝ n := by simp [coord, points, Function.comp_def]

theorem coord_one_points (n : Nat) : coord 1 (points n) = squares n := by simp [coord, points, squares, Function.comp_def]

theorem sum_squares (n : Nat) : (squares n).sum = n * (n - 1) * (2 * n - 1) / 6 := by
  induction n with
  | zero => simp [squares, counts]
  | succ n ih =>
    unfold squares at ih ⊢
    rw [counts_succ, List.map_append, List.sum_append, ih]; push_cast; simp; ring

theorem mean_squares {n : Nat} (h : n ≠ 0) : mean (squares n) = (n - 1) * (2 * n - 1) / 6 := by
  have : (n : ℝ) ≠ 0 := Nat.cast_ne_zero.2 h
  rw [mean, sum_squares, show (squares n).length = n by simp [squares]]
  field_simp

theorem csum_squares (n : Nat) : csum 2 (squares n) = n * (n ^ 2 - 1) * (2 * n - 1) * (8 * n - 11) / 180 := by
  have h : ∀ c : ℝ, ((squares n).map (fun x => (x - c) ^ 2)).sum =
      n * (n - 1) * (2 * n - 1) * (3 * n ^ 2 - 3 * n - 1) / 30 - 2 * c * (n * (n - 1) * (2 * n - 1) / 6) + n * c ^ 2 := by
    intro c
    induction n with
    | zero => simp [squares, counts]
    | succ n ih =>
      unfold squares at ih ⊢
      rw [counts_succ, List.map_append, List.map_append, List.sum_append, ih]; push_cast; simp; ring
  rcases Nat.eq_zero_or_pos n with h0 | h0
  · subst h0; simp [csum, squares, counts]
  · rw [csum, h, mean_squares (by omega)]
    ring

theorem cross_points (n : Nat) (h : n ≠ 0) : ((points n).map (fun p => (p.getD 0 0 - mean (coord 0 (points n))) *
    (p.getD 1 0 - mean (coord 1 (points n))))).sum = (n - 1) * (n * (n ^ 2 - 1) / 12) := by
  have h : ∀ a b : ℝ, ((points n).map (fun p => (p.getD 0 0 - a) * (p.getD 1 0 - b))).sum =
      n ^ 2 * (n - 1) ^ 2 / 4 - a * (n * (n - 1) * (2 * n - 1) / 6) - b * (n * (n - 1) / 2) + n * a * b := by
    intro a b
    induction n with
    | zero => simp [points, counts]
    | succ n ih =>
      have ih := ih
      unfold points at ih ⊢
      rw [counts_succ, List.map_append, List.map_append, List.sum_append]
      by_cases h0 : n = 0
      · subst h0; simp [counts]
      · rw [ih h0]; push_cast; simp; ring
  rw [h, coord_zero_points, coord_one_points, mean_counts ‹_›, mean_squares ‹_›]
  ring

/-- The correlation of 0, …, n-1 with their squares. -/
theorem pearson_points {n : Nat} (h : 2 ≤ n) : pearson (points n) = (n - 1) * √(15 / ((2 * n - 1) * (8 * n - 11))) := by
  have hn : (2 : ℝ) ≤ n := by exact_mod_cast h
  have hX : (0 : ℝ) < n * (n ^ 2 - 1) / 12 := by
    have : (0 : ℝ) < n ^ 2 - 1 := by nlinarith
    positivity
  have hD : (0 : ℝ) < (2 * n - 1) * (8 * n - 11) := mul_pos (by linarith) (by linarith)
  have hl : ((points n).length : ℝ) = n := by simp [points]
  unfold pearson sampleStd sampleMoment sampleCov
  rw [cross_points n (by omega), coord_zero_points, coord_one_points, csum_counts, csum_squares, counts_length, hl,
    show (squares n).length = n by simp [squares]]
  have hm : (0 : ℝ) < n - 1 := by linarith
  set X : ℝ := n * (n ^ 2 - 1) / 12 with hXd
  set D : ℝ := (2 * n - 1) * (8 * n - 11) with hDd
  rw [show (n : ℝ) * (n ^ 2 - 1) * (2 * n - 1) * (8 * n - 11) / 180 = X * (D / 15) by rw [hXd, hDd]; ring]
  rw [show X * (D / 15) / ((n : ℝ) - 1) = (X / (n - 1)) * (D / 15) by ring, Real.sqrt_mul (by positivity), ← mul_assoc,
    Real.mul_self_sqrt (by positivity), show (15 : ℝ) / D = (D / 15)⁻¹ by rw [inv_div], Real.sqrt_inv]
  have : (0 : ℝ) < √(D / 15) := Real.sqrt_pos.2 (by positivity)
  field_simp

theorem cov_five (k : ℝ) : sampleCov ([k, k + 1, k + 2, k + 3, k + 4].map (fun i => [i, i * i])) = 5 * (k + 2) := by
  simp [sampleCov, coord, mean]
  ring

theorem lagged_squares (n : Nat) : lagged 4 (squares n) =
    (List.range (n - 4)).map (fun j : Nat => [((j : ℝ) + 4) * ((j : ℝ) + 4), (j : ℝ) * (j : ℝ)]) := by
  apply List.ext_getElem
  · simp [lagged, squares]
  · intro i h1 h2
    simp [lagged, squares, counts]
    rw [add_comm 4 (i : ℝ)]

theorem lastN_two {F : Type} {w : Nat} (hw : 2 ≤ w) (ys : List F) (a b : F) : a ∈ lastN w (ys ++ [a, b]) ∧ b ∈ lastN w (ys ++ [a, b]) := by
  rw [lastN, if_neg (by omega), List.drop_append_of_le_length (by simp; omega)]
  simp

/-- The variances of the lagged squares do not vanish. -/
theorem lagged_spread {n : Nat} (h : 6 ≤ n) : csum 2 (coord 0 (lastN 10 (lagged 4 (squares n)))) ≠ 0 ∧
    csum 2 (coord 1 (lastN 10 (lagged 4 (squares n)))) ≠ 0 := by
  obtain ⟨k, rfl⟩ : ∃ k, n = k + 6 := ⟨n - 6, by omega⟩
  rw [lagged_squares, show k + 6 - 4 = k + 1 + 1 by omega, List.range_succ, List.range_succ, List.map_append, List.map_append, List.append_assoc]
  obtain ⟨ha, hb⟩ := lastN_two (w := 10) (by omega) ((List.range k).map (fun j : Nat => [((j : ℝ) + 4) * ((j : ℝ) + 4), (j : ℝ) * (j : ℝ)]))
    [((k : ℝ) + 4) * ((k : ℝ) + 4), (k : ℝ) * (k : ℝ)] [(((k + 1 : Nat) : ℝ) + 4) * (((k + 1 : Nat) : ℝ) + 4), ((k + 1 : Nat) : ℝ) * ((k + 1 : Nat) : ℝ)]
  have hk : (0 : ℝ) ≤ k := Nat.cast_nonneg k
  constructor
  · rw [Ne, Moment.csum_two_eq_zero_iff]
    intro hc
    have := hc _ (List.mem_map_of_mem ha) _ (List.mem_map_of_mem hb)
    simp at this
    nlinarith
  · rw [Ne, Moment.csum_two_eq_zero_iff]
    intro hc
    have := hc _ (List.mem_map_of_mem ha) _ (List.mem_map_of_mem hb)
    simp at this
    nlinarith

/-- The autocorrelation of the last ten pairs of squares. -/
theorem autocorr_ten {n : Nat} (h : 14 ≤ n) : pearson (lastN 10 (lagged 4 (squares n))) =
    (330 * ((n : ℝ) - 11 / 2) * (n - 19 / 2) + 528) / (√(330 * ((n : ℝ) - 11 / 2) ^ 2 + 528) * √(330 * ((n : ℝ) - 19 / 2) ^ 2 + 528)) := by
  obtain ⟨k, rfl⟩ : ∃ k, n = k + 14 := ⟨n - 14, by omega⟩
  have hl : lastN 10 (lagged 4 (squares (k + 14))) =
      ([0, 1, 2, 3, 4, 5, 6, 7, 8, 9] : List ℝ).map (fun t => [((k : ℝ) + t + 4) * ((k : ℝ) + t + 4), ((k : ℝ) + t) * ((k : ℝ) + t)]) := by
    rw [lagged_squares, show k + 14 - 4 = k + 10 by omega, List.range_add, List.map_append, lastN, if_neg (by decide), List.drop_append_of_le_length (by simp)]
    rw [show ((List.range k).map (fun j : Nat => [((j : ℝ) + 4) * ((j : ℝ) + 4), (j : ℝ) * (j : ℝ)])).drop _ = [] by simp]
    rw [show List.range 10 = [0, 1, 2, 3, 4, 5, 6, 7, 8, 9] from rfl]
    simp
  rw [pearson, hl]
  have hc0 : coord 0 (([0, 1, 2, 3, 4, 5, 6, 7, 8, 9] : List ℝ).map (fun t => [((k : ℝ) + t + 4) * ((k : ℝ) + t + 4), ((k : ℝ) + t) * ((k : ℝ) + t)])) =
      ([0, 1, 2, 3, 4, 5, 6, 7, 8, 9] : List ℝ).map (fun t => ((k : ℝ) + t + 4) * ((k : ℝ) + t + 4)) := by simp [coord]
  have hc1 : coord 1 (([0, 1, 2, 3, 4, 5, 6, 7, 8, 9] : List ℝ).map (fun t => [((k : ℝ) + t + 4) * ((k : ℝ) + t + 4), ((k : ℝ) + t) * ((k : ℝ) + t)])) =
      ([0, 1, 2, 3, 4, 5, 6, 7, 8, 9] : List ℝ).map (fun t => ((k : ℝ) + t) * ((k : ℝ) + t)) := by simp [coord]
  have e1 : csum 2 (([0, 1, 2, 3, 4, 5, 6, 7, 8, 9] : List ℝ).map (fun t => ((k : ℝ) + t + 4) * ((k : ℝ) + t + 4))) =
      330 * (((k + 14 : Nat) : ℝ) - 11 / 2) ^ 2 + 528 := by
    simp [csum, mean]
    ring
  have e2 : csum 2 (([0, 1, 2, 3, 4, 5, 6, 7, 8, 9] : List ℝ).map (fun t => ((k : ℝ) + t) * ((k : ℝ) + t))) =
      330 * (((k + 14 : Nat) : ℝ) - 19 / 2) ^ 2 + 528 := by
    simp [csum, mean]
    ring
  have e3 : (((([0, 1, 2, 3, 4, 5, 6, 7, 8, 9] : List ℝ).map (fun t => [((k : ℝ) + t + 4) * ((k : ℝ) + t + 4), ((k : ℝ) + t) * ((k : ℝ) + t)])).map (fun p =>
      (p.getD 0 0 - mean (([0, 1, 2, 3, 4, 5, 6, 7, 8, 9] : List ℝ).map (fun t => ((k : ℝ) + t + 4) * ((k : ℝ) + t + 4)))) *
        (p.getD 1 0 - mean (([0, 1, 2, 3, 4, 5, 6, 7, 8, 9] : List ℝ).map (fun t => ((k : ℝ) + t) * ((k : ℝ) + t)))))).sum) =
      330 * (((k + 14 : Nat) : ℝ) - 11 / 2) * (((k + 14 : Nat) : ℝ) - 19 / 2) + 528 := by
    simp [mean]
    ring
  unfold sampleStd sampleMoment sampleCov
  rw [hc0, hc1, e1, e2, e3]
  generalize 330 * (((k + 14 : Nat) : ℝ) - 11 / 2) * (((k + 14 : Nat) : ℝ) - 19 / 2) + 528 = A
  have hB : 0 ≤ 330 * (((k + 14 : Nat) : ℝ) - 11 / 2) ^ 2 + 528 := by positivity
  have hC : 0 ≤ 330 * (((k + 14 : Nat) : ℝ) - 19 / 2) ^ 2 + 528 := by positivity
  generalize 330 * (((k + 14 : Nat) : ℝ) - 11 / 2) ^ 2 + 528 = B at hB ⊢
  generalize 330 * (((k + 14 : Nat) : ℝ) - 19 / 2) ^ 2 + 528 = C at hC ⊢
  have h9 : √(9 : ℝ) = 3 := by rw [show (9 : ℝ) = 3 ^ 2 by norm_num, Real.sqrt_sq (by norm_num)]
  norm_num [Real.sqrt_div hB, Real.sqrt_div hC, h9]
  rw [div_mul_div_comm, div_div_div_eq]
  norm_num
  rw [mul_comm (9 : ℝ), mul_div_mul_right _ _ (by norm_num)]

/-- C99, `examples/joint`: with `n` instead of 100 pushes the program prints a table exactly when `n ≥ 6`. It shows the correlation of
0, …, n-1 with their squares, the covariance of the last five pairs, and the correlation of the last ten squares with those four steps
earlier (in closed form for `n ≥ 14`). -/
theorem C99_joint (fmt : ℝ → List Char) (n : Nat) :
    (n < 6 → jointMain fmt Real.sqrt n = .val .fatal) ∧
    (6 ≤ n → ∃ t, jointMain fmt Real.sqrt n = .val (.printed t) ∧
      t.get "joint.Corr_{window:0}" = some (.fin (((n : ℝ) - 1) * √(15 / ((2 * n - 1) * (8 * n - 11))))) ∧
      t.get "joint.Cov_{window:5}" = some (.fin (5 * ((n : ℝ) - 3))) ∧
      t.get "joint.Autocorr_{lag:4,window:10}" = some (.fin (pearson (lastN 10 (lagged 4 (squares n))))) ∧
      (14 ≤ n → t.get "joint.Autocorr_{lag:4,window:10}" = some (.fin ((330 * ((n : ℝ) - 11 / 2) * (n - 19 / 2) + 528) /
        (√(330 * ((n : ℝ) - 11 / 2) ^ 2 + 528) * √(330 * ((n : ℝ) - 19 / 2) ^ 2 + 528)))))) := by
  set ops : List (MOp (List ℝ)) := (points n).map .push with hops
  have hs : since ops = points n := since_pushes _
  have hfil : ops.filter (okArity 2) = ops := by
    rw [List.filter_eq_self]
    intro o ho
    simp only [hops, points, List.map_map, List.mem_map] at ho
    obtain ⟨i, -, rfl⟩ := ho
    rfl
  have hcnt : ops.countP (fun o => !okArity 2 o) = 0 := by
    rw [List.countP_eq_zero]
    intro o ho
    simp only [hops, points, List.map_map, List.mem_map] at ho
    obtain ⟨i, -, rfl⟩ := ho
    simp [okArity]
  have hw0 : windowOf 0 ops = points n := by simp [windowOf, lastN, hs]
  have hw5 : windowOf 5 ops = lastN 5 (points n) := by rw [windowOf, hs]
  obtain ⟨i1, m1, l1, e1, r1, c1, v1, -, -, -⟩ := C45_corr 0 ops
  obtain ⟨i2, m2, l2, e2, r2, c2, v2, -, -⟩ := C45_cov (K := ℝ) 5 Real.sqrt ops
  rw [hcnt, List.length_eq_zero_iff] at c1 c2
  subst c1 c2
  rw [hfil, hw0, coord_zero_points, coord_one_points] at v1
  rw [hfil, hw5] at v2
  set aops : List (MOp ℝ) := (squares n).map .push with haops
  have has : since aops = squares n := since_pushes _
  obtain ⟨a, a0, a1, f1, f2, r3, v3, z3, u3, -⟩ := C46_autocorr 4 10 aops
  rw [has] at v3 z3 u3
  have hinit : jointInitialize [Joint.Metric.new (.corr 0), .new (.cov 5)] = .val ([i1, i2], []) := by
    have e1' : (Joint.Metric.new (.corr 0) : Joint.Metric ℝ).init = .val (i1, none) := e1
    have e2' : (Joint.Metric.new (.cov 5) : Joint.Metric ℝ).init = .val (i2, none) := e2
    simp [jointInitialize, e1', e2']
  have hmain : jointMain fmt Real.sqrt n = jointFinish fmt Real.sqrt [i1, i2] a0 n := by
    have f1' : Joint.Auto.new (K := ℝ) true 4 10 = .ok a := f1
    simp only [jointMain, f1', hinit, f2]
  set o := jointObj fmt Real.sqrt with ho
  set q := autoObj fmt Real.sqrt with hq
  have g1 : feed o i1 (points n) = .val (m1, none) :=
    feed_of_run o (fun x => x) (step := Joint.Metric.step) (fun _ _ _ _ h => h) _ _ _ r1
  have g2 : feed o i2 (points n) = .val (m2, none) :=
    feed_of_run o (fun x => x) (step := Joint.Metric.step) (fun _ _ _ _ h => h) _ _ _ r2
  have g3 : feed q a0 (squares n) = .val (a1, none) :=
    feed_of_run q (fun x => x) (step := Joint.Auto.step) (fun _ _ _ _ h => h) _ _ _ r3
  have hp : pushAll o (points n) [i1, i2] = .val ([m1, m2], []) := pushAll_ok o _ (.cons g1 (.cons g2 .nil))
  have hfinish : jointFinish fmt Real.sqrt [i1, i2] a0 n =
      match values o [m1, m2] [] with
      | .panic => .panic
      | .hang => .hang
      | .val (.error _) => .val .fatal
      | .val (.ok t) =>
        match q.value a1 with
        | .panic => .panic
        | .hang => .hang
        | .val (.error _) => .val .fatal
        | .val (.ok v) => .val (report XFinite (t.set (q.name a1) v)) := by
    have hp' : pushAll (jointObj fmt Real.sqrt) ((counts ℝ n).map (fun i => [i, i * i])) [i1, i2] = .val ([m1, m2], []) := hp
    have g3' : feed (autoObj fmt Real.sqrt) a0 ((counts ℝ n).map (fun i => i * i)) = .val (a1, none) := g3
    simp only [jointFinish, hp', g3']
    rw [← ho, ← hq]
    rcases values o [m1, m2] [] with (e | t) | _ | _ <;> try rfl
    rcases q.value a1 with (e | t) | _ | _ <;> rfl
  have n1 : o.name m1 = "joint.Corr_{window:0}" := by
    rw [feed_keeps o o.name (joint_name fmt Real.sqrt) _ _ _ _ g1]
    have : i1.kind = .corr 0 := by
      have e1' : (Joint.Metric.new (.corr 0) : Joint.Metric ℝ).init = .val (i1, none) := e1
      unfold Joint.Metric.init at e1'
      split at e1' <;> cases e1'
      rfl
    simp only [ho, jointObj, this]
    rfl
  have n2 : o.name m2 = "joint.Cov_{window:5}" := by
    rw [feed_keeps o o.name (joint_name fmt Real.sqrt) _ _ _ _ g2]
    have : i2.kind = .cov 5 := by
      have e2' : (Joint.Metric.new (.cov 5) : Joint.Metric ℝ).init = .val (i2, none) := e2
      unfold Joint.Metric.init at e2'
      split at e2' <;> cases e2'
      rfl
    simp only [ho, jointObj, this]
    rfl
  have n3 : q.name a1 = "joint.Autocorr_{lag:4,window:10}" := by
    rw [feed_keeps q q.name (auto_name fmt Real.sqrt) _ _ _ _ g3]
    have : a0.lag = 4 ∧ a0.window = 10 := by
      have f1' : Joint.Auto.new (K := ℝ) true 4 10 = .ok a := f1
      cases f1'
      unfold Joint.Auto.init at f2
      split at f2 <;> cases f2
      exact ⟨rfl, rfl⟩
    simp only [hq, autoObj, this]
    rfl
  rw [hmain, hfinish]
  constructor
  · intro hn
    have hvals : ∃ r, values o [m1, m2] [] = .val r := by
      simp only [values, ho, jointObj]
      cases Joint.Metric.value Real.sqrt m1 with
      | error e => exact ⟨_, rfl⟩
      | ok v =>
        cases Joint.Metric.value Real.sqrt m2 with
        | error e => exact ⟨_, rfl⟩
        | ok v => exact ⟨_, rfl⟩
    obtain ⟨r, hr⟩ := hvals
    rw [hr]
    cases r with
    | error e => rfl
    | ok t =>
      simp only
      by_cases h5 : n = 5
      · have hlag : lastN 10 (lagged 4 (squares n)) = [[(4 : ℝ) * 4, 0]] := by
          rw [lagged_squares, h5, lastN_all (by simp)]
          simp [List.range_succ]
        have := z3 (by rw [hlag]; simp) (.inl (by rw [hlag]; simp [csum, coord, mean]))
        have hv : q.value a1 = .val (.ok .nan) := by simp [hq, autoObj, this]
        rw [hv]
        simp only
        rw [report_fatal (k := q.name a1) (v := .nan) (by rw [Table.get_set, if_pos rfl]) (by rintro ⟨x, h⟩; cases h)]
      · obtain ⟨e, he⟩ := u3.2 (by simp [squares]; omega)
        have hv : q.value a1 = .val (.error e) := by simp [hq, autoObj, he]
        rw [hv]
  · intro hn
    have hn' : (6 : ℝ) ≤ n := by exact_mod_cast hn
    have w1 := v1 (by
        rw [csum_counts]
        have : (0 : ℝ) < n ^ 2 - 1 := by nlinarith
        positivity) (by
        rw [csum_squares]
        have h1 : (0 : ℝ) < n ^ 2 - 1 := by nlinarith
        have h2 : (0 : ℝ) < 2 * n - 1 := by linarith
        have h3 : (0 : ℝ) < 8 * n - 11 := by linarith
        positivity)
    rw [pearson_points (by omega)] at w1
    have hl5 : lastN 5 (points n) = ([(n : ℝ) - 5, n - 5 + 1, n - 5 + 2, n - 5 + 3, n - 5 + 4] : List ℝ).map (fun i => [i, i * i]) := by
      obtain ⟨k, rfl⟩ : ∃ k, n = k + 5 := ⟨n - 5, by omega⟩
      rw [points, lastN_map, lastN_counts]
      simp
    have w2 := v2 (by rw [hl5]; simp)
    rw [hl5, cov_five] at w2
    obtain ⟨w3, -⟩ := v3 (lagged_spread hn).1 (lagged_spread hn).2
    have x1 : o.value m1 = .val (.ok (.fin (((n : ℝ) - 1) * √(15 / ((2 * n - 1) * (8 * n - 11)))))) := by
      simp only [ho, jointObj]
      rw [w1]
    have x2 : o.value m2 = .val (.ok (.fin (5 * ((n : ℝ) - 5 + 2)))) := by
      simp only [ho, jointObj]
      rw [w2]
    have hv := values_table o (.cons x1 (.cons x2 .nil)) []
    rw [hv]
    have hq1 : q.value a1 = .val (.ok (.fin (pearson (lastN 10 (lagged 4 (squares n)))))) := by simp [hq, autoObj, w3]
    simp only [hq1]
    refine ⟨(table o [m1, m2] [.fin (((n : ℝ) - 1) * √(15 / ((2 * n - 1) * (8 * n - 11)))), .fin (5 * ((n : ℝ) - 5 + 2))] []).set
      (q.name a1) (.fin (pearson (lastN 10 (lagged 4 (squares n))))), ?_, ?_, ?_, ?_, ?_⟩
    · rw [report_printed]
      intro p hp
      rcases mem_set hp with rfl | hp
      · exact ⟨_, rfl⟩
      · rcases mem_table o _ _ _ p hp with h | h
        · cases h
        · simp only [List.mem_cons, List.not_mem_nil, or_false] at h
          rcases h with h | h <;> exact ⟨_, h⟩
    · simp only [table, n1, n2, n3, Table.get_set]
      simp
    · simp only [table, n1, n2, n3, Table.get_set]
      simp
      ring
    · simp only [table, n1, n2, n3, Table.get_set]
      simp
    · intro h14
      rw [← autocorr_ten h14]
      simp only [table, n1, n2, n3, Table.get_set]
      simp

example (fmt : ℝ → List Char) : ∃ t, jointMain fmt Real.sqrt 100 = .val (.printed t) ∧
    t.get "joint.Cov_{window:5}" = some (.fin 485) := by
  obtain ⟨t, h, -, h1, -⟩ := (C99_joint fmt 100).2 (by omega)
  exact ⟨t, h, by rw [h1]; norm_num⟩

example (fmt : ℚ → List Char) (draws : Nat → Nat → Bool) :
    ∃ t, quantileMain fmt (Quant.exact ℚ) 0 1 (1 / 4) (fun _ => True) draws (counts ℚ 100) = .val (.printed t) ∧
      t.get "quantile.HeapMedian_{window:3}" = some 98 := by
  obtain ⟨t, h, -, -, h1⟩ := C99_quantile_counts fmt draws (n := 100) (by omega)
  exact ⟨t, h, by rw [h1]; norm_num⟩

end Verif.Props
