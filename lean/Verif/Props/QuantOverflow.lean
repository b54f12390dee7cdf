import Verif.Proofs.QuantOverflow
import Verif.Props.QuantileFP

/-! # C102: the quantile metrics do not overflow on values below `2^1023`

`ieeeOps64` is binary64 with infinities and NaN, `ops64` the same without overflow. The results of C71 are about `ops64`; here they are carried
over to `ieeeOps64`. `C71_overflow_refuted` shows that the bound `2^1023` cannot be enlarged. -/

set_option linter.unusedSectionVars false

namespace Verif.Props
open Verif Verif.Spec Verif.Quant Verif.FP

/-- The constructors accept and reject the same options. -/
theorem C102_new (window : Int) (opts : List (Opt ℚ)) :
    new (.fin 0 : XF ℚ) (.fin 1) window (opts.map (Opt.map XF.fin)) = (new 0 1 window opts).map (Cfg.map XF.fin) ∧
    newMedian (.fin 0 : XF ℚ) (.fin 1) window (opts.map (Opt.map XF.fin)) = (newMedian 0 1 window opts).map (Cfg.map XF.fin) :=
  ⟨new_map fin_ordMap 0 1 window opts, newMedian_map fin_ordMap 0 1 window opts⟩

/-- C102, `Quantile` with every container, window and method, every history: with infinities in the arithmetic the history has the same outcome
and the same errors, and as long as the values of the window are below `2^1023`, `Value` is the same finite number or the same error. -/
theorem C102_quantile {window : Int} {opts : List (Opt ℚ)} {c : Cfg ℚ} (hn : new 0 1 window opts = .ok c) (draws : Nat → Nat → Bool)
    (ops : List (MOp ℚ)) :
    GoR (fun r r' => r'.2 = r.2 ∧ ((windowOf window.toNat ops).length ≤ 2 ^ 53 → (∀ y ∈ windowOf window.toNat ops, rnd64 y = y ∧ |y| < two 1023) →
        ∀ p : ℚ, r'.1.value ieeeOps64 (.fin p) = (r.1.value ops64 p).image (Except.map XF.fin)))
      ((ofCfg c draws).run ops) ((ofCfg (c.map XF.fin) draws).run (ops.map (MOp.map XF.fin))) := by
  obtain ⟨f, S⟩ := statOf_map fin_ordMap (sameCfg_map (φ := XF.fin) c) draws
  have h := Quantile.run_map S (ofCfg c draws) ops
  have e : ofCfg (c.map XF.fin) draws = (ofCfg c draws).map XF.fin f := Quantile.fresh_map S _ _
  rw [← e] at h
  rw [h]
  rcases hr : (ofCfg c draws).run ops with ⟨q, log⟩ | _ | _
  · exact ⟨rfl, fun hlen hx p => Quantile.value_map S (arithMap_fin hn draws ops hr hlen hx p)⟩
  · trivial
  · trivial

theorem ieee_quarter : ieeeOps64.div (ieeeOps64.ofInt 1) (ieeeOps64.ofInt 4) = .fin (ops64.div (ops64.ofInt 1) (ops64.ofInt 4)) ∧
    ieeeOps64.div (ieeeOps64.ofInt 3) (ieeeOps64.ofInt 4) = .fin (ops64.div (ops64.ofInt 3) (ops64.ofInt 4)) ∧
    ieeeOps64.div (ieeeOps64.ofInt 1) (ieeeOps64.ofInt 2) = .fin (ops64.div (ops64.ofInt 1) (ops64.ofInt 2)) := by
  refine ⟨?_, ?_, ?_⟩ <;> decide +kernel

theorem iqr_image {st : Statistic ℚ} {st' : Statistic (XF ℚ)} {q : Quantile st} {q' : Quantile st'}
    (hv : ∀ p, q'.value ieeeOps64 (.fin p) = (q.value ops64 p).image (Except.map XF.fin))
    (h : ∀ p p' a b, q.value ops64 p = .val (.ok a) → q.value ops64 p' = .val (.ok b) → ieeeOps64.sub (.fin b) (.fin a) = .fin (ops64.sub b a)) :
    q'.iqrValue ieeeOps64 = (q.iqrValue ops64).image (Except.map XF.fin) := by
  unfold Quantile.iqrValue
  rw [ieee_quarter.1, ieee_quarter.2.1, hv, hv]
  have h := h (ops64.div (ops64.ofInt 1) (ops64.ofInt 4)) (ops64.div (ops64.ofInt 3) (ops64.ofInt 4))
  generalize q.value ops64 (ops64.div (ops64.ofInt 1) (ops64.ofInt 4)) = m at *
  generalize q.value ops64 (ops64.div (ops64.ofInt 3) (ops64.ofInt 4)) = n at *
  rcases m with (e | a) | _ | _
  · rfl
  · rcases n with (e | b) | _ | _
    · rfl
    · exact congrArg (fun v => Go.val (Except.ok v)) (h a b rfl rfl)
    · rfl
    · rfl
  · rfl
  · rfl

/-- C102, `Median` and `IQR`. -/
theorem C102_median_iqr {window : Int} {opts : List (Opt ℚ)} {c : Cfg ℚ} (hn : newMedian 0 1 window opts = .ok c) (draws : Nat → Nat → Bool)
    (ops : List (MOp ℚ)) :
    GoR (fun r r' => r'.2 = r.2 ∧ ((windowOf window.toNat ops).length ≤ 2 ^ 53 → (∀ y ∈ windowOf window.toNat ops, rnd64 y = y ∧ |y| < two 1023) →
        r'.1.medianValue ieeeOps64 = (r.1.medianValue ops64).image (Except.map XF.fin) ∧
        r'.1.iqrValue ieeeOps64 = (r.1.iqrValue ops64).image (Except.map XF.fin)))
      ((ofCfg c draws).run ops) ((ofCfg (c.map XF.fin) draws).run (ops.map (MOp.map XF.fin))) := by
  have hm : c.interpolation = code .midpoint := by
    obtain ⟨-, -, -, -, -, -, h⟩ := new_ok hn
    rw [h]; simp [List.filterMap_append, Opt.interp?, code]
  have H := C102_quantile hn draws ops
  rcases hr : (ofCfg c draws).run ops with ⟨q, log⟩ | _ | _ <;> rw [hr] at H
  · rcases hr' : (ofCfg (c.map XF.fin) draws).run (ops.map (MOp.map XF.fin)) with ⟨q', log'⟩ | _ | _ <;> rw [hr'] at H
    · obtain ⟨h1, h2⟩ := H
      refine ⟨h1, fun hlen hx => ?_⟩
      have hv := h2 hlen hx
      have hb : ∀ p v, q.value ops64 p = .val (.ok v) → ∃ B, rnd64 B = B ∧ B < two 1023 ∧ |v| ≤ B := by
        intro p v e
        obtain ⟨⟨y, hy, h3⟩, z, hz, h4⟩ := C71_bracket_partial hn (by rw [hm]; decide) draws ops hr (fun y hy => (hx y hy).1) hlen e
        obtain ⟨B, b1, b2, b3, b4⟩ := Fits.bound (hx y hy) (hx z hz)
        rw [abs_le] at b3 b4
        exact ⟨B, b1, b2, abs_le.2 ⟨by linarith, by linarith⟩⟩
      simp only at hv
      constructor
      · unfold Quantile.medianValue
        rw [ieee_quarter.2.2]
        exact hv _
      · refine iqr_image hv fun p1 p3 a b e1 e2 => ?_
        obtain ⟨A, a1, a2, a3⟩ := hb _ _ e1
        obtain ⟨B, b1, b2, b3⟩ := hb _ _ e2
        rcases le_total A B with h | h
        · exact ieee_sub b1 b2 b3 (a3.trans h)
        · exact ieee_sub a1 a2 (b3.trans h) a3
    · exact H
    · exact H
  · cases hr' : (ofCfg (c.map XF.fin) draws).run (ops.map (MOp.map XF.fin)) <;> rw [hr'] at H <;> exact H
  · cases hr' : (ofCfg (c.map XF.fin) draws).run (ops.map (MOp.map XF.fin)) <;> rw [hr'] at H <;> exact H

/-- A history of fitting values, as a history of values of a subtype. -/
theorem lift_ops {P : ℚ → Prop} (ops : List (MOp ℚ)) (h : ∀ x, .push x ∈ ops → P x) : ∃ ops' : List (MOp {x // P x}), ops'.map (MOp.map Subtype.val) = ops := by
  induction ops with
  | nil => exact ⟨[], rfl⟩
  | cons o ops ih =>
    obtain ⟨ops', e⟩ := ih fun x hx => h x (List.mem_cons_of_mem _ hx)
    cases o with
    | push x => exact ⟨.push ⟨x, h x List.mem_cons_self⟩ :: ops', by rw [List.map_cons, e]; rfl⟩
    | clear => exact ⟨.clear :: ops', by rw [List.map_cons, e]; rfl⟩

theorem zero_fits : Fits 0 := ⟨rounding_rnd64.zero, by rw [abs_zero]; exact lt_trans (by norm_num) two1023_pos⟩

/-- C102, `HeapMedian` with every window, also 1, where pushes may panic. -/
theorem C102_heap_median (w : Int) (ops : List (MOp ℚ)) (hx : ∀ x, .push x ∈ ops → rnd64 x = x ∧ |x| < two 1023) :
    GoR (fun r r' => r'.2 = r.2 ∧ HeapMedian.value ieeeOps64 r'.1 = (HeapMedian.value ops64 r.1).image (Except.map XF.fin))
      (HeapMedian.run (HeapMedian.fresh 0 w) ops) (HeapMedian.run (HeapMedian.fresh (.fin 0) w) (ops.map (MOp.map XF.fin))) := by
  obtain ⟨ops', rfl⟩ := lift_ops (P := Fits) ops hx
  have hφ : OrdMap (Subtype.val : {x // Fits x} → ℚ) := OrdMap.of_strictMono fun _ _ h => h
  have H1 := HeapMedian.run_r hφ (HeapMedian.fresh_r hφ ⟨0, zero_fits⟩ w) [] ops'
  have H2 := HeapMedian.run_r fin_ordMap (HeapMedian.fresh_r fin_ordMap 0 w) [] (ops'.map (MOp.map Subtype.val))
  unfold HeapMedian.run
  revert H1 H2
  generalize Go.runOps (logged HeapMedian.step) (HeapMedian.fresh (⟨0, zero_fits⟩ : {x // Fits x}) w, []) ops' = r0
  show GoR _ r0 (Go.runOps (logged HeapMedian.step) (HeapMedian.fresh (0 : ℚ) w, []) _) → _ → _
  generalize Go.runOps (logged HeapMedian.step) (HeapMedian.fresh (0 : ℚ) w, []) (ops'.map (MOp.map Subtype.val)) = r1
  generalize Go.runOps (logged HeapMedian.step) (HeapMedian.fresh (XF.fin 0) w, []) ((ops'.map (MOp.map Subtype.val)).map (MOp.map XF.fin)) = r2
  intro H1 H2
  rcases r1 with ⟨s1, l1⟩ | _ | _
  · rcases r2 with ⟨s2, l2⟩ | _ | _
    · rcases r0 with ⟨s0, l0⟩ | _ | _
      · obtain ⟨M1, -⟩ := H1
        obtain ⟨M2, hl⟩ := H2
        refine ⟨hl, ?_⟩
        simp only at M1 M2
        have c1 : s2.low.len = s1.low.len := congrArg List.length M2.low.items
        have c2 : s2.high.len = s1.high.len := congrArg List.length M2.high.items
        have pk : ∀ (h1 : Heap.Heap ℚ) (h2 : Heap.Heap (XF ℚ)), h2.items = h1.items →
            (∃ a : ℚ, Fits a ∧ Heap.peek s1.mem h1 = .val a ∧ Heap.peek s2.mem h2 = .val (.fin a)) ∨
            (Heap.peek s1.mem h1 = .panic ∧ Heap.peek s2.mem h2 = .panic) := by
          intro h1 h2 e
          unfold Heap.peek
          rw [e]
          rcases h1.items with _ | ⟨a, l⟩
          · exact Or.inr ⟨rfl, rfl⟩
          · refine Or.inl ⟨s1.mem.val a, ?_, rfl, congrArg Go.val (M2.mem.val a)⟩
            rw [M1.mem.val a]; exact (s0.mem.val a).2
        unfold HeapMedian.value
        rw [c1, c2]
        split_ifs
        · rfl
        · rcases pk _ _ M2.high.items with ⟨a, -, e1, e2⟩ | ⟨e1, e2⟩ <;> rw [e1, e2] <;> rfl
        · rcases pk _ _ M2.low.items with ⟨a, -, e1, e2⟩ | ⟨e1, e2⟩ <;> rw [e1, e2] <;> rfl
        · rcases pk _ _ M2.low.items with ⟨a, fa, e1, e2⟩ | ⟨e1, e2⟩ <;> rw [e1, e2]
          · rcases pk _ _ M2.high.items with ⟨b, fb, e3, e4⟩ | ⟨e3, e4⟩ <;> rw [e3, e4]
            · exact congrArg (fun v => Go.val (Except.ok v)) (ieee_mid fa fb)
            · rfl
          · rfl
      · exact H1.elim
      · exact H1.elim
    · exact H2.elim
    · exact H2.elim
  · cases r2 <;> exact H2
  · cases r2 <;> exact H2

theorem mem_since {ops : List (MOp ℚ)} {x : ℚ} (h : x ∈ since ops) : .push x ∈ ops := by
  induction ops using List.reverseRecOn with
  | nil => cases h
  | append_singleton ops o ih =>
    cases o with
    | push y =>
      rw [since_push, List.mem_append, List.mem_singleton] at h
      rcases h with h | rfl
      · exact List.mem_append_left _ (ih h)
      · exact List.mem_append_right _ List.mem_cons_self
    | clear => rw [since_clear] at h; cases h

/-- C102, what follows for the medians: `Median` (default container) and the global `HeapMedian` report the same finite number, the middle value or
the rounded half of the rounded sum of the two middle values, within rounding errors of the true median. -/
theorem C102_medians_agree {opts : List (Opt ℚ)} {c : Cfg ℚ} (hn : newMedian 0 1 0 opts = .ok c) (hA : c.impl = AVL)
    (draws : Nat → Nat → Bool) (ops : List (MOp ℚ)) (hne : since ops ≠ []) (hlen : (since ops).length ≤ 2 ^ 53)
    (hx : ∀ x, .push x ∈ ops → rnd64 x = x ∧ |x| < two 1023) :
    ∃ q s v, (ofCfg (c.map XF.fin) draws).run (ops.map (MOp.map XF.fin)) = .val (q, []) ∧
      HeapMedian.run (HeapMedian.fresh (.fin 0) 0) (ops.map (MOp.map XF.fin)) = .val (s, []) ∧
      q.medianValue ieeeOps64 = .val (.ok (.fin v)) ∧ HeapMedian.value ieeeOps64 s = .val (.ok (.fin v)) ∧
      Median64 (since ops : List ℚ) v ∧ ∃ w, IsMedian (since ops : List ℚ) w ∧ |v - w| ≤ 3 / 2 ^ 53 * |w| + 2 / 2 ^ 1075 := by
  obtain ⟨q, s0, s, v, e1, e2, e3, e4, e5, h6, h7⟩ := C71_medians_agree hn hA draws ops hne hlen
  cases e2
  have hwin : windowOf (0 : Int).toNat ops = since ops := lastN_zero _
  have hs : ∀ x ∈ since ops, rnd64 x = x ∧ |x| < two 1023 := fun x h => hx x (mem_since h)
  have H1 := C102_median_iqr hn draws ops
  have H2 := C102_heap_median 0 ops hx
  have e3 : HeapMedian.run (HeapMedian.fresh 0 0) ops = .val (s, []) := e3
  rw [e1] at H1
  rw [e3] at H2
  rcases hr1 : (ofCfg (c.map XF.fin) draws).run (ops.map (MOp.map XF.fin)) with ⟨q', l1⟩ | _ | _ <;> rw [hr1] at H1
  · rcases hr2 : HeapMedian.run (HeapMedian.fresh (.fin 0) 0) (ops.map (MOp.map XF.fin)) with ⟨s', l2⟩ | _ | _ <;> rw [hr2] at H2
    · obtain ⟨rfl, g1⟩ := H1
      obtain ⟨rfl, g2⟩ := H2
      refine ⟨q', s', v, rfl, hr2, ?_, ?_, h6, h7⟩
      · rw [(g1 (by rw [hwin]; exact hlen) (by rw [hwin]; exact hs)).1, e4]; rfl
      · rw [g2, e5]; rfl
    · exact H2.elim
    · exact H2.elim
  · exact H1.elim
  · exact H1.elim

/-- The values `2^1022` and `-2^1022` and a small one: below the bound, and the sums stay finite. -/
example : ∃ c, newMedian (0 : ℚ) 1 0 [] = .ok c ∧ c.impl = AVL ∧ (∀ x ∈ [two 1022, -two 1022, 1 / 2, two 1022], rnd64 x = x ∧ |x| < two 1023) ∧
    ∃ q, (ofCfg (c.map XF.fin) (fun _ _ => false)).run [.push (.fin (two 1022)), .push (.fin (-two 1022)), .push (.fin (1 / 2)), .push (.fin (two 1022))] =
      .val (q, []) ∧ q.medianValue ieeeOps64 = .val (.ok (.fin (two 1021))) ∧ q.iqrValue ieeeOps64 = .val (.ok (.fin (two 1022 + two 1021))) := by
  refine ⟨_, rfl, rfl, by decide +kernel, of_run (by decide +kernel)⟩

/-- The bound is sharp: the number `2^1023` twice gives `+Inf` and NaN. -/
example := C71_overflow_refuted

end Verif.Props
