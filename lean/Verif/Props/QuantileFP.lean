import Verif.Proofs.QuantileFP

/-! # C71: Quantile, Median, IQR and HeapMedian in binary64

`ops64` is IEEE 754 binary64 without overflow, `ieeeOps64` with overflow. `rnd64 y = y` says that `y` is a binary64 number. -/

set_option linter.unusedSectionVars false

namespace Verif.Props
open Verif Verif.Spec Verif.Quant Verif.FP

theorem small_nat {n N : Nat} (h : n ≤ 2 ^ 53) : N < n → rnd64 N = N := fun hN => rnd64_nat (by omega)

/-- For concrete histories. -/
theorem of_run {α : Type} {r : Go (α × List Err)} {P : α → Prop} [DecidablePred P]
    (h : (match r with | .val (q, []) => decide (P q) | _ => false) = true) : ∃ q, r = .val (q, []) ∧ P q := by
  match r, h with
  | .val (q, []), h => exact ⟨q, rfl, of_decide_eq_true h⟩

/-- C71, first part, every method but `Linear`, every container, every history whose pushes return: in binary64 the reported value lies
between two values of the window. Missing: `Linear`, where it fails, and overflow, where it fails. -/
theorem C71_bracket_partial {window : Int} {opts : List (Opt ℚ)} {c : Cfg ℚ} (hn : new 0 1 window opts = .ok c)
    (hL : c.interpolation ≠ Linear) (draws : Nat → Nat → Bool) (ops : List (MOp ℚ)) {q : Quantile (statOf c draws)} {log : List Err}
    (hrun : (ofCfg c draws).run ops = .val (q, log)) (hw : ∀ y ∈ windowOf window.toNat ops, rnd64 y = y)
    (hlen : (windowOf window.toNat ops).length ≤ 2 ^ 53) {x v : ℚ} (hv : q.value ops64 x = .val (.ok v)) :
    (∃ y ∈ windowOf window.toNat ops, y ≤ v) ∧ ∃ y ∈ windowOf window.toNat ops, v ≤ y := by
  obtain ⟨-, -, -, -, ⟨m, hm⟩, -, -⟩ := new_ok hn
  have hm' : m ≠ .linear := by rintro rfl; exact hL hm
  rcases value_any rounding_rnd64 hn draws ops hm hrun (fun n => small_nat hlen) hv with h | ⟨i, a, b, d, ha, hb, -, -, rfl⟩
  · exact ⟨⟨v, h, le_rfl⟩, v, h, le_rfl⟩
  · rcases le_total a b with hab | hab
    · have := halving_rnd64.between hm' i d (hw a ha) (hw b hb) ⟨le_rfl, hab⟩ ⟨hab, le_rfl⟩
      exact ⟨⟨a, ha, this.1⟩, b, hb, this.2⟩
    · have := halving_rnd64.between hm' i d (hw b hb) (hw a ha) ⟨hab, le_rfl⟩ ⟨le_rfl, hab⟩
      exact ⟨⟨b, hb, this.1⟩, a, ha, this.2⟩

example : ∃ c, new (0 : ℚ) 1 3 [.interpolation Midpoint] = .ok c ∧ c.interpolation ≠ Linear ∧ ∃ q,
    (ofCfg c (fun _ _ => false)).run [.push 7, .push (rnd64 (1 / 10)), .push 2, .push (rnd64 (3 / 10))] = .val (q, []) ∧
      q.value ops64 (1 / 4) = .val (.ok (rnd64 (1 / 5))) ∧
      ∀ y ∈ windowOf (3 : Int).toNat [MOp.push 7, .push (rnd64 (1 / 10)), .push 2, .push (rnd64 (3 / 10))], rnd64 y = y :=
  ⟨_, rfl, by decide, of_run (by decide +kernel)⟩

/-- C71, first part, refuted for `Linear`, the default method: with a window that holds one number only, `0.1` twice, the 0.2-quantile is
larger than this number and the 0.29-quantile is smaller. So neither the bracket by the window nor the monotonicity in `q` holds. -/
theorem C71_linear_refuted : ∃ c v w, new (0 : ℚ) 1 2 [] = .ok c ∧ c.interpolation = Linear ∧
    rnd64 (2 / 10) < rnd64 (29 / 100) ∧ rnd64 (1 / 10) < v ∧ w < rnd64 (1 / 10) ∧ ∃ q,
    (ofCfg c (fun _ _ => false)).run [.push (rnd64 (1 / 10)), .push (rnd64 (1 / 10))] = .val (q, []) ∧
      q.value ops64 (rnd64 (2 / 10)) = .val (.ok v) ∧ q.value ops64 (rnd64 (29 / 100)) = .val (.ok w) :=
  ⟨_, 7205759403792795 / 2 ^ 56, 7205759403792793 / 2 ^ 56, rfl, rfl, by decide +kernel, by decide +kernel, by decide +kernel,
    of_run (by decide +kernel)⟩

/-- C71, first part, what holds for every method: the value leaves the range of the window by rounding errors only. Missing: no error. -/
theorem C71_bracket_error_partial {window : Int} {opts : List (Opt ℚ)} {c : Cfg ℚ} (hn : new 0 1 window opts = .ok c)
    (draws : Nat → Nat → Bool) (ops : List (MOp ℚ)) {q : Quantile (statOf c draws)} {log : List Err}
    (hrun : (ofCfg c draws).run ops = .val (q, log)) (hw : ∀ y ∈ windowOf window.toNat ops, rnd64 y = y)
    (hlen : (windowOf window.toNat ops).length ≤ 2 ^ 53) {A : ℚ} (hA : ∀ y ∈ windowOf window.toNat ops, |y| ≤ A)
    {x v : ℚ} (hv : q.value ops64 x = .val (.ok v)) :
    (∃ y ∈ windowOf window.toNat ops, y - (4 / 2 ^ 53 * A + 4 / 2 ^ 1075) ≤ v) ∧
      ∃ y ∈ windowOf window.toNat ops, v ≤ y + (4 / 2 ^ 53 * A + 4 / 2 ^ 1075) := by
  obtain ⟨-, -, -, -, ⟨m, hm⟩, -, -⟩ := new_ok hn
  have he : ∀ y ∈ windowOf window.toNat ops, 0 ≤ 4 / 2 ^ 53 * A + 4 / 2 ^ 1075 := by
    intro y hy
    have : 0 ≤ A := (abs_nonneg y).trans (hA y hy)
    positivity
  by_cases hm' : m = .linear
  · subst hm'
    rcases value_any rounding_rnd64 hn draws ops hm hrun (fun n => small_nat hlen) hv with h | ⟨i, a, b, d, ha, hb, h0, h1, rfl⟩
    · have := he v h
      exact ⟨⟨v, h, by linarith⟩, v, h, by linarith⟩
    · have key := linear_err rounding_rnd64 accuracy_rnd64 (by positivity) (by norm_num) (by positivity) (by
        rw [mul_one_div, div_le_div_iff₀ (by positivity) (by positivity), one_mul]
        calc (10 : ℚ) * 2 ^ 53 ≤ 2 ^ 4 * 2 ^ 53 := by norm_num
          _ = 2 ^ 57 := by norm_num
          _ ≤ 2 ^ 1075 := pow_le_pow_right₀ (by norm_num) (by norm_num)) ⟨h0, h1⟩ (hA a ha) (hA b hb)
      have hb' : Quant.between (roundedOps rnd64) .linear i a b d = rnd64 (rnd64 (rnd64 (1 - d) * a) + rnd64 (d * b)) := by
        simp only [Quant.between, roundedOps, Int.cast_one, rounding_rnd64.one]
      rw [hb']
      have hE : 4 * (1 / 2 ^ 53) * A + 4 * (1 / 2 ^ 1075) = 4 / 2 ^ 53 * A + 4 / 2 ^ 1075 := by
        rw [mul_one_div, mul_one_div]
      rw [hE] at key
      generalize 4 / 2 ^ 53 * A + 4 / 2 ^ 1075 = E at key ⊢
      obtain ⟨k1, k2⟩ := abs_le.1 key
      rcases le_total a b with hab | hab
      · exact ⟨⟨a, ha, by nlinarith⟩, b, hb, by nlinarith⟩
      · exact ⟨⟨b, hb, by nlinarith⟩, a, ha, by nlinarith⟩
  · obtain ⟨⟨y, hy, h1⟩, z, hz, h2⟩ := C71_bracket_partial hn (by
      rw [hm]; intro e; apply hm'; cases m <;> simp [code, Linear, Lower, Higher, Nearest, Midpoint] at e ⊢) draws ops hrun hw hlen hv
    have := he y hy
    exact ⟨⟨y, hy, by linarith⟩, z, hz, by linarith⟩

/-- C71, second part, every method but `Linear`, the tree containers, every history whose pushes return: in binary64 a larger `q` never
gives a smaller value. Missing: `Linear` (`C71_linear_refuted`), the skip list (`C16_skip_mono_refuted`), overflow. -/
theorem C71_mono_partial {window : Int} {opts : List (Opt ℚ)} {c : Cfg ℚ} (hn : new 0 1 window opts = .ok c)
    (hL : c.interpolation ≠ Linear) (hc : c.impl ≠ SkipList) (draws : Nat → Nat → Bool) (ops : List (MOp ℚ))
    {q : Quantile (statOf c draws)} {log : List Err} (hrun : (ofCfg c draws).run ops = .val (q, log))
    (hw : ∀ y ∈ windowOf window.toNat ops, rnd64 y = y) (hlen : (windowOf window.toNat ops).length ≤ 2 ^ 53) {x y v w : ℚ}
    (hv : q.value ops64 x = .val (.ok v)) (hw' : q.value ops64 y = .val (.ok w)) (hxy : x ≤ y) : v ≤ w := by
  obtain ⟨-, -, -, -, ⟨m, hm⟩, -, -⟩ := new_ok hn
  have hm' : m ≠ .linear := by rintro rfl; exact hL hm
  obtain ⟨T, hT, -, -, h⟩ := value_trees rounding_rnd64 hn hc draws ops hm hrun (fun n => small_nat hlen)
  exact (h x v hv).mono halving_rnd64 hm' (fun z hz => hw z (by simpa using Multiset.mem_of_le hT hz)) (h y w hw') hxy

example : ∃ c, new (0 : ℚ) 1 0 [.interpolation Nearest, .impl RedBlack []] = .ok c ∧ c.interpolation ≠ Linear ∧ c.impl ≠ SkipList ∧ ∃ q,
    (ofCfg c (fun _ _ => false)).run [.push 7, .push (rnd64 (1 / 10)), .push 2] = .val (q, []) ∧
      q.value ops64 (1 / 4) = .val (.ok (rnd64 (1 / 10))) ∧ q.value ops64 (rnd64 (4 / 10)) = .val (.ok 2) :=
  ⟨_, rfl, by decide, by decide, of_run (by decide +kernel)⟩

theorem ops64_quarter : ops64.div (ops64.ofInt 1) (ops64.ofInt 4) = 1 / 4 ∧ ops64.div (ops64.ofInt 3) (ops64.ofInt 4) = 3 / 4 ∧
    ops64.div (ops64.ofInt 1) (ops64.ofInt 2) = 1 / 2 := by
  refine ⟨?_, ?_, ?_⟩ <;> decide +kernel

/-- C71, third part, the tree containers: in binary64 the interquartile range is never negative. Missing: the skip list, overflow. -/
theorem C71_iqr_partial {window : Int} {opts : List (Opt ℚ)} {c : Cfg ℚ} (hn : newMedian 0 1 window opts = .ok c)
    (hc : c.impl ≠ SkipList) (draws : Nat → Nat → Bool) (ops : List (MOp ℚ)) {q : Quantile (statOf c draws)} {log : List Err}
    (hrun : (ofCfg c draws).run ops = .val (q, log)) (hw : ∀ y ∈ windowOf window.toNat ops, rnd64 y = y)
    (hlen : (windowOf window.toNat ops).length ≤ 2 ^ 53) {v : ℚ} (hv : q.iqrValue ops64 = .val (.ok v)) : 0 ≤ v := by
  have hm : c.interpolation = code .midpoint := by
    obtain ⟨-, -, -, -, -, -, h⟩ := new_ok hn
    rw [h]; simp [List.filterMap_append, Opt.interp?, code]
  rw [Quantile.iqrValue, ops64_quarter.1, ops64_quarter.2.1] at hv
  rw [Go.bind_eq_val] at hv
  obtain ⟨r, e1, e2⟩ := hv
  cases r with
  | error e => cases e2
  | ok a =>
    simp only [] at e2
    rw [Go.bind_eq_val] at e2
    obtain ⟨r, e3, e4⟩ := e2
    cases r with
    | error e => cases e4
    | ok b =>
      cases e4
      have := C71_mono_partial hn (by rw [hm]; decide) hc draws ops hrun hw hlen e1 e3 (by norm_num)
      exact rounding_rnd64.nonneg (by linarith)

example : ∃ c, newMedian (0 : ℚ) 1 0 [] = .ok c ∧ c.impl ≠ SkipList ∧ ∃ q,
    (ofCfg c (fun _ _ => false)).run [.push 7, .push (rnd64 (1 / 10)), .push 2] = .val (q, []) ∧
      q.iqrValue ops64 = .val (.ok (rnd64 (69 / 20))) :=
  ⟨_, rfl, by decide, of_run (by decide +kernel)⟩

/-- `v` is the median of `S` in binary64: the middle value itself, or the rounded half of the rounded sum of the two middle values. -/
def Median64 (S : Multiset ℚ) (v : ℚ) : Prop :=
  (∃ i : Nat, S.card = 2 * i + 1 ∧ IsKth S i v) ∨
  ∃ (i : Nat) (a b : ℚ), S.card = 2 * i + 2 ∧ IsKth S i a ∧ IsKth S (i + 1) b ∧ v = rnd64 (rnd64 (a + b) / 2)

theorem median64_iff (S : Multiset ℚ) (v : ℚ) : HeapMedian.MedianIn ops64 S v ↔ Median64 S v := by
  have : ops64.ofInt 2 = 2 := by decide +kernel
  simp only [HeapMedian.MedianIn, Median64, this]
  rfl

/-- C71, fourth part: in binary64 `Median` (default container) and the global `HeapMedian` report the very same number for the same
history: the middle value, or the rounded half of the rounded sum of the two middle values. It differs from the true median by rounding
errors only. -/
theorem C71_medians_agree {opts : List (Opt ℚ)} {c : Cfg ℚ} (hn : newMedian 0 1 0 opts = .ok c) (hA : c.impl = AVL)
    (draws : Nat → Nat → Bool) (ops : List (MOp ℚ)) (hne : since ops ≠ []) (hlen : (since ops).length ≤ 2 ^ 53) :
    ∃ q s0 s v, (ofCfg c draws).run ops = .val (q, []) ∧ HeapMedian.new (0 : ℚ) 0 = .ok s0 ∧ HeapMedian.run s0 ops = .val (s, []) ∧
      q.medianValue ops64 = .val (.ok v) ∧ HeapMedian.value ops64 s = .val (.ok v) ∧
      Median64 (since ops : List ℚ) v ∧
      ∃ w, IsMedian (since ops : List ℚ) w ∧ |v - w| ≤ 3 / 2 ^ 53 * |w| + 2 / 2 ^ 1075 := by
  have hm : c.interpolation = code .midpoint := by
    obtain ⟨-, -, -, -, -, -, h⟩ := new_ok hn
    rw [h]; simp [List.filterMap_append, Opt.interp?, code]
  have hwin : windowOf (0 : Int).toNat ops = since ops := lastN_zero _
  obtain ⟨q, e, -, -, -, -⟩ := quantile_main hn draws ops (implOK_avl hA _ _) hm
  obtain ⟨T, hT, hTS, hex, h⟩ := value_trees rounding_rnd64 hn (by rw [hA]; decide) draws ops hm e
    (fun n => small_nat (by rw [hwin]; exact hlen))
  have hTS := hTS (by rw [hA]; decide)
  rw [hwin] at hTS
  obtain ⟨v, ev⟩ := hex (1 / 2) (by norm_num) (by norm_num) (by rw [hTS]; simpa using hne)
  have hq := h _ _ ev
  rw [hTS] at hq
  have hmed := hq.median (by simpa using hlen)
  obtain ⟨s, es, hi⟩ := HeapMedian.run_inv (w := 0) (by decide) (0 : ℚ) ops
  have hl := hi.size
  rw [lastN_zero] at hl
  obtain ⟨v', e2, hm2⟩ := (HeapMedian.value_in ops64 hi.c hi.lo hi.hi).2 (fun c => by
    rw [c] at hl; exact hne (List.length_eq_zero_iff.1 hl.symm))
  rw [hi.exact (Or.inl rfl)] at hm2
  obtain rfl := MedianIn.unique hmed hm2
  exact ⟨q, _, s, v, e, rfl, es, by rw [Quantile.medianValue, ops64_quarter.2.2]; exact ev, e2, (median64_iff _ _).1 hmed,
    MedianIn.err hmed⟩

example : ∃ c, newMedian (0 : ℚ) 1 0 [] = .ok c ∧ c.impl = AVL ∧ since [MOp.push (rnd64 (1 / 10)), .clear, .push (rnd64 (7 / 10)),
    .push (rnd64 (1 / 10))] ≠ [] ∧ ∃ q, (ofCfg c (fun _ _ => false)).run [.push (rnd64 (1 / 10)), .clear, .push (rnd64 (7 / 10)),
      .push (rnd64 (1 / 10))] = .val (q, []) ∧ q.medianValue ops64 = .val (.ok (7205759403792793 / 2 ^ 54)) :=
  ⟨_, rfl, rfl, by decide, of_run (by decide +kernel)⟩

/-- C71, first part, for `HeapMedian` with any window but 1: in binary64 the reported value lies between two of the pushed values.
Missing: window 1, where pushes panic (C23); overflow. -/
theorem C71_heap_median_bracket_partial {w : Nat} (hw : w ≠ 1) (ops : List (MOp ℚ)) (hne : since ops ≠ [])
    (hr : ∀ y ∈ since ops, rnd64 y = y) :
    ∃ s0 s v, HeapMedian.new (0 : ℚ) w = .ok s0 ∧ HeapMedian.run s0 ops = .val (s, []) ∧ HeapMedian.value ops64 s = .val (.ok v) ∧
      (∃ y ∈ since ops, y ≤ v) ∧ ∃ y ∈ since ops, v ≤ y := by
  obtain ⟨s, e, h⟩ := HeapMedian.run_inv (w := w) hw (0 : ℚ) ops
  have hlen := h.size
  obtain ⟨v, e2, hm⟩ := (HeapMedian.value_in ops64 h.c h.lo h.hi).2 (fun c => by
    rw [c] at hlen; exact lastN_ne_nil hne (List.length_eq_zero_iff.1 hlen.symm))
  have hsub : ∀ y ∈ HeapMedian.content s, y ∈ since ops := fun y hy => by simpa using Multiset.mem_of_le h.sub hy
  refine ⟨_, s, v, if_neg (by omega), e, e2, ?_⟩
  rcases (median64_iff _ _).1 hm with ⟨i, -, k⟩ | ⟨i, a, b, -, ka, kb, rfl⟩
  · exact ⟨⟨v, hsub _ k.1, le_rfl⟩, v, hsub _ k.1, le_rfl⟩
  · have hab := ka.mono kb (by omega)
    have := halving_rnd64.midpoint (hr _ (hsub _ ka.1)) (hr _ (hsub _ kb.1)) ⟨le_rfl, hab⟩ ⟨hab, le_rfl⟩
    exact ⟨⟨a, hsub _ ka.1, this.1⟩, b, hsub _ kb.1, this.2⟩

example : since [MOp.push (7 : ℚ), .clear, .push 3, .push (rnd64 (1 / 10))] ≠ [] ∧
    ∀ y ∈ since [MOp.push (7 : ℚ), .clear, .push 3, .push (rnd64 (1 / 10))], rnd64 y = y := by decide +kernel

/-- C71 refuted by overflow: of twice the same finite number, `2 ^ 1023`, the median is `+Inf` for `Median` and for `HeapMedian`, and the
interquartile range is NaN. -/
theorem C71_overflow_refuted : two 1023 = 2 ^ 1023 ∧ (∃ c, newMedian (XF.fin 0 : XF ℚ) (.fin 1) 0 [] = .ok c ∧ ∃ q,
    (ofCfg c (fun _ _ => false)).run [.push (.fin (two 1023)), .push (.fin (two 1023))] = .val (q, []) ∧
      q.medianValue ieeeOps64 = .val (.ok (.inf false)) ∧ q.iqrValue ieeeOps64 = .val (.ok .nan)) ∧
    ∃ s0, HeapMedian.new (XF.fin 0 : XF ℚ) 0 = .ok s0 ∧ ∃ s,
      HeapMedian.run s0 [.push (.fin (two 1023)), .push (.fin (two 1023))] = .val (s, []) ∧
      HeapMedian.value ieeeOps64 s = .val (.ok (.inf false)) :=
  ⟨two_eq 1023, ⟨_, rfl, of_run (by decide +kernel)⟩, _, rfl, of_run (by decide +kernel)⟩

/-- C14 in binary64 refuted: rounding of the raw index moves the answer by a whole element. With the values 0, …, 10 and `Higher`, the
documented 0.1-quantile for the binary64 number nearest to 0.1, which is slightly larger, is 2; the reported one is 1. -/
theorem C71_index_refuted : ∃ c, new (0 : ℚ) 1 0 [.interpolation Higher] = .ok c ∧ c.interpolation = code .higher ∧ ∃ q,
    (ofCfg c (fun _ _ => false)).run ([0, 1, 2, 3, 4, 5, 6, 7, 8, 9, 10].map .push) = .val (q, []) ∧
      q.value ops64 (rnd64 (1 / 10)) = .val (.ok 1) ∧
      IsQuantile .higher (([0, 1, 2, 3, 4, 5, 6, 7, 8, 9, 10] : List ℚ) : Multiset ℚ) (rnd64 (1 / 10)) 2 := by
  refine ⟨_, rfl, rfl, _, rfl, by decide +kernel, Or.inr ⟨1, 1, 2, ?_, ?_, ?_, ?_, rfl⟩⟩
  · decide +kernel
  · decide +kernel
  · exact ⟨by decide, by decide +kernel, by decide +kernel⟩
  · exact ⟨by decide, by decide +kernel, by decide +kernel⟩

end Verif.Props
