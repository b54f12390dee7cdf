import Verif.Proofs.QuantileWeak
import Mathlib.Data.Rat.Floor

/-! # C14–C20: Quantile, Median, IQR

A history is a list of `Push`/`Clear` calls on the metric returned by `New(window, options...)`. `windowOf w ops` is the list of the
last `w` values pushed since the last `Clear` (all of them for `w = 0`). `exact K` is exact arithmetic in an ordered field. -/

set_option linter.unusedSectionVars false

namespace Verif.Props
open Verif Verif.Spec Verif.Quant

variable {K : Type} [Field K] [LinearOrder K] [IsStrictOrderedRing K] [FloorRing K]

/-- C14 for the default (AVL) implementation, in full: every stream, window and interpolation, `Value(q)` is the documented
quantile of exactly the current window, and no `Push` returned an error. -/
theorem C14_quantile_avl {window : Int} {opts : List (Opt K)} {c : Cfg K} (hn : new 0 1 window opts = .ok c) (hA : c.impl = AVL)
    {m : Method} (hm : c.interpolation = code m) (draws : Nat → Nat → Bool) (ops : List (MOp K)) {x : K} (h0 : 0 < x) (h1 : x < 1)
    (hne : windowOf window.toNat ops ≠ []) :
    ∃ q v, (ofCfg c draws).run ops = .val (q, []) ∧ q.value (exact K) x = .val (.ok v) ∧
      IsQuantile m (windowOf window.toNat ops : List K) x v := by
  obtain ⟨q, e, -, -, hv, -⟩ := quantile_main hn draws ops (implOK_avl hA _ _) hm
  obtain ⟨v, e2, hq⟩ := hv x h0 h1 hne
  exact ⟨q, v, e, e2, hq⟩

/-- The specification determines the value, so C14 is not satisfied by some other number. -/
example {m : Method} {S : Multiset K} {x v w : K} (hv : IsQuantile m S x v) (hw : IsQuantile m S x w) : v = w := hv.unique hw

example : ∃ c, new (0 : ℚ) 1 3 [.interpolation Nearest] = .ok c ∧ c.impl = AVL ∧ c.interpolation = code .nearest ∧
    windowOf (3 : Int).toNat [MOp.push (9 : ℚ), .clear, .push 5, .push 1, .push 4, .push 2] = [1, 4, 2] ∧
    ∃ q, (ofCfg c (fun _ _ => false)).run [MOp.push (9 : ℚ), .clear, .push 5, .push 1, .push 4, .push 2] = .val (q, []) ∧
      q.value (exact ℚ) (9 / 10) = .val (.ok 4) := by
  refine ⟨_, rfl, rfl, rfl, by decide +kernel, _, rfl, by decide +kernel⟩

/-- C14 for the red-black implementation, refuted: with a window of 4, the sixth push of 1, 0, 1, 1, 2, 0 dereferences nil; and
after 0, 0, 0, 0, 1 (window 0,0,0,1) the container holds only three values, so that `Value(0.7)` is 0.4 instead of 0.1. -/
theorem C14_quantile_rb_refuted :
    ∃ c, new (0 : ℚ) 1 4 [.impl RedBlack []] = .ok c ∧
      (ofCfg c (fun _ _ => false)).run ([1, 0, 1, 1, 2, 0].map .push) = .panic ∧
      ∃ q, (ofCfg c (fun _ _ => false)).run ([0, 0, 0, 0, 1].map .push) = .val (q, []) ∧
        q.value (exact ℚ) (7 / 10) = .val (.ok (4 / 10)) ∧
        IsQuantile .linear ((windowOf 4 ([0, 0, 0, 0, 1].map MOp.push) : List ℚ) : Multiset ℚ) (7 / 10) (1 / 10) := by
  refine ⟨_, rfl, rfl, _, rfl, by decide +kernel, ?_⟩
  have hw : windowOf 4 ([0, 0, 0, 0, 1].map MOp.push) = ([0, 0, 0, 1] : List ℚ) := by decide +kernel
  rw [hw]
  refine Or.inr ⟨2, 0, 1, ?_, ?_, ?_, ?_, ?_⟩
  · norm_num
  · norm_num
  · refine ⟨by simp, by decide +kernel, by decide +kernel⟩
  · refine ⟨by simp, by decide +kernel, by decide +kernel⟩
  · norm_num [interpolate]

/-- C14, what holds for the other implementations: red-black when no evicted value has a copy in the window (in particular for every
global metric, next theorem), the skip list when every window has distinct values. Missing: the remaining streams, for which the
containers are wrong (C06, C12). -/
theorem C14_quantile_impl_partial {window : Int} {opts : List (Opt K)} {c : Cfg K} (hn : new 0 1 window opts = .ok c)
    {m : Method} (hm : c.interpolation = code m) (draws : Nat → Nat → Bool) (ops : List (MOp K))
    (hR : c.impl = RedBlack → EvictsUnique window.toNat ops) (hS : c.impl = SkipList → PushesFresh window.toNat ops)
    {x : K} (h0 : 0 < x) (h1 : x < 1) (hne : windowOf window.toNat ops ≠ []) :
    ∃ q v, (ofCfg c draws).run ops = .val (q, []) ∧ q.value (exact K) x = .val (.ok v) ∧
      IsQuantile m (windowOf window.toNat ops : List K) x v := by
  obtain ⟨q, e, -, -, hv, -⟩ := quantile_main hn draws ops ⟨hR, hS⟩ hm
  obtain ⟨v, e2, hq⟩ := hv x h0 h1 hne
  exact ⟨q, v, e, e2, hq⟩

/-- C14 for a global red-black metric (window 0), all streams. -/
theorem C14_quantile_rb_global_partial {opts : List (Opt K)} {c : Cfg K} (hn : new 0 1 0 opts = .ok c) (hA : c.impl = RedBlack)
    {m : Method} (hm : c.interpolation = code m) (draws : Nat → Nat → Bool) (ops : List (MOp K)) {x : K} (h0 : 0 < x) (h1 : x < 1)
    (hne : windowOf 0 ops ≠ []) :
    ∃ q v, (ofCfg c draws).run ops = .val (q, []) ∧ q.value (exact K) x = .val (.ok v) ∧
      IsQuantile m (windowOf 0 ops : List K) x v :=
  C14_quantile_impl_partial hn hm draws ops (fun _ _ _ _ _ hw => absurd rfl hw) (fun h => by rw [hA] at h; cases h) h0 h1 hne

/-- A stream with duplicates that red-black handles, and one with distinct windows for the skip list. -/
example : EvictsUnique 3 ([1, 5, 5, 7].map MOp.push : List (MOp ℚ)) ∧ PushesFresh 2 ([1, 5, 1, 5].map MOp.push : List (MOp ℚ)) := by
  constructor
  · intro pre x post h hw hl y ys hy
    rcases pre with _ | ⟨a1, _ | ⟨a2, _ | ⟨a3, _ | ⟨a4, pre⟩⟩⟩⟩ <;> simp at h
    · obtain ⟨rfl, rfl⟩ := h; exact absurd hl (by decide)
    · obtain ⟨rfl, rfl, rfl⟩ := h; exact absurd hl (by decide)
    · obtain ⟨rfl, rfl, rfl, rfl⟩ := h; exact absurd hl (by decide)
    · obtain ⟨rfl, rfl, rfl, rfl, rfl⟩ := h
      have : windowOf 3 [MOp.push (1 : ℚ), .push 5, .push 5] = [1, 5, 5] := by decide
      rw [this] at hy; simp at hy; obtain ⟨rfl, rfl⟩ := hy; simp
  · intro pre x post h
    rcases pre with _ | ⟨a1, _ | ⟨a2, _ | ⟨a3, _ | ⟨a4, pre⟩⟩⟩⟩ <;> simp at h
    · obtain ⟨rfl, rfl⟩ := h; decide +kernel
    · obtain ⟨rfl, rfl, rfl⟩ := h; decide +kernel
    · obtain ⟨rfl, rfl, rfl, rfl⟩ := h; decide +kernel
    · obtain ⟨rfl, rfl, rfl, rfl, rfl⟩ := h; decide +kernel

/-- C15, every implementation, every history whose pushes return (with AVL and the skip list every history does, C04 and C13; with
red-black see C14). `Push` never returns an error. `Value` returns an error exactly when `q ≤ 0`, `q ≥ 1` or the window is empty, and
otherwise a value: it never panics. (`Value` has no effect on the state: the model returns none.) -/
theorem C15_quantile_errors {window : Int} {opts : List (Opt K)} {c : Cfg K} (hn : new 0 1 window opts = .ok c)
    (draws : Nat → Nat → Bool) (ops : List (MOp K)) {q : Quantile (statOf c draws)} {log : List Err}
    (hrun : (ofCfg c draws).run ops = .val (q, log)) :
    log = [] ∧ ∀ x : K,
      ((∃ e, q.value (exact K) x = .val (.error e)) ↔ (x ≤ 0 ∨ 1 ≤ x ∨ windowOf window.toNat ops = [])) ∧
      (¬ (x ≤ 0 ∨ 1 ≤ x ∨ windowOf window.toNat ops = []) → ∃ v, q.value (exact K) x = .val (.ok v)) := by
  obtain ⟨-, -, -, -, ⟨m, hm⟩, -, -⟩ := new_ok hn
  obtain ⟨hl, hs, hz, he, hv, -⟩ := quantile_weak hn draws ops hm hrun
  have hok : ∀ x : K, ¬ (x ≤ 0 ∨ 1 ≤ x ∨ windowOf window.toNat ops = []) → ∃ v, q.value (exact K) x = .val (.ok v) := by
    intro x h
    push Not at h
    have hne : (statOf c draws).size q.statistic ≠ 0 := fun c => h.2.2 (hz.1 c)
    exact hv (exact K) x h.1 h.2.1 hne (exact_indexSound (by omega) h.1 h.2.1)
  refine ⟨hl, fun x => ⟨⟨fun ⟨e', h⟩ => ?_, fun h => he (exact K) (by simp [exact]) (by simp [exact]) x (by rwa [hz])⟩, hok x⟩⟩
  by_contra c
  obtain ⟨v, h2⟩ := hok x c
  rw [h] at h2; cases h2

/-- C15 for AVL, where no history panics: nothing is assumed of the stream. -/
theorem C15_quantile_errors_avl {window : Int} {opts : List (Opt K)} {c : Cfg K} (hn : new 0 1 window opts = .ok c) (hA : c.impl = AVL)
    (draws : Nat → Nat → Bool) (ops : List (MOp K)) :
    ∃ q, (ofCfg c draws).run ops = .val (q, []) ∧ ∀ x : K,
      ((∃ e, q.value (exact K) x = .val (.error e)) ↔ (x ≤ 0 ∨ 1 ≤ x ∨ windowOf window.toNat ops = [])) ∧
      (¬ (x ≤ 0 ∨ 1 ≤ x ∨ windowOf window.toNat ops = []) → ∃ v, q.value (exact K) x = .val (.ok v)) := by
  obtain ⟨-, -, -, -, ⟨m, hm⟩, -, -⟩ := new_ok hn
  obtain ⟨q, e, -⟩ := quantile_main hn draws ops (implOK_avl hA _ _) hm
  exact ⟨q, e, (C15_quantile_errors hn draws ops e).2⟩

/-- A red-black metric that has already lost a value (C14) still meets the hypothesis of C15; so does a skip list with duplicates. -/
example : (∃ c, new (0 : ℚ) 1 4 [.impl RedBlack []] = .ok c ∧ ∃ q, (ofCfg c (fun _ _ => true)).run ([0, 0, 0, 0, 1].map .push) = .val (q, [])) ∧
    ∃ c, new (0 : ℚ) 1 2 [.impl SkipList [.maxLevel 3]] = .ok c ∧
      ∃ q, (ofCfg c (fun _ _ => true)).run ([5, 5, 3, 5].map .push) = .val (q, []) :=
  ⟨⟨_, rfl, _, rfl⟩, _, rfl, _, rfl⟩

/-- C16, first half, every implementation, every history whose pushes return: a reported value lies between two values of the window. -/
theorem C16_quantile_bracket {window : Int} {opts : List (Opt K)} {c : Cfg K} (hn : new 0 1 window opts = .ok c)
    (draws : Nat → Nat → Bool) (ops : List (MOp K)) {q : Quantile (statOf c draws)} {log : List Err}
    (hrun : (ofCfg c draws).run ops = .val (q, log)) {x v : K} (hv : q.value (exact K) x = .val (.ok v)) :
    (∃ y ∈ windowOf window.toNat ops, y ≤ v) ∧ ∃ y ∈ windowOf window.toNat ops, v ≤ y := by
  obtain ⟨-, -, -, -, ⟨m, hm⟩, -, -⟩ := new_ok hn
  obtain ⟨-, -, -, -, -, h⟩ := quantile_weak hn draws ops hm hrun
  exact h x v hv

/-- C16, second half, for the tree implementations, every history whose pushes return: a larger `q` never gives a smaller value. -/
theorem C16_quantile_mono_trees {window : Int} {opts : List (Opt K)} {c : Cfg K} (hn : new 0 1 window opts = .ok c)
    (hc : c.impl ≠ SkipList) (draws : Nat → Nat → Bool) (ops : List (MOp K)) {q : Quantile (statOf c draws)} {log : List Err}
    (hrun : (ofCfg c draws).run ops = .val (q, log)) {x y v w : K} (hv : q.value (exact K) x = .val (.ok v))
    (hw : q.value (exact K) y = .val (.ok w)) (hxy : x ≤ y) : v ≤ w := by
  obtain ⟨-, -, -, -, ⟨m, hm⟩, -, -⟩ := new_ok hn
  obtain ⟨T, -, h⟩ := quantile_trees hn hc draws ops hm hrun
  exact (h x v hv).mono (h y w hw) hxy

/-- C16, second half, refuted for the skip list: after pushing 2, 2, 2, 1 (with towers of heights 3, 2, 2, 3) the value at 2/3 is smaller
than the value at 1/3. -/
theorem C16_skip_mono_refuted : ∃ draws : Nat → Nat → Bool, ∃ c, new (0 : ℚ) 1 0 [.impl SkipList [.maxLevel 3]] = .ok c ∧
    ∃ q, (ofCfg c draws).run ([2, 2, 2, 1].map .push) = .val (q, []) ∧
      q.value (exact ℚ) (1 / 3) = .val (.ok 2) ∧ q.value (exact ℚ) (2 / 3) = .val (.ok 1) :=
  ⟨fun n i => decide (i < ([2, 1, 1, 2] : List Nat).getD n 1), _, rfl, _, rfl, by decide +kernel, by decide +kernel⟩

/-- C16, second half, for the skip list when windows have distinct values. Missing: other streams, where it fails. -/
theorem C16_skip_mono_partial {window : Int} {opts : List (Opt K)} {c : Cfg K} (hn : new 0 1 window opts = .ok c)
    (hc : c.impl = SkipList) (draws : Nat → Nat → Bool) (ops : List (MOp K)) (hS : PushesFresh window.toNat ops) :
    ∃ q, (ofCfg c draws).run ops = .val (q, []) ∧
      ∀ x y v w, q.value (exact K) x = .val (.ok v) → q.value (exact K) y = .val (.ok w) → x ≤ y → v ≤ w := by
  obtain ⟨-, -, -, -, ⟨m, hm⟩, -, -⟩ := new_ok hn
  obtain ⟨q, e, -, he, hv, -⟩ := quantile_main hn draws ops ⟨fun h => by rw [hc] at h; exact absurd h (by decide), fun _ => hS⟩ hm
  have key : ∀ x v, q.value (exact K) x = .val (.ok v) → IsQuantile m (windowOf window.toNat ops : List K) x v := by
    intro x v h
    by_cases hc : x ≤ 0 ∨ 1 ≤ x ∨ windowOf window.toNat ops = []
    · obtain ⟨e', h'⟩ := he (exact K) (by simp [exact]) (by simp [exact]) x hc
      rw [h] at h'; cases h'
    · push Not at hc
      obtain ⟨v', h1, h2⟩ := hv x hc.1 hc.2.1 hc.2.2
      rw [h] at h1; cases h1; exact h2
  exact ⟨q, e, fun x y v w h1 h2 hxy => (key x v h1).mono (key y w h2) hxy⟩

/-- C17, every implementation, every history whose pushes return. Replace the product `q * (n-1)` by any monotone rounding that fixes
integers, and the sums, differences and quotients of the interpolation by anything at all: `Value` still only selects existing ranks,
so it returns a value. -/
theorem C17_quantile_rounding {window : Int} {opts : List (Opt K)} {c : Cfg K} (hn : new 0 1 window opts = .ok c)
    (draws : Nat → Nat → Bool) (ops : List (MOp K)) {q : Quantile (statOf c draws)} {log : List Err}
    (hrun : (ofCfg c draws).run ops = .val (q, log))
    (rnd : K → K) (hmono : ∀ a b, a ≤ b → rnd a ≤ rnd b) (hint : ∀ k : Int, rnd k = k)
    (add sub div : K → K → K) {x : K} (h0 : 0 < x) (h1 : x < 1) (hne : windowOf window.toNat ops ≠ []) :
    ∃ v, q.value (⟨fun k => (k : K), add, sub, fun a b => rnd (a * b), div, (exact K).trunc, (exact K).toInt⟩ : FOps K) x
      = .val (.ok v) := by
  obtain ⟨-, -, -, -, ⟨m, hm⟩, -, -⟩ := new_ok hn
  obtain ⟨-, hs, hz, -, hv, -⟩ := quantile_weak hn draws ops hm hrun
  have hne' : (statOf c draws).size q.statistic ≠ 0 := fun c => hne (hz.1 c)
  refine hv _ x h0 h1 hne' ?_
  obtain ⟨n, hnn⟩ : ∃ n : Nat, ((statOf c draws).size q.statistic).toNat = n := ⟨_, rfl⟩
  rw [hnn]
  have hn' : (0 : K) ≤ ((n - 1 : Int) : K) := by
    have : (0 : Int) ≤ n - 1 := by omega
    exact_mod_cast this
  have hnn : 0 ≤ rnd (x * ((n - 1 : Int) : K)) := by
    have := hmono ((0 : Int) : K) (x * ((n - 1 : Int) : K)) (by push_cast at hn' ⊢; positivity)
    rwa [hint, Int.cast_zero] at this
  refine ⟨by simp, by simp, hnn, ?_, ?_, fun k => by simp [exact]⟩
  · have := hmono (x * ((n - 1 : Int) : K)) ((n - 1 : Int) : K) (by nlinarith)
    rw [hint] at this
    push_cast at this ⊢; exact this
  · simp only [exact]
    exact if_pos hnn

/-- A non-trivial rounding meeting the hypotheses of C17: to the nearest half, upwards. -/
example : (∀ a b : ℚ, a ≤ b → (fun x => (⌈2 * x⌉ : ℚ) / 2) a ≤ (fun x => (⌈2 * x⌉ : ℚ) / 2) b) ∧
    (∀ k : Int, (fun x => (⌈2 * x⌉ : ℚ) / 2) (k : ℚ) = k) := by
  constructor
  · intro a b h
    have : ⌈2 * a⌉ ≤ ⌈2 * b⌉ := Int.ceil_le_ceil (by linarith)
    have : ((⌈2 * a⌉ : Int) : ℚ) ≤ ⌈2 * b⌉ := by exact_mod_cast this
    simp only; linarith
  · intro k
    have : (2 * (k : ℚ)) = ((2 * k : Int) : ℚ) := by push_cast; ring
    simp only [this, Int.ceil_intCast]; push_cast; ring

theorem midpoint_of_newMedian {window : Int} {opts : List (Opt K)} {c : Cfg K} (hn : newMedian 0 1 window opts = .ok c) :
    c.interpolation = code .midpoint := by
  obtain ⟨-, -, -, -, -, -, h⟩ := new_ok hn
  rw [h]; simp [List.filterMap_append, Opt.interp?, code]

theorem median_iqr {window : Int} {opts : List (Opt K)} {c : Cfg K} (hn : newMedian 0 1 window opts = .ok c)
    (draws : Nat → Nat → Bool) (ops : List (MOp K))
    (hok : ImplOK c window.toNat ops)
    (hne : windowOf window.toNat ops ≠ []) :
    ∃ q, (ofCfg c draws).run ops = .val (q, []) ∧
      (∃ v, q.medianValue (exact K) = .val (.ok v) ∧ IsMedian (windowOf window.toNat ops : List K) v) ∧
      ∃ a b, q.iqrValue (exact K) = .val (.ok (b - a)) ∧ 0 ≤ b - a ∧
        IsQuantile .midpoint (windowOf window.toNat ops : List K) (1 / 4) a ∧
        IsQuantile .midpoint (windowOf window.toNat ops : List K) (3 / 4) b := by
  obtain ⟨q, e, -, he, hv, -⟩ := quantile_main hn draws ops hok (midpoint_of_newMedian hn)
  obtain ⟨v, e1, h1⟩ := hv (1 / 2) (by norm_num) (by norm_num) hne
  obtain ⟨a, e2, h2⟩ := hv (1 / 4) (by norm_num) (by norm_num) hne
  obtain ⟨b, e3, h3⟩ := hv (3 / 4) (by norm_num) (by norm_num) hne
  refine ⟨q, e, ⟨v, ?_, h1.median⟩, a, b, ?_, ?_, h2, h3⟩
  · simpa [Quantile.medianValue, exact] using e1
  · have e2' : q.value (exact K) ((exact K).div ((exact K).ofInt 1) ((exact K).ofInt 4)) = .val (.ok a) := by
      simpa [exact] using e2
    have e3' : q.value (exact K) ((exact K).div ((exact K).ofInt 3) ((exact K).ofInt 4)) = .val (.ok b) := by
      simpa [exact] using e3
    simp only [Quantile.iqrValue, e2', e3', Go.val_bind]; rfl
  · have := h2.mono h3 (by norm_num); linarith

/-- C18 for AVL, in full. Whatever options the caller passes (an interpolation among them is overridden): `Median.Value` is the
textbook median of the window, and `IQR.Value` is the difference of the midpoint quantiles at 3/4 and 1/4, never negative. -/
theorem C18_median_iqr_avl {window : Int} {opts : List (Opt K)} {c : Cfg K} (hn : newMedian 0 1 window opts = .ok c) (hA : c.impl = AVL)
    (draws : Nat → Nat → Bool) (ops : List (MOp K)) (hne : windowOf window.toNat ops ≠ []) :
    ∃ q, (ofCfg c draws).run ops = .val (q, []) ∧
      (∃ v, q.medianValue (exact K) = .val (.ok v) ∧ IsMedian (windowOf window.toNat ops : List K) v) ∧
      ∃ a b, q.iqrValue (exact K) = .val (.ok (b - a)) ∧ 0 ≤ b - a ∧
        IsQuantile .midpoint (windowOf window.toNat ops : List K) (1 / 4) a ∧
        IsQuantile .midpoint (windowOf window.toNat ops : List K) (3 / 4) b :=
  median_iqr hn draws ops (implOK_avl hA _ _) hne

/-- C18 for the other implementations, under the conditions of C14. Missing: the remaining streams. -/
theorem C18_median_iqr_impl_partial {window : Int} {opts : List (Opt K)} {c : Cfg K} (hn : newMedian 0 1 window opts = .ok c)
    (draws : Nat → Nat → Bool) (ops : List (MOp K))
    (hR : c.impl = RedBlack → EvictsUnique window.toNat ops) (hS : c.impl = SkipList → PushesFresh window.toNat ops)
    (hne : windowOf window.toNat ops ≠ []) :
    ∃ q, (ofCfg c draws).run ops = .val (q, []) ∧
      (∃ v, q.medianValue (exact K) = .val (.ok v) ∧ IsMedian (windowOf window.toNat ops : List K) v) ∧
      ∃ a b, q.iqrValue (exact K) = .val (.ok (b - a)) ∧ 0 ≤ b - a ∧
        IsQuantile .midpoint (windowOf window.toNat ops : List K) (1 / 4) a ∧
        IsQuantile .midpoint (windowOf window.toNat ops : List K) (3 / 4) b :=
  median_iqr hn draws ops ⟨hR, hS⟩ hne

/-- C18, refuted for the other implementations: the median of the skip list holding 2, 2, 2, 1 can be 3/2 instead of 2, and the
red-black median with window 4 of the stream 1, 1, 1, 0, 0 is 0 although the window is 1, 1, 0, 0. -/
theorem C18_median_refuted : (∃ draws : Nat → Nat → Bool, ∃ c, newMedian (0 : ℚ) 1 0 [.impl SkipList [.maxLevel 3]] = .ok c ∧
      ∃ q, (ofCfg c draws).run ([2, 2, 2, 1].map .push) = .val (q, []) ∧ q.medianValue (exact ℚ) = .val (.ok (3 / 2))) ∧
    ∃ c, newMedian (0 : ℚ) 1 4 [.impl RedBlack []] = .ok c ∧
      ∃ q, (ofCfg c (fun _ _ => true)).run ([1, 1, 1, 0, 0].map .push) = .val (q, []) ∧
        q.medianValue (exact ℚ) = .val (.ok 0) ∧
        windowOf 4 ([1, 1, 1, 0, 0].map MOp.push) = ([1, 1, 0, 0] : List ℚ) :=
  ⟨⟨fun n i => decide (i < ([2, 1, 1, 2] : List Nat).getD n 1), _, rfl, _, rfl, by decide +kernel⟩, _, rfl, _, rfl,
    by decide +kernel, by decide +kernel⟩

example : ∃ c, newMedian (0 : ℚ) 1 4 [.interpolation Lower] = .ok c ∧
    ∃ q, (ofCfg c (fun _ _ => false)).run ([7, 1, 5, 2, 2].map .push) = .val (q, []) ∧
      q.medianValue (exact ℚ) = .val (.ok 2) ∧ q.iqrValue (exact ℚ) = .val (.ok 2) :=
  ⟨_, rfl, _, rfl, by decide +kernel, by decide +kernel⟩

/-- Exact arithmetic with a NaN; `int(NaN)` is the given integer (Go leaves it implementation-specific; amd64 gives -2^63). -/
def nanOps (K : Type) [Field K] [LinearOrder K] [FloorRing K] (intNaN : Int) : FOps (WithNaN K) where
  ofInt n := .num n
  add | .num a, .num b => .num (a + b) | _, _ => .nan
  sub | .num a, .num b => .num (a - b) | _, _ => .nan
  mul | .num a, .num b => .num (a * b) | _, _ => .nan
  div | .num a, .num b => .num (a / b) | _, _ => .nan
  trunc | .num a => .num ((exact K).trunc a) | .nan => .nan
  toInt | .num a => (exact K).toInt a | .nan => intNaN

/-- `Value(NaN)` in a state that holds a value: all comparisons fail. -/
theorem nan_value {st : Statistic (WithNaN K)} (q : Quantile st) (k : Int) (hs : st.size q.statistic ≠ 0) :
    q.value (nanOps K k) .nan =
      if q.interpolation = Linear then q.sel k >>= fun lo => q.sel (k + 1) >>= fun _ => (fun _ => pure (.ok .nan)) lo
      else if q.interpolation = Lower then q.sel k >>= fun v => pure (.ok v)
      else if q.interpolation = Higher then q.sel (k + 1) >>= fun v => pure (.ok v)
      else if q.interpolation = Nearest then q.sel (k + 1) >>= fun v => pure (.ok v)
      else q.sel k >>= fun lo => q.sel (k + 1) >>= fun hi => pure (.ok ((nanOps K k).div ((nanOps K k).add lo hi) ((nanOps K k).ofInt 2))) := by
  simp [Quantile.value, hs, nanOps, GoOrd.le, GoOrd.eq, GoOrd.lt]

/-- C19, refuted. (1) In every state that holds a value, for any container, `Value(NaN)` returns no error, whatever `int(NaN)` is.
(2) For the default implementation it panics in every such state reached by any history (NaN may be pushed too), if `int(NaN)` is an
integer whose successor is still negative, such as the -2^63 of amd64. -/
theorem C19_quantile_nan_refuted :
    (∀ (st : Statistic (WithNaN K)) (q : Quantile st) (k : Int), st.size q.statistic ≠ 0 →
      ∀ e, q.value (nanOps K k) .nan ≠ .val (.error e)) ∧
    ∀ (w i k : Int) (ops : List (MOp (WithNaN K))) (q : Quantile (avlStat (WithNaN K))) (log : List Err),
      (Quantile.fresh (avlStat (WithNaN K)) w i).run ops = .val (q, log) → (avlStat (WithNaN K)).size q.statistic ≠ 0 → k + 1 < 0 →
      q.value (nanOps K k) .nan = .panic := by
  constructor
  · intro st q k hs e
    rw [nan_value q k hs]
    have hbind : ∀ (g : Go (WithNaN K)) (f : WithNaN K → WithNaN K), (g >>= fun v => pure (.ok (f v)) : Go (Except Err (WithNaN K))) ≠
        .val (.error e) := by
      intro g f h
      rw [Go.bind_eq_val] at h
      obtain ⟨a, -, h⟩ := h
      cases h
    split_ifs
    · intro h
      rw [Go.bind_eq_val] at h
      obtain ⟨a, -, h⟩ := h
      exact hbind _ _ h
    · exact hbind _ id
    · exact hbind _ id
    · exact hbind _ id
    · intro h
      rw [Go.bind_eq_val] at h
      obtain ⟨a, -, h⟩ := h
      exact hbind _ _ h
  · intro w i k ops q log hrun hs hk
    have hwf : Avl.Node.WF q.statistic.root := run_statInv (st := avlStat (WithNaN K)) (P := fun t => Avl.Node.WF t.root) trivial
      (fun s x s' h e => by
        obtain ⟨r, e1, w', -⟩ := Avl.Node.add_wf x h
        have : Avl.Tree.add s x = .val ⟨r⟩ := by simp [Avl.Tree.add, e1]
        have e2 : Avl.Tree.add s x = .val s' := e
        rw [this] at e2; cases e2; exact w')
      (fun s x s' h e => by
        obtain ⟨r, e1, w', -⟩ := Avl.Node.remove_wf x h
        have : Avl.Tree.remove s x = .val ⟨r⟩ := by simp [Avl.Tree.remove, e1]
        have e2 : Avl.Tree.remove s x = .val s' := e
        rw [this] at e2; cases e2; exact w')
      (fun s _ => trivial) ops hrun
    have h1 : q.sel k = .panic := by
      have : (avlStat (WithNaN K)).select q.statistic k = .val none :=
        congrArg Go.val (Avl.Node.select_out hwf k (Or.inl (by omega)))
      simp only [Quantile.sel, this]
    have h2 : q.sel (k + 1) = .panic := by
      have : (avlStat (WithNaN K)).select q.statistic (k + 1) = .val none :=
        congrArg Go.val (Avl.Node.select_out hwf (k + 1) (Or.inl (by omega)))
      simp only [Quantile.sel, this]
    rw [nan_value q k hs, h1, h2]
    split_ifs <;> rfl

example : ∃ q, (Quantile.fresh (avlStat (WithNaN ℚ)) 2 Linear).run ([.num 3, .nan, .num 1].map .push) = .val (q, []) ∧
    (avlStat (WithNaN ℚ)).size q.statistic ≠ 0 ∧ q.value (nanOps ℚ (-2^63)) .nan = .panic := by
  refine ⟨_, rfl, by decide +kernel, by decide +kernel⟩

/-- C20. `New` succeeds exactly when the window is not negative and every option is valid; then the last `ImplOption` and the last
`InterpolationOption` win, AVL and Linear being the defaults. -/
theorem C20_quantile_options (window : Int) (opts : List (Opt K)) :
    ((∃ c, new 0 1 window opts = .ok c) ↔ 0 ≤ window ∧ ∀ o ∈ opts, o.Ok 0 1) ∧
    (∀ e, new 0 1 window opts = .error e → ¬ (0 ≤ window ∧ ∀ o ∈ opts, o.Ok 0 1)) ∧
    ∀ c, new 0 1 window opts = .ok c → c.window = window ∧
      (∀ pre i os post, opts = pre ++ .impl i os :: post → (∀ j os', .impl j os' ∉ post) → c.impl = i) ∧
      ((∀ j os', .impl j os' ∉ opts) → c.impl = AVL) ∧
      (∀ pre i post, opts = pre ++ .interpolation i :: post → (∀ j, .interpolation j ∉ post) → c.interpolation = i) ∧
      ((∀ j, .interpolation j ∉ opts) → c.interpolation = Linear) := by
  obtain ⟨h1, h2⟩ := new_spec (0 : K) 1 window opts
  refine ⟨⟨fun ⟨c, hc⟩ => ?_, fun h => ?_⟩, fun e he h => ?_, fun c hc => ?_⟩
  · by_contra h
    obtain ⟨e, he⟩ := h2 h
    rw [hc] at he; cases he
  · obtain ⟨c, hc, -⟩ := h1 h
    exact ⟨c, hc⟩
  · obtain ⟨c, hc, -⟩ := h1 h
    rw [he] at hc; cases hc
  · obtain ⟨-, hw, -, -, -, hi, hp⟩ := new_ok hc
    have noimpl : ∀ l : List (Opt K), (∀ j os', .impl j os' ∉ l) → l.filterMap Opt.impl? = [] := by
      intro l hl
      rw [List.filterMap_eq_nil_iff]
      intro o ho
      cases o with
      | impl j os' => exact absurd ho (hl j os')
      | interpolation j => rfl
    have nointerp : ∀ l : List (Opt K), (∀ j, .interpolation j ∉ l) → l.filterMap Opt.interp? = [] := by
      intro l hl
      rw [List.filterMap_eq_nil_iff]
      intro o ho
      cases o with
      | impl j os' => rfl
      | interpolation j => exact absurd ho (hl j)
    refine ⟨hw, ?_, fun h => by rw [hi, noimpl _ h]; rfl, ?_, fun h => by rw [hp, nointerp _ h]; rfl⟩
    · rintro pre i os post rfl hpost
      rw [hi, List.filterMap_append, List.filterMap_cons, noimpl _ hpost]; simp [Opt.impl?]
    · rintro pre i post rfl hpost
      rw [hp, List.filterMap_append, List.filterMap_cons, nointerp _ hpost]; simp [Opt.interp?]

example : (∃ c, new (0 : ℚ) 1 3 [.impl SkipList [.probability (1/2)], .interpolation Lower, .impl RedBlack []] = .ok c ∧
      c.impl = RedBlack ∧ c.interpolation = Lower) ∧
    (∃ e, new (0 : ℚ) 1 3 [.impl SkipList [.probability 1]] = .error e) ∧ ∃ e, new (0 : ℚ) 1 (-1) [] = .error e :=
  ⟨⟨⟨3, RedBlack, ⟨12, some (1/2)⟩, Lower⟩, by
      norm_num [new, applyOpts, applyOpt, skipNew, implValid, interpValid, AVL, RedBlack, SkipList, Linear, Lower], rfl, rfl⟩, ⟨_, rfl⟩, _, rfl⟩

end Verif.Props
