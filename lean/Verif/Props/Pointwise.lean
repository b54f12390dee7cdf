import Verif.Proofs.Forget
import Verif.Proofs.Inequalities
import Verif.Proofs.JointMetric
import Verif.Props.HeapMedian
import Verif.Props.MinMax
import Verif.Props.Moment
import Verif.Props.Quantile
import Verif.Props.QuantileFP
import Verif.Props.Share

/-! # C108: larger data give larger results, close data give close results

Two metrics of the same kind are fed two streams by the same sequence of calls; one stream is, value by value, at most the other one plus `ε`.
`SameCalls R ops ops'` says that the calls correspond and that values pushed by corresponding calls are related by `R`. -/

set_option linter.unusedSectionVars false

namespace Verif.Spec

/-- Two calls of the same kind, with related values. -/
inductive CallRel {F G : Type} (R : F → G → Prop) : MOp F → MOp G → Prop
  | push {x : F} {y : G} : R x y → CallRel R (.push x) (.push y)
  | clear : CallRel R .clear .clear

/-- Two histories of the same calls, with related values. -/
def SameCalls {F G : Type} (R : F → G → Prop) (ops : List (MOp F)) (ops' : List (MOp G)) : Prop := List.Forall₂ (CallRel R) ops ops'

end Verif.Spec

namespace Verif.Props
open Verif Verif.Spec Verif.MinMax

theorem SameCalls.acc {F G : Type} {R : F → G → Prop} {ops : List (MOp F)} {ops' : List (MOp G)} (h : SameCalls R ops ops') {a : List F} {b : List G}
    (hab : List.Forall₂ R a b) : List.Forall₂ R (ops.foldl (fun acc o => match o with | .push x => acc ++ [x] | .clear => []) a)
      (ops'.foldl (fun acc o => match o with | .push x => acc ++ [x] | .clear => []) b) := by
  unfold SameCalls at h
  induction h generalizing a b with
  | nil => exact hab
  | cons h _ ih =>
    cases h with
    | push h => exact ih (List.rel_append hab (List.Forall₂.cons h .nil))
    | clear => exact ih .nil

theorem SameCalls.since {F G : Type} {R : F → G → Prop} {ops : List (MOp F)} {ops' : List (MOp G)} (h : SameCalls R ops ops') :
    List.Forall₂ R (Spec.since ops) (Spec.since ops') := SameCalls.acc h .nil

theorem SameCalls.window {F G : Type} {R : F → G → Prop} {ops : List (MOp F)} {ops' : List (MOp G)} (h : SameCalls R ops ops') (w : Nat) :
    List.Forall₂ R (windowOf w ops) (windowOf w ops') := by
  have := SameCalls.since h
  unfold windowOf lastN
  split_ifs
  · exact this
  · rw [this.length_eq]
    exact List.forall₂_drop _ this

theorem rel_nil {F G : Type} {R : F → G → Prop} {xs : List F} {ys : List G} (h : List.Forall₂ R xs ys) : xs = [] ↔ ys = [] := by
  cases h <;> simp

theorem rel_mem {F G : Type} {R : F → G → Prop} {xs : List F} {ys : List G} (h : List.Forall₂ R xs ys) : (∀ x ∈ xs, ∃ y ∈ ys, R x y) ∧ ∀ y ∈ ys, ∃ x ∈ xs, R x y := by
  induction h with
  | nil => simp
  | @cons a b l l' h _ ih =>
    constructor
    · intro x hx
      rcases List.mem_cons.1 hx with rfl | hx
      · exact ⟨b, List.mem_cons_self, h⟩
      · obtain ⟨y, hy, e⟩ := ih.1 x hx
        exact ⟨y, List.mem_cons_of_mem _ hy, e⟩
    · intro y hy
      rcases List.mem_cons.1 hy with rfl | hy
      · exact ⟨a, List.mem_cons_self, h⟩
      · obtain ⟨x, hx, e⟩ := ih.2 y hy
        exact ⟨x, List.mem_cons_of_mem _ hx, e⟩

/-- C108, `Max`, every window and history: if each value of the second stream is at most `φ` of the one of the first, so is the maximum. With the
identity this is monotonicity; with `φ x = x + ε`, in both directions, closeness. -/
theorem C108_max {F : Type} [LinearOrder F] [BoundedOrder F] {φ : F → F} (hφ : Monotone φ) {window : Int} {s0 : Max.St F}
    (hn : Max.new (Ext.ofOrder F) window = .ok s0) {ops ops' : List (MOp F)} (h : SameCalls (fun x y => y ≤ φ x) ops ops') (hne : since ops ≠ []) :
    ∃ s s' v v', Max.run (Ext.ofOrder F) s0 ops = .val (s, []) ∧ Max.run (Ext.ofOrder F) s0 ops' = .val (s', []) ∧
      Max.value s = .val (.ok v) ∧ Max.value s' = .val (.ok v') ∧ v' ≤ φ v := by
  obtain ⟨s, e, -, h2⟩ := C25_max hn ops
  obtain ⟨s', e', -, h2'⟩ := C25_max hn ops'
  obtain ⟨v, hv, -, hm⟩ := h2 hne
  obtain ⟨v', hv', hm', -⟩ := h2' (fun c => hne ((rel_nil (SameCalls.since h)).2 c))
  obtain ⟨x, hx, hr⟩ := (rel_mem (SameCalls.window h _)).2 v' hm'
  exact ⟨s, s', v, v', e, e', hv, hv', hr.trans (hφ (hm x hx))⟩

/-- C108, `Min`. -/
theorem C108_min {F : Type} [LinearOrder F] [BoundedOrder F] {φ : F → F} {window : Int} {s0 : Min.St F}
    (hn : Min.new (Ext.ofOrder F) window = .ok s0) {ops ops' : List (MOp F)} (h : SameCalls (fun x y => y ≤ φ x) ops ops') (hne : since ops ≠ []) :
    ∃ s s' v v', Min.run (Ext.ofOrder F) s0 ops = .val (s, []) ∧ Min.run (Ext.ofOrder F) s0 ops' = .val (s', []) ∧
      Min.value s = .val (.ok v) ∧ Min.value s' = .val (.ok v') ∧ v' ≤ φ v := by
  obtain ⟨s, e, -, h2⟩ := C26_min hn ops
  obtain ⟨s', e', -, h2'⟩ := C26_min hn ops'
  obtain ⟨v, hv, hm, -⟩ := h2 hne
  obtain ⟨v', hv', -, hm'⟩ := h2' (fun c => hne ((rel_nil (SameCalls.since h)).2 c))
  obtain ⟨y, hy, hr⟩ := (rel_mem (SameCalls.window h _)).1 v hm
  exact ⟨s, s', v, v', e, e', hv, hv', (hm' y hy).trans hr⟩

/-- The histories 5, Clear, 3, 7, 2, 6 and 1, Clear, 4, 6, 2, 5 differ by one at most after the Clear, which does not matter before it. -/
example : ∃ s0 s1, Max.new (Ext.ofOrder (Fin 10)) 3 = .ok s0 ∧ Min.new (Ext.ofOrder (Fin 10)) 3 = .ok s1 ∧
    SameCalls (fun x y => y ≤ if x = 9 then 9 else x + 1) [MOp.push (5 : Fin 10), .clear, .push 3, .push 7, .push 2, .push 6]
      [.push 1, .clear, .push 4, .push 6, .push 2, .push 5] ∧
    since [MOp.push (5 : Fin 10), .clear, .push 3, .push 7, .push 2, .push 6] ≠ [] :=
  ⟨_, _, rfl, rfl, .cons (.push (by decide)) (.cons .clear (.cons (.push (by decide)) (.cons (.push (by decide)) (.cons (.push (by decide))
    (.cons (.push (by decide)) .nil))))), by decide⟩

section exact
variable {K : Type} [Field K] [LinearOrder K] [IsStrictOrderedRing K] [FloorRing K] {ε : K}

theorem rel_filter {φ : K → K} (hφ : Monotone φ) {xs ys : List K} (h : List.Forall₂ (fun x y => y ≤ φ x) xs ys) (v : K) :
    (xs.filter (· ≤ v)).length ≤ (ys.filter (· ≤ φ v)).length := by
  induction h with
  | nil => simp
  | @cons a b l l' h _ ih =>
    by_cases c : a ≤ v
    · have : b ≤ φ v := h.trans (hφ c)
      simpa [c, this] using ih
    · rw [List.filter_cons_of_neg (by simpa using c)]
      refine ih.trans ?_
      by_cases c' : b ≤ φ v
      · simp [c']
      · simp [c']

theorem kth_rel {φ : K → K} (hφ : Monotone φ) {xs ys : List K} (h : List.Forall₂ (fun x y => y ≤ φ x) xs ys) {i : Nat} {v w : K}
    (hv : IsKth (xs : Multiset K) i v) (hw : IsKth (ys : Multiset K) i w) : w ≤ φ v := by
  by_contra c
  have c := not_le.1 c
  have h1 := hv.2.2
  have h2 := hw.2.1
  have h3 := rel_filter hφ h v
  have h4 : (ys.filter (· ≤ φ v)).length ≤ (ys.filter (· < w)).length := by
    have := Multiset.card_le_card (Multiset.monotone_filter_right (ys : Multiset K) (p := (· ≤ φ v)) (q := (· < w)) fun a ha => lt_of_le_of_lt ha c)
    simpa using this
  simp only [Multiset.filter_coe, Multiset.coe_card] at h1 h2
  omega

theorem add_mono (ε : K) : Monotone (fun x : K => x + ε) := fun _ _ h => by linarith

theorem interpolate_rel {m : Method} {i : Nat} {a b a' b' d : K} (h0 : 0 ≤ d) (h1 : d ≤ 1) (ha : a' ≤ a + ε) (hb : b' ≤ b + ε) :
    interpolate m i a' b' d ≤ interpolate m i a b d + ε := by
  cases m with
  | linear =>
    have e1 := mul_le_mul_of_nonneg_left ha (sub_nonneg.2 h1)
    have e2 := mul_le_mul_of_nonneg_left hb h0
    simp only [interpolate]
    linarith
  | lower => exact ha
  | higher => exact hb
  | nearest => simp only [interpolate]; split_ifs <;> assumption
  | midpoint => simp only [interpolate]; linarith

theorem nat_unique {x : K} {i j : Nat} (h1 : (i : K) < x) (h2 : x < i + 1) (h3 : (j : K) ≤ x) (h4 : x < j + 1) : i = j := by
  have a : (i : K) < j + 1 := by linarith
  have b : (j : K) < i + 1 := by linarith
  have a : i < j + 1 := by exact_mod_cast a
  have b : j < i + 1 := by exact_mod_cast b
  omega

theorem quantile_rel {m : Method} {xs ys : List K} (h : List.Forall₂ (fun x y => y ≤ x + ε) xs ys) {x v w : K}
    (hv : IsQuantile m (xs : Multiset K) x v) (hw : IsQuantile m (ys : Multiset K) x w) : w ≤ v + ε := by
  have hl := h.length_eq
  unfold IsQuantile at hv hw
  rw [Multiset.coe_card] at hv hw
  rw [← hl] at hw
  rcases hv with ⟨i, e1, k1⟩ | ⟨i, a, b, l1, l2, k1, k2, rfl⟩
  · rcases hw with ⟨j, e2, k2⟩ | ⟨j, a', b', l1, l2, -⟩
    · rw [e1] at e2
      have := Nat.cast_injective e2
      subst this
      exact kth_rel (add_mono ε) h k1 k2
    · have := nat_unique l1 l2 (by rw [e1] : (i : K) ≤ _) (by rw [e1]; linarith)
      subst this
      rw [e1] at l1
      exact absurd l1 (lt_irrefl _)
  · rcases hw with ⟨j, e2, -⟩ | ⟨j, a', b', l1', l2', k1', k2', rfl⟩
    · have := nat_unique l1 l2 (by rw [e2] : (j : K) ≤ _) (by rw [e2]; linarith)
      subst this
      rw [e2] at l1
      exact absurd l1 (lt_irrefl _)
    · have := nat_unique l1 l2 l1'.le l2'
      subst this
      exact interpolate_rel (by linarith) (by linarith) (kth_rel (add_mono ε) h k1 k1') (kth_rel (add_mono ε) h k2 k2')

theorem median_rel {xs ys : List K} (h : List.Forall₂ (fun x y => y ≤ x + ε) xs ys) {v w : K} (hv : IsMedian (xs : Multiset K) v)
    (hw : IsMedian (ys : Multiset K) w) : w ≤ v + ε := by
  have hl := h.length_eq
  rcases hv with ⟨i, e1, k1⟩ | ⟨i, a, b, e1, k1, k2, rfl⟩ <;> rcases hw with ⟨j, e2, k1'⟩ | ⟨j, a', b', e2, k1', k2', rfl⟩ <;>
    rw [Multiset.coe_card] at e1 e2
  · obtain rfl : i = j := by omega
    exact kth_rel (add_mono ε) h k1 k1'
  · omega
  · omega
  · obtain rfl : i = j := by omega
    have h1 := kth_rel (add_mono ε) h k1 k1'
    have h2 := kth_rel (add_mono ε) h k2 k2'
    linarith

open Verif.Quant in
/-- C108, `Quantile` with the default container, every window, method and history, exact arithmetic: if each value of the second stream is at most
`ε` above that of the first, so is every quantile. -/
theorem C108_quantile_avl {window : Int} {opts : List (Opt K)} {c : Cfg K} (hn : new 0 1 window opts = .ok c) (hA : c.impl = AVL)
    (draws : Nat → Nat → Bool) {ops ops' : List (MOp K)} (h : SameCalls (fun x y => y ≤ x + ε) ops ops') {p : K} (h0 : 0 < p) (h1 : p < 1)
    (hne : windowOf window.toNat ops ≠ []) :
    ∃ q q' v v', (ofCfg c draws).run ops = .val (q, []) ∧ (ofCfg c draws).run ops' = .val (q', []) ∧
      q.value (Quant.exact K) p = .val (.ok v) ∧ q'.value (Quant.exact K) p = .val (.ok v') ∧ v' ≤ v + ε := by
  obtain ⟨-, -, -, -, ⟨m, hm⟩, -, -⟩ := new_ok hn
  obtain ⟨q, v, e, ev, hv⟩ := C14_quantile_avl hn hA hm draws ops h0 h1 hne
  obtain ⟨q', v', e', ev', hv'⟩ := C14_quantile_avl hn hA hm draws ops' h0 h1 (fun k => hne ((rel_nil (SameCalls.window h _)).2 k))
  exact ⟨q, q', v, v', e, e', ev, ev', quantile_rel (SameCalls.window h _) hv hv'⟩

open Verif.Quant in
/-- C108, `Quantile` with the other containers, on histories that they handle correctly. Missing: the others, where they are wrong (C14). -/
theorem C108_quantile_impl_partial {window : Int} {opts : List (Opt K)} {c : Cfg K} (hn : new 0 1 window opts = .ok c)
    (draws : Nat → Nat → Bool) {ops ops' : List (MOp K)} (h : SameCalls (fun x y => y ≤ x + ε) ops ops')
    (hR : c.impl = RedBlack → EvictsUnique window.toNat ops ∧ EvictsUnique window.toNat ops')
    (hS : c.impl = SkipList → PushesFresh window.toNat ops ∧ PushesFresh window.toNat ops') {p : K} (h0 : 0 < p) (h1 : p < 1)
    (hne : windowOf window.toNat ops ≠ []) :
    ∃ q q' v v', (ofCfg c draws).run ops = .val (q, []) ∧ (ofCfg c draws).run ops' = .val (q', []) ∧
      q.value (Quant.exact K) p = .val (.ok v) ∧ q'.value (Quant.exact K) p = .val (.ok v') ∧ v' ≤ v + ε := by
  obtain ⟨-, -, -, -, ⟨m, hm⟩, -, -⟩ := new_ok hn
  obtain ⟨q, v, e, ev, hv⟩ := C14_quantile_impl_partial hn hm draws ops (fun k => (hR k).1) (fun k => (hS k).1) h0 h1 hne
  obtain ⟨q', v', e', ev', hv'⟩ := C14_quantile_impl_partial hn hm draws ops' (fun k => (hR k).2) (fun k => (hS k).2) h0 h1
    (fun k => hne ((rel_nil (SameCalls.window h _)).2 k))
  exact ⟨q, q', v, v', e, e', ev, ev', quantile_rel (SameCalls.window h _) hv hv'⟩

open Verif.Quant in
/-- C108, `IQR` with the default container: if the streams differ by at most `ε`, the interquartile ranges differ by at most `2 * ε`. -/
theorem C108_iqr_avl {window : Int} {opts : List (Opt K)} {c : Cfg K} (hn : newMedian 0 1 window opts = .ok c) (hA : c.impl = AVL)
    (draws : Nat → Nat → Bool) {ops ops' : List (MOp K)} (h : SameCalls (fun x y => |y - x| ≤ ε) ops ops') (hne : windowOf window.toNat ops ≠ []) :
    ∃ q q' v v', (ofCfg c draws).run ops = .val (q, []) ∧ (ofCfg c draws).run ops' = .val (q', []) ∧
      q.iqrValue (Quant.exact K) = .val (.ok v) ∧ q'.iqrValue (Quant.exact K) = .val (.ok v') ∧ |v' - v| ≤ 2 * ε := by
  obtain ⟨-, -, -, -, ⟨m, hm⟩, -, -⟩ := new_ok hn
  have hne' : windowOf window.toNat ops' ≠ [] := fun k => hne ((rel_nil (SameCalls.window h _)).2 k)
  obtain ⟨q, a, e, ea, ha⟩ := C14_quantile_avl hn hA hm draws ops (x := 1 / 4) (by norm_num) (by norm_num) hne
  obtain ⟨_, b, e', eb, hb⟩ := C14_quantile_avl hn hA hm draws ops (x := 3 / 4) (by norm_num) (by norm_num) hne
  rw [e] at e'; cases e'
  obtain ⟨q', a', e', ea', ha'⟩ := C14_quantile_avl hn hA hm draws ops' (x := 1 / 4) (by norm_num) (by norm_num) hne'
  obtain ⟨_, b', e'', eb', hb'⟩ := C14_quantile_avl hn hA hm draws ops' (x := 3 / 4) (by norm_num) (by norm_num) hne'
  rw [e'] at e''; cases e''
  have hw := SameCalls.window h window.toNat
  have u : List.Forall₂ (fun x y => y ≤ x + ε) (windowOf window.toNat ops) (windowOf window.toNat ops') :=
    hw.imp fun x y k => by rw [abs_le] at k; linarith
  have l : List.Forall₂ (fun x y => y ≤ x + ε) (windowOf window.toNat ops') (windowOf window.toNat ops) :=
    hw.flip.imp fun x y (k : |x - y| ≤ ε) => by rw [abs_le] at k; linarith
  have q1 := quantile_rel u ha ha'
  have q2 := quantile_rel u hb hb'
  have q3 := quantile_rel l ha' ha
  have q4 := quantile_rel l hb' hb
  have hq : ∀ (r : Quantile (statOf c draws)) (s t : K), r.value (Quant.exact K) (1 / 4) = .val (.ok s) → r.value (Quant.exact K) (3 / 4) = .val (.ok t) →
      r.iqrValue (Quant.exact K) = .val (.ok (t - s)) := by
    intro r s t e1 e2
    unfold Quantile.iqrValue
    have f1 : (Quant.exact K).div ((Quant.exact K).ofInt 1) ((Quant.exact K).ofInt 4) = 1 / 4 := by simp [Quant.exact]
    have f2 : (Quant.exact K).div ((Quant.exact K).ofInt 3) ((Quant.exact K).ofInt 4) = 3 / 4 := by simp [Quant.exact]
    rw [f1, f2, e1, e2]
    rfl
  exact ⟨q, q', b - a, b' - a', e, e', hq q a b ea eb, hq q' a' b' ea' eb', abs_le.2 ⟨by linarith, by linarith⟩⟩

open Verif.Quant in
/-- Window 3 after 5, Clear, 3, 7, 2, 6 and after 1, Clear, 3.5, 6, 2, 6.5: the 0.3-quantiles are 4.4 and 4.4, the medians 6 and 6, the
interquartile ranges 2.5 and 2.25; the streams differ by at most 4, after the Clear by at most 1. -/
example : ∃ c d, new (0 : ℚ) 1 3 [] = .ok c ∧ c.impl = AVL ∧ newMedian (0 : ℚ) 1 3 [] = .ok d ∧ d.impl = AVL ∧
    SameCalls (fun x y => |y - x| ≤ 4) [MOp.push (5 : ℚ), .clear, .push 3, .push 7, .push 2, .push 6] [.push 1, .clear, .push (7 / 2), .push 6, .push 2, .push (13 / 2)] ∧
    windowOf (3 : Int).toNat [MOp.push (5 : ℚ), .clear, .push 3, .push 7, .push 2, .push 6] ≠ [] ∧
    (∃ q, (ofCfg c fun _ _ => false).run [MOp.push (5 : ℚ), .clear, .push 3, .push 7, .push 2, .push 6] = .val (q, []) ∧
      q.value (Quant.exact ℚ) (3 / 10) = .val (.ok (22 / 5))) ∧
    ∃ q, (ofCfg c fun _ _ => false).run [MOp.push (1 : ℚ), .clear, .push (7 / 2), .push 6, .push 2, .push (13 / 2)] = .val (q, []) ∧
      q.value (Quant.exact ℚ) (3 / 10) = .val (.ok (22 / 5)) :=
  ⟨_, _, rfl, rfl, rfl, rfl, .cons (.push (by decide +kernel)) (.cons .clear (.cons (.push (by decide +kernel)) (.cons (.push (by decide +kernel))
    (.cons (.push (by decide +kernel)) (.cons (.push (by decide +kernel)) .nil))))), by decide +kernel, of_run (by decide +kernel), of_run (by decide +kernel)⟩

/-- C108, `HeapMedian` without a window, exact arithmetic. -/
theorem C108_heap_median_global {ops ops' : List (MOp K)} (h : SameCalls (fun x y => y ≤ x + ε) ops ops') (hne : since ops ≠ []) :
    ∃ s0 s s' v v', HeapMedian.new (0 : K) 0 = .ok s0 ∧ HeapMedian.run s0 ops = .val (s, []) ∧ HeapMedian.run s0 ops' = .val (s', []) ∧
      HeapMedian.value (Quant.exact K) s = .val (.ok v) ∧ HeapMedian.value (Quant.exact K) s' = .val (.ok v') ∧ v' ≤ v + ε := by
  obtain ⟨s0, s, v, e0, e, ev, hv⟩ := C21_heap_median_global ops hne
  obtain ⟨s1, s', v', e1, e', ev', hv'⟩ := C21_heap_median_global ops' (fun k => hne ((rel_nil (SameCalls.since h)).2 k))
  rw [e0] at e1; cases e1
  exact ⟨s0, s, s', v, v', e0, e, e', ev, ev', median_rel (SameCalls.since h) hv hv'⟩

/-- C108 refuted for `HeapMedian` with a window: with window 3, the value after 1, 1, 1, 0, 0 is 1, after 1, 2, 1, 0, 0 it is 0; and after
1, 2, 2, 0, 0 it is 0, after 2, 2, 2, 0, 0 it is 2, although the streams differ by at most 1. -/
theorem C108_heap_median_window_refuted : ∃ s0 : HeapMedian.HM ℚ, HeapMedian.new (0 : ℚ) 3 = .ok s0 ∧
    (∃ s s', HeapMedian.run s0 ([1, 1, 1, 0, 0].map .push) = .val (s, []) ∧ HeapMedian.run s0 ([1, 2, 1, 0, 0].map .push) = .val (s', []) ∧
      HeapMedian.value (Quant.exact ℚ) s = .val (.ok 1) ∧ HeapMedian.value (Quant.exact ℚ) s' = .val (.ok 0)) ∧
    ∃ s s', HeapMedian.run s0 ([1, 2, 2, 0, 0].map .push) = .val (s, []) ∧ HeapMedian.run s0 ([2, 2, 2, 0, 0].map .push) = .val (s', []) ∧
      HeapMedian.value (Quant.exact ℚ) s = .val (.ok 0) ∧ HeapMedian.value (Quant.exact ℚ) s' = .val (.ok 2) :=
  ⟨_, rfl, ⟨_, _, rfl, rfl, by decide +kernel, by decide +kernel⟩, _, _, rfl, rfl, by decide +kernel, by decide +kernel⟩

theorem sum_rel {xs ys : List K} (h : List.Forall₂ (fun x y => y ≤ x + ε) xs ys) : ys.sum ≤ xs.sum + xs.length * ε := by
  induction h with
  | nil => simp
  | cons h _ ih =>
    simp only [List.sum_cons, List.length_cons, Nat.cast_succ]
    linarith

open Verif.Moment in
/-- C108, `Mean` with every window and history, exact arithmetic. -/
theorem C108_mean {cfg : Config K} {c : Core K} (hn : newCore cfg = .ok c) (hd : cfg.decay = none) (hs : ∀ k ∈ cfg.sums.getD [], k ≤ 65)
    {ops ops' : List (MOp K)} (h : SameCalls (fun x y => y ≤ x + ε) ops ops') (hne : since ops ≠ []) :
    ∃ (e e' : Core K) (v v' : K), run c ops = .val (e, []) ∧ run c ops' = .val (e', []) ∧ mean e = .ok v ∧ mean e' = .ok v' ∧ v' ≤ v + ε := by
  obtain ⟨w, e, hw, r, -, hv, -, hnil⟩ := C30_count_mean hn hd hs ops
  obtain ⟨w', e', hw', r', -, hv', -, hnil'⟩ := C30_count_mean hn hd hs ops'
  rw [hw] at hw'
  obtain rfl : w = w' := by simpa using hw'
  have hx : windowOf w ops ≠ [] := fun k => hne (hnil.1 k)
  have hR := SameCalls.window h w
  refine ⟨e, e', _, _, r, r', hv hx, hv' (fun k => hx ((rel_nil hR).2 k)), ?_⟩
  have hp : (0 : K) < (windowOf w ops).length := by exact_mod_cast List.length_pos_iff.2 hx
  rw [← hR.length_eq, div_le_iff₀ hp, add_mul, div_mul_cancel₀ _ hp.ne']
  have := sum_rel hR
  linarith

/-- Related lists have related last elements. -/
theorem rel_snoc {F G : Type} {R : F → G → Prop} {xs : List F} {x : F} {zs : List G} (h : List.Forall₂ R (xs ++ [x]) zs) :
    ∃ ys y, zs = ys ++ [y] ∧ List.Forall₂ R xs ys ∧ R x y := by
  have h := List.forall₂_reverse_iff.2 h
  rw [List.reverse_append, List.reverse_singleton, List.singleton_append] at h
  obtain ⟨y, ys, h1, h2, h3⟩ := List.forall₂_cons_left_iff.1 h
  refine ⟨ys.reverse, y, ?_, ?_, h1⟩
  · rw [← List.reverse_reverse zs, h3, List.reverse_cons]
  · rw [← List.forall₂_reverse_iff, List.reverse_reverse]
    exact h2

theorem ew_rel {d : K} (h0 : 0 < d) (h1 : d < 1) {xs ys : List K} (h : List.Forall₂ (fun x y => y ≤ x + ε) xs ys) (hne : xs ≠ []) :
    ewTotal d (fun x => x) ys ≤ ewTotal d (fun x => x) xs + ε := by
  induction xs using List.reverseRecOn generalizing ys with
  | nil => exact absurd rfl hne
  | append_singleton xs x ih =>
    obtain ⟨ys, y, rfl, h2, h3⟩ := rel_snoc h
    by_cases hx : xs = []
    · have hy := (rel_nil h2).1 hx
      subst hx hy
      rw [List.nil_append, List.nil_append, Forget.ewTotal_one, Forget.ewTotal_one]
      exact h3
    · have hy : ys ≠ [] := fun k => hx ((rel_nil h2).2 k)
      rw [Forget.ewTotal_snoc d _ hx, Forget.ewTotal_snoc d _ hy]
      have := ih h2 hx
      nlinarith

open Verif.Moment Verif.Moment.Metric in
/-- C108, `EWMA`, every history and decay, exact arithmetic. -/
theorem C108_ewma {d : K} (h0 : 0 < d) (h1 : d < 1) (r p : K → K) {ops ops' : List (MOp K)} (h : SameCalls (fun x y => y ≤ x + ε) ops ops')
    (hne : since ops ≠ []) : ∃ (m m' : Metric K) (v v' : K), Metric.run ((new (.ewma d)).init).1 ops = .val (m, []) ∧
      Metric.run ((new (.ewma d)).init).1 ops' = .val (m', []) ∧ value r p m = .ok (.fin v) ∧ value r p m' = .ok (.fin v') ∧ v' ≤ v + ε := by
  obtain ⟨m, e, hv, -⟩ := C33_ewma h0 h1 r p ops
  obtain ⟨m', e', hv', -⟩ := C33_ewma h0 h1 r p ops'
  have hR := SameCalls.since h
  exact ⟨m, m', _, _, e, e', hv hne, hv' (fun k => hne ((rel_nil hR).2 k)), ew_rel h0 h1 hR hne⟩

end exact

section spread

theorem sum_mul {α : Type} (l : List α) (f g : α → ℝ) (a : ℝ) : (l.map fun x => f x + a * g x).sum = (l.map f).sum + a * (l.map g).sum := by
  induction l with
  | nil => simp
  | cons x l ih => simp only [List.map_cons, List.sum_cons, ih]; ring

/-- The triangle inequality for weighted deviations from weighted means. -/
theorem deviation_close {α : Type} (l : List α) {w f g : α → ℝ} (hw : ∀ x ∈ l, 0 ≤ w x) {mf mg ε : ℝ} (hf : (l.map fun x => w x * (f x - mf)).sum = 0)
    (hg : (l.map fun x => w x * (g x - mg)).sum = 0) (hε : ∀ x ∈ l, |g x - f x| ≤ ε) (h0 : 0 ≤ ε) :
    √((l.map fun x => w x * (g x - mg) ^ 2).sum) ≤ √((l.map fun x => w x * (f x - mf) ^ 2).sum) + ε * √((l.map w).sum) := by
  obtain ⟨hA, hC, hB⟩ := Joint.cauchy l (w := w) (a := fun x => f x - mf) (b := fun x => (g x - mg) - (f x - mf)) hw
  set A := (l.map fun x => w x * (f x - mf) ^ 2).sum
  set B := (l.map fun x => w x * ((f x - mf) * ((g x - mg) - (f x - mf)))).sum
  set C := (l.map fun x => w x * ((g x - mg) - (f x - mf)) ^ 2).sum with hCd
  have hsum : (l.map fun x => w x * (g x - mg) ^ 2).sum = A + 2 * B + C := by
    have h1 := sum_mul l (fun x => w x * (f x - mf) ^ 2 + 2 * (w x * ((f x - mf) * ((g x - mg) - (f x - mf)))))
      (fun x => w x * ((g x - mg) - (f x - mf)) ^ 2) 1
    have h2 := sum_mul l (fun x => w x * (f x - mf) ^ 2) (fun x => w x * ((f x - mf) * ((g x - mg) - (f x - mf)))) 2
    rw [h2, one_mul] at h1
    rw [← h1]
    congr 1
    apply List.map_congr_left
    intro x _
    ring
  have hW : C ≤ ε ^ 2 * (l.map w).sum := by
    have h1 := sum_mul l (fun x => w x * (g x - mg)) (fun x => w x * (f x - mf)) (-1)
    rw [hf, hg, mul_zero, add_zero] at h1
    have h2 := sum_mul l (fun x => w x * ((g x - mg) - (f x - mf)) ^ 2 + 2 * (mg - mf) * (w x * (g x - mg) + -1 * (w x * (f x - mf)))) w ((mg - mf) ^ 2)
    have h3 := sum_mul l (fun x => w x * ((g x - mg) - (f x - mf)) ^ 2) (fun x => w x * (g x - mg) + -1 * (w x * (f x - mf))) (2 * (mg - mf))
    rw [h3, h1, mul_zero, add_zero, ← hCd] at h2
    have hw0 : 0 ≤ (l.map w).sum := List.sum_nonneg (by simpa using hw)
    have h4 : (l.map fun x => w x * ((g x - mg) - (f x - mf)) ^ 2 + 2 * (mg - mf) * (w x * (g x - mg) + -1 * (w x * (f x - mf))) + (mg - mf) ^ 2 * w x).sum ≤
        (l.map fun x => ε ^ 2 * w x).sum := by
      refine List.sum_le_sum fun x hx => ?_
      have h5 : (g x - f x) ^ 2 ≤ ε ^ 2 := sq_le_sq' (abs_le.1 (hε x hx)).1 (abs_le.1 (hε x hx)).2
      have := mul_le_mul_of_nonneg_left h5 (hw x hx)
      calc _ = w x * (g x - f x) ^ 2 := by ring
        _ ≤ _ := by linarith
    rw [h2, List.sum_map_mul_left] at h4
    nlinarith [sq_nonneg (mg - mf)]
  have hs : √C ≤ ε * √((l.map w).sum) := by
    rw [← Real.sqrt_sq h0, ← Real.sqrt_mul (sq_nonneg ε)]
    exact Real.sqrt_le_sqrt hW
  have hBC : B ≤ √A * √C := by
    rw [← Real.sqrt_mul hA]
    exact Real.le_sqrt_of_sq_le hB
  rw [hsum]
  refine le_trans ?_ (add_le_add_right hs _)
  apply Real.sqrt_le_iff.2
  refine ⟨by positivity, ?_⟩
  nlinarith [Real.sq_sqrt hA, Real.sq_sqrt hC]

theorem rel_zip {F G : Type} {R : F → G → Prop} {xs : List F} {ys : List G} (h : List.Forall₂ R xs ys) :
    ∃ ps : List (F × G), xs = ps.map Prod.fst ∧ ys = ps.map Prod.snd ∧ ∀ p ∈ ps, R p.1 p.2 := by
  induction h with
  | nil => exact ⟨[], rfl, rfl, by simp⟩
  | @cons a b l l' h _ ih =>
    obtain ⟨ps, e1, e2, h'⟩ := ih
    refine ⟨(a, b) :: ps, by rw [e1]; rfl, by rw [e2]; rfl, fun p hp => ?_⟩
    rcases List.mem_cons.1 hp with rfl | hp
    · exact h
    · exact h' p hp

theorem std_rel {ε : ℝ} {xs ys : List ℝ} (h : List.Forall₂ (fun x y => |y - x| ≤ ε) xs ys) (h2 : 2 ≤ xs.length) :
    √(csum 2 ys / (ys.length - 1)) ≤ √(csum 2 xs / (xs.length - 1)) + ε * √(xs.length / (xs.length - 1)) := by
  obtain ⟨ps, rfl, rfl, hp⟩ := rel_zip h
  simp only [List.length_map] at h2 ⊢
  have hn : (1 : ℝ) < ps.length := by exact_mod_cast h2
  have hne : ps ≠ [] := by rintro rfl; simp at h2
  obtain ⟨p0, hp0⟩ := List.exists_mem_of_ne_nil _ hne
  have hε : 0 ≤ ε := (abs_nonneg _).trans (hp p0 hp0)
  have hz : ∀ f : ℝ × ℝ → ℝ, (ps.map fun p => 1 / ((ps.length : ℝ) - 1) * (f p - Spec.mean (ps.map f))).sum = 0 := by
    intro f
    rw [List.sum_map_mul_left]
    have := Spec.csum_one (xs := ps.map f) (by simpa using hne)
    unfold csum at this
    simp only [pow_one, List.map_map] at this
    rw [show (ps.map fun p => f p - Spec.mean (ps.map f)) = ps.map ((fun x => x - Spec.mean (ps.map f)) ∘ f) from rfl, this, mul_zero]
  have hq : ∀ f : ℝ × ℝ → ℝ, (ps.map fun p => 1 / ((ps.length : ℝ) - 1) * (f p - Spec.mean (ps.map f)) ^ 2).sum = csum 2 (ps.map f) / (ps.length - 1) := by
    intro f
    rw [List.sum_map_mul_left, csum, List.map_map, one_div_mul_eq_div]
    rfl
  have := deviation_close ps (w := fun _ => 1 / ((ps.length : ℝ) - 1)) (f := Prod.fst) (g := Prod.snd) (ε := ε)
    (fun _ _ => by have : (0 : ℝ) < ps.length - 1 := by linarith
                   positivity) (hz _) (hz _) hp hε
  rw [hq, hq] at this
  simpa [List.map_const', mul_one_div, div_eq_mul_inv] using this

theorem ewstd_rel {ε d : ℝ} (h0 : 0 < d) (h1 : d < 1) {xs ys : List ℝ} (h : List.Forall₂ (fun x y => |y - x| ≤ ε) xs ys) (hne : xs ≠ []) :
    √(ewMoment d 2 ys) ≤ √(ewMoment d 2 xs) + ε := by
  obtain ⟨ps, rfl, rfl, hp⟩ := rel_zip h
  have hne : ps ≠ [] := by simpa using hne
  obtain ⟨p0, hp0⟩ := List.exists_mem_of_ne_nil _ hne
  have hε : 0 ≤ ε := (abs_nonneg _).trans (hp p0 hp0)
  have hW : (ps.zipIdx.map fun p => ewWeight d ps.length p.2).sum = 1 := by
    have := (C33_weights h0 h1 (xs := ps.map Prod.fst) (by simpa using hne)).1
    rw [Joint.ewTotal_map] at this
    simpa [ewTotal] using this
  have hz : ∀ f : ℝ × ℝ → ℝ, (ps.zipIdx.map fun p => ewWeight d ps.length p.2 * (f p.1 - ewMean d (ps.map f))).sum = 0 := by
    intro f
    have h3 := sum_mul ps.zipIdx (fun p => ewWeight d ps.length p.2 * f p.1) (fun p => ewWeight d ps.length p.2) (-ewMean d (ps.map f))
    rw [hW] at h3
    have h4 : (ps.zipIdx.map fun p => ewWeight d ps.length p.2 * f p.1).sum = ewMean d (ps.map f) := by
      rw [ewMean, Joint.ewTotal_map]; rfl
    rw [h4] at h3
    rw [show (0 : ℝ) = ewMean d (ps.map f) + -ewMean d (ps.map f) * 1 by ring, ← h3]
    congr 1
    apply List.map_congr_left
    intro x _
    ring
  have hq : ∀ f : ℝ × ℝ → ℝ, (ps.zipIdx.map fun p => ewWeight d ps.length p.2 * (f p.1 - ewMean d (ps.map f)) ^ 2).sum = ewMoment d 2 (ps.map f) := by
    intro f
    rw [ewMoment, Joint.ewTotal_map]; rfl
  have := deviation_close ps.zipIdx (w := fun p => ewWeight d ps.length p.2) (f := fun p => p.1.1) (g := fun p => p.1.2) (ε := ε)
    (fun _ _ => Joint.ewWeight_nonneg h0 h1 _ _) (hz Prod.fst) (hz Prod.snd) (fun p hp' => hp p.1 (List.fst_mem_of_mem_zipIdx hp')) hε
  rw [hq Prod.fst, hq Prod.snd, hW, Real.sqrt_one, mul_one] at this
  exact this

theorem SameCalls.swap {ε : ℝ} {ops ops' : List (MOp ℝ)} (h : SameCalls (fun x y => |y - x| ≤ ε) ops ops') : SameCalls (fun x y => |y - x| ≤ ε) ops' ops := by
  unfold SameCalls at *
  refine h.flip.imp fun a b k => ?_
  cases k with
  | push k => exact .push (by rw [abs_sub_comm]; exact k)
  | clear => exact .clear

open Verif.Moment Verif.Moment.Metric in
/-- C108, `Std`, every window and history, exact arithmetic: if the streams differ by at most `ε` everywhere, the standard deviations of `n` values
differ by at most `ε √(n/(n-1))`. -/
theorem C108_std {ε : ℝ} (w : Nat) (p : ℝ → ℝ) {ops ops' : List (MOp ℝ)} (h : SameCalls (fun x y => |y - x| ≤ ε) ops ops')
    (h2 : 2 ≤ (windowOf w ops).length) : ∃ (m m' : Metric ℝ) (v v' : ℝ), Metric.run ((new (.std w)).init).1 ops = .val (m, []) ∧
      Metric.run ((new (.std w)).init).1 ops' = .val (m', []) ∧ value Real.sqrt p m = .ok (.fin v) ∧ value Real.sqrt p m' = .ok (.fin v') ∧
      |v' - v| ≤ ε * √((windowOf w ops).length / ((windowOf w ops).length - 1)) := by
  have hR := SameCalls.window h w
  obtain ⟨m, e, hv, -⟩ := C34_std w p ops
  obtain ⟨m', e', hv', -⟩ := C34_std w p ops'
  have h2' : 2 ≤ (windowOf w ops').length := hR.length_eq ▸ h2
  refine ⟨m, m', _, _, e, e', hv h2, hv' h2', ?_⟩
  have u := std_rel hR h2
  have l := std_rel (SameCalls.window (SameCalls.swap h) w) h2'
  rw [← hR.length_eq] at u l ⊢
  exact abs_le.2 ⟨by linarith, by linarith⟩

open Verif.Moment Verif.Moment.Metric in
/-- C108, `EWMStd`, every history and decay, exact arithmetic: if the streams differ by at most `ε` everywhere, so do the results. -/
theorem C108_ewmstd {ε d : ℝ} (h0 : 0 < d) (h1 : d < 1) (p : ℝ → ℝ) {ops ops' : List (MOp ℝ)} (h : SameCalls (fun x y => |y - x| ≤ ε) ops ops')
    (hne : since ops ≠ []) : ∃ (m m' : Metric ℝ) (v v' : ℝ), Metric.run ((new (.ewmStd d)).init).1 ops = .val (m, []) ∧
      Metric.run ((new (.ewmStd d)).init).1 ops' = .val (m', []) ∧ value Real.sqrt p m = .ok (.fin v) ∧ value Real.sqrt p m' = .ok (.fin v') ∧
      |v' - v| ≤ ε := by
  have hR := SameCalls.since h
  have hne' : since ops' ≠ [] := fun k => hne ((rel_nil hR).2 k)
  obtain ⟨m, e, hv, -⟩ := C33_ewm_std h0 h1 p ops
  obtain ⟨m', e', hv', -⟩ := C33_ewm_std h0 h1 p ops'
  refine ⟨m, m', _, _, e, e', hv hne, hv' hne', ?_⟩
  have u := ewstd_rel h0 h1 hR hne
  have l := ewstd_rel h0 h1 (SameCalls.since (SameCalls.swap h)) hne'
  unfold ewMoment ewMean at u l
  exact abs_le.2 ⟨by linarith, by linarith⟩

/-- Two values each, at most 1/2 apart. -/
example : SameCalls (fun x y => |y - x| ≤ 1 / 2) [MOp.push (1 : ℝ), .push 3] [.push (3 / 2), .push (5 / 2)] ∧
    2 ≤ (windowOf 5 [MOp.push (1 : ℝ), .push 3]).length ∧ since [MOp.push (1 : ℝ), .push 3] ≠ [] :=
  ⟨.cons (.push (by norm_num)) (.cons (.push (by norm_num [abs_of_neg])) .nil), by simp [windowOf, lastN, since], by simp [since]⟩

/-- The bounds are attained: for the values 0 and 0 against -ε and ε the standard deviation grows by `ε √2`. -/
example (ε : ℝ) (h : 0 ≤ ε) : √(csum 2 [-ε, ε] / (([-ε, ε] : List ℝ).length - 1)) = √(csum 2 [0, 0] / (([0, 0] : List ℝ).length - 1)) + ε * √(2 / (2 - 1)) := by
  have h1 : csum 2 [-ε, ε] / (([-ε, ε] : List ℝ).length - 1) = ε ^ 2 * 2 := by norm_num [csum, Spec.mean]; ring
  have h2 : csum 2 [(0 : ℝ), 0] = 0 := by norm_num [csum, Spec.mean]
  rw [h1, h2, Real.sqrt_mul (sq_nonneg ε), Real.sqrt_sq h]
  norm_num

end spread

section rounded
open Verif.Quant Verif.FP
variable {rnd : ℚ → ℚ}

theorem between_mono (R : Rounding rnd) {m : Method} {i : Nat} {a b a' b' d : ℚ} (h0 : 0 ≤ d) (h1 : d ≤ 1) (ha : a ≤ a') (hb : b ≤ b') :
    Quant.between (roundedOps rnd) m i a b d ≤ Quant.between (roundedOps rnd) m i a' b' d := by
  cases m with
  | linear =>
    simp only [Quant.between, roundedOps, Int.cast_one, R.one]
    have h2 : 0 ≤ rnd (1 - d) := R.nonneg (by linarith)
    exact R.mono (add_le_add (R.mono (mul_le_mul_of_nonneg_left ha h2)) (R.mono (mul_le_mul_of_nonneg_left hb h0)))
  | lower => exact ha
  | higher => exact hb
  | nearest => simp only [Quant.between]; split_ifs <;> assumption
  | midpoint =>
    simp only [Quant.between, roundedOps]
    have h2 : (0 : ℚ) ≤ rnd ((2 : Int) : ℚ) := R.nonneg (by norm_num)
    exact R.mono (div_le_div_of_nonneg_right (R.mono (add_le_add ha hb)) h2)

theorem kth_le {xs ys : List ℚ} (h : List.Forall₂ (fun x y => x ≤ y) xs ys) {i : Nat} {v w : ℚ} (hv : IsKth (xs : Multiset ℚ) i v)
    (hw : IsKth (ys : Multiset ℚ) i w) : v ≤ w :=
  kth_rel (φ := fun x => x) (fun _ _ h => h) (h.flip.imp fun _ _ k => k) hw hv

theorem quantIn_le (R : Rounding rnd) {m : Method} {xs ys : List ℚ} (h : List.Forall₂ (fun x y => x ≤ y) xs ys) {x v w : ℚ}
    (hv : QuantIn rnd m (xs : Multiset ℚ) x v) (hw : QuantIn rnd m (ys : Multiset ℚ) x w) : v ≤ w := by
  have hl := h.length_eq
  unfold QuantIn at hv hw
  rw [Multiset.coe_card] at hv hw
  rw [← hl] at hw
  rcases hv with ⟨i, e1, k1⟩ | ⟨i, a, b, l1, l2, k1, k2, rfl⟩
  · rcases hw with ⟨j, e2, k2⟩ | ⟨j, a', b', l1, l2, -⟩
    · rw [e1] at e2
      have := Nat.cast_injective e2
      subst this
      exact kth_le h k1 k2
    · have := nat_unique l1 l2 (by rw [e1] : (i : ℚ) ≤ _) (by rw [e1]; linarith)
      subst this
      rw [e1] at l1
      exact absurd l1 (lt_irrefl _)
  · rcases hw with ⟨j, e2, -⟩ | ⟨j, a', b', l1', l2', k1', k2', rfl⟩
    · have := nat_unique l1 l2 (by rw [e2] : (j : ℚ) ≤ _) (by rw [e2]; linarith)
      subst this
      rw [e2] at l1
      exact absurd l1 (lt_irrefl _)
    · have := nat_unique l1 l2 l1'.le l2'
      subst this
      obtain ⟨f1, f2⟩ := R.frac l1 l2
      exact between_mono R f1 f2 (kth_le h k1 k1') (kth_le h k2 k2')

/-- C108, `Quantile` (and `Median`, a quantile) with the default container in binary64, every window and method, also `Linear`: no rounding error
makes a quantile of the larger stream smaller. (That the values of C71 leave the range of the data does not contradict this.) -/
theorem C108_quantile_rounded {window : Int} {opts : List (Opt ℚ)} {c : Cfg ℚ} (hn : new 0 1 window opts = .ok c) (hA : c.impl = AVL)
    (draws : Nat → Nat → Bool) {ops ops' : List (MOp ℚ)} (h : SameCalls (fun x y => x ≤ y) ops ops')
    (hlen : (windowOf window.toNat ops).length ≤ 2 ^ 53) {p : ℚ} (h0 : 0 < p) (h1 : p < 1) (hne : windowOf window.toNat ops ≠ []) :
    ∃ q q' v v', (ofCfg c draws).run ops = .val (q, []) ∧ (ofCfg c draws).run ops' = .val (q', []) ∧
      q.value ops64 p = .val (.ok v) ∧ q'.value ops64 p = .val (.ok v') ∧ v ≤ v' := by
  obtain ⟨-, -, -, -, ⟨m, hm⟩, -, -⟩ := new_ok hn
  have hR := SameCalls.window h window.toNat
  obtain ⟨q, e, -, -, -, -⟩ := quantile_main hn draws ops (implOK_avl hA _ _) hm
  obtain ⟨q', e', -, -, -, -⟩ := quantile_main hn draws ops' (implOK_avl hA _ _) hm
  obtain ⟨T, -, hT, hx, hq⟩ := value_trees rounding_rnd64 hn (by rw [hA]; decide) draws ops hm e (fun n => small_nat hlen)
  obtain ⟨T', -, hT', hx', hq'⟩ := value_trees rounding_rnd64 hn (by rw [hA]; decide) draws ops' hm e'
    (fun n => small_nat (by rw [← hR.length_eq]; exact hlen))
  have hT := hT (by rw [hA]; decide)
  have hT' := hT' (by rw [hA]; decide)
  subst hT hT'
  obtain ⟨v, ev⟩ := hx p h0 h1 (by simpa using hne)
  obtain ⟨v', ev'⟩ := hx' p h0 h1 (by simpa using fun k => hne ((rel_nil hR).2 k))
  exact ⟨q, q', v, v', e, e', ev, ev', quantIn_le rounding_rnd64 hR (hq p v ev) (hq' p v' ev')⟩

/-- C108, `HeapMedian` without a window in binary64. -/
theorem C108_heap_median_rounded {ops ops' : List (MOp ℚ)} (h : SameCalls (fun x y => x ≤ y) ops ops') (hne : since ops ≠ []) :
    ∃ s0 s s' v v', HeapMedian.new (0 : ℚ) 0 = .ok s0 ∧ HeapMedian.run s0 ops = .val (s, []) ∧ HeapMedian.run s0 ops' = .val (s', []) ∧
      HeapMedian.value ops64 s = .val (.ok v) ∧ HeapMedian.value ops64 s' = .val (.ok v') ∧ v ≤ v' := by
  have hR := SameCalls.since h
  have key : ∀ os : List (MOp ℚ), since os ≠ [] → ∃ s v, HeapMedian.run (HeapMedian.fresh 0 0) os = .val (s, []) ∧ HeapMedian.value ops64 s = .val (.ok v) ∧
      HeapMedian.MedianIn ops64 (since os : List ℚ) v := by
    intro os ho
    obtain ⟨s, es, hi⟩ := HeapMedian.run_inv (w := 0) (by decide) (0 : ℚ) os
    have hl := hi.size
    rw [lastN_zero] at hl
    obtain ⟨v, e2, hm⟩ := (HeapMedian.value_in ops64 hi.c hi.lo hi.hi).2 (fun c => by
      rw [c] at hl; exact ho (List.length_eq_zero_iff.1 hl.symm))
    rw [hi.exact (Or.inl rfl)] at hm
    exact ⟨s, v, es, e2, hm⟩
  obtain ⟨s, v, e, ev, hv⟩ := key ops hne
  obtain ⟨s', v', e', ev', hv'⟩ := key ops' (fun k => hne ((rel_nil hR).2 k))
  refine ⟨_, s, s', v, v', rfl, e, e', ev, ev', ?_⟩
  have hl := hR.length_eq
  rcases hv with ⟨i, e1, k1⟩ | ⟨i, a, b, e1, k1, k2, rfl⟩ <;> rcases hv' with ⟨j, e2, k1'⟩ | ⟨j, a', b', e2, k1', k2', rfl⟩ <;>
    rw [Multiset.coe_card] at e1 e2
  · obtain rfl : i = j := by omega
    exact kth_le hR k1 k1'
  · omega
  · omega
  · obtain rfl : i = j := by omega
    exact between_mono rounding_rnd64 (m := .midpoint) (i := i) (d := 0) le_rfl zero_le_one (kth_le hR k1 k1') (kth_le hR k2 k2')

/-- C108 for the means in rounded arithmetic, what holds: every window, decay and history, with the last value alone different. Missing: values
before the last one, where it fails. -/
theorem C108_mean_last_partial (R : Rounding rnd) {pw : ℚ → Nat → ℚ} {cfg : Moment.Config ℚ} {c : Moment.Core ℚ}
    (hn : FP.newCore (Arith.rounded rnd pw) cfg = .ok c) (hs : ∀ k ∈ cfg.sums.getD [], k ≤ 65) (hdec : ∀ d, cfg.decay = some d → 0 ≤ d)
    (ops : List (MOp ℚ)) {x y : ℚ} (hxy : x ≤ y) :
    ∃ e e' v v', FP.run (Arith.rounded rnd pw) c (ops ++ [.push x]) = .val (e, []) ∧ FP.run (Arith.rounded rnd pw) c (ops ++ [.push y]) = .val (e', []) ∧
      FP.mean e = .ok v ∧ FP.mean e' = .ok v' ∧ v ≤ v' := by
  obtain ⟨w, hw, -⟩ := FP.newCore_ok _ hn
  obtain ⟨e, r, -, hv, -⟩ := moment_mst _ hn hs hw (ops ++ [.push x])
  obtain ⟨e', r', -, hv', -⟩ := moment_mst _ hn hs hw (ops ++ [.push y])
  rw [since_push] at hv hv'
  refine ⟨e, e', _, _, r, r', hv (by simp), hv' (by simp), ?_⟩
  have hl : (lastN w (since ops ++ [x])).length = (lastN w (since ops ++ [y])).length := by
    unfold lastN
    split_ifs <;> simp
  cases hd : cfg.decay with
  | none =>
    rw [mst_add, mst_add, hl]
    have h2 : (0 : ℚ) ≤ rnd (((lastN w (since ops ++ [y])).length : Int) : ℚ) := R.nonneg (by positivity)
    exact R.mono (add_le_add_right (R.mono (div_le_div_of_nonneg_right (R.mono (by linarith)) h2)) _)
  | some d =>
    rw [mst_decay, mst_decay, hl]
    refine R.mono (add_le_add_right (R.mono (mul_le_mul_of_nonneg_left (R.mono (by linarith)) ?_)) _)
    split_ifs
    · exact R.nonneg (by norm_num)
    · exact hdec d hd

/-- C108 refuted for the means in binary64: the mean of `1 - 2^-53` and `2^53 + 2` is `2^52 + 2`, that of the larger data 1 and `2^53 + 2` is `2^52 + 1`;
the same for the exponentially weighted mean with decay 1/2. -/
theorem C108_mean_refuted : (1 - 1 / 2 ^ 53 : ℚ) < 1 ∧ rnd64 (1 - 1 / 2 ^ 53) = 1 - 1 / 2 ^ 53 ∧ rnd64 (2 ^ 53 + 2) = 2 ^ 53 + 2 ∧
    ∀ cfg ∈ [(⟨none, some 0, none⟩ : Moment.Config ℚ), ⟨none, some 0, some (1 / 2)⟩], ∃ c e e', FP.newCore Arith.b64 cfg = .ok c ∧
      FP.run Arith.b64 c [.push (1 - 1 / 2 ^ 53), .push (2 ^ 53 + 2)] = .val (e, []) ∧ FP.run Arith.b64 c [.push 1, .push (2 ^ 53 + 2)] = .val (e', []) ∧
      FP.mean e = .ok (2 ^ 52 + 2) ∧ FP.mean e' = .ok (2 ^ 52 + 1) := by
  refine ⟨by norm_num, by decide +kernel, by decide +kernel, ?_⟩
  have key : ∀ cfg : Moment.Config ℚ, (match FP.newCore Arith.b64 cfg with
      | .ok c => (fpObs (FP.run Arith.b64 c [.push (1 - 1 / 2 ^ 53), .push (2 ^ 53 + 2)]) = some ((.ok (2 ^ 52 + 2), .error "not a tracked power sum"),
            (.error "not a tracked power sum", 2), []) : Bool) &&
          (fpObs (FP.run Arith.b64 c [.push 1, .push (2 ^ 53 + 2)]) = some ((.ok (2 ^ 52 + 1), .error "not a tracked power sum"),
            (.error "not a tracked power sum", 2), []) : Bool)
      | .error _ => false) = true → ∃ c e e', FP.newCore Arith.b64 cfg = .ok c ∧
      FP.run Arith.b64 c [.push (1 - 1 / 2 ^ 53), .push (2 ^ 53 + 2)] = .val (e, []) ∧ FP.run Arith.b64 c [.push 1, .push (2 ^ 53 + 2)] = .val (e', []) ∧
      FP.mean e = .ok (2 ^ 52 + 2) ∧ FP.mean e' = .ok (2 ^ 52 + 1) := by
    intro cfg h
    split at h
    · next c hc =>
      rw [Bool.and_eq_true, decide_eq_true_eq, decide_eq_true_eq] at h
      obtain ⟨e, r, m, -⟩ := fpObs_run h.1
      obtain ⟨e', r', m', -⟩ := fpObs_run h.2
      exact ⟨c, e, e', hc, r, r', m, m'⟩
    · cases h
  intro cfg hc
  rcases List.mem_cons.1 hc with rfl | hc
  · exact key _ (by decide +kernel)
  · rcases List.mem_cons.1 hc with rfl | hc
    · exact key _ (by decide +kernel)
    · cases hc

/-- The 0.2-quantiles of 0.1, 0.1 and of 0.1, 0.3 with the default method, in binary64. -/
example : ∃ c, new (0 : ℚ) 1 2 [] = .ok c ∧ c.impl = AVL ∧
    SameCalls (fun x y => x ≤ y) [MOp.push (rnd64 (1 / 10)), .push (rnd64 (1 / 10))] [.push (rnd64 (1 / 10)), .push (rnd64 (3 / 10))] ∧
    (windowOf (2 : Int).toNat [MOp.push (rnd64 (1 / 10)), .push (rnd64 (1 / 10))]).length = 2 ∧ ∃ q,
    (ofCfg c fun _ _ => false).run [.push (rnd64 (1 / 10)), .push (rnd64 (1 / 10))] = .val (q, []) ∧
      q.value ops64 (rnd64 (2 / 10)) = .val (.ok (7205759403792795 / 2 ^ 56)) :=
  ⟨_, rfl, rfl, .cons (.push le_rfl) (.cons (.push (by decide +kernel)) .nil), by decide +kernel, of_run (by decide +kernel)⟩

end rounded

end Verif.Props
