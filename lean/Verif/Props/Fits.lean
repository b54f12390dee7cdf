import Verif.Proofs.Fits
import Verif.Props.MinMax
import Verif.Model.MomentFP
import Verif.Proofs.Decide
import Verif.Props.Rounded
import Mathlib.Tactic.IntervalCases

/-! # C89: until a window is exceeded, it makes no difference

`Fits w ops`: at no time were more than `w` values pushed since the last `Clear`. `Agree`: the same errors, panics and observations. -/

namespace Verif.Props
open Verif Verif.Spec

/-- Moment cores, to the bit in any arithmetic. -/
theorem C89_moment {F : Type} [GoOrd F] (A : FP.Arith F) {cfg : Moment.Config F} {w : Nat} (hw : cfg.window = some (w : Int)) {c : Moment.Core F}
    (hc : FP.newCore A cfg = .ok c) :
    ∃ g, FP.newCore A { cfg with window := some 0 } = .ok g ∧ ∀ ops, Fits w ops →
      Agree (fun a b => a.count = b.count ∧ FP.mean a = FP.mean b ∧ (∀ k, FP.sum a k = FP.sum b k) ∧
        (∀ k, FP.momentValue A a k = FP.momentValue A b k) ∧ FP.kurtosisValue A a = FP.kurtosisValue A b ∧
        ∀ sqrt, FP.stdValue A sqrt a = FP.stdValue A sqrt b ∧ ∀ pow15, FP.skewnessValue A sqrt pow15 a = FP.skewnessValue A sqrt pow15 b) []
        (FP.run A c ops) (FP.run A g ops) := by
  obtain ⟨s, w', d⟩ := cfg
  simp only at hw
  subst hw
  have hv : Moment.validate (A.ofInt 0) (A.ofInt 1) (Moment.setDefaults ⟨s, some (w : Int), d⟩) = none := by
    unfold FP.newCore at hc
    split at hc
    · cases hc
    · assumption
  have hv0 : Moment.validate (A.ofInt 0) (A.ofInt 1) (Moment.setDefaults ⟨s, some 0, d⟩) = none := by
    revert hv
    simp only [Moment.validate, Moment.setDefaults]
    rw [if_neg (by omega : ¬ (w : Int) < 0), if_neg (by omega : ¬ (0 : Int) < 0)]
    cases d with
    | none => exact id
    | some d => dsimp only; split_ifs <;> simp_all
  refine ⟨FP.mk A (Moment.setDefaults ⟨s, some 0, d⟩), by simp only [FP.newCore, hv0], fun ops hf => ?_⟩
  simp only [FP.newCore, hv] at hc
  cases hc
  have h0 : FP.Wide w 0 (FP.mk A (Moment.setDefaults ⟨s, some (w : Int), d⟩)) (FP.mk A (Moment.setDefaults ⟨s, some 0, d⟩)) :=
    ⟨rfl, Ring.new w, rfl, Room.new w⟩
  refine agree_mono (FP.run_wide A h0 ops hf) ?_
  rintro a b ⟨-, q, rfl, -⟩
  exact ⟨rfl, rfl, fun _ => rfl, fun _ => rfl, rfl, fun _ => ⟨rfl, fun _ => rfl⟩⟩

/-- Joint cores, to the bit in any arithmetic; pushes of the wrong number of values count for `Fits`. -/
theorem C89_joint {F : Type} [GoOrd F] (A : FP.Arith F) {cfg : Joint.Config F} {w : Nat} (hw : cfg.window = some (w : Int)) {c : Joint.Core F}
    (hc : JFP.newCore A cfg = .val (.ok c)) :
    ∃ g, JFP.newCore A { cfg with window := some 0 } = .val (.ok g) ∧ ∀ ops, Fits w ops →
      Agree (fun a b => a.count = b.count ∧ (∀ i, JFP.mean A a i = JFP.mean A b i) ∧ (∀ t, JFP.sum a t = JFP.sum b t) ∧
        JFP.covValue A a = JFP.covValue A b ∧ ∀ sqrt, JFP.corrValue A sqrt a = JFP.corrValue A sqrt b) []
        (JFP.run A c ops) (JFP.run A g ops) := by
  obtain ⟨s, w', v, d⟩ := cfg
  simp only at hw
  subst hw
  have hv : Joint.validate (A.ofInt 0) (A.ofInt 1) (Joint.setDefaults ⟨s, some (w : Int), v, d⟩) = none := by
    unfold JFP.newCore at hc
    split at hc
    · cases hc
    · assumption
  have hv0 : Joint.validate (A.ofInt 0) (A.ofInt 1) (Joint.setDefaults ⟨s, some 0, v, d⟩) = none := by
    revert hv
    simp only [Joint.validate, Joint.setDefaults, Joint.validateSums]
    rw [if_neg (by omega : ¬ (w : Int) < 0), if_neg (by omega : ¬ (0 : Int) < 0)]
    cases d with
    | none => exact id
    | some d =>
      dsimp only [Joint.validateDecay]
      by_cases a : ((d ≤ᵇ A.ofInt 0) || (A.ofInt 1 ≤ᵇ d)) = true
      · rw [if_pos a, if_pos a]; exact id
      · rw [if_neg a, if_neg a, if_neg (by omega : ¬ (0 : Int) > 0)]
        by_cases b : (w : Int) > 0
        · rw [if_pos b]; intro h; exfalso; revert h; simp only []; split <;> simp; split_ifs <;> simp
        · rw [if_neg b]; exact id
  simp only [JFP.newCore, hv] at hc
  simp only [JFP.newCore, hv0]
  simp only [JFP.mk, Joint.setDefaults] at hc ⊢
  rcases e : JFP.initSums A ((some (s.getD [])).getD []) (fun _ => none) with m | _ | _ <;> rw [e] at hc
  · simp only at hc ⊢
    cases hc
    refine ⟨_, rfl, fun ops hf => ?_⟩
    refine agree_mono (JFP.run_wide A (w := w) (a := ⟨_, _, _, _, _, _, _, _⟩) (b := ⟨_, _, _, _, _, _, _, _⟩) ⟨rfl, Ring.new w, rfl, Room.new w⟩ ops hf) ?_
    rintro a b ⟨-, q, rfl, -⟩
    exact ⟨rfl, fun _ => rfl, fun _ => rfl, rfl, fun _ => rfl⟩
  all_goals cases hc

/-- `Quantile`, `Median`, `IQR` over any container and in any arithmetic. -/
theorem C89_quantile {F : Type} [GoOrd F] (st : Quant.Statistic F) (w : Nat) (i : Int) (ops : List (MOp F)) (hf : Fits w ops) :
    Agree (fun a b => ∀ O : FOps F, (∀ x, a.value O x = b.value O x) ∧ a.medianValue O = b.medianValue O ∧ a.iqrValue O = b.iqrValue O) []
      ((Quant.Quantile.fresh st w i).run ops) ((Quant.Quantile.fresh st 0 i).run ops) := by
  refine agree_mono (Quant.Quantile.run_wide (a := Quant.Quantile.fresh st w i) (b := Quant.Quantile.fresh st 0 i) ⟨rfl, Ring.new w, rfl, Room.new w⟩ ops hf) ?_
  rintro a b ⟨-, q, rfl, -⟩ O
  exact ⟨fun _ => rfl, rfl, rfl⟩

/-- `HeapMedian` with any comparison, NaN included. -/
theorem C89_heap_median {F : Type} [GoOrd F] (z : F) (w : Nat) (ops : List (MOp F)) (hf : Fits w ops) :
    Agree (fun a b => ∀ O, HeapMedian.value O a = HeapMedian.value O b) []
      (HeapMedian.run (HeapMedian.fresh z w) ops) (HeapMedian.run (HeapMedian.fresh z 0) ops) := by
  refine agree_mono (HeapMedian.run_wide (a := HeapMedian.fresh z w) (b := HeapMedian.fresh z 0) ⟨rfl, Ring.new w, rfl, Room.new w⟩ ops hf) ?_
  rintro a b ⟨-, q, rfl, -⟩ O
  rfl

theorem windowOf_fits {F : Type} {w : Nat} {ops : List (MOp F)} (hf : Fits w ops) : windowOf w ops = windowOf 0 ops := by
  have := hf ops [] (by simp)
  unfold windowOf lastN
  rw [if_pos rfl]
  split_ifs
  · rfl
  · rw [Nat.sub_eq_zero_of_le this, List.drop_zero]

/-- `Max` and `Min`, partial: without NaN. -/
theorem C89_minmax_partial {F : Type} [LinearOrder F] [BoundedOrder F] (w : Nat) (ops : List (MOp F)) (hf : Fits w ops) :
    Agree (fun a b => MinMax.Max.value a = MinMax.Max.value b) []
      (MinMax.Max.run (.ofOrder F) (MinMax.Max.fresh (.ofOrder F) w) ops) (MinMax.Max.run (.ofOrder F) (MinMax.Max.fresh (.ofOrder F) 0) ops) ∧
    Agree (fun a b => MinMax.Min.value a = MinMax.Min.value b) []
      (MinMax.Min.run (.ofOrder F) (MinMax.Min.fresh (.ofOrder F) w) ops) (MinMax.Min.run (.ofOrder F) (MinMax.Min.fresh (.ofOrder F) 0) ops) := by
  have hw := windowOf_fits hf
  have hn (w : Nat) : ¬ (w : Int) < 0 := by omega
  constructor
  · obtain ⟨s, e, h1, h2⟩ := C25_max (F := F) (window := w) (by rw [MinMax.Max.new, if_neg (hn w)]) ops
    obtain ⟨t, e', h1', h2'⟩ := C25_max (F := F) (window := (0 : Nat)) (by rw [MinMax.Max.new, if_neg (hn 0)]) ops
    rw [e]
    refine (?_ : Agree _ _ (Go.val (s, [])) (MinMax.Max.run (.ofOrder F) (MinMax.Max.fresh (.ofOrder F) ((0 : Nat) : Int)) ops))
    rw [e']
    refine ⟨?_, rfl⟩
    dsimp only
    by_cases hs : since ops = []
    · rw [h1 hs, h1' hs]
    · obtain ⟨v, hv, m, l⟩ := h2 hs
      obtain ⟨v', hv', m', l'⟩ := h2' hs
      simp only [Int.toNat_natCast, hw] at m l m' l'
      rw [hv, hv', le_antisymm (l' v m) (l v' m')]
  · obtain ⟨s, e, h1, h2⟩ := C26_min (F := F) (window := w) (by rw [MinMax.Min.new, if_neg (hn w)]) ops
    obtain ⟨t, e', h1', h2'⟩ := C26_min (F := F) (window := (0 : Nat)) (by rw [MinMax.Min.new, if_neg (hn 0)]) ops
    rw [e]
    refine (?_ : Agree _ _ (Go.val (s, [])) (MinMax.Min.run (.ofOrder F) (MinMax.Min.fresh (.ofOrder F) ((0 : Nat) : Int)) ops))
    rw [e']
    refine ⟨?_, rfl⟩
    dsimp only
    by_cases hs : since ops = []
    · rw [h1 hs, h1' hs]
    · obtain ⟨v, hv, m, l⟩ := h2 hs
      obtain ⟨v', hv', m', l'⟩ := h2' hs
      simp only [Int.toNat_natCast, hw] at m l m' l'
      rw [hv, hv', le_antisymm (l v' m') (l' v m)]

/-- With NaN refuted: 3, NaN has the maximum 3 in a window of two, NaN without one. -/
theorem C89_nan_refuted :
    ∃ s t, MinMax.Max.run (.ofNaN (Fin 10)) (MinMax.Max.fresh (.ofNaN (Fin 10)) 2) [.push (.num 3), .push .nan] = .val (s, []) ∧
      MinMax.Max.run (.ofNaN (Fin 10)) (MinMax.Max.fresh (.ofNaN (Fin 10)) 0) [.push (.num 3), .push .nan] = .val (t, []) ∧
      MinMax.Max.value s = .val (.ok (.num 3)) ∧ MinMax.Max.value t = .val (.ok .nan) := ⟨_, _, rfl, rfl, rfl, rfl⟩

/-- A history that fits into a window of 3, and the two cores after it in binary64. -/
example : Fits 3 [.push (1 : ℚ), .push 2, .clear, .push 4, .push 5] ∧
    fpObs (FP.run FP.Arith.b64 (FP.mk FP.Arith.b64 ⟨some [2], some 3, none⟩) [.push (1 : ℚ), .push 2, .clear, .push 4, .push 5]) =
      fpObs (FP.run FP.Arith.b64 (FP.mk FP.Arith.b64 ⟨some [2], some 0, none⟩) [.push (1 : ℚ), .push 2, .clear, .push 4, .push 5]) := by
  refine ⟨?_, by decide +kernel⟩
  intro pre post e
  have : pre = [MOp.push (1 : ℚ), .push 2, .clear, .push 4, .push 5].take pre.length := by rw [e, List.take_left]
  have hl : pre.length ≤ 5 := by have := congrArg List.length e; simp at this; omega
  rw [this]
  generalize pre.length = n at hl ⊢
  interval_cases n <;> decide

/-- Beyond the window it does make a difference. -/
example : ¬ Fits 2 [.push (1 : ℚ), .push 2, .push 4] := fun h => absurd (h [.push 1, .push 2, .push 4] [] rfl) (by decide)

end Verif.Props
