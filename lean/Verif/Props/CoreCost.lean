import Verif.Proofs.CoreCost
import Verif.Proofs.Rounded

/-! # C87: the running times of complexity.md for the two cores

Steps are counted by the clocked versions in `Model/CoreCost.lean`: iterations of the loops of core.go and tuple.go and calls of callbacks.
complexity.md promises `O(k²)` for `Push` of a moment core whose largest exponent is `k`, and `O(t d a²)` for a joint core with `d` variables
and `t` tuples, `a` being the largest `p(m) = (m₁+1)⋯(m_d+1)`. -/

namespace Verif.Props
open Verif Verif.Spec

/-- C87 for moment cores, in any arithmetic, after every history, with and without a window or a decay: at most `K² + K + 1` iterations. -/
theorem C87_moment {F : Type} [GoOrd F] (A : FP.Arith F) {cfg : Moment.Config F} {c : Moment.Core F} (hn : FP.newCore A cfg = .ok c)
    (hs : ∀ k ∈ cfg.sums.getD [], k ≤ 65) {w : Nat} (hw : cfg.window = some (w : Int)) (ops : List (MOp F)) (x : F) {K : Nat}
    (hK : ∀ k ∈ cfg.sums.getD [], k ≤ (K : Int)) :
    ∃ c', FP.run A c ops = .val (c', []) ∧ (FP.pushT A c' x).out = FP.push A c' x ∧ (FP.pushT A c' x).cost ≤ K ^ 2 + K + 1 := by
  obtain ⟨c', e, B, -⟩ := FP.core_track A hn hs hw (FP.track_true A _ _ _) ops
  refine ⟨c', e, FP.pushT_out A c' x, FP.pushT_cost A c' x ?_⟩
  obtain ⟨-, -, rfl, -⟩ := FP.newCore_ok A hn
  rw [B.len]
  by_contra h
  obtain ⟨j, hj, h1⟩ := (FP.lt_mk_len A (K + 1)).1 (not_le.1 h)
  have := hK j hj
  push_cast at h1
  omega

/-- C87 for moment cores, the bound is sharp: without a window every `Push` takes exactly `K (K-1) / 2` iterations, `K` being the largest
exponent. -/
theorem C87_moment_exact {F : Type} [GoOrd F] (A : FP.Arith F) {cfg : Moment.Config F} {c : Moment.Core F} (hn : FP.newCore A cfg = .ok c)
    (hs : ∀ k ∈ cfg.sums.getD [], k ≤ 65) (hw : cfg.window = some 0) (ops : List (MOp F)) (x : F) {K : Nat}
    (hK : ∀ k ∈ cfg.sums.getD [], k ≤ (K : Int)) (hmem : (K : Int) ∈ cfg.sums.getD []) :
    ∃ c', FP.run A c ops = .val (c', []) ∧ 2 * (FP.pushT A c' x).cost = K * (K - 1) := by
  obtain ⟨c', e, B, -⟩ := FP.core_track A hn hs (w := 0) hw (FP.track_true A _ _ _) ops
  obtain ⟨c2, e2, -⟩ := FP.core_track A hn hs (w := 0) hw (FP.track_true A _ _ _) (ops ++ [.push x])
  have hout : ∃ r, FP.push A c' x = .val r := by
    unfold FP.run at e e2
    rw [Go.runOps_append, e] at e2
    change Go.runOps _ (c', []) [MOp.push x] = _ at e2
    cases h : FP.push A c' x with
    | val r => exact ⟨r, rfl⟩
    | panic => simp [Go.runOps, logged, FP.step, h] at e2
    | hang => simp [Go.runOps, logged, FP.step, h] at e2
  refine ⟨c', e, ?_⟩
  obtain ⟨r, hr⟩ := hout
  rw [← FP.pushT_out] at hr
  have hlen : c'.len = K + 1 := by
    obtain ⟨-, -, rfl, -⟩ := FP.newCore_ok A hn
    rw [B.len]
    refine le_antisymm (not_lt.1 fun h => ?_) ((FP.lt_mk_len A K).2 ⟨K, hmem, le_rfl⟩)
    obtain ⟨j, hj, h1⟩ := (FP.lt_mk_len A (K + 1)).1 h
    have := hK j hj
    push_cast at h1
    omega
  have hw0 : ¬ c'.window ≠ 0 := by rw [B.win]; simp
  unfold FP.pushT at hr ⊢
  rw [if_neg hw0] at hr ⊢
  rw [(FP.pushAddT_cost A c' x).2 r hr, hlen, Nat.add_sub_cancel]

/-- The clock at work: exponents 2 and 4, the second value of a global stream: six iterations; with window 1 the five zeroed sums of the
eviction come on top. -/
example : (∃ c c', FP.newCore (FP.Arith.exact ℚ) ⟨some [2, 4], some 0, none⟩ = .ok c ∧ FP.run (FP.Arith.exact ℚ) c [.push 1] = .val (c', []) ∧
      (FP.pushT (FP.Arith.exact ℚ) c' 3).cost = 6) ∧
    ∃ c c', FP.newCore (FP.Arith.exact ℚ) ⟨some [2, 4], some 1, none⟩ = .ok c ∧ FP.run (FP.Arith.exact ℚ) c [.push 1] = .val (c', []) ∧
      (FP.pushT (FP.Arith.exact ℚ) c' 3).cost = 11 :=
  ⟨⟨_, _, rfl, rfl, by decide +kernel⟩, _, _, rfl, rfl, by decide +kernel⟩

/-- C87 for joint cores without a window, with or without a decay, in any arithmetic, after every history: at most `d + 13 t d a²` steps. -/
theorem C87_joint {F : Type} [GoOrd F] (A : FP.Arith F) {cfg : Joint.Config F} {c : Joint.Core F} (hn : JFP.newCore A cfg = .val (.ok c))
    (hs : ∀ t ∈ cfg.sums.getD [], ∀ k ∈ t, k ≤ 65) {d : Nat} (hw : cfg.window = some 0) (hv : Joint.varsOf cfg = d)
    (ops : List (MOp (List F))) (x : List F) {a : Nat} (ha : ∀ t ∈ cfg.sums.getD [], (t.map fun k => (k + 1).toNat).prod ≤ a) :
    ∃ c', JFP.run A c ops = .val (c', JFP.arityErrors d ops) ∧ (JFP.pushT A c' x).out = JFP.push A c' x ∧
      (JFP.pushT A c' x).cost ≤ d + 13 * ((cfg.sums.getD []).length * d * a ^ 2) := by
  obtain ⟨c', e, B, -⟩ := JFP.core_track A hn hs (w := 0) hw hv (JFP.track_true A _ _ _ _) ops
  refine ⟨c', e, JFP.pushT_out A c' x, ?_⟩
  obtain ⟨hts, hd, hbig⟩ := JFP.sizes A hn hs hv ha
  unfold JFP.pushT
  split
  · simp
  · rename_i hx
    rw [if_neg (by rw [B.win]; simp)]
    have hk := B.nkeys
    rw [← B.tup] at hk
    have h1 := JFP.pushAddT_cost A c' x ((not_not.1 hx).trans B.mlen) B.mlen (by rw [B.tup]; exact hts) (by rw [B.tup]; exact ha) hk
    rw [B.tup] at h1
    have h2 := Joint.keyCountOf_le ha
    exact h1.trans (Nat.add_le_add_left (hbig _ h2) d)

/-- C87 for windowed joint cores, what holds: at most `2d + 27 t d a² + t s` steps, where `s` is the number of tracked sums. Missing: the
last term is not in complexity.md; it is real (next theorem). -/
theorem C87_joint_window_partial {F : Type} [GoOrd F] (A : FP.Arith F) {cfg : Joint.Config F} {c : Joint.Core F}
    (hn : JFP.newCore A cfg = .val (.ok c)) (hs : ∀ t ∈ cfg.sums.getD [], ∀ k ∈ t, k ≤ 65) {d w : Nat} (hw : cfg.window = some (w : Int))
    (hv : Joint.varsOf cfg = d) (ops : List (MOp (List F))) (x : List F) {a : Nat}
    (ha : ∀ t ∈ cfg.sums.getD [], (t.map fun k => (k + 1).toNat).prod ≤ a) :
    ∃ c', JFP.run A c ops = .val (c', JFP.arityErrors d ops) ∧ (JFP.pushT A c' x).out = JFP.push A c' x ∧
      (JFP.pushT A c' x).cost ≤ 2 * d + 27 * ((cfg.sums.getD []).length * d * a ^ 2) + (cfg.sums.getD []).length * c'.sums.keyCount := by
  obtain ⟨c', e, B, -⟩ := JFP.core_track A hn hs hw hv (JFP.track_true A _ _ _ _) ops
  refine ⟨c', e, JFP.pushT_out A c' x, ?_⟩
  obtain ⟨hts, hd, hbig⟩ := JFP.sizes A hn hs hv ha
  exact JFP.pushT_cost A hts ha hbig hd B x

/-- C87 for windowed joint cores: every `Push` into a full window of two or more takes at least `t s` steps, because `remove` copies all
`s` sums once per tuple (core.go:324-326). With all pairs of `d` variables, `t` and `s` exceed `d (d-1) / 2` and `a = 4`: this is of order
`d⁴`, and `t d a²` is of order `d³`. -/
theorem C87_joint_window_lower_partial {F : Type} [GoOrd F] (A : FP.Arith F) {cfg : Joint.Config F} {c : Joint.Core F}
    (hn : JFP.newCore A cfg = .val (.ok c)) (hs : ∀ t ∈ cfg.sums.getD [], ∀ k ∈ t, k ≤ 65) {d w : Nat} (hw : cfg.window = some (w : Int))
    (hv : Joint.varsOf cfg = d) (h2 : 2 ≤ w) (ops : List (MOp (List F))) (hfull : w ≤ (since (ops.filter (okArity d))).length)
    (x : List F) (hx : x.length = d) :
    ∃ c', JFP.run A c ops = .val (c', JFP.arityErrors d ops) ∧ (JFP.pushT A c' x).out = JFP.push A c' x ∧
      (cfg.sums.getD []).length * c'.sums.keyCount ≤ (JFP.pushT A c' x).cost := by
  obtain ⟨c', e, B, -⟩ := JFP.core_track A hn hs hw hv (JFP.track_true A _ _ _ _) ops
  refine ⟨c', e, JFP.pushT_out A c' x, ?_⟩
  obtain ⟨hts, -, -⟩ := JFP.sizes A hn hs hv (JFP.le_foldr_max _)
  exact JFP.pushT_cost_ge A hts B h2 hfull x hx

/-- The hypotheses of the last theorem at work: all pairs of three variables and window 2, after two points: three tuples and seven sums (the
three pairs, the three single variables and the zero tuple), so at least 21 steps for copying alone. -/
example : ∃ c c', JFP.newCore (FP.Arith.exact ℚ) ⟨some [[1, 1, 0], [1, 0, 1], [0, 1, 1]], some 2, some 3, none⟩ = .val (.ok c) ∧
    JFP.run (FP.Arith.exact ℚ) c [.push [1, 2, 3], .push [4, 4, 1]] = .val (c', []) ∧
    21 ≤ (JFP.pushT (FP.Arith.exact ℚ) c' [0, 1, 0]).cost := by
  obtain ⟨c, hc⟩ : ∃ c, JFP.newCore (FP.Arith.exact ℚ) ⟨some [[1, 1, 0], [1, 0, 1], [0, 1, 1]], some 2, some 3, none⟩ = .val (.ok c) := ⟨_, rfl⟩
  have hs : ∀ t ∈ ([[1, 1, 0], [1, 0, 1], [0, 1, 1]] : List Joint.Tuple), ∀ k ∈ t, k ≤ 65 := by decide
  obtain ⟨c', e, B, -⟩ := JFP.core_track (FP.Arith.exact ℚ) hc hs (w := 2) (n := 3) rfl rfl (JFP.track_true _ _ _ _ _)
    [.push [1, 2, 3], .push [4, 4, 1]]
  refine ⟨c, c', hc, e, ?_⟩
  obtain ⟨hts, -, -⟩ := JFP.sizes _ hc hs (d := 3) rfl (JFP.le_foldr_max _)
  have h := JFP.pushT_cost_ge (FP.Arith.exact ℚ) hts B (le_refl 2) (by decide) [0, 1, 0] rfl
  rw [B.keys.keyCount, Joint.keyCountOf_eq] at h
  exact le_trans (by decide +kernel) h

end Verif.Props
