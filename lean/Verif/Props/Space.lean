import Verif.Proofs.Space
import Verif.Proofs.QuantileWeak
import Verif.Proofs.Rounded
import Verif.Proofs.JointFP
import Verif.Props.JointMetric

/-! # C85: the memory of complexity.md

Counted are the values a metric keeps: nodes of containers, entries of heaps, deques and maps, and the slots of its ring buffers, which are
allocated up front (a ring buffer of capacity `c` holds at most `c` values). `n` is the number of values in the window. -/

namespace Verif.Props
open Verif Verif.Spec Verif.Quant

/-- C85 for `Quantile` with AVL: exactly `n` nodes, and at most `2w` slots in the queue. Missing: streams with NaN, where it is false
(below). -/
theorem C85_avl_partial {F : Type} [LinearOrder F] (w : Nat) (i : Int) (ops : List (MOp F)) :
    ∃ q, (Quantile.fresh (avlStat F) w i).run ops = .val (q, []) ∧ (Avl.Tree.root q.statistic).toList.length = (windowOf w ops).length ∧
      q.queue.cap ≤ 2 * w := by
  obtain ⟨q, e, h⟩ := run_spec avlStat_lawful w i ops (streamOK_true w ops)
  refine ⟨q, e, ?_, h.cap ▸ Ring.roundUp_le w⟩
  rw [← Multiset.coe_card, h.rep.content]; rfl

/-- C85 for `Quantile` with a red-black tree: at most `n` nodes, after every history whose pushes return. Missing: NaN. -/
theorem C85_rb_partial {F : Type} [LinearOrder F] (w : Nat) (i : Int) (ops : List (MOp F)) {q : Quantile (rbStat F)} {log : List Err}
    (hrun : (Quantile.fresh (rbStat F) w i).run ops = .val (q, log)) :
    (Rb.Tree.root q.statistic).toList.length ≤ (windowOf w ops).length ∧ q.queue.cap ≤ 2 * w := by
  obtain ⟨-, h⟩ := run_weak rbStat_weak w i ops hrun
  refine ⟨?_, h.cap ▸ Ring.roundUp_le w⟩
  have := Multiset.card_le_card h.rep.2.2
  simpa using this

/-- Window 3, with a duplicate among the pushes: three nodes, four slots. -/
example : ∃ q, (Quantile.fresh (rbStat ℕ) 3 Linear).run ([4, 2, 2, 7, 1].map .push) = .val (q, []) ∧
    (Rb.Tree.root q.statistic).toList.length = 3 ∧ q.queue.cap = 4 := ⟨_, rfl, by decide +kernel, rfl⟩

/-- C85 for `Quantile` with a skip list: the nodes that can be reached from the head, on any level, are among `n` nodes, each with at most
`maxLevel` pointers, after every history whose pushes return. Missing: NaN. -/
theorem C85_skip_partial {F : Type} [LinearOrder F] [Nonempty F] {M : Nat} (hM : 0 < M) (draws : Nat → Nat → Bool) (w : Nat) (i : Int)
    (ops : List (MOp F)) {q : Quantile (skipStat F M draws)} {log : List Err}
    (hrun : (Quantile.fresh (skipStat F M draws) w i).run ops = .val (q, log)) :
    (∃ A : List Nat, A.length = (windowOf w ops).length ∧ ∀ a ∈ 0 :: A, (Skip.SkipList.store q.statistic a).level ≤ M ∧
      ∀ l < (Skip.SkipList.store q.statistic a).level, ∀ b, (Skip.SkipList.store q.statistic a).next l = some b → b ∈ A) ∧
      q.queue.cap ≤ 2 * w := by
  obtain ⟨-, h⟩ := run_weak (skipStat_weak hM draws) w i ops hrun
  refine ⟨?_, h.cap ▸ Ring.roundUp_le w⟩
  obtain ⟨hmax, A, V, hI, hA⟩ := h.rep
  refine ⟨A, ?_, fun a ha => ⟨?_, fun l hl b hb => ?_⟩⟩
  · have := congrArg Multiset.card hA
    simpa using this
  · rcases List.mem_cons.1 ha with rfl | ha
    · exact (hI.links.hl.trans hmax).le
    · exact (hI.links.lvl a ha).2.trans hmax.le
  · obtain ⟨X, Y, hXY⟩ := List.append_of_mem ha
    have hn := hI.links.link X a Y hXY l hl
    rw [show Skip.nx q.statistic a l = some b from hb] at hn
    have hb : b ∈ Y := List.mem_of_find?_eq_some hn.symm
    cases X with
    | nil => simp only [List.nil_append, List.cons.injEq] at hXY; rw [hXY.2]; exact hb
    | cons z Z =>
      simp only [List.cons_append, List.cons.injEq] at hXY
      rw [hXY.2]; simp [hb]

/-- Such a run: window 2, four pushes, two levels. -/
example : ∃ q, (Quantile.fresh (skipStat ℕ 2 fun i _ => i % 2 == 0) 2 Linear).run ([4, 2, 7, 1].map .push) = .val (q, []) ∧
    Skip.SkipList.length q.statistic = 2 := ⟨_, rfl, by decide +kernel⟩

/-- C85 for `HeapMedian`: `n` items in the heaps, for every comparison (NaN included), every window and every history whose pushes
return. -/
theorem C85_heap_median {F : Type} [GoOrd F] (zero : F) (w : Nat) (ops : List (MOp F)) {s : HeapMedian.HM F} {log : List Err}
    (hrun : HeapMedian.run (HeapMedian.fresh zero w) ops = .val (s, log)) :
    s.low.items.length + s.high.items.length = (windowOf w ops).length ∧ s.queue.cap ≤ 2 * w := by
  obtain ⟨-, h⟩ := HeapMedian.run_shape zero w ops hrun
  exact ⟨h.stored, h.cap ▸ Ring.roundUp_le w⟩

/-- With a NaN in the stream: window 3, five pushes, three items. -/
example : ∃ s, HeapMedian.run (HeapMedian.fresh (.num 0) 3) ([.num 4, .nan, .num 7, .num 1, .num 2].map (.push (F := WithNaN ℕ))) = .val (s, []) ∧
    s.low.items.length + s.high.items.length = 3 := ⟨_, rfl, by decide +kernel⟩

/-- C85 for `Max` and `Min`: at most `w` entries in the deque, none for a global metric. Missing: NaN. -/
theorem C85_minmax_partial {F : Type} [LinearOrder F] [BoundedOrder F] (w : Nat) (ops : List (MOp F)) :
    (∃ s, MinMax.Max.run (.ofOrder F) (MinMax.Max.fresh (.ofOrder F) w) ops = .val (s, []) ∧ s.deque.length ≤ w ∧ s.queue.cap ≤ 2 * w) ∧
    ∃ s, MinMax.Min.run (.ofOrder F) (MinMax.Min.fresh (.ofOrder F) w) ops = .val (s, []) ∧ s.deque.length ≤ w ∧ s.queue.cap ≤ 2 * w := by
  constructor
  · obtain ⟨s, e, h⟩ := MinMax.Max.run_inv w ops
    obtain ⟨s', e', h'⟩ := MinMax.Max.run_w (.ofOrder F) w ops
    rw [e] at e'; cases e'
    refine ⟨s, e, ?_, h'.cap ▸ Ring.roundUp_le w⟩
    by_cases hw : w = 0
    · rw [(h.m hw).1]; simp
    · rw [h.d hw]; exact Nat.le_trans (MinMax.smax_length_le _) (lastN_length_le hw _)
  · obtain ⟨s, e, h⟩ := MinMax.Min.run_inv w ops
    obtain ⟨s', e', h'⟩ := MinMax.Min.run_w (.ofOrder F) w ops
    rw [e] at e'; cases e'
    refine ⟨s, e, ?_, h'.cap ▸ Ring.roundUp_le w⟩
    by_cases hw : w = 0
    · rw [(h.m hw).1]; simp
    · rw [h.d hw]; exact Nat.le_trans (MinMax.smax_length_le _) (lastN_length_le hw _)

/-- C85 for moment cores, in any arithmetic: the number of power sums never changes and is one more than the largest configured exponent;
at most `2w` slots in the queue, none without a window. -/
theorem C85_moment {F : Type} [GoOrd F] (A : FP.Arith F) {cfg : Moment.Config F} {c : Moment.Core F} (hn : FP.newCore A cfg = .ok c)
    (hs : ∀ k ∈ cfg.sums.getD [], k ≤ 65) {w : Nat} (hw : cfg.window = some (w : Int)) (ops : List (MOp F)) :
    ∃ c', FP.run A c ops = .val (c', []) ∧ (∀ k, k < c'.len ↔ ∃ j ∈ cfg.sums.getD [], (k : Int) ≤ j) ∧ c'.queue.cap ≤ 2 * w := by
  obtain ⟨c', e, B, -⟩ := FP.core_track A hn hs hw (FP.track_true A _ _ _) ops
  refine ⟨c', e, fun k => ?_, B.cap ▸ Ring.roundUp_le w⟩
  obtain ⟨-, -, rfl, -⟩ := FP.newCore_ok A hn
  rw [B.len]; exact FP.lt_mk_len A k

/-- A configuration meeting the hypotheses: exponents 2 and 4, window 3. -/
example : ∃ c, FP.newCore (FP.Arith.exact ℚ) ⟨some [2, 4], some 3, none⟩ = .ok c ∧ c.len = 5 ∧ c.queue.cap = 4 :=
  ⟨_, rfl, by decide +kernel, by decide +kernel⟩

/-- C85 for joint cores, in any arithmetic: the keys of both maps are among `Σ p(m)` keys, where `p(m) = (m₁+1)⋯(m_k+1)` (less than the
documented `t a²`), one mean per variable, and at most `2w` points in the queue, each with one value per variable. -/
theorem C85_joint {F : Type} [GoOrd F] (A : FP.Arith F) {cfg : Joint.Config F} {c : Joint.Core F} (hn : JFP.newCore A cfg = .val (.ok c))
    (hs : ∀ t ∈ cfg.sums.getD [], ∀ k ∈ t, k ≤ 65) {n w : Nat} (hw : cfg.window = some (w : Int)) (hv : Joint.varsOf cfg = n)
    (ops : List (MOp (List F))) :
    ∃ c', JFP.run A c ops = .val (c', JFP.arityErrors n ops) ∧
      (∃ ks : List Int, ks.length = ((cfg.sums.getD []).map fun t => (t.map fun k => (k + 1).toNat).prod).sum ∧
        (∀ k, c'.sums k ≠ none → k ∈ ks) ∧ ∀ k, c'.newSums k ≠ none → k ∈ ks) ∧
      c'.means.length = n ∧ c'.queue.cap ≤ 2 * w ∧ (w ≠ 0 → ∀ x ∈ c'.queue.items, x.length = n) := by
  obtain ⟨c', e, B, -⟩ := JFP.core_track A hn hs hw hv (JFP.track_true A _ _ _ _) ops
  refine ⟨c', e, ⟨(cfg.sums.getD []).flatMap fun t => (Joint.visited false t).map Joint.hash, ?_, ?_, ?_⟩, B.mlen, B.cap ▸ Ring.roundUp_le w,
    fun h0 x hx => ?_⟩
  · simp [List.length_flatMap, Joint.visited_length]
  · intro k hk
    obtain ⟨t, ht, a, ha, rfl⟩ := (B.keys k).1 hk
    exact List.mem_flatMap.2 ⟨t, ht, List.mem_map.2 ⟨a, Joint.mem_visited.2 ha, rfl⟩⟩
  · intro k hk
    obtain ⟨t, ht, a, ha, rfl⟩ := (B.nkeys k).1 hk
    exact List.mem_flatMap.2 ⟨t, ht, List.mem_map.2 ⟨a, Joint.mem_visited.2 ha, rfl⟩⟩
  · rw [B.q h0, lastN, if_neg h0] at hx
    exact B.xlen x (List.mem_of_mem_drop hx)

/-- A configuration meeting the hypotheses: the tuples (1, 1) and (2, 0), window 3; at most 7 keys. -/
example : ∃ c, JFP.newCore (FP.Arith.exact ℚ) ⟨some [[1, 1], [2, 0]], some 3, some 2, none⟩ = .val (.ok c) ∧ c.queue.cap = 4 ∧
    (([[1, 1], [2, 0]] : List Joint.Tuple).map fun t => (t.map fun k => (k + 1).toNat).prod).sum = 7 :=
  ⟨_, rfl, by decide +kernel, by decide +kernel⟩

/-- C85 for `Autocov` and `Autocorr`: at most `2 lag` slots in the lag queue and `2w` in the queue of the core. -/
theorem C85_auto {K : Type} [Field K] [LinearOrder K] [CharZero K] (corr : Bool) (lag w : Nat) (ops : List (MOp K)) :
    ∃ (a a0 a' : Joint.Auto K) (c : Joint.Core K), Joint.Auto.new corr lag w = .ok a ∧ a.init = .val (a0, none) ∧
      Joint.Auto.run a0 ops = .val (a', []) ∧ a'.core = some c ∧ a'.queue.cap ≤ 2 * lag ∧ c.queue.cap ≤ 2 * w ∧ c.means.length = 2 := by
  obtain ⟨a, a0, h1, h2, h3⟩ := Joint.auto_init (K := K) corr lag w
  obtain ⟨a', h4, h5⟩ : ∃ a', Joint.Auto.run a0 ops = .val (a', []) ∧ Joint.AInv (Joint.autoTuples corr) lag w (since ops) corr a' := by
    cases corr with
    | true => exact Joint.run_auto (ts := Joint.autoTuples true) Joint.good_corr (fun _ => Joint.noOverlap_corr) h3 ops
    | false => exact Joint.run_auto (ts := Joint.autoTuples false) Joint.good_cov (fun _ => Joint.noOverlap_cov) h3 ops
  obtain ⟨c, hc, hW⟩ := h5.core
  refine ⟨a, a0, a', c, h1, h2, h4, hc, h5.cap ▸ Ring.roundUp_le lag, hW.cap ▸ Ring.roundUp_le w, ?_⟩
  rw [hW.rep.means]; exact hW.rep.len

/-- C85 refuted with NaN: whatever the window, a stream of `n` NaN leaves `n` nodes in a red-black tree and `n` entries in the deques of
`Max` and `Min`: nothing is ever released. -/
theorem C85_nan_refuted {F : Type} [LinearOrder F] (O : MinMax.Ext (WithNaN F)) {w : Nat} (hw : w ≠ 0) (i : Int) (n : Nat) :
    (∃ q, (Quantile.fresh (rbStat (WithNaN F)) w i).run (List.replicate n (.push .nan)) = .val (q, []) ∧
      (Rb.Tree.root q.statistic).toList.length = n) ∧
    (∃ s, MinMax.Max.run O (MinMax.Max.fresh O w) (List.replicate n (.push .nan)) = .val (s, []) ∧ s.deque.length = n) ∧
    ∃ s, MinMax.Min.run O (MinMax.Min.fresh O w) (List.replicate n (.push .nan)) = .val (s, []) ∧ s.deque.length = n := by
  refine ⟨?_, ?_, ?_⟩
  · obtain ⟨q, e, h⟩ := run_nans (F := F) w i n
    exact ⟨q, e, h.nodes⟩
  · obtain ⟨s, e, h⟩ := MinMax.Max.run_nans O hw n
    exact ⟨s, e, by rw [h]; simp⟩
  · obtain ⟨s, e, h⟩ := MinMax.Min.run_nans O hw n
    exact ⟨s, e, by rw [h]; simp⟩

/-- C85 refuted with NaN for the other two containers: AVL keeps four nodes with window 3, a skip list three with window 1. -/
theorem C85_avl_skip_nan_refuted :
    (∃ q, (Quantile.fresh (avlStat (WithNaN ℕ)) 3 Linear).run ([.num 0, .nan, .num 1, .num 2, .nan, .num 3].map .push) = .val (q, []) ∧
      (Avl.Tree.root q.statistic).toList.length = 4) ∧
    ∃ q, (Quantile.fresh (skipStat (WithNaN ℕ) 2 fun _ _ => false) 1 Linear).run ([.nan, .nan, .nan].map .push) = .val (q, []) ∧
      Skip.SkipList.length q.statistic = 3 :=
  ⟨⟨_, rfl, by decide +kernel⟩, _, rfl, by decide +kernel⟩

end Verif.Props
