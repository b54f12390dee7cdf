import Verif.Proofs.Cost
import Verif.Proofs.QuantileCfg
import Verif.Proofs.HeapMedian
import Verif.Proofs.Space

/-! # C86: the running times of complexity.md for the quantile metrics

Steps are counted by the clocked versions in `Model/Cost.lean`: visited tree nodes and iterations of the heap loops. `n` is the number of
values in the window. complexity.md promises `O(log n)` for `Push` and `Value` of `Quantile` (whatever the implementation) and for `Push` of
`HeapMedian`. -/

namespace Verif.Props
open Verif Verif.Spec Verif.Quant

section
variable {F : Type} [LinearOrder F]

/-- C86 for AVL, `Push`: at most `6 log₂ (n+1) + 2` visited nodes, after every history. -/
theorem C86_avl_push (w : Nat) (i : Int) (ops : List (MOp F)) (x : F) :
    ∃ q, (Quantile.fresh (avlStat F) w i).run ops = .val (q, []) ∧ (q.pushT avlTiming x).out = q.push x ∧
      (q.pushT avlTiming x).cost ≤ 6 * Nat.log 2 ((windowOf w ops).length + 1) + 2 := by
  obtain ⟨q, e, h⟩ := run_spec avlStat_lawful w i ops (streamOK_true w ops)
  refine ⟨q, e, Quantile.pushT_out _ _ _, ?_⟩
  have pureR : ∀ {m : Timed (Avl.Node F)}, (do let r ← m; pure (⟨r⟩ : Avl.Tree F) : Timed (Avl.Tree F)).cost = m.cost := by
    intro m; rw [Timed.bind_cost]; cases m.out <;> simp
  have hl : ∀ {S : Multiset F} {t : Avl.Tree F}, Avl.Tree.Inv S t → t.root.levels ≤ 2 * Nat.log 2 (S.card + 1) := by
    intro S t ht
    have := ht.wf.levels_le
    rwa [← Multiset.coe_card, ht.content] at this
  have := pushT_cost_le avlTiming (A := 4 * Nat.log 2 ((windowOf w ops).length + 1) + 1) (B := 2 * Nat.log 2 ((windowOf w ops).length + 1) + 1)
    h x (fun hw hf z zs hz => ⟨?_, fun s hs => ?_⟩) (fun _ => ?_)
  · omega
  · refine (pureR.le.trans (Avl.Node.removeT_cost _ _)).trans ?_
    have := hl h.rep
    rw [Multiset.coe_card] at this
    omega
  · refine (pureR.le.trans (Avl.Node.addT_cost _ _)).trans ?_
    obtain ⟨s', e1, e2⟩ := avlStat_lawful.remove h.rep z trivial
    rw [hs] at e1; injection e1 with e1; subst e1
    have := hl e2
    have hm : Nat.log 2 ((((windowOf w ops : List F) : Multiset F).erase z).card + 1) ≤ Nat.log 2 ((windowOf w ops).length + 1) := by
      refine Nat.log_mono_right ?_
      have := Multiset.card_le_card (Multiset.erase_le z ((windowOf w ops : List F) : Multiset F))
      rw [Multiset.coe_card] at this
      omega
    omega
  · refine (pureR.le.trans (Avl.Node.addT_cost _ _)).trans ?_
    have := hl h.rep
    rw [Multiset.coe_card] at this
    omega

/-- C86 for AVL, `Value`: at most `4 log₂ (n+1) + 2` visited nodes, in any arithmetic and for any argument. -/
theorem C86_avl_value (O : FOps F) (w : Nat) (i : Int) (ops : List (MOp F)) (x : F) :
    ∃ q, (Quantile.fresh (avlStat F) w i).run ops = .val (q, []) ∧ (q.valueT O avlTiming x).out = q.value O x ∧
      (q.valueT O avlTiming x).cost ≤ 4 * Nat.log 2 ((windowOf w ops).length + 1) + 2 := by
  obtain ⟨q, e, h⟩ := run_spec avlStat_lawful w i ops (streamOK_true w ops)
  refine ⟨q, e, Quantile.valueT_out _ _ _ _, ?_⟩
  refine (valueT_cost O avlTiming q x (B := 2 * Nat.log 2 ((windowOf w ops).length + 1) + 1) (fun k => ?_)).trans (by omega)
  refine (Avl.Node.selectT_cost _ _).trans ?_
  have hl := h.rep.wf.levels_le
  rw [← Multiset.coe_card, h.rep.content, Multiset.coe_card] at hl
  omega

/-- The clock runs: eleven pushes into a window of 10, then the twelfth visits nodes for a removal and an addition. -/
example : ∃ q, (Quantile.fresh (avlStat ℕ) 10 0).run (([5, 3, 8, 1, 4, 7, 9, 2, 6, 0, 11] : List ℕ).map .push) = .val (q, []) ∧
    (q.pushT avlTiming 10).cost = 9 := ⟨_, rfl, by decide +kernel⟩

/-- C86 for red-black, `Value` and `Push`, what holds: on streams where the evicted value is unique in its window (C06), `Value` is
logarithmic, and `Push` takes at most the *square* of a logarithm. Missing: the logarithm for `Push`, which is false (next theorems), and
other streams, where the tree is not a search tree of the window any more (C06, C08). -/
theorem C86_rb_partial (O : FOps F) (w : Nat) (i : Int) (ops : List (MOp F)) (x y : F) (hu : EvictsUnique w (ops ++ [.push x])) :
    ∃ q, (Quantile.fresh (rbStat F) w i).run ops = .val (q, []) ∧ (q.pushT rbTiming x).out = q.push x ∧
      (q.pushT rbTiming x).cost ≤ (2 * Nat.log 2 ((windowOf w ops).length + 1) + 3) ^ 2 + (2 * Nat.log 2 ((windowOf w ops).length + 1) + 2) ∧
      (q.valueT O rbTiming y).out = q.value O y ∧ (q.valueT O rbTiming y).cost ≤ 4 * Nat.log 2 ((windowOf w ops).length + 1) + 4 := by
  have hu' : EvictsUnique w ops := fun pre z post e => hu pre z (post ++ [.push x]) (by simp [e])
  obtain ⟨q, e, h⟩ := run_spec rbStat_lawful w i ops (streamOK_rb hu')
  have pureR : ∀ {m : Timed (Rb.Node F)}, (do let r ← m; pure (⟨r⟩ : Rb.Tree F) : Timed (Rb.Tree F)).cost = m.cost := by
    intro m; rw [Timed.bind_cost]; cases m.out <;> simp
  have hl : ∀ {S : Multiset F} {t : Rb.Tree F}, Rb.Tree.Inv S t → t.root.realHeight ≤ 2 * Nat.log 2 (S.card + 1) + 1 := by
    intro S t ht
    have := ht.wf.height
    rwa [← Multiset.coe_card, ht.content] at this
  have h0 := hl h.rep
  rw [Multiset.coe_card] at h0
  refine ⟨q, e, Quantile.pushT_out _ _ _, ?_, Quantile.valueT_out _ _ _ _, ?_⟩
  · refine pushT_cost_le rbTiming h x (fun hw hf z zs hz => ?_) (fun _ => ?_)
    · have hc : Multiset.count z ((windowOf w ops : List F) : Multiset F) ≤ 1 := by
        have := hu ops x [] rfl hw hf z zs hz
        rw [show windowOf w ops = z :: zs from hz, Multiset.coe_count, List.count_cons_self, List.count_eq_zero_of_not_mem this]
      refine ⟨?_, fun s hs => ?_⟩
      · refine pureR.le.trans ?_
        have hc' : (Rb.Tree.root q.statistic).toList.count z ≤ 1 := by
          rw [← Multiset.coe_count, h.rep.content]; exact hc
        have := Rb.Node.removeT_cost_root ((Rb.Tree.root q.statistic).nodes + 1) z h.rep.wf h.rep.sorted hc'
        rwa [← Multiset.coe_card, h.rep.content, Multiset.coe_card] at this
      · refine (pureR.le.trans (Rb.Node.addT_cost _ _)).trans ?_
        obtain ⟨s', e1, e2⟩ := rbStat_lawful.remove h.rep z hc
        rw [hs] at e1; injection e1 with e1; subst e1
        have := hl e2
        have hm : Nat.log 2 ((((windowOf w ops : List F) : Multiset F).erase z).card + 1) ≤ Nat.log 2 ((windowOf w ops).length + 1) := by
          refine Nat.log_mono_right ?_
          have := Multiset.card_le_card (Multiset.erase_le z ((windowOf w ops : List F) : Multiset F))
          rw [Multiset.coe_card] at this
          omega
        have e3 : (((lastN w (since ops) : List F) : Multiset F).erase z).card = (((windowOf w ops : List F) : Multiset F).erase z).card := rfl
        omega
    · refine (pureR.le.trans (Rb.Node.addT_cost _ _)).trans ?_
      have e3 : (lastN w (since ops)).length = (windowOf w ops).length := rfl
      omega
  · refine (valueT_cost O rbTiming q y (B := 2 * Nat.log 2 ((windowOf w ops).length + 1) + 2) (fun k => ?_)).trans (by omega)
    exact (Rb.Node.selectT_cost _ _).trans (by omega)

/-- C86 refuted for red-black, universally: once a window of any size has been filled with increasing values, the next `Push` visits at
least `(log₂ (w+1) - 1)² / 8` nodes, because each recursive call of the removal searches the whole subtree again (rb/node.go:104-107). -/
theorem C86_rb_push_refuted {w : Nat} (i : Int) (z : F) (zs : List F) (hs : (z :: zs).Pairwise (· < ·)) (hl : (z :: zs).length = w) (x : F) :
    ∃ q, (Quantile.fresh (rbStat F) w i).run ((z :: zs).map .push) = .val (q, []) ∧ (q.pushT rbTiming x).out = q.push x ∧
      (Nat.log 2 (w + 1) - 1) ^ 2 ≤ 8 * (q.pushT rbTiming x).cost := by
  have hw : w ≠ 0 := by simp at hl; omega
  have hsince : ∀ l : List F, since (l.map MOp.push) = l := by
    intro l
    induction l using List.reverseRecOn with
    | nil => rfl
    | append_singleton l a ih => rw [List.map_append, List.map_singleton, since_push, ih]
  have hwin : windowOf w ((z :: zs).map .push) = z :: zs := by
    rw [windowOf, hsince, lastN, if_neg hw, hl]; simp
  have hu : EvictsUnique w ((z :: zs).map MOp.push) := by
    intro pre y post e hw' hf a as ha
    have h1 : pre.length < w := by
      have := congrArg List.length e
      simp only [List.length_map, List.length_append, List.length_cons] at this
      simp only [List.length_cons] at hl
      omega
    have h2 : ∀ l : List (MOp F), (since l).length ≤ l.length := by
      intro l
      induction l using List.reverseRecOn with
      | nil => simp
      | append_singleton l a ih => cases a <;> simp; omega
    have h3 : (windowOf w pre).length ≤ (since pre).length := by
      unfold windowOf lastN; split <;> simp
    have := h2 pre
    omega
  obtain ⟨q, e, h⟩ := run_spec rbStat_lawful w i _ (streamOK_rb hu)
  rw [hwin] at h
  refine ⟨q, e, Quantile.pushT_out _ _ _, ?_⟩
  have pureR : ∀ {m : Timed (Rb.Node F)}, (do let r ← m; pure (⟨r⟩ : Rb.Tree F) : Timed (Rb.Tree F)).cost = m.cost := by
    intro m; rw [Timed.bind_cost]; cases m.out <;> simp
  have hle := pushT_cost_ge rbTiming h hw hl x
  have hperm : (Rb.Tree.root q.statistic).toList.Perm (z :: zs) := Multiset.coe_eq_coe.1 h.rep.content
  have htl : (Rb.Tree.root q.statistic).toList = z :: zs :=
    hperm.eq_of_pairwise (fun a b _ _ h1 h2 => le_antisymm h1 h2) h.rep.sorted (hs.imp (fun h => le_of_lt h))
  have hsp : Rb.Node.SpineTo (Rb.Tree.root q.statistic) z := Rb.Node.spineTo_of_sorted htl (List.pairwise_cons.1 hs).1
  have hc : Multiset.count z (((z :: zs : List F)) : Multiset F) ≤ 1 := by
    rw [Multiset.coe_count, List.count_cons_self, List.count_eq_zero_of_not_mem]
    intro hm; exact absurd ((List.pairwise_cons.1 hs).1 z hm) (lt_irrefl _)
  obtain ⟨t', e1, -⟩ := rbStat_lawful.remove h.rep z hc
  obtain ⟨r', e2, -⟩ := Go.bind_eq_val.1 e1
  have h1 := Rb.Node.removeT_cost_ge _ hsp e2
  have h2 := h.rep.wf.spine_ge
  rw [htl, hl] at h2
  have h3 : (rbTiming.remove q.statistic z).cost =
    (Rb.Node.removeT ((Rb.Tree.root q.statistic).nodes + 1) (Rb.Tree.root q.statistic) z).cost := pureR
  rw [h3] at hle
  have h4 : Nat.log 2 (w + 1) - 1 ≤ 2 * (Rb.Tree.root q.statistic).spine := by omega
  have h5 : (Nat.log 2 (w + 1) - 1) ^ 2 ≤ (2 * (Rb.Tree.root q.statistic).spine) ^ 2 := Nat.pow_le_pow_left h4 2
  nlinarith

end

/-- So no constant makes `Push` of a red-black metric `O(log n)`. -/
theorem C86_rb_push_log_refuted : ¬ ∃ C : Nat, ∀ (w : Nat) (ops : List (MOp ℕ)) (x : ℕ) (q : Quantile (rbStat ℕ)),
    (Quantile.fresh (rbStat ℕ) w Linear).run ops = .val (q, []) → (q.pushT rbTiming x).cost ≤ C * (Nat.log 2 (w + 1) + 1) := by
  rintro ⟨C, h⟩
  have hw : 1 ≤ 2 ^ (8 * C + 12) - 1 := by
    have : 2 ^ 1 ≤ 2 ^ (8 * C + 12) := Nat.pow_le_pow_right (by norm_num) (by omega)
    omega
  obtain ⟨n, hn⟩ : ∃ n, 2 ^ (8 * C + 12) - 1 = n + 1 := ⟨_, (Nat.sub_add_cancel hw).symm⟩
  have hr : List.range (n + 1) = 0 :: (List.range n).map (· + 1) := by
    rw [List.range_succ_eq_map]
  obtain ⟨q, e, -, hc⟩ := C86_rb_push_refuted (F := ℕ) (w := n + 1) Linear 0 ((List.range n).map (· + 1))
    (by rw [← hr]; exact List.pairwise_lt_range) (by simp) 0
  have h1 := h _ _ 0 q e
  have h2 : Nat.log 2 (n + 1 + 1) = 8 * C + 12 := by
    have : n + 1 + 1 = 2 ^ (8 * C + 12) := by omega
    rw [this, Nat.log_pow (by norm_num)]
  rw [h2] at h1 hc
  have h3 : (8 * C + 12 - 1) = 8 * C + 11 := by omega
  rw [h3] at hc
  nlinarith

/-- The gap is visible for small windows: window 31 filled with 0, …, 30, then 31: 25 nodes for red-black, 11 for AVL. -/
example : (∃ q, (Quantile.fresh (rbStat ℕ) 31 Linear).run ((List.range 31).map .push) = .val (q, []) ∧ (q.pushT rbTiming 31).cost = 25) ∧
    ∃ q, (Quantile.fresh (avlStat ℕ) 31 Linear).run ((List.range 31).map .push) = .val (q, []) ∧ (q.pushT avlTiming 31).cost = 11 :=
  ⟨⟨_, rfl, by decide +kernel⟩, _, rfl, by decide +kernel⟩

/-- C86 for `HeapMedian`, `Push`: at most `5 log₂ (n+2) + 5` iterations of the heap loops, for every window, every comparison (NaN
included) and every history whose pushes return. -/
theorem C86_heap_median_push {F : Type} [GoOrd F] (zero : F) (w : Nat) (ops : List (MOp F)) {s : HeapMedian.HM F} {log : List Err}
    (hrun : HeapMedian.run (HeapMedian.fresh zero w) ops = .val (s, log)) (x : F) :
    (HeapMedian.pushT s x).out = HeapMedian.push s x ∧
      (HeapMedian.pushT s x).cost ≤ 5 * Nat.log 2 ((windowOf w ops).length + 2) + 5 := by
  have h := (HeapMedian.run_shape zero w ops hrun).2.stored
  exact ⟨HeapMedian.pushT_out _ _, by rw [← windowOf] at h; rw [← h]; exact HeapMedian.pushT_cost _ _⟩

/-- Window 10 holding 0, …, 9, then 10: the push runs nine iterations of the heap loops. -/
example : ∃ s, HeapMedian.run (HeapMedian.fresh 0 10) ((List.range 10).map .push) = .val (s, []) ∧ (HeapMedian.pushT s 10).cost = 9 :=
  ⟨_, rfl, by decide +kernel⟩

end Verif.Props
