import Verif.Proofs.HeapMedian
import Mathlib.Data.Rat.Floor

/-! # C21–C24: HeapMedian

A history is a list of `Push`/`Clear` calls on the metric returned by `NewHeapMedian(window)`. `since ops` are the values pushed since
the last `Clear`, `windowOf w ops` the last `w` of them. Exact arithmetic. -/

set_option linter.unusedSectionVars false

namespace Verif.Props
open Verif Verif.Spec Verif.HeapMedian

variable {K : Type} [Field K] [LinearOrder K] [FloorRing K]

/-- C21, in full: a global `HeapMedian` never fails, and after any non-empty stream its `Value` is the textbook median of all values
pushed since the last `Clear`. -/
theorem C21_heap_median_global (ops : List (MOp K)) (hne : since ops ≠ []) :
    ∃ s0 s v, new (0 : K) 0 = .ok s0 ∧ run s0 ops = .val (s, []) ∧ value (Quant.exact K) s = .val (.ok v) ∧
      IsMedian (since ops : List K) v := by
  obtain ⟨s, e, h⟩ := run_inv (w := 0) (by decide) (0 : K) ops
  have hlen := h.size
  rw [lastN_zero] at hlen
  obtain ⟨v, e2, hm⟩ := (value_spec h.c h.lo h.hi).2 (fun c => by
    rw [c] at hlen; exact hne (List.length_eq_zero_iff.1 hlen.symm))
  rw [h.exact (Or.inl rfl)] at hm
  exact ⟨_, s, v, rfl, e, e2, hm⟩

example : since [MOp.push (7 : ℚ), .clear, .push 4, .push 1, .push 3, .push 1] = [4, 1, 3, 1] ∧
    ∃ s, run (fresh (0 : ℚ) 0) [MOp.push (7 : ℚ), .clear, .push 4, .push 1, .push 3, .push 1] = .val (s, []) ∧
      value (Quant.exact ℚ) s = .val (.ok 2) := ⟨rfl, _, rfl, by decide +kernel⟩

/-- C22 refuted: window 3, pushes 3, 2, 1, 0, 5. The window is 1, 0, 5 with median 1; `Value` is 2, because the item put back into the
queue is the one moved by `rebalance`, not the one pushed. -/
theorem C22_heap_median_window_refuted :
    ∃ s0 s, new (0 : ℚ) 3 = .ok s0 ∧ run s0 ([3, 2, 1, 0, 5].map .push) = .val (s, []) ∧
      value (Quant.exact ℚ) s = .val (.ok 2) ∧
      IsMedian ((windowOf 3 ([3, 2, 1, 0, 5].map MOp.push) : List ℚ) : Multiset ℚ) 1 := by
  refine ⟨_, _, rfl, rfl, by decide +kernel, ?_⟩
  have hw : windowOf 3 ([3, 2, 1, 0, 5].map MOp.push) = ([1, 0, 5] : List ℚ) := by decide +kernel
  rw [hw]
  exact Or.inl ⟨1, rfl, by simp, by decide +kernel, by decide +kernel⟩

/-- C22, what holds for windows of at least 2: `Value` is the median of some sub-multiset of the values pushed since the last `Clear`,
of the right size (that of the window) and containing the latest value; and it is the median of the window itself as long as nothing
was evicted. Missing: that the sub-multiset is the window after an eviction, which is false. -/
theorem C22_heap_median_window_partial {w : Nat} (hw : 2 ≤ w) (ops : List (MOp K)) (hne : since ops ≠ []) :
    ∃ (s0 s : HM K) (v : K) (S : Multiset K), new (0 : K) w = .ok s0 ∧ run s0 ops = .val (s, []) ∧
      value (Quant.exact K) s = .val (.ok v) ∧ IsMedian S v ∧
      S ≤ (since ops : List K) ∧ S.card = (windowOf w ops).length ∧ (∀ ys x, since ops = ys ++ [x] → x ∈ S) ∧
      ((since ops).length ≤ w → S = (windowOf w ops : List K)) := by
  obtain ⟨s, e, h⟩ := run_inv (w := w) (by omega) (0 : K) ops
  have hlen := h.size
  obtain ⟨v, e2, hm⟩ := (value_spec h.c h.lo h.hi).2 (fun c => by
    rw [c] at hlen; exact lastN_ne_nil hne (List.length_eq_zero_iff.1 hlen.symm))
  refine ⟨fresh 0 w, s, v, content s, if_neg (by omega), e, e2, hm, h.sub, ?_, h.last, ?_⟩
  · rw [content, Multiset.coe_card, List.length_map, hlen]; rfl
  · intro hl
    rw [h.exact (Or.inr hl), windowOf, lastN, if_neg (by omega), Nat.sub_eq_zero_of_le hl, List.drop_zero]

example : (2 : Nat) ≤ 3 ∧ since ([3, 2, 1, 0, 5].map MOp.push : List (MOp ℚ)) = [3, 2, 1, 0, 5] := by decide +kernel

/-- C22 for windows of 1: whenever `Push` did not panic (see `C23_heap_median_window_one_partial` for when), `Value` is the last
pushed value, which is the median of the window. -/
theorem C22_heap_median_window_one_partial (ops : List (MOp K)) {ys : List K} {x : K} (hs : since ops = ys ++ [x]) {s : HM K}
    {log : List Err} (e : run (fresh (0 : K) 1) ops = .val (s, log)) :
    value (Quant.exact K) s = .val (.ok x) := by
  have h := run_one (0 : K) ops
  by_cases hr : PushAfterRise ops
  · rw [h.2 hr] at e; cases e
  · obtain ⟨s', e', hi⟩ := h.1 hr
    rw [e] at e'; cases e'
    rcases hi.shape with ⟨h0, _⟩ | ⟨ys', x', a, h1, h2, -, h4, -⟩
    · rw [hs] at h0; simp at h0
    · rw [hs] at h1
      obtain ⟨-, h1⟩ := List.append_inj' h1 rfl
      cases h1
      have hl := all_length s
      rw [h2] at hl; simp at hl
      obtain ⟨v, e2, hm⟩ := (value_spec hi.c (by omega) (by omega)).2 (by simp [h2])
      have hc : content s = {x} := by simp [content, h2, h4]
      rw [hc] at hm
      rcases hm with ⟨i, _, hm⟩ | ⟨i, a', b', hc', -⟩
      · have := hm.1
        rw [Multiset.mem_singleton] at this
        rw [e2, this]
      · simp at hc'

example : ∃ s, run (fresh (0 : ℚ) 1) ([3, 2, 5].map .push) = .val (s, []) ∧ value (Quant.exact ℚ) s = .val (.ok 5) :=
  ⟨_, rfl, by decide +kernel⟩

/-- C23 refuted: window 1, pushes 1, 2, 3 — `Peek` on the empty low heap panics. -/
theorem C23_heap_median_panics_refuted :
    ∃ s0, new (0 : ℚ) 1 = .ok s0 ∧ run s0 ([1, 2, 3].map .push) = .panic := ⟨_, rfl, rfl⟩

/-- C23 for every accepted window except 1: neither `Push`, `Clear` nor `Value` ever panics or returns an error of the queue; `Value`
fails exactly when nothing was pushed since the last `Clear`. -/
theorem C23_heap_median_no_panic_partial {window : Int} {s0 : HM K} (hn : new (0 : K) window = .ok s0) (hw : window ≠ 1)
    (ops : List (MOp K)) :
    ∃ s, run s0 ops = .val (s, []) ∧
      ((since ops = [] ∧ value (Quant.exact K) s = .val (.error "no values seen yet")) ∨
       (since ops ≠ [] ∧ ∃ v, value (Quant.exact K) s = .val (.ok v))) := by
  unfold new at hn
  split_ifs at hn with h
  cases hn
  obtain ⟨w, rfl⟩ := Int.eq_ofNat_of_zero_le (not_lt.1 h)
  obtain ⟨s, e, hi⟩ := run_inv (w := w) (by intro c; exact hw (by simp [c])) (0 : K) ops
  refine ⟨s, e, ?_⟩
  have hlen := hi.size
  by_cases hs : since ops = []
  · refine Or.inl ⟨hs, (value_spec hi.c hi.lo hi.hi).1 ?_⟩
    rw [hs, lastN_nil] at hlen
    exact List.length_eq_zero_iff.1 hlen
  · obtain ⟨v, e2, -⟩ := (value_spec hi.c hi.lo hi.hi).2 (fun c => by
      rw [c] at hlen; exact lastN_ne_nil hs (List.length_eq_zero_iff.1 hlen.symm))
    exact Or.inr ⟨hs, v, e2⟩

example : ∃ s0, new (0 : ℚ) 2 = .ok s0 ∧ (2 : Int) ≠ 1 := ⟨_, rfl, by decide⟩

/-- C23 for window 1, exactly: `Push` panics if and only if it directly follows two increasing pushes (with no `Clear` between). -/
theorem C23_heap_median_window_one_partial (ops : List (MOp K)) :
    run (fresh (0 : K) 1) ops = .panic ↔
      ∃ (pre : List (MOp K)) (x y z : K) (post : List (MOp K)), ops = pre ++ [.push x, .push y, .push z] ++ post ∧ x < y := by
  have h := run_one (0 : K) ops
  constructor
  · intro e
    by_contra c
    obtain ⟨s, e', -⟩ := h.1 c
    rw [e] at e'; cases e'
  · exact h.2

/-- `NewHeapMedian` rejects exactly the negative windows. -/
theorem C23_new_heap_median (window : Int) : (∃ e, new (0 : K) window = .error e) ↔ window < 0 := by
  unfold new
  split_ifs with h
  · exact ⟨fun _ => h, fun _ => ⟨_, rfl⟩⟩
  · exact ⟨fun ⟨_, e⟩ => (by cases e), fun c => absurd c h⟩

/-- The max-heap order of an array of items: no item exceeds its parent. -/
def MaxHeap (val : Nat → K) (items : List Nat) : Prop :=
  ∀ (k a p : Nat), 0 < k → items[k]? = some a → items[(k - 1) / 2]? = some p → val a ≤ val p

/-- C24, in full: for every accepted window except 1, in every reachable state, the low heap is a max-heap and the high heap a
min-heap, each item records its own position and its own heap, no item occurs twice, the sizes differ by at most one, and every low
value is at most every high value. -/
theorem C24_heap_invariants {window : Int} {s0 : HM K} (hn : new (0 : K) window = .ok s0) (hw : window ≠ 1) (ops : List (MOp K)) :
    ∃ s, run s0 ops = .val (s, []) ∧
      MaxHeap s.mem.val s.low.items ∧ (∀ (k a p : Nat), 0 < k → s.high.items[k]? = some a → s.high.items[(k - 1) / 2]? = some p →
        s.mem.val p ≤ s.mem.val a) ∧
      (∀ (k a : Nat), s.low.items[k]? = some a → s.mem.idx a = k ∧ s.mem.hid a = "low") ∧
      (∀ (k a : Nat), s.high.items[k]? = some a → s.mem.idx a = k ∧ s.mem.hid a = "high") ∧
      (s.low.items ++ s.high.items).Nodup ∧
      s.low.items.length ≤ s.high.items.length + 1 ∧ s.high.items.length ≤ s.low.items.length + 1 ∧
      (∀ a ∈ s.low.items, ∀ b ∈ s.high.items, s.mem.val a ≤ s.mem.val b) ∧
      s.low.items.length + s.high.items.length = (windowOf window.toNat ops).length := by
  unfold new at hn
  split_ifs at hn with h
  cases hn
  obtain ⟨w, rfl⟩ := Int.eq_ofNat_of_zero_le (not_lt.1 h)
  obtain ⟨s, e, hi⟩ := run_inv (w := w) (by intro c; exact hw (by simp [c])) (0 : K) ops
  refine ⟨s, e, ?_, ?_, ?_, ?_, hi.c.nodup, hi.lo, hi.hi, hi.c.ord, ?_⟩
  · intro k a p hk ha hp
    have hlt : k < s.low.items.length := by
      by_contra c; rw [List.getElem?_eq_none (by omega)] at ha; cases ha
    have := hi.c.low.heap k hk hlt (Nat.zero_le _)
    rw [hi.c.lcmp] at this
    simpa [Heap.pv, List.getD_eq_getElem?_getD, ha, hp, fmax] using this
  · intro k a p hk ha hp
    have hlt : k < s.high.items.length := by
      by_contra c; rw [List.getElem?_eq_none (by omega)] at ha; cases ha
    have := hi.c.high.heap k hk hlt (Nat.zero_le _)
    rw [hi.c.hcmp] at this
    simpa [Heap.pv, List.getD_eq_getElem?_getD, ha, hp, fmin] using this
  · intro k a ha
    have := hi.c.low.book k a ha
    rwa [hi.c.lid] at this
  · intro k a ha
    have := hi.c.high.book k a ha
    rwa [hi.c.hid] at this
  · have := hi.size
    rw [all_length] at this
    exact this

/-- A reachable state in which both heaps hold several items. -/
example : ∃ s0 s, new (0 : ℚ) 10 = .ok s0 ∧ run s0 ([0, 10, 1, 9, 2, 8].map .push) = .val (s, []) ∧
    s.low.items.map s.mem.val = [2, 0, 1] ∧ s.high.items.map s.mem.val = [8, 10, 9] :=
  ⟨_, _, rfl, rfl, by decide +kernel, by decide +kernel⟩

end Verif.Props
