import Verif.Model.HeapMedian
import Mathlib.Order.Basic
import Mathlib.Data.List.Induction
import Mathlib.Tactic.SplitIfs

/-! # `HeapMedian` with window 3 on an increasing stream

The heaps go through a cycle of five configurations; in two of them the low heap holds a value that has left the window, but the root of
the high heap is always the last value but one. -/

set_option linter.unusedSimpArgs false

namespace Verif.HeapMedian
open Verif Verif.Heap Verif.Spec

variable {F : Type} [LinearOrder F]

/-- One item `a` in the low heap, `b` and `c` in the high heap holding the last two values `y` and `z`; the queue holds `q`. -/
structure Inc (s : HM F) (a b c : Nat) (q : List Nat) (y z : F) : Prop where
  window : s.window = 3
  low : s.low = ⟨"low", [a], fmax⟩
  high : s.high = ⟨"high", [b, c], fmin⟩
  queue : s.queue = ⟨4, q, false⟩
  ia : s.mem.idx a = 0
  ib : s.mem.idx b = 0
  ic : s.mem.idx c = 1
  ha : s.mem.hid a = "low"
  hb : s.mem.hid b = "high"
  hc : s.mem.hid c = "high"
  va : s.mem.val a < y
  vb : s.mem.val b = y
  vc : s.mem.val c = z
  lt : y < z
  ab : a ≠ b
  ac : a ≠ c
  bc : b ≠ c

theorem Inc.evict_low {s : HM F} {a b c d e : Nat} {y z x : F} (h : Inc s a b c [a, d, e] y z) (hx : z < x) :
    ∃ s', push s x = .val (s', none) ∧ Inc s' b c a [d, e, b] z x := by
  obtain ⟨w, ⟨val, hid, idx⟩, nx, low, high, queue⟩ := s
  obtain ⟨h1, h2, h3, h4, ia, ib, ic, ha, hb, hc, va, vb, vc, lt, ab, ac, bc⟩ := h
  simp only at h1 h2 h3 h4 ia ib ic ha hb hc va vb vc
  subst h1 h2 h3 h4
  have e1 : ¬ x ≤ val a := not_le.2 (va.trans (lt.trans hx))
  have e2 : val a < x := va.trans (lt.trans hx)
  have n1 : ¬ x < val b := not_lt.2 (by rw [vb]; exact (lt.trans hx).le)
  have n2 : ¬ x < val c := not_lt.2 (by rw [vc]; exact hx.le)
  have n3 : val c < x := by rw [vc]; exact hx
  simp [push, Ring.len, Ring.get, replace, ha, peek, e1, e2, GoOrd.le, GoOrd.lt, Heap.remove, removeAt, ia, Heap.len, rawPop, Heap.push,
    rawPush, up, down, less, swap, upd, fmin, ab, ac, bc, ab.symm, ac.symm, bc.symm, n1, n2, n3, rebalance, pop, enqueue, Ring.put]
  constructor <;> simp [ab, ac, bc, ab.symm, ac.symm, bc.symm, upd, vb, vc, lt, hx, hb, hc]

theorem Inc.evict_high {s : HM F} {a b c d e : Nat} {y z x : F} (h : Inc s a b c [b, d, e] y z) (hx : z < x) :
    ∃ s', push s x = .val (s', none) ∧ Inc s' a c b [d, e, b] z x := by
  obtain ⟨w, ⟨val, hid, idx⟩, nx, low, high, queue⟩ := s
  obtain ⟨h1, h2, h3, h4, ia, ib, ic, ha, hb, hc, va, vb, vc, lt, ab, ac, bc⟩ := h
  simp only at h1 h2 h3 h4 ia ib ic ha hb hc va vb vc
  subst h1 h2 h3 h4
  have e1 : ¬ x ≤ val a := not_le.2 (va.trans (lt.trans hx))
  have e2 : val a < x := va.trans (lt.trans hx)
  have n1 : ¬ x < val b := not_lt.2 (by rw [vb]; exact (lt.trans hx).le)
  have n2 : ¬ x < val c := not_lt.2 (by rw [vc]; exact hx.le)
  have n3 : val c < x := by rw [vc]; exact hx
  simp [push, Ring.len, Ring.get, replace, hb, peek, e1, e2, GoOrd.le, GoOrd.lt, update, fix, ib, Heap.len,
    up, down, less, swap, upd, fmin, ab, ac, bc, ab.symm, ac.symm, bc.symm, n1, n2, n3, rebalance, enqueue, Ring.put]
  constructor <;> simp [ab, ac, bc, ab.symm, ac.symm, bc.symm, upd, vb, vc, lt, hx, ha, hb, hc, ia, va.trans lt]

/-- The five configurations. -/
def Cycle (s : HM F) (y z : F) : Prop :=
  Inc s 0 1 2 [0, 1, 2] y z ∨ Inc s 1 2 0 [1, 2, 1] y z ∨ Inc s 2 0 1 [2, 1, 2] y z ∨ Inc s 0 1 2 [1, 2, 0] y z ∨ Inc s 0 2 1 [2, 0, 1] y z

theorem Cycle.push {s : HM F} {y z x : F} (h : Cycle s y z) (hx : z < x) : ∃ s', push s x = .val (s', none) ∧ Cycle s' z x := by
  rcases h with h | h | h | h | h
  · obtain ⟨s', e, h⟩ := h.evict_low hx
    exact ⟨s', e, .inr (.inl h)⟩
  · obtain ⟨s', e, h⟩ := h.evict_low hx
    exact ⟨s', e, .inr (.inr (.inl h))⟩
  · obtain ⟨s', e, h⟩ := h.evict_low hx
    exact ⟨s', e, .inr (.inr (.inr (.inl h)))⟩
  · obtain ⟨s', e, h⟩ := h.evict_high hx
    exact ⟨s', e, .inr (.inr (.inr (.inr h)))⟩
  · obtain ⟨s', e, h⟩ := h.evict_high hx
    exact ⟨s', e, .inl h⟩

theorem Cycle.value {s : HM F} {y z : F} (h : Cycle s y z) (O : FOps F) : value O s = .val (.ok y) := by
  rcases h with h | h | h | h | h <;>
    simp [HeapMedian.value, h.low, h.high, Heap.len, peek, h.vb]

/-- The first three pushes. -/
theorem cycle_start (zero : F) {a b c : F} (ab : a < b) (bc : b < c) :
    ∃ s, run (fresh zero 3) [.push a, .push b, .push c] = .val (s, []) ∧ Cycle s b c := by
  have h1 : ¬ b ≤ a := not_le.2 ab
  have h2 : ¬ c ≤ a := not_le.2 (ab.trans bc)
  have h3 : ¬ c < b := not_lt.2 bc.le
  have hr : Ring.new (α := Nat) 3 = ⟨4, [], false⟩ := by decide
  have : ∃ s, run (fresh zero 3) [.push a, .push b, .push c] = .val (s, []) ∧ Inc s 0 1 2 [0, 1, 2] b c := by
    simp [run, Go.runOps, logged, step, HeapMedian.push, fresh, hr, Ring.len, insert, Heap.len, Heap.push, rawPush, up, rebalance, enqueue, Ring.put,
      peek, upd, GoOrd.le, GoOrd.lt, h1, h2, less, fmin, h3]
    constructor <;> simp [upd, ab, bc]
  obtain ⟨s, e, h⟩ := this
  exact ⟨s, e, .inl h⟩

/-- After an increasing stream of at least three values the machine is in its cycle. -/
theorem run_increasing (zero : F) (xs : List F) (h : xs.Pairwise (· < ·)) {ys : List F} {a y z : F} (e : xs = ys ++ [a, y, z]) :
    ∃ s, run (fresh zero 3) (xs.map .push) = .val (s, []) ∧ Cycle s y z := by
  induction xs using List.reverseRecOn generalizing ys a y z with
  | nil => simp at e
  | append_singleton xs x ih =>
    have e2 : xs ++ [x] = (ys ++ [a, y]) ++ [z] := by rw [e]; simp
    obtain ⟨e3, e4⟩ := List.append_inj' e2 rfl
    simp only [List.cons.injEq, and_true] at e4
    subst e4
    have hp : xs.Pairwise (· < ·) := (List.pairwise_append.1 h).1
    have hl : ∀ b ∈ xs, b < x := fun b hb => (List.pairwise_append.1 h).2.2 b hb x (by simp)
    rcases List.eq_nil_or_concat ys with hy | ⟨ys', b, hy⟩
    · subst hy
      simp only [List.nil_append] at e3
      subst e3
      have h1 : a < y := by simpa using hp
      exact cycle_start zero h1 (hl y (by simp))
    · subst hy
      obtain ⟨s, e5, hc⟩ := ih hp (ys := ys') (a := b) (y := a) (z := y) (by rw [e3]; simp)
      obtain ⟨s', e6, hc'⟩ := hc.push (hl y (by rw [e3]; simp))
      refine ⟨s', ?_, hc'⟩
      unfold run at e5 ⊢
      rw [List.map_append, Go.runOps_append, e5]
      simp [Go.runOps, logged, step, e6]

end Verif.HeapMedian
