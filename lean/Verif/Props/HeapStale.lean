import Verif.Proofs.HeapStale
import Verif.Props.Examples
import Verif.Proofs.QuantileSpec
import Mathlib.Tactic.Linarith
import Mathlib.Data.Rat.Floor

/-! # C100: how wrong a windowed `HeapMedian` can be, and for how long -/

set_option linter.unusedSimpArgs false

namespace Verif.Props
open Verif Verif.Heap Verif.HeapMedian Verif.Spec

section
variable {K : Type} [Field K] [LinearOrder K] [IsStrictOrderedRing K] [FloorRing K]

/-- C100 is false as stated, whenever the second value is not greater than the first: two pushes after the window is full `HeapMedian` shows the
median of the values without the last but one (`u`) and with one (`y`) that has left the window. -/
theorem C100_evicts_newest_refuted {w : Nat} (x y u v : K) (zs : List K) (hz : zs.length + 2 = w) (hxy : y ≤ x) :
    ∃ s0 s m, new (0 : K) w = .ok s0 ∧ run s0 ((x :: y :: (zs ++ [u, v])).map .push) = .val (s, []) ∧
      value (Quant.exact K) s = .val (.ok m) ∧ IsMedian ((y :: (zs ++ [v]) : List K) : Multiset K) m ∧
      windowOf w ((x :: y :: (zs ++ [u, v])).map MOp.push) = zs ++ [u, v] := by
  obtain ⟨s, e, hi, hc⟩ := stale (w := w) (by omega) (0 : K) (u := u) (v := v) hxy zs hz
  obtain ⟨m, e2, hm⟩ := (value_spec hi.c hi.lo hi.hi).2 (fun c => by
    have := hi.size
    rw [c, lastN_length, if_neg (by omega)] at this
    simp at this
    omega)
  rw [hc] at hm
  refine ⟨_, s, m, if_neg (by omega), e, e2, hm, ?_⟩
  have hs : since ((x :: y :: (zs ++ [u, v])).map MOp.push) = x :: y :: (zs ++ [u, v]) := by
    have : ∀ l : List K, since (l.map MOp.push) = l := by
      intro l
      induction l using List.reverseRecOn with
      | nil => rfl
      | append_singleton l a ih => rw [List.map_append, List.map_singleton, since_push, ih]
    exact this _
  rw [windowOf, hs, lastN, if_neg (by omega)]
  have : (x :: y :: (zs ++ [u, v])).length - w = 2 := by simp; omega
  rw [this]
  rfl

/-- The order statistics of `a` copies of `M` and `b` zeros. -/
theorem two_valued {M : K} (hM : 0 < M) (a b : Nat) :
    (∀ i, i < b → IsKth (Multiset.replicate a M + Multiset.replicate b 0) i 0) ∧
    (∀ i, b ≤ i → i < a + b → IsKth (Multiset.replicate a M + Multiset.replicate b 0) i M) := by
  have hf : ∀ (p : K → Prop) [DecidablePred p], ((Multiset.replicate a M + Multiset.replicate b 0).filter p).card =
      (if p M then a else 0) + (if p 0 then b else 0) := by
    intro p _
    rw [← Multiset.countP_eq_card_filter, Multiset.countP_add, ← Multiset.coe_replicate, ← Multiset.coe_replicate, Multiset.coe_countP,
      Multiset.coe_countP, List.countP_replicate, List.countP_replicate]
    simp
  constructor
  · intro i hi
    refine ⟨Multiset.mem_add.2 (.inr (Multiset.mem_replicate.2 ⟨by omega, rfl⟩)), ?_, ?_⟩
    · rw [hf]; simp [hM.le, not_lt.2 hM.le]
    · rw [hf]; simp [not_le.2 hM]; omega
  · intro i h1 h2
    refine ⟨Multiset.mem_add.2 (.inl (Multiset.mem_replicate.2 ⟨by omega, rfl⟩)), ?_, ?_⟩
    · rw [hf]; simp [hM]; omega
    · rw [hf]; simp [hM.le]; omega

/-- C100 is false for every window from 2 on, by any amount: after `(w+3)/2` times `M` and `w/2+1` times 0 the median of the last `w` values
is 0, but `HeapMedian` shows `M` (if `w` is odd) or `M/2`. -/
theorem C100_every_window_refuted {w : Nat} (hw : 2 ≤ w) {M : K} (hM : 0 < M) :
    ∃ s0 s m, new (0 : K) w = .ok s0 ∧ run s0 ((List.replicate ((w + 3) / 2) M ++ List.replicate (w / 2 + 1) 0).map .push) = .val (s, []) ∧
      value (Quant.exact K) s = .val (.ok m) ∧ m = (if w % 2 = 1 then M else M / 2) ∧
      IsMedian (windowOf w ((List.replicate ((w + 3) / 2) M ++ List.replicate (w / 2 + 1) 0).map MOp.push) : Multiset K) 0 := by
  set zs : List K := List.replicate ((w - 1) / 2) M ++ List.replicate (w / 2 - 1) 0 with hzs
  have hst : List.replicate ((w + 3) / 2) M ++ List.replicate (w / 2 + 1) (0 : K) = M :: M :: (zs ++ [0, 0]) := by
    rw [show (w + 3) / 2 = (w - 1) / 2 + 1 + 1 by omega, show w / 2 + 1 = (w / 2 - 1) + 2 by omega, List.replicate_succ, List.replicate_succ,
      List.replicate_add, hzs]
    simp [List.replicate]
  obtain ⟨s0, s, m, e0, e, ev, hm, hwin⟩ := C100_evicts_newest_refuted (w := w) M M 0 0 zs (by simp [hzs]; omega) le_rfl
  rw [hst]
  refine ⟨s0, s, m, e0, e, ev, ?_, ?_⟩
  · have hS : ((M :: (zs ++ [0]) : List K) : Multiset K) = Multiset.replicate ((w - 1) / 2 + 1) M + Multiset.replicate (w / 2) 0 := by
      rw [← Multiset.coe_replicate, ← Multiset.coe_replicate, Multiset.coe_add, Multiset.coe_eq_coe, List.replicate_succ, hzs,
        show w / 2 = (w / 2 - 1) + 1 by omega, List.replicate_add]
      simp
    rw [hS] at hm
    obtain ⟨k0, kM⟩ := two_valued hM ((w - 1) / 2 + 1) (w / 2)
    refine hm.unique ?_
    split_ifs with ho
    · exact .inl ⟨w / 2, by simp; omega, kM _ le_rfl (by omega)⟩
    · exact .inr ⟨w / 2 - 1, 0, M, by simp; omega, k0 _ (by omega), kM _ (by omega) (by omega), by ring⟩
  · rw [hwin]
    have hS : ((zs ++ [0, 0] : List K) : Multiset K) = Multiset.replicate ((w - 1) / 2) M + Multiset.replicate (w / 2 + 1) 0 := by
      rw [← Multiset.coe_replicate, ← Multiset.coe_replicate, Multiset.coe_add, Multiset.coe_eq_coe, hzs,
        show w / 2 + 1 = (w / 2 - 1) + 2 by omega, List.replicate_add]
      simp [List.replicate]
    rw [hS]
    obtain ⟨k0, kM⟩ := two_valued hM ((w - 1) / 2) (w / 2 + 1)
    rcases Nat.even_or_odd' w with ⟨k, rfl | rfl⟩
    · exact .inr ⟨k - 1, 0, 0, by simp; omega, k0 _ (by omega), k0 _ (by omega), by simp⟩
    · exact .inl ⟨k, by simp; omega, k0 _ (by omega)⟩

end

/-! ## Wrong for ever -/

/-- Window 2, with the first item twice in the queue and the value `y` of the second never evicted. -/
structure StuckTwo {F : Type} [LinearOrder F] (s : HM F) (y z : F) : Prop where
  window : s.window = 2
  low : s.low = ⟨"low", [1], fmax⟩
  high : s.high = ⟨"high", [0], fmin⟩
  queue : s.queue = ⟨2, [0, 0], false⟩
  idx : s.mem.idx 0 = 0
  hid : s.mem.hid 0 = "high"
  v1 : s.mem.val 1 = y
  v0 : s.mem.val 0 = z

theorem StuckTwo.push {F : Type} [LinearOrder F] {s : HM F} {y z x : F} (h : StuckTwo s y z) (hx : y < x) :
    ∃ s', HeapMedian.push s x = .val (s', none) ∧ StuckTwo s' y x := by
  obtain ⟨w, ⟨val, hid, idx⟩, nx, low, high, queue⟩ := s
  obtain ⟨h1, h2, h3, h4, i0, d0, v1, v0⟩ := h
  simp only at h1 h2 h3 h4 i0 d0 v1 v0
  subst h1 h2 h3 h4
  simp [HeapMedian.push, Ring.len, Ring.get, replace, d0, peek, v1, hx, GoOrd.le, GoOrd.lt, update, fix, i0, Heap.len,
    up, down, less, swap, upd, rebalance, enqueue, Ring.put]
  constructor <;> simp [upd, i0, d0, v1]

theorem stuck_two {F : Type} [LinearOrder F] (zero : F) {x y : F} (hxy : y ≤ x) (zs : List F) (hz : ∀ z ∈ zs, y < z) :
    ∃ s, run (fresh zero 2) ((x :: y :: zs).map .push) = .val (s, []) ∧ StuckTwo s y (zs.getLastD x) := by
  induction zs using List.reverseRecOn with
  | nil =>
    have h7 : ¬ x < y := not_lt.2 hxy
    have hr : Ring.new (α := Nat) 2 = ⟨2, [], false⟩ := by decide
    have : ∃ s, run (fresh zero 2) [.push x, .push y] = .val (s, []) ∧ StuckTwo s y x := by
      simp [run, Go.runOps, logged, step, HeapMedian.push, fresh, hr, Ring.len, HeapMedian.insert, Heap.len, Heap.push, rawPush, up, rebalance, enqueue,
        Ring.put, peek, upd, GoOrd.le, GoOrd.lt, h7, hxy, less, fmax, fmin, pop, swap, down, rawPop]
      constructor <;> simp [upd]
    exact this
  | append_singleton zs z ih =>
    obtain ⟨s, e, h⟩ := ih (fun a ha => hz a (by simp [ha]))
    obtain ⟨s', e', h'⟩ := h.push (hz z (by simp))
    refine ⟨s', ?_, by simpa using h'⟩
    have := run_snoc e e'
    simpa using this

/-- C100 is false for ever with window 2: if the second value is not greater than the first, then it stays in the result as long as only
greater values come. -/
theorem C100_stuck_two_refuted {K : Type} [Field K] [LinearOrder K] [FloorRing K] {x y : K} (hxy : y ≤ x) (zs : List K) (hz : ∀ z ∈ zs, y < z)
    {z : K} (hy : y < z) :
    ∃ s0 s, new (0 : K) 2 = .ok s0 ∧ run s0 ((x :: y :: (zs ++ [z])).map .push) = .val (s, []) ∧
      value (Quant.exact K) s = .val (.ok ((y + z) / 2)) := by
  obtain ⟨s, e, h⟩ := stuck_two (0 : K) hxy (zs ++ [z]) (by
    intro a ha
    rcases List.mem_append.1 ha with h | h
    · exact hz a h
    · rw [List.mem_singleton.1 h]; exact hy)
  refine ⟨_, s, rfl, e, ?_⟩
  rw [List.getLastD_concat] at h
  simp [HeapMedian.value, h.low, h.high, Heap.len, peek, h.v0, h.v1, Quant.exact]

/-- Window 5, with two items of the high heap in the queue and its root, as both items of the low heap, never evicted. -/
structure StuckFive {F : Type} [LinearOrder F] (s : HM F) (l r b c : Nat) (y : F) : Prop where
  window : s.window = 5
  low : s.low = ⟨"low", [l, r], fmax⟩
  high : ∃ a, s.high = ⟨"high", [a, b, c], fmin⟩ ∧ s.mem.val a = y ∧ a ≠ b ∧ a ≠ c
  queue : ∃ q, s.queue = ⟨8, q, false⟩ ∧ q.length = 5 ∧ ∀ i ∈ q, i = b ∨ i = c
  ib : s.mem.idx b = 1
  ic : s.mem.idx c = 2
  hb : s.mem.hid b = "high"
  hc : s.mem.hid c = "high"
  vl : s.mem.val l ≤ y
  lb : l ≠ b
  lc : l ≠ c

theorem StuckFive.push {F : Type} [LinearOrder F] {s : HM F} {l r b c : Nat} {y x : F} (h : StuckFive s l r b c y) (hx : y < x) :
    ∃ s', HeapMedian.push s x = .val (s', none) ∧ StuckFive s' l r b c y := by
  obtain ⟨w, ⟨val, hid, idx⟩, nx, low, high, queue⟩ := s
  obtain ⟨h1, h2, ⟨a, h3, va, ab, ac⟩, ⟨q, h4, hq, hm⟩, ib, ic, hb, hc, vl, lb, lc⟩ := h
  simp only at h1 h2 h3 h4 ib ic hb hc va vl
  subst h1 h2 h3 h4
  obtain ⟨i, q', rfl⟩ : ∃ i q', q = i :: q' := by
    cases q with
    | nil => simp at hq
    | cons i q' => exact ⟨i, q', rfl⟩
  have hq' : q'.length = 4 := by simpa using hq
  have hlx : val l < x := lt_of_le_of_lt vl hx
  have hnx : ¬ x < y := not_lt.2 hx.le
  rcases hm i (by simp) with rfl | rfl
  · simp [HeapMedian.push, Ring.len, Ring.get, replace, hb, peek, hlx, GoOrd.le, GoOrd.lt, update, fix, ib, Heap.len, hq',
      up, down, less, swap, upd, rebalance, enqueue, Ring.put, ab, va, hnx, fmin]
    refine ⟨rfl, rfl, ⟨a, rfl, by simp [upd, ab, va], ab, ac⟩, ⟨_, rfl, by simp [hq'], ?_⟩, ib, ic, hb, hc, by simpa [upd, lb] using vl, lb, lc⟩
    intro j hj
    rcases List.mem_append.1 hj with h | h
    · exact hm j (by simp [h])
    · exact .inl (List.mem_singleton.1 h)
  · simp [HeapMedian.push, Ring.len, Ring.get, replace, hc, peek, hlx, GoOrd.le, GoOrd.lt, update, fix, ic, Heap.len, hq',
      up, down, less, swap, upd, rebalance, enqueue, Ring.put, ac, va, hnx, fmin]
    refine ⟨rfl, rfl, ⟨a, rfl, by simp [upd, ac, va], ab, ac⟩, ⟨_, rfl, by simp [hq'], ?_⟩, ib, ic, hb, hc, by simpa [upd, lc] using vl, lb, lc⟩
    intro j hj
    rcases List.mem_append.1 hj with h | h
    · exact hm j (by simp [h])
    · exact .inr (List.mem_singleton.1 h)

theorem StuckFive.value {K : Type} [Field K] [LinearOrder K] [FloorRing K] {s : HM K} {l r b c : Nat} {y : K} (h : StuckFive s l r b c y) :
    HeapMedian.value (Quant.exact K) s = .val (.ok y) := by
  obtain ⟨a, h1, h2, -⟩ := h.high
  simp [HeapMedian.value, h.low, h1, Heap.len, peek, h2]

/-- C100 is false for ever with window 5: after 0, 0, 2, 2, 1, 1, 0, 0, 5, 6 `HeapMedian` shows 2 whatever values greater than 2 follow. -/
theorem C100_stuck_five_refuted (zs : List ℚ) (hz : ∀ z ∈ zs, 2 < z) :
    ∃ s0 s, new (0 : ℚ) 5 = .ok s0 ∧ run s0 (([0, 0, 2, 2, 1, 1, 0, 0, 5, 6] ++ zs).map .push) = .val (s, []) ∧
      value (Quant.exact ℚ) s = .val (.ok 2) := by
  have : ∃ s l r b c, run (fresh (0 : ℚ) 5) (([0, 0, 2, 2, 1, 1, 0, 0, 5, 6] ++ zs).map .push) = .val (s, []) ∧ StuckFive s l r b c 2 := by
    induction zs using List.reverseRecOn with
    | nil =>
      refine ⟨_, _, _, _, _, rfl, ⟨rfl, rfl, ⟨_, rfl, by decide +kernel, by decide +kernel, by decide +kernel⟩,
        ⟨_, rfl, rfl, by decide +kernel⟩, by decide +kernel, by decide +kernel, by decide +kernel, by decide +kernel, by decide +kernel,
        by decide +kernel, by decide +kernel⟩⟩
    | append_singleton zs z ih =>
      obtain ⟨s, l, r, b, c, e, h⟩ := ih (fun a ha => hz a (by simp [ha]))
      obtain ⟨s', e', h'⟩ := h.push (hz z (by simp))
      refine ⟨s', l, r, b, c, ?_, h'⟩
      have := run_snoc e e'
      rw [← List.append_assoc, List.map_append]
      exact this
  obtain ⟨s, l, r, b, c, e, h⟩ := this
  exact ⟨_, s, rfl, e, h.value⟩

/-- C100 where it is true by luck: window 3 and an increasing stream (windows 2, 4, 5, … are wrong there, see the example below). -/
theorem C100_increasing_three_partial {K : Type} [Field K] [LinearOrder K] [IsStrictOrderedRing K] [FloorRing K] (xs : List K)
    (h : xs.Pairwise (· < ·)) (hl : 3 ≤ xs.length) :
    ∃ s0 s m, new (0 : K) 3 = .ok s0 ∧ run s0 (xs.map .push) = .val (s, []) ∧ value (Quant.exact K) s = .val (.ok m) ∧
      IsMedian (lastN 3 xs : List K) m := by
  obtain ⟨ys, a, y, z, rfl⟩ : ∃ ys a y z, xs = ys ++ [a, y, z] := by
    have e := List.take_append_drop (xs.length - 3) xs
    have hd : (xs.drop (xs.length - 3)).length = 3 := by simp; omega
    match hh : xs.drop (xs.length - 3), hd with
    | [a, y, z], _ => exact ⟨_, a, y, z, by rw [← hh]; exact e.symm⟩
  obtain ⟨s, e, hc⟩ := run_increasing (0 : K) (ys ++ [a, y, z]) h rfl
  refine ⟨_, s, y, rfl, e, hc.value _, ?_⟩
  have h3 := (List.pairwise_append.1 h).2.1
  simp only [List.pairwise_cons, List.mem_cons, List.not_mem_nil, or_false, forall_eq_or_imp, forall_eq] at h3
  rw [lastN, if_neg (by omega), List.drop_append_of_le_length (by simp), List.drop_of_length_le (by simp)]
  exact median_three h3.1.1 h3.2.1

/-- Runs of the model: window 2 after 2, 1, 1000, 1000, 1000, 1000; window 4 and 5 on increasing streams. -/
example : (∃ s, run (fresh (0 : ℚ) 2) ([2, 1, 1000, 1000, 1000, 1000].map .push) = .val (s, []) ∧
      value (Quant.exact ℚ) s = .val (.ok (1001 / 2))) ∧
    (∃ s, run (fresh (0 : ℚ) 4) ([0, 1, 2, 3, 4, 5, 6, 7].map .push) = .val (s, []) ∧ value (Quant.exact ℚ) s ≠ .val (.ok (11 / 2))) ∧
    (∃ s, run (fresh (0 : ℚ) 5) ([0, 1, 2, 3, 4, 5, 6, 7, 8].map .push) = .val (s, []) ∧ value (Quant.exact ℚ) s ≠ .val (.ok 6)) :=
  ⟨⟨_, rfl, by decide +kernel⟩, ⟨_, rfl, by decide +kernel⟩, ⟨_, rfl, by decide +kernel⟩⟩

example : ([0, 2, 3, 5, 9] : List ℚ).Pairwise (· < ·) := by norm_num

end Verif.Props
