import Verif.Proofs.QuantileNaN

/-! # C92: NaN in the data of `Quantile`, `Median`, `IQR` and `HeapMedian` -/

namespace Verif.Props
open Verif Verif.Spec Verif.Quant

section
variable {K : Type} [Field K] [LinearOrder K] [IsStrictOrderedRing K] [FloorRing K]

/-- C92 for the default implementation: whatever is pushed, NaN included, no `Push` panics or fails, and once something was pushed
`Value(x)` returns for every number `x` in (0, 1), as do `Median` and `IQR`. Missing: the value is that of the window, and the other
implementations with a window (both false, below). -/
theorem C92_avl_no_panic_partial (w : Nat) (i n : Int) (ops : List (MOp (WithNaN K))) :
    ∃ q, (Quantile.fresh (avlStat (WithNaN K)) w i).run ops = .val (q, []) ∧ (since ops ≠ [] →
      (∀ x : K, 0 < x → x < 1 → ∃ v, q.value (nanOps K n) (.num x) = .val (.ok v)) ∧
      (∃ v, q.medianValue (nanOps K n) = .val (.ok v)) ∧ ∃ v, q.iqrValue (nanOps K n) = .val (.ok v)) := by
  obtain ⟨q, e, h⟩ := Quantile.run_fit (avl_sturdy (F := WithNaN K)) w i (.inl trivial) ops
  refine ⟨q, e, fun hne => ?_⟩
  have hv := fun (x : K) h0 h1 => h.value avl_sturdy hne n (x := x) h0 h1
  refine ⟨hv, ?_, ?_⟩
  · obtain ⟨v, e⟩ := hv (((1 : Int) : K) / ((2 : Int) : K)) (by norm_num) (by norm_num)
    exact ⟨v, e⟩
  · obtain ⟨a, ea⟩ := hv (((1 : Int) : K) / ((4 : Int) : K)) (by norm_num) (by norm_num)
    obtain ⟨b, eb⟩ := hv (((3 : Int) : K) / ((4 : Int) : K)) (by norm_num) (by norm_num)
    refine ⟨(nanOps K n).sub b a, ?_⟩
    unfold Quantile.iqrValue
    rw [show (nanOps K n).div ((nanOps K n).ofInt 1) ((nanOps K n).ofInt 4) = .num (((1 : Int) : K) / ((4 : Int) : K)) from rfl,
      show (nanOps K n).div ((nanOps K n).ofInt 3) ((nanOps K n).ofInt 4) = .num (((3 : Int) : K) / ((4 : Int) : K)) from rfl, ea]
    simp only [Go.val_bind, eb]
    rfl

/-- C92 for a red-black tree without window. Missing: windows (next two theorems, and
`C92_rb_never_forgets_refuted`). -/
theorem C92_rb_global_no_panic_partial (i n : Int) (ops : List (MOp (WithNaN K))) :
    ∃ q, (Quantile.fresh (rbStat (WithNaN K)) 0 i).run ops = .val (q, []) ∧ (since ops ≠ [] →
      ∀ x : K, 0 < x → x < 1 → ∃ v, q.value (nanOps K n) (.num x) = .val (.ok v)) := by
  obtain ⟨q, e, h⟩ := Quantile.run_fit (rb_sturdy (F := WithNaN K)) 0 i (.inr rfl) ops
  exact ⟨q, e, fun hne x h0 h1 => h.value rb_sturdy hne n h0 h1⟩

/-- C92 for a red-black tree with any window: if no number is pushed twice (since the last `Clear`), no `Push` panics however many NaN are
pushed. Missing: the value is that of the window (false), and numbers pushed again (false, next theorem). -/
theorem C92_rb_window_no_panic_partial (w : Nat) (i n : Int) (ops : List (MOp (WithNaN K))) (ho : Quantile.NumbersOnce ops) :
    ∃ q, (Quantile.fresh (rbStat (WithNaN K)) w i).run ops = .val (q, []) ∧ (since ops ≠ [] →
      ∀ x : K, 0 < x → x < 1 → ∃ v, q.value (nanOps K n) (.num x) = .val (.ok v)) := by
  obtain ⟨q, e, h⟩ := Quantile.run_held w i ops ho
  have hf : Quantile.Fit (fun t => Rb.Node.RootInv (Rb.Tree.root t)) w i (since ops) q := ⟨h.win, h.int, h.ring, h.good, h.some⟩
  exact ⟨q, e, fun hne x h0 h1 => hf.value rb_sturdy hne n h0 h1⟩

/-- A stream with two NaN and different numbers, and its value. -/
example : Quantile.NumbersOnce (([.num 4, .nan, .num 1, .num 2, .nan, .num 0] : List (WithNaN ℚ)).map MOp.push) ∧
    ∃ q, (Quantile.fresh (rbStat (WithNaN ℚ)) 2 Midpoint).run
        (([.num 4, .nan, .num 1, .num 2, .nan, .num 0] : List (WithNaN ℚ)).map .push) = .val (q, []) ∧
      q.medianValue (nanOps ℚ 0) = .val (.ok (.num 2)) := by
  refine ⟨fun p hp a => ?_, _, rfl, by decide +kernel⟩
  have h1 : (since p).Sublist [.num 4, .nan, .num 1, .num 2, .nan, .num 0] := by
    obtain ⟨l, hl, rfl⟩ : ∃ l, l <+: ([.num 4, .nan, .num 1, .num 2, .nan, .num 0] : List (WithNaN ℚ)) ∧ l.map MOp.push = p := by
      obtain ⟨q, hq⟩ := hp
      obtain ⟨l₁, l₂, e1, rfl, rfl⟩ := List.append_eq_map_iff.1 hq
      exact ⟨l₁, ⟨l₂, e1.symm⟩, rfl⟩
    rw [show since (l.map MOp.push) = l by
      induction l using List.reverseRecOn with
      | nil => rfl
      | append_singleton l x ih =>
        rw [List.map_append, List.map_singleton, since_push, ih ((List.prefix_append _ _).trans hl) ((List.map_append (f := MOp.push) ▸ List.prefix_append _ _ : _).trans hp)]]
    exact hl.sublist
  refine (h1.count_le _).trans ?_
  simp only [List.count_cons, List.count_nil]
  by_cases h4 : a = 4
  · subst h4; decide
  by_cases h5 : a = 1
  · subst h5; decide
  by_cases h6 : a = 2
  · subst h6; decide
  simp [Ne.symm h4, Ne.symm h5, Ne.symm h6]
  split <;> omega

/-- C92 refuted for a red-black tree with a window: window 3, the values in the window are always different (one NaN at most), yet the
last `Push` panics. A NaN made the tree keep a number that had left the window; the number was pushed again and so was in the tree twice. -/
theorem C92_rb_window_panics_refuted :
    (∀ p, p <+: ([.nan, .num 0, .num 3, .num 2, .nan, .num 0, .num 3, .num 4, .nan, .num 0, .num 2] : List (WithNaN ℚ)) →
      (windowOf 3 (p.map MOp.push)).Nodup) ∧
    (Quantile.fresh (rbStat (WithNaN ℚ)) 3 Midpoint).run
      (([.nan, .num 0, .num 3, .num 2, .nan, .num 0, .num 3, .num 4, .nan, .num 0, .num 2] : List (WithNaN ℚ)).map .push) = .panic := by
  refine ⟨fun p hp => ?_, rfl⟩
  have : ∀ q ∈ List.inits ([.nan, .num 0, .num 3, .num 2, .nan, .num 0, .num 3, .num 4, .nan, .num 0, .num 2] : List (WithNaN ℚ)),
      (windowOf 3 (q.map MOp.push)).Nodup := by decide +kernel
  exact this p ((List.mem_inits _ _).2 hp)

/-- C92 for `HeapMedian` without window, for any comparisons and any arithmetic. Missing: windows (false, below). -/
theorem C92_heap_median_global_no_panic_partial {F : Type} [GoOrd F] (zero : F) (O : FOps F) (ops : List (MOp F)) :
    ∃ s, HeapMedian.run (HeapMedian.fresh zero 0) ops = .val (s, []) ∧ (since ops ≠ [] → ∃ v, HeapMedian.value O s = .val (.ok v)) := by
  obtain ⟨s, e, h⟩ := HeapMedian.run_even zero ops
  exact ⟨s, e, fun hne => h.value (by simpa using hne) O⟩

/-- A stream with a NaN meeting the hypotheses, and its values. -/
example : since (([.nan, .num 1, .num 2, .num 3] : List (WithNaN ℚ)).map MOp.push) ≠ [] ∧
    (∃ q, (Quantile.fresh (avlStat (WithNaN ℚ)) 3 Midpoint).run (([.nan, .num 1, .num 2, .num 3] : List (WithNaN ℚ)).map .push) = .val (q, []) ∧
      q.medianValue (nanOps ℚ 0) = .val (.ok (.num 2))) ∧
    (∃ q, (Quantile.fresh (rbStat (WithNaN ℚ)) 0 Midpoint).run (([.nan, .num 1, .num 2, .num 3] : List (WithNaN ℚ)).map .push) = .val (q, []) ∧
      q.medianValue (nanOps ℚ 0) = .val (.ok (.num (3 / 2)))) ∧
    ∃ s, HeapMedian.run (HeapMedian.fresh (.num 0) 0) (([.nan, .num 1, .num 2, .num 3] : List (WithNaN ℚ)).map .push) = .val (s, []) ∧
      HeapMedian.value (nanOps ℚ 0) s = .val (.ok .nan) :=
  ⟨by decide, ⟨_, rfl, by decide +kernel⟩, ⟨_, rfl, by decide +kernel⟩, _, rfl, by decide +kernel⟩

theorem skip_one {F : Type} [LinearOrder F] (i : Int) (x : WithNaN F) :
    (Quantile.fresh (skipStat (WithNaN F) 12 fun _ l => l == 1) 1 i).run ([.nan, x].map .push) = .panic := by
  cases x <;> rfl

/-- C92 refuted for the skip list (default number of levels): if the first two values pushed both get level 2 — which has probability 1/16
or more by default — and the first one is NaN, the second `Push` panics, whatever it pushes and whatever the window: the loop that
computes the width looks for a node equal to NaN. -/
theorem C92_skip_panics_refuted {F : Type} [LinearOrder F] (w : Nat) (i : Int) (x : WithNaN F) :
    (Quantile.fresh (skipStat (WithNaN F) 12 fun _ l => l == 1) w i).run ([.nan, x].map .push) = .panic := by
  match w with
  | 0 => cases x <;> rfl
  | 1 => exact skip_one i x
  | w + 2 =>
    have hskip : (do
        let s ← Skip.SkipList.add (Skip.new 12 fun _ l => l == 1) (.nan : WithNaN F)
        Skip.SkipList.add s x) = .panic := by
      cases x <;> rfl
    obtain ⟨s, hs⟩ : ∃ s, Skip.SkipList.add (Skip.new 12 fun _ l => l == 1) (.nan : WithNaN F) = .val s := ⟨_, rfl⟩
    rw [hs, Go.val_bind] at hskip
    obtain ⟨q, e1, h1, h2, h3, h4⟩ := (Quantile.push_room (q := Quantile.fresh (skipStat (WithNaN F) 12 fun _ l => l == 1) (w + 2 : Nat) i)
      (RingOK.new (show (0 : Int) ≤ (w + 2 : Nat) by omega)) (fun _ => show (0 : Int) < (w + 2 : Nat) by omega) .nan).2 s hs
    have e2 := (Quantile.push_room h3 (by
      intro h
      rw [h2] at h ⊢
      rw [h4 h]
      show (1 : Int) < (w + 2 : Nat)
      omega) x).1 (by rw [h1]; exact hskip)
    exact Quantile.run_two e1 e2

/-- C92 refuted for `HeapMedian` with window 1: `Push` panics as soon as a NaN is pushed or evicted, whatever the other value is. -/
theorem C92_heap_median_one_panics_refuted (x : WithNaN K) :
    HeapMedian.run (HeapMedian.fresh (.num 0) 1) ([.nan, x].map .push) = .panic ∧
    HeapMedian.run (HeapMedian.fresh (.num 0) 1) ([x, .nan].map .push) = .panic := by
  have key : ∀ v x : WithNaN K, (x ≤ᵇ v) = false → (v <ᵇ x) = false →
      HeapMedian.run (HeapMedian.fresh (.num 0) 1) ([v, x].map .push) = .panic := by
    intro v x h1 h2
    have hr : Ring.roundUp 1 = 1 := rfl
    simp [HeapMedian.run, HeapMedian.fresh, Go.runOps, logged, HeapMedian.step, HeapMedian.push, Ring.len, Ring.new, Ring.get, Ring.put, hr,
      HeapMedian.insert, HeapMedian.rebalance, HeapMedian.enqueue, Heap.push, Heap.rawPush, Heap.up, HeapMedian.replace, Heap.upd, Heap.peek,
      Heap.remove, Heap.removeAt, Heap.Heap.len, h1, h2]
  exact ⟨key _ _ (by cases x <;> rfl) rfl, key _ _ rfl (by cases x <;> rfl)⟩

end

/-- C92 refuted for `HeapMedian` with larger windows: a single NaN among different numbers and the window is full. The item that should
be evicted is in the low heap, but the `default` branch removes the item with its index from the high heap. -/
theorem C92_heap_median_panics_refuted :
    HeapMedian.run (HeapMedian.fresh (.num 0) 2) (([.nan, .num 0, .num 2, .num 1] : List (WithNaN ℚ)).map .push) = .panic ∧
    HeapMedian.run (HeapMedian.fresh (.num 0) 3) (([.nan, .num 0, .num 1, .num 3, .num 2] : List (WithNaN ℚ)).map .push) = .panic ∧
    HeapMedian.run (HeapMedian.fresh (.num 0) 4) (([.nan, .num 1, .num 0, .num 2, .num 4, .num 3] : List (WithNaN ℚ)).map .push) = .panic :=
  ⟨rfl, rfl, rfl⟩

section
variable {K : Type} [Field K] [LinearOrder K] [IsStrictOrderedRing K] [FloorRing K]

/-- The state of a red-black `Median` with window 1 that has seen a NaN and then numbers, the last one being `z`. -/
def afterNaN (z : K) : Quantile (rbStat (WithNaN K)) :=
  ⟨1, Midpoint, ⟨1, [.num z], false⟩, (⟨.node (.node .nil .nan .nil true 1) (.num z) .nil true 2⟩ : Rb.Tree (WithNaN K))⟩

/-- C92 refuted for a red-black tree: with window 1, after one NaN `Median` is NaN for ever, whatever numbers follow. -/
theorem C92_rb_never_forgets_refuted (n : Int) (zs : List K) (z : K) :
    windowOf 1 ((WithNaN.nan :: (zs ++ [z]).map WithNaN.num).map MOp.push) = [.num z] ∧
    ∃ q, (Quantile.fresh (rbStat (WithNaN K)) 1 Midpoint).run ((WithNaN.nan :: (zs ++ [z]).map WithNaN.num).map .push) = .val (q, []) ∧
      q.medianValue (nanOps K n) = .val (.ok .nan) := by
  have hstep : ∀ y z : K, (afterNaN y).push (.num z) = .val (afterNaN z, none) := by
    intro y z
    have h1 : Rb.Node.remove 3 (.node (.node .nil .nan .nil true 1) (.num y) .nil true 2) (.num y : WithNaN K) =
        .val (.node .nil .nan .nil true 1) := by
      have e1 : ((.num y : WithNaN K) =ᵇ .num y) = true := decide_eq_true rfl
      have e2 : ((.num y : WithNaN K) <ᵇ .num y) = false := decide_eq_false (lt_irrefl y)
      have e3 : ((.num y : WithNaN K) =ᵇ .nan) = false := rfl
      have e4 : ((.num y : WithNaN K) <ᵇ .nan) = false := rfl
      simp [Rb.Node.remove, Rb.Node.contains, e1, e2, e3, e4, Rb.Node.color, Rb.Node.rotateRight, Rb.Node.isNil, Rb.Node.blackBlack,
        Rb.Node.removeBalance, Rb.Node.balanceTail, Rb.Node.resize, Rb.Node.redRed, Rb.Node.size]
    have h2 : Rb.Tree.remove (⟨.node (.node .nil .nan .nil true 1) (.num y) .nil true 2⟩ : Rb.Tree (WithNaN K)) (.num y) =
        .val ⟨.node .nil .nan .nil true 1⟩ := by
      show (do let r ← Rb.Node.remove 3 _ _; pure (⟨r⟩ : Rb.Tree (WithNaN K))) = _
      rw [h1]; rfl
    unfold Quantile.push
    simp only [afterNaN, Ring.len, List.length_singleton, Nat.cast_one, ne_eq, one_ne_zero, not_false_eq_true, if_true, Ring.get]
    have h3 : (rbStat (WithNaN K)).remove (⟨.node (.node .nil .nan .nil true 1) (.num y) .nil true 2⟩ : Rb.Tree (WithNaN K)) (.num y) =
        .val (⟨.node .nil .nan .nil true 1⟩ : Rb.Tree (WithNaN K)) := h2
    simp only [Bool.false_eq_true, if_false, h3]
    rfl
  have hrun : ∀ (zs : List K) (y z : K), Go.runOps (logged Quantile.step) (afterNaN y, []) (((zs ++ [z]).map WithNaN.num).map .push) =
      .val (afterNaN z, []) := by
    intro zs
    induction zs with
    | nil => intro y z; simp [Go.runOps, logged, Quantile.step, hstep]
    | cons a zs ih => intro y z; simpa [Go.runOps, logged, Quantile.step, hstep] using ih a z
  have h0 : ∀ a : K, Go.runOps (logged Quantile.step) (Quantile.fresh (rbStat (WithNaN K)) 1 Midpoint, []) [.push .nan, .push (.num a)] =
      .val (afterNaN a, []) := fun a => rfl
  have hall : (Quantile.fresh (rbStat (WithNaN K)) 1 Midpoint).run ((WithNaN.nan :: (zs ++ [z]).map WithNaN.num).map .push) =
      .val (afterNaN z, []) := by
    cases zs with
    | nil => exact h0 z
    | cons a zs =>
      unfold Quantile.run
      rw [show ((WithNaN.nan :: ((a :: zs) ++ [z]).map WithNaN.num).map MOp.push) =
        [.push .nan, .push (.num a)] ++ ((zs ++ [z]).map WithNaN.num).map .push from rfl, Go.runOps_append, h0]
      exact hrun zs a z
  refine ⟨?_, _, hall, ?_⟩
  · rw [show ((WithNaN.nan :: (zs ++ [z]).map WithNaN.num).map MOp.push) =
      ((WithNaN.nan :: zs.map WithNaN.num).map MOp.push) ++ [.push (.num z)] by simp, windowOf_push]
    simp [lastN]
  · have e1 : (exact K).trunc (1 / 2) = 0 := by
      have h : (0 : K) ≤ 1 / 2 := by norm_num
      have h2 : ⌊(1 / 2 : K)⌋ = 0 := Int.floor_eq_iff.2 (by norm_num)
      simp only [exact]
      rw [if_pos h, h2, Int.cast_zero]
    have e2 : (exact K).toInt 0 = 0 := by simp [exact]
    have hsize : (rbStat (WithNaN K)).size (afterNaN z).statistic = 2 := rfl
    have c1 : ((.num (1 / 2) : WithNaN K) ≤ᵇ .num 0) = false := decide_eq_false (by norm_num)
    have c2 : ((.num 1 : WithNaN K) ≤ᵇ .num (1 / 2)) = false := decide_eq_false (by norm_num)
    have c3 : ((.num (1 / 2) : WithNaN K) =ᵇ .num 0) = false := decide_eq_false (by norm_num)
    have s0 : (afterNaN z).sel 0 = .val .nan := rfl
    have s1 : (afterNaN z).sel 1 = .val (.num z) := rfl
    have hi : (afterNaN z).interpolation = Midpoint := rfl
    simp only [Quantile.medianValue, Quantile.value, hsize, hi, nanOps, Int.cast_one, Int.cast_zero, Int.cast_ofNat, c1, c2, Bool.or_self,
      Bool.false_eq_true, if_false, show (2 : Int) - 1 = 1 from rfl, mul_one, e1, e2, c3, s0, zero_add, s1]
    rfl

end

/-- The stream of the next theorem: NaN, then `n` times 1, 2, 0. -/
def nanCycle (n : Nat) : List (MOp (WithNaN ℚ)) := .push .nan :: (List.replicate n [.push (.num 1), .push (.num 2), .push (.num 0)]).flatten

/-- C92 refuted for the default implementation: window 3, after NaN, 1, 2, 0, 1, 2, 0, … the window is 1, 2, 0, whose median is 1, but
`Median` is 1/2 for ever: the tree holds the NaN besides. -/
theorem C92_avl_never_forgets_refuted (n : Nat) :
    windowOf 3 (nanCycle (n + 2)) = [.num 1, .num 2, .num 0] ∧
    ∃ q, (Quantile.fresh (avlStat (WithNaN ℚ)) 3 Midpoint).run (nanCycle (n + 2)) = .val (q, []) ∧
      q.medianValue (nanOps ℚ 0) = .val (.ok (.num (1 / 2))) ∧
      ∃ q', (Quantile.fresh (avlStat (WithNaN ℚ)) 3 Midpoint).run [.push (.num 1), .push (.num 2), .push (.num 0)] = .val (q', []) ∧
        q'.medianValue (nanOps ℚ 0) = .val (.ok (.num 1)) := by
  obtain ⟨q, hq⟩ : ∃ q, Go.runOps (logged Quantile.step) (Quantile.fresh (avlStat (WithNaN ℚ)) 3 Midpoint, []) (nanCycle 2) = .val (q, []) :=
    ⟨_, rfl⟩
  have h1 : Go.runOps (logged Quantile.step) (q, []) [.push (.num 1), .push (.num 2), .push (.num 0)] = .val (q, []) := by
    cases hq; rfl
  have hcyc : ∀ n, nanCycle (n + 1) = nanCycle n ++ [.push (.num 1), .push (.num 2), .push (.num 0)] := by
    intro n
    simp [nanCycle, List.replicate_succ']
  have hn : Go.runOps (logged Quantile.step) (Quantile.fresh (avlStat (WithNaN ℚ)) 3 Midpoint, []) (nanCycle (n + 2)) = .val (q, []) := by
    induction n with
    | zero => exact hq
    | succ n ih => rw [hcyc, Go.runOps_append, ih]; exact h1
  refine ⟨?_, q, hn, ?_, _, rfl, by decide +kernel⟩
  · rw [show n + 2 = (n + 1) + 1 from rfl, hcyc, windowOf,
      show nanCycle (n + 1) ++ [MOp.push (.num 1), .push (.num 2), .push (.num 0)] =
      nanCycle (n + 1) ++ [.push (.num 1)] ++ [.push (.num 2)] ++ [.push (.num 0)] by simp, since_push, since_push, since_push]
    simp [lastN]
  · cases hq; decide +kernel

end Verif.Props
