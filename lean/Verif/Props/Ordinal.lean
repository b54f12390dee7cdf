import Verif.Proofs.OrdinalHeap
import Verif.Proofs.HeapMedian
import Verif.Proofs.Avl
import Verif.Proofs.Rb
import Verif.Props.MinMax
import Mathlib.Data.Rat.Floor

/-! # C101: order statistics follow every strictly increasing change of scale

`OrdMap φ` says that `φ` preserves the three comparisons `<`, `<=` and `==` of the code; strictly increasing functions do, also when NaN is
added on both sides. No correctness of the containers is used, so the theorems hold for every history, also for those on which the
containers are wrong (C06, C11, C22). -/

set_option linter.unusedSectionVars false

namespace Verif.Props
open Verif Verif.Spec Verif.Quant Verif.MinMax

/-- Cubing is strictly increasing. -/
theorem cube_lt : ∀ a b : ℤ, a < b → a ^ 3 < b ^ 3 := fun a b h => by nlinarith [sq_nonneg (a + b), sq_nonneg a, sq_nonneg b]

example : OrdMap (fun x : ℤ => x ^ 3) := OrdMap.of_strictMono cube_lt

/-- Stretching the positive numbers is strictly increasing and not linear. -/
def stretch (x : ℚ) : ℚ := if 0 < x then 10 * x else x

theorem stretch_lt : ∀ a b, a < b → stretch a < stretch b := fun a b h => by unfold stretch; split_ifs <;> linarith

/-- NaN may be among the values. -/
theorem OrdMap.withNaN {F G : Type} [LinearOrder F] [LinearOrder G] {φ : F → G} (h : ∀ a b, a < b → φ a < φ b) :
    OrdMap (fun x : WithNaN F => match x with | .nan => (.nan : WithNaN G) | .num a => .num (φ a)) := by
  have := OrdMap.of_strictMono h
  refine ⟨?_, ?_, ?_⟩ <;> rintro (_ | a) (_ | b) <;> first | rfl | exact this.lt a b | exact this.le a b | exact this.eq a b

variable {F G : Type} [GoOrd F] [GoOrd G] {φ : F → G}

/-- The operation on a container with its value transformed. -/
def ordOS (φ : F → G) : OSOp F → OSOp G
  | .add x => .add (φ x)
  | .remove x => .remove (φ x)
  | .clear => .clear

theorem runOps_map {σ τ A B : Type} {f : σ → τ} {g : A → B} {step : σ → A → Go σ} {step' : τ → B → Go τ}
    (h : ∀ s x, step' (f s) (g x) = (step s x).image f) (s : σ) (xs : List A) : Go.runOps step' (f s) (xs.map g) = (Go.runOps step s xs).image f := by
  induction xs generalizing s with
  | nil => rfl
  | cons x xs ih =>
    simp only [List.map_cons, Go.runOps, h]
    cases step s x with
    | val s' => exact ih s'
    | panic => rfl
    | hang => rfl

/-- C101, the AVL tree: the transformed history has the same outcome, with the same sizes and ranks and the transformed selections. -/
theorem C101_avl (hφ : OrdMap φ) (ops : List (OSOp F)) :
    GoR (fun t t' => t'.size = t.size ∧ (∀ k, t'.select k = (t.select k).map φ) ∧ ∀ x, t'.rank (φ x) = t.rank x)
      (Avl.Tree.run ops) (Avl.Tree.run (ops.map (ordOS φ))) := by
  have S := avl_stat hφ
  have h : Avl.Tree.run (ops.map (ordOS φ)) = (Avl.Tree.run ops).image (fun t => ⟨t.root.map φ⟩) := by
    refine runOps_map (f := fun t : Avl.Tree F => (⟨t.root.map φ⟩ : Avl.Tree G)) (fun s o => ?_) Avl.Tree.empty ops
    cases o with
    | add x => exact S.add s x
    | remove x => exact S.remove s x
    | clear => rfl
  rw [h]
  cases Avl.Tree.run ops with
  | val t => exact ⟨Avl.Node.size_map _, Avl.Node.select_map _, Avl.Node.rank_map hφ _⟩
  | panic => trivial
  | hang => trivial

/-- C101, the red-black tree. -/
theorem C101_rb (hφ : OrdMap φ) (ops : List (OSOp F)) :
    GoR (fun t t' => t'.size = t.size ∧ (∀ k, t'.select k = (t.select k).map φ) ∧ ∀ x, t'.rank (φ x) = t.rank x)
      (Rb.Tree.run ops) (Rb.Tree.run (ops.map (ordOS φ))) := by
  have S := rb_stat hφ
  have h : Rb.Tree.run (ops.map (ordOS φ)) = (Rb.Tree.run ops).image (fun t => ⟨t.root.map φ⟩) := by
    refine runOps_map (f := fun t : Rb.Tree F => (⟨t.root.map φ⟩ : Rb.Tree G)) (fun s o => ?_) Rb.Tree.empty ops
    cases o with
    | add x => exact S.add s x
    | remove x => exact S.remove s x
    | clear => rfl
  rw [h]
  cases Rb.Tree.run ops with
  | val t => exact ⟨Rb.Node.size_map _, Rb.Node.select_map _, Rb.Node.rank_map hφ _⟩
  | panic => trivial
  | hang => trivial

/-- C101, the skip list, for every outcome of the level generator. -/
theorem C101_skip (hφ : OrdMap φ) (maxLevel : Nat) (draws : Nat → Nat → Bool) (ops : List (OSOp F)) :
    GoR (fun t t' => t'.size = t.size ∧ (∀ k, t'.select k = (t.select k).image (Option.map φ)) ∧ ∀ x, t'.rank (φ x) = t.rank x)
      (Skip.SkipList.run maxLevel draws ops) (Skip.SkipList.run maxLevel draws (ops.map (ordOS φ))) := by
  have h : Skip.SkipList.run maxLevel draws (ops.map (ordOS φ)) = (Skip.SkipList.run maxLevel draws ops).image (Skip.SkipList.map φ) := by
    refine runOps_map (f := Skip.SkipList.map φ) (fun s o => ?_) (Skip.new maxLevel draws) ops
    cases o with
    | add x => exact Skip.SkipList.add_map hφ s x
    | remove x => exact Skip.SkipList.remove_map hφ s x
    | clear => exact congrArg Go.val (Skip.SkipList.clear_map s)
  rw [h]
  cases Skip.SkipList.run maxLevel draws ops with
  | val t => exact ⟨rfl, Skip.SkipList.select_map t, Skip.SkipList.rank_map hφ t⟩
  | panic => trivial
  | hang => trivial

theorem add_interp {st : Statistic F} (q : Quantile st) (x : F) (r : Quantile st × Option Err) (h : Quantile.push.add x q = .val r) :
    r.1.interpolation = q.interpolation := by
  unfold Quantile.push.add at h
  split at h
  · cases h
  · cases h
  · cases h; rfl

theorem put_interp {st : Statistic F} (q : Quantile st) (x : F) (r : Quantile st × Option Err) (h : Quantile.push.put x q = .val r) :
    r.1.interpolation = q.interpolation := by
  unfold Quantile.push.put at h
  split at h
  · cases h
  · cases h
  · cases h; rfl
  · have := add_interp _ x r h; exact this

theorem run_interp {st : Statistic F} (q : Quantile st) (log : List Err) (ops : List (MOp F)) (r : Quantile st × List Err)
    (h : Go.runOps (logged Quantile.step) (q, log) ops = .val r) : r.1.interpolation = q.interpolation := by
  induction ops generalizing q log with
  | nil => cases h; rfl
  | cons o ops ih =>
    unfold Go.runOps at h
    split at h
    · next s' e =>
      obtain ⟨⟨q', oe⟩, e1, e2⟩ := Go.bind_eq_val.1 e
      cases e2
      rw [ih _ _ h]
      cases o with
      | clear => cases e1; rfl
      | push x =>
        have e1 : q.push x = .val (q', oe) := e1
        unfold Quantile.push at e1
        split_ifs at e1
        · split at e1
          · cases e1
          · cases e1
          · cases e1; rfl
          · split at e1
            · cases e1
            · cases e1
            · have := put_interp _ x _ e1; exact this
        · exact put_interp _ x _ e1
        · exact add_interp _ x _ e1
    · cases h
    · cases h

/-- C101, `Quantile` with the methods `Lower`, `Higher` and `Nearest`, every container, every window, every arithmetic for the index: the
transformed history has the same outcome with the same errors, and `Value(p)` then gives the transformed value or the same error. -/
theorem C101_quantile {φ : F → F} (hφ : OrdMap φ) {c : Cfg F} (hm : c.interpolation = Lower ∨ c.interpolation = Higher ∨ c.interpolation = Nearest)
    (draws : Nat → Nat → Bool) (ops : List (MOp F)) :
    GoR (fun r r' => r'.2 = r.2 ∧ ∀ (O : FOps F) (p : F), r'.1.value O p = (r.1.value O p).image (Except.map φ))
      ((ofCfg c draws).run ops) ((ofCfg c draws).run (ops.map (MOp.map φ))) := by
  obtain ⟨f, S⟩ := statOf_map hφ (c := c) (c' := c) ⟨rfl, rfl, rfl, rfl⟩ draws
  have h : (ofCfg c draws).run (ops.map (MOp.map φ)) = ((ofCfg c draws).run ops).image (Prod.map (Quantile.map φ f) id) := by
    have := Quantile.run_map S (ofCfg c draws) ops
    have e : ofCfg c draws = (ofCfg c draws).map φ f := Quantile.fresh_map S _ _
    rw [← e] at this
    exact this
  have hint : ∀ r, (ofCfg c draws).run ops = .val r → r.1.interpolation = c.interpolation := by
    intro r hr
    exact run_interp (ofCfg c draws) [] ops r hr
  rw [h]
  rcases e : (ofCfg c draws).run ops with ⟨q, log⟩ | _ | _
  · refine ⟨rfl, fun O p => Quantile.value_map S ⟨rfl, rfl, fun _ _ => ⟨rfl, rfl, fun _ => ⟨fun _ => ⟨rfl, rfl⟩, fun lo hi _ _ => ?_⟩⟩⟩⟩
    have hi := hint _ e
    simp only at hi
    rw [hi]
    constructor
    · intro hl
      rcases hm with h | h | h <;> rw [h] at hl <;> cases hl
    · intro _ h1 h2 h3
      rcases hm with h | h | h <;> contradiction
  · trivial
  · trivial

theorem since_ordOps {F G : Type} (φ : F → G) (ops : List (MOp F)) : since (ops.map (MOp.map φ)) = (since ops).map φ := by
  induction ops using List.reverseRecOn with
  | nil => rfl
  | append_singleton ops o ih =>
    rw [List.map_append, List.map_singleton]
    cases o with
    | push x =>
      show since (_ ++ [MOp.push (φ x)]) = _
      rw [since_push, since_push, ih, List.map_append, List.map_singleton]
    | clear =>
      show since (_ ++ [MOp.clear]) = _
      rw [since_clear, since_clear, List.map_nil]

theorem windowOf_ordOps {F G : Type} (φ : F → G) (w : Nat) (ops : List (MOp F)) : windowOf w (ops.map (MOp.map φ)) = (windowOf w ops).map φ := by
  unfold windowOf lastN
  rw [since_ordOps, List.length_map]
  split_ifs
  · rfl
  · exact (List.map_drop ..).symm

/-- C101, `HeapMedian`, for every window but 1 and every history: both runs return without an error, and when the window holds an odd number
of values, the reported value is the transformed one, right or wrong (C11). (`zero` is the content of memory that is not allocated.) -/
theorem C101_heap_median {F G : Type} [LinearOrder F] [LinearOrder G] {φ : F → G} (hφ : ∀ a b, a < b → φ a < φ b) {w : Nat} (hw : w ≠ 1)
    (zero : F) (ops : List (MOp F)) :
    ∃ s s', HeapMedian.run (HeapMedian.fresh zero w) ops = .val (s, []) ∧
      HeapMedian.run (HeapMedian.fresh (φ zero) w) (ops.map (MOp.map φ)) = .val (s', []) ∧
      ((windowOf w ops).length % 2 = 1 → ∀ (O : FOps F) (O' : FOps G), ∃ v, HeapMedian.value O s = .val (.ok v) ∧ HeapMedian.value O' s' = .val (.ok (φ v))) := by
  have hm := OrdMap.of_strictMono hφ
  obtain ⟨s, e, hi⟩ := HeapMedian.run_inv hw zero ops
  obtain ⟨s', e', hi'⟩ := HeapMedian.run_inv hw (φ zero) (ops.map (MOp.map φ))
  have hr := HeapMedian.run_r hm (HeapMedian.fresh_r hm zero w) [] ops
  have e1 : Go.runOps (logged HeapMedian.step) (HeapMedian.fresh zero w, []) ops = .val (s, []) := e
  have e2 : Go.runOps (logged HeapMedian.step) (HeapMedian.fresh (φ zero) w, []) (ops.map (MOp.map φ)) = .val (s', []) := e'
  rw [e1, e2] at hr
  have H : HeapMedian.HMR φ s s' := hr.1
  refine ⟨s, s', e, e', fun hodd O O' => ?_⟩
  have hl := hi.lo
  have hh := hi.hi
  have hs := hi.size
  have hs : s.low.items.length + s.high.items.length = (windowOf w ops).length := by
    rw [← List.length_append]; exact hs
  have l1 : s'.low.len = s.low.len := congrArg List.length H.low.items
  have l2 : s'.high.len = s.high.len := congrArg List.length H.high.items
  unfold HeapMedian.value
  rw [l1, l2]
  have c1 : s.low.len = s.low.items.length := rfl
  have c2 : s.high.len = s.high.items.length := rfl
  have n0 : ¬ s.low.len + s.high.len = 0 := by omega
  simp only [if_neg n0]
  by_cases hc : s.low.len < s.high.len
  · simp only [if_pos hc]
    unfold Heap.peek
    rw [H.high.items]
    rcases hl : s.high.items with _ | ⟨a, l⟩
    · rw [c2, hl] at hc; exact absurd hc (Nat.not_lt_zero _)
    · exact ⟨_, rfl, congrArg (fun v => Go.val (Except.ok v)) (H.mem.val a)⟩
  · have hd : s.low.len > s.high.len := by omega
    simp only [if_neg hc, if_pos hd]
    unfold Heap.peek
    rw [H.low.items]
    rcases hl : s.low.items with _ | ⟨a, l⟩
    · rw [c1, hl] at hd; exact absurd hd (Nat.not_lt_zero _)
    · exact ⟨_, rfl, congrArg (fun v => Go.val (Except.ok v)) (H.mem.val a)⟩

/-- C101, `Max`, for every window and history. -/
theorem C101_max {F G : Type} [LinearOrder F] [BoundedOrder F] [LinearOrder G] [BoundedOrder G] {φ : F → G} (hφ : ∀ a b, a < b → φ a < φ b)
    {window : Int} {s0 : Max.St F} {s1 : Max.St G} (hn : Max.new (Ext.ofOrder F) window = .ok s0) (hn' : Max.new (Ext.ofOrder G) window = .ok s1)
    (ops : List (MOp F)) : ∃ s s', Max.run (Ext.ofOrder F) s0 ops = .val (s, []) ∧
      Max.run (Ext.ofOrder G) s1 (ops.map (MOp.map φ)) = .val (s', []) ∧ Max.value s' = (Max.value s).image (Except.map φ) := by
  have hm : StrictMono φ := fun a b => hφ a b
  obtain ⟨s, e, h1, h2⟩ := C25_max hn ops
  obtain ⟨s', e', h1', h2'⟩ := C25_max hn' (ops.map (MOp.map φ))
  refine ⟨s, s', e, e', ?_⟩
  by_cases hs : since ops = []
  · rw [h1 hs, h1' (by rw [since_ordOps, hs]; rfl)]; rfl
  · obtain ⟨v, hv, hv1, hv2⟩ := h2 hs
    obtain ⟨v', hv', hv1', hv2'⟩ := h2' (by rw [since_ordOps]; simpa using hs)
    rw [windowOf_ordOps] at hv1' hv2'
    rw [hv, hv']
    obtain ⟨u, hu, rfl⟩ := List.mem_map.1 hv1'
    have : u = v := le_antisymm (hv2 u hu) (hm.le_iff_le.1 (hv2' _ (List.mem_map_of_mem hv1)))
    rw [this]; rfl

/-- C101, `Min`. -/
theorem C101_min {F G : Type} [LinearOrder F] [BoundedOrder F] [LinearOrder G] [BoundedOrder G] {φ : F → G} (hφ : ∀ a b, a < b → φ a < φ b)
    {window : Int} {s0 : Min.St F} {s1 : Min.St G} (hn : Min.new (Ext.ofOrder F) window = .ok s0) (hn' : Min.new (Ext.ofOrder G) window = .ok s1)
    (ops : List (MOp F)) : ∃ s s', Min.run (Ext.ofOrder F) s0 ops = .val (s, []) ∧
      Min.run (Ext.ofOrder G) s1 (ops.map (MOp.map φ)) = .val (s', []) ∧ Min.value s' = (Min.value s).image (Except.map φ) := by
  have hm : StrictMono φ := fun a b => hφ a b
  obtain ⟨s, e, h1, h2⟩ := C26_min hn ops
  obtain ⟨s', e', h1', h2'⟩ := C26_min hn' (ops.map (MOp.map φ))
  refine ⟨s, s', e, e', ?_⟩
  by_cases hs : since ops = []
  · rw [h1 hs, h1' (by rw [since_ordOps, hs]; rfl)]; rfl
  · obtain ⟨v, hv, hv1, hv2⟩ := h2 hs
    obtain ⟨v', hv', hv1', hv2'⟩ := h2' (by rw [since_ordOps]; simpa using hs)
    rw [windowOf_ordOps] at hv1' hv2'
    rw [hv, hv']
    obtain ⟨u, hu, rfl⟩ := List.mem_map.1 hv1'
    have : u = v := le_antisymm (hm.le_iff_le.1 (hv2' _ (List.mem_map_of_mem hv1))) (hv2 u hu)
    rw [this]; rfl

/-- Window 3, stretched values, nearest rank: 4 becomes 40; with the midpoint of -1 and 4 the value 3/2 does not become 15, but 39/2. -/
example : [5, -1, 4, 4].map stretch = [50, -1, 40, 40] ∧ ∃ c d, new (0 : ℚ) 1 3 [.interpolation Nearest] = .ok c ∧ c.interpolation = Nearest ∧ new (0 : ℚ) 1 3 [.interpolation Midpoint] = .ok d ∧
    (∃ q q', (ofCfg c (fun _ _ => false)).run ([5, -1, 4, 4].map .push) = .val (q, []) ∧ q.value (exact ℚ) (2 / 5) = .val (.ok 4) ∧
      (ofCfg c (fun _ _ => false)).run ([50, -1, 40, 40].map .push) = .val (q', []) ∧ q'.value (exact ℚ) (2 / 5) = .val (.ok 40)) ∧
    ∃ q q', (ofCfg d (fun _ _ => false)).run ([5, -1, 4, 4].map .push) = .val (q, []) ∧ q.value (exact ℚ) (2 / 5) = .val (.ok (3 / 2)) ∧
      (ofCfg d (fun _ _ => false)).run ([50, -1, 40, 40].map .push) = .val (q', []) ∧ q'.value (exact ℚ) (2 / 5) = .val (.ok (39 / 2)) :=
  ⟨by decide +kernel, _, _, rfl, rfl, rfl, ⟨_, _, rfl, by decide +kernel, rfl, by decide +kernel⟩, _, _, rfl, by decide +kernel, rfl, by decide +kernel⟩

/-- The wrong value 2 of `HeapMedian` on 3, 2, 1, 0, 5 with window 3 (C22) becomes the wrong value 20. -/
example : (windowOf 3 ([3, 2, 1, 0, 5].map MOp.push : List (MOp ℚ))).length % 2 = 1 ∧ [3, 2, 1, 0, 5].map stretch = [30, 20, 10, 0, 50] ∧
    ∃ s s', HeapMedian.run (HeapMedian.fresh (0 : ℚ) 3) ([3, 2, 1, 0, 5].map .push) = .val (s, []) ∧ HeapMedian.value (exact ℚ) s = .val (.ok 2) ∧
      HeapMedian.run (HeapMedian.fresh (0 : ℚ) 3) ([30, 20, 10, 0, 50].map .push) = .val (s', []) ∧
      HeapMedian.value (exact ℚ) s' = .val (.ok 20) :=
  ⟨by decide +kernel, by decide +kernel, _, _, rfl, by decide +kernel, rfl, by decide +kernel⟩

/-- The red-black tree on some values and on their cubes. -/
example : Rb.Tree.run [.add (1 : ℤ), .remove 1, .add 5, .add 3] ≠ .panic ∧
    GoR (fun t t' => t'.select 0 = (t.select 0).map fun x => x ^ 3) (Rb.Tree.run [.add (1 : ℤ), .remove 1, .add (-5), .add 3])
      (Rb.Tree.run [.add (1 : ℤ), .remove 1, .add (-125), .add 27]) := by
  refine ⟨by decide, ?_⟩
  have h := C101_rb (OrdMap.of_strictMono cube_lt) [.add (1 : ℤ), .remove 1, .add (-5), .add 3]
  exact h.mono fun _ _ h => h.2.1 0

example : ∃ (s0 : Max.St (Fin 5)) (s1 : Max.St (Fin 9)), Max.new (Ext.ofOrder (Fin 5)) 2 = .ok s0 ∧ Max.new (Ext.ofOrder (Fin 9)) 2 = .ok s1 ∧
    ∀ a b : Fin 5, a < b → (⟨2 * a, by omega⟩ : Fin 9) < ⟨2 * b, by omega⟩ :=
  ⟨_, _, rfl, rfl, fun a b h => by simp only [Fin.lt_def] at h ⊢; omega⟩

end Verif.Props
