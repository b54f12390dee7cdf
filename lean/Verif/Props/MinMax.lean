import Verif.Proofs.MinMax
import Verif.Proofs.MinMaxNaN
import Mathlib.Data.Fin.Basic
import Mathlib.Order.Fin.Basic

/-! # C25–C29: Max and Min

A history is a list of `Push`/`Clear` calls on the metric returned by `NewMax(window)`/`NewMin(window)`; `windowOf w ops` is the list of
the last `w` values pushed since the last `Clear` (all of them for `w = 0`). Numbers are an arbitrary bounded linear order (float64
without NaN, `⊥` and `⊤` the infinities), `WithNaN F` adds a NaN. -/

set_option linter.unusedSectionVars false

namespace Verif.Props
open Verif Verif.Spec Verif.MinMax

section
variable {F : Type} [LinearOrder F] [BoundedOrder F]

/-- C25, in full: every history and accepted window; `Value` is an error exactly when nothing was pushed since the last `Clear`, and
otherwise a greatest element of the window. -/
theorem C25_max {window : Int} {s0 : Max.St F} (hn : Max.new (Ext.ofOrder F) window = .ok s0) (ops : List (MOp F)) :
    ∃ s, Max.run (Ext.ofOrder F) s0 ops = .val (s, []) ∧
      (since ops = [] → Max.value s = .val (.error "no values seen yet")) ∧
      (since ops ≠ [] → ∃ v, Max.value s = .val (.ok v) ∧ v ∈ windowOf window.toNat ops ∧ ∀ y ∈ windowOf window.toNat ops, y ≤ v) := by
  unfold Max.new at hn
  split_ifs at hn with h
  cases hn
  obtain ⟨w, rfl⟩ := Int.eq_ofNat_of_zero_le (not_lt.1 h)
  obtain ⟨s, e, hi⟩ := Max.run_inv w ops
  exact ⟨s, e, hi.ww.value.1, fun hx => hi.value hx⟩

/-- `NewMax` rejects exactly the negative windows. -/
theorem C25_new_max (window : Int) : (∃ e, Max.new (Ext.ofOrder F) window = .error e) ↔ window < 0 := by
  unfold Max.new
  split_ifs with h
  · exact ⟨fun _ => h, fun _ => ⟨_, rfl⟩⟩
  · exact ⟨fun ⟨_, e⟩ => (by cases e), fun c => absurd c h⟩

example : ∃ s0, Max.new (Ext.ofOrder (Fin 10)) 3 = .ok s0 ∧
    since [MOp.push (9 : Fin 10), .clear, .push 8, .push 3, .push 5, .push 1] ≠ [] ∧
    windowOf 3 [MOp.push (9 : Fin 10), .clear, .push 8, .push 3, .push 5, .push 1] = [3, 5, 1] ∧
    ∃ s, Max.run (Ext.ofOrder (Fin 10)) s0 [MOp.push (9 : Fin 10), .clear, .push 8, .push 3, .push 5, .push 1] = .val (s, []) ∧
      Max.value s = .val (.ok 5) := ⟨_, rfl, by decide, by decide, _, rfl, by decide⟩

/-- C26, in full. -/
theorem C26_min {window : Int} {s0 : Min.St F} (hn : Min.new (Ext.ofOrder F) window = .ok s0) (ops : List (MOp F)) :
    ∃ s, Min.run (Ext.ofOrder F) s0 ops = .val (s, []) ∧
      (since ops = [] → Min.value s = .val (.error "no values seen yet")) ∧
      (since ops ≠ [] → ∃ v, Min.value s = .val (.ok v) ∧ v ∈ windowOf window.toNat ops ∧ ∀ y ∈ windowOf window.toNat ops, v ≤ y) := by
  unfold Min.new at hn
  split_ifs at hn with h
  cases hn
  obtain ⟨w, rfl⟩ := Int.eq_ofNat_of_zero_le (not_lt.1 h)
  obtain ⟨s, e, hi⟩ := Min.run_inv w ops
  exact ⟨s, e, hi.ww.value.1, fun hx => hi.value hx⟩

/-- `NewMin` rejects exactly the negative windows. -/
theorem C26_new_min (window : Int) : (∃ e, Min.new (Ext.ofOrder F) window = .error e) ↔ window < 0 := by
  unfold Min.new
  split_ifs with h
  · exact ⟨fun _ => h, fun _ => ⟨_, rfl⟩⟩
  · exact ⟨fun ⟨_, e⟩ => (by cases e), fun c => absurd c h⟩

example : ∃ s0, Min.new (Ext.ofOrder (Fin 10)) 3 = .ok s0 ∧
    windowOf 3 [MOp.push (0 : Fin 10), .clear, .push 2, .push 7, .push 5, .push 6] = [7, 5, 6] ∧
    ∃ s, Min.run (Ext.ofOrder (Fin 10)) s0 [MOp.push (0 : Fin 10), .clear, .push 2, .push 7, .push 5, .push 6] = .val (s, []) ∧
      Min.value s = .val (.ok 5) := ⟨_, rfl, by decide, _, rfl, by decide⟩

/-- The same operation on the negated number. -/
def negOp (neg : F → F) : MOp F → MOp F
  | .push x => .push (neg x)
  | .clear => .clear

theorem since_negOp (neg : F → F) (ops : List (MOp F)) : since (ops.map (negOp neg)) = (since ops).map neg := by
  induction ops using List.reverseRecOn with
  | nil => rfl
  | append_singleton ops o ih => cases o <;> simp [negOp, ih]

/-- C27, in full: for any order-reversing involution `neg` (negation), a `Min` over a history and a `Max` over the negated history
with the same window both return after every prefix, fail together, and otherwise give `v` and `neg v`. -/
theorem C27_duality (neg : F → F) (hanti : ∀ a b, a ≤ b → neg b ≤ neg a) (hinv : ∀ a, neg (neg a) = a) (w : Nat) (ops : List (MOp F)) :
    ∃ s t, Min.run (Ext.ofOrder F) (Min.fresh (Ext.ofOrder F) w) ops = .val (s, []) ∧
      Max.run (Ext.ofOrder F) (Max.fresh (Ext.ofOrder F) w) (ops.map (negOp neg)) = .val (t, []) ∧
      ((Min.value s = .val (.error "no values seen yet") ∧ Max.value t = .val (.error "no values seen yet")) ∨
       ∃ v, Min.value s = .val (.ok v) ∧ Max.value t = .val (.ok (neg v))) := by
  obtain ⟨s, e, hi⟩ := Min.run_inv w ops
  obtain ⟨t, e', hi'⟩ := Max.run_inv w (ops.map (negOp neg))
  refine ⟨s, t, e, e', ?_⟩
  by_cases hx : since ops = []
  · exact Or.inl ⟨hi.ww.value.1 hx, hi'.ww.value.1 (by rw [since_negOp, hx]; rfl)⟩
  · obtain ⟨v, e1, hv, hle⟩ := hi.value hx
    obtain ⟨u, e2, hu, hge⟩ := hi'.value (by rw [since_negOp]; simpa using hx)
    have hm : lastN w (since (ops.map (negOp neg))) = (lastN w (since ops)).map neg := by
      rw [since_negOp]; unfold lastN; split_ifs <;> simp [List.map_drop]
    rw [hm] at hu hge
    obtain ⟨z, hz, rfl⟩ := List.mem_map.1 hu
    have h1 := hanti _ _ (hle z hz)
    have h2 := hge (neg v) (List.mem_map.2 ⟨v, hv, rfl⟩)
    exact Or.inr ⟨v, e1, by rw [e2, le_antisymm h1 h2]⟩

/-- `Fin.rev` is such a negation. -/
example : (∀ a b : Fin 10, a ≤ b → Fin.rev b ≤ Fin.rev a) ∧ ∀ a : Fin 10, Fin.rev (Fin.rev a) = a := by decide

end

/-- C28, panic freedom and amortized cost, for every comparison (NaN included) and any `math.Max`/`math.Min`: every history returns
without error, `Value` returns, and the number of deque removals so far is at most the number of pushes. -/
theorem C28_max_total_cost {F : Type} [GoOrd F] (O : Ext F) (w : Nat) (ops : List (MOp F)) :
    ∃ s, Max.run O (Max.fresh O w) ops = .val (s, []) ∧ (∃ r, Max.value s = .val r) ∧ s.removed ≤ pushes ops := by
  obtain ⟨s, e, h⟩ := Max.run_w O w ops
  refine ⟨s, e, ?_, by have := h.cost; omega⟩
  by_cases hx : since ops = []
  · exact ⟨_, h.value.1 hx⟩
  · obtain ⟨v, e⟩ := h.value.2 hx
    exact ⟨_, e⟩

/-- C28 for `Min`. -/
theorem C28_min_total_cost {F : Type} [GoOrd F] (O : Ext F) (w : Nat) (ops : List (MOp F)) :
    ∃ s, Min.run O (Min.fresh O w) ops = .val (s, []) ∧ (∃ r, Min.value s = .val r) ∧ s.removed ≤ pushes ops := by
  obtain ⟨s, e, h⟩ := Min.run_w O w ops
  refine ⟨s, e, ?_, by have := h.cost; omega⟩
  by_cases hx : since ops = []
  · exact ⟨_, h.value.1 hx⟩
  · obtain ⟨v, e⟩ := h.value.2 hx
    exact ⟨_, e⟩

/-- The cost counter is not constant: 5 removals for 6 pushes. -/
example : ∃ s, Max.run (Ext.ofOrder (Fin 10)) (Max.fresh (Ext.ofOrder (Fin 10)) 4) ([1, 2, 3, 2, 1, 4].map .push) = .val (s, []) ∧
    s.removed = 5 := ⟨_, rfl, by decide⟩

/-- C28, the deque bound, on streams without NaN: at most `w` entries (none for a global metric). Missing: streams with NaN, where it
is false (next theorem). -/
theorem C28_deque_bound_partial {F : Type} [LinearOrder F] [BoundedOrder F] (w : Nat) (ops : List (MOp F)) :
    (∃ s, Max.run (Ext.ofOrder F) (Max.fresh (Ext.ofOrder F) w) ops = .val (s, []) ∧ s.deque.length ≤ w) ∧
    (∃ s, Min.run (Ext.ofOrder F) (Min.fresh (Ext.ofOrder F) w) ops = .val (s, []) ∧ s.deque.length ≤ w) := by
  constructor
  · obtain ⟨s, e, h⟩ := Max.run_inv w ops
    refine ⟨s, e, ?_⟩
    by_cases hw : w = 0
    · rw [(h.m hw).1]; simp
    · rw [h.d hw]; exact Nat.le_trans (smax_length_le _) (lastN_length_le hw _)
  · obtain ⟨s, e, h⟩ := Min.run_inv w ops
    refine ⟨s, e, ?_⟩
    by_cases hw : w = 0
    · rw [(h.m hw).1]; simp
    · rw [h.d hw]; exact Nat.le_trans (smax_length_le _) (lastN_length_le hw _)

/-- C28 refuted with NaN: window 1, pushes NaN, 3, 2, 1 leave four entries in the deque of `Max`; no entry is ever removed again. -/
theorem C28_deque_bound_refuted :
    ∃ s, Max.run (Ext.ofNaN (Fin 10)) (Max.fresh (Ext.ofNaN (Fin 10)) 1) ([.nan, .num 3, .num 2, .num 1].map .push) = .val (s, []) ∧
      s.deque = [.nan, .num 3, .num 2, .num 1] := ⟨_, rfl, rfl⟩

/-- C29 refuted, universally: for every window `w ≥ 1`, every stream containing a NaN that is followed by at least `w - 1` further
pushes of anything, `Max.Value` is NaN. -/
theorem C29_max_nan_refuted {F : Type} [LinearOrder F] (O : Ext (WithNaN F)) {w : Nat} (hw : w ≠ 0) (ys : List F)
    (zs : List (WithNaN F)) (hz : w ≤ zs.length + 1) :
    ∃ s, Max.run O (Max.fresh O w) ((ys.map WithNaN.num ++ .nan :: zs).map .push) = .val (s, []) ∧ Max.value s = .val (.ok .nan) :=
  Max.nan_forever O hw ys zs hz

/-- The same for `Min`. -/
theorem C29_min_nan_refuted {F : Type} [LinearOrder F] (O : Ext (WithNaN F)) {w : Nat} (hw : w ≠ 0) (ys : List F)
    (zs : List (WithNaN F)) (hz : w ≤ zs.length + 1) :
    ∃ s, Min.run O (Min.fresh O w) ((ys.map WithNaN.num ++ .nan :: zs).map .push) = .val (s, []) ∧ Min.value s = .val (.ok .nan) :=
  Min.nan_forever O hw ys zs hz

/-- Window 2: after NaN, 1, 2, 3 the window 2, 3 has the maximum 3, but `Value` is NaN. -/
example : windowOf 2 (([.nan, .num 1, .num 2, .num 3] : List (WithNaN (Fin 10))).map MOp.push) = [.num 2, .num 3] ∧
    ∃ s, Max.run (Ext.ofNaN (Fin 10)) (Max.fresh (Ext.ofNaN (Fin 10)) 2) ([.nan, .num 1, .num 2, .num 3].map .push) = .val (s, []) ∧
      Max.value s = .val (.ok .nan) := ⟨by decide, _, rfl, rfl⟩

/-- C29, the remaining way out: `Clear` removes the NaN (the state is that of a fresh metric, up to the ghost counter). Missing: any
recovery without `Clear`, which is impossible. -/
theorem C29_clear_partial {F : Type} [GoOrd F] (O : Ext F) (w : Nat) (s : Max.St F) (hs : s.window = w) :
    Max.clear O s = { Max.fresh O w with removed := s.removed } := by
  simp [Max.clear, Max.fresh, hs]

/-- Without window a NaN is never meant to leave: `Max` is +Inf if that was pushed since the last `Clear`, otherwise NaN if NaN was,
otherwise the maximum. -/
theorem C29_global_max {F : Type} [LinearOrder F] [BoundedOrder F] [Nontrivial F] (ops : List (MOp (WithNaN F))) :
    ∃ s, Max.run (Ext.ofNaN F) (Max.fresh (Ext.ofNaN F) 0) ops = .val (s, []) ∧
      (since ops = [] → Max.value s = .val (.error "no values seen yet")) ∧
      (since ops ≠ [] → ∃ v, Max.value s = .val (.ok v) ∧
        (.num ⊤ ∈ since ops → v = .num ⊤) ∧
        (.num ⊤ ∉ since ops → .nan ∈ since ops → v = .nan) ∧
        (.nan ∉ since ops → v ∈ since ops ∧ ∀ y ∈ since ops, (y ≤ᵇ v) = true)) := by
  obtain ⟨s, e, hw, hg⟩ := Max.run_g ops
  refine ⟨s, e, hw.value.1, fun hne => ⟨s.ext, ?_, hg.top, hg.nan, fun hn => ?_⟩⟩
  · have hc := hw.cnt
    rw [lastN_zero] at hc
    unfold Max.value
    rw [if_neg (by rw [hc]; simpa using hne), if_pos (show s.window = 0 from hw.win)]
  · obtain ⟨a, ha, hm, hb⟩ := hg.num hn
    rw [ha]
    refine ⟨?_, fun y hy => ?_⟩
    · rcases hm with rfl | hm
      · obtain ⟨y, ys, hy⟩ := List.exists_cons_of_ne_nil hne
        rcases y with _ | y
        · exact absurd (by rw [hy]; simp) hn
        · have := hb y (by rw [hy]; simp)
          rw [le_bot_iff] at this
          rw [hy, this]; simp
      · exact hm
    · rcases y with _ | y
      · exact absurd hy hn
      · exact decide_eq_true (hb y hy)

/-- The same for `Min`. -/
theorem C29_global_min {F : Type} [LinearOrder F] [BoundedOrder F] [Nontrivial F] (ops : List (MOp (WithNaN F))) :
    ∃ s, Min.run (Ext.ofNaN F) (Min.fresh (Ext.ofNaN F) 0) ops = .val (s, []) ∧
      (since ops = [] → Min.value s = .val (.error "no values seen yet")) ∧
      (since ops ≠ [] → ∃ v, Min.value s = .val (.ok v) ∧
        (.num ⊥ ∈ since ops → v = .num ⊥) ∧
        (.num ⊥ ∉ since ops → .nan ∈ since ops → v = .nan) ∧
        (.nan ∉ since ops → v ∈ since ops ∧ ∀ y ∈ since ops, (v ≤ᵇ y) = true)) := by
  obtain ⟨s, e, hw, hg⟩ := Min.run_g ops
  refine ⟨s, e, hw.value.1, fun hne => ⟨s.ext, ?_, hg.bot, hg.nan, fun hn => ?_⟩⟩
  · have hc := hw.cnt
    rw [lastN_zero] at hc
    unfold Min.value
    rw [if_neg (by rw [hc]; simpa using hne), if_pos (show s.window = 0 from hw.win)]
  · obtain ⟨a, ha, hm, hb⟩ := hg.num hn
    rw [ha]
    refine ⟨?_, fun y hy => ?_⟩
    · rcases hm with rfl | hm
      · obtain ⟨y, ys, hy⟩ := List.exists_cons_of_ne_nil hne
        rcases y with _ | y
        · exact absurd (by rw [hy]; simp) hn
        · have := hb y (by rw [hy]; simp)
          rw [top_le_iff] at this
          rw [hy, this]; simp
      · exact hm
    · rcases y with _ | y
      · exact absurd hy hn
      · exact decide_eq_true (hb y hy)

/-- 3, NaN, 4: NaN; with +Inf as well: +Inf (`9` of `Fin 10`). -/
example : (∃ s, Max.run (Ext.ofNaN (Fin 10)) (Max.fresh (Ext.ofNaN (Fin 10)) 0) ([.num 3, .nan, .num 4].map .push) = .val (s, []) ∧
      Max.value s = .val (.ok .nan)) ∧
    ∃ s, Max.run (Ext.ofNaN (Fin 10)) (Max.fresh (Ext.ofNaN (Fin 10)) 0) ([.num 3, .nan, .num 9].map .push) = .val (s, []) ∧
      Max.value s = .val (.ok (.num 9)) := ⟨⟨_, rfl, rfl⟩, ⟨_, rfl, rfl⟩⟩

end Verif.Props
