import Verif.Proofs.SkipExpect
import Verif.Proofs.Rounding
import Verif.Model.GoRand
import Mathlib.Algebra.Order.Archimedean.Basic
import Mathlib.Tactic.NormNum
import Mathlib.Tactic.IntervalCases

/-! # C88: the expected running time of the skip list

The random levels are `n` independent uniform numbers below `N` (`average`), compared with thresholds; `C88_go` says which numbers these are in
Go with the default options. The history is fixed before the levels are drawn. -/

namespace Verif.Props
open Verif Verif.Spec Verif.Skip

set_option linter.unusedSectionVars false

variable {F : Type} [LinearOrder F]

/-- The steps of a call after a history. -/
def stepsAfter {α : Type} (M : Nat) (draws : Nat → Nat → Bool) (ops : List (OSOp F)) (call : SkipList F → Timed α) : Nat :=
  match SkipList.run M draws ops with
  | .val s => (call s).cost
  | _ => 0

variable {M N : Nat} {R : ℚ} {c : Nat → Nat}

/-- The search path for `x`: its steps above the number of levels. -/
theorem path_average (hc : Thresholds M N R c) (z : F) (ops : List (OSOp F)) {n : Nat} (hn : adds ops ≤ n) {P : List Nat}
    (hP : P.Sublist (shadow z ops).A) :
    average (fun d : Fin n → Fin N => stairs M (P.map fun a => heightOf M (drawsOf c d) (a - 1)).reverse) ≤
        (M - 1 : Nat) * (R - 1) + P.length * (c (M - 1) / N) ∧
      P.length * ((c (M - 1) : ℚ) / N) ≤ average (fun d : Fin n → Fin N => stairs M (P.map fun a => heightOf M (drawsOf c d) (a - 1)).reverse) ∧
      average (fun d : Fin n → Fin N => stairs (M - 1) (P.map fun a => heightOf M (drawsOf c d) (a - 1))) ≤ (M - 1 : Nat) * (R - 1) := by
  obtain ⟨-, h1, h2⟩ := shadow_spec z ops
  obtain ⟨L, hL, hl, hm⟩ := exists_fin (n := n) (hP.nodup h1) fun a ha => by have := h2 a (hP.subset ha); omega
  have e : ∀ d : Fin n → Fin N, P.map (fun a => heightOf M (drawsOf c d) (a - 1)) = L.map fun b => height M c (d b) := fun d =>
    hm _ _ fun b => by rw [Nat.add_sub_cancel, heightOf_drawsOf c d b.2]
  simp only [e, ← List.map_reverse]
  have hpos := hc.pos
  refine ⟨?_, ?_, stairs_low hc hL _ (by omega)⟩
  · rw [← hl, ← List.length_reverse]
    exact stairs_all hc (List.nodup_reverse.2 hL)
  · rw [← hl, ← List.length_reverse]
    exact stairs_ge hc _

theorem stepsAfter_eq {α : Type} (hM : 0 < M) (draws : Nat → Nat → Bool) (z : F) (ops : List (OSOp F)) (call : SkipList F → Timed α) :
    ∃ s, Follows M draws (shadow z ops) s ∧ SkipList.run M draws ops = .val s ∧ stepsAfter M draws ops call = (call s).cost := by
  obtain ⟨s, e, h⟩ := run_follows hM draws z ops
  exact ⟨s, h, e, by rw [stepsAfter, e]⟩

theorem below_length (z : F) (ops : List (OSOp F)) (x : F) :
    ((shadow z ops).A.takeWhile fun a => decide ((shadow z ops).V a < x)).length = rankOf (bag ops) x := by
  obtain ⟨s, e, h⟩ := run_follows Nat.one_pos (fun _ _ => false) z ops
  have hs := h.inv.links.split_at x
  rw [← (shadow_spec z ops).1, rankOf, Multiset.filter_coe, Multiset.coe_card, List.filter_map, List.length_map]
  conv_rhs => rw [hs.eq, List.filter_append]
  rw [List.filter_eq_self.2 (by intro a ha; simpa using hs.lt a ha), List.filter_eq_nil_iff.2 (by intro a ha; simpa using hs.ge a ha),
    List.append_nil]

/-- `Rank`. -/
theorem C88_rank (hc : Thresholds M N R c) (ops : List (OSOp F)) (x : F) {n : Nat} (hn : adds ops ≤ n) :
    average (fun d : Fin n → Fin N => stepsAfter M (drawsOf c d) ops (·.rankT x)) ≤
      M + (M - 1 : Nat) * (R - 1) + rankOf (bag ops) x * (c (M - 1) / N) := by
  have h := (path_average hc x ops hn (P := (shadow x ops).A.takeWhile fun a => decide ((shadow x ops).V a < x)) (List.takeWhile_sublist _)).1
  have hN : 0 < N := lt_of_lt_of_le (hc.some 0 hc.pos) hc.le
  rw [below_length] at h
  refine le_trans (average_mono (g := fun d => M + stairs M (((shadow x ops).A.takeWhile fun a => decide ((shadow x ops).V a < x)).map
    fun a => heightOf M (drawsOf c d) (a - 1)).reverse) fun d => ?_) ?_
  · obtain ⟨s, hf, -, e⟩ := stepsAfter_eq hc.pos (drawsOf c d) x ops fun s => s.rankT x
    rw [e, SkipList.rankT, rankDownT_eq]
    have := getPrevsT_cost hf.inv.links (hf.inv.links.split_at x)
    rw [SkipList.getPrevsT] at this
    rw [this, hf.max, List.map_congr_left fun a ha => hf.height a ((List.takeWhile_sublist _).subset ha)]
  · rw [average_add, average_const hN]
    linarith

/-- `Remove`. -/
theorem C88_remove (hc : Thresholds M N R c) (ops : List (OSOp F)) (x : F) {n : Nat} (hn : adds ops ≤ n) :
    average (fun d : Fin n → Fin N => stepsAfter M (drawsOf c d) ops (·.removeT x)) ≤
      2 * M + (M - 1 : Nat) * (R - 1) + rankOf (bag ops) x * (c (M - 1) / N) := by
  have h := (path_average hc x ops hn (P := (shadow x ops).A.takeWhile fun a => decide ((shadow x ops).V a < x)) (List.takeWhile_sublist _)).1
  have hN : 0 < N := lt_of_lt_of_le (hc.some 0 hc.pos) hc.le
  rw [below_length] at h
  refine le_trans (average_mono (g := fun d => 2 * M + stairs M (((shadow x ops).A.takeWhile fun a => decide ((shadow x ops).V a < x)).map
    fun a => heightOf M (drawsOf c d) (a - 1)).reverse) fun d => ?_) ?_
  · obtain ⟨s, hf, -, e⟩ := stepsAfter_eq hc.pos (drawsOf c d) x ops fun s => s.removeT x
    rw [e]
    have := removeT_cost hf.inv.links (hf.inv.links.split_at x)
    rw [hf.max, List.map_congr_left fun a ha => hf.height a ((List.takeWhile_sublist _).subset ha)] at this
    exact this
  · rw [average_add, average_const hN]
    push_cast
    linarith

/-- `Add`, its own draw included. -/
theorem C88_add (hc : Thresholds M N R c) (ops : List (OSOp F)) (x : F) {n : Nat} (hn : adds ops ≤ n) :
    average (fun d : Fin n → Fin N => stepsAfter M (drawsOf c d) ops (·.addT x)) ≤
      6 * M + 2 * (M - 1 : Nat) * (R - 1) + rankOf (bag ops) x * (c (M - 1) / N) := by
  have h := (path_average hc x ops hn (P := (shadow x ops).A.takeWhile fun a => decide ((shadow x ops).V a < x)) (List.takeWhile_sublist _)).1
  have h' := (path_average hc x ops hn (P := (shadow x ops).A.dropWhile fun a => decide ((shadow x ops).V a < x)) (List.dropWhile_sublist _)).2.2
  have hN : 0 < N := lt_of_lt_of_le (hc.some 0 hc.pos) hc.le
  rw [below_length] at h
  refine le_trans (average_mono (g := fun d => 6 * M + stairs M (((shadow x ops).A.takeWhile fun a => decide ((shadow x ops).V a < x)).map
    fun a => heightOf M (drawsOf c d) (a - 1)).reverse + stairs (M - 1) (((shadow x ops).A.dropWhile fun a => decide ((shadow x ops).V a < x)).map
    fun a => heightOf M (drawsOf c d) (a - 1))) fun d => ?_) ?_
  · obtain ⟨s, hf, -, e⟩ := stepsAfter_eq hc.pos (drawsOf c d) x ops fun s => s.addT x
    rw [e]
    obtain ⟨s', r, -⟩ := hf.step (.add x)
    have := (addT_cost hf.inv.links (hf.inv.links.split_at x) r).1
    rw [hf.max, List.map_congr_left fun a ha => hf.height a ((List.takeWhile_sublist _).subset ha),
      List.map_congr_left fun a ha => hf.height a ((List.dropWhile_sublist _).subset ha)] at this
    exact this
  · rw [average_add, average_add, average_const hN]
    push_cast
    linarith

/-- `Select` of a valid rank, partial: for histories that add no value already stored. Missing: equal values, for which the steps depend on
the widths, too (and `Select` itself is wrong, C12). -/
theorem C88_select_partial (hc : Thresholds M N R c) (ops : List (OSOp F)) (hf : AddsFresh ops) {k : Nat} (hk : k < (bag ops).card) {n : Nat}
    (hn : adds ops ≤ n) :
    average (fun d : Fin n → Fin N => stepsAfter M (drawsOf c d) ops (·.selectT k)) ≤
        M + (M - 1 : Nat) * (R - 1) + (k + 1) * (c (M - 1) / N) ∧
      M + (k + 1) * ((c (M - 1) : ℚ) / N) ≤ average (fun d : Fin n → Fin N => stepsAfter M (drawsOf c d) ops (·.selectT k)) := by
  have hN : 0 < N := lt_of_lt_of_le (hc.some 0 hc.pos) hc.le
  obtain ⟨z, -⟩ := Multiset.card_pos_iff_exists_mem.1 (by omega : 0 < (bag ops).card)
  have hlen : (shadow z ops).A.length = (bag ops).card := by rw [← (shadow_spec z ops).1]; simp
  obtain ⟨h1, h2, -⟩ := path_average hc z ops hn (P := (shadow z ops).A.take (k + 1)) (List.take_sublist _ _)
  have e : ∀ d : Fin n → Fin N, stepsAfter M (drawsOf c d) ops (·.selectT k) =
      M + stairs M (((shadow z ops).A.take (k + 1)).map fun a => heightOf M (drawsOf c d) (a - 1)).reverse := by
    intro d
    obtain ⟨s, e, h, hE, -⟩ := run_followsE hc.pos (drawsOf c d) z ops hf
    rw [stepsAfter, e]
    dsimp only
    rw [selectT_cost h.inv hE (by omega), h.max, List.map_congr_left fun a ha => h.height a ((List.take_sublist _ _).subset ha)]
  simp only [e]
  rw [average_add, average_const hN]
  rw [List.length_take, min_eq_left (by omega)] at h1 h2
  push_cast at h1 h2
  exact ⟨by linarith, by linarith⟩

/-- No less: the largest height is reached by a fixed share of the nodes, and all of them below `x` are visited. -/
theorem C88_add_ge (hc : Thresholds M N R c) (ops : List (OSOp F)) (x : F) {n : Nat} (hn : adds ops ≤ n) :
    M + rankOf (bag ops) x * ((c (M - 1) : ℚ) / N) ≤ average (fun d : Fin n → Fin N => stepsAfter M (drawsOf c d) ops (·.addT x)) := by
  have h := (path_average hc x ops hn (P := (shadow x ops).A.takeWhile fun a => decide ((shadow x ops).V a < x)) (List.takeWhile_sublist _)).2.1
  have hN : 0 < N := lt_of_lt_of_le (hc.some 0 hc.pos) hc.le
  rw [below_length] at h
  refine le_trans ?_ (average_mono (f := fun d => M + stairs M (((shadow x ops).A.takeWhile fun a => decide ((shadow x ops).V a < x)).map
    fun a => heightOf M (drawsOf c d) (a - 1)).reverse) fun d => ?_)
  · rw [average_add, average_const hN]
    linarith
  · obtain ⟨s, hf, -, e⟩ := stepsAfter_eq hc.pos (drawsOf c d) x ops fun s => s.addT x
    rw [e]
    have := getPrevsT_cost hf.inv.links (hf.inv.links.split_at x)
    rw [hf.max, List.map_congr_left fun a ha => hf.height a ((List.takeWhile_sublist _).subset ha)] at this
    rw [← this]
    exact getPrevsT_le s x

/-! ### Go's generator and the default options -/

/-- The numbers `rand.Float64` returns, and which of them pass the test for level `l`: `k` below `goN` is not rejected, `k` below
`goThreshold l` is a number below `0.25 ^ l`. -/
theorem C88_go {k : Nat} (hk : k < 2 ^ 63) : (goFloat k ≠ 1 ↔ k < goN) ∧ ∀ l < 12, (goFloat k < goProb l ↔ k < goThreshold l) := by
  have hm : Monotone FP.rnd64 := FP.rnd_mono (by norm_num)
  have key : ∀ (c : Nat) (b : ℚ), FP.rnd64 (c : Nat) ≥ b * 2 ^ 63 → 0 < c → FP.rnd64 ((c - 1 : Nat) : ℚ) < b * 2 ^ 63 → (goFloat k < b ↔ k < c) := by
    intro c b h1 h0 h2
    rw [goFloat, div_lt_iff₀ (by positivity)]
    constructor
    · intro h
      by_contra hc
      have : FP.rnd64 c ≤ FP.rnd64 k := hm (by exact_mod_cast not_lt.1 hc)
      linarith
    · intro h
      have : FP.rnd64 k ≤ FP.rnd64 ((c - 1 : Nat) : ℚ) := hm (by exact_mod_cast (by omega : k ≤ c - 1))
      linarith
  constructor
  · have h1 : goFloat k ≤ 1 := by
      rw [goFloat, div_le_one (by positivity)]
      have : FP.rnd64 k ≤ FP.rnd64 ((2 ^ 63 : Nat) : ℚ) := hm (by exact_mod_cast hk.le)
      have : FP.rnd64 ((2 ^ 63 : Nat) : ℚ) = 2 ^ 63 := by decide +kernel
      linarith
    rw [← key goN 1 (by decide +kernel) (by decide +kernel) (by decide +kernel)]
    exact ⟨fun h => lt_of_le_of_ne h1 h, fun h => h.ne⟩
  · intro l hl
    refine key (goThreshold l) (goProb l) ?_ ?_ ?_ <;> interval_cases l <;> decide +kernel

theorem goThresholds : Thresholds 12 goN 4 goThreshold where
  pos := by norm_num
  zero := by decide
  anti := by
    intro l
    rcases lt_or_ge l 5 with h | h
    · interval_cases l <;> decide
    · rw [goThreshold, goThreshold, if_neg (by omega), if_neg (by omega)]
      exact Nat.pow_le_pow_right (by norm_num) (by omega)
  some := by intro l hl; interval_cases l <;> decide
  ratio := by intro l hl; have : l < 11 := by omega
              interval_cases l <;> simp only [goThreshold] <;> norm_num

/-- With the default options: about 45, 105 and 45 steps and one more for every 4 million values below. -/
theorem C88_default (ops : List (OSOp F)) (x : F) {n : Nat} (hn : adds ops ≤ n) :
    average (fun d : Fin n → Fin goN => stepsAfter 12 (drawsOf goThreshold d) ops (·.rankT x)) ≤ 45 + rankOf (bag ops) x / 4194303 ∧
    average (fun d : Fin n → Fin goN => stepsAfter 12 (drawsOf goThreshold d) ops (·.addT x)) ≤ 138 + rankOf (bag ops) x / 4194303 ∧
    average (fun d : Fin n → Fin goN => stepsAfter 12 (drawsOf goThreshold d) ops (·.removeT x)) ≤ 57 + rankOf (bag ops) x / 4194303 := by
  have hs : ((goThreshold 11 : Nat) : ℚ) / (goN : Nat) ≤ 1 / 4194303 := by norm_num [goThreshold, goN]
  have h0 : (rankOf (bag ops) x : ℚ) * (goThreshold 11 / goN) ≤ rankOf (bag ops) x / 4194303 := by
    rw [div_eq_mul_one_div (rankOf (bag ops) x : ℚ)]
    exact mul_le_mul_of_nonneg_left hs (Nat.cast_nonneg _)
  have h1 := C88_rank goThresholds ops x hn
  have h2 := C88_add goThresholds ops x hn
  have h3 := C88_remove goThresholds ops x hn
  norm_num at h1 h2 h3 h0 ⊢
  exact ⟨by linarith, by linarith, by linarith⟩

/-- Adding 0, 1, ..., n - 1. -/
def ascending (n : Nat) : List (OSOp Nat) := (List.range n).map .add

theorem bag_ascending (n : Nat) : bag (ascending n) = Multiset.range n := by
  induction n with
  | zero => rfl
  | succ n ih =>
    rw [ascending, List.range_succ, List.map_append, ← ascending, bag, List.foldl_append, ← bag, ih, Multiset.range_succ]
    rfl

theorem adds_ascending (n : Nat) : adds (ascending n) = n := by
  rw [adds, ascending, List.countP_map, List.countP_eq_length.2 (by simp), List.length_range]

theorem fresh_ascending (n : Nat) : AddsFresh (ascending n) := by
  intro pre x post e
  have h : pre = ascending pre.length ∧ x = pre.length := by
    have hl : pre.length < n := by
      have := congrArg List.length e
      simp [ascending] at this
      omega
    constructor
    · have := congrArg (List.take pre.length) e
      rw [List.take_left] at this
      conv_lhs => rw [← this, ascending, ← List.map_take, List.take_range, min_eq_left hl.le]
      rfl
    · have := congrArg (fun l => l[pre.length]?) e
      simpa [ascending, hl] using this.symm
  rw [h.1, h.2, bag_ascending]
  simp

/-- The documented logarithm (complexity.md:41-65) is false with the default options, for `Push` (`Add`) as well as for `Value` (`Select`):
whatever the constant, ascending numbers of some count take more on average. -/
theorem C88_log_refuted (K : ℚ) : ∃ m : Nat,
    K * (m + 1) < average (fun d : Fin (2 ^ m) → Fin goN => stepsAfter 12 (drawsOf goThreshold d) (ascending (2 ^ m)) (·.addT (2 ^ m))) ∧
    K * (m + 1) < average (fun d : Fin (2 ^ m) → Fin goN => stepsAfter 12 (drawsOf goThreshold d) (ascending (2 ^ m)) (·.selectT (2 ^ m - 1 : Nat))) := by
  obtain ⟨j, hj⟩ := pow_unbounded_of_one_lt (2 ^ 23 * K) (by norm_num : (1 : ℚ) < 2)
  refine ⟨2 * j, ?_⟩
  have hs : (1 : ℚ) / 2 ^ 22 ≤ (goThreshold 11 : Nat) / (goN : Nat) := by norm_num [goThreshold, goN]
  have h2 : ((j : ℚ) + 1) ≤ 2 ^ j := by exact_mod_cast (Nat.lt_two_pow_self : j < 2 ^ j)
  have key : K * ((2 * j : Nat) + 1) < 12 + ((2 ^ (2 * j) : Nat) : ℚ) * ((goThreshold 11 : Nat) / (goN : Nat)) := by
    have h3 : ((2 ^ (2 * j) : Nat) : ℚ) * (1 / 2 ^ 22) ≤ ((2 ^ (2 * j) : Nat) : ℚ) * ((goThreshold 11 : Nat) / (goN : Nat)) :=
      mul_le_mul_of_nonneg_left hs (Nat.cast_nonneg _)
    have h4 : ((2 ^ (2 * j) : Nat) : ℚ) = 2 ^ j * 2 ^ j := by push_cast; rw [two_mul, pow_add]
    rw [h4] at h3 ⊢
    have hp : (0 : ℚ) < 2 ^ j := by positivity
    have hj0 : (0 : ℚ) ≤ j := Nat.cast_nonneg _
    push_cast
    rcases le_or_gt K 0 with hK | hK
    · have : K * (2 * j + 1) ≤ 0 := mul_nonpos_of_nonpos_of_nonneg hK (by linarith)
      have : (0 : ℚ) ≤ 2 ^ j * 2 ^ j * (1 / 2 ^ 22) := by positivity
      linarith
    · have a1 : K * (2 * j + 1) ≤ K * (2 * (j + 1)) := mul_le_mul_of_nonneg_left (by linarith) hK.le
      have a2 : K * (2 * (j + 1)) ≤ K * (2 * 2 ^ j) := mul_le_mul_of_nonneg_left (by linarith) hK.le
      have a3 : 2 ^ 23 * K * 2 ^ j ≤ 2 ^ j * 2 ^ j := mul_le_mul_of_nonneg_right hj.le hp.le
      have a4 : 2 ^ j * 2 ^ j * (1 / 2 ^ 22) = (2 ^ j * 2 ^ j : ℚ) / 2 ^ 22 := by ring
      have a5 : K * (2 * 2 ^ j) ≤ 2 ^ j * 2 ^ j * (1 / 2 ^ 22) := by rw [a4, le_div_iff₀ (by positivity)]; linarith
      linarith
  have hr : rankOf (bag (ascending (2 ^ (2 * j)))) (2 ^ (2 * j)) = 2 ^ (2 * j) := by
    rw [bag_ascending, rankOf, Multiset.filter_eq_self.2 (by intro a; simp), Multiset.card_range]
  have b1 := C88_add_ge goThresholds (ascending (2 ^ (2 * j))) (2 ^ (2 * j)) (n := 2 ^ (2 * j)) (adds_ascending _).le
  have hp : 0 < 2 ^ (2 * j) := by positivity
  have b2 := (C88_select_partial goThresholds (ascending (2 ^ (2 * j))) (fresh_ascending _) (k := 2 ^ (2 * j) - 1)
    (by rw [bag_ascending, Multiset.card_range]; omega) (n := 2 ^ (2 * j)) (adds_ascending _).le).2
  rw [hr] at b1
  have hc : ((2 ^ (2 * j) - 1 : Nat) : ℚ) + 1 = (2 ^ (2 * j) : Nat) := by
    rw [← Nat.cast_add_one, Nat.sub_add_cancel hp]
  rw [hc] at b2
  exact ⟨lt_of_lt_of_le key b1, lt_of_lt_of_le key b2⟩

/-! ### Cases -/

/-- The thresholds of a fair coin with three levels. -/
theorem coin : Thresholds 3 4 2 fun l => 4 / 2 ^ l where
  pos := by norm_num
  zero := by norm_num
  anti := fun l => Nat.div_le_div_left (Nat.pow_le_pow_right (by norm_num) (by omega)) (by positivity)
  some := by intro l hl; interval_cases l <;> decide
  ratio := by intro l hl; have : l < 2 := by omega
              interval_cases l <;> norm_num

/-- One history and all 16 draws: `Rank` of 9 takes 75 / 16 steps on average, at most 5.5. -/
example : average (fun d : Fin 2 → Fin 4 => stepsAfter 3 (drawsOf (fun l => 4 / 2 ^ l) d) [.add (5 : ℤ), .add 7] (·.rankT 9)) = 75 / 16 ∧
    average (fun d : Fin 2 → Fin 4 => stepsAfter 3 (drawsOf (fun l => 4 / 2 ^ l) d) [.add (5 : ℤ), .add 7] (·.rankT 9)) ≤ 3 + 2 + 2 * (1 / 4) := by
  have h := C88_rank coin [.add (5 : ℤ), .add 7] 9 (n := 2) (by decide)
  have hs : ∑ d : Fin 2 → Fin 4, stepsAfter 3 (drawsOf (fun l => 4 / 2 ^ l) d) [.add (5 : ℤ), .add 7] (·.rankT 9) = 75 := by decide +kernel
  refine ⟨by rw [average, ← Nat.cast_sum, hs]; norm_num, ?_⟩
  have e : rankOf (bag [OSOp.add (5 : ℤ), .add 7]) 9 = 2 := by decide
  rw [e] at h
  norm_num at h ⊢
  linarith

/-- The worst draws: all nodes of height 1, every one of them visited. -/
example : stepsAfter 3 (fun _ _ => false) [.add (5 : ℤ), .add 7, .add 8, .add 9] (·.rankT 10) = 3 + 4 ∧
    stepsAfter 3 (fun _ _ => false) [.add (5 : ℤ), .add 7, .add 8, .add 9] (·.selectT 3) = 3 + 4 := by decide +kernel

end Verif.Props
