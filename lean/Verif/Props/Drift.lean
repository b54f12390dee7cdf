import Verif.Proofs.Drift
import Verif.Props.Rounded

/-! # C95: do the rounding errors of `Mean` add up? -/

namespace Verif.Props
open Verif Verif.Spec Verif.FP
open Verif.Moment (Core Config)

/-- The claim of C95 for a core and a constant `C`: whatever is pushed, and however much, `Mean` is within `C` units of relative rounding
error (of the largest value since `Clear`) of the exact value `spec`. -/
def DriftFree (pw : ℚ → Nat → ℚ) (c : Core ℚ) (spec : List ℚ → ℚ) (C : ℚ) : Prop :=
  ∀ (ops : List (MOp ℚ)) (M : ℚ), rnd64 M = M → (∀ x ∈ since ops, rnd64 x = x ∧ |x| ≤ M) → since ops ≠ [] →
    ∃ c' v, run (Arith.rounded rnd64 pw) c ops = .val (c', []) ∧ mean c' = .ok v ∧ |v - spec (since ops)| ≤ C * (1 / 2 ^ 53 * M + 1 / 2 ^ 1075)

section
variable {pw : ℚ → Nat → ℚ} {cfg : Config ℚ} {c : Core ℚ}

/-- C95 for `EWMA`: with decay `d` the errors never exceed `7 / d` units. Missing: cores without decay (false, below). -/
theorem C95_ewma_partial (hn : newCore (Arith.rounded rnd64 pw) cfg = .ok c) {d : ℚ}
    (hd : cfg.decay = some d) (hrd : rnd64 d = d) (hs : ∀ k ∈ cfg.sums.getD [], k ≤ 65) :
    DriftFree pw c (ewTotal d (fun x => x)) (7 / d) := by
  intro ops M hM hx hne
  obtain ⟨c', v, e, hv, h⟩ := C69_ewma_accuracy hn hd hrd hs hM ops hx hne
  refine ⟨c', v, e, hv, h.trans ?_⟩
  obtain ⟨w, hw, hc, hdd⟩ := newCore_ok _ hn
  obtain ⟨a, -, -⟩ := hdd d hd
  simp only [GoOrd.le, Arith.rounded, Int.cast_zero, rounding_rnd64.zero, decide_eq_false_iff_not, not_le] at a
  rw [div_mul_eq_mul_div (a := (7 : ℚ)) (b := d)]
  refine div_le_div_of_nonneg_right ?_ a.le
  have : (0 : ℚ) ≤ 1 / 2 ^ 1075 := by positivity
  linarith

/-- C95 for a window of one: no error at all. Missing: larger windows (false, below). -/
theorem C95_window_one_partial (hn : newCore (Arith.rounded rnd64 pw) cfg = .ok c) (hw : cfg.window = some 1) (hd : cfg.decay = none)
    (hs : ∀ k ∈ cfg.sums.getD [], k ≤ 65) : DriftFree pw c (fun xs => xs.getLast?.getD 0) 0 := by
  intro ops M _ hx hne
  obtain ⟨c', e, B, hI⟩ := core_track _ hn hs (w := 1) hw (hd ▸ track_one (Arith.rounded rnd64 pw) c.len) ops
  refine ⟨c', _, e, B.mean_ok hne, ?_⟩
  obtain ⟨x, hxl⟩ : ∃ x, (since ops).getLast? = some x := ⟨_, List.getLast?_eq_some_getLast hne⟩
  have h : c'.mean = rnd64 (rnd64 (0 : Int) + rnd64 (rnd64 (x - rnd64 (0 : Int)) / rnd64 (1 : Int))) := (hI.2 x hxl).1
  have hrx := (hx x (List.mem_of_getLast? hxl)).1
  rw [Int.cast_zero, Int.cast_one, rounding_rnd64.zero, rounding_rnd64.one, sub_zero, div_one, zero_add, hrx, hrx, hrx] at h
  simp only [hxl, Option.getD_some, h, sub_self, abs_zero, zero_mul, le_refl]

/-- C95 refuted for a window of two: pushing `2^53 + 2, 2^52 + 3, 2^52 + 1` again and again, `Mean` grows by 2 with each round, although the
window is always the same after a round. (Checked up to 2^48 rounds, when `Mean` is off by a sixteenth.) -/
theorem C95_window_two_refuted (hn : newCore (Arith.rounded rnd64 pw) cfg = .ok c) (hw : cfg.window = some 2) (hd : cfg.decay = none)
    (hs : ∀ k ∈ cfg.sums.getD [], k ≤ 65) {n : Nat} (h1 : 1 ≤ n) (h2 : n ≤ 2 ^ 48) :
    windowOf 2 ((List.replicate n [(2 ^ 53 + 2 : ℚ), 2 ^ 52 + 3, 2 ^ 52 + 1]).flatten.map MOp.push) = [2 ^ 52 + 3, 2 ^ 52 + 1] ∧
    ∃ c', run (Arith.rounded rnd64 pw) c ((List.replicate n [(2 ^ 53 + 2 : ℚ), 2 ^ 52 + 3, 2 ^ 52 + 1]).flatten.map .push) = .val (c', []) ∧
      mean c' = .ok (2 ^ 52 + 2 * n) := by
  have hlist : (List.replicate n [(2 ^ 53 + 2 : ℚ), 2 ^ 52 + 3, 2 ^ 52 + 1]).flatten = sawList (3 * n) := by
    clear h1 h2
    induction n with
    | zero => rfl
    | succ n ih =>
      rw [List.replicate_succ', List.flatten_append, ih, show 3 * (n + 1) = 3 * n + 1 + 1 + 1 by ring, sawList_succ, sawList_succ, sawList_succ]
      have e0 : saw (3 * n) = 2 ^ 53 + 2 := by unfold saw; rw [if_pos (by omega)]
      have e1 : saw (3 * n + 1) = 2 ^ 52 + 3 := by unfold saw; rw [if_neg (by omega), if_pos (by omega)]
      have e2 : saw (3 * n + 1 + 1) = 2 ^ 52 + 1 := by unfold saw; rw [if_neg (by omega), if_neg (by omega)]
      rw [e0, e1, e2]; simp
  have hsince : ∀ l : List ℚ, since (l.map MOp.push) = l := by
    intro l
    induction l using List.reverseRecOn with
    | nil => rfl
    | append_singleton l x ih => rw [List.map_append, List.map_singleton, since_push, ih]
  rw [hlist]
  constructor
  · rw [windowOf, hsince, lastN_saw (by omega)]
    have e1 : saw (3 * n - 2) = 2 ^ 52 + 3 := by unfold saw; rw [if_neg (by omega), if_pos (by omega)]
    have e2 : saw (3 * n - 1) = 2 ^ 52 + 1 := by unfold saw; rw [if_neg (by omega), if_neg (by omega)]
    rw [e1, e2]
  · obtain ⟨c', e, B, hI⟩ := core_track _ hn hs (w := 2) hw (hd ▸ track_saw (pw := pw) c.len) ((sawList (3 * n)).map .push)
    rw [hsince] at B hI
    refine ⟨c', e, ?_⟩
    have hne : sawList (3 * n) ≠ [] := by
      intro h
      have := congrArg List.length h
      simp [sawList] at this
      omega
    rw [B.mean_ok hne, hI (3 * n) (by omega) rfl, sawMean, if_neg (by omega), if_neg (by omega), if_pos (by omega),
      show 3 * n / 3 = n by omega]

/-- So no constant up to 2^47 will do for a window of two. -/
theorem C95_window_two_no_constant_refuted (hn : newCore (Arith.rounded rnd64 pw) cfg = .ok c) (hw : cfg.window = some 2) (hd : cfg.decay = none)
    (hs : ∀ k ∈ cfg.sums.getD [], k ≤ 65) {C : ℚ} (hC : C ≤ 2 ^ 47) : ¬ DriftFree pw c (fun xs => Spec.mean (lastN 2 xs)) C := by
  intro h
  obtain ⟨hwin, c', e, hm⟩ := C95_window_two_refuted hn hw hd hs (n := 2 ^ 48) (by norm_num) le_rfl
  have hsince : ∀ l : List ℚ, since (l.map MOp.push) = l := by
    intro l
    induction l using List.reverseRecOn with
    | nil => rfl
    | append_singleton l x ih => rw [List.map_append, List.map_singleton, since_push, ih]
  have hmem : ∀ x ∈ (List.replicate (2 ^ 48) [(2 ^ 53 + 2 : ℚ), 2 ^ 52 + 3, 2 ^ 52 + 1]).flatten, x ∈ [(2 ^ 53 + 2 : ℚ), 2 ^ 52 + 3, 2 ^ 52 + 1] := by
    intro x hx
    obtain ⟨l, hl, hx⟩ := List.mem_flatten.1 hx
    rw [List.eq_of_mem_replicate hl] at hx
    exact hx
  have hne : (List.replicate (2 ^ 48) [(2 ^ 53 + 2 : ℚ), 2 ^ 52 + 3, 2 ^ 52 + 1]).flatten ≠ [] := by
    intro h0
    have := congrArg (lastN 2) h0
    rw [windowOf, hsince] at hwin
    rw [hwin] at this
    simp at this
  obtain ⟨c2, v, e2, hv, hb⟩ := h _ (2 ^ 53 + 2) (by decide +kernel) (fun x hx => by
    rw [hsince] at hx
    have := hmem x hx
    simp only [List.mem_cons, List.not_mem_nil, or_false] at this
    rcases this with rfl | rfl | rfl <;> refine ⟨by decide +kernel, ?_⟩
    all_goals (rw [abs_of_pos (by positivity)]; try norm_num)) (by rwa [hsince])
  rw [e] at e2
  cases e2
  rw [hm] at hv
  obtain rfl : (2 ^ 52 + 2 * ((2 ^ 48 : Nat) : ℚ)) = v := by simpa using hv
  rw [windowOf] at hwin
  simp only [hwin, Spec.mean, List.sum_cons, List.sum_nil, List.length_cons, List.length_nil] at hb
  have h3 : C * (1 / 2 ^ 53 * (2 ^ 53 + 2) + 1 / 2 ^ 1075) ≤ 2 ^ 47 * 2 := by
    refine mul_le_mul hC ?_ (by positivity) (by norm_num)
    have : (1 : ℚ) / 2 ^ 1075 ≤ 1 / 2 := by
      rw [div_le_div_iff₀ (by positivity) (by norm_num), one_mul, one_mul]
      exact le_self_pow₀ (by norm_num) (by norm_num)
    linarith [(by norm_num : (1 : ℚ) / 2 ^ 53 * (2 ^ 53 + 2) ≤ 3 / 2)]
  have h4 := (le_abs_self _).trans (hb.trans h3)
  norm_num at h4

/-- C95 refuted without a window: after `2^j` ones, `Mean` stays exactly 1 however many values `1 + 2^(j - 53)` follow. -/
theorem C95_global_refuted (hn : newCore (Arith.rounded rnd64 pw) cfg = .ok c) (hw : cfg.window = some 0) (hd : cfg.decay = none)
    (hs : ∀ k ∈ cfg.sums.getD [], k ≤ 65) {j : Nat} (hj : j ≤ 52) (k : Nat) :
    ∃ c', run (Arith.rounded rnd64 pw) c ((List.replicate (2 ^ j) (1 : ℚ) ++ List.replicate k (1 + 2 ^ j / 2 ^ 53)).map .push) = .val (c', []) ∧
      mean c' = .ok 1 := by
  have hsince : ∀ l : List ℚ, since (l.map MOp.push) = l := by
    intro l
    induction l using List.reverseRecOn with
    | nil => rfl
    | append_singleton l x ih => rw [List.map_append, List.map_singleton, since_push, ih]
  obtain ⟨c', e, B, hI⟩ := core_track _ hn hs (w := 0) hw (hd ▸ track_stuck (pw := pw) hj c.len) ((stuckList j k).map .push)
  rw [hsince] at B hI
  have hne : stuckList j k ≠ [] := by
    intro h
    have := congrArg List.length h
    simp [stuckList] at this
  exact ⟨c', e, by rw [B.mean_ok hne, (hI k List.prefix_rfl).2 hne]⟩

/-- So the error after `N = 2^(j+1)` values can be `N / 8` units, a quarter of the bound of C69, and no constant up to 2^49 will do. -/
theorem C95_global_no_constant_refuted (hn : newCore (Arith.rounded rnd64 pw) cfg = .ok c) (hw : cfg.window = some 0) (hd : cfg.decay = none)
    (hs : ∀ k ∈ cfg.sums.getD [], k ≤ 65) {j : Nat} (h1 : 1 ≤ j) (hj : j ≤ 52) {C : ℚ} (hC : C ≤ 2 ^ (j + 1) / 8) :
    ¬ DriftFree pw c Spec.mean C := by
  intro h
  obtain ⟨c', e, hm⟩ := C95_global_refuted hn hw hd hs hj (2 ^ j)
  have hsince : ∀ l : List ℚ, since (l.map MOp.push) = l := by
    intro l
    induction l using List.reverseRecOn with
    | nil => rfl
    | append_singleton l x ih => rw [List.map_append, List.map_singleton, since_push, ih]
  have hr : rnd64 (1 + 2 ^ j / 2 ^ 53) = 1 + 2 ^ j / 2 ^ 53 := by
    have hb : (2 : Int) ^ (j - 1) ≤ 2 ^ 51 := by
      exact_mod_cast Nat.pow_le_pow_right (n := 2) (by norm_num) (by omega : j - 1 ≤ 51)
    have hb0 : (0 : Int) < 2 ^ (j - 1) := by positivity
    have := rnd64_repr (n := 2 ^ 52 + 2 ^ (j - 1)) (-52) (by rw [abs_of_pos (by positivity)]; omega) (by norm_num)
    have hj2 : (2 : ℚ) ^ j = 2 * 2 ^ (j - 1) := by rw [← pow_succ']; congr 1; omega
    have e1 : (((2 ^ 52 + 2 ^ (j - 1) : Int) : ℚ)) * 2 ^ (-52 : Int) = 1 + 2 ^ j / 2 ^ 53 := by
      rw [hj2, zpow_neg, show (2 : ℚ) ^ (52 : Int) = 2 ^ 52 by norm_cast]
      push_cast
      field_simp
      ring
    rwa [e1] at this
  have hp : (0 : ℚ) < 2 ^ j := by positivity
  have hle : (2 : ℚ) ^ j / 2 ^ 53 ≤ 1 / 2 := by
    rw [div_le_div_iff₀ (by positivity) (by norm_num), one_mul]
    have : (2 : ℚ) ^ j ≤ 2 ^ 52 := pow_le_pow_right₀ (by norm_num) hj
    linarith [(by norm_num : (2 : ℚ) ^ 53 = 2 ^ 52 * 2)]
  have hpos : (0 : ℚ) < 2 ^ j / 2 ^ 53 := by positivity
  obtain ⟨c2, v, e2, hv, hb⟩ := h ((List.replicate (2 ^ j) (1 : ℚ) ++ List.replicate (2 ^ j) (1 + 2 ^ j / 2 ^ 53)).map .push) (1 + 2 ^ j / 2 ^ 53) hr (fun x hx => by
    rw [hsince, List.mem_append] at hx
    rcases hx with hx | hx
    · obtain rfl := List.eq_of_mem_replicate hx
      exact ⟨rounding_rnd64.one, by rw [abs_one]; linarith⟩
    · obtain rfl := List.eq_of_mem_replicate hx
      exact ⟨hr, by rw [abs_of_pos (by positivity)]⟩) (by
    rw [hsince]
    intro h0
    have := congrArg List.length h0
    simp at this)
  rw [e] at e2
  cases e2
  rw [hm] at hv
  obtain rfl : (1 : ℚ) = v := by simpa using hv
  rw [hsince] at hb
  have hmean : Spec.mean (List.replicate (2 ^ j) 1 ++ List.replicate (2 ^ j) (1 + 2 ^ j / 2 ^ 53) : List ℚ) = 1 + 2 ^ j / 2 ^ 53 / 2 := by
    simp only [Spec.mean, List.sum_append, List.sum_replicate, List.length_append, List.length_replicate, nsmul_eq_mul]
    push_cast
    field_simp
    ring
  rw [hmean, show (1 : ℚ) - (1 + 2 ^ j / 2 ^ 53 / 2) = -(2 ^ j / 2 ^ 53 / 2) by ring, abs_neg, abs_of_pos (by positivity)] at hb
  have hC2 : C ≤ 2 ^ j / 4 := by rw [pow_succ] at hC; linarith
  have h3 : C * (1 / 2 ^ 53 * (1 + 2 ^ j / 2 ^ 53) + 1 / 2 ^ 1075) ≤ 2 ^ j / 4 * (1 / 2 ^ 53 * (7 / 4)) := by
    refine mul_le_mul hC2 ?_ (by positivity) (by positivity)
    have : (1 : ℚ) / 2 ^ 1075 ≤ 1 / 2 ^ 53 * (1 / 4) := by
      rw [one_div_mul_one_div, div_le_div_iff₀ (by positivity) (by positivity), one_mul, one_mul,
        show (2 : ℚ) ^ 53 * 4 = 2 ^ 55 by norm_num]
      exact pow_le_pow_right₀ (by norm_num) (by norm_num)
    have h5 : (1 : ℚ) / 2 ^ 53 * (1 + 2 ^ j / 2 ^ 53) ≤ 1 / 2 ^ 53 * (1 + 1 / 2) := mul_le_mul_of_nonneg_left (by linarith) (by positivity)
    linarith
  have h4 := hb.trans h3
  have : (2 : ℚ) ^ j / 4 * (1 / 2 ^ 53 * (7 / 4)) = 2 ^ j / 2 ^ 53 * (7 / 16) := by ring
  rw [this] at h4
  linarith

end

/-- Cores meeting the hypotheses: those of `Mean` with windows 0, 1, 2 and of `EWMA` with decay 1/4. -/
example : (∃ c, newCore Arith.b64 ⟨none, some 0, none⟩ = .ok c) ∧ (∃ c, newCore Arith.b64 ⟨none, some 1, none⟩ = .ok c) ∧
    (∃ c, newCore Arith.b64 ⟨none, some 2, none⟩ = .ok c) ∧ rnd64 (1 / 4) = 1 / 4 ∧
    ∃ c, newCore Arith.b64 ⟨none, some 0, some (1 / 4)⟩ = .ok c :=
  ⟨⟨_, rfl⟩, ⟨_, rfl⟩, ⟨_, rfl⟩, by decide +kernel, by
    have : Moment.validate (rnd64 0) (rnd64 1) ⟨some [], some 0, some (1 / 4)⟩ = none := by decide +kernel
    exact ⟨mk Arith.b64 ⟨some [], some 0, some (1 / 4)⟩, by
      unfold newCore
      rw [show Moment.validate (Arith.b64.ofInt 0) (Arith.b64.ofInt 1) (Moment.setDefaults ⟨none, some 0, some (1 / 4)⟩) = none from this]
      rfl⟩⟩

/-- The drift of a window of two, observed: after two and three rounds `Mean` is 2^52 + 4 and 2^52 + 6. -/
example : (∀ n ∈ [2, 3], fpObs (run Arith.b64 (mk Arith.b64 ⟨some [], some 2, none⟩)
    ((List.replicate n [(2 ^ 53 + 2 : ℚ), 2 ^ 52 + 3, 2 ^ 52 + 1]).flatten.map .push)) =
      some ((.ok (2 ^ 52 + 2 * n), .error "not a tracked power sum"), (.error "not a tracked power sum", 2), [])) := by decide +kernel

end Verif.Props
