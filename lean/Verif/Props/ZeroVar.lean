import Verif.Proofs.ZeroVar
import Verif.Props.NoOverflow

/-! # C96: the variance is zero exactly when all values are equal, in floating point

So `Skewness` and `Kurtosis`, which divide by powers of the variance, are NaN exactly for constant data. -/

namespace Verif.Props
open Verif Verif.Spec Verif.FP
open Verif.Moment (Core Config)

/-- All values are the same. -/
def Const (xs : List ℚ) : Prop := ∀ x ∈ xs, ∀ y ∈ xs, x = y

theorem const_iff {x0 : ℚ} {xs : List ℚ} (h : x0 ∈ xs) : Const xs ↔ ∀ y ∈ xs, y = x0 :=
  ⟨fun H y hy => H y hy x0 h, fun H x hx y hy => (H x hx).trans (H y hy).symm⟩

section
variable {pw : ℚ → Nat → ℚ}

/-- C96, the second power sum without a window and decay, in binary64: it is 0 if all values are equal and at least `g² / 4` if not, where `g`
is a lower bound of the distances of the values from the first one. Missing: windows, decay and data so close together that the squares
underflow, where it is false, see below. -/
theorem C96_sum_partial {cfg : Config ℚ} {c : Core ℚ} (hn : newCore (Arith.rounded rnd64 pw) cfg = .ok c) (hw : cfg.window = some 0)
    (hd : cfg.decay = none) (hs : ∀ k ∈ cfg.sums.getD [], k ≤ 65) (h2 : ∃ k ∈ cfg.sums.getD [], 2 ≤ k) {g : ℚ} (hg : rnd64 g = g)
    (hg0 : 1 / 2 ^ 480 ≤ g) (ops : List (MOp ℚ)) (hlen : (since ops).length ≤ 2 ^ 43)
    (hP : PowSq pw (1 / 2 ^ 53) (1 / 2 ^ 1075) (since ops).length) (hp0 : pw 0 2 = 0) (hpn : ∀ x, 0 ≤ pw x 2)
    {x0 : ℚ} (h0 : (since ops).head? = some x0) (hx : ∀ x ∈ since ops, rnd64 x = x ∧ (x = x0 ∨ g ≤ |x - x0|)) :
    ∃ c' v, run (Arith.rounded rnd64 pw) c ops = .val (c', []) ∧ sum c' 2 = .ok v ∧ (v = 0 ↔ Const (since ops)) ∧
      (¬ Const (since ops) → g ^ 2 / 4 ≤ v) := by
  obtain ⟨w, hw', hc, -⟩ := newCore_ok _ hn
  have hl : 2 < c.len := by rw [hc]; exact (lt_mk_len _ 2).2 h2
  have hne : since ops ≠ [] := by rintro h; simp [h] at h0
  have hm : x0 ∈ since ops := List.mem_of_mem_head? h0
  have hgpos : 0 < g := lt_of_lt_of_le (by positivity) hg0
  obtain ⟨c', e, B, hI⟩ := core_track _ hn hs (w := 0) hw
    (hd ▸ track_zero_var rounding_rnd64 accuracy_rnd64 (N := (since ops).length) (fun n h => rnd64_nat (by omega)) (small64 hg0 hlen) hP hg
      hp0 hpn hl) ops
  refine ⟨c', _, e, B.sum_ok (k := 2) hne (by norm_num) hl, ?_⟩
  obtain ⟨-, -, h⟩ := hI le_rfl (fun z hz y hy => by
    obtain rfl : x0 = z := by rw [h0] at hz; exact Option.some.inj hz
    exact hx y hy)
  rw [const_iff hm]
  rcases h x0 h0 with ⟨ha, -, hz⟩ | ⟨⟨y, hy, hne⟩, hb⟩
  · exact ⟨⟨fun _ => ha, fun _ => hz⟩, fun h => absurd ha h⟩
  · have hb' : g ^ 2 / 4 ≤ c'.sums 2 := by rw [pow_two]; exact hb
    refine ⟨⟨fun h => ?_, fun h => absurd (h y hy) hne⟩, fun _ => hb'⟩
    have : 0 < g * g / 4 := by positivity
    change c'.sums 2 = 0 at h
    linarith

/-- C96, the variance under the root of `Std`, for at least two values. -/
theorem C96_variance_partial {cfg : Config ℚ} {c : Core ℚ} (hn : newCore (Arith.rounded rnd64 pw) cfg = .ok c) (hw : cfg.window = some 0)
    (hd : cfg.decay = none) (hs : ∀ k ∈ cfg.sums.getD [], k ≤ 65) (h2 : ∃ k ∈ cfg.sums.getD [], 2 ≤ k) {g : ℚ} (hg : rnd64 g = g)
    (hg0 : 1 / 2 ^ 480 ≤ g) (ops : List (MOp ℚ)) (hlen : (since ops).length ≤ 2 ^ 43) (hlen2 : 2 ≤ (since ops).length)
    (hP : PowSq pw (1 / 2 ^ 53) (1 / 2 ^ 1075) (since ops).length) (hp0 : pw 0 2 = 0) (hpn : ∀ x, 0 ≤ pw x 2)
    {x0 : ℚ} (h0 : (since ops).head? = some x0) (hx : ∀ x ∈ since ops, rnd64 x = x ∧ (x = x0 ∨ g ≤ |x - x0|)) :
    ∃ c' v, run (Arith.rounded rnd64 pw) c ops = .val (c', []) ∧ momentValue (Arith.rounded rnd64 pw) c' 2 = .ok v ∧
      0 ≤ v ∧ (v = 0 ↔ Const (since ops)) := by
  obtain ⟨c', s, r, hsum, hz, hpos⟩ := C96_sum_partial hn hw hd hs h2 hg hg0 ops hlen hP hp0 hpn h0 hx
  obtain ⟨w, c2, hw2, r2, hcnt, -⟩ := C64_any_arithmetic _ hn hs ops
  rw [r] at r2
  simp only [Go.val.injEq, Prod.mk.injEq, and_true] at r2
  subst r2
  have hw0 : w = 0 := by
    rw [hw] at hw2
    have := Option.some.inj hw2
    omega
  subst hw0
  have hcnt' : c'.count = ((since ops).length : Int) := by rw [hcnt, windowOf, lastN_zero]
  have h1 : rnd64 (((since ops).length : ℚ) - 1) = (since ops).length - 1 := by
    have := rnd64_nat (n := (since ops).length - 1) (by omega)
    rwa [Nat.cast_sub (by omega), Nat.cast_one] at this
  have hv : momentValue (Arith.rounded rnd64 pw) c' 2 = .ok (rnd64 (s / ((since ops).length - 1))) := by
    simp only [momentValue, hsum, hcnt', Arith.rounded, Int.cast_natCast, Int.cast_one, rounding_rnd64.one,
      rnd64_nat (show (since ops).length < 2 ^ 53 by omega), h1]
  have hn2 : (2 : ℚ) ≤ (since ops).length := by exact_mod_cast hlen2
  have hn43 : ((since ops).length : ℚ) ≤ 2 ^ 43 := by exact_mod_cast hlen
  refine ⟨c', _, r, hv, ?_, ?_⟩
  · refine rounding_rnd64.nonneg (div_nonneg ?_ (by linarith))
    by_cases h : Const (since ops)
    · exact (hz.2 h).ge
    · exact le_trans (by positivity) (hpos h)
  · constructor
    · intro h
      by_contra hc
      have h3 := hpos hc
      have h4 : (1 : ℚ) / 2 ^ 1010 ≤ s / ((since ops).length - 1) := by
        rw [le_div_iff₀ (by linarith)]
        have h5 : (1 / 2 ^ 480 : ℚ) ^ 2 ≤ g ^ 2 := pow_le_pow_left₀ (by positivity) hg0 2
        have h6 : (1 : ℚ) / 2 ^ 1010 * ((since ops).length - 1) ≤ 1 / 2 ^ 1010 * 2 ^ 43 :=
          mul_le_mul_of_nonneg_left (by linarith) (by positivity)
        have h7 : (1 : ℚ) / 2 ^ 1010 * 2 ^ 43 ≤ (1 / 2 ^ 480 : ℚ) ^ 2 / 4 := by decide +kernel
        linarith
      have h5 := rounding_rnd64.mono h4
      rw [h] at h5
      have h6 : (0 : ℚ) < rnd64 (1 / 2 ^ 1010) := by decide +kernel
      linarith
    · intro hc
      rw [hz.2 hc, zero_div, rounding_rnd64.zero]

/-- C96, more values never decrease the second power sum of a core without a window and decay. -/
theorem C96_monotone {cfg : Config ℚ} {c : Core ℚ} (hn : newCore (Arith.rounded rnd64 pw) cfg = .ok c) (hw : cfg.window = some 0)
    (hd : cfg.decay = none) (hs : ∀ k ∈ cfg.sums.getD [], k ≤ 65) (h2 : ∃ k ∈ cfg.sums.getD [], 2 ≤ k) (ops : List (MOp ℚ)) (ys : List ℚ)
    (hlen : (since ops).length + ys.length < 2 ^ 53) {u t : ℚ} (hP : PowSq pw u t ((since ops).length + ys.length)) (hpn : ∀ x, 0 ≤ pw x 2)
    (hne : since ops ≠ []) :
    ∃ c₁ c₂ v₁ v₂, run (Arith.rounded rnd64 pw) c ops = .val (c₁, []) ∧ sum c₁ 2 = .ok v₁ ∧
      run (Arith.rounded rnd64 pw) c (ops ++ ys.map .push) = .val (c₂, []) ∧ sum c₂ 2 = .ok v₂ ∧ v₁ ≤ v₂ := by
  obtain ⟨w, hw', hc, -⟩ := newCore_ok _ hn
  have hl : 2 < c.len := by rw [hc]; exact (lt_mk_len _ 2).2 h2
  have hsi : since (ops ++ ys.map .push) = since ops ++ ys := by
    induction ys using List.reverseRecOn with
    | nil => simp
    | append_singleton ys y ih =>
      rw [List.map_append, List.map_singleton, ← List.append_assoc, since_push, ih (by simp at hlen ⊢; omega)
        ⟨hP.two, fun n h => hP.one n (by simp; omega)⟩, List.append_assoc]
  obtain ⟨c₁, e₁, B₁, I₁⟩ := core_track _ hn hs (w := 0) hw (hd ▸ track_trace (Arith.rounded rnd64 pw) c.len) ops
  obtain ⟨c₂, e₂, B₂, I₂⟩ := core_track _ hn hs (w := 0) hw (hd ▸ track_trace (Arith.rounded rnd64 pw) c.len) (ops ++ ys.map .push)
  refine ⟨c₁, c₂, _, _, e₁, B₁.sum_ok (k := 2) hne (by norm_num) hl, e₂, B₂.sum_ok (k := 2) (by rw [hsi]; simp [hne]) (by norm_num) hl, ?_⟩
  rw [hsi] at I₂
  have := (trace_mono rounding_rnd64 (N := (since ops).length + ys.length) (fun n h => rnd64_nat (by omega)) hP hpn hl (since ops) ys
    (by rw [List.length_append])).2
  rw [← I₁, ← I₂] at this
  exact this

end

/-! ### NaN -/

/-- What is assumed of `math.Pow` with natural exponents. -/
structure GoodPow (pw : ℚ → Nat → ℚ) (n : Nat) : Prop where
  acc : PowAcc pw (1 / 2 ^ 52) (1 / 2 ^ 1075)
  sq : PowSq pw (1 / 2 ^ 53) (1 / 2 ^ 1075) n
  zero : ∀ k, 1 ≤ k → pw 0 k = 0
  nonneg : ∀ x, 0 ≤ pw x 2

/-- A correctly rounded power will do. -/
theorem goodPow64 {n : Nat} (hn : n ≤ 2 ^ 43) : GoodPow (fun x k => rnd64 (x ^ k)) n where
  acc := fun x k => by
    have h := accuracy_rnd64 (x ^ k)
    rw [abs_pow] at h
    have h2 : (1 / 2 ^ 53 : ℚ) * |x| ^ k ≤ 1 / 2 ^ 52 * |x| ^ k := mul_le_mul_of_nonneg_right (by norm_num) (by positivity)
    linarith
  sq := powSq64 hn
  zero := fun k hk => by
    have : (0 : ℚ) ^ k = 0 := zero_pow (by omega)
    simp only [this, rounding_rnd64.zero]
  nonneg := fun x => rounding_rnd64.nonneg (by positivity)

theorem over64_ne_nan (q : ℚ) : over64 q ≠ .nan := by
  unfold over64
  split_ifs <;> simp

/-- Values of moderate size, not too close to the first one. -/
def ModSize (xs : List ℚ) : Prop :=
  ∀ x ∈ xs, rnd64 x = x ∧ |x| ≤ 2 ^ 200 ∧ ∀ x0, xs.head? = some x0 → x = x0 ∨ 1 / 2 ^ 200 ≤ |x - x0|

theorem big1024 : (2 : ℚ) ^ 1000 < two 1024 := by decide +kernel

attribute [local irreducible] two

/-- The power sums of a core without a window in IEEE arithmetic: they are finite, and the second one is zero exactly for constant data. -/
theorem sums_fin {pw : ℚ → Nat → ℚ} {cfg : Config (XF ℚ)} {c : Core (XF ℚ)} (hn : newCore (ieeeOf rnd64 pw over64) cfg = .ok c)
    (hw : cfg.window = some 0) (hd : cfg.decay = none) (hs : ∀ k ∈ cfg.sums.getD [], k ≤ 65) {k : Nat} (hk2 : 2 ≤ k) (hk4 : k ≤ 4)
    (h2 : ∃ i ∈ cfg.sums.getD [], (k : Int) ≤ i) (ops : List (MOp ℚ)) (hlen : (since ops).length ≤ 2 ^ 36) (hP : GoodPow pw (since ops).length)
    (hx : ModSize (since ops)) (hne : since ops ≠ []) :
    ∃ (c' : Core (XF ℚ)) (s : Nat → ℚ), run (ieeeOf rnd64 pw over64) c (finOps ops) = .val (c', []) ∧ c'.count = (since ops).length ∧
      (∀ j : Nat, 2 ≤ j → j ≤ k → sum c' j = .ok (.fin (s j)) ∧ |s j| ≤ 2 ^ 850) ∧
      (Const (since ops) → ∀ j, s j = 0) ∧ (¬ Const (since ops) → 1 / 2 ^ 402 ≤ s 2) := by
  obtain ⟨w, hw', hc, -⟩ := newCore_ok _ hn
  have hl : k < c.len := by rw [hc]; exact (lt_mk_len _ k).2 h2
  have hl2 : 2 < c.len := by omega
  obtain ⟨x0, h0⟩ : ∃ x0, (since ops).head? = some x0 := by
    cases h : since ops with
    | nil => exact absurd h hne
    | cons a l => exact ⟨a, rfl⟩
  have hm : x0 ∈ since ops := List.mem_of_mem_head? h0
  have hlq : ((since ops).length : ℚ) ≤ 2 ^ 36 := by exact_mod_cast hlen
  have hlu : ((since ops).length : ℚ) * (1 / 2 ^ 52) ≤ 1 / 2 ^ 16 := by
    have := mul_le_mul_of_nonneg_right hlq (show (0 : ℚ) ≤ 1 / 2 ^ 52 by positivity)
    refine this.trans (by norm_num)
  have hN : ∀ n : Nat, n ≤ (since ops).length → rnd64 n = n := fun n h => rnd64_nat (by omega)
  have hM : rnd64 (2 ^ 200) = 2 ^ 200 := by decide +kernel
  have hg : rnd64 (1 / 2 ^ 200) = 1 / 2 ^ 200 := by decide +kernel
  have S := tiny64 (u := 1 / 2 ^ 52) (by norm_num) (by norm_num) (M := 2 ^ 200) (by norm_num) (n := (since ops).length) (k := k)
    (hlu.trans (by norm_num)) (by omega)
  have hsm : errC k * ((since ops).length * (1 / 2 ^ 52)) ≤ 2 ^ k := by
    have h4 : errC 4 * (((since ops).length : ℚ) * (1 / 2 ^ 52)) ≤ 2 ^ 4 := by
      rw [errC_four]
      have := mul_le_mul_of_nonneg_left hlu (show (0 : ℚ) ≤ 291840 by norm_num)
      refine this.trans (by norm_num)
    exact errC_mono hk2 hk4 h4 (by positivity)
  have hk : ∀ a : ℚ, 1 ≤ a → a ^ k ≤ a ^ 4 := fun a h => pow_le_pow_right₀ h hk4
  have hfit : 8 * 2 ^ k * (((since ops).length : ℚ) * (1 + (2 * 2 ^ 200) ^ k)) < two 1024 := by
    refine lt_of_le_of_lt ?_ big1024
    have h1 := hk 2 (by norm_num)
    have h3 := hk (2 * 2 ^ 200) (by norm_num)
    have h5 : ((since ops).length : ℚ) * (1 + (2 * 2 ^ 200) ^ k) ≤ 2 ^ 36 * (1 + (2 * 2 ^ 200) ^ 4) :=
      mul_le_mul hlq (by linarith) (by positivity) (by positivity)
    have h6 : 8 * (2 : ℚ) ^ k * (((since ops).length : ℚ) * (1 + (2 * 2 ^ 200) ^ k)) ≤ 8 * 2 ^ 4 * (2 ^ 36 * (1 + (2 * 2 ^ 200) ^ 4)) :=
      mul_le_mul (by linarith) h5 (by positivity) (by positivity)
    exact h6.trans (by decide +kernel)
  have hΩ1 : 2 * ((since ops).length : ℚ) ^ k < two 1024 := by
    have h1 : ((since ops).length : ℚ) ^ k ≤ (2 ^ 36) ^ k := pow_le_pow_left₀ (by positivity) hlq _
    have h3 := hk (2 ^ 36) (by norm_num)
    exact lt_of_le_of_lt (show 2 * ((since ops).length : ℚ) ^ k ≤ 2 ^ 1000 by
      refine le_trans (b := 2 * (2 ^ 36) ^ 4) (by linarith) (by decide +kernel)) big1024
  obtain ⟨c', e, B, hI⟩ := core_track _ hn hs (w := 0) hw
    (hd ▸ track_high_fin rounding_rnd64 (accuracy_weaken (by norm_num)) hN S hP.acc hk2 (by omega) hsm hM over64_fin hΩ1 hfit lt1024.1 c.len
      ((track_zero_var rounding_rnd64 accuracy_rnd64 hN (small64 (M := 1 / 2 ^ 200) (by decide +kernel) (by omega)) hP.sq hg (hP.zero 2 (by norm_num))
        hP.nonneg hl2).and
        (track_const rounding_rnd64.zero rounding_rnd64.one hP.zero (hx x0 hm).1 0 none c.len))) (finOps ops)
  obtain ⟨m0, s0, -, hs0, -, hb, hJ, hK⟩ := hI (since ops) (since_finOps ops) le_rfl (fun x h => ⟨(hx x h).1, (hx x h).2.1⟩)
  have hne' : since (finOps ops) ≠ [] := by rw [since_finOps]; simpa using hne
  obtain ⟨-, -, hJ⟩ := hJ le_rfl (fun z hz y hy => ⟨(hx y hy).1, (hx y hy).2.2 z hz⟩)
  refine ⟨c', s0, e, by rw [B.count, lastN_zero, since_finOps, List.length_map], fun j hj hjk => ⟨?_, ?_⟩, fun h => ?_, fun h => ?_⟩
  · rw [B.sum_ok (k := j) hne' (by omega) (by omega)]
    exact congrArg _ (hs0 j hj hjk (by omega))
  · have h1 := hb j hj hjk (by omega)
    have h3 := abs_csum_le S.M0 (fun y hy => (hx y hy).2.1) j
    have h4 := abs_add_le (s0 j - csum j (since ops)) (csum j (since ops))
    rw [sub_add_cancel] at h4
    have h5 : errC j * ((since ops).length * (1 / 2 ^ 52)) ≤ 2 ^ j := errC_mono hj hjk hsm (by positivity)
    have hj4 : ∀ a : ℚ, 1 ≤ a → a ^ j ≤ a ^ 4 := fun a h => pow_le_pow_right₀ h (by omega)
    have h6 : errC j * (((since ops).length : ℚ) * (since ops).length * (1 / 2 ^ 52)) * (2 ^ 200) ^ j ≤ 2 ^ 4 * 2 ^ 36 * (2 ^ 200) ^ 4 := by
      have h7 : errC j * (((since ops).length : ℚ) * (since ops).length * (1 / 2 ^ 52)) =
        errC j * ((since ops).length * (1 / 2 ^ 52)) * (since ops).length := by ring
      rw [h7]
      exact mul_le_mul (mul_le_mul (h5.trans (hj4 2 (by norm_num))) hlq (by positivity) (by positivity)) (hj4 _ (by norm_num)) (by positivity)
        (by positivity)
    have h8 : ((since ops).length : ℚ) * (2 * 2 ^ 200) ^ j ≤ 2 ^ 36 * (2 * 2 ^ 200) ^ 4 :=
      mul_le_mul hlq (hj4 _ (by norm_num)) (by positivity) (by positivity)
    refine le_trans (b := 2 ^ 4 * 2 ^ 36 * (2 ^ 200) ^ 4 + 2 ^ 36 * (2 * 2 ^ 200) ^ 4) (by linarith) (by decide +kernel)
  · exact (hK (fun y hy => (const_iff hm).1 h y hy)).2.2
  · rw [const_iff hm] at h
    rcases hJ x0 h0 with ⟨ha, -⟩ | ⟨-, hb⟩
    · exact absurd ha h
    · exact le_trans (by decide +kernel) hb

section
variable {pw : ℚ → Nat → ℚ}

theorem fin_ofInt {i : Nat} (h : i < 2 ^ 53) : (ieeeOf rnd64 pw over64).ofInt (i : Int) = .fin i := by
  show over64 (rnd64 ((i : Int) : ℚ)) = _
  rw [Int.cast_natCast, rnd64_nat h]
  refine over64_fin _ (lt_trans ?_ lt1024.2.1)
  rw [abs_of_nonneg (by positivity)]
  exact_mod_cast h

theorem fin_sub {n i : Nat} (hi : i ≤ n) (h : n < 2 ^ 53) :
    (ieeeOf rnd64 pw over64).sub (.fin n) (.fin i) = .fin ((n - i : Nat) : ℚ) := by
  show over64 (rnd64 ((n : ℚ) - i)) = _
  rw [← Nat.cast_sub hi, rnd64_nat (by omega)]
  refine over64_fin _ (lt_trans ?_ lt1024.2.1)
  rw [abs_of_nonneg (by positivity)]
  exact_mod_cast (show n - i < 2 ^ 53 by omega)

theorem le_rnd64 {q B : ℚ} (hB : rnd64 B = B) (h : |q| ≤ B) : |rnd64 q| ≤ B := by
  rw [abs_le] at h ⊢
  have h1 := rounding_rnd64.mono h.1
  have h2 := rounding_rnd64.mono h.2
  rw [rounding_rnd64.neg, hB] at h1
  rw [hB] at h2
  exact ⟨h1, h2⟩

/-- The moments, rescaled from `n − 1` to `n`, of at least two values. -/
theorem scaled_fin {c' : Core (XF ℚ)} {n : Nat} (hn2 : 2 ≤ n) (hn : n ≤ 2 ^ 36) (hc : c'.count = n) {j : Nat} {s : ℚ}
    (hs : sum c' j = .ok (.fin s)) (hb : |s| ≤ 2 ^ 850) : ∃ v r z : ℚ,
      momentValue (ieeeOf rnd64 pw over64) c' j = .ok (.fin v) ∧
      (ieeeOf rnd64 pw over64).div ((ieeeOf rnd64 pw over64).sub ((ieeeOf rnd64 pw over64).ofInt c'.count) ((ieeeOf rnd64 pw over64).ofInt 1))
        ((ieeeOf rnd64 pw over64).ofInt c'.count) = .fin r ∧ (ieeeOf rnd64 pw over64).mul (.fin v) (.fin r) = .fin z ∧
      |z| ≤ 2 ^ 850 ∧ (s = 0 → z = 0) ∧ (1 / 2 ^ 402 ≤ s → 1 / 2 ^ 440 ≤ z) := by
  have hnq : (2 : ℚ) ≤ n := by exact_mod_cast hn2
  have hnq' : (n : ℚ) ≤ 2 ^ 36 := by exact_mod_cast hn
  have e1 : (ieeeOf rnd64 pw over64).ofInt 1 = .fin 1 := by simpa using fin_ofInt (pw := pw) (i := 1) (by norm_num)
  have e2 : (ieeeOf rnd64 pw over64).ofInt c'.count = .fin n := by rw [hc]; exact fin_ofInt (by omega)
  have e3 : (ieeeOf rnd64 pw over64).sub (.fin n) (.fin 1) = .fin ((n - 1 : Nat) : ℚ) := by
    simpa using fin_sub (pw := pw) (i := 1) (n := n) (by omega) (by omega)
  have hcast : ((n - 1 : Nat) : ℚ) = n - 1 := by rw [Nat.cast_sub (by omega), Nat.cast_one]
  have hB : rnd64 (2 ^ 850) = 2 ^ 850 := by decide +kernel
  have hlt : (2 : ℚ) ^ 850 < two 1024 := lt_trans (by decide +kernel) big1024
  have hv1 : |rnd64 (s / (n - 1))| ≤ 2 ^ 850 := le_rnd64 hB (by
    rw [abs_div, abs_of_pos (show (0 : ℚ) < n - 1 by linarith)]
    exact (div_le_self (abs_nonneg _) (by linarith)).trans hb)
  have hr0 : ((n : ℚ) - 1) / n ≤ 1 := by rw [div_le_one (by linarith)]; linarith
  have hr1 : 1 / 2 ≤ ((n : ℚ) - 1) / n := by rw [le_div_iff₀ (by linarith)]; linarith
  have hr2 : rnd64 (((n : ℚ) - 1) / n) ≤ 1 := by
    have := rounding_rnd64.mono hr0
    rwa [rounding_rnd64.one] at this
  have hr3 : 1 / 2 ≤ rnd64 (((n : ℚ) - 1) / n) := by
    have := rounding_rnd64.mono hr1
    rwa [show rnd64 (1 / 2) = 1 / 2 by decide +kernel] at this
  have hz1 : |rnd64 (rnd64 (s / (n - 1)) * rnd64 (((n : ℚ) - 1) / n))| ≤ 2 ^ 850 := le_rnd64 hB (by
    rw [abs_mul, abs_of_nonneg (show 0 ≤ rnd64 (((n : ℚ) - 1) / n) by linarith)]
    exact (mul_le_of_le_one_right (abs_nonneg _) hr2).trans hv1)
  refine ⟨rnd64 (s / (n - 1)), rnd64 (((n : ℚ) - 1) / n), rnd64 (rnd64 (s / (n - 1)) * rnd64 (((n : ℚ) - 1) / n)), ?_, ?_, ?_, hz1, ?_, ?_⟩
  · simp only [momentValue, hs, e1, e2, e3]
    refine congrArg Except.ok ?_
    simp only [Arith.ieee]
    rw [if_neg (by rw [hcast]; linarith), hcast]
    exact over64_fin _ (lt_of_le_of_lt hv1 hlt)
  · rw [e1, e2, e3]
    simp only [Arith.ieee]
    rw [if_neg (by linarith), hcast]
    refine over64_fin _ (lt_of_le_of_lt ?_ lt1024.1)
    rw [abs_of_nonneg (by linarith)]
    exact hr2
  · simp only [Arith.ieee]
    exact over64_fin _ (lt_of_le_of_lt hz1 hlt)
  · rintro rfl
    rw [zero_div, rounding_rnd64.zero, zero_mul, rounding_rnd64.zero]
  · intro h
    have h1 : (1 : ℚ) / 2 ^ 438 ≤ s / (n - 1) := by
      rw [le_div_iff₀ (by linarith)]
      have h3 : (1 : ℚ) / 2 ^ 438 * (n - 1) ≤ 1 / 2 ^ 438 * 2 ^ 36 := mul_le_mul_of_nonneg_left (by linarith) (by positivity)
      have h4 : (1 : ℚ) / 2 ^ 438 * 2 ^ 36 = 1 / 2 ^ 402 := by decide +kernel
      linarith
    have h2 := rounding_rnd64.mono h1
    rw [show rnd64 (1 / 2 ^ 438) = 1 / 2 ^ 438 by decide +kernel] at h2
    have h3 : (1 : ℚ) / 2 ^ 439 ≤ rnd64 (s / (n - 1)) * rnd64 (((n : ℚ) - 1) / n) := by
      have h5 := mul_le_mul h2 hr3 (by positivity) (le_trans (by positivity) h2)
      refine le_trans ?_ h5
      decide +kernel
    have h4 := rounding_rnd64.mono h3
    rw [show rnd64 (1 / 2 ^ 439) = 1 / 2 ^ 439 by decide +kernel] at h4
    exact le_trans (by decide +kernel) h4

theorem single_moment {c' : Core (XF ℚ)} (hc : c'.count = 1) {j : Nat} (hs : sum c' j = .ok (.fin 0)) :
    momentValue (ieeeOf rnd64 pw over64) c' j = .ok .nan := by
  have e1 : (ieeeOf rnd64 pw over64).ofInt 1 = .fin 1 := by simpa using fin_ofInt (pw := pw) (i := 1) (by norm_num)
  have e3 : (ieeeOf rnd64 pw over64).sub (.fin 1) (.fin 1) = .fin 0 := by simpa using fin_sub (pw := pw) (i := 1) (n := 1) le_rfl (by norm_num)
  simp only [momentValue, hs, hc, e1, e3]
  simp [Arith.ieee]

theorem nan_mul (a : XF ℚ) : (ieeeOf rnd64 pw over64).mul .nan a = .nan := rfl

theorem nan_div (a : XF ℚ) : (ieeeOf rnd64 pw over64).div .nan a = .nan := rfl

theorem mul_nan (a : XF ℚ) : (ieeeOf rnd64 pw over64).mul a .nan = .nan := by cases a <;> rfl

/-- The square of a variance that is not tiny is positive, or overflows. -/
theorem sq_pos {n : Nat} (hP : GoodPow pw n) {z : ℚ} (hz : 1 / 2 ^ 440 ≤ z) :
    (∃ p, 0 < p ∧ over64 (pw z 2) = .fin p) ∨ over64 (pw z 2) = .inf false := by
  have h1 := (abs_le.1 (hP.sq.two z)).1
  have h2 : (1 / 2 ^ 440 : ℚ) * (1 / 2 ^ 440) ≤ z * z := mul_self_le_mul_self (by positivity) hz
  have h3 : (1 : ℚ) / 2 ^ 1075 < 1 / 2 * ((1 / 2 ^ 440 : ℚ) * (1 / 2 ^ 440)) := by decide +kernel
  have h4 : (1 / 2 ^ 53 : ℚ) * (z * z) ≤ 1 / 2 * (z * z) := mul_le_mul_of_nonneg_right (by norm_num) (mul_self_nonneg z)
  have h5 : 0 < pw z 2 := by linarith
  unfold over64
  have h6 : (0 : ℚ) < two 1024 := lt_trans (by norm_num) lt1024.1
  split_ifs with a b
  · exact .inr rfl
  · linarith
  · exact .inl ⟨_, h5, rfl⟩

/-- C96, `Kurtosis` without a window: NaN exactly if all values are equal. Missing: as for `C96_sum_partial`; numbers larger than `2^200` may
overflow. -/
theorem C96_kurtosis_partial {cfg : Config (XF ℚ)} {c : Core (XF ℚ)} (hn : newCore (ieeeOf rnd64 pw over64) cfg = .ok c)
    (hw : cfg.window = some 0) (hd : cfg.decay = none) (hs : ∀ k ∈ cfg.sums.getD [], k ≤ 65) (h2 : ∃ i ∈ cfg.sums.getD [], 4 ≤ i)
    (ops : List (MOp ℚ)) (hlen : (since ops).length ≤ 2 ^ 36) (hP : GoodPow pw (since ops).length) (hx : ModSize (since ops))
    (hne : since ops ≠ []) :
    ∃ c' v, run (ieeeOf rnd64 pw over64) c (finOps ops) = .val (c', []) ∧ kurtosisValue (ieeeOf rnd64 pw over64) c' = .ok v ∧
      (v = .nan ↔ Const (since ops)) := by
  obtain ⟨c', s, r, hc, hsum, hz, hp⟩ := sums_fin hn hw hd hs (k := 4) (by norm_num) le_rfl h2 ops hlen hP hx hne
  have hpos := List.length_pos_iff.2 hne
  obtain ⟨s2, b2⟩ := hsum 2 le_rfl (by norm_num)
  obtain ⟨s4, b4⟩ := hsum 4 (by norm_num) le_rfl
  rcases Nat.lt_or_ge (since ops).length 2 with h1 | h1
  · obtain ⟨x, hx1⟩ := List.length_eq_one_iff.1 (show (since ops).length = 1 by omega)
    have hcon : Const (since ops) := by rw [hx1]; intro a ha b hb; simp at ha hb; rw [ha, hb]
    have hc1 : c'.count = 1 := by rw [hc, hx1]; rfl
    rw [hz hcon 2] at s2
    rw [hz hcon 4] at s4
    refine ⟨c', .nan, r, ?_, by simp [hcon]⟩
    have e2 := single_moment (pw := pw) (j := 2) hc1 s2
    have e4 := single_moment (pw := pw) (j := 4) hc1 s4
    push_cast at e2 e4
    simp only [kurtosisValue, hc1, e2, e4]
    simp [Arith.ieee]
  · obtain ⟨v, q, z, f1, f2, f3, -, f5, f6⟩ := scaled_fin (pw := pw) h1 hlen hc s2 b2
    obtain ⟨v', q', z', g1, g2, g3, -, g5, -⟩ := scaled_fin (pw := pw) h1 hlen hc s4 b4
    have hqq : q' = q := by rw [f2] at g2; simpa using g2.symm
    subst hqq
    push_cast at f1 g1
    have e3 : (ieeeOf rnd64 pw over64).ofInt 3 = .fin 3 := by simpa using fin_ofInt (pw := pw) (i := 3) (by norm_num)
    refine ⟨c', (ieeeOf rnd64 pw over64).sub ((ieeeOf rnd64 pw over64).div (.fin z') ((ieeeOf rnd64 pw over64).pow (.fin z) 2)) (.fin 3), r,
      by simp only [kurtosisValue, if_neg (show ¬ c'.count = 0 by omega), f1, f2, f3, g1, g3, e3], ?_⟩
    by_cases hcon : Const (since ops)
    · rw [f5 (hz hcon 2), g5 (hz hcon 4)]
      have h0 : (ieeeOf rnd64 pw over64).pow (.fin 0) 2 = .fin 0 := by
        show over64 (pw 0 2) = _
        rw [hP.zero 2 (by norm_num)]
        exact over64_fin _ (by rw [abs_zero]; linarith [lt1024.1])
      rw [h0]
      simp [Arith.ieee, hcon]
    · simp only [hcon, iff_false]
      have hp' := sq_pos hP (f6 (hp hcon))
      show (ieeeOf rnd64 pw over64).sub ((ieeeOf rnd64 pw over64).div (.fin z') (over64 (pw z 2))) (.fin 3) ≠ .nan
      rcases hp' with ⟨p, hp0, hp1⟩ | hp1
      · rw [hp1]
        simp only [Arith.ieee, if_neg hp0.ne']
        have := over64_ne_nan (rnd64 (z' / p))
        cases h : over64 (rnd64 (z' / p)) with
        | nan => exact absurd h this
        | inf b => simp
        | fin a => exact over64_ne_nan _
      · rw [hp1]
        exact over64_ne_nan _

/-- What is assumed of `math.Sqrt` and of `math.Pow` with exponent 1.5. -/
structure GoodRoots (sq p15 : XF ℚ → XF ℚ) : Prop where
  sqrt : ∀ q, 0 ≤ q → ∃ r, 0 ≤ r ∧ r ≤ q + 1 ∧ sq (.fin q) = .fin r
  zero : p15 (.fin 0) = .fin 0
  pos : ∀ v, 1 / 2 ^ 600 ≤ v → (∃ p, 0 < p ∧ p15 (.fin v) = .fin p) ∨ p15 (.fin v) = .inf false

/-- C96, `Skewness` without a window: NaN exactly if all values are equal, unless there are two. -/
theorem C96_skewness_partial {cfg : Config (XF ℚ)} {c : Core (XF ℚ)} (hn : newCore (ieeeOf rnd64 pw over64) cfg = .ok c)
    (hw : cfg.window = some 0) (hd : cfg.decay = none) (hs : ∀ k ∈ cfg.sums.getD [], k ≤ 65) (h2 : ∃ i ∈ cfg.sums.getD [], 3 ≤ i)
    (ops : List (MOp ℚ)) (hlen : (since ops).length ≤ 2 ^ 36) (hP : GoodPow pw (since ops).length) {sq p15 : XF ℚ → XF ℚ}
    (hR : GoodRoots sq p15) (hx : ModSize (since ops)) (hne : since ops ≠ []) (hne2 : (since ops).length ≠ 2) :
    ∃ c' v, run (ieeeOf rnd64 pw over64) c (finOps ops) = .val (c', []) ∧
      skewnessValue (ieeeOf rnd64 pw over64) sq p15 c' = .ok v ∧ (v = .nan ↔ Const (since ops)) := by
  obtain ⟨c', s, r, hc, hsum, hz, hp⟩ := sums_fin hn hw hd hs (k := 3) (by norm_num) (by norm_num) h2 ops hlen hP hx hne
  have hpos := List.length_pos_iff.2 hne
  obtain ⟨s2, b2⟩ := hsum 2 le_rfl (by norm_num)
  obtain ⟨s3, b3⟩ := hsum 3 (by norm_num) le_rfl
  rcases Nat.lt_or_ge (since ops).length 2 with h1 | h1
  · obtain ⟨x, hx1⟩ := List.length_eq_one_iff.1 (show (since ops).length = 1 by omega)
    have hcon : Const (since ops) := by rw [hx1]; intro a ha b hb; simp at ha hb; rw [ha, hb]
    have hc1 : c'.count = 1 := by rw [hc, hx1]; rfl
    rw [hz hcon 2] at s2
    rw [hz hcon 3] at s3
    have e2 := single_moment (pw := pw) (j := 2) hc1 s2
    have e3 := single_moment (pw := pw) (j := 3) hc1 s3
    push_cast at e2 e3
    refine ⟨c', .nan, r, ?_, by simp [hcon]⟩
    simp only [skewnessValue, hc1, e2, e3]
    rw [if_neg (by norm_num), nan_mul, mul_nan, nan_div]
  · obtain ⟨v, q, z, f1, f2, f3, -, f5, f6⟩ := scaled_fin (pw := pw) h1 hlen hc s2 b2
    obtain ⟨v', q', z', g1, g2, g3, g4, g5, -⟩ := scaled_fin (pw := pw) h1 hlen hc s3 b3
    have hqq : q' = q := by rw [f2] at g2; simpa using g2.symm
    subst hqq
    push_cast at f1 g1
    set n := (since ops).length
    have hnq : (n : ℚ) ≤ 2 ^ 36 := by exact_mod_cast hlen
    have hn3 : (3 : ℚ) ≤ n := by exact_mod_cast (show 3 ≤ n by omega)
    have e1 : (ieeeOf rnd64 pw over64).ofInt 1 = .fin 1 := by simpa using fin_ofInt (pw := pw) (i := 1) (by norm_num)
    have e2 : (ieeeOf rnd64 pw over64).ofInt 2 = .fin 2 := by simpa using fin_ofInt (pw := pw) (i := 2) (by norm_num)
    have en : (ieeeOf rnd64 pw over64).ofInt c'.count = .fin n := by rw [hc]; exact fin_ofInt (by omega)
    have es1 : (ieeeOf rnd64 pw over64).sub (.fin n) (.fin 1) = .fin ((n - 1 : Nat) : ℚ) := by
      simpa using fin_sub (pw := pw) (i := 1) (n := n) (by omega) (by omega)
    have es2 : (ieeeOf rnd64 pw over64).sub (.fin n) (.fin 2) = .fin ((n - 2 : Nat) : ℚ) := by
      simpa using fin_sub (pw := pw) (i := 2) (n := n) (by omega) (by omega)
    have hc1 : ((n - 1 : Nat) : ℚ) = n - 1 := by rw [Nat.cast_sub (by omega), Nat.cast_one]
    have hc2 : ((n - 2 : Nat) : ℚ) = n - 2 := by rw [Nat.cast_sub (by omega)]; norm_num
    have h72 : rnd64 (2 ^ 72) = 2 ^ 72 := by decide +kernel
    have hmn : |rnd64 (n * ((n - 1 : Nat) : ℚ))| ≤ 2 ^ 72 := le_rnd64 h72 (by
      rw [hc1, abs_of_nonneg (mul_nonneg (by linarith) (by linarith))]
      have := mul_le_mul hnq (show (n : ℚ) - 1 ≤ 2 ^ 36 by linarith) (by linarith) (by positivity)
      refine this.trans (by norm_num))
    have em : (ieeeOf rnd64 pw over64).mul (.fin n) (.fin ((n - 1 : Nat) : ℚ)) = .fin (rnd64 (n * ((n - 1 : Nat) : ℚ))) := by
      simp only [Arith.ieee]
      exact over64_fin _ (lt_of_le_of_lt hmn (lt_trans (by decide +kernel) big1024))
    obtain ⟨a, ha0, ha1, hsq⟩ := hR.sqrt (rnd64 (n * ((n - 1 : Nat) : ℚ))) (rounding_rnd64.nonneg (mul_nonneg (Nat.cast_nonneg _) (Nat.cast_nonneg _)))
    have ha2 : a ≤ 2 ^ 73 := by
      have := (abs_le.1 hmn).2
      refine ha1.trans (le_trans (add_le_add_left this 1) (by norm_num))
    have had : |rnd64 (a / ((n - 2 : Nat) : ℚ))| ≤ 2 ^ 73 := le_rnd64 (by decide +kernel) (by
      rw [hc2, abs_of_nonneg (div_nonneg ha0 (by linarith))]
      exact (div_le_self ha0 (by linarith)).trans ha2)
    have ed : (ieeeOf rnd64 pw over64).div (.fin a) (.fin ((n - 2 : Nat) : ℚ)) = .fin (rnd64 (a / ((n - 2 : Nat) : ℚ))) := by
      simp only [Arith.ieee]
      rw [if_neg (by rw [hc2]; linarith)]
      exact over64_fin _ (lt_of_le_of_lt had (lt_trans (by decide +kernel) big1024))
    set b := rnd64 (a / ((n - 2 : Nat) : ℚ))
    have hbz : |rnd64 (b * z')| ≤ 2 ^ 923 := le_rnd64 (by decide +kernel) (by
      rw [abs_mul]
      exact (mul_le_mul had g4 (abs_nonneg _) (by positivity)).trans (by decide +kernel))
    have ez : (ieeeOf rnd64 pw over64).mul (.fin b) (.fin z') = .fin (rnd64 (b * z')) := by
      simp only [Arith.ieee]
      exact over64_fin _ (lt_of_le_of_lt hbz (lt_trans (by decide +kernel) big1024))
    refine ⟨c', (ieeeOf rnd64 pw over64).div (.fin (rnd64 (b * z'))) (p15 (.fin z)), r, ?_, ?_⟩
    · simp only [skewnessValue, if_neg (show ¬ c'.count = 0 by omega), f1, f2, f3, g1, g3]
      rw [en, e1, e2, es1, es2, em, hsq, ed, ez]
    · by_cases hcon : Const (since ops)
      · rw [f5 (hz hcon 2), g5 (hz hcon 3), hR.zero]
        simp [Arith.ieee, hcon, rounding_rnd64.zero]
      · simp only [hcon, iff_false]
        rcases hR.pos z (le_trans (by decide +kernel) (f6 (hp hcon))) with ⟨p, hp0, hp1⟩ | hp1
        · rw [hp1]
          simp only [Arith.ieee, if_neg hp0.ne']
          exact over64_ne_nan _
        · rw [hp1]
          simp [Arith.ieee]

end

/-! ### Where it is false -/

/-- C96 as stated, for a core with window `w` in binary64. -/
def ZeroIffConst (w : Nat) (d : Option ℚ) : Prop :=
  ∀ c, newCore Arith.b64 ⟨some [2], some w, d⟩ = .ok c → ∀ ops : List (MOp ℚ), (∀ x ∈ since ops, rnd64 x = x) → since ops ≠ [] →
    ∀ c' v, run Arith.b64 c ops = .val (c', []) → sum c' 2 = .ok v → (v = 0 ↔ Const (windowOf w ops))

theorem refute {w : Nat} {d : Option ℚ} {xs ws : List ℚ} {m v : ℚ} {n : Int}
    (hv : Moment.validate (rnd64 0) (rnd64 1) ⟨some [2], some w, d⟩ = none)
    (h : fpObs (run Arith.b64 (mk Arith.b64 ⟨some [2], some w, d⟩) (xs.map .push)) =
      some ((.ok m, .ok v), (.error "not a tracked power sum", n), []))
    (hx : ∀ x ∈ xs, rnd64 x = x) (hne : xs ≠ []) (hw : lastN w xs = ws) (hbad : ¬ (v = 0 ↔ Const ws)) : ¬ ZeroIffConst w d := by
  intro H
  have hsince : ∀ l : List ℚ, since (l.map MOp.push) = l := by
    intro l
    induction l using List.reverseRecOn with
    | nil => rfl
    | append_singleton l x ih => rw [List.map_append, List.map_singleton, since_push, ih]
  obtain ⟨c', e, -, h2, -⟩ := fpObs_run h
  have hc : newCore Arith.b64 ⟨some [2], some w, d⟩ = .ok (mk Arith.b64 ⟨some [2], some w, d⟩) := by
    simp [newCore, Arith.b64, Arith.rounded, Moment.setDefaults, hv]
  have := H _ hc (xs.map .push) (by rw [hsince]; exact hx) (by rw [hsince]; exact hne) c' v e h2
  rw [windowOf, hsince, hw] at this
  exact hbad this

/-- C96 refuted for a window of two: after 2^54, 1, 0 the window is 1, 0 and `Sum(2)` is 0. -/
theorem C96_window_zero_refuted : ¬ ZeroIffConst 2 none :=
  refute (xs := [2 ^ 54, 1, 0]) (ws := [1, 0]) (m := 0) (v := 0) (n := 2) (by decide +kernel) (by decide +kernel) (by decide +kernel) (by simp)
    (by decide +kernel) (by simp [Const])

/-- ... and after 1, 2^53, 2^53 all values in the window are equal and `Sum(2)` is 2^53. -/
theorem C96_window_const_refuted : ∃ (c c' : Core ℚ), newCore Arith.b64 ⟨some [2], some 2, none⟩ = .ok c ∧
    run Arith.b64 c [.push 1, .push (2 ^ 53), .push (2 ^ 53)] = .val (c', []) ∧ sum c' 2 = .ok (2 ^ 53) ∧
    Const (windowOf 2 [.push 1, .push (2 ^ 53), .push (2 ^ 53)]) := by
  have h : fpObs (run Arith.b64 (mk Arith.b64 ⟨some [2], some 2, none⟩) [.push 1, .push (2 ^ 53), .push (2 ^ 53)]) =
      some ((.ok (2 ^ 53), .ok (2 ^ 53)), (.error "not a tracked power sum", 2), []) := by decide +kernel
  obtain ⟨c', e, -, h2, -⟩ := fpObs_run h
  exact ⟨_, c', rfl, e, h2, by simp [Const, windowOf, since, lastN]⟩

/-- C96 refuted for data so close together that the squares underflow: 0 and 2^-600. -/
theorem C96_underflow_refuted : ¬ ZeroIffConst 0 none :=
  refute (xs := [0, 1 / 2 ^ 600]) (ws := [0, 1 / 2 ^ 600]) (m := 1 / 2 ^ 601) (v := 0) (n := 2) (by decide +kernel) (by decide +kernel) (by decide +kernel)
    (by simp) (by decide +kernel) (by simp [Const])

/-- C96 refuted for decays: with decay 1 - 2^-53, a 0 and 21 ones have the exponentially weighted variance 0, by underflow. -/
theorem C96_decay_refuted : ¬ ZeroIffConst 0 (some (1 - 1 / 2 ^ 53)) :=
  refute (xs := 0 :: List.replicate 21 1) (ws := 0 :: List.replicate 21 1) (m := 1) (v := 0) (n := 22) (by decide +kernel) (by decide +kernel)
    (by decide +kernel) (by simp) (by decide +kernel) (by simp [Const])

/-- The `Kurtosis` of a window whose values are all equal can be a number, and a huge one: with window 2, after 1, 2^53, 2^53. -/
theorem C96_kurtosis_window_refuted : (match run Arith.ieee64 (mk Arith.ieee64 ⟨some [2, 4], some 2, none⟩)
      [.push (.fin 1), .push (.fin (2 ^ 53)), .push (.fin (2 ^ 53))] with
    | .val (c, _) => kurtosisValue Arith.ieee64 c
    | _ => .error "") = .ok (.fin 36028797018963956) := by
  decide +kernel

/-- The `Skewness` of two different values is NaN (0 · ∞): the case excluded in `C96_skewness_partial`. -/
theorem C96_skewness_two_refuted : (match run Arith.ieee64 (mk Arith.ieee64 ⟨some [2, 3], some 0, none⟩) [.push (.fin 0), .push (.fin 1)] with
    | .val (c, _) => skewnessValue Arith.ieee64 (fun x => x) (fun x => x) c
    | _ => .error "") = .ok .nan := by
  decide +kernel

/-- The hypotheses hold for binary64 and for 1, 1, 1 + 2^-52, -3: the smallest distance from 1 is 2^-52. -/
example : GoodPow (fun x k => rnd64 (x ^ k)) 4 ∧ ModSize [1, 1, 1 + 1 / 2 ^ 52, -3] ∧ ¬ Const [1, 1, 1 + 1 / 2 ^ 52, -3] := by
  refine ⟨goodPow64 (by norm_num), ?_, by simp [Const]⟩
  intro x hx
  simp only [List.mem_cons, List.not_mem_nil, or_false] at hx
  refine ⟨?_, ?_, fun x0 h0 => ?_⟩
  · rcases hx with rfl | rfl | rfl | rfl <;> decide +kernel
  · rcases hx with rfl | rfl | rfl | rfl <;> decide +kernel
  · obtain rfl : 1 = x0 := by simpa using h0
    rcases hx with rfl | rfl | rfl | rfl <;> decide +kernel

/-- Roots with the assumed properties. -/
example : GoodRoots (fun | .fin q => .fin (if q ≤ 1 then q else 1) | x => x) (fun x => x) where
  sqrt := fun q hq => by
    refine ⟨_, ?_, ?_, rfl⟩ <;> split_ifs <;> linarith
  zero := rfl
  pos := fun v hv => .inl ⟨v, lt_of_lt_of_le (by positivity) hv, rfl⟩

end Verif.Props
