import Verif.Model.Approx
import Verif.Proofs.QuantOverflow
import Verif.Proofs.Drift
import Verif.Proofs.Decide
import Mathlib.Tactic.Linarith
import Mathlib.Tactic.Ring
import Mathlib.Tactic.Positivity

/-! # C111: what the assertion `Approx` of `util/test` says about two numbers

Numbers are binary64: `XF.fin x` with `rnd64 x = x`, infinities, NaN. -/

namespace Verif.Props
open Verif Verif.FP Verif.Approx
open Verif.Quant (rnd64_abs over_fin)

attribute [local irreducible] two rnd64

/-- `5 * math.Pow10(-10)`. -/
def unit9 : ℚ := 4835703278458517 / 2 ^ 83

section
attribute [local semireducible] two rnd64
theorem unit9_eq : unit 9 = .fin unit9 := by decide +kernel
theorem rnd64_1021 : rnd64 (2 ^ 1021) = 2 ^ 1021 := by decide +kernel
theorem rnd64_1022 : rnd64 (2 ^ 1022) = 2 ^ 1022 := by decide +kernel
theorem rnd64_1030 : rnd64 (2 ^ 1030) = 2 ^ 1030 := by decide +kernel
theorem two_1024 : (2 ^ 1022 : ℚ) < two 1024 ∧ two 1024 ≤ 2 ^ 1030 ∧ 0 < two 1024 := by decide +kernel
end

theorem unit9_bounds : 1 / 2 ^ 31 < unit9 ∧ unit9 < 1 / 2 ^ 30 ∧ unit9 < 501 / 10 ^ 12 := by
  unfold unit9; norm_num

theorem unit9_pos : 0 < unit9 := lt_trans (by norm_num) unit9_bounds.1

theorem roundAway_mono : Monotone roundAway := by
  intro a b h
  unfold roundAway
  split_ifs with h1 h2 h2
  · exact neg_le_neg (Int.floor_mono (by linarith))
  · have : 0 ≤ ⌊-a + 1 / 2⌋ := Int.floor_nonneg.2 (by linarith)
    have : 0 ≤ ⌊b + 1 / 2⌋ := Int.floor_nonneg.2 (by linarith)
    omega
  · exact absurd (lt_of_le_of_lt h h2) h1
  · exact Int.floor_mono (by linarith)

theorem roundAway_near (q : ℚ) : |(roundAway q : ℚ) - q| ≤ 1 / 2 := by
  unfold roundAway
  split_ifs with h
  · have h1 := Int.floor_le (-q + 1 / 2)
    have h2 := Int.lt_floor_add_one (-q + 1 / 2)
    push_cast
    rw [abs_le]
    constructor <;> linarith
  · have h1 := Int.floor_le (q + 1 / 2)
    have h2 := Int.lt_floor_add_one (q + 1 / 2)
    rw [abs_le]
    constructor <;> linarith

/-- `roundFloat` without overflow. -/
def rf (x : ℚ) : ℚ := rnd64 (roundAway (rnd64 (x / unit9)) * unit9)

theorem rf_mono : Monotone rf := by
  intro a b h
  refine rounding_rnd64.mono (mul_le_mul_of_nonneg_right ?_ unit9_pos.le)
  exact_mod_cast roundAway_mono (rounding_rnd64.mono (div_le_div_of_nonneg_right h unit9_pos.le))

theorem ieee_div_unit (x : ℚ) : Arith.ieee64.div (.fin x) (.fin unit9) = over64 (rnd64 (x / unit9)) := by
  show (if unit9 = 0 then _ else over64 (rnd64 (x / unit9))) = _
  rw [if_neg unit9_pos.ne']

theorem roundFloat_fin {x : ℚ} (h : |x| ≤ 2 ^ 990) : roundFloat (.fin x) 9 = .fin (rf x) := by
  have h1 : |x / unit9| ≤ 2 ^ 1021 := by
    rw [abs_div, abs_of_pos unit9_pos, div_le_iff₀ unit9_pos]
    refine h.trans ?_
    have := mul_le_mul_of_nonneg_left unit9_bounds.1.le (show (0 : ℚ) ≤ 2 ^ 1021 by positivity)
    refine le_trans (le_of_eq ?_) this
    rw [mul_one_div, eq_div_iff (by positivity), ← pow_add]
  have h2 := rnd64_abs rnd64_1021 h1
  have h3 : |(roundAway (rnd64 (x / unit9)) : ℚ)| ≤ 2 ^ 1022 := by
    have a := roundAway_near (rnd64 (x / unit9))
    have b := abs_sub_abs_le_abs_sub (roundAway (rnd64 (x / unit9)) : ℚ) (rnd64 (x / unit9))
    have c : (2 ^ 1022 : ℚ) = 2 * 2 ^ 1021 := by rw [← pow_succ']
    have d : (1 : ℚ) ≤ 2 ^ 1021 := one_le_pow₀ (by norm_num)
    rw [c]
    clear c h
    generalize (2 ^ 1021 : ℚ) = T at *
    linarith
  have h4 : |(roundAway (rnd64 (x / unit9)) : ℚ) * unit9| ≤ 2 ^ 1022 := by
    rw [abs_mul, abs_of_pos unit9_pos]
    have : unit9 ≤ 1 := unit9_bounds.2.1.le.trans (by norm_num)
    exact (mul_le_of_le_one_right (abs_nonneg _) this).trans h3
  unfold roundFloat
  rw [unit9_eq, ieee_div_unit, over_fin rnd64_1021 h1 (lt_trans (pow_lt_pow_right₀ (by norm_num) (by norm_num)) two_1024.1)]
  show over64 (rnd64 (_ * unit9)) = _
  rw [over_fin rnd64_1022 h4 two_1024.1]
  rfl

/-- `roundFloat` moves a number by little. -/
theorem rf_near (x : ℚ) : |rf x - x| ≤ 3 / 10 ^ 10 + 3 / 2 ^ 53 * |x| := by
  have a := accuracy_rnd64 (x / unit9)
  have b := roundAway_near (rnd64 (x / unit9))
  have c := accuracy_rnd64 (roundAway (rnd64 (x / unit9)) * unit9)
  unfold rf
  generalize rnd64 (x / unit9) = q at a b c ⊢
  generalize (roundAway q : ℚ) = n at b c ⊢
  generalize rnd64 (n * unit9) = r at c ⊢
  have hu := unit9_pos
  have hs : unit9 < 501 / 10 ^ 12 := unit9_bounds.2.2
  have ht : (1 / 2 ^ 1075 : ℚ) ≤ 1 / 10 ^ 20 := by decide +kernel
  have a' : |q * unit9 - x| ≤ 1 / 2 ^ 53 * |x| + 1 / 10 ^ 20 * unit9 := by
    have e : q * unit9 - x = (q - x / unit9) * unit9 := by rw [sub_mul, div_mul_cancel₀ _ hu.ne']
    have e2 : |x / unit9| * unit9 = |x| := by rw [abs_div, abs_of_pos hu, div_mul_cancel₀ _ hu.ne']
    rw [e, abs_mul, abs_of_pos hu]
    calc |q - x / unit9| * unit9 ≤ (1 / 2 ^ 53 * |x / unit9| + 1 / 2 ^ 1075) * unit9 := mul_le_mul_of_nonneg_right a hu.le
      _ = 1 / 2 ^ 53 * |x| + 1 / 2 ^ 1075 * unit9 := by rw [add_mul, mul_assoc, e2]
      _ ≤ _ := by gcongr
  have b' : |n * unit9 - q * unit9| ≤ unit9 / 2 := by
    rw [← sub_mul, abs_mul, abs_of_pos hu]
    have := mul_le_mul_of_nonneg_right b hu.le
    linarith
  generalize (1 / 2 ^ 1075 : ℚ) = t at *
  have d : |n * unit9| ≤ |x| + 1 / 2 ^ 53 * |x| + 1 / 10 ^ 20 * unit9 + unit9 / 2 := by
    have h1 := abs_sub_abs_le_abs_sub (n * unit9) (q * unit9)
    have h2 := abs_sub_abs_le_abs_sub (q * unit9) x
    linarith
  have hx := abs_nonneg x
  have e : |r - x| ≤ |r - n * unit9| + |n * unit9 - q * unit9| + |q * unit9 - x| := by
    have := abs_sub_le r (n * unit9) x
    have := abs_sub_le (n * unit9) (q * unit9) x
    linarith
  generalize |n * unit9| = N at *
  generalize |r - n * unit9| = R at *
  generalize |x| = X at *
  norm_num at c a' d hs ⊢
  linarith

/-- C111, what a passed assertion says, in any range without overflow: the numbers differ by at most `6·10⁻¹⁰` and a few units in the last place.
-/
theorem C111_passed {x y : ℚ} (hx : |x| ≤ 2 ^ 990) (hy : |y| ≤ 2 ^ 990) (h : approx (.fin x) (.fin y) = true) :
    |x - y| ≤ 6 / 10 ^ 10 + 3 / 2 ^ 53 * (|x| + |y|) := by
  unfold approx at h
  rw [roundFloat_fin hx, roundFloat_fin hy] at h
  have e : rf x = rf y := of_decide_eq_true h
  have a := rf_near x
  have b := rf_near y
  rw [e] at a
  have c := abs_sub_le x (rf y) y
  rw [abs_sub_comm x (rf y)] at c
  linarith

example : approx (.fin (rnd64 (1 / 10))) (.fin (rnd64 (1 / 10 + 1 / 10 ^ 11))) = true ∧
    rnd64 (1 / 10) ≠ rnd64 (1 / 10 + 1 / 10 ^ 11) := by decide +kernel

/-- C111 as documented ("within 9 decimal points") for numbers up to 500000: if they differ by more than `10⁻⁹` the assertion fails. -/
theorem C111_nine_decimals {x y : ℚ} (hx : |x| ≤ 500000) (hy : |y| ≤ 500000) (h : 1 / 10 ^ 9 < |x - y|) : approx (.fin x) (.fin y) = false := by
  by_contra hc
  have big : (500000 : ℚ) ≤ 2 ^ 990 := le_trans (by norm_num : (500000 : ℚ) ≤ 2 ^ 20) (pow_le_pow_right₀ (by norm_num) (by norm_num))
  have k := C111_passed (hx.trans big) (hy.trans big) (by simpa using hc)
  norm_num at *
  linarith

example : approx (.fin 1000) (.fin (rnd64 (1000 + 2 / 10 ^ 9))) = false ∧ 1 / 10 ^ 9 < |(1000 : ℚ) - rnd64 (1000 + 2 / 10 ^ 9)| := by decide +kernel

/-- C111: numbers between two that pass against each other pass against both, in either order. -/
theorem C111_between {x y z : ℚ} (hx : |x| ≤ 2 ^ 990) (hz : |z| ≤ 2 ^ 990) (h1 : x ≤ y) (h2 : y ≤ z) (h : approx (.fin x) (.fin z) = true) :
    approx (.fin x) (.fin y) = true ∧ approx (.fin y) (.fin z) = true ∧ approx (.fin y) (.fin x) = true := by
  have hy : |y| ≤ 2 ^ 990 := abs_le.2 ⟨(abs_le.1 hx).1.trans h1, h2.trans (abs_le.1 hz).2⟩
  unfold approx at h ⊢
  rw [roundFloat_fin hx, roundFloat_fin hz] at h
  rw [roundFloat_fin hx, roundFloat_fin hy, roundFloat_fin hz]
  have e : rf x = rf z := of_decide_eq_true h
  have e1 : rf x = rf y := le_antisymm (rf_mono h1) (e ▸ rf_mono h2)
  exact ⟨decide_eq_true e1, decide_eq_true (e1.symm.trans e), decide_eq_true e1.symm⟩

theorem approx_symm {x y : XF ℚ} (h : approx x y = true) : approx y x = true := by
  unfold approx at *
  generalize roundFloat x 9 = a at *
  generalize roundFloat y 9 = b at *
  rcases a with a | a | _ <;> rcases b with b | b | _ <;> first | exact h | skip
  · exact decide_eq_true (of_decide_eq_true h).symm
  · revert h; cases a <;> cases b <;> decide

/-- C111, when an assertion is sure to pass: every number of either sign up to `24·10⁻¹¹` passes against 0, in either order. -/
theorem C111_near_zero {x : ℚ} (h : |x| ≤ 24 / 10 ^ 11) : approx (.fin x) (.fin 0) = true ∧ approx (.fin 0) (.fin x) = true := by
  have big : (24 / 10 ^ 11 : ℚ) ≤ 2 ^ 990 := le_trans (by norm_num : (24 / 10 ^ 11 : ℚ) ≤ 1) (one_le_pow₀ (by norm_num))
  have ha : |(-(24 / 10 ^ 11) : ℚ)| ≤ 2 ^ 990 := by rw [abs_neg, abs_of_pos (by norm_num)]; exact big
  have hb : |(24 / 10 ^ 11 : ℚ)| ≤ 2 ^ 990 := by rw [abs_of_pos (by norm_num)]; exact big
  have h0 : |(0 : ℚ)| ≤ 2 ^ 990 := by rw [abs_zero]; positivity
  have e : approx (.fin (-(24 / 10 ^ 11))) (.fin (24 / 10 ^ 11)) = true := by decide +kernel
  have k := C111_between ha hb (y := 0) (by norm_num) (by norm_num) e
  obtain ⟨l, u⟩ := abs_le.1 h
  have sym : ∀ y z : XF ℚ, approx y z = true → approx z y = true := fun y z => approx_symm
  rcases le_total x 0 with c | c
  · have q := (C111_between ha h0 l c k.1).2.1
    exact ⟨q, sym _ _ q⟩
  · have q := C111_between h0 hb c u k.2.1
    exact ⟨q.2.2, q.1⟩

example : |(-(2 / 10 ^ 10) : ℚ)| ≤ 24 / 10 ^ 11 ∧ approx (.fin (-(26 / 10 ^ 11))) (.fin 0) = false := by
  constructor
  · rw [abs_neg, abs_of_pos (by norm_num)]; norm_num
  · decide +kernel

/-- C111, the other side of `C111_near_zero`: every number of either sign from `26·10⁻¹¹` to `2^990` fails against 0, in either order. -/
theorem C111_far_zero {x : ℚ} (hx : |x| ≤ 2 ^ 990) (h : 26 / 10 ^ 11 ≤ |x|) :
    approx (.fin x) (.fin 0) = false ∧ approx (.fin 0) (.fin x) = false := by
  have h0 : |(0 : ℚ)| ≤ 2 ^ 990 := by rw [abs_zero]; positivity
  have p : approx (.fin 0) (.fin (26 / 10 ^ 11)) = false := by decide +kernel
  have n : approx (.fin (-(26 / 10 ^ 11))) (.fin 0) = false := by decide +kernel
  have key : approx (.fin x) (.fin 0) ≠ true := by
    intro e
    rcases le_total x 0 with c | c
    · rw [abs_of_nonpos c] at h
      have q := (C111_between hx h0 (y := -(26 / 10 ^ 11)) (by linarith) (by norm_num) e).2.1
      rw [n] at q; cases q
    · rw [abs_of_nonneg c] at h
      have q := (C111_between h0 hx (y := 26 / 10 ^ 11) (by norm_num) h (approx_symm e)).1
      rw [p] at q; cases q
  exact ⟨by simpa using key, by simpa using fun e => key (approx_symm e)⟩

example : |(-1 : ℚ)| ≤ 2 ^ 990 ∧ (26 / 10 ^ 11 : ℚ) ≤ |(-1 : ℚ)| := by
  rw [abs_neg, abs_one]
  exact ⟨one_le_pow₀ (by norm_num), by norm_num⟩

/-- C111: every number but NaN passes against itself. NaN passes against nothing. -/
theorem C111_self (x : XF ℚ) : (x ≠ .nan → approx x x = true) ∧ approx .nan x = false ∧ approx x .nan = false := by
  have hn : roundFloat .nan 9 = .nan := rfl
  have key : ∀ y : XF ℚ, y ≠ .nan → GoOrd.eq y y = true := by
    rintro (q | s | _) h
    · exact decide_eq_true rfl
    · cases s <;> rfl
    · exact absurd rfl h
  have hu := unit9_pos
  refine ⟨fun hx => key _ ?_, ?_, ?_⟩
  · cases x with
    | nan => exact absurd rfl hx
    | inf s =>
      unfold roundFloat
      rw [unit9_eq]
      show Arith.ieee64.mul (.inf _) (.fin unit9) ≠ _
      show (if unit9 = 0 then XF.nan else XF.inf _) ≠ _
      rw [if_neg hu.ne']
      exact fun h => by cases h
    | fin q =>
      unfold roundFloat
      rw [unit9_eq, ieee_div_unit]
      have ho : ∀ p, over64 p ≠ .nan := fun p => by unfold over64; split_ifs <;> exact fun h => by cases h
      generalize hp : over64 (rnd64 (q / unit9)) = p
      cases p with
      | nan => exact absurd hp (ho _)
      | inf s =>
        show (if unit9 = 0 then XF.nan else XF.inf _) ≠ _
        rw [if_neg hu.ne']
        exact fun h => by cases h
      | fin p => exact ho _
  · unfold approx
    rw [hn]
    cases roundFloat x 9 <;> rfl
  · unfold approx
    rw [hn]
    cases roundFloat x 9 <;> rfl

theorem roundFloat_large {x : ℚ} (h : 2 ^ 1000 ≤ x) : roundFloat (.fin x) 9 = .inf false := by
  have h1 : 2 ^ 1030 ≤ x / unit9 := by
    rw [le_div_iff₀ unit9_pos]
    refine le_trans ?_ h
    have := mul_le_mul_of_nonneg_left unit9_bounds.2.1.le (show (0 : ℚ) ≤ 2 ^ 1030 by positivity)
    refine le_trans this (le_of_eq ?_)
    rw [mul_one_div, div_eq_iff (by positivity), ← pow_add]
  have h2 := rounding_rnd64.mono h1
  rw [rnd64_1030] at h2
  unfold roundFloat
  rw [unit9_eq, ieee_div_unit, over64, if_pos (two_1024.2.1.trans h2)]
  show (if unit9 = 0 then XF.nan else XF.inf _) = _
  rw [if_neg unit9_pos.ne']
  simp [unit9_pos.le]

/-- C111 fails for large numbers: any two from 2^1000 on pass, however different, and they pass against +Inf. -/
theorem C111_large_refuted {x y : ℚ} (hx : 2 ^ 1000 ≤ x) (hy : 2 ^ 1000 ≤ y) :
    approx (.fin x) (.fin y) = true ∧ approx (.fin x) (.inf false) = true := by
  have hi : roundFloat (.inf false) 9 = .inf false := by
    unfold roundFloat
    rw [unit9_eq]
    show (if unit9 = 0 then XF.nan else XF.inf _) = _
    rw [if_neg unit9_pos.ne']
    simp [unit9_pos.le]
  unfold approx
  rw [roundFloat_large hx, roundFloat_large hy, hi]
  exact ⟨rfl, rfl⟩

example : approx (.fin (2 ^ 1000)) (.fin (2 ^ 1023)) = true := by decide +kernel

/-- C111, the converse fails: two neighbouring binary64 numbers, less than 10^-25 apart, do not pass, although 3·10^-10 and 7·10^-10 do. -/
theorem C111_neighbours_refuted : ∃ x y : ℚ, rnd64 x = x ∧ rnd64 y = y ∧ x < y ∧ (∀ z, rnd64 z = z → x < z → y ≤ z) ∧ y - x < 1 / 10 ^ 25 ∧
    approx (.fin x) (.fin y) = false := by
  refine ⟨4835703278458516 / 2 ^ 84, 4835703278458517 / 2 ^ 84, by decide +kernel, by decide +kernel, by norm_num, fun z hz h => ?_, by norm_num,
    by decide +kernel⟩
  by_contra hc
  have hc := not_le.1 hc
  have hq : 0 < z := lt_trans (by positivity) h
  obtain ⟨a, b⟩ := ilog_spec hq
  have hl : ilog z = -32 := by
    have c1 : (-32 : Int) < ilog z + 1 := by
      refine (zpow_lt_zpow_iff_right₀ (a := (2 : ℚ)) (by norm_num)).1 (lt_trans (lt_trans ?_ h) b)
      norm_num
    have c2 : ilog z < -31 := by
      refine ilog_lt hq (lt_trans hc ?_)
      norm_num
    omega
  have hu : ulpExp 53 (-1022) z = -84 := by unfold ulpExp; rw [hl]; norm_num
  have hr : (roundEven (z / two (-84)) : ℚ) * 2 ^ (-84 : Int) = z := by
    have : rnd64 z = roundEven (z / two (-84)) * two (-84) := by
      unfold rnd64
      rw [rnd_pos hq, rndPos, hu]
    rw [hz, two_eq] at this
    rw [two_eq]
    exact this.symm
  generalize roundEven (z / two (-84)) = m at hr
  rw [← hr, zpow_neg] at h hc
  have h1 : (4835703278458516 : ℚ) < m := by
    have := h
    norm_num at this ⊢
    linarith
  have h2 : (m : ℚ) < 4835703278458517 := by
    have := hc
    norm_num at this ⊢
    linarith
  have h1' : (4835703278458516 : Int) < m := by exact_mod_cast h1
  have h2' : m < (4835703278458517 : Int) := by exact_mod_cast h2
  omega

example : approx (.fin (rnd64 (3 / 10 ^ 10))) (.fin (rnd64 (7 / 10 ^ 10))) = true := by decide +kernel

/-- C111, `ApproxSlice`: it passes iff the lengths agree and every pair of elements passes. -/
theorem C111_slice (xs ys : List (XF ℚ)) :
    approxSlice xs ys = true ↔ xs.length = ys.length ∧ ∀ (i : Nat) (x y : XF ℚ), xs[i]? = some x → ys[i]? = some y → approx x y = true := by
  unfold approxSlice
  rw [Bool.and_eq_true, decide_eq_true_eq]
  refine and_congr_right fun hl => ?_
  rw [List.all_eq_true]
  constructor
  · intro h i x y hx hy
    refine h _ (List.mem_of_getElem? (i := i) ?_)
    rw [List.getElem?_zipWith, hx, hy]
    rfl
  · intro h b hb
    obtain ⟨i, hi⟩ := List.getElem?_of_mem hb
    rw [List.getElem?_zipWith] at hi
    cases hx : xs[i]? <;> cases hy : ys[i]? <;> rw [hx, hy] at hi <;> simp at hi
    rw [← hi]
    exact h i _ _ hx hy

end Verif.Props
