import Verif.Model.Rounding
import Mathlib.Algebra.Order.Field.Power
import Mathlib.Tactic.Linarith
import Mathlib.Tactic.Ring
import Mathlib.Tactic.FieldSimp

/-! # Rounding: monotone, exact on representable numbers -/

namespace Verif.FP

/-! ### Basic facts -/

theorem two_eq (e : Int) : two e = (2 : ℚ) ^ e := by
  unfold two
  split_ifs with h
  · obtain ⟨n, rfl⟩ := Int.eq_ofNat_of_zero_le h
    simp
  · obtain ⟨n, hn⟩ := Int.eq_ofNat_of_zero_le (show 0 ≤ -e by omega)
    obtain rfl : e = -(n : Int) := by omega
    simp

theorem roundEven_int (n : Int) : roundEven (n : ℚ) = n := by simp [roundEven]

theorem roundEven_lo (q : ℚ) : ⌊q⌋ ≤ roundEven q := by unfold roundEven; split_ifs <;> omega

theorem roundEven_hi (q : ℚ) : roundEven q ≤ ⌊q⌋ + 1 := by unfold roundEven; split_ifs <;> omega

theorem roundEven_mono {a b : ℚ} (h : a ≤ b) : roundEven a ≤ roundEven b := by
  have hf := Int.floor_le_floor h
  rcases hf.lt_or_eq with h1 | h1
  · have := roundEven_hi a
    have := roundEven_lo b
    omega
  · unfold roundEven
    rw [h1]
    split_ifs <;> first | omega | (exfalso; linarith)

theorem roundEven_nonneg {a : ℚ} (h : 0 ≤ a) : 0 ≤ roundEven a := by
  have := roundEven_mono h
  rwa [show roundEven (0 : ℚ) = 0 by simpa using roundEven_int 0] at this

theorem ilog_spec {q : ℚ} (h : 0 < q) : (2 : ℚ) ^ ilog q ≤ q ∧ q < (2 : ℚ) ^ (ilog q + 1) := by
  have hn : 0 < q.num := Rat.num_pos.2 h
  have hd := q.den_pos
  obtain ⟨a, ha⟩ := Int.eq_ofNat_of_zero_le hn.le
  have ha0 : a ≠ 0 := by omega
  have hq : q = (a : ℚ) / q.den := by
    conv_lhs => rw [← Rat.num_div_den q, ha]
    simp
  set b := q.den with hb
  have hb0 : b ≠ 0 := by omega
  have hbq : (0 : ℚ) < b := by exact_mod_cast hd
  have a1 : ((2 : ℚ) ^ Nat.log2 a) ≤ a := by exact_mod_cast Nat.log2_self_le ha0
  have a2 : (a : ℚ) < (2 : ℚ) ^ (Nat.log2 a + 1) := by exact_mod_cast Nat.lt_log2_self
  have b1 : ((2 : ℚ) ^ Nat.log2 b) ≤ b := by exact_mod_cast Nat.log2_self_le hb0
  have b2 : (b : ℚ) < (2 : ℚ) ^ (Nat.log2 b + 1) := by exact_mod_cast Nat.lt_log2_self
  set i := Nat.log2 a
  set j := Nat.log2 b
  have hi : (0 : ℚ) < 2 ^ i := by positivity
  have hj : (0 : ℚ) < 2 ^ j := by positivity
  have up : q < (2 : ℚ) ^ ((i : Int) - j + 1) := by
    rw [hq, zpow_add₀ (by norm_num), zpow_sub₀ (by norm_num), zpow_natCast, zpow_natCast, zpow_one, div_lt_iff₀ hbq]
    rw [pow_succ] at a2
    calc (a : ℚ) < 2 ^ i * 2 := a2
      _ = 2 ^ i / 2 ^ j * 2 * 2 ^ j := by field_simp
      _ ≤ 2 ^ i / 2 ^ j * 2 * b := mul_le_mul_of_nonneg_left b1 (by positivity)
  have lo : (2 : ℚ) ^ ((i : Int) - j - 1) ≤ q := by
    rw [hq, zpow_sub₀ (by norm_num), zpow_sub₀ (by norm_num), zpow_natCast, zpow_natCast, zpow_one, le_div_iff₀ hbq]
    rw [pow_succ] at b2
    calc (2 : ℚ) ^ i / 2 ^ j / 2 * b ≤ 2 ^ i / 2 ^ j / 2 * (2 ^ j * 2) := mul_le_mul_of_nonneg_left b2.le (by positivity)
      _ = 2 ^ i := by field_simp
      _ ≤ a := a1
  have e : q.num.toNat = a := by rw [ha]; rfl
  unfold ilog
  simp only [e, two_eq]
  split_ifs with c
  · exact ⟨c, up⟩
  · exact ⟨lo, by rw [sub_add_cancel]; exact not_le.1 c⟩

theorem ilog_mono {a b : ℚ} (ha : 0 < a) (h : a ≤ b) : ilog a ≤ ilog b := by
  by_contra hc
  have h1 := (ilog_spec ha).1
  have h2 := (ilog_spec (ha.trans_le h)).2
  have : (2 : ℚ) ^ (ilog b + 1) ≤ 2 ^ ilog a := zpow_le_zpow_right₀ (by norm_num) (by omega)
  linarith

theorem ilog_lt {q : ℚ} (h : 0 < q) {e : Int} (hq : q < 2 ^ e) : ilog q < e := by
  by_contra hc
  have h1 := (ilog_spec h).1
  have : (2 : ℚ) ^ e ≤ 2 ^ ilog q := zpow_le_zpow_right₀ (by norm_num) (by omega)
  linarith

section
variable {p : Nat} {emin : Int}

/-- Numbers on a grid no finer than the local one are not changed. -/
theorem rndPos_grid {q : ℚ} {n : Int} {e : Int} (hq : q = n * 2 ^ e) (he : ulpExp p emin q ≤ e) : rndPos p emin q = q := by
  unfold rndPos
  rw [two_eq]
  have h2 : (2 : ℚ) ^ ulpExp p emin q ≠ 0 := by positivity
  have : q / 2 ^ ulpExp p emin q = ((n * 2 ^ (e - ulpExp p emin q).toNat : Int) : ℚ) := by
    rw [div_eq_iff h2]
    conv_lhs => rw [hq]
    push_cast
    rw [mul_assoc, ← zpow_natCast, Int.toNat_of_nonneg (by omega), ← zpow_add₀ (by norm_num)]
    congr 2; ring
  rw [this, roundEven_int, ← this, div_mul_cancel₀ _ h2]

theorem rndPos_nonneg {q : ℚ} (h : 0 ≤ q) : 0 ≤ rndPos p emin q := by
  unfold rndPos
  rw [two_eq]
  have := roundEven_nonneg (div_nonneg h (by positivity : (0 : ℚ) ≤ 2 ^ ulpExp p emin q))
  have : (0 : ℚ) ≤ roundEven (q / 2 ^ ulpExp p emin q) := by exact_mod_cast this
  positivity

theorem rndPos_mono (hp : p ≠ 0) {a b : ℚ} (ha : 0 < a) (h : a ≤ b) : rndPos p emin a ≤ rndPos p emin b := by
  have hb := ha.trans_le h
  have hl := ilog_mono ha h
  unfold rndPos
  simp only [two_eq]
  rcases (show ulpExp p emin a ≤ ulpExp p emin b by unfold ulpExp; omega).lt_or_eq with h1 | h1
  · -- different grids: a power of two lies between
    have hEb : ulpExp p emin b = ilog b - p + 1 := by unfold ulpExp at h1 ⊢; omega
    have hEa : ulpExp p emin a + p ≤ ilog b := by omega
    have hla : ilog a ≤ ulpExp p emin a + p - 1 := by unfold ulpExp; omega
    have a2 := (ilog_spec ha).2
    have b1 := (ilog_spec hb).1
    have l : (roundEven (a / 2 ^ ulpExp p emin a) : ℚ) * 2 ^ ulpExp p emin a ≤ 2 ^ (ulpExp p emin a + p) := by
      have : a / 2 ^ ulpExp p emin a ≤ ((2 ^ p : Int) : ℚ) := by
        rw [div_le_iff₀ (by positivity)]
        push_cast
        rw [← zpow_natCast, ← zpow_add₀ (by norm_num)]
        exact a2.le.trans (zpow_le_zpow_right₀ (by norm_num) (by omega))
      have := roundEven_mono this
      rw [roundEven_int] at this
      have : (roundEven (a / 2 ^ ulpExp p emin a) : ℚ) ≤ ((2 ^ p : Int) : ℚ) := by exact_mod_cast this
      refine (mul_le_mul_of_nonneg_right this (by positivity)).trans (le_of_eq ?_)
      push_cast
      rw [← zpow_natCast, ← zpow_add₀ (by norm_num), add_comm]
    have r : (2 : ℚ) ^ ilog b ≤ (roundEven (b / 2 ^ ulpExp p emin b) : ℚ) * 2 ^ ulpExp p emin b := by
      have : ((2 ^ (p - 1) : Int) : ℚ) ≤ b / 2 ^ ulpExp p emin b := by
        rw [le_div_iff₀ (by positivity)]
        push_cast
        rw [← zpow_natCast, ← zpow_add₀ (by norm_num)]
        refine le_trans (zpow_le_zpow_right₀ (by norm_num) ?_) b1
        omega
      have := roundEven_mono this
      rw [roundEven_int] at this
      have : ((2 ^ (p - 1) : Int) : ℚ) ≤ (roundEven (b / 2 ^ ulpExp p emin b) : ℚ) := by exact_mod_cast this
      refine le_trans (le_of_eq ?_) (mul_le_mul_of_nonneg_right this (by positivity))
      push_cast
      rw [← zpow_natCast, ← zpow_add₀ (by norm_num)]
      congr 1; omega
    exact l.trans ((zpow_le_zpow_right₀ (by norm_num) hEa).trans r)
  · rw [h1]
    refine mul_le_mul_of_nonneg_right ?_ (by positivity)
    exact_mod_cast roundEven_mono (div_le_div_of_nonneg_right h (by positivity))

theorem rnd_zero : rnd p emin 0 = 0 := by simp [rnd]

theorem rnd_pos {q : ℚ} (h : 0 < q) : rnd p emin q = rndPos p emin q := by
  unfold rnd
  rw [if_neg h.ne', if_neg (not_lt.2 h.le)]

theorem rnd_neg (q : ℚ) : rnd p emin (-q) = -rnd p emin q := by
  rcases lt_trichotomy q 0 with h | rfl | h
  · rw [rnd_pos (by linarith)]
    unfold rnd
    rw [if_neg h.ne, if_pos h, neg_neg]
  · simp [rnd_zero]
  · rw [rnd_pos h]
    unfold rnd
    rw [if_neg (by linarith), if_pos (by linarith), neg_neg]

theorem rnd_nonneg {q : ℚ} (h : 0 ≤ q) : 0 ≤ rnd p emin q := by
  rcases h.lt_or_eq with h | rfl
  · rw [rnd_pos h]; exact rndPos_nonneg h.le
  · rw [rnd_zero]

/-- Rounding is monotone. -/
theorem rnd_mono (hp : p ≠ 0) : Monotone (rnd p emin) := by
  have pos : ∀ a b : ℚ, 0 ≤ a → a ≤ b → rnd p emin a ≤ rnd p emin b := by
    intro a b ha hab
    rcases ha.lt_or_eq with h | rfl
    · rw [rnd_pos h, rnd_pos (h.trans_le hab)]; exact rndPos_mono hp h hab
    · rw [rnd_zero]; exact rnd_nonneg hab
  intro a b hab
  rcases le_total 0 a with ha | ha
  · exact pos a b ha hab
  · rcases le_total 0 b with hb | hb
    · have h1 := rnd_nonneg (p := p) (emin := emin) hb
      have h2 := rnd_nonneg (p := p) (emin := emin) (q := -a) (by linarith)
      rw [rnd_neg] at h2
      linarith
    · have := pos (-b) (-a) (by linarith) (by linarith)
      rw [rnd_neg, rnd_neg] at this
      linarith

/-- Multiples `n * 2 ^ e` with at most `p` bits and an exponent that is not too small are representable. -/
theorem rnd_repr (hp : p ≠ 0) {n e : Int} (h0 : 0 ≤ n) (hn : n < 2 ^ p) (he : emin - p + 1 ≤ e) :
    rnd p emin (n * 2 ^ e) = n * 2 ^ e := by
  rcases h0.lt_or_eq with h | rfl
  · have hq : (0 : ℚ) < n * 2 ^ e := by
      have : (0 : ℚ) < n := by exact_mod_cast h
      positivity
    rw [rnd_pos hq]
    refine rndPos_grid rfl ?_
    have : ilog (n * 2 ^ e) < p + e := by
      refine ilog_lt hq ?_
      rw [zpow_add₀ (by norm_num), zpow_natCast]
      refine mul_lt_mul_of_pos_right ?_ (by positivity)
      exact_mod_cast hn
    unfold ulpExp
    omega
  · simp [rnd_zero]

theorem rnd_nat (hp : p ≠ 0) {n : Nat} (hn : n < 2 ^ p) (he : emin - p + 1 ≤ 0) : rnd p emin n = n := by
  have := rnd_repr (p := p) (emin := emin) hp (n := n) (e := 0) (by omega) (by exact_mod_cast hn) he
  simpa using this

/-- Half of the rounded number, rounded, is at most the original. -/
theorem rnd_half (hp : p ≠ 0) {q : ℚ} (h : 0 ≤ q) : rnd p emin (rnd p emin q / 2) ≤ q := by
  rcases h.lt_or_eq with h | rfl
  swap
  · simp [rnd_zero]
  have hu : (0 : ℚ) < 2 ^ ulpExp p emin q := by positivity
  have hfl : (⌊q / 2 ^ ulpExp p emin q⌋ : ℚ) * 2 ^ ulpExp p emin q ≤ q := by
    rw [← le_div_iff₀ hu]; exact Int.floor_le _
  have hf0 : 0 ≤ ⌊q / 2 ^ ulpExp p emin q⌋ := Int.floor_nonneg.2 (by positivity)
  have hfp : ⌊q / 2 ^ ulpExp p emin q⌋ < 2 ^ p := by
    rw [Int.floor_lt, div_lt_iff₀ hu]
    push_cast
    rw [← zpow_natCast, ← zpow_add₀ (by norm_num)]
    refine (ilog_spec h).2.trans_le (zpow_le_zpow_right₀ (by norm_num) ?_)
    unfold ulpExp; omega
  have hN := roundEven_hi (q / 2 ^ ulpExp p emin q)
  rw [rnd_pos h]
  by_cases h1 : 1 ≤ ⌊q / 2 ^ ulpExp p emin q⌋
  · refine le_trans (rnd_mono hp ?_) ((rnd_repr (p := p) (emin := emin) hp hf0 hfp (by unfold ulpExp; omega)).le.trans hfl)
    unfold rndPos
    rw [two_eq, div_le_iff₀ (by norm_num)]
    have : (roundEven (q / 2 ^ ulpExp p emin q) : ℚ) ≤ ⌊q / 2 ^ ulpExp p emin q⌋ * 2 := by
      exact_mod_cast (show roundEven (q / 2 ^ ulpExp p emin q) ≤ ⌊q / 2 ^ ulpExp p emin q⌋ * 2 by omega)
    nlinarith
  · have h0 : ⌊q / 2 ^ ulpExp p emin q⌋ = 0 := by omega
    have hlt : q < 2 ^ ulpExp p emin q := by
      have := Int.lt_floor_add_one (q / 2 ^ ulpExp p emin q)
      rw [h0, div_lt_iff₀ hu] at this
      simpa using this
    have hem : ulpExp p emin q = emin - p + 1 := by
      have := ilog_lt h hlt
      unfold ulpExp at this ⊢
      omega
    have hr : roundEven (q / 2 ^ ulpExp p emin q) = 0 ∨ roundEven (q / 2 ^ ulpExp p emin q) = 1 := by
      have := roundEven_lo (q / 2 ^ ulpExp p emin q)
      omega
    rcases hr with hr | hr
    · unfold rndPos
      rw [two_eq, hr]
      simp [rnd_zero, h.le]
    · unfold rndPos
      rw [two_eq, hr, hem]
      have hpos : (0 : ℚ) < ((1 : Int) : ℚ) * 2 ^ (emin - p + 1) / 2 := by
        push_cast; positivity
      rw [rnd_pos hpos]
      have hil : ilog (((1 : Int) : ℚ) * 2 ^ (emin - p + 1) / 2) < emin - p + 1 := by
        refine ilog_lt hpos ?_
        push_cast
        have : (0 : ℚ) < 2 ^ (emin - p + 1) := by positivity
        linarith
      unfold rndPos
      have e : ulpExp p emin (((1 : Int) : ℚ) * 2 ^ (emin - p + 1) / 2) = emin - p + 1 := by unfold ulpExp; omega
      rw [e, two_eq]
      have : ((1 : Int) : ℚ) * 2 ^ (emin - p + 1) / 2 / 2 ^ (emin - p + 1) = 1 / 2 := by
        field_simp; norm_num
      rw [this, show roundEven (1 / 2) = 0 by norm_num [roundEven]]
      simpa using h.le

theorem roundEven_ulp_le {q : ℚ} (h : 0 < q) : roundEven (q / 2 ^ ulpExp p emin q) ≤ 2 ^ p := by
  have hu : (0 : ℚ) < 2 ^ ulpExp p emin q := by positivity
  have : q / 2 ^ ulpExp p emin q ≤ ((2 ^ p : Int) : ℚ) := by
    rw [div_le_iff₀ hu]
    push_cast
    rw [← zpow_natCast, ← zpow_add₀ (by norm_num)]
    refine (ilog_spec h).2.le.trans (zpow_le_zpow_right₀ (by norm_num) ?_)
    unfold ulpExp; omega
  have := roundEven_mono this
  rwa [roundEven_int] at this

/-- Results of rounding are representable. -/
theorem rnd_idem (hp : p ≠ 0) (q : ℚ) : rnd p emin (rnd p emin q) = rnd p emin q := by
  have pos : ∀ q : ℚ, 0 < q → rnd p emin (rnd p emin q) = rnd p emin q := by
    intro q h
    rw [rnd_pos h]
    unfold rndPos
    rw [two_eq]
    have h1 := roundEven_ulp_le (p := p) (emin := emin) h
    have h0 := roundEven_nonneg (a := q / 2 ^ ulpExp p emin q) (by positivity)
    rcases h1.lt_or_eq with h2 | h2
    · exact rnd_repr hp h0 h2 (by unfold ulpExp; omega)
    · have := rnd_repr (p := p) (emin := emin) hp (n := 1) (e := ulpExp p emin q + p) (by norm_num) (one_lt_pow₀ (by norm_num) hp)
        (by unfold ulpExp; omega)
      rw [h2]
      have e : (((2 ^ p : Int)) : ℚ) * 2 ^ ulpExp p emin q = ((1 : Int) : ℚ) * 2 ^ (ulpExp p emin q + p) := by
        push_cast
        rw [one_mul, zpow_add₀ (by norm_num), zpow_natCast, mul_comm]
      rw [e, this]
  rcases lt_trichotomy q 0 with h | rfl | h
  · have := pos (-q) (by linarith)
    rw [rnd_neg, rnd_neg] at this
    linarith
  · rw [rnd_zero, rnd_zero]
  · exact pos q h

/-- Representable numbers are multiples of the least one. -/
theorem repr_multiple {x : ℚ} (h : rnd p emin x = x) : ∃ n : Int, x = n * 2 ^ (emin - p + 1) := by
  have pos : ∀ x : ℚ, 0 < x → rnd p emin x = x → ∃ n : Int, x = n * 2 ^ (emin - p + 1) := by
    intro x h0 h
    rw [rnd_pos h0] at h
    unfold rndPos at h
    rw [two_eq] at h
    have : (0 : Int) ≤ ulpExp p emin x - (emin - p + 1) := by unfold ulpExp; omega
    refine ⟨roundEven (x / 2 ^ ulpExp p emin x) * 2 ^ (ulpExp p emin x - (emin - p + 1)).toNat, ?_⟩
    conv_lhs => rw [← h]
    push_cast
    rw [mul_assoc, ← zpow_natCast, Int.toNat_of_nonneg this, ← zpow_add₀ (by norm_num)]
    congr 2; ring
  rcases lt_trichotomy x 0 with h0 | rfl | h0
  · obtain ⟨n, hn⟩ := pos (-x) (by linarith) (by rw [rnd_neg, h])
    refine ⟨-n, ?_⟩
    push_cast
    linarith
  · exact ⟨0, by simp⟩
  · exact pos x h0 h

/-- Below the binade's middle a number is rounded down. -/
theorem roundEven_lt_half {t : ℚ} {n : Int} (h1 : (n : ℚ) ≤ t) (h2 : t < n + 1 / 2) : roundEven t = n := by
  have hf : ⌊t⌋ = n := by
    rw [Int.floor_eq_iff]
    exact ⟨h1, by linarith⟩
  unfold roundEven
  rw [hf, if_pos (by linarith)]

/-- A proper fraction `d` of the rounded difference of two representable numbers, rounded, is at most the exact difference. -/
theorem rnd_blend (hp : p ≠ 0) {x m d : ℚ} (hx : rnd p emin x = x) (hm : rnd p emin m = m) (hd0 : 0 ≤ d)
    (hd : d ≤ 1 - 2 ^ (-(p : Int))) (hmx : m ≤ x) : rnd p emin (d * rnd p emin (x - m)) ≤ x - m := by
  set q := x - m with hq
  have hq0 : 0 ≤ q := by linarith
  have h2p : (0 : ℚ) < 2 ^ (-(p : Int)) := by positivity
  have hdr : d * rnd p emin q ≤ rnd p emin q := by
    have := rnd_nonneg (p := p) (emin := emin) hq0
    nlinarith
  rcases le_or_gt (rnd p emin q) q with hle | hgt
  · calc rnd p emin (d * rnd p emin q) ≤ rnd p emin (rnd p emin q) := rnd_mono hp hdr
      _ = rnd p emin q := rnd_idem hp q
      _ ≤ q := hle
  · have hq1 : 0 < q := by
      rcases hq0.lt_or_eq with h | h
      · exact h
      · rw [← h, rnd_zero] at hgt
        exact absurd hgt (lt_irrefl _)
    set u := ulpExp p emin q with hu
    have hupos : (0 : ℚ) < 2 ^ u := by positivity
    -- not on the finest grid, so normal
    have hnorm : u = ilog q - p + 1 := by
      by_contra hc
      have hue : u = emin - p + 1 := by rw [hu] at hc ⊢; unfold ulpExp at hc ⊢; omega
      obtain ⟨a, ha⟩ := repr_multiple hx
      obtain ⟨b, hb⟩ := repr_multiple hm
      have : rndPos p emin q = q := rndPos_grid (n := a - b) (e := emin - p + 1) (by rw [hq, ha, hb]; push_cast; ring) (by rw [← hu, hue])
      rw [rnd_pos hq1, this] at hgt
      exact lt_irrefl _ hgt
    obtain ⟨l1, l2⟩ := ilog_spec hq1
    set f := ⌊q / 2 ^ u⌋ with hf
    have hfq : (f : ℚ) * 2 ^ u ≤ q := by rw [← le_div_iff₀ hupos]; exact Int.floor_le _
    have hf1 : (2 : Int) ^ (p - 1) ≤ f := by
      rw [hf, Int.le_floor, le_div_iff₀ hupos]
      push_cast
      rw [← zpow_natCast, ← zpow_add₀ (by norm_num)]
      refine le_trans (zpow_le_zpow_right₀ (by norm_num) ?_) l1
      omega
    have hf2 : f < 2 ^ p := by
      rw [hf, Int.floor_lt, div_lt_iff₀ hupos]
      push_cast
      rw [← zpow_natCast, ← zpow_add₀ (by norm_num)]
      refine l2.trans_le (zpow_le_zpow_right₀ (by norm_num) ?_)
      omega
    have hN : roundEven (q / 2 ^ u) ≤ f + 1 := roundEven_hi _
    have hr : rnd p emin q ≤ (f + 1) * 2 ^ u := by
      rw [rnd_pos hq1]
      unfold rndPos
      rw [two_eq, ← hu]
      refine mul_le_mul_of_nonneg_right ?_ hupos.le
      exact_mod_cast hN
    have hf1q : (2 : ℚ) ^ (p - 1) ≤ f := by exact_mod_cast hf1
    have hpp : (2 : ℚ) ^ (-(p : Int)) * 2 ^ (p - 1) = 1 / 2 := by
      rw [← zpow_natCast, ← zpow_add₀ (by norm_num), show -(p : Int) + ((p - 1 : Nat) : Int) = -1 by omega]
      norm_num
    have hmain : d * rnd p emin q < (f + 1 / 2) * 2 ^ u := by
      calc d * rnd p emin q ≤ d * ((f + 1) * 2 ^ u) := mul_le_mul_of_nonneg_left hr hd0
        _ ≤ (1 - 2 ^ (-(p : Int))) * ((f + 1) * 2 ^ u) := by
            refine mul_le_mul_of_nonneg_right hd ?_
            have : (0 : ℚ) ≤ f := by
              refine le_trans ?_ hf1q
              positivity
            positivity
        _ = ((f + 1) - 2 ^ (-(p : Int)) * (f + 1)) * 2 ^ u := by ring
        _ < (f + 1 / 2) * 2 ^ u := by
            refine mul_lt_mul_of_pos_right ?_ hupos
            have : (2 : ℚ) ^ (-(p : Int)) * 2 ^ (p - 1) ≤ 2 ^ (-(p : Int)) * f := mul_le_mul_of_nonneg_left hf1q h2p.le
            rw [hpp] at this
            nlinarith
    have hfin : rnd p emin (d * rnd p emin q) ≤ f * 2 ^ u := by
      have hrep : rnd p emin (f * 2 ^ u) = f * 2 ^ u :=
        rnd_repr hp (le_trans (by positivity) hf1) hf2 (by rw [hu]; unfold ulpExp; omega)
      rcases le_or_gt (d * rnd p emin q) (f * 2 ^ u) with h | h
      · exact (rnd_mono hp h).trans hrep.le
      · have hfpos : (0 : ℚ) < f := lt_of_lt_of_le (by positivity) hf1q
        have hy0 : 0 < d * rnd p emin q := lt_trans (by positivity) h
        set y := d * rnd p emin q with hy
        have hly : ilog y = ilog q := by
          refine le_antisymm ?_ ?_
          · have : y < 2 ^ (ilog q + 1) := by
              have : ((f : ℚ) + 1) ≤ 2 ^ p := by exact_mod_cast hf2
              calc y < (f + 1 / 2) * 2 ^ u := hmain
                _ ≤ 2 ^ p * 2 ^ u := mul_le_mul_of_nonneg_right (by linarith) hupos.le
                _ = 2 ^ (ilog q + 1) := by
                  rw [← zpow_natCast, ← zpow_add₀ (by norm_num)]
                  congr 1; omega
            have := ilog_lt hy0 this
            omega
          · have : (2 : ℚ) ^ ilog q ≤ y := by
              refine le_trans ?_ h.le
              calc (2 : ℚ) ^ ilog q = 2 ^ (p - 1) * 2 ^ u := by
                    rw [← zpow_natCast, ← zpow_add₀ (by norm_num)]
                    congr 1; omega
                _ ≤ f * 2 ^ u := mul_le_mul_of_nonneg_right hf1q hupos.le
            by_contra hc
            have h3 := (ilog_spec hy0).2
            have : (2 : ℚ) ^ (ilog y + 1) ≤ 2 ^ ilog q := zpow_le_zpow_right₀ (by norm_num) (by omega)
            linarith
        have huy : ulpExp p emin y = u := by rw [hu]; unfold ulpExp; rw [hly]
        rw [rnd_pos hy0]
        unfold rndPos
        rw [two_eq, huy, roundEven_lt_half (n := f)]
        · rw [le_div_iff₀ hupos]; exact h.le
        · rw [div_lt_iff₀ hupos]; exact hmain
    exact hfin.trans hfq

/-- The largest representable number below 1. -/
theorem repr_lt_one (hp : p ≠ 0) (he : emin ≤ -1) {d : ℚ} (hd : rnd p emin d = d) (h1 : d < 1) : d ≤ 1 - 2 ^ (-(p : Int)) := by
  have h2p : (2 : ℚ) ^ (-(p : Int)) ≤ 1 / 2 := by
    have : (2 : ℚ) ^ (-(p : Int)) ≤ 2 ^ (-1 : Int) := zpow_le_zpow_right₀ (by norm_num) (by omega)
    refine this.trans (by norm_num)
  rcases lt_or_ge d (1 / 2) with h | h
  · linarith
  · have hd0 : 0 < d := by linarith
    have hl : ilog d = -1 := by
      have a := ilog_lt hd0 (e := 0) (by simpa using h1)
      have b := (ilog_spec hd0).2
      by_contra hc
      have : (2 : ℚ) ^ (ilog d + 1) ≤ 2 ^ (-1 : Int) := zpow_le_zpow_right₀ (by norm_num) (by omega)
      exact absurd (b.trans_le (this.trans (by norm_num))) (not_lt.2 h)
    have hu : ulpExp p emin d = -(p : Int) := by unfold ulpExp; omega
    rw [rnd_pos hd0] at hd
    unfold rndPos at hd
    rw [hu, two_eq] at hd
    set n := roundEven (d / 2 ^ (-(p : Int)))
    have hn : n < 2 ^ p := by
      have : (n : ℚ) * 2 ^ (-(p : Int)) < 1 := by rw [hd]; exact h1
      rw [zpow_neg, zpow_natCast, ← div_eq_mul_inv, div_lt_one (by positivity)] at this
      exact_mod_cast this
    have : (n : ℚ) + 1 ≤ 2 ^ p := by exact_mod_cast hn
    have e : (2 : ℚ) ^ (-(p : Int)) * 2 ^ p = 1 := by rw [zpow_neg, zpow_natCast]; field_simp
    have hz : (0 : ℚ) < 2 ^ (-(p : Int)) := by positivity
    rw [← hd]
    nlinarith

theorem roundEven_err (t : ℚ) : |(roundEven t : ℚ) - t| ≤ 1 / 2 := by
  have h1 := Int.floor_le t
  have h2 := Int.lt_floor_add_one t
  unfold roundEven
  rw [abs_le]
  split_ifs <;> push_cast <;> constructor <;> linarith

/-- The error of rounding: relative `2 ^ (-p)`, and absolute half the least number where the result is subnormal. -/
theorem rnd_err (q : ℚ) : |rnd p emin q - q| ≤ 2 ^ (-(p : Int)) * |q| + 2 ^ (emin - p) := by
  have pos : ∀ q : ℚ, 0 < q → |rnd p emin q - q| ≤ 2 ^ (-(p : Int)) * |q| + 2 ^ (emin - p) := by
    intro q h
    have hu : (0 : ℚ) < 2 ^ ulpExp p emin q := by positivity
    rw [rnd_pos h, abs_of_pos h]
    unfold rndPos
    rw [two_eq]
    have e := roundEven_err (q / 2 ^ ulpExp p emin q)
    have : |(roundEven (q / 2 ^ ulpExp p emin q) : ℚ) * 2 ^ ulpExp p emin q - q| ≤ 1 / 2 * 2 ^ ulpExp p emin q := by
      have e2 : (roundEven (q / 2 ^ ulpExp p emin q) : ℚ) * 2 ^ ulpExp p emin q - q =
          ((roundEven (q / 2 ^ ulpExp p emin q) : ℚ) - q / 2 ^ ulpExp p emin q) * 2 ^ ulpExp p emin q := by
        rw [sub_mul, div_mul_cancel₀ _ hu.ne']
      rw [e2, abs_mul, abs_of_pos hu]
      exact mul_le_mul_of_nonneg_right e hu.le
    refine this.trans ?_
    have h2 : (1 : ℚ) / 2 * 2 ^ ulpExp p emin q = 2 ^ (max (ilog q) emin - p) := by
      unfold ulpExp
      rw [zpow_add₀ (by norm_num : (2 : ℚ) ≠ 0), zpow_one]
      ring
    rw [h2]
    rcases le_total emin (ilog q) with hl | hl
    · rw [max_eq_left hl]
      have h3 : (2 : ℚ) ^ (ilog q - p) ≤ 2 ^ (-(p : Int)) * q := by
        rw [sub_eq_add_neg, zpow_add₀ (by norm_num), mul_comm]
        exact mul_le_mul_of_nonneg_left (ilog_spec h).1 (by positivity)
      have : (0 : ℚ) < 2 ^ (emin - p) := by positivity
      linarith
    · rw [max_eq_right hl]
      have : (0 : ℚ) ≤ 2 ^ (-(p : Int)) * q := by positivity
      linarith
  rcases lt_trichotomy q 0 with h | rfl | h
  · have := pos (-q) (by linarith)
    rw [rnd_neg, abs_neg] at this
    rwa [show -rnd p emin q - -q = -(rnd p emin q - q) by ring, abs_neg] at this
  · rw [rnd_zero]
    simp
    positivity
  · exact pos q h

end

/-- What the theorems about rounded arithmetic use. -/
structure Rounding (rnd : ℚ → ℚ) : Prop where
  mono : Monotone rnd
  zero : rnd 0 = 0
  one : rnd 1 = 1
  two : rnd 2 = 2
  half : ∀ q, 0 ≤ q → rnd (rnd q / 2) ≤ q
  neg : ∀ q, rnd (-q) = -rnd q
  idem : ∀ q, rnd (rnd q) = rnd q
  blend : ∀ x m d, rnd x = x → rnd m = m → rnd d = d → 0 ≤ d → d < 1 → m ≤ x → rnd (d * rnd (x - m)) ≤ x - m

theorem rounding_rnd {p : Nat} {emin : Int} (hp : 2 ≤ p) (he : emin ≤ -1) : Rounding (rnd p emin) := by
  refine ⟨rnd_mono (by omega), rnd_zero, ?_, ?_, fun q h => rnd_half (by omega) h, rnd_neg, rnd_idem (by omega),
    fun x m d hx hm hd h0 h1 hmx => rnd_blend (by omega) hx hm h0 (repr_lt_one (by omega) he hd h1) hmx⟩
  · simpa using rnd_nat (p := p) (emin := emin) (n := 1) (by omega) (Nat.one_lt_two_pow (by omega)) (by omega)
  · have : 2 < 2 ^ p := lt_of_lt_of_le (by norm_num) (Nat.pow_le_pow_right (by norm_num) hp)
    simpa using rnd_nat (p := p) (emin := emin) (n := 2) (by omega) this (by omega)

/-- binary64 rounding satisfies them. -/
theorem rounding_rnd64 : Rounding rnd64 := rounding_rnd (by norm_num) (by norm_num)

/-- Exact arithmetic satisfies them, too. -/
theorem rounding_id : Rounding (fun q => q) := by
  refine ⟨fun _ _ h => h, rfl, rfl, rfl, fun q h => ?_, fun _ => rfl, fun _ => rfl, fun x m d _ _ _ h0 h1 hmx => ?_⟩
  · linarith
  · nlinarith

/-- Accuracy: relative error `u`, absolute error `t`. -/
def Accuracy (rnd : ℚ → ℚ) (u t : ℚ) : Prop := ∀ q, |rnd q - q| ≤ u * |q| + t

theorem accuracy_rnd64 : Accuracy rnd64 (1 / 2 ^ 53) (1 / 2 ^ 1075) := by
  intro q
  have := rnd_err (p := 53) (emin := -1022) q
  have e1 : (2 : ℚ) ^ (-((53 : Nat) : Int)) = 1 / 2 ^ 53 := by rw [zpow_neg, zpow_natCast, one_div]
  have e2 : (2 : ℚ) ^ ((-1022 : Int) - ((53 : Nat) : Int)) = 1 / 2 ^ 1075 := by
    rw [show (-1022 : Int) - ((53 : Nat) : Int) = -((1075 : Nat) : Int) by norm_num, zpow_neg, zpow_natCast, one_div]
  rw [e1, e2] at this
  exact this

/-- Integers below `2 ^ 53` are exact. -/
theorem rnd64_nat {n : Nat} (h : n < 2 ^ 53) : rnd64 n = n := rnd_nat (by norm_num) h (by norm_num)

example : rnd64 (1 / 10) = 3602879701896397 / 2 ^ 55 := by decide +kernel
example : rnd64 (2 ^ 53 + 1) = 2 ^ 53 ∧ rnd64 (2 ^ 53 + 3) = 2 ^ 53 + 4 := by decide +kernel

end Verif.FP
