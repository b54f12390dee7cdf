import Verif.Proofs.Rounding

/-!
# The correctly rounded square root

`math.Sqrt` is the square root rounded to nearest (Go documentation and IEEE 754; on amd64 it is the instruction `SQRTSD`). `SqrtOf rnd q v` says
so without real numbers: `v` is at least the rounded value of every number below the root and at most that of every number above it.
-/

namespace Verif.FP

/-- `v` is the correctly rounded square root of `q ≥ 0`. -/
def SqrtOf (rnd : ℚ → ℚ) (q v : ℚ) : Prop := ∀ a : ℚ, 0 ≤ a → (a * a ≤ q → rnd a ≤ v) ∧ (q ≤ a * a → v ≤ rnd a)

/-- A number that rounds the same below and above. -/
theorem SqrtOf.eq {rnd : ℚ → ℚ} {q v : ℚ} (h : SqrtOf rnd q v) {a b s : ℚ} (ha : 0 ≤ a) (hb : 0 ≤ b) (haq : a * a ≤ q) (hbq : q ≤ b * b)
    (hra : rnd a = s) (hrb : rnd b = s) : v = s :=
  le_antisymm (hrb ▸ (h b hb).2 hbq) (hra ▸ (h a ha).1 haq)

/-- It exists. -/
theorem exists_sqrt {q : ℚ} (hq : 0 ≤ q) : ∃ v, SqrtOf rnd64 q v := by
  have hmul : ∀ a, ∃ n : Int, rnd64 a = n * 2 ^ ((-1022 : Int) - (53 : Nat) + 1) := fun a => repr_multiple (rounding_rnd64.idem a)
  set P : Int → Prop := fun n => ∃ a : ℚ, 0 ≤ a ∧ a * a ≤ q ∧ rnd64 a = n * 2 ^ ((-1022 : Int) - (53 : Nat) + 1) with hP
  have hpos : (0 : ℚ) < 2 ^ ((-1022 : Int) - (53 : Nat) + 1) := by positivity
  have hlt : ∀ a b : ℚ, 0 ≤ a → 0 ≤ b → a * a ≤ q → q ≤ b * b → a ≤ b := by
    intro a b ha hb h1 h2
    by_contra h
    push Not at h
    nlinarith
  obtain ⟨nb, hnb⟩ := hmul (q + 1)
  obtain ⟨n, ⟨a, ha, haq, hra⟩, hmax⟩ := Int.exists_greatest_of_bdd (P := P)
    ⟨nb, fun z ⟨a, ha, haq, hra⟩ => by
      have h1 := rounding_rnd64.mono (hlt a (q + 1) ha (by linarith) haq (by nlinarith))
      rw [hra, hnb] at h1
      exact_mod_cast le_of_mul_le_mul_right h1 hpos⟩
    ⟨0, 0, le_rfl, by simpa using hq, by simp [rounding_rnd64.zero]⟩
  refine ⟨rnd64 a, fun b hb => ⟨fun h => ?_, fun h => rounding_rnd64.mono (hlt a b ha hb haq h)⟩⟩
  obtain ⟨m, hm⟩ := hmul b
  have := hmax m ⟨b, hb, h, hm⟩
  rw [hm, hra]
  exact mul_le_mul_of_nonneg_right (by exact_mod_cast this) hpos.le

section
variable {p : Nat} {emin : Int}

theorem rnd_err_normal {q : ℚ} (h0 : 0 < q) (h : (2 : ℚ) ^ emin ≤ q) : |rnd p emin q - q| ≤ 2 ^ (-(p : Int)) * q := by
  obtain ⟨h1, h2⟩ := ilog_spec h0
  have hl : emin ≤ ilog q := by
    by_contra hc
    push Not at hc
    have : (2 : ℚ) ^ (ilog q + 1) ≤ 2 ^ emin := zpow_le_zpow_right₀ (by norm_num) (by omega)
    linarith
  have hu : ulpExp p emin q = ilog q - p + 1 := by unfold ulpExp; rw [max_eq_left hl]
  rw [rnd_pos h0]
  unfold rndPos
  rw [two_eq, hu]
  have hpos : (0 : ℚ) < 2 ^ (ilog q - p + 1) := by positivity
  have := roundEven_err (q / 2 ^ (ilog q - p + 1))
  have e : (roundEven (q / 2 ^ (ilog q - p + 1)) : ℚ) * 2 ^ (ilog q - p + 1) - q =
      (roundEven (q / 2 ^ (ilog q - p + 1)) - q / 2 ^ (ilog q - p + 1)) * 2 ^ (ilog q - p + 1) := by
    field_simp
  rw [e, abs_mul, abs_of_pos hpos]
  calc _ ≤ 1 / 2 * (2 : ℚ) ^ (ilog q - p + 1) := mul_le_mul_of_nonneg_right this hpos.le
    _ = 2 ^ (-(p : Int)) * 2 ^ ilog q := by
      rw [← zpow_add₀ (by norm_num), show ilog q - p + 1 = (-(p : Int) + ilog q) + 1 by ring, zpow_add_one₀ (by norm_num)]
      ring
    _ ≤ _ := mul_le_mul_of_nonneg_left h1 (by positivity)

theorem ilog_eq {q : ℚ} {e : Int} (h1 : (2 : ℚ) ^ e ≤ q) (h2 : q < 2 ^ (e + 1)) : ilog q = e := by
  have h0 : 0 < q := lt_of_lt_of_le (by positivity) h1
  obtain ⟨h3, h4⟩ := ilog_spec h0
  have a : ilog q < e + 1 := ilog_lt h0 h2
  have b : e < ilog q + 1 := by
    by_contra hc
    push Not at hc
    have : (2 : ℚ) ^ (ilog q + 1) ≤ 2 ^ e := zpow_le_zpow_right₀ (by norm_num) hc
    linarith
  omega

theorem roundEven_gt_half {t : ℚ} {n : Int} (h1 : t < n) (h2 : (n : ℚ) - 1 / 2 < t) : roundEven t = n := by
  have hf : ⌊t⌋ = n - 1 := by
    rw [Int.floor_eq_iff]
    push_cast
    exact ⟨by linarith, by linarith⟩
  unfold roundEven
  rw [hf]
  push_cast
  rw [if_neg (by linarith), if_pos (by linarith)]
  ring

/-- In the binade of `e` a number is rounded to the nearest multiple of the ulp. -/
theorem rnd_binade {q : ℚ} {e n : Int} (he : emin ≤ e) (h1 : (2 : ℚ) ^ e ≤ q) (h2 : q < 2 ^ (e + 1))
    (hn : roundEven (q / 2 ^ (e - p + 1)) = n) : rnd p emin q = n * 2 ^ (e - p + 1) := by
  have h0 : 0 < q := lt_of_lt_of_le (by positivity) h1
  rw [rnd_pos h0]
  unfold rndPos ulpExp
  rw [ilog_eq h1 h2, max_eq_left he, two_eq, hn]

set_option maxHeartbeats 800000 in
/-- The root of a rounded square is exact, in the normal range. -/
theorem sqrt_sq (hp : 2 ≤ p) {s v : ℚ} (hs : rnd p emin s = s) (h0 : 0 < s) (hn : (2 : ℚ) ^ emin ≤ s) (hn2 : (2 : ℚ) ^ emin ≤ s * s)
    (h : SqrtOf (rnd p emin) (rnd p emin (s * s)) v) : v = s := by
  obtain ⟨e1, e2⟩ := ilog_spec h0
  set e := ilog s with he
  have hle : emin ≤ e := by
    by_contra hc
    push Not at hc
    have : (2 : ℚ) ^ (e + 1) ≤ 2 ^ emin := zpow_le_zpow_right₀ (by norm_num) (by omega)
    linarith
  set U : ℚ := 2 ^ (e - p + 1) with hU
  have hUpos : 0 < U := by positivity
  obtain ⟨m, hm⟩ : ∃ m : Int, s = m * U := by
    rw [rnd_pos h0] at hs
    unfold rndPos ulpExp at hs
    rw [← he, max_eq_left hle, two_eq] at hs
    exact ⟨_, hs.symm⟩
  have hpp : (2 : ℚ) ^ (p : Int) * U = 2 ^ (e + 1) := by
    rw [hU, ← zpow_add₀ (by norm_num)]
    congr 1; ring
  have hpm : (2 : ℚ) ^ ((p : Int) - 1) * U = 2 ^ e := by
    rw [hU, ← zpow_add₀ (by norm_num)]
    congr 1; ring
  have hm1 : m < 2 ^ p := by
    have : (m : ℚ) < (2 : ℚ) ^ (p : Int) := by
      refine lt_of_mul_lt_mul_right (a := U) ?_ hUpos.le
      rw [← hm, hpp]; exact e2
    rw [zpow_natCast] at this
    exact_mod_cast this
  have hm0 : (2 : Int) ^ (p - 1) ≤ m := by
    have : (2 : ℚ) ^ ((p : Int) - 1) ≤ m := by
      refine le_of_mul_le_mul_right (a := U) ?_ hUpos
      rw [← hm, hpm]; exact e1
    rw [show (p : Int) - 1 = ((p - 1 : Nat) : Int) by omega, zpow_natCast] at this
    exact_mod_cast this
  have hs2 : 0 < s * s := by positivity
  have herr := rnd_err_normal (p := p) (emin := emin) hs2 hn2
  rw [abs_le] at herr
  set q := rnd p emin (s * s) with hq
  set x : ℚ := 2 ^ (-(p : Int)) with hx
  have hx0 : 0 < x := by positivity
  have hx1 : x ≤ 1 / 4 := by
    have : (2 : ℚ) ^ (-(p : Int)) ≤ 2 ^ (-(2 : Int)) := zpow_le_zpow_right₀ (by norm_num) (by omega)
    rw [hx]
    refine this.trans (le_of_eq ?_)
    norm_num
  have hxp : x * 2 ^ p = 1 := by
    rw [hx, zpow_neg, zpow_natCast]
    field_simp
  have hmx : (m : ℚ) * x ≤ 1 - x := by
    have h1 : (m : ℚ) ≤ 2 ^ p - 1 := by
      have : m ≤ 2 ^ p - 1 := by omega
      exact_mod_cast this
    nlinarith
  have hmpos : (0 : ℚ) < m := by
    have : (0 : Int) < 2 ^ (p - 1) := by positivity
    exact_mod_cast lt_of_lt_of_le this hm0
  have hup : ∀ b : ℚ, b = s * (1 + x / 2) → rnd p emin b = s := by
    intro b hb
    have hbU : b / U = m + m * x / 2 := by rw [hb, hm]; field_simp
    have h1 : roundEven (b / U) = m := by
      rw [hbU]
      exact roundEven_lt_half (by nlinarith) (by nlinarith)
    rw [hm]
    refine rnd_binade hle ?_ ?_ h1
    · rw [hb]; nlinarith
    · rw [← hpp]
      have h3 : b = (m + m * x / 2) * U := by rw [← hbU]; field_simp
      rw [h3]
      refine mul_lt_mul_of_pos_right ?_ hUpos
      have h4 : (m : ℚ) + 1 ≤ 2 ^ p := by exact_mod_cast hm1
      rw [zpow_natCast]
      nlinarith
  rcases le_total (s * s) q with hqs | hqs
  · refine h.eq (a := s) (b := s * (1 + x / 2)) h0.le (by positivity) hqs ?_ hs (hup _ rfl)
    nlinarith [sq_nonneg (s * x)]
  · rcases eq_or_lt_of_le hqs with hqe | hqlt
    · exact h.eq (a := s) (b := s) h0.le h0.le hqe.ge hqe.le hs hs
    · have hmne : m ≠ 2 ^ (p - 1) := by
        rintro rfl
        have hse : s = 2 ^ e := by
          rw [hm]
          push_cast
          rw [← zpow_natCast, Nat.cast_sub (by omega)]
          exact_mod_cast hpm
        have hsq : s * s = 2 ^ (e + e) := by rw [hse, ← zpow_add₀ (by norm_num)]
        have hexp : emin ≤ e + e := by
          by_contra hc
          push Not at hc
          have : (2 : ℚ) ^ (e + e) < 2 ^ emin := zpow_lt_zpow_right₀ (by norm_num) hc
          rw [hsq] at hn2
          linarith
        have : q = s * s := by
          have := rnd_repr (p := p) (emin := emin) (by omega) (n := 1) (e := e + e) (by norm_num) (one_lt_pow₀ (by norm_num) (by omega)) (by omega)
          rw [hq, hsq]
          simpa using this
        linarith
      have hm2 : (2 : ℚ) ^ ((p : Int) - 1) + 1 ≤ m := by
        have : (2 : Int) ^ (p - 1) + 1 ≤ m := by omega
        rw [show (p : Int) - 1 = ((p - 1 : Nat) : Int) by omega, zpow_natCast]
        exact_mod_cast this
      refine h.eq (a := s * (1 - x / 2 - x * x / 2)) (b := s) ?_ h0.le ?_ hqs ?_ hs
      · refine mul_nonneg h0.le ?_
        nlinarith
      · have h1 : (1 - x / 2 - x * x / 2) * (1 - x / 2 - x * x / 2) ≤ 1 - x := by
          have : (1 - x / 2 - x * x / 2) * (1 - x / 2 - x * x / 2) = 1 - x - x * x * (3 / 4 - x / 2 - x * x / 4) := by ring
          rw [this]
          have : 0 ≤ x * x * (3 / 4 - x / 2 - x * x / 4) := by
            refine mul_nonneg (by positivity) ?_
            nlinarith
          linarith
        have h2 := mul_le_mul_of_nonneg_left h1 hs2.le
        nlinarith [herr.1]
      · have hbU : s * (1 - x / 2 - x * x / 2) / U = m - m * x * (1 + x) / 2 := by rw [hm]; field_simp; ring
        have hsmall : (m : ℚ) * x * (1 + x) ≤ (1 - x) * (1 + x) := mul_le_mul_of_nonneg_right hmx (by linarith)
        have hpos : 0 < (m : ℚ) * x * (1 + x) := by positivity
        have hlt1 : (1 - x) * (1 + x) < 1 := by
          have : (1 - x) * (1 + x) = 1 - x * x := by ring
          have := mul_pos hx0 hx0
          linarith
        have h1 : roundEven (s * (1 - x / 2 - x * x / 2) / U) = m := by
          rw [hbU]
          exact roundEven_gt_half (by linarith) (by linarith)
        have h3 : s * (1 - x / 2 - x * x / 2) = (m - m * x * (1 + x) / 2) * U := by rw [← hbU]; field_simp
        rw [hm] at h1 ⊢
        refine rnd_binade hle ?_ ?_ h1
        · rw [← hm, h3, ← hpm]
          refine mul_le_mul_of_nonneg_right ?_ hUpos.le
          linarith
        · rw [← hm, h3]
          refine lt_of_le_of_lt ?_ e2
          rw [hm]
          refine mul_le_mul_of_nonneg_right ?_ hUpos.le
          linarith

end

/-- binary64: the root of the rounded square of `s ≥ 2⁻⁵¹¹` is `s`. -/
theorem sqrt_sq64 {s v : ℚ} (hs : rnd64 s = s) (h : two (-511) ≤ s) (hv : SqrtOf rnd64 (rnd64 (s * s)) v) : v = s := by
  rw [two_eq] at h
  have h0 : (0 : ℚ) < 2 ^ (-511 : Int) := by positivity
  refine sqrt_sq (p := 53) (emin := -1022) (by norm_num) hs (h0.trans_le h) ?_ ?_ hv
  · refine le_trans ?_ h
    exact zpow_le_zpow_right₀ (by norm_num) (by norm_num)
  · rw [show (-1022 : Int) = -511 + -511 by norm_num, zpow_add₀ (by norm_num)]
    exact mul_le_mul h h h0.le (h0.le.trans h)

end Verif.FP
