import Verif.Proofs.Covariance
import Verif.Proofs.Sqrt

/-! # How far a computed correlation can leave [-1, 1]

Without a window the three sums of a correlation are built from the same computed deviations with the same computed coefficients, so the
inequality of Cauchy and Schwarz holds between them up to the rounding of sums and products, whatever the errors of the means are. -/

namespace Verif.FP
open Verif.Spec Verif.MathUtil
open Verif.JFP (pairS roomP roomMean newRule pairS_append pairS_nil addRule decayRule pairS_repr)

/-- One step of the inequality. -/
theorem cauchy_step {P X Y g c a b : ℚ} (hP : 0 ≤ P) (hX : 0 ≤ X) (hY : 0 ≤ Y) (hg : 0 ≤ g) (hc : 0 ≤ c) (ha : 0 ≤ a) (hb : 0 ≤ b)
    (h : P * P ≤ X * Y) : (g * P + c * (a * b)) * (g * P + c * (a * b)) ≤ (g * X + c * (a * a)) * (g * Y + c * (b * b)) := by
  have hab : 0 ≤ a * b := mul_nonneg ha hb
  have h2 : 2 * (P * (a * b)) ≤ X * (b * b) + Y * (a * a) := by
    refine le_trans (le_abs_self _) (abs_le_of_sq_le_sq ?_ (by positivity))
    have h3 : P * P * (a * b * (a * b)) ≤ X * Y * (a * b * (a * b)) := mul_le_mul_of_nonneg_right h (mul_nonneg hab hab)
    nlinarith [sq_nonneg (X * (b * b) - Y * (a * a))]
  have h3 : g * g * (P * P) ≤ g * g * (X * Y) := mul_le_mul_of_nonneg_left h (mul_nonneg hg hg)
  have h4 : g * c * (2 * (P * (a * b))) ≤ g * c * (X * (b * b) + Y * (a * a)) := mul_le_mul_of_nonneg_left h2 (mul_nonneg hg hc)
  nlinarith

/-- The bound of the quotient, to first order. -/
theorem corr_factor {u y : ℚ} (hu : 0 ≤ u) (huy : 3 * u ≤ y) (hy : y ≤ 1 / 256) :
    (1 + u) * ((1 + 2 * u) / ((1 - y) * (1 - y) * (1 - 2 * u) * (1 - 2 * u))) ≤ 1 + 5 / 2 * y + 9 * u - u / 768 := by
  have hy1 : 0 ≤ y := by linarith
  have ha : 0 < 1 - y := by linarith
  have hb : 0 < 1 - 2 * u := by linarith
  rw [← mul_div_assoc, div_le_iff₀ (by positivity)]
  have h1 : 1 - 2 * y - 4 * u ≤ (1 - y) * (1 - y) * (1 - 2 * u) * (1 - 2 * u) := by
    have h2 : 1 - 2 * y ≤ (1 - y) * (1 - y) := by nlinarith
    have h3 : 1 - 4 * u ≤ (1 - 2 * u) * (1 - 2 * u) := by nlinarith
    have h4 := mul_le_mul h2 h3 (by linarith) (by positivity)
    have h5 : 0 ≤ y * u := by positivity
    linarith
  have h5 := mul_le_mul_of_nonneg_left h1 (show 0 ≤ 1 + 5 / 2 * y + 9 * u - u / 768 by linarith)
  refine le_trans ?_ h5
  have k1 : y * y ≤ 1 / 256 * y := mul_le_mul_of_nonneg_right hy hy1
  have k2 : y * u ≤ 1 / 256 * u := mul_le_mul_of_nonneg_right hy hu
  have k3 : u * u ≤ 1 / 768 * u := mul_le_mul_of_nonneg_right (by linarith) hu
  have k4 : 0 ≤ u * u := by positivity
  linarith

section
variable {rnd : ℚ → ℚ} {pw : ℚ → Nat → ℚ} {u t : ℚ}

theorem Accuracy.abs_le (hE : Accuracy rnd u t) (q : ℚ) : |rnd q| ≤ (1 + u) * |q| + t := by
  have h1 := hE q
  have h2 : |rnd q| ≤ |rnd q - q| + |q| := by
    have := abs_add_le (rnd q - q) q
    rwa [sub_add_cancel] at this
  linarith

theorem Accuracy.ge (hE : Accuracy rnd u t) {q : ℚ} (hq : 0 ≤ q) : (1 - u) * q - t ≤ rnd q := by
  have h1 := hE q
  rw [abs_of_nonneg hq, _root_.abs_le] at h1
  linarith [h1.1]

/-- A sum of products of rounded values, bounded above. -/
theorem step_upper (hE : Accuracy rnd u t) (hu : 0 ≤ u) (hu1 : u ≤ 1 / 1024) (ht : 0 ≤ t) {g c s a b α τ P : ℚ} (hg : 0 ≤ g) (hg1 : g ≤ 1)
    (hc : 0 ≤ c) (hc2 : c ≤ 2) (hP : 0 ≤ P) (hα : 1 + u ≤ α) (hτ : 0 ≤ τ) (hs : |s| ≤ α * P + τ) :
    |rnd (rnd (g * s) + rnd (c * rnd (a * b)))| ≤ (1 + u) * (1 + u) * α * (g * P + c * (|a| * |b|)) + ((1 + u) * (1 + u) * τ + 6 * t) := by
  have h1 := hE.abs_le (g * s)
  have h2 := hE.abs_le (a * b)
  have h3 := hE.abs_le (c * rnd (a * b))
  have h4 := hE.abs_le (rnd (g * s) + rnd (c * rnd (a * b)))
  have h5 := abs_add_le (rnd (g * s)) (rnd (c * rnd (a * b)))
  rw [abs_mul, abs_of_nonneg hg] at h1
  rw [abs_mul a b] at h2
  rw [abs_mul, abs_of_nonneg hc] at h3
  set p := |a| * |b| with hp
  have hp0 : 0 ≤ p := by positivity
  have e1 : g * |s| ≤ α * (g * P) + τ := by
    have := mul_le_mul_of_nonneg_left hs hg
    nlinarith
  have e2 : c * |rnd (a * b)| ≤ (1 + u) * (c * p) + 2 * t := by
    have := mul_le_mul_of_nonneg_left h2 hc
    nlinarith
  have hu0 : 0 ≤ 1 + u := by linarith
  have f1 := mul_le_mul_of_nonneg_left e1 hu0
  have f2 := mul_le_mul_of_nonneg_left e2 hu0
  have f3 : |rnd (g * s) + rnd (c * rnd (a * b))| ≤
      (1 + u) * (α * (g * P) + τ) + t + ((1 + u) * ((1 + u) * (c * p) + 2 * t) + t) := by linarith
  have f4 := mul_le_mul_of_nonneg_left f3 hu0
  have f5 : (1 + u) * ((1 + u) * ((1 + u) * (c * p))) ≤ (1 + u) * ((1 + u) * (α * (c * p))) := by
    have := mul_le_mul_of_nonneg_right hα (mul_nonneg hc hp0)
    exact mul_le_mul_of_nonneg_left (mul_le_mul_of_nonneg_left this hu0) hu0
  have f6 : (1 + u) * (t + ((1 + u) * (2 * t) + t)) + t ≤ 6 * t := by
    have g1 : u * t ≤ 1 / 1024 * t := mul_le_mul_of_nonneg_right hu1 ht
    have g0 : 0 ≤ u * t := mul_nonneg hu ht
    have g2 : u * (u * t) ≤ 1 / 1024 * (u * t) := mul_le_mul_of_nonneg_right hu1 g0
    have g3 : 0 ≤ u * (u * t) := mul_nonneg hu g0
    linarith
  nlinarith

/-- The same for a sum of squares, bounded below. -/
theorem step_lower (hE : Accuracy rnd u t) (hu : 0 ≤ u) (hu1 : u ≤ 1 / 1024) (ht : 0 ≤ t) (hpos : ∀ q, 0 ≤ q → 0 ≤ rnd q) {g c s a β τ X : ℚ}
    (hg : 0 ≤ g) (hg1 : g ≤ 1) (hc : 0 ≤ c) (hc2 : c ≤ 2) (hX : 0 ≤ X) (hβ : β ≤ 1 - u) (hτ : 0 ≤ τ) (hs0 : 0 ≤ s) (hs : β * X - τ ≤ s) :
    (1 - u) * (1 - u) * β * (g * X + c * (a * a)) - ((1 + u) * (1 + u) * τ + 6 * t) ≤ rnd (rnd (g * s) + rnd (c * rnd (a * a))) := by
  have haa : 0 ≤ a * a := mul_self_nonneg a
  have h1 := hE.ge (mul_nonneg hg hs0)
  have h2 := hE.ge haa
  have h3 := hE.ge (mul_nonneg hc (hpos _ haa))
  have h4 := hE.ge (add_nonneg (hpos _ (mul_nonneg hg hs0)) (hpos _ (mul_nonneg hc (hpos _ haa))))
  have e1 : β * (g * X) - τ ≤ g * s := by
    have := mul_le_mul_of_nonneg_left hs hg
    nlinarith
  have e2 : (1 - u) * (c * (a * a)) - 2 * t ≤ c * rnd (a * a) := by
    have := mul_le_mul_of_nonneg_left h2 hc
    nlinarith
  have hu0 : 0 ≤ 1 - u := by linarith
  have f1 := mul_le_mul_of_nonneg_left e1 hu0
  have f2 := mul_le_mul_of_nonneg_left e2 hu0
  have f3 : (1 - u) * (β * (g * X) - τ) - t + ((1 - u) * ((1 - u) * (c * (a * a)) - 2 * t) - t) ≤
      rnd (g * s) + rnd (c * rnd (a * a)) := by linarith
  have f4 := mul_le_mul_of_nonneg_left f3 hu0
  have f5 : (1 - u) * ((1 - u) * (β * (c * (a * a)))) ≤ (1 - u) * ((1 - u) * ((1 - u) * (c * (a * a)))) := by
    have := mul_le_mul_of_nonneg_right hβ (mul_nonneg hc haa)
    exact mul_le_mul_of_nonneg_left (mul_le_mul_of_nonneg_left this hu0) hu0
  have f6 : (1 - u) * (t + ((1 - u) * (2 * t) + t)) + t ≤ 6 * t := by
    have g1 : u * t ≤ 1 / 1024 * t := mul_le_mul_of_nonneg_right hu1 ht
    have g0 : 0 ≤ u * t := mul_nonneg hu ht
    have g2 : u * (u * t) ≤ 1 / 1024 * (u * t) := mul_le_mul_of_nonneg_right hu1 g0
    have g3 : 0 ≤ u * (u * t) := mul_nonneg hu g0
    linarith
  have f7 : (1 - u) * ((1 - u) * τ) ≤ (1 + u) * (1 + u) * τ := by nlinarith
  nlinarith

/-- How a new pair enters a sum of products without a window. -/
structure Entry (rnd : ℚ → ℚ) (pw : ℚ → Nat → ℚ) (d : Option ℚ) (n : Nat) (g c : ℚ) : Prop where
  g0 : 0 ≤ g
  g1 : g ≤ 1
  c0 : 0 ≤ c
  c2 : c ≤ 2
  eq : ∀ s q, rnd s = s → (newRule (Arith.rounded rnd pw) d n).op ((newRule (Arith.rounded rnd pw) d n).base s)
    ((newRule (Arith.rounded rnd pw) d n).full 2 q) = rnd (rnd (g * s) + rnd (c * q))

theorem exists_entry (R : Rounding rnd) (hE : Accuracy rnd u t) (hu : 0 ≤ u) (hu1 : u ≤ 1 / 1024) (ht : 0 ≤ t) (htu : t ≤ u * u)
    (hsq : ∀ x, rnd x = x → pw x 2 = rnd (x * x)) (h1 : ∀ x, rnd x = x → pw x 1 = x) {N : Nat} (hN : ∀ n : Nat, n ≤ N → rnd n = n)
    (hNu : (N : ℚ) * u ≤ 1 / 1024) {d : Option ℚ} (hd : ∀ dd, d = some dd → rnd dd = dd ∧ 0 ≤ dd ∧ dd ≤ 1) {n : Nat} (hn : 1 ≤ n)
    (hnN : n ≤ N) : ∃ g c, Entry rnd pw d n g c := by
  cases d with
  | none =>
    have hn1 : rnd ((n : ℚ) - 1) = (n : ℚ) - 1 := by
      have := hN (n - 1) (by omega)
      rwa [Nat.cast_sub hn, Nat.cast_one] at this
    have hnn := hN n hnN
    have hnq : (1 : ℚ) ≤ n := by exact_mod_cast hn
    have hp : pw n 2 = rnd (n * n) := hsq _ hnn
    have hp0 : 0 ≤ pw n 2 := by rw [hp]; exact R.nonneg (by positivity)
    refine ⟨1, rnd (rnd (((n : ℚ) - 1) / pw n 2) * n), by norm_num, le_refl _, ?_, ?_, ?_⟩
    · exact R.nonneg (mul_nonneg (R.nonneg (div_nonneg (by linarith) hp0)) (by linarith))
    · by_cases h2 : n = 1
      · subst h2
        simp [R.zero]
      · have hn2 : (2 : ℚ) ≤ n := by exact_mod_cast (by omega : 2 ≤ n)
        have hnu : (n : ℚ) * u ≤ 1 / 1024 := by
          refine le_trans (mul_le_mul_of_nonneg_right ?_ hu) hNu
          exact_mod_cast hnN
        have hc := coef_err hE hu hu1 ht htu hn2 hnu (p := pw n 2) (by
          rw [hp]
          have := hE ((n : ℚ) * n)
          rwa [abs_of_nonneg (by positivity : (0 : ℚ) ≤ (n : ℚ) * n)] at this)
        have hk : ((n : ℚ) - 1) / n ≤ 1 := by rw [div_le_one (by linarith)]; linarith
        rw [_root_.abs_le] at hc
        linarith [hc.2]
    · intro s q hs
      have hsum : rnd ((n : ℚ) - 1 + 1) = n := by rw [sub_add_cancel]; exact hnn
      simp [newRule, addRule, Arith.rounded, hn1, h1, hs, R.one, hsum, hnn, sign]
  | some dd =>
    obtain ⟨r0, d0, d1⟩ := hd dd rfl
    set e := if n = 1 then (1 : ℚ) else dd with he
    have hr : rnd e = e := by rw [he]; split_ifs; exacts [R.one, r0]
    have he0 : 0 ≤ e := by rw [he]; split_ifs; exacts [zero_le_one, d0]
    have he1 : e ≤ 1 := by rw [he]; split_ifs; exacts [le_refl _, d1]
    set g := rnd (1 - e) with hg
    have hg0 : 0 ≤ g := R.nonneg (by linarith)
    have hg1 : g ≤ 1 := by
      have := R.mono (show 1 - e ≤ 1 by linarith)
      rwa [R.one] at this
    have hgr : rnd g = g := R.idem _
    have sq : ∀ x, rnd x = x → |x| ≤ 1 → 0 ≤ pw x 2 ∧ pw x 2 ≤ 1 := by
      intro x hx hx1
      rw [hsq x hx]
      refine ⟨R.nonneg (mul_self_nonneg x), ?_⟩
      have : x * x ≤ 1 := by
        have := abs_le_one_iff_mul_self_le_one.1 hx1
        exact this
      have := R.mono this
      rwa [R.one] at this
    have s1 := sq (-e) (by rw [R.neg, hr]) (by rw [abs_neg, abs_of_nonneg he0]; exact he1)
    have s2 := sq g hgr (by rw [abs_of_nonneg hg0]; exact hg1)
    have le1 : ∀ q, q ≤ 1 → rnd q ≤ 1 := fun q h => by have := R.mono h; rwa [R.one] at this
    refine ⟨g, rnd (rnd (g * pw (-e) 2) + rnd (e * pw g 2)), hg0, hg1, ?_, ?_, ?_⟩
    · exact R.nonneg (add_nonneg (R.nonneg (mul_nonneg hg0 s1.1)) (R.nonneg (mul_nonneg he0 s2.1)))
    · have a1 := le1 (g * pw (-e) 2) (mul_le_one₀ hg1 s1.1 s1.2)
      have a2 := le1 (e * pw g 2) (mul_le_one₀ he1 s2.1 s2.2)
      have := R.mono (show rnd (g * pw (-e) 2) + rnd (e * pw g 2) ≤ 2 by linarith)
      rwa [R.two] at this
    · intro s q _
      have hif : (if n = 1 then (Arith.rounded rnd pw).ofInt 1 else dd) = e := by
        rw [he]
        simp [Arith.rounded, R.one]
      simp only [newRule, hif]
      simp [decayRule, Arith.rounded, R.one, ← hg]

/-- The sums of a correlation satisfy the inequality of Cauchy and Schwarz up to relative errors of `2 n + 1` roundings and a few
underflows. -/
theorem corr_cauchy (R : Rounding rnd) (hE : Accuracy rnd u t) (hu : 0 ≤ u) (hu1 : u ≤ 1 / 1024) (ht : 0 ≤ t) (htu : t ≤ u * u)
    (hsq : ∀ x, rnd x = x → pw x 2 = rnd (x * x)) (h1 : ∀ x, rnd x = x → pw x 1 = x) {N : Nat} (hN : ∀ n : Nat, n ≤ N → rnd n = n)
    (hNu : (N : ℚ) * u ≤ 1 / 1024) {d : Option ℚ} (hd : ∀ dd, d = some dd → rnd dd = dd ∧ 0 ≤ dd ∧ dd ≤ 1) (ps : List (ℚ × ℚ))
    (hl : ps.length ≤ N) : ∃ P X Y : ℚ, 0 ≤ P ∧ 0 ≤ X ∧ 0 ≤ Y ∧ P * P ≤ X * Y ∧
      |pairS (Arith.rounded rnd pw) (fun a b => rnd (a * b)) 0 d ps| ≤
        (1 + u) ^ (2 * ps.length + 1) * P + 6 * ps.length * t * (1 + u) ^ (2 * ps.length) ∧
      (0 ≤ pairS (Arith.rounded rnd pw) (fun a b => rnd (a * b)) 0 d (ps.map fun p => (p.1, p.1)) ∧
        (1 - u) ^ (2 * ps.length + 1) * X - 6 * ps.length * t * (1 + u) ^ (2 * ps.length) ≤
          pairS (Arith.rounded rnd pw) (fun a b => rnd (a * b)) 0 d (ps.map fun p => (p.1, p.1))) ∧
      (0 ≤ pairS (Arith.rounded rnd pw) (fun a b => rnd (a * b)) 0 d (ps.map fun p => (p.2, p.2)) ∧
        (1 - u) ^ (2 * ps.length + 1) * Y - 6 * ps.length * t * (1 + u) ^ (2 * ps.length) ≤
          pairS (Arith.rounded rnd pw) (fun a b => rnd (a * b)) 0 d (ps.map fun p => (p.2, p.2))) := by
  induction ps using List.reverseRecOn with
  | nil => exact ⟨0, 0, 0, by simp [pairS_nil, Arith.rounded, R.zero]⟩
  | append_singleton ps p ih =>
    have hl' : (ps ++ [p]).length = ps.length + 1 := by simp
    rw [hl'] at hl ⊢
    obtain ⟨P, X, Y, hP, hX, hY, hC, ha, ⟨hb0, hb⟩, hc0, hc⟩ := ih (by omega)
    obtain ⟨g, c, E⟩ := exists_entry R hE hu hu1 ht htu hsq h1 hN hNu hd (n := ps.length + 1) (by omega) hl
    set A := Arith.rounded rnd pw with hA
    set f : ℚ → ℚ → ℚ := fun a b => rnd (a * b) with hf
    have hroomP : ∀ ps m1 m2 s, roomP A f 0 ps m1 m2 s = s := by
      intro ps m1 m2 s
      unfold roomP
      rw [if_neg (by simp)]
    set μ := roomMean A 0 d (ps.map (·.1))
    set ν := roomMean A 0 d (ps.map (·.2))
    have r0 : pairS A f 0 d (ps ++ [p]) = rnd (rnd (g * pairS A f 0 d ps) + rnd (c * rnd (rnd (p.1 - μ) * rnd (p.2 - ν)))) := by
      rw [pairS_append, lastN_zero, hl', hroomP, E.eq _ _ (pairS_repr R f 0 d ps).1]
      rfl
    have r1 : pairS A f 0 d ((ps ++ [p]).map fun p => (p.1, p.1)) = rnd (rnd (g * pairS A f 0 d (ps.map fun p => (p.1, p.1))) +
        rnd (c * rnd (rnd (p.1 - μ) * rnd (p.1 - μ)))) := by
      rw [List.map_append, List.map_singleton, pairS_append, lastN_zero, hroomP]
      have : (ps.map (fun p => (p.1, p.1)) ++ [(p.1, p.1)]).length = ps.length + 1 := by simp
      rw [this, E.eq _ _ (pairS_repr R f 0 d _).1, List.map_map, List.map_map]
      rfl
    have r2 : pairS A f 0 d ((ps ++ [p]).map fun p => (p.2, p.2)) = rnd (rnd (g * pairS A f 0 d (ps.map fun p => (p.2, p.2))) +
        rnd (c * rnd (rnd (p.2 - ν) * rnd (p.2 - ν)))) := by
      rw [List.map_append, List.map_singleton, pairS_append, lastN_zero, hroomP]
      have : (ps.map (fun p => (p.2, p.2)) ++ [(p.2, p.2)]).length = ps.length + 1 := by simp
      rw [this, E.eq _ _ (pairS_repr R f 0 d _).1, List.map_map, List.map_map]
      rfl
    rw [r0, r1, r2]
    set a := rnd (p.1 - μ)
    set b := rnd (p.2 - ν)
    have hu0 : 0 ≤ 1 + u := by linarith
    have hτ : 0 ≤ 6 * (ps.length : ℚ) * t * (1 + u) ^ (2 * ps.length) := by positivity
    have hα : 1 + u ≤ (1 + u) ^ (2 * ps.length + 1) := le_self_pow₀ (by linarith) (by omega)
    have hβ : (1 - u) ^ (2 * ps.length + 1) ≤ 1 - u := pow_le_of_le_one (by linarith) (by linarith) (by omega)
    have eα : (1 + u) ^ (2 * (ps.length + 1) + 1) = (1 + u) * (1 + u) * (1 + u) ^ (2 * ps.length + 1) := by ring
    have eβ : (1 - u) ^ (2 * (ps.length + 1) + 1) = (1 - u) * (1 - u) * (1 - u) ^ (2 * ps.length + 1) := by ring
    have eτ : (1 + u) * (1 + u) * (6 * (ps.length : ℚ) * t * (1 + u) ^ (2 * ps.length)) + 6 * t ≤
        6 * ((ps.length + 1 : Nat) : ℚ) * t * (1 + u) ^ (2 * (ps.length + 1)) := by
      have hge : 1 ≤ (1 + u) ^ (2 * (ps.length + 1)) := one_le_pow₀ (by linarith)
      have e2 : (1 + u) ^ (2 * (ps.length + 1)) = (1 + u) * (1 + u) * (1 + u) ^ (2 * ps.length) := by ring
      have := mul_le_mul_of_nonneg_left hge (show 0 ≤ 6 * t by positivity)
      push_cast
      rw [e2] at this ⊢
      nlinarith
    have k0 := step_upper hE hu hu1 ht (a := a) (b := b) E.g0 E.g1 E.c0 E.c2 hP hα hτ ha
    have k1 := step_lower hE hu hu1 ht (fun q => R.nonneg) (a := a) E.g0 E.g1 E.c0 E.c2 hX hβ hτ hb0 hb
    have k2 := step_lower hE hu hu1 ht (fun q => R.nonneg) (a := b) E.g0 E.g1 E.c0 E.c2 hY hβ hτ hc0 hc
    have hsum : ∀ s x : ℚ, 0 ≤ s → 0 ≤ rnd (rnd (g * s) + rnd (c * rnd (x * x))) := fun s x hs =>
      R.nonneg (add_nonneg (R.nonneg (mul_nonneg E.g0 hs)) (R.nonneg (mul_nonneg E.c0 (R.nonneg (mul_self_nonneg x)))))
    have hcs := cauchy_step hP hX hY E.g0 E.c0 (abs_nonneg a) (abs_nonneg b) hC
    rw [abs_mul_abs_self, abs_mul_abs_self] at hcs
    refine ⟨g * P + c * (|a| * |b|), g * X + c * (a * a), g * Y + c * (b * b), ?_, ?_, ?_, hcs, ?_, ⟨hsum _ _ hb0, ?_⟩, hsum _ _ hc0, ?_⟩
    · exact add_nonneg (mul_nonneg E.g0 hP) (mul_nonneg E.c0 (by positivity))
    · exact add_nonneg (mul_nonneg E.g0 hX) (mul_nonneg E.c0 (mul_self_nonneg a))
    · exact add_nonneg (mul_nonneg E.g0 hY) (mul_nonneg E.c0 (mul_self_nonneg b))
    · rw [eα]; linarith
    · rw [eβ]; linarith
    · rw [eβ]; linarith

set_option maxHeartbeats 800000 in
/-- The quotient of a covariance by the root of a product of variances. -/
theorem corr_quotient (R : Rounding rnd) (hE : Accuracy rnd u t) (hu : 0 ≤ u) (ht : 0 ≤ t) (htu : t ≤ u * u) {P X Y A B C α β y τ T v : ℚ}
    (hP : 0 ≤ P) (hX : 0 ≤ X) (hY : 0 ≤ Y) (hPXY : P * P ≤ X * Y) (hA : |A| ≤ α * P + τ) (hB : β * X - τ ≤ B) (hC : β * Y - τ ≤ C)
    (hT : 0 < T) (hTB : T ≤ B) (hTC : T ≤ C) (hτ : τ ≤ u * T) (htT : 2 * t ≤ u * T) (htT2 : t ≤ u * (T * T)) (huy : 3 * u ≤ y)
    (hy : y ≤ 1 / 256) (hα : α * (1 - y) ≤ 1) (hα0 : 0 ≤ α) (hβ : 1 - y ≤ β) (hv : SqrtOf rnd (rnd (B * C)) v) :
    0 < v ∧ |rnd (A / v)| ≤ 1 + 5 / 2 * y + 9 * u := by
  have hu1 : u ≤ 1 / 768 := by linarith
  have hy0 : 0 ≤ 1 - y := by linarith
  have hB0 : 0 < B := lt_of_lt_of_le hT hTB
  have hC0 : 0 < C := lt_of_lt_of_le hT hTC
  set G := B * C with hG
  have hG0 : 0 < G := mul_pos hB0 hC0
  have hTG : T * T ≤ G := mul_le_mul hTB hTC hT.le hB0.le
  have hXB : (1 - y) * X ≤ (1 + u) * B := by
    have h1 := mul_le_mul_of_nonneg_right hβ hX
    have h2 := mul_le_mul_of_nonneg_left hTB hu
    linarith
  have hYC : (1 - y) * Y ≤ (1 + u) * C := by
    have h1 := mul_le_mul_of_nonneg_right hβ hY
    have h2 := mul_le_mul_of_nonneg_left hTC hu
    linarith
  set p := (1 - y) * P with hp
  have hp0 : 0 ≤ p := mul_nonneg hy0 hP
  have hpp : p * p ≤ (1 + u) * (1 + u) * G := by
    have h1 := mul_le_mul hXB hYC (mul_nonneg hy0 hY) (by positivity)
    have h2 := mul_le_mul_of_nonneg_left hPXY (mul_nonneg hy0 hy0)
    calc p * p = (1 - y) * (1 - y) * (P * P) := by rw [hp]; ring
      _ ≤ (1 - y) * (1 - y) * (X * Y) := h2
      _ = (1 - y) * X * ((1 - y) * Y) := by ring
      _ ≤ (1 + u) * B * ((1 + u) * C) := h1
      _ = _ := by rw [hG]; ring
  have hpT : p * T ≤ (1 + u) * G := by
    refine le_trans (le_abs_self _) (abs_le_of_sq_le_sq ?_ (by positivity))
    calc (p * T) ^ 2 = p * p * (T * T) := by ring
      _ ≤ (1 + u) * (1 + u) * G * G := mul_le_mul hpp hTG (by positivity) (by positivity)
      _ = ((1 + u) * G) ^ 2 := by ring
  have hAp : (1 - y) * (1 - y) * |A| ≤ p + u * T := by
    have h1 := mul_le_mul_of_nonneg_left hA (mul_nonneg hy0 hy0)
    have h2 : α * (1 - y) * p ≤ 1 * p := mul_le_mul_of_nonneg_right hα hp0
    have h3 : (1 - y) * (1 - y) * τ ≤ u * T := by
      have huT : 0 ≤ u * T := by positivity
      calc (1 - y) * (1 - y) * τ ≤ (1 - y) * (1 - y) * (u * T) := mul_le_mul_of_nonneg_left hτ (mul_nonneg hy0 hy0)
        _ ≤ 1 * (u * T) := mul_le_mul_of_nonneg_right (by nlinarith) huT
        _ = u * T := one_mul _
    calc (1 - y) * (1 - y) * |A| ≤ (1 - y) * (1 - y) * (α * P + τ) := h1
      _ = α * (1 - y) * p + (1 - y) * (1 - y) * τ := by rw [hp]; ring
      _ ≤ p + u * T := by linarith
  have hAA : (1 - y) * (1 - y) * |A| * ((1 - y) * (1 - y) * |A|) ≤ (1 + 2 * u) * (1 + 2 * u) * G := by
    have h1 := mul_le_mul hAp hAp (by positivity) (by positivity)
    have h2 := mul_le_mul_of_nonneg_left hpT hu
    have h3 := mul_le_mul_of_nonneg_left hTG (mul_nonneg hu hu)
    nlinarith
  set q := rnd G
  have hq : (1 - 2 * u) * G ≤ q := by
    have h1 := hE.ge hG0.le
    have h2 := mul_le_mul_of_nonneg_left hTG hu
    linarith
  have hw : 0 < 1 - 2 * u := by linarith
  have hyy : 0 < (1 - y) * (1 - y) := mul_pos (by linarith) (by linarith)
  set K := (1 + 2 * u) / ((1 - y) * (1 - y) * (1 - 2 * u)) with hK
  have hK0 : 0 < K := div_pos (by linarith) (mul_pos hyy hw)
  have hz1 : |A| / K * (|A| / K) ≤ q := by
    have e : |A| / K * (|A| / K) = (1 - y) * (1 - y) * |A| * ((1 - y) * (1 - y) * |A|) * ((1 - 2 * u) * (1 - 2 * u)) /
        ((1 + 2 * u) * (1 + 2 * u)) := by
      rw [hK]
      field_simp
    rw [e, div_le_iff₀ (by positivity)]
    have h1 := mul_le_mul_of_nonneg_right hAA (mul_nonneg hw.le hw.le)
    have h2 : (1 - 2 * u) * ((1 - 2 * u) * G) ≤ 1 * q := mul_le_mul (by linarith) hq (by positivity) (by norm_num)
    have h3 := mul_le_mul_of_nonneg_left h2 (show 0 ≤ (1 + 2 * u) * (1 + 2 * u) by positivity)
    linarith
  have hz2 : T / 2 * (T / 2) ≤ q := by nlinarith
  obtain ⟨z, hzA, hzT, hzq⟩ : ∃ z, |A| / K ≤ z ∧ T / 2 ≤ z ∧ z * z ≤ q := by
    rcases le_total (|A| / K) (T / 2) with h | h
    · exact ⟨T / 2, h, le_refl _, hz2⟩
    · exact ⟨|A| / K, le_refl _, h, hz1⟩
  have hz0 : 0 < z := by linarith
  have hvz : (1 - 2 * u) * z ≤ v := by
    have h1 := (hv z hz0.le).1 hzq
    have h2 := hE.ge hz0.le
    have h3 := mul_le_mul_of_nonneg_left hzT hu
    linarith
  have hv0 : 0 < v := lt_of_lt_of_le (mul_pos hw hz0) hvz
  refine ⟨hv0, ?_⟩
  have hAv : |A / v| ≤ (1 + 2 * u) / ((1 - y) * (1 - y) * (1 - 2 * u) * (1 - 2 * u)) := by
    rw [abs_div, abs_of_pos hv0, div_le_div_iff₀ hv0 (by positivity)]
    rw [div_le_iff₀ hK0, hK] at hzA
    have h1 : |A| * ((1 - y) * (1 - y) * (1 - 2 * u)) ≤ (1 + 2 * u) * z := by
      have := mul_le_mul_of_nonneg_right hzA (mul_pos hyy hw).le
      rwa [mul_assoc z, div_mul_cancel₀ _ (mul_pos hyy hw).ne', mul_comm z] at this
    have h2 := mul_le_mul_of_nonneg_right h1 hw.le
    have h3 := mul_le_mul_of_nonneg_left hvz (show 0 ≤ 1 + 2 * u by linarith)
    linarith
  have hr := hE.abs_le (A / v)
  have hmul := mul_le_mul_of_nonneg_left hAv (show 0 ≤ 1 + u by linarith)
  have hfin : (1 + u) * ((1 + 2 * u) / ((1 - y) * (1 - y) * (1 - 2 * u) * (1 - 2 * u))) ≤ 1 + 5 / 2 * y + 9 * u - u / 768 := corr_factor hu huy hy
  have htu' : t ≤ u / 768 := by
    have := mul_le_mul_of_nonneg_left hu1 hu
    linarith
  linarith
end

end Verif.FP
