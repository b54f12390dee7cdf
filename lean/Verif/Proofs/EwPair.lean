import Verif.Proofs.Covariance
import Verif.Proofs.HighSteps

/-! # Accuracy of the exponentially weighted sum of products of deviations -/

namespace Verif.FP
open Verif.Spec Verif.MathUtil
open Verif.JFP (pairS roomP roomMean newRule pairS_append pairS_nil decayRule)

/-- The exponentially weighted covariance of pairs. -/
def ewPair (d : ℚ) (ps : List (ℚ × ℚ)) : ℚ :=
  ewTotal d (fun p => (p.1 - ewMean d (ps.map (·.1))) * (p.2 - ewMean d (ps.map (·.2)))) ps

/-- A weighted sum of products of deviations from arbitrary points. -/
def wpair (ws : List (ℚ × (ℚ × ℚ))) (a b : ℚ) : ℚ := (ws.map fun p => p.1 * ((p.2.1 - a) * (p.2.2 - b))).sum

theorem wpair_append (ws vs : List (ℚ × (ℚ × ℚ))) (a b : ℚ) : wpair (ws ++ vs) a b = wpair ws a b + wpair vs a b := by
  simp [wpair]

theorem wpair_scale (c : ℚ) (ws : List (ℚ × (ℚ × ℚ))) (a b : ℚ) : wpair (ws.map fun p => (c * p.1, p.2)) a b = c * wpair ws a b := by
  induction ws with
  | nil => simp [wpair]
  | cons p ws ih =>
    simp only [wpair, List.map_cons, List.sum_cons] at ih ⊢
    rw [ih]; ring

theorem wpair_shift (ws : List (ℚ × (ℚ × ℚ))) (a b e f : ℚ) :
    wpair ws (a + e) (b + f) = wpair ws a b - f * (ws.map fun p => p.1 * (p.2.1 - a)).sum - e * (ws.map fun p => p.1 * (p.2.2 - b)).sum +
      e * f * (ws.map fun p => p.1).sum := by
  induction ws with
  | nil => simp [wpair]
  | cons p ws ih =>
    simp only [wpair, List.map_cons, List.sum_cons] at ih ⊢
    rw [ih]; ring

theorem pairs_map {α β : Type} (d : ℚ) (g : α → β) (xs : List α) : Moment.pairs d (xs.map g) = (Moment.pairs d xs).map fun p => (p.1, g p.2) := by
  simp only [Moment.pairs, List.zipIdx_map, List.map_map, List.length_map]
  rfl

theorem ewPair_eq (d : ℚ) (ps : List (ℚ × ℚ)) : ewPair d ps = wpair (Moment.pairs d ps) (ewMean d (ps.map (·.1))) (ewMean d (ps.map (·.2))) := by
  rw [ewPair, Moment.ewTotal_pairs]; rfl

theorem weight_one (d : ℚ) {ps : List (ℚ × ℚ)} (h : ps ≠ []) : ((Moment.pairs d ps).map fun p => p.1).sum = 1 := by
  have := Moment.pairs_weight d (xs := ps.map (·.1)) (by simpa using h) 0
  simpa [pairs_map, Moment.wsum, Function.comp_def] using this

theorem center_one (d : ℚ) (ps : List (ℚ × ℚ)) (g : ℚ × ℚ → ℚ) : ((Moment.pairs d ps).map fun p => p.1 * (g p.2 - ewMean d (ps.map g))).sum = 0 := by
  have := Moment.pairs_center d (xs := ps.map g)
  simpa [pairs_map, Moment.wsum, Function.comp_def] using this

/-- How the exponentially weighted covariance changes with a new pair. -/
theorem ewPair_snoc (d : ℚ) {ps : List (ℚ × ℚ)} (h : ps ≠ []) (p : ℚ × ℚ) :
    ewPair d (ps ++ [p]) = (1 - d) * ewPair d ps +
      ((1 - d) * (-d) ^ 2 + d * (1 - d) ^ 2) * ((p.1 - ewMean d (ps.map (·.1))) * (p.2 - ewMean d (ps.map (·.2)))) := by
  rw [ewPair_eq, ewPair_eq, List.map_append, List.map_append, List.map_singleton, List.map_singleton,
    Moment.ewMean_snoc d (by simpa using h), Moment.ewMean_snoc d (by simpa using h), Moment.pairs_snoc d h, wpair_append, wpair_scale,
    wpair_shift, weight_one d h, center_one d ps (·.1), center_one d ps (·.2)]
  simp only [wpair, List.map_cons, List.map_nil, List.sum_cons, List.sum_nil]
  ring

theorem ewPair_one (d : ℚ) (p : ℚ × ℚ) : ewPair d [p] = 0 := by
  rw [ewPair_eq, Moment.pairs_one]
  simp [wpair, Moment.ewMean_one]

/-- A weighted mean is within the bounds of what it averages. -/
theorem abs_ewTotal_le' {α : Type} {d C : ℚ} (hd0 : 0 ≤ d) (hd1 : d ≤ 1) (hC : 0 ≤ C) {f : α → ℚ} {xs : List α} (h : ∀ x ∈ xs, |f x| ≤ C) :
    |ewTotal d f xs| ≤ C := by
  have e : ewTotal d f xs = ewTotal d (fun x => x) (xs.map f) := by
    rw [Moment.ewTotal_pairs, Moment.ewTotal_pairs, pairs_map, List.map_map]
    rfl
  rw [e]
  refine abs_ewTotal_le hd0 hd1 hC fun x hx => ?_
  obtain ⟨y, hy, rfl⟩ := List.mem_map.1 hx
  exact h y hy

section
variable {rnd : ℚ → ℚ} {pw : ℚ → Nat → ℚ} {u t : ℚ}

theorem abs_ewPair_le {d M₁ M₂ : ℚ} (hd0 : 0 ≤ d) (hd1 : d ≤ 1) (hM₁ : 0 ≤ M₁) (hM₂ : 0 ≤ M₂) {ps : List (ℚ × ℚ)}
    (hb : BoundedPairs rnd M₁ M₂ ps) : |ewPair d ps| ≤ 4 * (M₁ * M₂) := by
  have m1 := abs_ewMean_le hd0 hd1 hM₁ (fun x hx => (hb.fst x hx).2)
  have m2 := abs_ewMean_le hd0 hd1 hM₂ (fun x hx => (hb.snd x hx).2)
  refine abs_ewTotal_le' hd0 hd1 (by positivity) fun p hp => ?_
  rw [abs_mul]
  have h1 : |p.1 - ewMean d (ps.map (·.1))| ≤ 2 * M₁ := (abs_sub _ _).trans (by linarith [(hb p hp).1.2])
  have h2 : |p.2 - ewMean d (ps.map (·.2))| ≤ 2 * M₂ := (abs_sub _ _).trans (by linarith [(hb p hp).2.2])
  have := mul_le_mul h1 h2 (abs_nonneg _) (by positivity)
  linarith

/-- The means of a core with decay and without a window. -/
theorem Track.closed_decay {F : Type} {A : Arith F} {d : F} {I I' : List F → F → (Nat → F) → Prop} (T : Track A 0 (some d) 0 I I') (xs : List F) :
    I' xs (roomMean A 0 (some d) xs) (fun _ => A.ofInt 0) := by
  have hroom : ∀ xs : List F, I xs (mst A 0 (some d) xs).1 (fun _ => A.ofInt 0) → I' xs (roomMean A 0 (some d) xs) (fun _ => A.ofInt 0) := by
    intro xs h
    unfold roomMean
    rw [roomM_room A (Or.inl rfl)]
    exact T.room _ _ _ (Or.inl rfl) h
  refine hroom xs ?_
  induction xs using List.reverseRecOn with
  | nil => exact T.zero
  | append_singleton xs x ih =>
    rw [mst_decay]
    exact T.decay d rfl xs x _ _ _ _ (hroom xs ih) ⟨rfl, fun k => by simp⟩

/-- One push: `s` is the computed covariance, `σ` the exact one, `q` and `Q` the products of the deviations. -/
theorem ew_pair_step (hE : Accuracy rnd u t) (P : PowAcc pw u t) {M₁ M₂ : ℚ} (T : Tiny u t M₁ 1 2) (hB : 0 ≤ M₁ * M₂)
    (ht : t ≤ u * u * (M₁ * M₂)) {d s σ q Q ε E : ℚ} (hd0 : 0 < d) (hd1 : d ≤ 1) (hε : d * ε ≤ 51 / 10 * u)
    (hq : |q| ≤ 455 / 100 * (M₁ * M₂)) (hqQ : |q - Q| ≤ 137 / 10 * (u * (M₁ * M₂)) + 414 / 100 * (ε * (M₁ * M₂)))
    (hσ : |σ| ≤ 4 * (M₁ * M₂)) (hs : |s - σ| ≤ E * (u * (M₁ * M₂))) (hEu : E * u ≤ 1) :
    |rnd (rnd (rnd (1 - d) * s) + rnd (rnd (rnd (rnd (1 - d) * pw (-d) 2) + rnd (d * pw (rnd (1 - d)) 2)) * q)) -
      ((1 - d) * σ + ((1 - d) * (-d) ^ 2 + d * (1 - d) ^ 2) * Q)| ≤ (1 - d) * (E * (u * (M₁ * M₂))) + 200 * (u * (M₁ * M₂)) := by
  obtain ⟨⟨-, hκe⟩, hκd, -⟩ := kappa_decay hE P T le_rfl (by norm_num) hd0 hd1
  generalize rnd (rnd (rnd (1 - d) * pw (-d) 2) + rnd (d * pw (rnd (1 - d)) 2)) = κ' at *
  generalize (1 - d) * (-d) ^ 2 + d * (1 - d) ^ 2 = κ at *
  generalize M₁ * M₂ = B at *
  have hu := T.u0
  have hu1 := T.u1
  have ht0 := T.t0
  have htu : t ≤ u / 2 := by simpa using T.tk 0 (by norm_num)
  have hD := hE (1 - d)
  rw [abs_of_nonneg (show 0 ≤ 1 - d by linarith)] at hD
  generalize rnd (1 - d) = D at *
  have huB : 0 ≤ u * B := by positivity
  have htB : t ≤ u * B / 4096 := by
    have := mul_le_mul_of_nonneg_right hu1 huB
    linarith
  have huuB : u * (u * B) ≤ u * B / 4096 := by
    have := mul_le_mul_of_nonneg_right hu1 huB
    linarith
  have huB1 : u * B ≤ B / 4096 := by
    have := mul_le_mul_of_nonneg_right hu1 hB
    linarith
  have hD' : |D - (1 - d)| ≤ 3 / 2 * u := by
    have : u * (1 - d) ≤ u := mul_le_of_le_one_right hu (by linarith)
    linarith
  have hDa : |D| ≤ 1001 / 1000 := by
    rw [abs_le] at hD' ⊢
    constructor <;> linarith
  have hsa : |s| ≤ 5 * B := by
    have h1 : E * (u * B) ≤ 1 * B := by
      rw [← mul_assoc]; exact mul_le_mul_of_nonneg_right hEu hB
    rw [abs_le] at hs hσ ⊢
    constructor <;> linarith
  have a1 : |D * s - (1 - d) * σ| ≤ 15 / 2 * (u * B) + (1 - d) * (E * (u * B)) := by
    rw [show D * s - (1 - d) * σ = (D - (1 - d)) * s + (1 - d) * (s - σ) by ring]
    refine (abs_add_le _ _).trans ?_
    rw [abs_mul, abs_mul, abs_of_nonneg (show 0 ≤ 1 - d by linarith)]
    have h1 := mul_le_mul hD' hsa (abs_nonneg _) (by positivity)
    have h2 := mul_le_mul_of_nonneg_left hs (show 0 ≤ 1 - d by linarith)
    linarith
  have hDs : |D * s| ≤ 501 / 100 * B := by
    rw [abs_mul]
    have h1 := mul_le_mul hDa hsa (abs_nonneg _) (by positivity)
    linarith
  have a2 : |rnd (D * s) - D * s| ≤ 502 / 100 * (u * B) := by
    have h1 := hE (D * s)
    have h2 := mul_le_mul_of_nonneg_left hDs hu
    linarith
  have hκ' : |κ' - κ| ≤ 24 * u := by
    norm_num at hκe
    linarith
  have hκa : |κ'| ≤ 101 / 100 := by
    rw [abs_le] at hκ' hκd ⊢
    constructor <;> linarith
  have a3 : |κ' * q - κ * Q| ≤ 145 * (u * B) := by
    rw [show κ' * q - κ * Q = (κ' - κ) * q + κ * (q - Q) by ring]
    refine (abs_add_le _ _).trans ?_
    rw [abs_mul, abs_mul]
    have h1 := mul_le_mul hκ' hq (abs_nonneg _) (by positivity)
    have h2 := mul_le_mul hκd hqQ (abs_nonneg _) hd0.le
    have h3 : d * (u * B) ≤ u * B := mul_le_of_le_one_left huB hd1
    have h4 := mul_le_mul_of_nonneg_right hε hB
    linarith
  have hκq : |κ' * q| ≤ 46 / 10 * B := by
    rw [abs_mul]
    have h1 := mul_le_mul hκa hq (abs_nonneg _) (by positivity)
    linarith
  have a4 : |rnd (κ' * q) - κ' * q| ≤ 461 / 100 * (u * B) := by
    have h1 := hE (κ' * q)
    have h2 := mul_le_mul_of_nonneg_left hκq hu
    linarith
  have a5 := hE (rnd (D * s) + rnd (κ' * q))
  have hsum : |rnd (D * s) + rnd (κ' * q)| ≤ 10 * B := by
    rw [abs_le] at hDs a2 hκq a4 ⊢
    constructor <;> linarith
  have h6 := mul_le_mul_of_nonneg_left hsum hu
  generalize rnd (D * s) = A₁ at *
  generalize rnd (κ' * q) = A₂ at *
  generalize D * s = A₃ at *
  generalize κ' * q = A₄ at *
  have a5' : |rnd (A₁ + A₂) - (A₁ + A₂)| ≤ 101 / 10 * (u * B) := by linarith
  clear a5 hsum hκq hDs hs hEu hq hqQ
  rw [abs_le] at a1 a2 a3 a4 a5' ⊢
  constructor <;> linarith

/-- The exponentially weighted covariance is accurate, however many pairs were pushed. -/
theorem pairS_ew_err (R : Rounding rnd) (hE : Accuracy rnd u t) {M₁ M₂ : ℚ} (S : Small2 u t M₁ M₂ 1) (T : Tiny u t M₁ 1 2)
    (P : PowAcc pw u t) (h₁ : rnd M₁ = M₁) (h₂ : rnd M₂ = M₂) {d : ℚ} (hrd : rnd d = d) (hd0 : 0 < d) (hd1 : d < 1)
    (hsm : 200 * (u / d) ≤ 1) (ps : List (ℚ × ℚ)) (hb : BoundedPairs rnd M₁ M₂ ps) :
    |pairS (Arith.rounded rnd pw) (fun a b => rnd (a * b)) 0 (some d) ps - ewPair d ps| ≤
      (if ps = [] then 0 else 200 / d) * (u * (M₁ * M₂)) := by
  have hMM : 0 ≤ M₁ * M₂ := mul_nonneg S.fst.M0 S.snd.M0
  have hU : 0 ≤ u * (M₁ * M₂) := mul_nonneg S.fst.u0 hMM
  have hu := S.fst.u0
  have hud : 200 / d * u ≤ 1 := by rw [div_mul_eq_mul_div, ← mul_div_assoc'] ; exact hsm
  induction ps using List.reverseRecOn with
  | nil => simp [pairS_nil, Arith.rounded, R.zero, ewPair, ewTotal]
  | append_singleton ps p ih =>
    have hb' : BoundedPairs rnd M₁ M₂ ps := fun q hq => hb q (by simp [hq])
    have ih := ih hb'
    have hl' : (ps ++ [p]).length = ps.length + 1 := by simp
    rw [pairS_append, lastN_zero, hl']
    have hroomP : ∀ m1 m2 s, roomP (Arith.rounded rnd pw) (fun a b => rnd (a * b)) 0 ps m1 m2 s = s := by
      intro m1 m2 s
      unfold roomP
      rw [if_neg (by simp)]
    rw [hroomP]
    obtain ⟨-, z1, -, e1⟩ := (track_ew_err (pw := pw) R hE S.fst.u0 S.fst.t0 hrd hd0 hd1 h₁ S.fst.M0 0).closed_decay (ps.map (·.1)) hb'.fst
    obtain ⟨-, z2, -, e2⟩ := (track_ew_err (pw := pw) R hE S.snd.u0 S.snd.t0 hrd hd0 hd1 h₂ S.snd.M0 0).closed_decay (ps.map (·.2)) hb'.snd
    have m1 := abs_ewMean_le hd0.le hd1.le S.fst.M0 (fun x hx => (hb'.fst x hx).2)
    have m2 := abs_ewMean_le hd0.le hd1.le S.snd.M0 (fun x hx => (hb'.snd x hx).2)
    obtain ⟨⟨-, p1⟩, -, p2⟩ := hb p (by simp)
    have small : ∀ {M m μ : ℚ}, Small u t M 1 → d * |m - μ| ≤ u * M + 2 * t + d * (4 * (u * M) + 2 * (u * u * M) + u * t + t) →
        |m - μ| ≤ 51 / 10 * (u / d) * M := by
      intro M m μ S h
      have hM := S.M0
      have huM : 0 ≤ u * M := by positivity
      have hu1 := T.u1
      have k1 : u * (u * M) ≤ 1 / 4096 * (u * M) := mul_le_mul_of_nonneg_right hu1 huM
      have k2 : u * t ≤ 1 / 4096 * t := mul_le_mul_of_nonneg_right hu1 S.t0
      have k3 := S.tM
      have k4 : d * (4 * (u * M) + 2 * (u * u * M) + u * t + t) ≤ 4 * (u * M) + 2 * (u * u * M) + u * t + t :=
        mul_le_of_le_one_left (by have := S.t0; positivity) hd1.le
      rw [show 51 / 10 * (u / d) * M = 51 / 10 * (u * M) / d by ring, le_div_iff₀ hd0]
      linarith
    have e1 := small S.fst e1
    have e2 := small S.snd e2
    have hε : 51 / 10 * (u / d) ≤ 1 / 8 := by linarith
    have hε0 : 0 ≤ 51 / 10 * (u / d) := by positivity
    obtain ⟨q1, q2⟩ := prod_err hE S p1 p2 m1 m2 e1 e2 hε0 hε
    have hd' : ∀ a b, (Arith.rounded rnd pw).sub a b = rnd (a - b) := fun _ _ => rfl
    rw [hd', hd']
    have hrule : ∀ dd s q : ℚ, (decayRule (Arith.rounded rnd pw) dd).op ((decayRule (Arith.rounded rnd pw) dd).base s)
        ((decayRule (Arith.rounded rnd pw) dd).full 2 q) =
        rnd (rnd (rnd (1 - dd) * s) + rnd (rnd (rnd (rnd (1 - dd) * pw (-dd) 2) + rnd (dd * pw (rnd (1 - dd)) 2)) * q)) := by
      intro dd s q
      simp only [decayRule, Arith.rounded, Int.cast_one, R.one]
    have ht := S.prod
    have hne : ps ++ [p] ≠ [] := by simp
    rw [if_neg hne]
    by_cases hnil : ps = []
    · subst hnil
      simp only [newRule, List.length_nil, zero_add, if_true]
      rw [show (Arith.rounded rnd pw).ofInt 1 = 1 by simp [Arith.rounded, R.one], hrule]
      rw [if_pos rfl] at ih
      have hstep := ew_pair_step hE P T hMM ht (d := 1) (E := 0) (σ := 0) (s := pairS (Arith.rounded rnd pw) (fun a b => rnd (a * b)) 0 (some d) [])
        (ε := 0) one_pos le_rfl (by linarith) q1 (Q := (p.1 - ewMean d []) * (p.2 - ewMean d []))
        (by
          refine (prod_err (ε := 0) hE S p1 p2 (μ₁ := ewMean d []) (μ₂ := ewMean d []) m1 m2 ?_ ?_ le_rfl (by norm_num)).2
          · rw [z1 rfl]; simp [ewMean, ewTotal]
          · rw [z2 rfl]; simp [ewMean, ewTotal])
        (by simp; exact hMM) (by simpa [ewPair, ewTotal] using ih) (by norm_num)
      rw [List.nil_append, ewPair_one]
      simp only [sub_self, zero_mul, zero_add, one_mul, zero_pow two_ne_zero, mul_zero, sub_zero] at hstep ⊢
      refine hstep.trans (mul_le_mul_of_nonneg_right ?_ hU)
      rw [le_div_iff₀ hd0]
      linarith
    · have hpos := List.length_pos_iff.2 hnil
      simp only [newRule, if_neg (show ps.length + 1 ≠ 1 by omega)]
      rw [hrule, ewPair_snoc d hnil]
      rw [if_neg hnil] at ih
      have hstep := ew_pair_step hE P T hMM ht (d := d) (E := 200 / d) (ε := 51 / 10 * (u / d)) hd0 hd1.le
        (le_of_eq (by field_simp)) q1 q2 (abs_ewPair_le hd0.le hd1.le S.fst.M0 S.snd.M0 hb') ih hud
      refine hstep.trans (le_of_eq ?_)
      field_simp
      ring

end
end Verif.FP
