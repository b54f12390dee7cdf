import Verif.Proofs.HighSteps
import Verif.Proofs.MomentFPState
import Verif.Proofs.Variance

/-! # IEEE arithmetic agrees with rounding alone as long as nothing overflows -/

namespace Verif.FP
open Verif.Spec Verif.MathUtil
open Verif.Moment (Core Config)
open Finset (range)

section
variable {rnd : ℚ → ℚ} {pw : ℚ → Nat → ℚ} {u t Ω : ℚ} {ov : ℚ → XF ℚ}

/-- IEEE arithmetic with `ov` for the overflow of rounded results. -/
abbrev ieeeOf (rnd : ℚ → ℚ) (pw : ℚ → Nat → ℚ) (ov : ℚ → XF ℚ) : Arith (XF ℚ) := Arith.ieee (fun q => ov (rnd q)) (fun x k => ov (pw x k))

theorem foldV_fin (hov : ∀ q, |q| < Ω → ov q = .fin q) {T : Nat → XF ℚ} {f : Nat → ℚ} : ∀ (n i : Nat) (acc : ℚ),
    (∀ j, i ≤ j → j < i + n → T j = .fin (f j)) → (∀ m ≤ n, |foldV (fun x y => rnd (x + y)) f m i acc| < Ω) →
    foldV (ieeeOf rnd pw ov).add T n i (.fin acc) = .fin (foldV (fun x y => rnd (x + y)) f n i acc) := by
  intro n
  induction n with
  | zero => intro i acc _ _; rfl
  | succ n ih =>
    intro i acc hT hp
    have h1 := hp 1 (by omega)
    have e : (ieeeOf rnd pw ov).add (.fin acc) (T i) = .fin (rnd (acc + f i)) := by
      rw [hT i le_rfl (by omega)]
      exact hov _ h1
    rw [foldV, foldV, e]
    exact ih (i + 1) _ (fun j a b => hT j (by omega) (by omega)) fun m hm => hp (m + 1) (by omega)

theorem coefV_fin (hov : ∀ q, |q| < Ω → ov q = .fin q) {k i : Nat} (h : |FP.coefV (Arith.rounded rnd pw) k i| < Ω) :
    FP.coefV (ieeeOf rnd pw ov) k i = .fin (FP.coefV (Arith.rounded rnd pw) k i) := by
  unfold FP.coefV at *
  cases hb : binom k i <;> rw [hb] at h <;> exact hov _ h

theorem addV_fin (R : Rounding rnd) (hov : ∀ q, |q| < Ω → ov q = .fin q) (hΩ : 1 < Ω) {n δ : ℚ} {S : Nat → XF ℚ} {s : Nat → ℚ} {k : Nat}
    (hk : 2 ≤ k) (hS : ∀ j, 2 ≤ j → j ≤ k → S j = .fin (s j)) (F : AddFits rnd pw Ω n δ s k) :
    addV (ieeeOf rnd pw ov) (.fin n) (.fin δ) S k = .fin (addV (Arith.rounded rnd pw) n δ s k) := by
  have h1 : (ieeeOf rnd pw ov).ofInt 1 = .fin 1 := by
    show ov (rnd ((1 : Int) : ℚ)) = _
    rw [Int.cast_one, R.one]
    exact hov 1 (by simpa using hΩ)
  have hdiv : ∀ a b : ℚ, b ≠ 0 → |rnd (a / b)| < Ω → (ieeeOf rnd pw ov).div (.fin a) (.fin b) = .fin (rnd (a / b)) := by
    intro a b hb h
    show (if b = 0 then _ else ov (rnd (a / b))) = _
    rw [if_neg hb, hov _ h]
  have hadd : ∀ a b : ℚ, |rnd (a + b)| < Ω → (ieeeOf rnd pw ov).add (.fin a) (.fin b) = .fin (rnd (a + b)) := fun a b h => hov _ h
  have hsub : ∀ a b : ℚ, |rnd (a - b)| < Ω → (ieeeOf rnd pw ov).sub (.fin a) (.fin b) = .fin (rnd (a - b)) := fun a b h => hov _ h
  have hmul : ∀ a b : ℚ, |rnd (a * b)| < Ω → (ieeeOf rnd pw ov).mul (.fin a) (.fin b) = .fin (rnd (a * b)) := fun a b h => hov _ h
  have hpow : ∀ (a : ℚ) (i : Nat), |pw a i| < Ω → (ieeeOf rnd pw ov).pow (.fin a) i = .fin (pw a i) := fun a i h => hov _ h
  have hsg : (ieeeOf rnd pw ov).ofInt (sign k) = .fin (rnd ((sign k : Int) : ℚ)) := hov _ F.c5
  unfold addV
  rw [h1, hsub _ _ F.c1, hpow _ _ F.c2, hdiv _ _ F.p0 F.c3, hpow _ _ F.c4, hsg, hadd _ _ F.c6, hmul _ _ F.c7, hpow _ _ F.c8, hmul _ _ F.c9,
    hS k hk le_rfl, hadd _ _ (F.part 0 (by omega)), hdiv _ _ F.n0 F.v]
  rw [foldV_fin hov (f := fun i => rnd (rnd (FP.coefV (Arith.rounded rnd pw) k i * pw (rnd (δ / n)) i) * s (k - i)))]
  · simp only [Arith.rounded, Int.cast_one, R.one]
  · intro j a b
    obtain ⟨t1, t2, t3, t4⟩ := F.term j a (by omega)
    rw [coefV_fin hov t1, hpow _ _ t2, hmul _ _ t3, hS _ (by omega) (by omega), hmul _ _ t4]
  · exact F.part

theorem decayV_fin (R : Rounding rnd) (hov : ∀ q, |q| < Ω → ov q = .fin q) (hΩ : 1 < Ω) {d δ : ℚ} {S : Nat → XF ℚ} {s : Nat → ℚ} {k : Nat}
    (hk : 2 ≤ k) (hS : ∀ j, 2 ≤ j → j ≤ k → S j = .fin (s j)) (F : DecayFits rnd pw Ω d δ s k) :
    decayV (ieeeOf rnd pw ov) (.fin d) (.fin δ) S k = .fin (decayV (Arith.rounded rnd pw) d δ s k) := by
  have h1 : (ieeeOf rnd pw ov).ofInt 1 = .fin 1 := by
    show ov (rnd ((1 : Int) : ℚ)) = _
    rw [Int.cast_one, R.one]
    exact hov 1 (by simpa using hΩ)
  have hadd : ∀ a b : ℚ, |rnd (a + b)| < Ω → (ieeeOf rnd pw ov).add (.fin a) (.fin b) = .fin (rnd (a + b)) := fun a b h => hov _ h
  have hsub : ∀ a b : ℚ, |rnd (a - b)| < Ω → (ieeeOf rnd pw ov).sub (.fin a) (.fin b) = .fin (rnd (a - b)) := fun a b h => hov _ h
  have hmul : ∀ a b : ℚ, |rnd (a * b)| < Ω → (ieeeOf rnd pw ov).mul (.fin a) (.fin b) = .fin (rnd (a * b)) := fun a b h => hov _ h
  have hpow : ∀ (a : ℚ) (i : Nat), |pw a i| < Ω → (ieeeOf rnd pw ov).pow (.fin a) i = .fin (pw a i) := fun a i h => hov _ h
  have hneg : (ieeeOf rnd pw ov).neg (.fin d) = .fin (-d) := rfl
  unfold decayV
  rw [h1, hsub _ _ F.c1, hneg, hpow _ _ F.c2, hmul _ _ F.c3, hpow _ _ F.c4, hmul _ _ F.c5, hadd _ _ F.c6, hpow _ _ F.c7, hmul _ _ F.c8,
    hS k hk le_rfl, hmul _ _ F.c9, hadd _ _ (F.part 0 (by omega)), hmul _ _ F.v]
  rw [foldV_fin hov (f := fun i => rnd (rnd (rnd (FP.coefV (Arith.rounded rnd pw) k i * pw (rnd (d * δ)) i) * rnd (1 - d)) * s (k - i)))]
  · simp only [Arith.rounded, Int.cast_one, R.one]
  · intro j a b
    obtain ⟨t1, t2, t3, t4, t5⟩ := F.term j a (by omega)
    rw [coefV_fin hov t1, hpow _ _ t2, hmul _ _ t3, hmul _ _ t4, hS _ (by omega) (by omega), hmul _ _ t5]
  · exact F.part

theorem map_snoc {xs : List (XF ℚ)} {x : XF ℚ} {ys : List ℚ} (h : xs ++ [x] = ys.map XF.fin) :
    ∃ xs0 x0, ys = xs0 ++ [x0] ∧ xs = xs0.map XF.fin ∧ x = .fin x0 := by
  obtain ⟨a, b, rfl, h1, h2⟩ := List.append_eq_map_iff.1 h
  match b, h2 with
  | [b], h2 => exact ⟨a, b, rfl, h1.symm, by simpa using h2.symm⟩
  | [], h2 => simp at h2
  | _ :: _ :: _, h2 => simp at h2

theorem rnd_le (hE : Accuracy rnd u t) (hu1 : u ≤ 1 / 4096) {q B : ℚ} (hq : |q| ≤ B) (ht : t ≤ B / 2) : |rnd q| ≤ 2 * B := by
  have h1 := hE q
  have h2 := abs_add_le (rnd q - q) q
  rw [sub_add_cancel] at h2
  have h3 := mul_le_mul_of_nonneg_right hu1 (abs_nonneg q)
  linarith [abs_nonneg q]

/-- The step of the mean in IEEE arithmetic. -/
theorem mean_fin (hE : Accuracy rnd u t) {N : Nat} (hN : ∀ n : Nat, n ≤ N → rnd n = n) {M : ℚ} (hu1 : u ≤ 1 / 4096) (ht : t ≤ M / 2)
    (hov : ∀ q, |q| < Ω → ov q = .fin q) (hΩM : 20 * M < Ω) (hΩN : N < Ω) {n : Nat} (hn1 : 1 ≤ n) (hnN : n ≤ N) {x m : ℚ} (hx : |x| ≤ M)
    (hm : |m| ≤ 4 * M) :
    (ieeeOf rnd pw ov).sub (.fin x) (.fin m) = .fin (rnd (x - m)) ∧ (ieeeOf rnd pw ov).ofInt (n : Int) = .fin (n : ℚ) ∧
    (Arith.rounded rnd pw).ofInt (n : Int) = (n : ℚ) ∧
    (ieeeOf rnd pw ov).div (.fin (rnd (x - m))) (.fin (n : ℚ)) = .fin (rnd (rnd (x - m) / n)) := by
  have hM0 : 0 ≤ M := (abs_nonneg x).trans hx
  have hn1' : (1 : ℚ) ≤ n := by exact_mod_cast hn1
  have hnN' : (n : ℚ) ≤ N := by exact_mod_cast hnN
  have hδb : |rnd (x - m)| ≤ 10 * M := by
    have := rnd_le hE hu1 (q := x - m) (B := 5 * M) ((abs_sub _ _).trans (by linarith)) (by linarith)
    linarith
  have hqb : |rnd (rnd (x - m) / n)| ≤ 20 * M := by
    have := rnd_le hE hu1 (q := rnd (x - m) / n) (B := 10 * M) (by
      rw [abs_div, abs_of_pos (show (0 : ℚ) < n by linarith)]
      exact (div_le_self (abs_nonneg _) hn1').trans hδb) (by linarith)
    linarith
  refine ⟨hov _ (by linarith), ?_, ?_, ?_⟩
  · show ov (rnd (((n : Int)) : ℚ)) = _
    rw [Int.cast_natCast, hN _ hnN]
    exact hov _ (by rw [abs_of_nonneg (by linarith)]; linarith)
  · show rnd (((n : Int)) : ℚ) = _
    rw [Int.cast_natCast, hN _ hnN]
  · simp only [Arith.ieee]
    rw [if_neg (by linarith), hov _ (by linarith)]

/-- The mean of a core without eviction in IEEE arithmetic. -/
theorem track_mean_fin (R : Rounding rnd) (hE : Accuracy rnd u t) (hu : 0 ≤ u) (ht0 : 0 ≤ t) {N : Nat} (hN : ∀ n : Nat, n ≤ N → rnd n = n)
    {M : ℚ} (hu1 : u ≤ 1 / 4096) (ht : t ≤ M / 2) (hM : rnd M = M)
    (hov : ∀ q, |q| < Ω → ov q = .fin q) (hΩM : 20 * M < Ω) (hΩN : N < Ω) (len : Nat) :
    Track (ieeeOf rnd pw ov) 0 none len
      (fun xs m _ => ∀ xs0 : List ℚ, xs = xs0.map XF.fin → xs0.length ≤ N → (∀ x ∈ xs0, rnd x = x ∧ |x| ≤ M) → ∃ m0 : ℚ, m = .fin m0 ∧
        (xs0 = [] → m0 = 0) ∧ |m0| ≤ M ∧ xs0.length * |m0 - Spec.mean xs0| ≤ meanErr u t M xs0.length)
      (fun xs m _ => ∀ xs0 : List ℚ, xs = xs0.map XF.fin → xs0.length ≤ N → (∀ x ∈ xs0, rnd x = x ∧ |x| ≤ M) → ∃ m0 : ℚ, m = .fin m0 ∧
        (xs0 = [] → m0 = 0) ∧ |m0| ≤ M ∧ xs0.length * |m0 - Spec.mean xs0| ≤ meanErr u t M xs0.length) where
  zero := fun xs0 h _ _ => by
    have h0 : (ieeeOf rnd pw ov).ofInt 0 = .fin 0 := by
      show ov (rnd ((0 : Int) : ℚ)) = _
      rw [Int.cast_zero, R.zero]
      exact hov 0 (by simp; linarith)
    obtain rfl : xs0 = [] := by simpa using h.symm
    exact ⟨0, h0, by simp [meanErr]; linarith⟩
  room := fun _ _ _ _ h => h
  evict1 := fun _ _ _ h => absurd h (by norm_num)
  evict := fun _ _ _ _ _ _ _ _ h => absurd h (by omega)
  decay := fun _ h => absurd h (by simp)
  add := fun _ xs x m s m' s' hI hr ys hys hlN hxs => by
    obtain ⟨xs0, x0, rfl, rfl, rfl⟩ := map_snoc hys
    have hx1 : ∀ y ∈ xs0, rnd y = y ∧ |y| ≤ M := fun y hy => hxs y (by simp [hy])
    rw [List.length_append, List.length_singleton] at hlN
    obtain ⟨m0, rfl, hI1⟩ := hI xs0 rfl (by omega) hx1
    have hl : (lastN 0 (List.map XF.fin xs0 ++ [XF.fin x0])).length = xs0.length + 1 := by rw [lastN_zero]; simp
    obtain ⟨hδ, hof, hofR, hq⟩ := mean_fin (pw := pw) hE hN hu1 ht hov hΩM hΩN (n := xs0.length + 1) (by omega) hlN (hxs x0 (by simp)).2
      (hI1.2.1.trans (by linarith))
    have hmean := (track_mean_err (pw := pw) R hE hu ht0 hN hM (by linarith) len).add rfl xs0 x0 m0 (fun _ => 0) _ _ (fun _ _ => hI1)
      (by rw [lastN_zero, List.length_append, List.length_singleton]; exact ⟨rfl, fun j => rfl⟩) (by simpa using hlN) hxs
    refine ⟨rnd (m0 + rnd (rnd (x0 - m0) / ((xs0.length + 1 : Nat) : ℚ))), ?_, ?_⟩
    · rw [hr.1, hl, hδ, hof, hq]
      refine hov _ ?_
      have := hmean.2.1
      rw [hofR] at this
      exact lt_of_le_of_lt this (by linarith)
    · rw [hofR] at hmean
      exact hmean

/-- The mean of a core with any window in IEEE arithmetic. -/
theorem track_drift_fin (R : Rounding rnd) (hE : Accuracy rnd u t) (hu : 0 ≤ u) (ht0 : 0 ≤ t) {N : Nat} (hN : ∀ n : Nat, n ≤ N → rnd n = n)
    {M : ℚ} (hu1 : u ≤ 1 / 4096) (ht : t ≤ M / 2) (hNM : N * (48 * (u * M) + 8 * t) ≤ M)
    (hov : ∀ q, |q| < Ω → ov q = .fin q) (hΩM : 20 * M < Ω) (hΩN : N < Ω) (w len : Nat) :
    Track (ieeeOf rnd pw ov) w none len
      (fun xs m _ => ∀ xs0 : List ℚ, xs = xs0.map XF.fin → xs0.length ≤ N → (∀ x ∈ xs0, rnd x = x ∧ |x| ≤ M) → ∃ m0 : ℚ, m = .fin m0 ∧
        (xs0 = [] → m0 = 0) ∧ |m0 - Spec.mean (lastN w xs0)| ≤ xs0.length * (48 * (u * M) + 8 * t))
      (fun xs m _ => ∀ xs0 : List ℚ, xs = xs0.map XF.fin → xs0.length < N → (∀ x ∈ xs0, rnd x = x ∧ |x| ≤ M) → ∃ m0 : ℚ, m = .fin m0 ∧
        ∃ ws, (∀ x, lastN w (xs0 ++ [x]) = ws ++ [x]) ∧ (ws = [] → m0 = 0) ∧ |m0| ≤ 4 * M ∧
        ws.length * |m0 - Spec.mean ws| ≤ (ws.length + 1) * (xs0.length * (48 * (u * M) + 8 * t)) + ws.length * (16 * (u * M) + 4 * t)) := by
  have hM0 : 0 ≤ M := by linarith
  have T := track_drift (pw := pw) R hE hu (hu1.trans (by norm_num)) ht0 hN hM0 hNM w 0
  have hz : (ieeeOf rnd pw ov).ofInt 0 = .fin 0 := by
    show ov (rnd ((0 : Int) : ℚ)) = _
    rw [Int.cast_zero, R.zero]
    exact hov 0 (by simp; linarith)
  have hzR : (Arith.rounded rnd pw).ofInt 0 = 0 := by
    show rnd ((0 : Int) : ℚ) = _
    rw [Int.cast_zero, R.zero]
  have hmap : ∀ xs0 : List ℚ, lastN w (xs0.map XF.fin) = (lastN w xs0).map XF.fin := by
    intro xs0
    unfold lastN
    split_ifs <;> simp [List.map_drop]
  have hlast : ∀ (xs : List ℚ), ∀ z ∈ lastN w xs, z ∈ xs := by
    intro xs z hz
    unfold lastN at hz
    split_ifs at hz
    · exact hz
    · exact List.mem_of_mem_drop hz
  have hbound : ∀ (xs0 : List ℚ) (m0 : ℚ), xs0.length ≤ N → (∀ x ∈ xs0, rnd x = x ∧ |x| ≤ M) →
      |m0 - Spec.mean (lastN w xs0)| ≤ xs0.length * (48 * (u * M) + 8 * t) → |m0| ≤ 2 * M := by
    intro xs0 m0 hl hxs h
    have h1 := abs_mean_le hM0 (xs := lastN w xs0) (fun x hx => (hxs x (hlast _ x hx)).2)
    have h2 := abs_add_le (m0 - Spec.mean (lastN w xs0)) (Spec.mean (lastN w xs0))
    rw [sub_add_cancel] at h2
    have h3 : (xs0.length : ℚ) * (48 * (u * M) + 8 * t) ≤ M := by
      refine le_trans (mul_le_mul_of_nonneg_right ?_ (by positivity)) hNM
      exact_mod_cast hl
    linarith
  refine ⟨?_, ?_, ?_, ?_, ?_, fun _ h => absurd h (by simp)⟩
  · intro xs0 h _ _
    obtain rfl : xs0 = [] := by simpa using h.symm
    exact ⟨0, hz, by simp [Spec.mean, lastN]⟩
  · rintro xs m s hr hI xs0 rfl hlN hxs
    obtain ⟨m0, rfl, hI1⟩ := hI xs0 rfl hlN.le hxs
    exact ⟨m0, rfl, T.room xs0 m0 (fun _ => 0) (by rw [hmap, List.length_map] at hr; exact hr) (fun _ _ => hI1) hlN hxs⟩
  · rintro xs m s hw hne hI xs0 rfl hlN hxs
    obtain ⟨m0, rfl, hI1⟩ := hI xs0 rfl hlN.le hxs
    have := T.evict1 xs0 m0 (fun _ => 0) hw (by rintro rfl; exact hne rfl) (fun _ _ => hI1) hlN hxs
    rw [hzR] at this
    exact ⟨0, hz, this⟩
  · rintro xs y ys m s m' s' hl hw hys hI hr xs0 rfl hlN hxs
    obtain ⟨m0, rfl, hI1⟩ := hI xs0 rfl hlN.le hxs
    rw [hmap] at hl
    obtain ⟨y0, ys0, hl0, rfl, rfl⟩ := List.map_eq_cons_iff.1 hl
    rw [List.length_map] at hw hr
    have hpos : 1 ≤ ys0.length := by
      rcases ys0 with _ | _
      · exact absurd rfl hys
      · simp
    have hlx : ys0.length + 1 ≤ xs0.length := by
      have h1 := congrArg List.length hl0
      rw [lastN_length, if_neg (by omega)] at h1
      simp at h1
      omega
    obtain ⟨hδ, hof, hofR, hq⟩ := mean_fin (pw := pw) hE hN hu1 ht hov hΩM hΩN (n := ys0.length) hpos (by omega)
      (hxs y0 (hlast _ _ (by rw [hl0]; simp))).2 ((hbound xs0 m0 hlN.le hxs hI1.2).trans (by linarith))
    obtain ⟨ws, h1, h2, h3, h4⟩ := T.evict xs0 y0 ys0 m0 (fun _ => 0) _ (fun _ => 0) hl0 hw (by rintro rfl; simp at hpos) (fun _ _ => hI1)
      ⟨rfl, fun j => (if_neg (by omega)).symm⟩ hlN hxs
    rw [hofR] at h2 h3 h4
    refine ⟨rnd (m0 - rnd (rnd (y0 - m0) / (ys0.length : ℚ))), ?_, ws, h1, h2, h3, h4⟩
    rw [hr.1, hδ, hof, hq]
    exact hov _ (lt_of_le_of_lt h3 (by linarith))
  · intro hd xs x m s m' s' hI hr ys hys hlN hxs
    obtain ⟨xs0, x0, rfl, rfl, rfl⟩ := map_snoc hys
    have hx1 : ∀ y ∈ xs0, rnd y = y ∧ |y| ≤ M := fun y hy => hxs y (by simp [hy])
    have hlN' : xs0.length < N := by simpa using hlN
    obtain ⟨m0, rfl, hI1⟩ := hI xs0 rfl hlN' hx1
    obtain ⟨ws, hws, -, hm4, -⟩ := id hI1
    have hl : (lastN w (xs0 ++ [x0])).length = ws.length + 1 := by rw [hws]; simp
    have hwl : ws.length + 1 ≤ N := by
      have h2 := lastN_length w (xs0 ++ [x0])
      rw [hl] at h2
      simp at h2
      split_ifs at h2 <;> omega
    obtain ⟨hδ, hof, hofR, hq⟩ := mean_fin (pw := pw) hE hN hu1 ht hov hΩM hΩN (n := ws.length + 1) (by omega) hwl (hxs x0 (by simp)).2 hm4
    have hmean := T.add rfl xs0 x0 m0 (fun _ => 0) _ _ (fun _ _ => hI1) ⟨rfl, fun j => rfl⟩ hlN hxs
    rw [hl, hofR] at hmean
    refine ⟨rnd (m0 + rnd (rnd (x0 - m0) / ((ws.length + 1 : Nat) : ℚ))), ?_, hmean⟩
    rw [← List.map_singleton, ← List.map_append, hmap, List.length_map, hl] at hr
    rw [hr.1, hδ, hof, hq]
    exact hov _ (lt_of_le_of_lt (hbound _ _ hlN hxs hmean.2) (by linarith))

/-- The power sums of a core without eviction in IEEE arithmetic. They are those of the rounded arithmetic, so whatever `J` holds there holds here. -/
theorem track_high_fin (R : Rounding rnd) (hE : Accuracy rnd u t) {N k : Nat} (hN : ∀ n : Nat, n ≤ N → rnd n = n) {M : ℚ} (S : Tiny u t M N k)
    (P : PowAcc pw u t) (hk2 : 2 ≤ k) (hk : k ≤ 20) (hsm : errC k * (N * u) ≤ 2 ^ k) (hM : rnd M = M)
    (hov : ∀ q, |q| < Ω → ov q = .fin q) (hΩ1 : 2 * (N : ℚ) ^ k < Ω) (hΩ2 : 8 * 2 ^ k * (N * (1 + (2 * M) ^ k)) < Ω) (hΩ0 : 1 < Ω) (len : Nat)
    {J J' : List ℚ → ℚ → (Nat → ℚ) → Prop} (TR : Track (Arith.rounded rnd pw) 0 none len J J') :
    Track (ieeeOf rnd pw ov) 0 none len
      (fun xs m s => ∀ xs0 : List ℚ, xs = xs0.map XF.fin → xs0.length ≤ N → (∀ x ∈ xs0, rnd x = x ∧ |x| ≤ M) → ∃ (m0 : ℚ) (s0 : Nat → ℚ), m = .fin m0 ∧
        (∀ j, 2 ≤ j → j ≤ k → j < len → s j = .fin (s0 j)) ∧
        ((xs0 = [] → m0 = 0) ∧ |m0| ≤ M ∧ xs0.length * |m0 - Spec.mean xs0| ≤ meanErr u t M xs0.length) ∧
        (∀ j, 2 ≤ j → j ≤ k → j < len → |s0 j - csum j xs0| ≤ errC j * ((xs0.length : ℚ) * xs0.length * u) * M ^ j) ∧ J xs0 m0 s0)
      (fun xs m s => ∀ xs0 : List ℚ, xs = xs0.map XF.fin → xs0.length ≤ N → (∀ x ∈ xs0, rnd x = x ∧ |x| ≤ M) → ∃ (m0 : ℚ) (s0 : Nat → ℚ), m = .fin m0 ∧
        (∀ j, 2 ≤ j → j ≤ k → j < len → s j = .fin (s0 j)) ∧
        ((xs0 = [] → m0 = 0) ∧ |m0| ≤ M ∧ xs0.length * |m0 - Spec.mean xs0| ≤ meanErr u t M xs0.length) ∧
        (∀ j, 2 ≤ j → j ≤ k → j < len → |s0 j - csum j xs0| ≤ errC j * ((xs0.length : ℚ) * xs0.length * u) * M ^ j) ∧ J xs0 m0 s0) where
  zero := fun xs0 h _ _ => by
    have h0 : (ieeeOf rnd pw ov).ofInt 0 = .fin 0 := by
      show ov (rnd ((0 : Int) : ℚ)) = _
      rw [Int.cast_zero, R.zero]
      exact hov 0 (by simp; linarith)
    obtain rfl : xs0 = [] := by simpa using h.symm
    exact ⟨0, fun _ => 0, h0, fun _ _ _ _ => h0, by simp [S.M0, meanErr], fun j _ _ _ => by simp [csum], by
      have := TR.zero
      simpa only [Arith.rounded, Int.cast_zero, R.zero] using this⟩
  room := fun _ _ _ _ h => h
  evict1 := fun _ _ _ h => absurd h (by norm_num)
  evict := fun _ _ _ _ _ _ _ _ h => absurd h (by omega)
  decay := fun _ h => absurd h (by simp)
  add := fun _ xs x m s m' s' hI hr ys hys hlN hxs => by
    obtain ⟨xs0, x0, rfl, rfl, rfl⟩ := map_snoc hys
    have hx1 : ∀ y ∈ xs0, rnd y = y ∧ |y| ≤ M := fun y hy => hxs y (by simp [hy])
    rw [List.length_append, List.length_singleton] at hlN
    obtain ⟨m0, s0, rfl, hs, hI1, hI2, hJ⟩ := hI xs0 rfl (by omega) hx1
    have hl : (lastN 0 (List.map XF.fin xs0 ++ [XF.fin x0])).length = xs0.length + 1 := by rw [lastN_zero]; simp
    have hM0 := S.M0
    have hu1 := S.u1
    have hn1 : (1 : ℚ) ≤ ((xs0.length + 1 : Nat) : ℚ) := by exact_mod_cast (show 1 ≤ xs0.length + 1 by omega)
    have hnN : ((xs0.length + 1 : Nat) : ℚ) ≤ N := by exact_mod_cast hlN
    have hN1 : (1 : ℚ) ≤ N := hn1.trans hnN
    have hpk : 0 ≤ (2 * M) ^ k := by positivity
    set Y := 1 + (2 * M) ^ k with hY
    have hNY : Y ≤ N * Y := le_mul_of_one_le_left (by linarith) hN1
    have h2NY : 4 * (N * Y) ≤ 2 ^ k * (N * Y) := by
      refine mul_le_mul_of_nonneg_right ?_ (by linarith)
      calc (4 : ℚ) = 2 ^ 2 := by norm_num
        _ ≤ 2 ^ k := pow_le_pow_right₀ (by norm_num) hk2
    have hMY : 2 * M ≤ Y := by simpa using pow_le_one_add (show 0 ≤ 2 * M by linarith) (show 1 ≤ k by omega)
    have hNk : (N : ℚ) ≤ N ^ k := le_self_pow₀ hN1 (by omega)
    have ht : t ≤ M / 2 := by
      have h1 := mul_le_mul_of_nonneg_right hu1 hM0
      have h2 := mul_le_mul_of_nonneg_left h1 S.u0
      have h3 := mul_le_mul_of_nonneg_right hu1 (show 0 ≤ 1 / 4096 * M by positivity)
      linarith [S.tM]
    obtain ⟨hδ, hof, hofR, hq⟩ := mean_fin (pw := pw) hE hN hu1 ht hov (by linarith) (by linarith) (n := xs0.length + 1) (by omega) hlN
      (hxs x0 (by simp)).2 (hI1.2.1.trans (by linarith))
    -- the step of the rounded core
    set m1 := rnd (m0 + rnd (rnd (x0 - m0) / ((xs0.length + 1 : Nat) : ℚ))) with hm1
    set s1 := fun j => if 2 ≤ j ∧ j < len then addV (Arith.rounded rnd pw) ((xs0.length + 1 : Nat) : ℚ) (rnd (x0 - m0)) s0 j else s0 j with hs1
    have hstepR : AddStep (Arith.rounded rnd pw) len (lastN 0 (xs0 ++ [x0])).length x0 m0 s0 m1 s1 := by
      rw [lastN_zero, List.length_append, List.length_singleton]
      refine ⟨by rw [hofR]; rfl, fun j => by rw [hofR]; rfl⟩
    have hmean := (track_mean_err (pw := pw) R hE S.u0 S.t0 hN hM S.M0 len).add rfl xs0 x0 m0 s0 m1 s1 (fun _ _ => hI1) hstepR
      (by simpa using hlN) hxs
    have hm' : m' = .fin m1 := by
      rw [hr.1, hl, hδ, hof, hq]
      refine hov _ ?_
      rw [← hm1]
      linarith [hmean.2.1]
    have hst := fun j hj hjk hjl => high_step R hE hN S P hk hsm (len := len) hlN hxs hI1 hI2 (j := j) hj hjk hjl
    refine ⟨m1, s1, hm', fun j hj hjk hjl => ?_, hmean, fun j hj hjk hjl => ?_, TR.add rfl xs0 x0 m0 s0 m1 s1 (TR.room _ _ _ (.inl rfl) hJ) hstepR⟩
    · have h2 := hr.2 j
      rw [if_pos ⟨hj, hjl⟩, hl, hδ, hof] at h2
      rw [h2, hs1]
      simp only [if_pos (show 2 ≤ j ∧ j < len from ⟨hj, hjl⟩)]
      refine addV_fin R hov hΩ0 hj (fun i h3 h4 => hs i h3 (by omega) (by omega)) ((hst j hj hjk hjl).2 Ω ?_ ?_)
      · have h3 : ((xs0.length + 1 : Nat) : ℚ) ^ j ≤ N ^ k := by
          calc ((xs0.length + 1 : Nat) : ℚ) ^ j ≤ N ^ j := pow_le_pow_left₀ (by linarith) hnN _
            _ ≤ N ^ k := pow_le_pow_right₀ hN1 hjk
        linarith
      · have h3 : (2 : ℚ) ^ j ≤ 2 ^ k := pow_le_pow_right₀ (by norm_num) hjk
        have h4 := pow_le_one_add (show 0 ≤ 2 * M by linarith) hjk
        have h5 : ((xs0.length + 1 : Nat) : ℚ) * (1 + (2 * M) ^ j) ≤ N * (2 * Y) := mul_le_mul hnN (by linarith) (by positivity) (by linarith)
        have h6 := mul_le_mul h3 h5 (by positivity) (by positivity)
        linarith
    · simp only [hs1, if_pos (show 2 ≤ j ∧ j < len from ⟨hj, hjl⟩)]
      exact (hst j hj hjk hjl).1

/-- The exponentially weighted power sums in IEEE arithmetic. -/
theorem track_high_ew_fin (R : Rounding rnd) (hE : Accuracy rnd u t) {k : Nat} {M : ℚ} (S : Tiny u t M 1 k)
    (P : PowAcc pw u t) (hk2 : 2 ≤ k) (hk : k ≤ 20) {d : ℚ} (hd : rnd d = d) (hd0 : 0 < d) (hd1 : d < 1) (hsm : errC k * (u / d) ≤ 2 ^ k)
    (hM : rnd M = M) (hov : ∀ q, |q| < Ω → ov q = .fin q) (hΩ2 : 8 * 2 ^ k * (1 + (2 * M) ^ k) < Ω) (hΩ0 : 1 < Ω) (len : Nat) :
    Track (ieeeOf rnd pw ov) 0 (some (.fin d)) len
      (fun xs m s => ∀ xs0 : List ℚ, xs = xs0.map XF.fin → (∀ x ∈ xs0, rnd x = x ∧ |x| ≤ M) → ∃ (m0 : ℚ) (s0 : Nat → ℚ), m = .fin m0 ∧
        (∀ j, 2 ≤ j → j ≤ k → j < len → s j = .fin (s0 j)) ∧
        (rnd m0 = m0 ∧ (xs0 = [] → m0 = 0) ∧ |m0| ≤ M ∧
          d * |m0 - ewMean d xs0| ≤ u * M + 2 * t + d * (4 * (u * M) + 2 * (u * u * M) + u * t + t)) ∧
        (∀ j, 2 ≤ j → j ≤ k → j < len → |s0 j - ewMoment d j xs0| ≤ errC j * ((if xs0 = [] then 0 else 1 / d) * u) * M ^ j))
      (fun xs m s => ∀ xs0 : List ℚ, xs = xs0.map XF.fin → (∀ x ∈ xs0, rnd x = x ∧ |x| ≤ M) → ∃ (m0 : ℚ) (s0 : Nat → ℚ), m = .fin m0 ∧
        (∀ j, 2 ≤ j → j ≤ k → j < len → s j = .fin (s0 j)) ∧
        (rnd m0 = m0 ∧ (xs0 = [] → m0 = 0) ∧ |m0| ≤ M ∧
          d * |m0 - ewMean d xs0| ≤ u * M + 2 * t + d * (4 * (u * M) + 2 * (u * u * M) + u * t + t)) ∧
        (∀ j, 2 ≤ j → j ≤ k → j < len → |s0 j - ewMoment d j xs0| ≤ errC j * ((if xs0 = [] then 0 else 1 / d) * u) * M ^ j)) where
  zero := fun xs0 h _ => by
    have h0 : (ieeeOf rnd pw ov).ofInt 0 = .fin 0 := by
      show ov (rnd ((0 : Int) : ℚ)) = _
      rw [Int.cast_zero, R.zero]
      exact hov 0 (by simp; linarith)
    obtain rfl : xs0 = [] := by simpa using h.symm
    have hz := (track_ew_err (pw := pw) R hE S.u0 S.t0 hd hd0 hd1 hM S.M0 len).zero (by simp)
    have hR0 : (Arith.rounded rnd pw).ofInt 0 = 0 := by
      show rnd ((0 : Int) : ℚ) = 0
      rw [Int.cast_zero, R.zero]
    rw [hR0] at hz
    exact ⟨0, fun _ => 0, h0, fun _ _ _ _ => h0, hz, fun j _ _ _ => by simp [ewMoment, ewTotal]⟩
  room := fun _ _ _ _ h => h
  evict1 := fun _ _ _ h => absurd h (by norm_num)
  evict := fun _ _ _ _ _ _ _ _ h => absurd h (by omega)
  add := fun h => absurd h (by simp)
  decay := fun dd hdd xs x m s m' s' hI hr ys hys hxs => by
    obtain rfl : dd = .fin d := by simpa using hdd.symm
    obtain ⟨xs0, x0, rfl, rfl, rfl⟩ := map_snoc hys
    have hx1 : ∀ y ∈ xs0, rnd y = y ∧ |y| ≤ M := fun y hy => hxs y (by simp [hy])
    obtain ⟨m0, s0, rfl, hs, hI1, hI2⟩ := hI xs0 rfl hx1
    have hM0 := S.M0
    have hu1 := S.u1
    have hpk : 0 ≤ (2 * M) ^ k := by positivity
    set Y := 1 + (2 * M) ^ k with hY
    have h2NY : 4 * Y ≤ 2 ^ k * Y := by
      refine mul_le_mul_of_nonneg_right ?_ (by linarith)
      calc (4 : ℚ) = 2 ^ 2 := by norm_num
        _ ≤ 2 ^ k := pow_le_pow_right₀ (by norm_num) hk2
    have hMY : 2 * M ≤ Y := by simpa using pow_le_one_add (show 0 ≤ 2 * M by linarith) (show 1 ≤ k by omega)
    have ht : t ≤ M / 2 := by
      have h1 := mul_le_mul_of_nonneg_right hu1 hM0
      have h2 := mul_le_mul_of_nonneg_left h1 S.u0
      have h3 := mul_le_mul_of_nonneg_right hu1 (show 0 ≤ 1 / 4096 * M by positivity)
      linarith [S.tM]
    have hx0 := (hxs x0 (by simp)).2
    have hδb : |rnd (x0 - m0)| ≤ 4 * M := by
      have := rnd_le hE hu1 (q := x0 - m0) (B := 2 * M) ((abs_sub _ _).trans (by linarith [hI1.2.2.1])) (by linarith)
      linarith
    have hδ : (ieeeOf rnd pw ov).sub (.fin x0) (.fin m0) = .fin (rnd (x0 - m0)) := hov _ (by linarith)
    set d' := if xs0 = [] then 1 else d with hd'
    have hd'0 : 0 ≤ d' := by rw [hd']; split <;> linarith
    have hd'1 : d' ≤ 1 := by rw [hd']; split <;> linarith
    have hone : (ieeeOf rnd pw ov).ofInt 1 = .fin 1 := by
      show ov (rnd ((1 : Int) : ℚ)) = _
      rw [Int.cast_one, R.one]
      exact hov 1 (by simpa using hΩ0)
    have honeR : (Arith.rounded rnd pw).ofInt 1 = 1 := by
      show rnd ((1 : Int) : ℚ) = 1
      rw [Int.cast_one]; exact R.one
    have hif : (if (lastN 0 (List.map XF.fin xs0 ++ [XF.fin x0])).length = 1 then (ieeeOf rnd pw ov).ofInt 1 else .fin d) = .fin d' := by
      rw [lastN_zero, hone, hd']
      by_cases hnil : xs0 = []
      · subst hnil; simp
      · have := List.length_pos_iff.2 hnil
        rw [if_neg hnil, if_neg (by simp; omega)]
    have hifR : (if (lastN 0 (xs0 ++ [x0])).length = 1 then (Arith.rounded rnd pw).ofInt 1 else d) = d' := by
      rw [lastN_zero, honeR, hd']
      by_cases hnil : xs0 = []
      · subst hnil; simp
      · have := List.length_pos_iff.2 hnil
        rw [if_neg hnil, if_neg (by simp; omega)]
    have hqb : |rnd (d' * rnd (x0 - m0))| ≤ 8 * M := by
      have := rnd_le hE hu1 (q := d' * rnd (x0 - m0)) (B := 4 * M) (by
        rw [abs_mul, abs_of_nonneg hd'0]
        exact (mul_le_of_le_one_left (abs_nonneg _) hd'1).trans hδb) (by linarith)
      linarith
    have hq : (ieeeOf rnd pw ov).mul (.fin d') (.fin (rnd (x0 - m0))) = .fin (rnd (d' * rnd (x0 - m0))) := hov _ (by linarith)
    set m1 := rnd (m0 + rnd (d' * rnd (x0 - m0))) with hm1
    set s1 := fun j => if 2 ≤ j ∧ j < len then decayV (Arith.rounded rnd pw) d' (rnd (x0 - m0)) s0 j else s0 j with hs1
    have hstepR : DecayStep (Arith.rounded rnd pw) len (if (lastN 0 (xs0 ++ [x0])).length = 1 then (Arith.rounded rnd pw).ofInt 1 else d)
        x0 m0 s0 m1 s1 := by
      rw [hifR]
      exact ⟨rfl, fun j => rfl⟩
    have hmean := (track_ew_err (pw := pw) R hE S.u0 S.t0 hd hd0 hd1 hM S.M0 len).decay d rfl xs0 x0 m0 s0 m1 s1 (fun _ => hI1) hstepR hxs
    have hm' : m' = .fin m1 := by
      rw [hr.1, hif, hδ, hq]
      refine hov _ ?_
      rw [← hm1]
      linarith [hmean.2.2.1]
    have hst := fun j hj hjk hjl => high_ew_step R hE S P hk2 hk hd0 hd1 hsm (len := len) hxs hI1.2 hI2 (j := j) hj hjk hjl
    refine ⟨m1, s1, hm', fun j hj hjk hjl => ?_, hmean, fun j hj hjk hjl => ?_⟩
    · have h2 := hr.2 j
      rw [if_pos ⟨hj, hjl⟩, hif, hδ] at h2
      rw [h2, hs1]
      simp only [if_pos (show 2 ≤ j ∧ j < len from ⟨hj, hjl⟩)]
      refine decayV_fin R hov hΩ0 hj (fun i h3 h4 => hs i h3 (by omega) (by omega)) ((hst j hj hjk hjl).2 Ω ?_)
      have h3 : (2 : ℚ) ^ j ≤ 2 ^ k := pow_le_pow_right₀ (by norm_num) hjk
      have h4 := pow_le_one_add (show 0 ≤ 2 * M by linarith) hjk
      have h6 := mul_le_mul h3 (show 1 + (2 * M) ^ j ≤ 2 * Y by linarith) (by positivity) (by positivity)
      linarith
    · simp only [hs1, if_pos (show 2 ≤ j ∧ j < len from ⟨hj, hjl⟩)]
      exact (hst j hj hjk hjl).1

/-- The intermediate results of the update of the second power sum. -/
theorem sq_fits (hE : Accuracy rnd u t) {N : Nat} {M : ℚ} (S : Small u t M N) (P : PowSq pw u t N) {n : Nat} (hn1 : 1 ≤ n) (hnN : n ≤ N) {δ : ℚ}
    (hδ : |δ| ≤ 10 * M) :
    pw n 2 ≠ 0 ∧ |pw n 2| ≤ 2 * (N * N) ∧ |rnd (((n : ℚ) - 1) / pw n 2)| ≤ 3 ∧ |rnd (rnd (((n : ℚ) - 1) / pw n 2) * n)| ≤ 2 ∧
    |pw δ 2| ≤ 200 * (M * M) ∧ |rnd (rnd (rnd (((n : ℚ) - 1) / pw n 2) * n) * pw δ 2)| ≤ 900 * (M * M) := by
  obtain ⟨hu, ht, hu1, hNu, hM, htu, htM, htMM⟩ := S
  have hn : (1 : ℚ) ≤ n := by exact_mod_cast hn1
  have hnN' : (n : ℚ) ≤ N := by exact_mod_cast hnN
  have hN1 : (1 : ℚ) ≤ N := hn.trans hnN'
  have hMM : 0 ≤ M * M := mul_nonneg hM hM
  have huu : u * u ≤ 1 / 1024 * (1 / 1024) := mul_le_mul hu1 hu1 hu (by norm_num)
  have hnn : (1 : ℚ) ≤ (n : ℚ) * n := by nlinarith
  have hnnN : (n : ℚ) * n ≤ N * N := mul_le_mul hnN' hnN' (by linarith) (by linarith)
  have hp := abs_le.1 (P.two (n : ℚ))
  have hun := mul_le_mul_of_nonneg_right hu1 (show (0 : ℚ) ≤ (n : ℚ) * n by linarith)
  have hpl : (n : ℚ) * n / 2 ≤ pw n 2 := by linarith
  have hp0 : 0 < pw n 2 := by linarith
  have hr1 : |rnd (((n : ℚ) - 1) / pw n 2)| ≤ 3 := by
    have h1 : |((n : ℚ) - 1) / pw n 2| ≤ 2 := by
      rw [abs_div, abs_of_nonneg (by linarith : (0 : ℚ) ≤ n - 1), abs_of_pos hp0, div_le_iff₀ hp0]
      nlinarith
    have h2 := hE (((n : ℚ) - 1) / pw n 2)
    have h3 := abs_add_le (rnd (((n : ℚ) - 1) / pw n 2) - ((n : ℚ) - 1) / pw n 2) (((n : ℚ) - 1) / pw n 2)
    rw [sub_add_cancel] at h3
    have h4 := mul_le_mul hu1 h1 (abs_nonneg _) (by norm_num)
    linarith
  have hr2 : |rnd (rnd (((n : ℚ) - 1) / pw n 2) * n)| ≤ 2 := by
    rcases Nat.lt_or_ge n 2 with h | h
    · obtain rfl : n = 1 := by omega
      have h0 : ∀ q : ℚ, q = 0 → |rnd q| ≤ 1 / 1024 := fun q hq => by
        have := hE q
        rw [hq, abs_zero, mul_zero, zero_add, sub_zero] at this
        rw [hq]; linarith
      have h1 := h0 (((1 : Nat) : ℚ) - 1) (by norm_num)
      have h2 := h0 ((((1 : Nat) : ℚ) - 1) / pw ((1 : Nat) : ℚ) 2) (by norm_num)
      have h3 := hE (rnd ((((1 : Nat) : ℚ) - 1) / pw ((1 : Nat) : ℚ) 2) * ((1 : Nat) : ℚ))
      have h4 := abs_add_le (rnd (rnd ((((1 : Nat) : ℚ) - 1) / pw ((1 : Nat) : ℚ) 2) * ((1 : Nat) : ℚ)) -
        rnd ((((1 : Nat) : ℚ) - 1) / pw ((1 : Nat) : ℚ) 2) * ((1 : Nat) : ℚ)) (rnd ((((1 : Nat) : ℚ) - 1) / pw ((1 : Nat) : ℚ) 2) * ((1 : Nat) : ℚ))
      rw [sub_add_cancel] at h4
      have h5 : |rnd ((((1 : Nat) : ℚ) - 1) / pw ((1 : Nat) : ℚ) 2) * ((1 : Nat) : ℚ)| ≤ 1 / 1024 := by rw [Nat.cast_one, mul_one] at *; exact h2
      have h6 := mul_le_mul hu1 h5 (abs_nonneg _) (by norm_num)
      linarith
    · have hn2 : (2 : ℚ) ≤ n := by exact_mod_cast h
      have hnu : (n : ℚ) * u ≤ 1 / 1024 := (mul_le_mul_of_nonneg_right hnN' hu).trans hNu
      have h1 := coef_err hE hu hu1 ht htu hn2 hnu (P.two n)
      have h2 : |((n : ℚ) - 1) / n| ≤ 1 := by
        rw [abs_div, abs_of_nonneg (by linarith : (0 : ℚ) ≤ n - 1), abs_of_pos (by linarith : (0 : ℚ) < n), div_le_one (by linarith)]
        linarith
      have h3 := abs_add_le (rnd (rnd (((n : ℚ) - 1) / pw n 2) * n) - ((n : ℚ) - 1) / n) (((n : ℚ) - 1) / n)
      rw [sub_add_cancel] at h3
      linarith
  have htM2 : t ≤ M * M / 1024 := by
    have := mul_le_mul_of_nonneg_right huu hMM
    linarith
  have hq : |pw δ 2| ≤ 200 * (M * M) := by
    have h1 := P.two δ
    have h2 : δ * δ ≤ 100 * (M * M) := by
      have := mul_le_mul hδ hδ (abs_nonneg _) (by linarith)
      rw [abs_mul_abs_self] at this
      linarith
    have h3 := abs_add_le (pw δ 2 - δ * δ) (δ * δ)
    rw [sub_add_cancel, abs_of_nonneg (mul_self_nonneg δ)] at h3
    have h4 := mul_le_mul hu1 h2 (mul_self_nonneg δ) (by norm_num)
    linarith
  refine ⟨hp0.ne', ?_, hr1, hr2, hq, ?_⟩
  · rw [abs_of_pos hp0]
    linarith
  · set c := rnd (rnd (((n : ℚ) - 1) / pw n 2) * n)
    have h1 : |c * pw δ 2| ≤ 400 * (M * M) := by
      rw [abs_mul]
      have := mul_le_mul hr2 hq (abs_nonneg _) (by norm_num)
      linarith
    have h2 := hE (c * pw δ 2)
    have h3 := abs_add_le (rnd (c * pw δ 2) - c * pw δ 2) (c * pw δ 2)
    rw [sub_add_cancel] at h3
    have h4 := mul_le_mul hu1 h1 (abs_nonneg _) (by norm_num)
    linarith

/-- The update of the second power sum in IEEE arithmetic, adding. -/
theorem addV_two_fin (R : Rounding rnd) (hE : Accuracy rnd u t) {N : Nat} (hN : ∀ n : Nat, n ≤ N → rnd n = n) {M : ℚ} (S : Small u t M N)
    (P : PowSq pw u t N) (hov : ∀ q, |q| < Ω → ov q = .fin q) (hΩM : 900 * (M * M) < Ω) (hΩN : 3 + 2 * (N * N) < Ω) {n : Nat} (hn1 : 1 ≤ n)
    (hnN : n ≤ N) {δ : ℚ} (hδ : |δ| ≤ 10 * M) {T : Nat → XF ℚ} {s : Nat → ℚ} (hs : T 2 = .fin (s 2))
    (hv : |addV (Arith.rounded rnd pw) ((Arith.rounded rnd pw).ofInt n) δ s 2| < Ω) :
    addV (ieeeOf rnd pw ov) (.fin (n : ℚ)) (.fin δ) T 2 = .fin (addV (Arith.rounded rnd pw) ((Arith.rounded rnd pw).ofInt n) δ s 2) := by
  obtain ⟨f0, f1, f2, f3, f4, f5⟩ := sq_fits hE S P hn1 hnN hδ
  have hn : (1 : ℚ) ≤ n := by exact_mod_cast hn1
  have hnN' : (n : ℚ) ≤ N := by exact_mod_cast hnN
  have hNN : (N : ℚ) ≤ N * N := le_mul_of_one_le_left (by linarith) (hn.trans hnN')
  have h1 : (ieeeOf rnd pw ov).ofInt 1 = .fin 1 := by
    show ov (rnd ((1 : Int) : ℚ)) = _
    rw [Int.cast_one, R.one]
    exact hov 1 (by rw [abs_one]; linarith)
  have hn' : rnd ((n : ℚ) - 1) = (n : ℚ) - 1 := by
    have := hN (n - 1) (by omega)
    rwa [Nat.cast_sub hn1, Nat.cast_one] at this
  have hsub : (ieeeOf rnd pw ov).sub (.fin (n : ℚ)) (.fin 1) = .fin ((n : ℚ) - 1) := by
    show ov (rnd ((n : ℚ) - 1)) = _
    rw [hn']
    exact hov _ (by rw [abs_of_nonneg (by linarith)]; linarith)
  have hpow : ∀ (a : ℚ) (i : Nat), |pw a i| < Ω → (ieeeOf rnd pw ov).pow (.fin a) i = .fin (pw a i) := fun a i h => hov _ h
  have hmul : ∀ a b : ℚ, |rnd (a * b)| < Ω → (ieeeOf rnd pw ov).mul (.fin a) (.fin b) = .fin (rnd (a * b)) := fun a b h => hov _ h
  have hdiv : (ieeeOf rnd pw ov).div (.fin ((n : ℚ) - 1)) (.fin (pw n 2)) = .fin (rnd (((n : ℚ) - 1) / pw n 2)) := by
    simp only [Arith.ieee]
    rw [if_neg f0, hov _ (by linarith)]
  have hp1 : pw ((n : ℚ) - 1) 1 = (n : ℚ) - 1 := by
    have := P.one (n - 1) (by omega)
    rwa [Nat.cast_sub hn1, Nat.cast_one] at this
  have hadd : (ieeeOf rnd pw ov).add (.fin ((n : ℚ) - 1)) ((ieeeOf rnd pw ov).ofInt (sign ((2 : Nat) : Int))) = .fin (n : ℚ) := by
    have : sign ((2 : Nat) : Int) = 1 := by decide
    rw [this, h1]
    show ov (rnd ((n : ℚ) - 1 + 1)) = _
    rw [sub_add_cancel, hN n hnN]
    exact hov _ (by rw [abs_of_nonneg (by linarith)]; linarith)
  have e := addV_two (pw := pw) R hN P hn1 hnN δ s
  rw [one_mul] at e
  rw [e] at hv ⊢
  simp only [addV, foldV]
  rw [h1, hsub, hpow _ _ (by linarith), hdiv, show 2 - 1 = 1 from rfl, hpow _ 1 (by rw [hp1, abs_of_nonneg (by linarith)]; linarith), hp1, hadd,
    hmul _ _ (by linarith), hpow _ _ (by linarith), hmul _ _ (by linarith), hs]
  exact hov _ hv

/-- The update of the second power sum in IEEE arithmetic, removing; `n` values are left. -/
theorem removeV_two_fin (R : Rounding rnd) (hE : Accuracy rnd u t) {N : Nat} (hN : ∀ n : Nat, n ≤ N → rnd n = n) {M : ℚ} (S : Small u t M N)
    (P : PowSq pw u t N) (hov : ∀ q, |q| < Ω → ov q = .fin q) (hΩM : 900 * (M * M) < Ω) (hΩN : 3 + 2 * (N * N) < Ω) {n : Nat}
    (hnN : n + 1 ≤ N) {δ : ℚ} (hδ : |δ| ≤ 10 * M) {T : Nat → XF ℚ} {s : Nat → ℚ} (hs : T 2 = .fin (s 2))
    (hv : |removeV (Arith.rounded rnd pw) ((Arith.rounded rnd pw).ofInt n) δ s 2| < Ω) :
    removeV (ieeeOf rnd pw ov) (.fin (n : ℚ)) (.fin δ) T 2 = .fin (removeV (Arith.rounded rnd pw) ((Arith.rounded rnd pw).ofInt n) δ s 2) := by
  obtain ⟨f0, f1, f2, f3, f4, f5⟩ := sq_fits hE S P (show 1 ≤ n + 1 by omega) hnN hδ
  have hn0 : (0 : ℚ) ≤ n := by positivity
  have hnN' : (n : ℚ) + 1 ≤ N := by exact_mod_cast hnN
  have hNN : (N : ℚ) ≤ N * N := le_mul_of_one_le_left (by linarith) (by linarith)
  have h1 : (ieeeOf rnd pw ov).ofInt 1 = .fin 1 := by
    show ov (rnd ((1 : Int) : ℚ)) = _
    rw [Int.cast_one, R.one]
    exact hov 1 (by rw [abs_one]; linarith)
  have e := removeV_two (pw := pw) R hN P hnN δ s
  rw [neg_one_mul, ← sub_eq_add_neg] at e
  simp only [Nat.cast_add, Nat.cast_one, add_sub_cancel_right] at f0 f1 f2 f3 f5 e
  have hadd1 : (ieeeOf rnd pw ov).add (.fin (n : ℚ)) (.fin 1) = .fin ((n : ℚ) + 1) := by
    show ov (rnd ((n : ℚ) + 1)) = _
    have := hN (n + 1) hnN
    rw [Nat.cast_add, Nat.cast_one] at this
    rw [this]
    exact hov _ (by rw [abs_of_nonneg (by linarith)]; linarith)
  have hpow : ∀ (a : ℚ) (i : Nat), |pw a i| < Ω → (ieeeOf rnd pw ov).pow (.fin a) i = .fin (pw a i) := fun a i h => hov _ h
  have hmul : ∀ a b : ℚ, |rnd (a * b)| < Ω → (ieeeOf rnd pw ov).mul (.fin a) (.fin b) = .fin (rnd (a * b)) := fun a b h => hov _ h
  have hdiv : (ieeeOf rnd pw ov).div (.fin (n : ℚ)) (.fin (pw ((n : ℚ) + 1) 2)) = .fin (rnd ((n : ℚ) / pw ((n : ℚ) + 1) 2)) := by
    simp only [Arith.ieee]
    rw [if_neg f0, hov _ (by linarith)]
  have hp1 : pw (n : ℚ) 1 = (n : ℚ) := P.one n (by omega)
  have hsg : (ieeeOf rnd pw ov).ofInt (sign ((2 : Nat) : Int)) = .fin 1 := by
    have : sign ((2 : Nat) : Int) = 1 := by decide
    rw [this, h1]
  rw [e] at hv ⊢
  simp only [removeV, foldV]
  rw [h1, hadd1, hpow _ _ (by linarith), hdiv, show 2 - 1 = 1 from rfl, hpow _ 1 (by rw [hp1, abs_of_nonneg hn0]; linarith), hp1, hsg, hadd1,
    hmul _ _ (by linarith), hpow _ _ (by linarith), hmul _ _ (by linarith), hs]
  exact hov _ hv

/-- The second power sum of a core with any window in IEEE arithmetic. -/
theorem track_sum_drift_fin (R : Rounding rnd) (hE : Accuracy rnd u t) {N : Nat} (hN : ∀ n : Nat, n ≤ N → rnd n = n) {M : ℚ}
    (S : Small u t M N) (hu4 : u ≤ 1 / 4096) (P : PowSq pw u t N) (hov : ∀ q, |q| < Ω → ov q = .fin q) (hΩ1 : 20 * M < Ω)
    (hΩM : 900 * ((N + 1) * (M * M)) < Ω) (hΩN : 3 + 2 * (N * N) < Ω) (w : Nat) {len : Nat} (hlen : 2 < len) :
    Track (ieeeOf rnd pw ov) w none len
      (fun xs m s => ∀ xs0 : List ℚ, xs = xs0.map XF.fin → xs0.length ≤ N → (∀ x ∈ xs0, rnd x = x ∧ |x| ≤ M) → ∃ m0 s0 : ℚ, m = .fin m0 ∧
        s 2 = .fin s0 ∧ ((xs0 = [] → m0 = 0) ∧ |m0 - Spec.mean (lastN w xs0)| ≤ xs0.length * (48 * (u * M) + 8 * t)) ∧
        ((xs0 = [] → s0 = 0) ∧ |s0 - csum 2 (lastN w xs0)| ≤ 500 * (xs0.length * xs0.length + xs0.length) * (u * (M * M))) ∧
        m0 = (mst (Arith.rounded rnd pw) w none xs0).1 ∧ s0 = (mst (Arith.rounded rnd pw) w none xs0).2 2)
      (fun xs m s => ∀ xs0 : List ℚ, xs = xs0.map XF.fin → xs0.length < N → (∀ x ∈ xs0, rnd x = x ∧ |x| ≤ M) → ∃ m0 s0 : ℚ, m = .fin m0 ∧
        s 2 = .fin s0 ∧ (∃ ws, (∀ x, lastN w (xs0 ++ [x]) = ws ++ [x]) ∧ (ws = [] → m0 = 0) ∧ |m0| ≤ 4 * M ∧
          ws.length * |m0 - Spec.mean ws| ≤ (ws.length + 1) * (xs0.length * (48 * (u * M) + 8 * t)) + ws.length * (16 * (u * M) + 4 * t)) ∧
        (∃ ws, (∀ x, lastN w (xs0 ++ [x]) = ws ++ [x]) ∧ (ws = [] → s0 = 0) ∧
          |s0 - csum 2 ws| ≤ (500 * (xs0.length * xs0.length + xs0.length) + (409 * xs0.length + 110)) * (u * (M * M))) ∧
        m0 = (roomM (Arith.rounded rnd pw) w xs0 (mst (Arith.rounded rnd pw) w none xs0)).1 ∧
        s0 = (roomM (Arith.rounded rnd pw) w xs0 (mst (Arith.rounded rnd pw) w none xs0)).2 2) := by
  have hM0 := S.M0
  have hMM : 0 ≤ M * M := mul_nonneg hM0 hM0
  have hNu := S.Nu
  have hu := S.u0
  have hN0 : (0 : ℚ) ≤ N := by positivity
  have ht : t ≤ M / 2 := by
    have h1 := mul_le_mul_of_nonneg_right S.u1 hM0
    have h2 := mul_le_mul_of_nonneg_left h1 hu
    have h3 := mul_le_mul_of_nonneg_right S.u1 (show 0 ≤ 1 / 1024 * M by positivity)
    linarith [S.tM]
  have hΩM' : 900 * (M * M) < Ω := by
    have : 0 ≤ N * (M * M) := by positivity
    linarith
  have hNΩ : (N : ℚ) < Ω := by
    rcases Nat.eq_zero_or_pos N with h | h
    · subst h
      rw [Nat.cast_zero] at *
      linarith
    · have h1 : (1 : ℚ) ≤ N := by exact_mod_cast h
      have := le_mul_of_one_le_left hN0 h1
      linarith
  have T := track_sum_drift R hE hN S P w 3
  have hz : (ieeeOf rnd pw ov).ofInt 0 = .fin 0 := by
    show ov (rnd ((0 : Int) : ℚ)) = _
    rw [Int.cast_zero, R.zero]
    exact hov 0 (by rw [abs_zero]; linarith)
  have hzR : (Arith.rounded rnd pw).ofInt 0 = 0 := by
    show rnd ((0 : Int) : ℚ) = _
    rw [Int.cast_zero, R.zero]
  have hmap : ∀ xs0 : List ℚ, lastN w (xs0.map XF.fin) = (lastN w xs0).map XF.fin := by
    intro xs0
    unfold lastN
    split_ifs <;> simp [List.map_drop]
  have hlast : ∀ (xs : List ℚ), ∀ z ∈ lastN w xs, z ∈ xs := by
    intro xs z hz
    unfold lastN at hz
    split_ifs at hz
    · exact hz
    · exact List.mem_of_mem_drop hz
  have hρ : N * (48 * (u * M) + 8 * t) ≤ M := by
    have huM : 0 ≤ u * M := mul_nonneg hu hM0
    have ht1 : t ≤ u * M / 1024 := by
      have := mul_le_mul_of_nonneg_right S.u1 huM
      linarith [S.tM]
    have h1 : (N : ℚ) * (48 * (u * M) + 8 * t) ≤ N * (49 * (u * M)) := mul_le_mul_of_nonneg_left (by linarith) hN0
    have h2 := mul_le_mul_of_nonneg_right hNu hM0
    linarith
  have hbound : ∀ (xs0 : List ℚ) (m0 : ℚ), xs0.length ≤ N → (∀ x ∈ xs0, rnd x = x ∧ |x| ≤ M) →
      |m0 - Spec.mean (lastN w xs0)| ≤ xs0.length * (48 * (u * M) + 8 * t) → |m0| ≤ 2 * M := by
    intro xs0 m0 hl hxs h
    have h1 := abs_mean_le hM0 (xs := lastN w xs0) (fun x hx => (hxs x (hlast _ x hx)).2)
    have h2 := abs_add_le (m0 - Spec.mean (lastN w xs0)) (Spec.mean (lastN w xs0))
    rw [sub_add_cancel] at h2
    have h3 : (xs0.length : ℚ) * (48 * (u * M) + 8 * t) ≤ M := by
      refine le_trans (mul_le_mul_of_nonneg_right ?_ (by have := S.t0; positivity)) hρ
      exact_mod_cast hl
    linarith
  -- values of the second power sum
  have hsum : ∀ (n : Nat) (ws : List ℚ) (s0 b : ℚ), n ≤ N → ws.length ≤ N → (∀ x ∈ ws, |x| ≤ M) → 0 ≤ b → b ≤ 409 * n + 110 →
      |s0 - csum 2 ws| ≤ (500 * ((n : ℚ) * n + n) + b) * (u * (M * M)) → |s0| < Ω := by
    intro n ws s0 b hn hws hx hb0 hb h
    have hn' : (n : ℚ) ≤ N := by exact_mod_cast hn
    have hw' : (ws.length : ℚ) ≤ N := by exact_mod_cast hws
    have hnu : (n : ℚ) * u ≤ 1 / 1024 := (mul_le_mul_of_nonneg_right hn' hu).trans hNu
    have h1 := csum_two_le hM0 hx
    have h2 := csum_two_nonneg ws
    have h3 := abs_add_le (s0 - csum 2 ws) (csum 2 ws)
    rw [sub_add_cancel, abs_of_nonneg h2] at h3
    have h4 : (500 * ((n : ℚ) * n + n) + b) * (u * (M * M)) ≤ (n + 2) * (M * M) := by
      have h5 : (500 * ((n : ℚ) * n + n) + b) * u ≤ n + 2 := by
        have h6 := mul_le_mul_of_nonneg_left hnu (show (0 : ℚ) ≤ 500 * n by positivity)
        have h7 : b * u ≤ (409 * n + 110) * u := mul_le_mul_of_nonneg_right hb hu
        have h8 := S.u1
        linarith
      have := mul_le_mul_of_nonneg_right h5 hMM
      linarith
    have h5 : ((n : ℚ) + 2) * (M * M) ≤ (N + 2) * (M * M) := mul_le_mul_of_nonneg_right (by linarith) hMM
    have h6 : (ws.length : ℚ) * (M * M) ≤ N * (M * M) := mul_le_mul_of_nonneg_right hw' hMM
    have h7 : 0 ≤ (N : ℚ) * (M * M) := by positivity
    linarith
  refine ⟨?_, ?_, ?_, ?_, ?_, fun _ h => absurd h (by simp)⟩
  · intro xs0 h _ _
    obtain rfl : xs0 = [] := by simpa using h.symm
    exact ⟨0, 0, hz, hz, by simp [Spec.mean, lastN], by simp [csum, lastN], hzR.symm, hzR.symm⟩
  · rintro xs m s hr hI xs0 rfl hlN hxs
    obtain ⟨m0, s0, rfl, hs2, hI1, hI2, hE1, hE2⟩ := hI xs0 rfl hlN.le hxs
    obtain ⟨a, b⟩ := T.room xs0 m0 (fun _ => s0) (by rw [hmap, List.length_map] at hr; exact hr) ⟨fun _ _ => hI1, fun _ _ _ => hI2⟩
    refine ⟨m0, s0, rfl, hs2, a hlN hxs, b hlN hxs (by norm_num), ?_⟩
    rw [roomM_room _ (by rw [hmap, List.length_map] at hr; exact hr)]
    exact ⟨hE1, hE2⟩
  · rintro xs m s hw hne hI xs0 rfl hlN hxs
    obtain ⟨m0, s0, rfl, hs2, hI1, hI2, hE1, hE2⟩ := hI xs0 rfl hlN.le hxs
    obtain ⟨a, b⟩ := T.evict1 xs0 m0 (fun _ => s0) hw (by rintro rfl; exact hne rfl) ⟨fun _ _ => hI1, fun _ _ _ => hI2⟩
    rw [hzR] at a b
    refine ⟨0, 0, hz, hz, a hlN hxs, b hlN hxs (by norm_num), ?_⟩
    rw [roomM_one _ hw (by rintro rfl; exact hne rfl)]
    exact ⟨hzR.symm, hzR.symm⟩
  · rintro xs y ys m s m' s' hl hw hys hI hr xs0 rfl hlN hxs
    obtain ⟨m0, s0, rfl, hs2, hI1, hI2, hE1, hE2⟩ := hI xs0 rfl hlN.le hxs
    rw [hmap] at hl
    obtain ⟨y0, ys0, hl0, rfl, rfl⟩ := List.map_eq_cons_iff.1 hl
    rw [List.length_map] at hw hr
    have hpos : 1 ≤ ys0.length := by
      rcases ys0 with _ | _
      · exact absurd rfl hys
      · simp
    have hlx : ys0.length + 1 ≤ xs0.length := by
      have h1 := congrArg List.length hl0
      rw [lastN_length, if_neg (by omega)] at h1
      simp at h1
      omega
    have hyM := (hxs y0 (hlast _ _ (by rw [hl0]; simp))).2
    have hm2 := hbound xs0 m0 hlN.le hxs hI1.2
    obtain ⟨hδ, hof, hofR, hq⟩ := mean_fin (pw := pw) hE hN hu4 ht hov hΩ1 hNΩ (n := ys0.length) hpos (by omega) hyM (hm2.trans (by linarith))
    set m1 := rnd (m0 - rnd (rnd (y0 - m0) / (ys0.length : ℚ))) with hm1
    set s1 := removeV (Arith.rounded rnd pw) ((Arith.rounded rnd pw).ofInt ys0.length) (rnd (y0 - m1)) (fun _ => s0) 2 with hs1
    have hstep : RemoveStep (Arith.rounded rnd pw) 3 ys0.length y0 m0 (fun _ => s0) m1 (fun j => if j = 2 then s1 else s0) := by
      refine ⟨by rw [hofR]; rfl, fun j => ?_⟩
      beta_reduce
      by_cases h : j = 2
      · subst h
        rw [if_pos rfl, if_pos (by omega), hs1]
        exact removeV_congr _ (fun i h1 h2 => by rw [if_neg (by omega)]) le_rfl
      · rw [if_neg h, if_neg (by omega)]
    obtain ⟨a, b⟩ := T.evict xs0 y0 ys0 m0 (fun _ => s0) _ _ hl0 hw (by rintro rfl; simp at hpos) ⟨fun _ _ => hI1, fun _ _ _ => hI2⟩ hstep
    have a := a hlN hxs
    have b := b hlN hxs (by norm_num)
    beta_reduce at b
    rw [if_pos rfl] at b
    have hm4 : |m1| ≤ 4 * M := a.choose_spec.2.2.1
    have hm' : m' = .fin m1 := by
      rw [hr.1, hδ, hof, hq]
      exact hov _ (lt_of_le_of_lt hm4 (by linarith))
    have hme : m1 = (roomM (Arith.rounded rnd pw) w xs0 (mst (Arith.rounded rnd pw) w none xs0)).1 ∧
        s1 = (roomM (Arith.rounded rnd pw) w xs0 (mst (Arith.rounded rnd pw) w none xs0)).2 2 := by
      have e1 : (Arith.rounded rnd pw).sub (mst (Arith.rounded rnd pw) w none xs0).1 ((Arith.rounded rnd pw).div
          ((Arith.rounded rnd pw).sub y0 (mst (Arith.rounded rnd pw) w none xs0).1) ((Arith.rounded rnd pw).ofInt ys0.length)) = m1 := by
        rw [← hE1, hofR]; rfl
      rw [roomM_evict _ hl0 hw (by rintro rfl; simp at hpos)]
      refine ⟨e1.symm, ?_⟩
      dsimp only
      rw [remM_eq, if_pos le_rfl, e1, hs1]
      refine removeV_congr _ (fun j h1 h2 => ?_) le_rfl
      obtain rfl : j = 2 := by omega
      rw [if_neg (lt_irrefl _)]
      exact hE2
    refine ⟨m1, s1, hm', ?_, a, b, hme⟩
    have hδb : |rnd (y0 - m1)| ≤ 10 * M := by
      have := rnd_le hE hu4 (q := y0 - m1) (B := 5 * M) ((abs_sub _ _).trans (by linarith)) (by linarith)
      linarith
    have hδ' : (ieeeOf rnd pw ov).sub (.fin y0) (.fin m1) = .fin (rnd (y0 - m1)) := hov _ (lt_of_le_of_lt hδb (by linarith))
    have h2 := hr.2 2
    rw [if_pos ⟨le_rfl, hlen⟩, hm', hδ', hof] at h2
    rw [h2, hs1]
    have hs1Ω : |s1| < Ω := by
      obtain ⟨ws, hws, -, hb⟩ := b
      have hwl : ws.length ≤ xs0.length := by
        have h1 := congrArg List.length (hws 0)
        have h2 := lastN_length w (xs0 ++ [0])
        rw [h1] at h2
        simp at h2
        split_ifs at h2 <;> omega
      refine hsum xs0.length ws s1 _ hlN.le (by omega) (fun x hx => ?_) (by positivity) le_rfl hb
      have h1 : x ∈ ws ++ [(0 : ℚ)] := by simp [hx]
      rw [← hws] at h1
      have h2 := hlast _ _ h1
      rcases List.mem_append.1 h2 with h2 | h2
      · exact (hxs x h2).2
      · rw [List.mem_singleton.1 h2, abs_zero]; exact hM0
    exact removeV_two_fin R hE hN S P hov hΩM' hΩN (by omega) hδb (s := fun _ => s0) (by simpa using hs2) hs1Ω
  · intro hd xs x m s m' s' hI hr ys hys hlN hxs
    obtain ⟨xs0, x0, rfl, rfl, rfl⟩ := map_snoc hys
    have hx1 : ∀ y ∈ xs0, rnd y = y ∧ |y| ≤ M := fun y hy => hxs y (by simp [hy])
    have hlN' : xs0.length < N := by simpa using hlN
    obtain ⟨m0, s0, rfl, hs2, hI1, hI2, hE1, hE2⟩ := hI xs0 rfl hlN' hx1
    obtain ⟨ws, hws, -, hm4, -⟩ := id hI1
    have hl : (lastN w (xs0 ++ [x0])).length = ws.length + 1 := by rw [hws]; simp
    have hwl : ws.length + 1 ≤ N := by
      have h2 := lastN_length w (xs0 ++ [x0])
      rw [hl] at h2
      simp at h2
      split_ifs at h2 <;> omega
    have hxM := (hxs x0 (by simp)).2
    obtain ⟨hδ, hof, hofR, hq⟩ := mean_fin (pw := pw) hE hN hu4 ht hov hΩ1 hNΩ (n := ws.length + 1) (by omega) hwl hxM hm4
    set m1 := rnd (m0 + rnd (rnd (x0 - m0) / ((ws.length + 1 : Nat) : ℚ))) with hm1
    set s1 := addV (Arith.rounded rnd pw) ((Arith.rounded rnd pw).ofInt ((ws.length + 1 : Nat) : Int)) (rnd (x0 - m0)) (fun _ => s0) 2 with hs1
    have hstep : AddStep (Arith.rounded rnd pw) 3 (lastN w (xs0 ++ [x0])).length x0 m0 (fun _ => s0) m1 (fun j => if j = 2 then s1 else s0) := by
      rw [hl]
      refine ⟨by rw [hofR]; rfl, fun j => ?_⟩
      beta_reduce
      by_cases h : j = 2
      · subst h
        rw [if_pos rfl, if_pos (by omega), hs1]
        rfl
      · rw [if_neg h, if_neg (by omega)]
    obtain ⟨a, b⟩ := T.add rfl xs0 x0 m0 (fun _ => s0) _ _ ⟨fun _ _ => hI1, fun _ _ _ => hI2⟩ hstep
    have a := a hlN hxs
    have b := b hlN hxs (by norm_num)
    beta_reduce at b
    rw [if_pos rfl] at b
    rw [← List.map_singleton, ← List.map_append, hmap, List.length_map, hl] at hr
    have hme : m1 = (mst (Arith.rounded rnd pw) w none (xs0 ++ [x0])).1 ∧ s1 = (mst (Arith.rounded rnd pw) w none (xs0 ++ [x0])).2 2 := by
      rw [mst_add, hl]
      refine ⟨?_, ?_⟩
      · dsimp only
        rw [← hE1, hofR]; rfl
      · dsimp only
        rw [if_pos le_rfl, hs1, ← hE1]
        refine addV_congr _ (fun j h1 h2 => ?_) le_rfl
        obtain rfl : j = 2 := by omega
        exact hE2
    refine ⟨m1, s1, ?_, ?_, a, b, hme⟩
    · rw [hr.1, hδ, hof, hq]
      exact hov _ (lt_of_le_of_lt (hbound _ _ hlN hxs a.2) (by linarith))
    · have h2 := hr.2 2
      rw [if_pos ⟨le_rfl, hlen⟩, hδ, hof] at h2
      rw [h2, hs1]
      have hδb : |rnd (x0 - m0)| ≤ 10 * M := by
        have := rnd_le hE hu4 (q := x0 - m0) (B := 5 * M) ((abs_sub _ _).trans (by linarith)) (by linarith)
        linarith
      refine addV_two_fin R hE hN S P hov hΩM' hΩN (by omega) hwl hδb (s := fun _ => s0) hs2 ?_
      refine hsum (xs0 ++ [x0]).length (lastN w (xs0 ++ [x0])) s1 0 hlN (by rw [hl]; exact hwl) (fun x hx => (hxs x (hlast _ x hx)).2) le_rfl
        (by positivity) ?_
      rw [add_zero]
      exact b.2

end
end Verif.FP
