import Verif.Proofs.MomentFP
import Verif.Proofs.Rounding

/-! # The moment core in rounded arithmetic -/

namespace Verif.FP
open Verif.Spec Verif.MathUtil
open Verif.Moment (Core Config)

/-! ### Constant streams -/

section const
variable {rnd : ℚ → ℚ} {pw : ℚ → Nat → ℚ}

theorem addV_zero (h0 : rnd 0 = 0) (h1 : rnd 1 = 1) (hpw : ∀ k, 1 ≤ k → pw 0 k = 0) {n : Int} {delta : ℚ} {s : Nat → ℚ}
    (hs : ∀ k, s k = 0) (hd : delta = 0 ∨ n = 1) {k : Nat} (hk : 2 ≤ k) :
    addV (Arith.rounded rnd pw) ((Arith.rounded rnd pw).ofInt n) delta s k = 0 := by
  refine foldV_inv (fun v => v = 0) _ _ _ (fun a j _ _ ha => ?_) ?_
  · simp [Arith.rounded, hs, ha, h0]
  · rcases hd with rfl | rfl
    · simp [Arith.rounded, hs, h0, hpw k (by omega)]
    · simp [Arith.rounded, hs, h0, h1]

theorem decayV_zero (h0 : rnd 0 = 0) (h1 : rnd 1 = 1) (hpw : ∀ k, 1 ≤ k → pw 0 k = 0) {d delta : ℚ} {s : Nat → ℚ}
    (hs : ∀ k, s k = 0) (hd : delta = 0 ∨ d = 1) {k : Nat} (hk : 2 ≤ k) :
    decayV (Arith.rounded rnd pw) d delta s k = 0 := by
  refine foldV_inv (fun v => v = 0) _ _ _ (fun a j _ _ ha => ?_) ?_
  · simp [Arith.rounded, hs, ha, h0]
  · rcases hd with rfl | rfl
    · simp [Arith.rounded, hs, h0, hpw k (by omega)]
    · simp [Arith.rounded, hs, h0, h1, hpw k (by omega)]

theorem track_const (h0 : rnd 0 = 0) (h1 : rnd 1 = 1) (hpw : ∀ k, 1 ≤ k → pw 0 k = 0) {x : ℚ} (hx : rnd x = x) (w : Nat)
    (d : Option ℚ) (len : Nat) :
    Track (Arith.rounded rnd pw) w d len
      (fun xs m s => (∀ y ∈ xs, y = x) → (xs ≠ [] → m = x) ∧ (xs = [] → m = 0) ∧ ∀ k, s k = 0)
      (fun xs m s => (∀ y ∈ xs, y = x) → (m = x ∨ (m = 0 ∧ ∀ z, (lastN w (xs ++ [z])).length = 1)) ∧ ∀ k, s k = 0) where
  zero := fun _ => by simp [Arith.rounded, h0]
  room := fun xs m s _ hI hxs => by
    obtain ⟨a, b, c⟩ := hI hxs
    refine ⟨?_, c⟩
    by_cases e : xs = []
    · subst e
      refine .inr ⟨b rfl, fun z => ?_⟩
      rw [lastN_length]
      split_ifs <;> simp
      omega
    · exact .inl (a e)
  evict1 := fun xs m s hw hne hI hxs => by
    refine ⟨.inr ⟨by simp [Arith.rounded, h0], fun z => ?_⟩, fun k => by simp [Arith.rounded, h0]⟩
    rw [lastN_length, hw]
    simp
  evict := fun xs y ys m s m' s' hl hw hys hI hr hxs => by
    have hne : xs ≠ [] := by rintro rfl; simp at hl
    obtain ⟨a, -, c⟩ := hI hxs
    obtain rfl := a hne
    have hy : y = m := hxs y (by
      have : y ∈ lastN w xs := by rw [hl]; exact List.mem_cons_self
      unfold lastN at this
      split_ifs at this
      · exact this
      · exact List.mem_of_mem_drop this)
    subst hy
    obtain ⟨hm, hs⟩ := hr
    have hm' : m' = y := by rw [hm]; simp [Arith.rounded, h0, hx]
    refine ⟨.inl hm', fun k => ?_⟩
    induction k using Nat.strong_induction_on with
    | _ k ih =>
      rw [hs k]
      split_ifs with h
      · refine foldV_inv (fun v => v = 0) _ _ _ (fun a j _ _ ha => ?_) ?_
        · have : (if k - j < k then s' (k - j) else s (k - j)) = 0 := by
            split_ifs with hj
            · exact ih _ hj
            · exact c _
          simp only [this]
          simp [Arith.rounded, ha, h0]
        · rw [hm']
          simp [Arith.rounded, c, h0, hpw k (by omega)]
      · exact c k
  add := fun _ xs z m s m' s' hI hr hxs => by
    obtain ⟨hm, hs⟩ := hr
    obtain ⟨a, c⟩ := hI (fun y hy => hxs y (by simp [hy]))
    have hz : z = x := hxs z (by simp)
    subst hz
    have hm' : m' = z := by
      rw [hm]
      rcases a with rfl | ⟨rfl, hn⟩
      · simp [Arith.rounded, h0, hx]
      · rw [hn]; simp [Arith.rounded, h1, hx]
    refine ⟨fun _ => hm', fun h => absurd h (by simp), fun k => ?_⟩
    rw [hs k]
    split_ifs with h
    · refine addV_zero h0 h1 hpw c ?_ h.1
      rcases a with rfl | ⟨rfl, hn⟩
      · exact .inl (by simp [Arith.rounded, h0])
      · exact .inr (by exact_mod_cast hn z)
    · exact c k
  decay := fun dd _ xs z m s m' s' hI hr hxs => by
    obtain ⟨hm, hs⟩ := hr
    obtain ⟨a, c⟩ := hI (fun y hy => hxs y (by simp [hy]))
    have hz : z = x := hxs z (by simp)
    subst hz
    have hm' : m' = z := by
      rw [hm]
      rcases a with rfl | ⟨rfl, hn⟩
      · simp [Arith.rounded, h0, hx]
      · rw [hn]; simp [Arith.rounded, h1, hx]
    refine ⟨fun _ => hm', fun h => absurd h (by simp), fun k => ?_⟩
    rw [hs k]
    by_cases h : 2 ≤ k ∧ k < len
    · rw [if_pos h]
      refine decayV_zero h0 h1 hpw c ?_ h.1
      rcases a with rfl | ⟨rfl, hn⟩
      · exact .inl (by simp [Arith.rounded, h0])
      · exact .inr (by rw [if_pos (hn z)]; simp [Arith.rounded, h1])
    · rw [if_neg h]; exact c k

end const

/-! ### Signs and ranges -/

section range
variable {rnd : ℚ → ℚ} {pw : ℚ → Nat → ℚ}

theorem Rounding.nonneg (R : Rounding rnd) {q : ℚ} (h : 0 ≤ q) : 0 ≤ rnd q := by
  have := R.mono h
  rwa [R.zero] at this

theorem Rounding.one_le (R : Rounding rnd) {n : Int} (h : 1 ≤ n) : 1 ≤ rnd n := by
  have := R.mono (show (1 : ℚ) ≤ n by exact_mod_cast h)
  rwa [R.one] at this

theorem Rounding.two_le (R : Rounding rnd) {n : Int} (h : 2 ≤ n) : 2 ≤ rnd n := by
  have := R.mono (show (2 : ℚ) ≤ n by exact_mod_cast h)
  rwa [R.two] at this

/-- Without eviction the second sum stays non-negative. -/
theorem track_nonneg (R : Rounding rnd) (hpw : ∀ x k, Even k → 0 ≤ pw x k) (hpn : ∀ x k, 0 ≤ x → 0 ≤ pw x k) {d : Option ℚ}
    (hd : ∀ dd, d = some dd → 0 ≤ dd ∧ dd ≤ 1) (len : Nat) :
    Track (Arith.rounded rnd pw) 0 d len (fun _ _ s => 0 ≤ s 2) (fun _ _ s => 0 ≤ s 2) where
  zero := by simp [Arith.rounded, R.zero]
  room := fun _ _ _ _ h => h
  evict1 := fun _ _ _ h => absurd h (by norm_num)
  evict := fun _ _ _ _ _ _ _ _ h => absurd h (by omega)
  add := fun _ xs x m s m' s' hI hr => by
    rw [hr.2 2]
    split_ifs with h
    · have hn : (1 : Int) ≤ (lastN 0 (xs ++ [x])).length := by simp [lastN_zero]
      have h1 := R.one_le hn
      simp only [addV, foldV, Arith.rounded]
      refine R.nonneg (add_nonneg hI (R.nonneg (mul_nonneg (R.nonneg (mul_nonneg (R.nonneg (div_nonneg ?_ ?_)) ?_)) (hpw _ _ (by decide)))))
      · refine R.nonneg ?_
        rw [Int.cast_one, R.one]; linarith
      · exact hpw _ _ (by decide)
      · refine R.nonneg (add_nonneg (hpn _ _ (R.nonneg ?_)) (R.nonneg ?_))
        · rw [Int.cast_one, R.one]; linarith
        · simp [sign]
    · exact hI
  decay := fun dd hdd xs x m s m' s' hI hr => by
    rw [hr.2 2]
    by_cases h : 2 ≤ 2 ∧ 2 < len
    · rw [if_pos h]
      have key : ∀ e : ℚ, 0 ≤ e → e ≤ 1 → 0 ≤ decayV (Arith.rounded rnd pw) e ((Arith.rounded rnd pw).sub x m) s 2 := by
        intro e he0 he1
        have h1 : 0 ≤ rnd (rnd 1 - e) := R.nonneg (by rw [R.one]; linarith)
        simp only [decayV, foldV, Arith.rounded, Int.cast_one]
        refine R.nonneg (add_nonneg (R.nonneg (mul_nonneg h1 hI)) (R.nonneg (mul_nonneg (R.nonneg (add_nonneg ?_ ?_)) (hpw _ _ (by decide)))))
        · exact R.nonneg (mul_nonneg h1 (hpw _ _ (by decide)))
        · exact R.nonneg (mul_nonneg he0 (hpw _ _ (by decide)))
      split_ifs
      · exact key _ (by simp [Arith.rounded, R.one]) (by simp [Arith.rounded, R.one])
      · exact key _ (hd dd hdd).1 (hd dd hdd).2
    · rw [if_neg h]; exact hI

/-- A step from `m` towards `x` that is not longer than the way stays in their range. -/
theorem between_pre {lo hi m x : ℚ} (hm : lo ≤ m ∧ m ≤ hi) (hx : lo ≤ x ∧ x ≤ hi) {g : ℚ → ℚ} (hg0 : ∀ q, 0 ≤ q → 0 ≤ g q)
    (hgn : ∀ q, g (-q) = -g q) (hup : m ≤ x → g (x - m) ≤ x - m) (hdn : x ≤ m → g (m - x) ≤ m - x) :
    lo ≤ m + g (x - m) ∧ m + g (x - m) ≤ hi := by
  rcases le_total m x with h | h
  · have h1 := hup h
    have h2 := hg0 (x - m) (by linarith)
    constructor <;> linarith [hm.1, hm.2, hx.1, hx.2]
  · have h1 := hdn h
    have h2 := hg0 (m - x) (by linarith)
    have e : g (x - m) = -g (m - x) := by rw [← hgn, neg_sub]
    rw [e]
    constructor <;> linarith [hm.1, hm.2, hx.1, hx.2]

theorem Rounding.clamp (R : Rounding rnd) {lo hi q : ℚ} (hlo : rnd lo = lo) (hhi : rnd hi = hi) (h : lo ≤ q ∧ q ≤ hi) :
    lo ≤ rnd q ∧ rnd q ≤ hi := ⟨hlo.symm.le.trans (R.mono h.1), (R.mono h.2).trans hhi.le⟩

/-- The exact result of the last operation of a step of the running mean is in the range already. -/
theorem Rounding.mean_step (R : Rounding rnd) {lo hi m x n : ℚ} (hn : 2 ≤ n) (hm : lo ≤ m ∧ m ≤ hi) (hx : lo ≤ x ∧ x ≤ hi) :
    lo ≤ m + rnd (rnd (x - m) / n) ∧ m + rnd (rnd (x - m) / n) ≤ hi := by
  have step : ∀ q, 0 ≤ q → rnd (rnd q / n) ≤ q := by
    intro q hq
    refine le_trans (R.mono ?_) (R.half q hq)
    exact div_le_div_of_nonneg_left (R.nonneg hq) (by norm_num) hn
  refine between_pre hm hx (g := fun q => rnd (rnd q / n)) ?_ ?_ ?_ ?_
  · exact fun q hq => R.nonneg (div_nonneg (R.nonneg hq) (by linarith))
  · exact fun q => by rw [R.neg, neg_div, R.neg]
  · exact fun h => step _ (by linarith)
  · exact fun h => step _ (by linarith)

/-- The same for the exponentially weighted mean. -/
theorem Rounding.ew_step (R : Rounding rnd) {lo hi m x d : ℚ} (hd : rnd d = d) (h0 : 0 ≤ d) (h1 : d < 1) (hrm : rnd m = m)
    (hrx : rnd x = x) (hm : lo ≤ m ∧ m ≤ hi) (hx : lo ≤ x ∧ x ≤ hi) :
    lo ≤ m + rnd (d * rnd (x - m)) ∧ m + rnd (d * rnd (x - m)) ≤ hi := by
  refine between_pre hm hx (g := fun q => rnd (d * rnd q)) ?_ ?_ ?_ ?_
  · exact fun q hq => R.nonneg (mul_nonneg h0 (R.nonneg hq))
  · exact fun q => by rw [R.neg, mul_neg, R.neg]
  · exact fun h => R.blend x m d hrx hrm hd h0 h1 h
  · exact fun h => R.blend m x d hrm hrx hd h0 h1 h

/-- The mean of a core without eviction stays in the range of the data. -/
theorem track_range (R : Rounding rnd) {d : Option ℚ} (hd : ∀ dd, d = some dd → rnd dd = dd ∧ 0 ≤ dd ∧ dd < 1) {lo hi : ℚ}
    (hlo : rnd lo = lo) (hhi : rnd hi = hi) (len : Nat) :
    Track (Arith.rounded rnd pw) 0 d len
      (fun xs m _ => (∀ x ∈ xs, rnd x = x ∧ lo ≤ x ∧ x ≤ hi) → rnd m = m ∧ (xs = [] → m = 0) ∧ (xs ≠ [] → lo ≤ m ∧ m ≤ hi))
      (fun xs m _ => (∀ x ∈ xs, rnd x = x ∧ lo ≤ x ∧ x ≤ hi) → rnd m = m ∧ (xs = [] → m = 0) ∧ (xs ≠ [] → lo ≤ m ∧ m ≤ hi)) where
  zero := fun _ => by simp [Arith.rounded, R.zero]
  room := fun _ _ _ _ h => h
  evict1 := fun _ _ _ h => absurd h (by norm_num)
  evict := fun _ _ _ _ _ _ _ _ h => absurd h (by omega)
  add := fun _ xs x m s m' s' hI hr hxs => by
    obtain ⟨hrm, he, hne⟩ := hI (fun y hy => hxs y (by simp [hy]))
    obtain ⟨hrx, hx⟩ := hxs x (by simp)
    have hm : m' = rnd (m + rnd (rnd (x - m) / rnd ((lastN 0 (xs ++ [x])).length : Int))) := hr.1
    refine ⟨by rw [hm, R.idem], fun h => absurd h (by simp), fun _ => ?_⟩
    rw [lastN_zero] at hm
    by_cases hnil : xs = []
    · subst hnil
      rw [he rfl] at hm
      have : m' = x := by rw [hm]; simp [R.one, hrx]
      rw [this]; exact hx
    · have hn : (2 : Int) ≤ ((xs ++ [x]).length : Int) := by
        have := List.length_pos_iff.2 hnil
        simp; omega
      rw [hm]
      exact R.clamp hlo hhi (R.mean_step (R.two_le hn) (hne hnil) hx)
  decay := fun dd hdd xs x m s m' s' hI hr hxs => by
    obtain ⟨hrm, he, hne⟩ := hI (fun y hy => hxs y (by simp [hy]))
    obtain ⟨hrx, hx⟩ := hxs x (by simp)
    obtain ⟨d1, d2, d3⟩ := hd dd hdd
    have hm : m' = rnd (m + rnd ((if (lastN 0 (xs ++ [x])).length = 1 then rnd (1 : Int) else dd) * rnd (x - m))) := hr.1
    refine ⟨by rw [hm, R.idem], fun h => absurd h (by simp), fun _ => ?_⟩
    rw [lastN_zero] at hm
    by_cases hnil : xs = []
    · subst hnil
      rw [he rfl] at hm
      have : m' = x := by rw [hm]; simp [R.one, hrx]
      rw [this]; exact hx
    · have hn : ¬ (xs ++ [x]).length = 1 := by
        have := List.length_pos_iff.2 hnil
        simp; omega
      rw [if_neg hn] at hm
      rw [hm]
      exact R.clamp hlo hhi (R.ew_step d1 d2 d3 hrm hrx (hne hnil) hx)

end range

/-! ### Accuracy -/

section accuracy
variable {rnd : ℚ → ℚ} {pw : ℚ → Nat → ℚ} {u t : ℚ}

/-- The rounding error of one step `m + g·(x − m)`, where multiplying by `g` is one rounded operation. -/
theorem step_err (hE : Accuracy rnd u t) (hu : 0 ≤ u) (ht : 0 ≤ t) {M m x g b : ℚ} (hg : 0 ≤ g) (hb : b = rnd (g * rnd (x - m)))
    (hm : |m| ≤ M) (hx : |x| ≤ M) (hmb : |m + b| ≤ M) :
    |rnd (m + b) - (m + g * (x - m))| ≤ u * M + 2 * t + g * (4 * (u * M) + 2 * (u * u * M) + u * t + t) := by
  have hM : 0 ≤ M := (abs_nonneg m).trans hm
  have hδ : |x - m| ≤ 2 * M := by
    rw [abs_le] at hm hx ⊢
    constructor <;> linarith
  have h1 := hE (x - m)
  have h2 := hE (g * rnd (x - m))
  have h3 := hE (m + b)
  rw [← hb] at h2
  have a1 : |rnd (x - m) - (x - m)| ≤ 2 * (u * M) + t := by nlinarith
  have a2 : |rnd (x - m)| ≤ 2 * M + 2 * (u * M) + t := by
    have := abs_add_le (rnd (x - m) - (x - m)) (x - m)
    rw [sub_add_cancel] at this
    linarith
  have a3 : |b - g * rnd (x - m)| ≤ g * (u * (2 * M + 2 * (u * M) + t)) + t := by
    refine h2.trans ?_
    rw [abs_mul, abs_of_nonneg hg]
    have := mul_le_mul_of_nonneg_left (mul_le_mul_of_nonneg_left a2 hu) hg
    linarith
  have a4 : |rnd (m + b) - (m + b)| ≤ u * M + t := h3.trans (by nlinarith)
  have a5 : |g * (rnd (x - m) - (x - m))| ≤ g * (2 * (u * M) + t) := by
    rw [abs_mul, abs_of_nonneg hg]
    exact mul_le_mul_of_nonneg_left a1 hg
  have e : rnd (m + b) - (m + g * (x - m)) = (rnd (m + b) - (m + b)) + (b - g * rnd (x - m)) + g * (rnd (x - m) - (x - m)) := by ring
  rw [e]
  have := abs_add_le (rnd (m + b) - (m + b) + (b - g * rnd (x - m))) (g * (rnd (x - m) - (x - m)))
  have := abs_add_le (rnd (m + b) - (m + b)) (b - g * rnd (x - m))
  nlinarith

/-- The error of the running mean, times the number of values. -/
def meanErr (u t M : ℚ) (n : Nat) : ℚ :=
  (u * M + 2 * t) * (n * (n + 1) / 2) + n * (4 * (u * M) + 2 * (u * u * M) + u * t + t)

/-- The running mean of a core without eviction is accurate. -/
theorem track_mean_err (R : Rounding rnd) (hE : Accuracy rnd u t) (hu : 0 ≤ u) (ht : 0 ≤ t) {N : Nat}
    (hN : ∀ n : Nat, n ≤ N → rnd n = n) {M : ℚ} (hM : rnd M = M) (hM0 : 0 ≤ M) (len : Nat) :
    Track (Arith.rounded rnd pw) 0 none len
      (fun xs m _ => xs.length ≤ N → (∀ x ∈ xs, rnd x = x ∧ |x| ≤ M) →
        (xs = [] → m = 0) ∧ |m| ≤ M ∧ xs.length * |m - Spec.mean xs| ≤ meanErr u t M xs.length)
      (fun xs m _ => xs.length ≤ N → (∀ x ∈ xs, rnd x = x ∧ |x| ≤ M) →
        (xs = [] → m = 0) ∧ |m| ≤ M ∧ xs.length * |m - Spec.mean xs| ≤ meanErr u t M xs.length) where
  zero := fun _ _ => by simp [Arith.rounded, R.zero, hM0, meanErr]
  room := fun _ _ _ _ h => h
  evict1 := fun _ _ _ h => absurd h (by norm_num)
  evict := fun _ _ _ _ _ _ _ _ h => absurd h (by omega)
  add := fun _ xs x m s m' s' hI hr hlN hxs => by
    have hl : (xs ++ [x]).length = xs.length + 1 := by simp
    obtain ⟨he, hma, herr⟩ := hI (by omega) (fun y hy => hxs y (by simp [hy]))
    obtain ⟨hrx, hx⟩ := hxs x (by simp)
    have hm : m' = rnd (m + rnd (rnd (x - m) / rnd ((lastN 0 (xs ++ [x])).length : Int))) := hr.1
    have hnN := hN (xs.length + 1) (by omega)
    push_cast at hnN
    rw [lastN_zero, hl, show (((xs.length + 1 : Nat) : Int) : ℚ) = (xs.length : ℚ) + 1 by push_cast; rfl, hnN] at hm
    have hn0 : (0 : ℚ) ≤ xs.length := by positivity
    have hrM : rnd (-M) = -M := by rw [R.neg, hM]
    refine ⟨fun h => absurd h (by simp), ?_⟩
    by_cases hnil : xs = []
    · subst hnil
      rw [he rfl] at hm
      have : m' = x := by rw [hm]; simp [hrx]
      rw [this]
      refine ⟨hx, ?_⟩
      simp [Spec.mean, meanErr]
      positivity
    · have hpos := List.length_pos_iff.2 hnil
      have hn1 : (1 : ℚ) ≤ xs.length := by exact_mod_cast hpos
      have hpre := R.mean_step (n := (xs.length : ℚ) + 1) (by linarith) (abs_le.1 hma) (abs_le.1 hx)
      have hin := R.clamp hrM hM hpre
      rw [← hm] at hin
      refine ⟨abs_le.2 hin, ?_⟩
      have hstep := step_err hE hu ht (g := 1 / ((xs.length : ℚ) + 1)) (by positivity)
        (show rnd (rnd (x - m) / ((xs.length : ℚ) + 1)) = rnd (1 / ((xs.length : ℚ) + 1) * rnd (x - m)) by congr 1; field_simp)
        hma hx (abs_le.2 hpre)
      rw [← hm] at hstep
      rw [Moment.mean_snoc, hl]
      set n : ℚ := (xs.length : ℚ) with hn
      set μ := Spec.mean xs
      have e : m' - (μ + (x - μ) / (n + 1)) = (m' - (m + 1 / (n + 1) * (x - m))) + (n / (n + 1)) * (m - μ) := by
        field_simp; ring
      have hle : ((xs.length + 1 : Nat) : ℚ) = n + 1 := by push_cast; rfl
      rw [e, hle]
      have h1 := abs_add_le (m' - (m + 1 / (n + 1) * (x - m))) ((n / (n + 1)) * (m - μ))
      rw [abs_mul, abs_of_nonneg (show 0 ≤ n / (n + 1) by positivity)] at h1
      set κ := 4 * (u * M) + 2 * (u * u * M) + u * t + t with hκ
      have h2 : (n + 1) * (u * M + 2 * t + 1 / (n + 1) * κ) = (n + 1) * (u * M + 2 * t) + κ := by
        field_simp
      have h3 : (n + 1) * (n / (n + 1) * |m - μ|) = n * |m - μ| := by field_simp
      calc (n + 1) * |(m' - (m + 1 / (n + 1) * (x - m))) + n / (n + 1) * (m - μ)|
          ≤ (n + 1) * (|m' - (m + 1 / (n + 1) * (x - m))| + n / (n + 1) * |m - μ|) := mul_le_mul_of_nonneg_left h1 (by positivity)
        _ ≤ (n + 1) * ((u * M + 2 * t + 1 / (n + 1) * κ) + n / (n + 1) * |m - μ|) :=
            mul_le_mul_of_nonneg_left (by linarith) (by positivity)
        _ = (n + 1) * (u * M + 2 * t) + κ + n * |m - μ| := by rw [mul_add, h2, h3]
        _ ≤ (n + 1) * (u * M + 2 * t) + κ + meanErr u t M xs.length := by linarith
        _ = meanErr u t M (xs.length + 1) := by
            unfold meanErr
            push_cast
            rw [← hκ, ← hn]
            ring
  decay := fun _ h => absurd h (by simp)

/-- The exponentially weighted mean is accurate, uniformly in the number of values. -/
theorem track_ew_err (R : Rounding rnd) (hE : Accuracy rnd u t) (hu : 0 ≤ u) (ht : 0 ≤ t) {d : ℚ} (hd : rnd d = d) (hd0 : 0 < d)
    (hd1 : d < 1) {M : ℚ} (hM : rnd M = M) (hM0 : 0 ≤ M) (len : Nat) :
    Track (Arith.rounded rnd pw) 0 (some d) len
      (fun xs m _ => (∀ x ∈ xs, rnd x = x ∧ |x| ≤ M) → rnd m = m ∧ (xs = [] → m = 0) ∧ |m| ≤ M ∧
        d * |m - ewMean d xs| ≤ u * M + 2 * t + d * (4 * (u * M) + 2 * (u * u * M) + u * t + t))
      (fun xs m _ => (∀ x ∈ xs, rnd x = x ∧ |x| ≤ M) → rnd m = m ∧ (xs = [] → m = 0) ∧ |m| ≤ M ∧
        d * |m - ewMean d xs| ≤ u * M + 2 * t + d * (4 * (u * M) + 2 * (u * u * M) + u * t + t)) where
  zero := fun _ => by
    refine ⟨by simp [Arith.rounded, R.zero], by simp [Arith.rounded, R.zero], by simp [Arith.rounded, R.zero, hM0], ?_⟩
    simp [Arith.rounded, R.zero, ewMean, ewTotal]
    positivity
  room := fun _ _ _ _ h => h
  evict1 := fun _ _ _ h => absurd h (by norm_num)
  evict := fun _ _ _ _ _ _ _ _ h => absurd h (by omega)
  add := fun h => absurd h (by simp)
  decay := fun dd hdd xs x m s m' s' hI hr hxs => by
    obtain rfl : d = dd := by simpa using hdd
    obtain ⟨hrm, he, hma, herr⟩ := hI (fun y hy => hxs y (by simp [hy]))
    obtain ⟨hrx, hx⟩ := hxs x (by simp)
    have hm : m' = rnd (m + rnd ((if (lastN 0 (xs ++ [x])).length = 1 then rnd (1 : Int) else d) * rnd (x - m))) := hr.1
    have hrM : rnd (-M) = -M := by rw [R.neg, hM]
    rw [lastN_zero] at hm
    refine ⟨by rw [hm, R.idem], fun h => absurd h (by simp), ?_⟩
    by_cases hnil : xs = []
    · subst hnil
      rw [he rfl] at hm
      have : m' = x := by rw [hm]; simp [R.one, hrx]
      rw [this]
      refine ⟨hx, ?_⟩
      rw [List.nil_append, Moment.ewMean_one, sub_self, abs_zero, mul_zero]
      positivity
    · have hn : ¬ (xs ++ [x]).length = 1 := by
        have := List.length_pos_iff.2 hnil
        simp; omega
      rw [if_neg hn] at hm
      have hpre := R.ew_step hd hd0.le hd1 hrm hrx (abs_le.1 hma) (abs_le.1 hx)
      have hin := R.clamp hrM hM hpre
      rw [← hm] at hin
      refine ⟨abs_le.2 hin, ?_⟩
      have hstep := step_err hE hu ht hd0.le (show rnd (d * rnd (x - m)) = rnd (d * rnd (x - m)) from rfl) hma hx (abs_le.2 hpre)
      rw [← hm] at hstep
      rw [Moment.ewMean_snoc d hnil]
      set μ := ewMean d xs
      set η := u * M + 2 * t + d * (4 * (u * M) + 2 * (u * u * M) + u * t + t) with hη
      have e : m' - (μ + d * (x - μ)) = (m' - (m + d * (x - m))) + (1 - d) * (m - μ) := by ring
      rw [e]
      have h1 := abs_add_le (m' - (m + d * (x - m))) ((1 - d) * (m - μ))
      rw [abs_mul, abs_of_nonneg (show 0 ≤ 1 - d by linarith)] at h1
      have h2 : d * ((1 - d) * |m - μ|) ≤ (1 - d) * η := by
        have := mul_le_mul_of_nonneg_left herr (show 0 ≤ 1 - d by linarith)
        linarith
      have h3 := mul_le_mul_of_nonneg_left h1 hd0.le
      have h4 := mul_le_mul_of_nonneg_left hstep hd0.le
      linarith

/-- The rounding error of one step in either direction, without knowing that the result stays in the range. -/
theorem step_err' (hE : Accuracy rnd u t) (hu : 0 ≤ u) (hu1 : u ≤ 1 / 100) (ht : 0 ≤ t) {A m x g b σ : ℚ} (hg : 0 ≤ g) (hg1 : g ≤ 1)
    (hσ : |σ| = 1) (hb : b = rnd (g * rnd (x - m))) (hm : |m| ≤ A) (hx : |x| ≤ A) :
    |rnd (m + σ * b) - (m + σ * (g * (x - m)))| ≤ 8 * (u * A) + 4 * t := by
  have hA : 0 ≤ A := (abs_nonneg m).trans hm
  have huA : 0 ≤ u * A := mul_nonneg hu hA
  have huuA : u * (u * A) ≤ 1 / 100 * (u * A) := mul_le_mul_of_nonneg_right hu1 huA
  have huuuA : u * (u * (u * A)) ≤ 1 / 100 * (1 / 100 * (u * A)) :=
    (mul_le_mul_of_nonneg_right hu1 (by positivity)).trans (mul_le_mul_of_nonneg_left huuA (by norm_num))
  have hut : u * t ≤ 1 / 100 * t := mul_le_mul_of_nonneg_right hu1 ht
  have huut : u * (u * t) ≤ 1 / 100 * (1 / 100 * t) :=
    (mul_le_mul_of_nonneg_right hu1 (by positivity)).trans (mul_le_mul_of_nonneg_left hut (by norm_num))
  have hδ : |x - m| ≤ 2 * A := by
    rw [abs_le] at hm hx ⊢
    constructor <;> linarith
  have h1 := hE (x - m)
  have h2 := hE (g * rnd (x - m))
  have h3 := hE (m + σ * b)
  rw [← hb] at h2
  have a1 : |rnd (x - m) - (x - m)| ≤ 2 * (u * A) + t := by
    have := mul_le_mul_of_nonneg_left hδ hu
    linarith
  have a2 : |rnd (x - m)| ≤ 2 * A + 2 * (u * A) + t := by
    have := abs_add_le (rnd (x - m) - (x - m)) (x - m)
    rw [sub_add_cancel] at this
    linarith
  have ga : |g * rnd (x - m)| ≤ 2 * A + 2 * (u * A) + t := by
    rw [abs_mul, abs_of_nonneg hg]
    refine le_trans ?_ a2
    have := mul_le_mul_of_nonneg_right hg1 (abs_nonneg (rnd (x - m)))
    linarith
  have a3 : |b - g * rnd (x - m)| ≤ 2 * (u * A) + 2 * (u * (u * A)) + u * t + t := by
    refine h2.trans ?_
    have := mul_le_mul_of_nonneg_left ga hu
    linarith
  have a6 : |b| ≤ 2 * A + 4 * (u * A) + 2 * (u * (u * A)) + u * t + 2 * t := by
    have := abs_add_le (b - g * rnd (x - m)) (g * rnd (x - m))
    rw [sub_add_cancel] at this
    linarith
  have a7 : |m + σ * b| ≤ 3 * A + 4 * (u * A) + 2 * (u * (u * A)) + u * t + 2 * t := by
    have := abs_add_le m (σ * b)
    rw [abs_mul, hσ, one_mul] at this
    linarith
  have a4 : |rnd (m + σ * b) - (m + σ * b)| ≤ 3 * (u * A) + 4 * (u * (u * A)) + 2 * (u * (u * (u * A))) + u * (u * t) + 2 * (u * t) + t := by
    have := mul_le_mul_of_nonneg_left a7 hu
    linarith
  have a5 : |g * (rnd (x - m) - (x - m))| ≤ 2 * (u * A) + t := by
    rw [abs_mul, abs_of_nonneg hg]
    have := mul_le_mul_of_nonneg_right hg1 (abs_nonneg (rnd (x - m) - (x - m)))
    linarith
  have e : rnd (m + σ * b) - (m + σ * (g * (x - m))) =
      (rnd (m + σ * b) - (m + σ * b)) + σ * ((b - g * rnd (x - m)) + g * (rnd (x - m) - (x - m))) := by ring
  rw [e]
  have c1 := abs_add_le (rnd (m + σ * b) - (m + σ * b)) (σ * ((b - g * rnd (x - m)) + g * (rnd (x - m) - (x - m))))
  rw [abs_mul, hσ, one_mul] at c1
  have c2 := abs_add_le (b - g * rnd (x - m)) (g * (rnd (x - m) - (x - m)))
  linarith

theorem abs_mean_le {M : ℚ} (hM : 0 ≤ M) {xs : List ℚ} (h : ∀ x ∈ xs, |x| ≤ M) : |Spec.mean xs| ≤ M := by
  have hs : |xs.sum| ≤ xs.length * M := by
    induction xs with
    | nil => simp
    | cons x xs ih =>
      have h1 := ih (fun y hy => h y (by simp [hy]))
      have h2 := h x (by simp)
      have := abs_add_le x xs.sum
      simp only [List.sum_cons, List.length_cons]
      push_cast
      linarith
  unfold Spec.mean
  by_cases h0 : xs = []
  · subst h0; simpa using hM
  · have : (0 : ℚ) < xs.length := by exact_mod_cast List.length_pos_iff.2 h0
    rw [abs_div, abs_of_pos this, div_le_iff₀ this]
    linarith

/-- The drift of the mean of any core without decay: linear in the number of values pushed. -/
theorem track_drift (R : Rounding rnd) (hE : Accuracy rnd u t) (hu : 0 ≤ u) (hu1 : u ≤ 1 / 100) (ht : 0 ≤ t) {N : Nat}
    (hN : ∀ n : Nat, n ≤ N → rnd n = n) {M : ℚ} (hM0 : 0 ≤ M) (hNM : N * (48 * (u * M) + 8 * t) ≤ M) (w len : Nat) :
    Track (Arith.rounded rnd pw) w none len
      (fun xs m _ => xs.length ≤ N → (∀ x ∈ xs, rnd x = x ∧ |x| ≤ M) →
        (xs = [] → m = 0) ∧ |m - Spec.mean (lastN w xs)| ≤ xs.length * (48 * (u * M) + 8 * t))
      (fun xs m _ => xs.length < N → (∀ x ∈ xs, rnd x = x ∧ |x| ≤ M) → ∃ ws, (∀ x, lastN w (xs ++ [x]) = ws ++ [x]) ∧ (ws = [] → m = 0) ∧
        |m| ≤ 4 * M ∧
        ws.length * |m - Spec.mean ws| ≤ (ws.length + 1) * (xs.length * (48 * (u * M) + 8 * t)) + ws.length * (16 * (u * M) + 4 * t)) where
  zero := fun _ _ => by simp [Arith.rounded, R.zero, Spec.mean]
  room := fun xs m s hr hI hlN hxs => by
    obtain ⟨he, herr⟩ := hI hlN.le hxs
    have hρ : 0 ≤ 48 * (u * M) + 8 * t := by positivity
    have hK : (xs.length : ℚ) * (48 * (u * M) + 8 * t) ≤ M := by
      refine le_trans (mul_le_mul_of_nonneg_right ?_ hρ) hNM
      exact_mod_cast hlN.le
    refine ⟨lastN w xs, fun x => ?_, fun h => ?_, ?_, ?_⟩
    · rcases hr with rfl | hr
      · simp [lastN_zero]
      · exact lastN_snoc_room (by omega) _ _ (by omega)
    · by_contra hc
      exact lastN_ne_nil (fun c => hc (he c)) h
    · have h1 := abs_mean_le hM0 (xs := lastN w xs) (fun x hx => (hxs x (by
        unfold lastN at hx
        split_ifs at hx
        · exact hx
        · exact List.mem_of_mem_drop hx)).2)
      have h2 := abs_add_le (m - Spec.mean (lastN w xs)) (Spec.mean (lastN w xs))
      rw [sub_add_cancel] at h2
      linarith
    · have h1 := mul_le_mul_of_nonneg_left herr (show (0 : ℚ) ≤ (lastN w xs).length by positivity)
      have h2 : 0 ≤ (xs.length : ℚ) * (48 * (u * M) + 8 * t) := by positivity
      have h3 : 0 ≤ ((lastN w xs).length : ℚ) * (16 * (u * M) + 4 * t) := by positivity
      linarith
  evict1 := fun xs m s hw hne hI hlN hxs => by
    refine ⟨[], fun x => ?_, fun _ => by simp [Arith.rounded, R.zero], by simp [Arith.rounded, R.zero, hM0], ?_⟩
    · subst hw
      simp [lastN]
    · simp
      positivity
  evict := fun xs y ys m s m' s' hl hw hys hI hr hlN hxs => by
    obtain ⟨-, herr⟩ := hI hlN.le hxs
    have hρ : 0 ≤ 48 * (u * M) + 8 * t := by positivity
    have hK : (xs.length : ℚ) * (48 * (u * M) + 8 * t) ≤ M := by
      refine le_trans (mul_le_mul_of_nonneg_right ?_ hρ) hNM
      exact_mod_cast hlN.le
    have hρM : 48 * (u * M) + 8 * t ≤ M := by
      refine le_trans ?_ hNM
      have : (1 : ℚ) ≤ N := by exact_mod_cast (by omega : 1 ≤ N)
      nlinarith
    have hmem : ∀ x ∈ y :: ys, |x| ≤ M := by
      intro x hx
      rw [← hl] at hx
      refine (hxs x ?_).2
      unfold lastN at hx
      split_ifs at hx
      · exact hx
      · exact List.mem_of_mem_drop hx
    have hpos := List.length_pos_iff.2 hys
    have hlx : w ≤ xs.length := by
      have := congrArg List.length hl
      rw [lastN_length, if_neg (by omega)] at this
      simp at this
      omega
    have hk1 : (1 : ℚ) ≤ ys.length := by exact_mod_cast hpos
    have hnN := hN ys.length (by omega)
    have hm : m' = rnd (m - rnd (rnd (y - m) / rnd (ys.length : Int))) := hr.1
    rw [show (((ys.length : Nat) : Int) : ℚ) = (ys.length : ℚ) by push_cast; rfl, hnN] at hm
    rw [hl] at herr
    have hμ := abs_mean_le hM0 hmem
    have hma : |m| ≤ 2 * M := by
      have h2 := abs_add_le (m - Spec.mean (y :: ys)) (Spec.mean (y :: ys))
      rw [sub_add_cancel] at h2
      linarith
    set k : ℚ := (ys.length : ℚ) with hk
    have hstep := step_err' (σ := -1) hE hu hu1 ht (g := 1 / k) (by positivity) (by rw [div_le_one (by linarith)]; exact hk1) (by simp)
      (show rnd (rnd (y - m) / k) = rnd (1 / k * rnd (y - m)) by congr 1; field_simp) hma
      ((hmem y (by simp)).trans (by linarith))
    rw [show m + -1 * rnd (rnd (y - m) / k) = m - rnd (rnd (y - m) / k) by ring, ← hm] at hstep
    have hmean : Spec.mean ys = Spec.mean (y :: ys) - (y - Spec.mean (y :: ys)) / k := by
      unfold Spec.mean
      simp only [List.sum_cons, List.length_cons]
      push_cast
      rw [← hk]
      field_simp
      ring
    have hmeanys := abs_mean_le hM0 (xs := ys) (fun x hx => hmem x (by simp [hx]))
    set μ := Spec.mean (y :: ys)
    set K := (xs.length : ℚ) * (48 * (u * M) + 8 * t) with hKd
    have e : m' - Spec.mean ys = (m' - (m + -1 * (1 / k * (y - m)))) + (1 + 1 / k) * (m - μ) := by
      rw [hmean]; field_simp; ring
    have h1 : |m' - Spec.mean ys| ≤ (8 * (u * (2 * M)) + 4 * t) + (1 + 1 / k) * K := by
      rw [e]
      have h1 := abs_add_le (m' - (m + -1 * (1 / k * (y - m)))) ((1 + 1 / k) * (m - μ))
      rw [abs_mul, abs_of_nonneg (show 0 ≤ 1 + 1 / k by positivity)] at h1
      have := mul_le_mul_of_nonneg_left herr (show 0 ≤ 1 + 1 / k by positivity)
      linarith
    refine ⟨ys, fun x => ?_, fun h => absurd h hys, ?_, ?_⟩
    · rw [lastN_snoc_full (by omega) _ _ (by rw [hl]; simpa using hw), hl]; rfl
    · have h2 := abs_add_le (m' - Spec.mean ys) (Spec.mean ys)
      rw [sub_add_cancel] at h2
      have h3 : 1 / k ≤ 1 := by rw [div_le_one (by linarith)]; exact hk1
      have hK0 : 0 ≤ K := by positivity
      have h4 : (1 + 1 / k) * K ≤ 2 * M := by nlinarith
      have huM : 0 ≤ u * M := by positivity
      linarith
    · have h5 : k * ((1 + 1 / k) * K) = (k + 1) * K := by field_simp
      have h6 := mul_le_mul_of_nonneg_left h1 (show 0 ≤ k by linarith)
      linarith
  add := fun _ xs x m s m' s' hI hr hlN hxs => by
    have hl : (xs ++ [x]).length = xs.length + 1 := by simp
    obtain ⟨ws, hws, he, hma, herr⟩ := hI (by omega) (fun y hy => hxs y (by simp [hy]))
    obtain ⟨hrx, hx⟩ := hxs x (by simp)
    refine ⟨fun h => absurd h (by simp), ?_⟩
    have hwl : ws.length ≤ xs.length := by
      have h1 := congrArg List.length (hws x)
      have h2 := lastN_length w (xs ++ [x])
      rw [h1] at h2
      simp at h2
      split_ifs at h2 <;> omega
    have hm : m' = rnd (m + rnd (rnd (x - m) / rnd ((lastN w (xs ++ [x])).length : Int))) := hr.1
    have hnN := hN (ws.length + 1) (by omega)
    push_cast at hnN
    rw [hws, show (((ws ++ [x]).length : Int) : ℚ) = (ws.length : ℚ) + 1 by simp, hnN] at hm
    rw [hws, hl]
    have hρ : 0 ≤ 48 * (u * M) + 8 * t := by positivity
    by_cases hnil : ws = []
    · subst hnil
      rw [he rfl] at hm
      have : m' = x := by rw [hm]; simp [hrx]
      rw [this]
      simp [Spec.mean]
      positivity
    · have hpos := List.length_pos_iff.2 hnil
      have hk1 : (1 : ℚ) ≤ ws.length := by exact_mod_cast hpos
      have hstep := step_err' (σ := 1) hE hu hu1 ht (g := 1 / ((ws.length : ℚ) + 1)) (by positivity)
        (by rw [div_le_one (by positivity)]; linarith) (by simp)
        (show rnd (rnd (x - m) / ((ws.length : ℚ) + 1)) = rnd (1 / ((ws.length : ℚ) + 1) * rnd (x - m)) by congr 1; field_simp) hma
        (hx.trans (by linarith))
      rw [one_mul, ← hm, one_mul] at hstep
      rw [Moment.mean_snoc]
      set k : ℚ := (ws.length : ℚ) with hk
      set μ := Spec.mean ws
      have e : m' - (μ + (x - μ) / (k + 1)) = (m' - (m + 1 / (k + 1) * (x - m))) + (k / (k + 1)) * (m - μ) := by
        field_simp; ring
      rw [e]
      have h1 := abs_add_le (m' - (m + 1 / (k + 1) * (x - m))) ((k / (k + 1)) * (m - μ))
      rw [abs_mul, abs_of_nonneg (show 0 ≤ k / (k + 1) by positivity)] at h1
      have h3 : k / (k + 1) * |m - μ| = (k * |m - μ|) / (k + 1) := by ring
      have h4 : (k * |m - μ|) / (k + 1) ≤ xs.length * (48 * (u * M) + 8 * t) + (16 * (u * M) + 4 * t) := by
        rw [div_le_iff₀ (by positivity)]
        have : 0 ≤ 16 * (u * M) + 4 * t := by positivity
        linarith
      push_cast
      linarith
  decay := fun _ h => absurd h (by simp)

end accuracy

/-! ### NaN and infinities -/

section poison
variable {rnd : ℚ → XF ℚ} {pw : ℚ → Nat → XF ℚ}

/-- NaN or an infinity. -/
def NonFinite (x : XF ℚ) : Prop := ∀ q, x ≠ .fin q

theorem nonFinite_iff {x : XF ℚ} : NonFinite x ↔ x = .nan ∨ ∃ s, x = .inf s := by
  cases x <;> simp [NonFinite]

/-- Adding a value to a non-finite mean gives NaN. -/
theorem add_nonFinite {m x : XF ℚ} (hm : NonFinite m) {q : ℚ} (hq : 0 < q) :
    (Arith.ieee rnd pw).add m ((Arith.ieee rnd pw).div ((Arith.ieee rnd pw).sub x m) (.fin q)) = .nan := by
  rcases nonFinite_iff.1 hm with rfl | ⟨s, rfl⟩
  · rfl
  · cases x with
    | nan => rfl
    | fin a => cases s <;> simp [Arith.ieee, not_lt.2 hq.le]
    | inf t => cases s <;> cases t <;> simp [Arith.ieee, not_lt.2 hq.le]

/-- Adding a non-finite value makes the mean non-finite. -/
theorem add_nonFinite' {m x : XF ℚ} (hx : NonFinite x) {q : ℚ} (hq : 0 < q) :
    NonFinite ((Arith.ieee rnd pw).add m ((Arith.ieee rnd pw).div ((Arith.ieee rnd pw).sub x m) (.fin q))) := by
  rw [nonFinite_iff]
  rcases nonFinite_iff.1 hx with rfl | ⟨s, rfl⟩
  · cases m <;> exact .inl rfl
  · cases m with
    | nan => exact .inl rfl
    | fin a => exact .inr ⟨s, by cases s <;> simp [Arith.ieee, not_lt.2 hq.le]⟩
    | inf t => cases s <;> cases t <;> simp [Arith.ieee, not_lt.2 hq.le]

/-- Removing a value does not make a non-finite mean finite. -/
theorem remove_nonFinite {m y : XF ℚ} (hm : NonFinite m) {q : ℚ} (hq : 0 < q) :
    NonFinite ((Arith.ieee rnd pw).sub m ((Arith.ieee rnd pw).div ((Arith.ieee rnd pw).sub y m) (.fin q))) := by
  rw [nonFinite_iff]
  rcases nonFinite_iff.1 hm with rfl | ⟨s, rfl⟩
  · exact .inl rfl
  · cases y with
    | nan => exact .inl (by cases s <;> rfl)
    | fin a => exact .inr ⟨s, by cases s <;> simp [Arith.ieee, not_lt.2 hq.le]⟩
    | inf t => cases s <;> cases t <;> simp [Arith.ieee, not_lt.2 hq.le]

theorem ieee_add_nan (x : XF ℚ) : (Arith.ieee rnd pw).add .nan x = .nan := rfl

theorem ieee_sub_nan (x : XF ℚ) : (Arith.ieee rnd pw).sub .nan x = .nan := rfl

theorem ieee_sub_nan' (x : XF ℚ) : (Arith.ieee rnd pw).sub x .nan = .nan := by cases x <;> rfl

theorem ieee_mul_nan' (x : XF ℚ) : (Arith.ieee rnd pw).mul x .nan = .nan := by cases x <;> rfl

theorem ieee_pow_nan {k : Nat} (h : k ≠ 0) : (Arith.ieee rnd pw).pow .nan k = .nan := by simp [Arith.ieee, h]

/-- What a non-finite value does to a windowed core: the mean is NaN from the next push on, the sums from the moment it leaves. -/
theorem track_poison {w : Nat} (hw : 2 ≤ w) (hn : ∀ n : Nat, 1 ≤ n → n ≤ w → ∃ q, 0 < q ∧ rnd (n : Int) = .fin q) (len : Nat) :
    Track (Arith.ieee rnd pw) w none len
      (fun xs m s => ((∃ y ∈ xs, NonFinite y) → NonFinite m) ∧ ((∃ y ∈ xs.dropLast, NonFinite y) → m = .nan) ∧
        ((∃ y ∈ xs.take (xs.length - w), NonFinite y) → ∀ k, 2 ≤ k → k < len → s k = .nan))
      (fun xs m s => ((∃ y ∈ xs, NonFinite y) → NonFinite m) ∧ ((∃ y ∈ xs.dropLast, NonFinite y) → m = .nan) ∧
        ((∃ y ∈ xs.take (xs.length + 1 - w), NonFinite y) → ∀ k, 2 ≤ k → k < len → s k = .nan)) where
  zero := by simp
  room := fun xs m s hr hI => by
    have : xs.length + 1 - w = 0 := by
      rcases hr with hr | hr
      · omega
      · rw [lastN_length, if_neg (by omega)] at hr; omega
    refine ⟨hI.1, hI.2.1, ?_⟩
    rw [this]; simp
  evict1 := fun _ _ _ h => absurd h (by omega)
  evict := fun xs y ys m s m' s' hl hlen hys hI hr => by
    obtain ⟨i1, i2, i3⟩ := hI
    have hpos : 0 < ys.length := List.length_pos_iff.2 hys
    obtain ⟨q, hq, hnq⟩ := hn ys.length hpos (by omega)
    have hxl : w ≤ xs.length := by
      have := congrArg List.length hl
      rw [lastN_length, if_neg (by omega)] at this
      simp at this
      omega
    have hxs : xs = xs.take (xs.length - w) ++ (y :: ys) := by
      rw [← hl, lastN, if_neg (by omega), List.take_append_drop]
    obtain ⟨hm, hs⟩ := hr
    have hm' : m' = (Arith.ieee rnd pw).sub m ((Arith.ieee rnd pw).div ((Arith.ieee rnd pw).sub y m) (.fin q)) := by
      rw [hm, ← hnq]; rfl
    refine ⟨fun h => hm' ▸ remove_nonFinite (i1 h) hq, fun h => by rw [hm', i2 h]; rfl, ?_⟩
    rintro ⟨z, hz, hzf⟩ k hk1 hk2
    have htake : xs.take (xs.length + 1 - w) = xs.take (xs.length - w) ++ [y] := by
      have hlt : (xs.take (xs.length - w)).length = xs.length - w := by simp
      conv_lhs => rw [hxs]
      rw [show (xs.take (xs.length - w) ++ y :: ys).length + 1 - w = (xs.take (xs.length - w)).length + 1 by simp; omega,
        List.take_length_add_append]
      simp
    rw [htake, List.mem_append] at hz
    rw [hs k, if_pos ⟨hk1, hk2⟩]
    refine foldV_inv (fun v : XF ℚ => v = .nan) _ _ _ (fun a j _ _ ha => ?_) ?_
    · rw [ha]; rfl
    rcases hz with hz | hz
    · simp only [lt_irrefl, if_false, i3 ⟨z, hz, hzf⟩ k hk1 hk2]; rfl
    · have hzy : z = y := by simpa using hz
      subst hzy
      have hmn : m = .nan := by
        refine i2 ⟨z, ?_, hzf⟩
        rw [hxs, List.dropLast_append_of_ne_nil (by simp), List.dropLast_cons_of_ne_nil hys]
        simp
      have : m' = .nan := by rw [hm', hmn]; rfl
      rw [this, ieee_sub_nan', ieee_pow_nan (by omega), ieee_mul_nan', ieee_sub_nan']
  add := fun _ xs x m s m' s' hI hr => by
    obtain ⟨i1, i2, i3⟩ := hI
    obtain ⟨hm, hs⟩ := hr
    have hl1 : 1 ≤ (lastN w (xs ++ [x])).length := List.length_pos_iff.2 (lastN_ne_nil (by simp))
    obtain ⟨q, hq, hnq⟩ := hn _ hl1 (lastN_length_le (by omega) _)
    have hm' : m' = (Arith.ieee rnd pw).add m ((Arith.ieee rnd pw).div ((Arith.ieee rnd pw).sub x m) (.fin q)) := by
      rw [hm, ← hnq]; rfl
    refine ⟨?_, ?_, ?_⟩
    · rintro ⟨z, hz, hzf⟩
      rw [hm']
      rcases List.mem_append.1 hz with hz | hz
      · rw [add_nonFinite (i1 ⟨z, hz, hzf⟩) hq, nonFinite_iff]; exact .inl rfl
      · have : z = x := by simpa using hz
        subst this
        exact add_nonFinite' hzf hq
    · rw [List.dropLast_concat]
      intro h
      rw [hm']
      exact add_nonFinite (i1 h) hq
    · rintro ⟨z, hz, hzf⟩ k hk1 hk2
      have : (xs ++ [x]).take ((xs ++ [x]).length - w) = xs.take (xs.length + 1 - w) := by
        rw [List.take_append_of_le_length (by simp; omega)]
        simp
      rw [this] at hz
      rw [hs k, if_pos ⟨hk1, hk2⟩]
      refine foldV_inv (fun v : XF ℚ => v = .nan) _ _ _ (fun a j _ _ ha => ?_) ?_
      · rw [ha]; rfl
      rw [i3 ⟨z, hz, hzf⟩ k hk1 hk2]; rfl
  decay := fun _ h => absurd h (by simp)

end poison

/-! ### Forgetting -/

section forget
variable {F : Type} (A : Arith F)

theorem AddStep.unique {len : Nat} {n : Int} {x m : F} {s : Nat → F} {m1 m2 : F} {s1 s2 : Nat → F} (h1 : AddStep A len n x m s m1 s1)
    (h2 : AddStep A len n x m s m2 s2) : m1 = m2 ∧ s1 = s2 := by
  refine ⟨h1.1.trans h2.1.symm, funext fun k => ?_⟩
  rw [h1.2 k, h2.2 k]

/-- With window 1 nothing of the past is left. -/
theorem track_one (len : Nat) :
    Track A 1 none len
      (fun xs m s => (xs = [] → m = A.ofInt 0 ∧ s = fun _ => A.ofInt 0) ∧
        ∀ x, xs.getLast? = some x → AddStep A len 1 x (A.ofInt 0) (fun _ => A.ofInt 0) m s)
      (fun _ m s => m = A.ofInt 0 ∧ s = fun _ => A.ofInt 0) where
  zero := by simp
  room := fun xs m s hr hI => by
    refine hI.1 ?_
    rcases hr with hr | hr
    · omega
    · rw [lastN_length, if_neg (by omega)] at hr
      exact List.length_eq_zero_iff.1 (by omega)
  evict1 := fun xs m s _ _ _ => ⟨rfl, rfl⟩
  evict := fun xs y ys m s m' s' _ hl hys => absurd (List.length_eq_zero_iff.1 (by omega)) hys
  add := fun _ xs x m s m' s' hI hr => by
    obtain ⟨rfl, rfl⟩ := hI
    refine ⟨fun h => absurd h (by simp), fun z hz => ?_⟩
    obtain rfl : x = z := by simpa using hz
    have : (lastN 1 (xs ++ [x])).length = 1 := by rw [lastN_length]; simp
    rw [this] at hr
    exact hr
  decay := fun _ h => absurd h (by simp)

/-- Nothing is assumed about the numbers. -/
theorem track_true (w : Nat) (d : Option F) (len : Nat) : Track A w d len (fun _ _ _ => True) (fun _ _ _ => True) :=
  ⟨trivial, fun _ _ _ _ _ => trivial, fun _ _ _ _ _ _ => trivial, fun _ _ _ _ _ _ _ _ _ _ _ _ => trivial,
    fun _ _ _ _ _ _ _ _ _ => trivial, fun _ _ _ _ _ _ _ _ _ _ => trivial⟩

end forget

end Verif.FP
