import Verif.Proofs.NoOverflow
import Verif.Props.HighMoments
import Verif.Props.Variance

/-! # C94: data of moderate size never overflow

The arithmetic here has infinities and NaN: `ieeeOf rnd64 pw over64` is binary64 with the power function `pw`. The earlier bounds (C69, C82, C93)
are for rounding without overflow. -/

namespace Verif.Props
open Verif Verif.Spec Verif.FP
open Verif.Moment (Core Config)

/-- With a correctly rounded power this is the arithmetic of the model. -/
example : ieeeOf rnd64 (fun x k => rnd64 (x ^ k)) over64 = Arith.ieee64 := rfl

/-- Finite values as values of the IEEE arithmetic. -/
def finOps (ops : List (MOp ℚ)) : List (MOp (XF ℚ)) :=
  ops.map (fun o => match o with | .push x => .push (.fin x) | .clear => .clear)

theorem since_finOps (ops : List (MOp ℚ)) : since (finOps ops) = (since ops).map XF.fin := by
  induction ops using List.reverseRecOn with
  | nil => rfl
  | append_singleton ops op ih =>
    unfold finOps at ih ⊢
    rw [List.map_append]
    cases op with
    | push x => simp only [List.map_cons, List.map_nil, since_push, ih, List.map_append]
    | clear => simp only [List.map_cons, List.map_nil, since_clear]

theorem over64_fin (q : ℚ) (h : |q| < two 1024) : over64 q = .fin q := by
  rw [abs_lt] at h
  rw [over64, if_neg (by linarith), if_neg (by linarith)]

theorem lt1024 : 1 < two 1024 ∧ 2 ^ 53 < two 1024 ∧ 2 * (2 ^ 43) ^ 20 < two 1024 ∧ 20 * 2 ^ 1019 < two 1024 := by decide +kernel

attribute [local irreducible] two

section
variable {pw : ℚ → Nat → ℚ}

/-- C94, the mean, any window: no infinity and no NaN appears as long as the values are at most `2^1019`; the error is that of C69. -/
theorem C94_mean {cfg : Config (XF ℚ)} {c : Core (XF ℚ)} (hn : newCore (ieeeOf rnd64 pw over64) cfg = .ok c) {w : Nat}
    (hw : cfg.window = some (w : Int)) (hd : cfg.decay = none) (hs : ∀ k ∈ cfg.sums.getD [], k ≤ 65) {M : ℚ} (hM : M ≤ 2 ^ 1019)
    (ops : List (MOp ℚ)) (hlen : (since ops).length < 2 ^ 53) (hx : ∀ x ∈ since ops, rnd64 x = x ∧ |x| ≤ M) (hne : since ops ≠ [])
    (hsmall : (since ops).length * (48 * (1 / 2 ^ 53 * M) + 8 * (1 / 2 ^ 1075)) ≤ M) :
    ∃ c' v, run (ieeeOf rnd64 pw over64) c (finOps ops) = .val (c', []) ∧ mean c' = .ok (.fin v) ∧
      |v - (windowOf w ops).sum / (windowOf w ops).length| ≤ (since ops).length * (48 * (1 / 2 ^ 53 * M) + 8 * (1 / 2 ^ 1075)) := by
  have hM0 : 0 ≤ M := by
    obtain ⟨x, hx'⟩ := List.exists_mem_of_ne_nil _ hne
    exact (abs_nonneg x).trans (hx x hx').2
  have ht : (1 : ℚ) / 2 ^ 1075 ≤ M / 2 := by
    have h1 : (1 : ℚ) ≤ (since ops).length := by exact_mod_cast List.length_pos_iff.2 hne
    have h2 : (0 : ℚ) ≤ 1 / 2 ^ 1075 := by positivity
    generalize (1 : ℚ) / 2 ^ 1075 = t at *
    have h3 : 1 * (48 * (1 / 2 ^ 53 * M) + 8 * t) ≤ (since ops).length * (48 * (1 / 2 ^ 53 * M) + 8 * t) :=
      mul_le_mul_of_nonneg_right h1 (by positivity)
    have h4 : 0 ≤ 1 / 2 ^ 53 * M := by positivity
    linarith
  have h1 : 20 * M < two 1024 := lt_of_le_of_lt (mul_le_mul_of_nonneg_left hM (by norm_num)) lt1024.2.2.2
  have h2 : ((since ops).length : ℚ) < two 1024 := lt_trans (by exact_mod_cast hlen) lt1024.2.1
  obtain ⟨c', e, B, hI⟩ := core_track _ hn hs hw
    (hd ▸ track_drift_fin rounding_rnd64 accuracy_rnd64 (by norm_num) (by norm_num) (N := (since ops).length)
      (fun n h => rnd64_nat (by omega)) (by norm_num) ht hsmall over64_fin h1 h2 w c.len) (finOps ops)
  obtain ⟨m0, hm, -, hb⟩ := hI (since ops) (since_finOps ops) le_rfl hx
  exact ⟨c', m0, e, by rw [B.mean_ok (by rw [since_finOps]; simpa using hne), hm], hb⟩

/-- C94, the second power sum, any window: no infinity and no NaN appears as long as `900·(n + 1)·M² < 2^1024`; the error is that of C82. -/
theorem C94_window {cfg : Config (XF ℚ)} {c : Core (XF ℚ)} (hn : newCore (ieeeOf rnd64 pw over64) cfg = .ok c) {w : Nat}
    (hw : cfg.window = some (w : Int)) (hd : cfg.decay = none) (hs : ∀ k ∈ cfg.sums.getD [], k ≤ 65) (h2 : ∃ k ∈ cfg.sums.getD [], 2 ≤ k)
    {M : ℚ} (hM0 : 1 / 2 ^ 480 ≤ M) (ops : List (MOp ℚ)) (hlen : (since ops).length ≤ 2 ^ 43)
    (hP : PowSq pw (1 / 2 ^ 53) (1 / 2 ^ 1075) (since ops).length) (hx : ∀ x ∈ since ops, rnd64 x = x ∧ |x| ≤ M) (hne : since ops ≠ [])
    (hfit : 900 * (((since ops).length + 1) * (M * M)) < two 1024) :
    ∃ c' v, run (ieeeOf rnd64 pw over64) c (finOps ops) = .val (c', []) ∧ sum c' 2 = .ok (.fin v) ∧
      |v - csum 2 (windowOf w ops)| ≤ 250 * (since ops).length * (windowOf w ops).length * (1 / 2 ^ 53) * M ^ 2 := by
  obtain ⟨w', hw', hc, -⟩ := newCore_ok _ hn
  have hl : 2 < c.len := by rw [hc]; exact (lt_mk_len _ 2).2 h2
  have S := small64 hM0 hlen
  have h1 : 20 * M < two 1024 := by
    rcases le_or_gt M 1 with h | h
    · exact lt_of_le_of_lt (by linarith) lt1024.2.1
    · have h3 : M ≤ M * M := le_mul_of_one_le_left S.M0 h.le
      have h4 : 0 ≤ ((since ops).length : ℚ) * (M * M) := mul_nonneg (by positivity) (by linarith)
      linarith
  have h3 : 3 + 2 * (((since ops).length : ℚ) * (since ops).length) < two 1024 := by
    have h5 : ((since ops).length : ℚ) ≤ 2 ^ 43 := by exact_mod_cast hlen
    have h6 := mul_le_mul h5 h5 (by positivity) (by positivity)
    exact lt_of_le_of_lt (by norm_num at h6 ⊢; linarith) lt1024.2.2.1
  obtain ⟨c', e, B, hI⟩ := core_track _ hn hs hw
    (hd ▸ track_sum_drift_fin rounding_rnd64 accuracy_rnd64 (N := (since ops).length) (fun n h => rnd64_nat (by omega)) S (by norm_num) hP
      over64_fin h1 hfit h3 w hl) (finOps ops)
  obtain ⟨m0, s0, -, hs0, -, -, -, heq⟩ := hI (since ops) (since_finOps ops) le_rfl hx
  have hb := mst_linear (pw := pw) rounding_rnd64 accuracy_rnd64 (N := (since ops).length) (fun n h => rnd64_nat (by omega)) S hP w
    (since ops) le_rfl hx
  rw [← heq] at hb
  refine ⟨c', s0, e, ?_, hb.trans (le_of_eq (by rw [windowOf]; ring))⟩
  exact (B.sum_ok (k := 2) (by rw [since_finOps]; simpa using hne) (by norm_num) hl).trans (congrArg _ hs0)

/-- C94, the power sums, windows of 0 without decay: no infinity and no NaN appears as long as `8·2^k·n·(1 + (2M)^k) < 2^1024`; the error is
that of C93. -/
theorem C94_sum {cfg : Config (XF ℚ)} {c : Core (XF ℚ)} (hn : newCore (ieeeOf rnd64 pw over64) cfg = .ok c) (hw : cfg.window = some 0)
    (hd : cfg.decay = none) (hs : ∀ k ∈ cfg.sums.getD [], k ≤ 65) {k : Nat} (hk2 : 2 ≤ k) (hk : k ≤ 20)
    (h2 : ∃ i ∈ cfg.sums.getD [], (k : Int) ≤ i) {u : ℚ} (hu : 1 / 2 ^ 53 ≤ u) (hu1 : u ≤ 1 / 4096) (hP : PowAcc pw u (1 / 2 ^ 1075)) {M : ℚ}
    (hM : rnd64 M = M) (hM0 : 1 / 2 ^ 50 ≤ M) (ops : List (MOp ℚ)) (hlen : (since ops).length * u ≤ 1 / 1024)
    (hsm : errC k * ((since ops).length * u) ≤ 2 ^ k) (hx : ∀ x ∈ since ops, rnd64 x = x ∧ |x| ≤ M) (hne : since ops ≠ [])
    (hfit : 8 * 2 ^ k * ((since ops).length * (1 + (2 * M) ^ k)) < two 1024) :
    ∃ c' v, run (ieeeOf rnd64 pw over64) c (finOps ops) = .val (c', []) ∧ sum c' k = .ok (.fin v) ∧
      |v - csum k (since ops)| ≤ errC k * (since ops).length ^ 2 * u * M ^ k := by
  obtain ⟨w, hw', hc, -⟩ := newCore_ok _ hn
  have hl : k < c.len := by rw [hc]; exact (lt_mk_len _ k).2 h2
  have S := tiny64 hu hu1 hM0 hlen hk
  have hn43 : ((since ops).length : ℚ) ≤ 2 ^ 43 := by
    by_contra h
    push Not at h
    have : (2 : ℚ) ^ 43 * (1 / 2 ^ 53) < (since ops).length * u := mul_lt_mul h hu (by positivity) (by positivity)
    norm_num at this hlen
    linarith
  have hN : ∀ m : Nat, m ≤ (since ops).length → rnd64 m = m := fun m hm => rnd64_nat (by
    have : (since ops).length ≤ 2 ^ 43 := by exact_mod_cast hn43
    omega)
  have hΩ1 : 2 * ((since ops).length : ℚ) ^ k < two 1024 := by
    have h1 : ((since ops).length : ℚ) ^ k ≤ (2 ^ 43) ^ 20 := by
      calc ((since ops).length : ℚ) ^ k ≤ (2 ^ 43) ^ k := pow_le_pow_left₀ (by positivity) hn43 _
        _ ≤ (2 ^ 43) ^ 20 := pow_le_pow_right₀ (by norm_num) hk
    exact lt_of_le_of_lt (mul_le_mul_of_nonneg_left h1 (by norm_num)) lt1024.2.2.1
  have hΩ0 : 1 < two 1024 := lt1024.1
  obtain ⟨c', e, B, hI⟩ := core_track _ hn hs (w := 0) hw
    (hd ▸ track_high_fin rounding_rnd64 (accuracy_weaken hu) hN S hP hk2 hk hsm hM over64_fin hΩ1 hfit hΩ0 c.len (track_true _ 0 none c.len)) (finOps ops)
  obtain ⟨m0, s0, -, hs0, -, hb, -⟩ := hI (since ops) (since_finOps ops) le_rfl hx
  refine ⟨c', s0 k, e, ?_, (hb k hk2 le_rfl hl).trans (le_of_eq (by ring))⟩
  rw [B.sum_ok (k := k) (by rw [since_finOps]; simpa using hne) (by exact_mod_cast (show 1 ≤ k by omega)) (by exact_mod_cast hl)]
  exact congrArg _ (hs0 k hk2 le_rfl hl)

/-- C94, the moments of at least two values. -/
theorem C94_moment {cfg : Config (XF ℚ)} {c : Core (XF ℚ)} (hn : newCore (ieeeOf rnd64 pw over64) cfg = .ok c) (hw : cfg.window = some 0)
    (hd : cfg.decay = none) (hs : ∀ k ∈ cfg.sums.getD [], k ≤ 65) {k : Nat} (hk2 : 2 ≤ k) (hk : k ≤ 20)
    (h2 : ∃ i ∈ cfg.sums.getD [], (k : Int) ≤ i) {u : ℚ} (hu : 1 / 2 ^ 53 ≤ u) (hu1 : u ≤ 1 / 4096) (hP : PowAcc pw u (1 / 2 ^ 1075)) {M : ℚ}
    (hM : rnd64 M = M) (hM0 : 1 / 2 ^ 50 ≤ M) (ops : List (MOp ℚ)) (hlen : (since ops).length * u ≤ 1 / 1024)
    (hsm : errC k * ((since ops).length * u) ≤ 2 ^ k) (hx : ∀ x ∈ since ops, rnd64 x = x ∧ |x| ≤ M) (hne : 2 ≤ (since ops).length)
    (hfit : 8 * 2 ^ k * ((since ops).length * (1 + (2 * M) ^ k)) < two 1024) :
    ∃ c' v, run (ieeeOf rnd64 pw over64) c (finOps ops) = .val (c', []) ∧ momentValue (ieeeOf rnd64 pw over64) c' k = .ok (.fin v) ∧
      |v - csum k (since ops) / ((since ops).length - 1)| ≤ 3 * errC k * (since ops).length * u * M ^ k := by
  have hne' : since ops ≠ [] := by
    intro h
    rw [h] at hne
    simp at hne
  obtain ⟨c', s, r, hsum, hb⟩ := C94_sum hn hw hd hs hk2 hk h2 hu hu1 hP hM hM0 ops hlen hsm hx hne' hfit
  obtain ⟨w, c2, hw2, r2, hcnt, -⟩ := C64_any_arithmetic _ hn hs (finOps ops)
  rw [r] at r2
  simp only [Go.val.injEq, Prod.mk.injEq, and_true] at r2
  subst r2
  have hw0 : w = 0 := by
    rw [hw] at hw2
    have := Option.some.inj hw2
    omega
  subst hw0
  have hcnt' : c'.count = ((since ops).length : Int) := by rw [hcnt, windowOf, lastN_zero, since_finOps, List.length_map]
  have hn53 : (since ops).length < 2 ^ 53 := by
    by_contra h
    have h1 : (2 : ℚ) ^ 53 ≤ (since ops).length := by exact_mod_cast (show 2 ^ 53 ≤ (since ops).length by omega)
    have h3 := mul_le_mul h1 hu (by positivity) (by positivity)
    norm_num at h3 hlen
    linarith
  have hb' := moment_error hk2 hk hu hu1 hM0 hlen hsm hx hne hb
  refine ⟨c', rnd64 (s / ((since ops).length - 1)), r, ?_, hb'⟩
  have hlt53 : ((since ops).length : ℚ) < two 1024 := lt_trans (by exact_mod_cast hn53) lt1024.2.1
  have hn2 : (2 : ℚ) ≤ (since ops).length := by exact_mod_cast hne
  have e0 : (ieeeOf rnd64 pw over64).ofInt 1 = .fin 1 := by
    show over64 (rnd64 ((1 : Int) : ℚ)) = _
    rw [Int.cast_one, rounding_rnd64.one]
    exact over64_fin _ (by rw [abs_one]; linarith)
  have e1 : (ieeeOf rnd64 pw over64).ofInt ((since ops).length : Int) = .fin (since ops).length := by
    show over64 (rnd64 ((((since ops).length : Nat) : Int) : ℚ)) = _
    rw [Int.cast_natCast, rnd64_nat (by omega)]
    exact over64_fin _ (by rw [abs_of_nonneg (by linarith)]; linarith)
  have e2 : (ieeeOf rnd64 pw over64).sub (.fin (since ops).length) (.fin 1) = .fin ((since ops).length - 1) := by
    show over64 (rnd64 (((since ops).length : ℚ) - 1)) = _
    have h1 : rnd64 (((since ops).length : ℚ) - 1) = (since ops).length - 1 := by
      have := rnd64_nat (n := (since ops).length - 1) (by omega)
      rwa [Nat.cast_sub (by omega), Nat.cast_one] at this
    rw [h1]
    exact over64_fin _ (by rw [abs_of_nonneg (by linarith)]; linarith)
  have hval : |rnd64 (s / ((since ops).length - 1))| < two 1024 := by
    have S := tiny64 hu hu1 hM0 hlen hk
    have hS1 := abs_csum_le S.M0 (fun y hy => (hx y hy).2) k
    have hMk : 0 ≤ M ^ k := pow_nonneg S.M0 k
    rw [mul_pow] at hS1 hfit
    set n : ℚ := ((since ops).length : ℚ)
    set Q := csum k (since ops)
    have hn1 : 0 < n - 1 := by linarith
    have hQ : |Q / (n - 1)| ≤ n * (2 ^ k * M ^ k) := by
      rw [abs_div, abs_of_pos hn1]
      exact (div_le_self (abs_nonneg _) (by linarith)).trans hS1
    have h1 := mul_le_mul_of_nonneg_right hsm hMk
    have h5 := abs_add_le (rnd64 (s / (n - 1)) - Q / (n - 1)) (Q / (n - 1))
    rw [sub_add_cancel] at h5
    have h6 : 0 ≤ 2 ^ k * M ^ k := by positivity
    have h7 : 2 * (2 ^ k * M ^ k) ≤ n * (2 ^ k * M ^ k) := mul_le_mul_of_nonneg_right hn2 h6
    have h8 : n * (2 ^ k * M ^ k) ≤ 2 ^ k * (n * (1 + 2 ^ k * M ^ k)) := by
      have h9 : (1 : ℚ) ≤ 2 ^ k := one_le_pow₀ (by norm_num)
      have h10 : n * (2 ^ k * M ^ k) ≤ n * (1 + 2 ^ k * M ^ k) := mul_le_mul_of_nonneg_left (by linarith) (by linarith)
      have h11 := le_mul_of_one_le_left (show 0 ≤ n * (1 + 2 ^ k * M ^ k) by positivity) h9
      linarith
    linarith
  simp only [momentValue, hsum, hcnt', e0, e1, e2]
  congr 1
  simp only [Arith.ieee]
  rw [if_neg (by linarith), over64_fin _ hval]

/-- C94, exponentially weighted: no infinity and no NaN appears as long as `8·2^k·(1 + (2M)^k) < 2^1024`, however many values are pushed. -/
theorem C94_ewm {cfg : Config (XF ℚ)} {c : Core (XF ℚ)} (hn : newCore (ieeeOf rnd64 pw over64) cfg = .ok c) {d : ℚ}
    (hd : cfg.decay = some (.fin d)) (hrd : rnd64 d = d) (hs : ∀ k ∈ cfg.sums.getD [], k ≤ 65) {k : Nat} (hk2 : 2 ≤ k) (hk : k ≤ 20)
    (h2 : ∃ i ∈ cfg.sums.getD [], (k : Int) ≤ i) {u : ℚ} (hu : 1 / 2 ^ 53 ≤ u) (hu1 : u ≤ 1 / 4096) (hP : PowAcc pw u (1 / 2 ^ 1075)) {M : ℚ}
    (hM : rnd64 M = M) (hM0 : 1 / 2 ^ 50 ≤ M) (hsm : errC k * (u / d) ≤ 2 ^ k) (ops : List (MOp ℚ))
    (hx : ∀ x ∈ since ops, rnd64 x = x ∧ |x| ≤ M) (hne : since ops ≠ []) (hfit : 8 * 2 ^ k * (1 + (2 * M) ^ k) < two 1024) :
    ∃ c' m v, run (ieeeOf rnd64 pw over64) c (finOps ops) = .val (c', []) ∧ mean c' = .ok (.fin m) ∧ |m| ≤ M ∧ sum c' k = .ok (.fin v) ∧
      |v - ewMoment d k (since ops)| ≤ errC k * (u / d) * M ^ k := by
  obtain ⟨w, hw, hc, hdd⟩ := newCore_ok _ hn
  have hΩ0 : 1 < two 1024 := lt1024.1
  have e0 : (ieeeOf rnd64 pw over64).ofInt 0 = .fin 0 := by
    show over64 (rnd64 ((0 : Int) : ℚ)) = _
    rw [Int.cast_zero, rounding_rnd64.zero]
    exact over64_fin _ (by rw [abs_zero]; linarith)
  have e1 : (ieeeOf rnd64 pw over64).ofInt 1 = .fin 1 := by
    show over64 (rnd64 ((1 : Int) : ℚ)) = _
    rw [Int.cast_one, rounding_rnd64.one]
    exact over64_fin _ (by rw [abs_one]; linarith)
  obtain ⟨a, b, rfl⟩ := hdd _ hd
  rw [e0] at a
  rw [e1] at b
  simp only [GoOrd.le, decide_eq_false_iff_not, not_le] at a b
  have hl : k < c.len := by rw [hc]; exact (lt_mk_len _ k).2 h2
  have S := tiny64 hu hu1 hM0 (n := 1) (k := k) (by rw [Nat.cast_one, one_mul]; linarith) hk
  obtain ⟨c', e, B, hI⟩ := core_track _ hn hs hw
    (hd ▸ track_high_ew_fin rounding_rnd64 (accuracy_weaken hu) S hP hk2 hk hrd a b hsm hM over64_fin hfit hΩ0 c.len) (finOps ops)
  obtain ⟨m0, s0, hm, hs0, hmb, hb⟩ := hI (since ops) (since_finOps ops) hx
  have hne' : since (finOps ops) ≠ [] := by rw [since_finOps]; simpa using hne
  refine ⟨c', m0, s0 k, e, by rw [B.mean_ok hne', hm], hmb.2.2.1, ?_, ?_⟩
  · rw [B.sum_ok (k := k) hne' (by exact_mod_cast (show 1 ≤ k by omega)) (by exact_mod_cast hl)]
    exact congrArg _ (hs0 k hk2 le_rfl hl)
  · have h := hb k hk2 le_rfl hl
    rw [if_neg hne] at h
    exact h.trans (le_of_eq (by ring))

end

/-- The hypotheses hold for a million values up to a million and the moments up to order 20, and for a million values up to `2^490` and `k = 2`. -/
example : (8 * 2 ^ 20 * ((10 ^ 6 : Nat) * (1 + (2 * 10 ^ 6) ^ 20)) : ℚ) < two 1024 ∧
    (8 * 2 ^ 2 * ((10 ^ 6 : Nat) * (1 + (2 * 2 ^ 490) ^ 2)) : ℚ) < two 1024 ∧
    (900 * (((10 ^ 6 : Nat) + 1) * (2 ^ 490 * 2 ^ 490)) : ℚ) < two 1024 := by decide +kernel

/-- Without the bound on the size infinities appear and turn into NaN: the second power sum of 0 and `2^600` is infinite, and so is the mean of
`-2^1023` and `2^1023`, which is 0; one more value makes it NaN. -/
theorem C94_large_overflow : (∃ c c' : Core (XF ℚ), newCore Arith.ieee64 ⟨some [2], some 0, none⟩ = .ok c ∧
      run Arith.ieee64 c (finOps [.push 0, .push (2 ^ 600)]) = .val (c', []) ∧ sum c' 2 = .ok (.inf false)) ∧
    (∃ c c' : Core (XF ℚ), newCore Arith.ieee64 ⟨some [1], some 0, none⟩ = .ok c ∧
      run Arith.ieee64 c (finOps [.push (-2 ^ 1023), .push (2 ^ 1023)]) = .val (c', []) ∧ mean c' = .ok (.inf false)) ∧
    ∃ c c' : Core (XF ℚ), newCore Arith.ieee64 ⟨some [1], some 0, none⟩ = .ok c ∧
      run Arith.ieee64 c (finOps [.push (-2 ^ 1023), .push (2 ^ 1023), .push 0]) = .val (c', []) ∧ mean c' = .ok .nan := by
  have h1 : fpObs (run Arith.ieee64 (mk Arith.ieee64 ⟨some [2], some 0, none⟩) (finOps [.push 0, .push (2 ^ 600)])) =
      some ((.ok (.fin (2 ^ 599)), .ok (.inf false)), (.error "not a tracked power sum", 2), []) := by decide +kernel
  have h2 : fpObs (run Arith.ieee64 (mk Arith.ieee64 ⟨some [1], some 0, none⟩) (finOps [.push (-2 ^ 1023), .push (2 ^ 1023)])) =
      some ((.ok (.inf false), .error "not a tracked power sum"), (.error "not a tracked power sum", 2), []) := by decide +kernel
  have h3 : fpObs (run Arith.ieee64 (mk Arith.ieee64 ⟨some [1], some 0, none⟩) (finOps [.push (-2 ^ 1023), .push (2 ^ 1023), .push 0])) =
      some ((.ok .nan, .error "not a tracked power sum"), (.error "not a tracked power sum", 3), []) := by decide +kernel
  obtain ⟨c1, e1, -, a1, -⟩ := fpObs_run h1
  obtain ⟨c2, e2, a2, -⟩ := fpObs_run h2
  obtain ⟨c3, e3, a3, -⟩ := fpObs_run h3
  exact ⟨⟨_, c1, rfl, e1, a1⟩, ⟨_, c2, rfl, e2, a2⟩, _, c3, rfl, e3, a3⟩

end Verif.Props
