import Verif.Proofs.Variance

/-! # Accuracy of the power sums of any order -/

namespace Verif.FP
open Verif.Spec Verif.MathUtil
open Verif.Moment (Core Config)
open Finset (range)

section
variable {rnd : ℚ → ℚ} {pw : ℚ → Nat → ℚ} {u t : ℚ}

/-- `a'` approximates `a`, which is at most `B` in absolute value, up to `e` units of `u·B`. -/
structure Near (u a a' B e : ℚ) : Prop where
  bound : |a| ≤ B
  err : |a' - a| ≤ e * (u * B)

theorem Near.nonneg {a a' B e : ℚ} (h : Near u a a' B e) : 0 ≤ B := (abs_nonneg a).trans h.bound

theorem Near.exact {a B : ℚ} (h : |a| ≤ B) : Near u a a B 0 := ⟨h, by simp⟩

theorem Near.weaken {a a' B e f : ℚ} (hu : 0 ≤ u) (h : Near u a a' B e) (hef : e ≤ f) : Near u a a' B f :=
  ⟨h.bound, h.err.trans (mul_le_mul_of_nonneg_right hef (mul_nonneg hu h.nonneg))⟩

theorem Near.mul {a a' b b' B C e f : ℚ} (hu : 0 ≤ u) (he : 0 ≤ e) (ha : Near u a a' B e) (hb : Near u b b' C f) (hef : e * f * u ≤ 1) :
    Near u (a * b) (a' * b') (B * C) (e + f + 1) := by
  have hB := ha.nonneg
  have hC := hb.nonneg
  refine ⟨by rw [abs_mul]; exact mul_le_mul ha.bound hb.bound (abs_nonneg _) hB, ?_⟩
  have e1 : a' * b' - a * b = (a' - a) * (b' - b) + (a' - a) * b + a * (b' - b) := by ring
  have h1 := abs_add_le ((a' - a) * (b' - b) + (a' - a) * b) (a * (b' - b))
  have h2 := abs_add_le ((a' - a) * (b' - b)) ((a' - a) * b)
  rw [abs_mul] at h1 h2
  rw [abs_mul (a' - a) b] at h2
  have h3 : |a' - a| * |b' - b| ≤ e * (u * B) * (f * (u * C)) := mul_le_mul ha.err hb.err (abs_nonneg _) (by positivity)
  have h4 : |a' - a| * |b| ≤ e * (u * B) * C := mul_le_mul ha.err hb.bound (abs_nonneg _) (by positivity)
  have h5 : |a| * |b' - b| ≤ B * (f * (u * C)) := mul_le_mul ha.bound hb.err (abs_nonneg _) hB
  have h6 := mul_le_mul_of_nonneg_right hef (show 0 ≤ u * (B * C) by positivity)
  rw [e1]
  linarith

theorem Near.round (hE : Accuracy rnd u t) (hu : 0 ≤ u) {a a' B e : ℚ} (h : Near u a a' B e) (he : e * u ≤ 1 / 2) (ht : t ≤ u * B / 2) :
    Near u a (rnd a') B (e + 2) := by
  have hB := h.nonneg
  refine ⟨h.bound, ?_⟩
  have h1 := hE a'
  have h2 := abs_add_le (rnd a' - a') (a' - a)
  rw [sub_add_sub_cancel] at h2
  have h3 := abs_add_le (a' - a) a
  rw [sub_add_cancel] at h3
  have h4 := mul_le_mul_of_nonneg_right he hB
  have h5 : |a'| ≤ 3 / 2 * B := by linarith [h.err, h.bound]
  have h6 := mul_le_mul_of_nonneg_left h5 hu
  linarith [h.err]

theorem Near.pow (hu : 0 ≤ u) {a a' B e : ℚ} (he : 0 ≤ e) (h : Near u a a' B e) {k : Nat} (hk : 2 * k * e * u ≤ 1) :
    ∀ i ≤ k, Near u (a ^ i) (a' ^ i) (B ^ i) (2 * i * e) := by
  intro i
  induction i with
  | zero => intro _; exact ⟨by simp, by simp⟩
  | succ i ih =>
    intro hi
    have hB := h.nonneg
    have h1 := ih (by omega)
    have hp : 0 ≤ B ^ i := by positivity
    have e1 : a' ^ (i + 1) - a ^ (i + 1) = (a' ^ i - a ^ i) * (a' - a) + (a' ^ i - a ^ i) * a + a ^ i * (a' - a) := by ring
    refine ⟨by rw [abs_pow]; exact pow_le_pow_left₀ (abs_nonneg _) h.bound _, ?_⟩
    have b1 := abs_add_le ((a' ^ i - a ^ i) * (a' - a) + (a' ^ i - a ^ i) * a) (a ^ i * (a' - a))
    have b2 := abs_add_le ((a' ^ i - a ^ i) * (a' - a)) ((a' ^ i - a ^ i) * a)
    rw [abs_mul] at b1 b2
    rw [abs_mul (a' ^ i - a ^ i) a] at b2
    have hie : 0 ≤ 2 * (i : ℚ) * e := by positivity
    have b3 : |a' ^ i - a ^ i| * |a' - a| ≤ 2 * i * e * (u * B ^ i) * (e * (u * B)) := mul_le_mul h1.err h.err (abs_nonneg _) (by positivity)
    have b4 : |a' ^ i - a ^ i| * |a| ≤ 2 * i * e * (u * B ^ i) * B := mul_le_mul h1.err h.bound (abs_nonneg _) (by positivity)
    have b5 : |a ^ i| * |a' - a| ≤ B ^ i * (e * (u * B)) := mul_le_mul h1.bound h.err (abs_nonneg _) hp
    have hik : (i : ℚ) ≤ k := by exact_mod_cast (show i ≤ k by omega)
    have b6 : 2 * (i : ℚ) * e * u ≤ 1 := by
      refine le_trans ?_ hk
      have := mul_le_mul_of_nonneg_right hik (show 0 ≤ 2 * e * u by positivity)
      linarith
    have b7 := mul_le_mul_of_nonneg_right b6 (show 0 ≤ e * (u * (B ^ i * B)) by positivity)
    rw [e1]
    push_cast
    rw [pow_succ]
    linarith

/-- `math.Pow` up to an error of `u` (relative) and `t` (absolute). -/
def PowAcc (pw : ℚ → Nat → ℚ) (u t : ℚ) : Prop := ∀ x k, |pw x k - x ^ k| ≤ u * |x| ^ k + t

theorem Near.power (P : PowAcc pw u t) (hu : 0 ≤ u) {a a' B e : ℚ} (he : 0 ≤ e) (h : Near u a a' B e) {i : Nat} (hi : 2 * i * e * u ≤ 1)
    (ht : t ≤ u * B ^ i / 2) : Near u (a ^ i) (pw a' i) (B ^ i) (2 * i * e + 3) := by
  have hB := h.nonneg
  have hp : 0 ≤ B ^ i := by positivity
  have h1 := h.pow hu he hi i le_rfl
  refine ⟨h1.bound, ?_⟩
  have h2 := P a' i
  rw [← abs_pow] at h2
  have h3 := abs_add_le (pw a' i - a' ^ i) (a' ^ i - a ^ i)
  rw [sub_add_sub_cancel] at h3
  have h4 := abs_add_le (a' ^ i - a ^ i) (a ^ i)
  rw [sub_add_cancel] at h4
  have h5 := mul_le_mul_of_nonneg_right hi hp
  have h6 : |a' ^ i| ≤ 2 * B ^ i := by linarith [h1.err, h1.bound]
  have h7 := mul_le_mul_of_nonneg_left h6 hu
  have h8 := mul_nonneg hu hp
  linarith [h1.err]

/-- Left-to-right summation with rounding after every addition. -/
theorem fold_err (hE : Accuracy rnd u t) (hu : 0 ≤ u) {T T' : Nat → ℚ} {e : Nat → ℚ} {B : ℚ} (hB : t ≤ u * B) (hB0 : 0 ≤ B) :
    ∀ (n i : Nat) (a a' E : ℚ), |a' - a| ≤ E → (∀ j, i ≤ j → j < i + n → |T' j - T j| ≤ e j) →
      (∀ m ≤ n, |a + ∑ j ∈ range m, T (i + j)| ≤ B) → E + ∑ j ∈ range n, (e (i + j) + 3 * (u * B)) ≤ B →
      |foldV (fun x y => rnd (x + y)) T' n i a' - (a + ∑ j ∈ range n, T (i + j))| ≤ E + ∑ j ∈ range n, (e (i + j) + 3 * (u * B)) := by
  intro n
  induction n with
  | zero => intro i a a' E h _ _ _; simpa [foldV] using h
  | succ n ih =>
    intro i a a' E h hT hp hb
    have huB : 0 ≤ u * B := mul_nonneg hu hB0
    have hTi := hT i le_rfl (by omega)
    have hsum : 0 ≤ ∑ j ∈ range n, (e (i + 1 + j) + 3 * (u * B)) := by
      refine Finset.sum_nonneg fun j hj => ?_
      have := (abs_nonneg _).trans (hT (i + 1 + j) (by omega) (by have := Finset.mem_range.1 hj; omega))
      linarith
    have hs : ∀ f : Nat → ℚ, ∑ j ∈ range (n + 1), f (i + j) = f i + ∑ j ∈ range n, f (i + 1 + j) := by
      intro f
      rw [Finset.sum_range_succ', add_comm, add_zero]
      congr 1
      exact Finset.sum_congr rfl fun j _ => by rw [show i + (j + 1) = i + 1 + j by omega]
    rw [hs (fun j => e j + 3 * (u * B))] at hb ⊢
    rw [hs T]
    have hp1 := hp 1 (by omega)
    simp only [Finset.sum_range_one, add_zero] at hp1
    have hstep : |rnd (a' + T' i) - (a + T i)| ≤ E + (e i + 3 * (u * B)) := by
      have h1 := hE (a' + T' i)
      have h2 := abs_add_le (rnd (a' + T' i) - (a' + T' i)) (a' + T' i - (a + T i))
      rw [sub_add_sub_cancel] at h2
      have h3 := abs_add_le (a' - a) (T' i - T i)
      rw [show a' - a + (T' i - T i) = a' + T' i - (a + T i) by ring] at h3
      have h4 := abs_add_le (a' + T' i - (a + T i)) (a + T i)
      rw [sub_add_cancel] at h4
      have h5 : |a' + T' i| ≤ 2 * B := by linarith
      have h6 := mul_le_mul_of_nonneg_left h5 hu
      linarith
    have := ih (i + 1) (a + T i) (rnd (a' + T' i)) (E + (e i + 3 * (u * B))) hstep (fun j h1 h2 => hT j (by omega) (by omega)) (fun m hm => by
      have := hp (m + 1) (by omega)
      rw [Finset.sum_range_succ', add_zero] at this
      rw [show a + T i + ∑ j ∈ range m, T (i + 1 + j) = a + (∑ j ∈ range m, T (i + (j + 1)) + T i) by
        rw [add_assoc, add_comm (T i)]
        congr 2
        exact Finset.sum_congr rfl fun j _ => by rw [show i + (j + 1) = i + 1 + j by omega]]
      exact this) (by linarith)
    rw [foldV]
    rw [show a + (T i + ∑ j ∈ range n, T (i + 1 + j)) = a + T i + ∑ j ∈ range n, T (i + 1 + j) by ring]
    refine this.trans (le_of_eq ?_)
    ring

/-- The constant of the error bound of the sum of order `k`. -/
def errC (k : Nat) : ℚ :=
  60 * k * 4 ^ k + ∑ i : Fin (k - 2), (k.choose (i + 1) : ℚ) * 2 ^ (i.1 + 1) * errC (k - (i.1 + 1))
termination_by k
decreasing_by have := i.2; omega

theorem errC_eq (k : Nat) :
    errC k = 60 * k * 4 ^ k + ∑ i ∈ range (k - 2), (k.choose (i + 1) : ℚ) * 2 ^ (i + 1) * errC (k - (i + 1)) := by
  rw [errC, Fin.sum_univ_eq_sum_range (fun i => (k.choose (i + 1) : ℚ) * 2 ^ (i + 1) * errC (k - (i + 1)))]

theorem errC_nonneg (k : Nat) : 0 ≤ errC k := by
  induction k using Nat.strong_induction_on with
  | _ k ih =>
    rw [errC_eq]
    have : 0 ≤ ∑ i ∈ range (k - 2), (k.choose (i + 1) : ℚ) * 2 ^ (i + 1) * errC (k - (i + 1)) :=
      Finset.sum_nonneg fun i hi => by
        have := ih (k - (i + 1)) (by have := Finset.mem_range.1 hi; omega)
        positivity
    positivity

theorem errC_ge (k : Nat) : 60 * k * 4 ^ k ≤ errC k := by
  rw [errC_eq]
  have : 0 ≤ ∑ i ∈ range (k - 2), (k.choose (i + 1) : ℚ) * 2 ^ (i + 1) * errC (k - (i + 1)) :=
    Finset.sum_nonneg fun i _ => by
      have := errC_nonneg (k - (i + 1))
      positivity
  linarith

theorem errC_succ {k : Nat} (hk : 2 ≤ k) : 2 * errC k ≤ errC (k + 1) := by
  rw [errC_eq (k + 1)]
  have h : ((k + 1).choose (0 + 1) : ℚ) * 2 ^ (0 + 1) * errC (k + 1 - (0 + 1)) ≤
      ∑ i ∈ range (k + 1 - 2), ((k + 1).choose (i + 1) : ℚ) * 2 ^ (i + 1) * errC (k + 1 - (i + 1)) :=
    Finset.single_le_sum (f := fun i => ((k + 1).choose (i + 1) : ℚ) * 2 ^ (i + 1) * errC (k + 1 - (i + 1)))
      (fun i _ => by have := errC_nonneg (k + 1 - (i + 1)); positivity) (Finset.mem_range.2 (by omega))
  have h0 := errC_nonneg k
  have h1 : (0 : ℚ) ≤ 60 * (k + 1 : Nat) * 4 ^ (k + 1) := by positivity
  refine le_trans ?_ ((le_add_of_nonneg_left h1).trans (add_le_add_right h _))
  rw [zero_add, Nat.choose_one_right, pow_one, Nat.add_sub_cancel]
  have h2 : 0 ≤ (k : ℚ) * errC k := by positivity
  push_cast
  linarith

/-- `errC j / 2^j` grows with `j`. -/
theorem errC_mono {j k : Nat} (hj : 2 ≤ j) (hjk : j ≤ k) {a : ℚ} (h : errC k * a ≤ 2 ^ k) (ha : 0 ≤ a) : errC j * a ≤ 2 ^ j := by
  induction k, hjk using Nat.le_induction with
  | base => exact h
  | succ k hk ih =>
    refine ih ?_
    have h1 := mul_le_mul_of_nonneg_right (errC_succ (show 2 ≤ k by omega)) ha
    rw [pow_succ] at h
    linarith

theorem choose_sum_le (k m : Nat) (hm : m ≤ k) : ∑ j ∈ range m, (k.choose (1 + j) : ℚ) ≤ 2 ^ k := by
  have h : ∑ i ∈ range (k + 1), (k.choose i : ℚ) = 2 ^ k := by exact_mod_cast Nat.sum_range_choose k
  rw [← h]
  have h1 : ∑ i ∈ range (m + 1), (k.choose i : ℚ) ≤ ∑ i ∈ range (k + 1), (k.choose i : ℚ) :=
    Finset.sum_le_sum_of_subset_of_nonneg (Finset.range_mono (by omega)) fun _ _ _ => by positivity
  rw [Finset.sum_range_succ'] at h1
  refine le_trans ?_ h1
  rw [Finset.sum_congr rfl fun j _ => by rw [add_comm 1 j]]
  simp

/-- A product of a well approximated factor and a sum that is less well approximated. -/
theorem term_err (hE : Accuracy rnd u t) (hu : 0 ≤ u) {φ φ' s s' P Q S e ε : ℚ} (hQ : |φ| ≤ Q) (hφ : Near u φ φ' P e) (he : e * u ≤ 1 / 2)
    (hs : |s| ≤ S) (hε : |s' - s| ≤ ε) (hεS : ε ≤ S) (ht : t ≤ u * (P * S)) :
    |rnd (φ' * s') - φ * s| ≤ Q * ε + (2 * e + 5) * (u * (P * S)) := by
  have hP := hφ.nonneg
  have hS : 0 ≤ S := (abs_nonneg _).trans hs
  have hε0 : 0 ≤ ε := (abs_nonneg _).trans hε
  have h1 := abs_add_le (s' - s) s
  rw [sub_add_cancel] at h1
  have h2 : |s'| ≤ 2 * S := by linarith
  have h3 := abs_add_le (φ' - φ) φ
  rw [sub_add_cancel] at h3
  have h4 := mul_le_mul_of_nonneg_right he hP
  have h5 : |φ'| ≤ 3 / 2 * P := by linarith [hφ.err, hφ.bound]
  have h6 : |φ' * s'| ≤ 3 / 2 * P * (2 * S) := by
    rw [abs_mul]
    exact mul_le_mul h5 h2 (abs_nonneg _) (by positivity)
  have h7 := hE (φ' * s')
  have h8 := abs_add_le (rnd (φ' * s') - φ' * s') (φ' * s' - φ * s)
  rw [sub_add_sub_cancel] at h8
  have h9 := abs_add_le (φ * (s' - s)) ((φ' - φ) * s')
  rw [show φ * (s' - s) + (φ' - φ) * s' = φ' * s' - φ * s by ring, abs_mul, abs_mul] at h9
  have h10 : |φ| * |s' - s| ≤ Q * ε := mul_le_mul hQ hε (abs_nonneg _) ((abs_nonneg _).trans hQ)
  have h11 : |φ' - φ| * |s'| ≤ e * (u * P) * (2 * S) := mul_le_mul hφ.err h2 (abs_nonneg _) ((abs_nonneg _).trans hφ.err)
  have h12 := mul_le_mul_of_nonneg_left h6 hu
  have h13 : 0 ≤ u * (P * S) := by positivity
  linarith

/-- One update of the sum of order `k`, in `add` (`W` is the new number of values, `h` its inverse, `g = 1`) or in `addDecay` (`W = 1`,
`h` is the decay, `g = 1 - h`); the errors so far are `Φ` units. -/
theorem step_high (hE : Accuracy rnd u t) (hu : 0 ≤ u) (hu1 : u ≤ 1 / 4096) {k : Nat} (hk : 2 ≤ k) (hk20 : k ≤ 20) {M W h Φ g : ℚ}
    (hM : 0 ≤ M) (hW : 1 ≤ W) (hh : 0 ≤ h) (hΦ : 0 ≤ Φ) (hhΦ : h * Φ ≤ W) (hg : 0 ≤ g) (hg1 : g ≤ 1) (hsm : errC k * u ≤ 2 ^ k)
    (ht : t ≤ u * (2 * M) ^ k) {s s' φ φ' : Nat → ℚ}
    (hs : ∀ j, 2 ≤ j → j ≤ k → |s j| ≤ W * (2 * M) ^ j ∧ |s' j - s j| ≤ errC j * (Φ * u) * M ^ j ∧
      errC j * (Φ * u) * M ^ j ≤ W * (2 * M) ^ j)
    (hφ : ∀ i, 1 ≤ i → i + 2 ≤ k → |φ i| ≤ k.choose i * (h * (2 * M) ^ i) ∧ Near u (φ i) (φ' i) (k.choose i * (2 * M) ^ i) (16 * i + 13))
    {a' p p' : ℚ} (ha : |a' - g * s k| ≤ g * (errC k * (Φ * u) * M ^ k) + 10 * (u * (W * (2 * M) ^ k)))
    (hp : |p| ≤ W * (2 * M) ^ k) (hp' : |p' - p| ≤ (28 * k + 50) * (u * (W * (2 * M) ^ k))) :
    |foldV (fun x y => rnd (x + y)) (fun i => rnd (φ' i * s' (k - i))) (k - 2) 1 (rnd (a' + p')) -
        (g * s k + p + ∑ j ∈ range (k - 2), φ (1 + j) * s (k - (1 + j)))| ≤
      g * (errC k * (Φ * u) * M ^ k) + W * (errC k * u) * M ^ k ∧
    (∀ m ≤ k - 2, |foldV (fun x y => rnd (x + y)) (fun i => rnd (φ' i * s' (k - i))) m 1 (rnd (a' + p'))| ≤ 2 * (2 * 2 ^ k * (W * (2 * M) ^ k))) ∧
    (∀ i, 1 ≤ i → i + 2 ≤ k → |rnd (φ' i * s' (k - i))| ≤ 2 * (2 * 2 ^ k * (W * (2 * M) ^ k))) := by
  have hM2 : 0 ≤ 2 * M := by linarith
  obtain ⟨hsk, -, hsmk⟩ := hs k hk le_rfl
  set X := W * (2 * M) ^ k with hX
  set B := 2 * 2 ^ k * X with hB
  have hpk : 0 ≤ (2 * M) ^ k := by positivity
  have hX0 : 0 ≤ X := by positivity
  have huX : 0 ≤ u * X := mul_nonneg hu hX0
  have h2k : (4 : ℚ) ≤ 2 ^ k := by
    calc (4 : ℚ) = 2 ^ 2 := by norm_num
      _ ≤ 2 ^ k := pow_le_pow_right₀ (by norm_num) hk
  have hXle : (2 * M) ^ k ≤ X := by rw [hX]; exact le_mul_of_one_le_left hpk hW
  have htX : t ≤ u * X := ht.trans (mul_le_mul_of_nonneg_left hXle hu)
  have hXB : X ≤ B := by
    rw [hB]
    exact le_mul_of_one_le_left hX0 (by linarith)
  have htB : t ≤ u * B := htX.trans (mul_le_mul_of_nonneg_left hXB hu)
  have hB0 : 0 ≤ B := hX0.trans hXB
  set ε := fun i => (k.choose i : ℚ) * (h * (2 * M) ^ i) * (errC (k - i) * (Φ * u) * M ^ (k - i)) with hε
  set e : Nat → ℚ := fun i => ε i + (32 * i + 31) * (u * (k.choose i * X)) with he
  have hsplit : ∀ i, i ≤ k → (2 * M) ^ i * (W * (2 * M) ^ (k - i)) = X := by
    intro i hi
    rw [hX, show k = i + (k - i) by omega, pow_add, show i + (k - i) - i = k - i by omega]
    ring
  have hterm : ∀ j, 1 ≤ j → j < 1 + (k - 2) → |rnd (φ' j * s' (k - j)) - φ j * s (k - j)| ≤ e j := by
    intro i h1 h2
    obtain ⟨f1, f2⟩ := hφ i h1 (by omega)
    obtain ⟨s1, s2, s3⟩ := hs (k - i) (by omega) (by omega)
    have hi20 : (i : ℚ) ≤ 20 := by exact_mod_cast (show i ≤ 20 by omega)
    have hc : (1 : ℚ) ≤ k.choose i := by exact_mod_cast Nat.choose_pos (show i ≤ k by omega)
    have hPS : (k.choose i : ℚ) * (2 * M) ^ i * (W * (2 * M) ^ (k - i)) = k.choose i * X := by
      rw [mul_assoc, hsplit i (by omega)]
    have := term_err hE hu f1 f2 (by
      have := mul_le_mul_of_nonneg_right (show 16 * (i : ℚ) + 13 ≤ 2048 by linarith) hu
      linarith) s1 s2 s3 (by
        rw [hPS]
        exact htX.trans (mul_le_mul_of_nonneg_left (le_mul_of_one_le_left hX0 hc) hu))
    rw [hPS] at this
    refine this.trans (le_of_eq ?_)
    simp only [he, hε]
    ring
  have hpart : ∀ m ≤ k - 2, |g * s k + p + ∑ j ∈ range m, φ (1 + j) * s (k - (1 + j))| ≤ B := by
    intro m hm
    have h1 : |∑ j ∈ range m, φ (1 + j) * s (k - (1 + j))| ≤ 2 ^ k * X := by
      refine (Finset.abs_sum_le_sum_abs _ _).trans ?_
      calc ∑ j ∈ range m, |φ (1 + j) * s (k - (1 + j))| ≤ ∑ j ∈ range m, (k.choose (1 + j) : ℚ) * X := by
            refine Finset.sum_le_sum fun j hj => ?_
            have hj := Finset.mem_range.1 hj
            rw [abs_mul]
            refine (mul_le_mul (hφ (1 + j) (by omega) (by omega)).2.bound (hs (k - (1 + j)) (by omega) (by omega)).1 (abs_nonneg _)
              (by positivity)).trans (le_of_eq ?_)
            rw [mul_assoc, hsplit (1 + j) (by omega)]
        _ = (∑ j ∈ range m, (k.choose (1 + j) : ℚ)) * X := by rw [Finset.sum_mul]
        _ ≤ 2 ^ k * X := mul_le_mul_of_nonneg_right (choose_sum_le k m (by omega)) hX0
    have h2 := abs_add_le (g * s k + p) (∑ j ∈ range m, φ (1 + j) * s (k - (1 + j)))
    have h3 := abs_add_le (g * s k) p
    have h4 : |g * s k| ≤ X := by
      rw [abs_mul, abs_of_nonneg hg]
      calc g * |s k| ≤ 1 * |s k| := mul_le_mul_of_nonneg_right hg1 (abs_nonneg _)
        _ ≤ X := by rw [one_mul]; exact hsk
    have h5 := mul_le_mul_of_nonneg_right h2k hX0
    rw [hB]
    linarith
  set E := g * (errC k * (Φ * u) * M ^ k) + 10 * (u * X) + (28 * k + 50) * (u * X) + 3 * (u * B) with hEd
  have hMk : 0 ≤ M ^ k := by positivity
  have hC := errC_nonneg k
  have hXM : X = W * (2 ^ k * M ^ k) := by rw [hX, mul_pow]
  -- the total
  have hεsum : ∑ j ∈ range (k - 2), ε (1 + j) ≤ W * (u * M ^ k) * ∑ i ∈ range (k - 2), (k.choose (i + 1) : ℚ) * 2 ^ (i + 1) * errC (k - (i + 1)) := by
    rw [Finset.mul_sum]
    refine Finset.sum_le_sum fun j hj => ?_
    have hj := Finset.mem_range.1 hj
    have e1 : ε (1 + j) = h * Φ * (u * M ^ k * ((k.choose (j + 1) : ℚ) * 2 ^ (j + 1) * errC (k - (j + 1)))) := by
      simp only [hε]
      rw [add_comm 1 j, show M ^ k = M ^ (j + 1) * M ^ (k - (j + 1)) by rw [← pow_add]; congr 1; omega, mul_pow]
      ring
    rw [e1]
    have h1 := errC_nonneg (k - (j + 1))
    have h2 : 0 ≤ u * M ^ k * ((k.choose (j + 1) : ℚ) * 2 ^ (j + 1) * errC (k - (j + 1))) := by positivity
    refine (mul_le_mul_of_nonneg_right hhΦ h2).trans (le_of_eq ?_)
    ring
  have hesum : ∑ j ∈ range (k - 2), ((32 * ((1 + j : Nat) : ℚ) + 31) * (u * (k.choose (1 + j) * X))) ≤ 32 * k * 2 ^ k * (u * X) := by
    calc ∑ j ∈ range (k - 2), ((32 * ((1 + j : Nat) : ℚ) + 31) * (u * (k.choose (1 + j) * X)))
        ≤ ∑ j ∈ range (k - 2), 32 * k * (u * X) * (k.choose (1 + j) : ℚ) := by
          refine Finset.sum_le_sum fun j hj => ?_
          have hj := Finset.mem_range.1 hj
          have h1 : 32 * ((1 + j : Nat) : ℚ) + 31 ≤ 32 * k := by
            have : ((1 + j : Nat) : ℚ) + 1 ≤ k := by exact_mod_cast (show 1 + j + 1 ≤ k by omega)
            linarith
          refine (mul_le_mul_of_nonneg_right h1 (show 0 ≤ u * (k.choose (1 + j) * X) by positivity)).trans (le_of_eq ?_)
          ring
      _ = 32 * k * (u * X) * ∑ j ∈ range (k - 2), (k.choose (1 + j) : ℚ) := by rw [Finset.mul_sum]
      _ ≤ 32 * k * (u * X) * 2 ^ k := mul_le_mul_of_nonneg_left (choose_sum_le k _ (by omega)) (by positivity)
      _ = 32 * k * 2 ^ k * (u * X) := by ring
  have htotal : E + ∑ j ∈ range (k - 2), (e (1 + j) + 3 * (u * B)) ≤ g * (errC k * (Φ * u) * M ^ k) + W * (errC k * u) * M ^ k := by
    have h1 : ∑ j ∈ range (k - 2), (e (1 + j) + 3 * (u * B)) = ∑ j ∈ range (k - 2), ε (1 + j) +
        ∑ j ∈ range (k - 2), ((32 * ((1 + j : Nat) : ℚ) + 31) * (u * (k.choose (1 + j) * X))) + (k - 2 : Nat) * (3 * (u * B)) := by
      rw [Finset.sum_add_distrib, Finset.sum_add_distrib, Finset.sum_const, Finset.card_range, nsmul_eq_mul]
    have h2 : ((k - 2 : Nat) : ℚ) = k - 2 := by rw [Nat.cast_sub hk]; norm_num
    have hk2 : (2 : ℚ) ≤ k := by exact_mod_cast hk
    rw [h1, h2, hEd]
    have h3 : W * (errC k * u) * M ^ k = W * (u * M ^ k) * (60 * k * 4 ^ k) + W * (u * M ^ k) *
        ∑ i ∈ range (k - 2), (k.choose (i + 1) : ℚ) * 2 ^ (i + 1) * errC (k - (i + 1)) := by
      rw [errC_eq k]; ring
    have h4 : W * (u * M ^ k) * (60 * k * 4 ^ k) = 60 * k * 2 ^ k * (u * X) := by
      rw [hXM, show (4 : ℚ) ^ k = 2 ^ k * 2 ^ k by rw [← mul_pow]; norm_num]; ring
    rw [h3, h4]
    have h5 : u * B = 2 * 2 ^ k * (u * X) := by rw [hB]; ring
    rw [h5]
    have h6 : 10 * (u * X) + (28 * k + 50) * (u * X) + 3 * (2 * 2 ^ k * (u * X)) + 32 * k * 2 ^ k * (u * X) +
        ((k : ℚ) - 2) * (3 * (2 * 2 ^ k * (u * X))) ≤ 60 * k * 2 ^ k * (u * X) := by
      have : (10 + (28 * k + 50) + 3 * (2 * 2 ^ k) + 32 * k * 2 ^ k + ((k : ℚ) - 2) * (3 * (2 * 2 ^ k))) ≤ 60 * k * 2 ^ k := by
        have := mul_le_mul_of_nonneg_left h2k (show (0 : ℚ) ≤ k by linarith)
        linarith
      have := mul_le_mul_of_nonneg_right this huX
      linarith
    linarith
  have hbudget : g * (errC k * (Φ * u) * M ^ k) + W * (errC k * u) * M ^ k ≤ B := by
    have h1 : g * (errC k * (Φ * u) * M ^ k) ≤ X := by
      calc g * (errC k * (Φ * u) * M ^ k) ≤ 1 * (errC k * (Φ * u) * M ^ k) := mul_le_mul_of_nonneg_right hg1 (by positivity)
        _ ≤ X := by rw [one_mul]; exact hsmk
    have h2 : W * (errC k * u) * M ^ k ≤ X := by
      rw [hXM]
      have := mul_le_mul_of_nonneg_right hsm (show 0 ≤ W * M ^ k by positivity)
      linarith
    have h5 := mul_le_mul_of_nonneg_right h2k hX0
    rw [hB]
    linarith
  -- the first addition
  have hfirst : |rnd (a' + p') - (g * s k + p)| ≤ E := by
    have h0 := hpart 0 (by omega)
    rw [Finset.sum_range_zero, add_zero] at h0
    have h1 := hE (a' + p')
    have h2 := abs_add_le (rnd (a' + p') - (a' + p')) (a' + p' - (g * s k + p))
    rw [sub_add_sub_cancel] at h2
    have h3 := abs_add_le (a' - g * s k) (p' - p)
    rw [show a' - g * s k + (p' - p) = a' + p' - (g * s k + p) by ring] at h3
    have h4 := abs_add_le (a' + p' - (g * s k + p)) (g * s k + p)
    rw [sub_add_cancel] at h4
    have h5 : 0 ≤ ∑ j ∈ range (k - 2), (e (1 + j) + 3 * (u * B)) := Finset.sum_nonneg fun j hj => by
      have h1 := (abs_nonneg _).trans (hterm (1 + j) (by omega) (by have := Finset.mem_range.1 hj; omega))
      have h2 := mul_nonneg hu hB0
      linarith
    have huB := mul_nonneg hu hB0
    have h6 : |a' + p'| ≤ 2 * B := by linarith
    have h7 := mul_le_mul_of_nonneg_left h6 hu
    linarith
  have huB := mul_nonneg hu hB0
  have he0 : ∀ j ∈ range (k - 2), 0 ≤ e (1 + j) + 3 * (u * B) := fun j hj => by
    have h1 := (abs_nonneg _).trans (hterm (1 + j) (by omega) (by have := Finset.mem_range.1 hj; omega))
    linarith
  have hE0 : 0 ≤ E := (abs_nonneg _).trans hfirst
  refine ⟨(fold_err hE hu htB hB0 (k - 2) 1 (g * s k + p) (rnd (a' + p')) E hfirst hterm hpart (htotal.trans hbudget)).trans htotal,
    fun m hm => ?_, fun i h1 h2 => ?_⟩
  · have hsub : ∑ j ∈ range m, (e (1 + j) + 3 * (u * B)) ≤ ∑ j ∈ range (k - 2), (e (1 + j) + 3 * (u * B)) :=
      Finset.sum_le_sum_of_subset_of_nonneg (Finset.range_mono hm) fun j hj _ => he0 j hj
    have h3 : E + ∑ j ∈ range m, (e (1 + j) + 3 * (u * B)) ≤ B := by linarith
    have h4 := fold_err hE hu htB hB0 m 1 (g * s k + p) (rnd (a' + p')) E hfirst (fun j a b => hterm j a (by omega))
      (fun m' hm' => hpart m' (by omega)) h3
    have h5 := abs_add_le (foldV (fun x y => rnd (x + y)) (fun i => rnd (φ' i * s' (k - i))) m 1 (rnd (a' + p')) -
      (g * s k + p + ∑ j ∈ range m, φ (1 + j) * s (k - (1 + j)))) (g * s k + p + ∑ j ∈ range m, φ (1 + j) * s (k - (1 + j)))
    rw [sub_add_cancel] at h5
    linarith [hpart m hm]
  · have h3 := hterm i h1 (by omega)
    have h4 := Finset.single_le_sum he0 (show i - 1 ∈ range (k - 2) from Finset.mem_range.2 (by omega))
    rw [show 1 + (i - 1) = i by omega] at h4
    have h5 := abs_add_le (rnd (φ' i * s' (k - i)) - φ i * s (k - i)) (φ i * s (k - i))
    rw [sub_add_cancel] at h5
    have h6 : |φ i * s (k - i)| ≤ B := by
      rw [abs_mul]
      refine (mul_le_mul (hφ i h1 h2).2.bound (hs (k - i) (by omega) (by omega)).1 (abs_nonneg _) (by positivity)).trans ?_
      rw [mul_assoc, hsplit i (by omega), hB]
      refine mul_le_mul_of_nonneg_right ?_ hX0
      have h7 := Finset.single_le_sum (f := fun j => (k.choose (1 + j) : ℚ)) (fun j _ => by positivity)
        (show i - 1 ∈ range (k - 2) from Finset.mem_range.2 (by omega))
      simp only [show 1 + (i - 1) = i by omega] at h7
      have h8 := choose_sum_le k (k - 2) (by omega)
      linarith
    linarith

theorem Near.le_two {a a' B e : ℚ} (h : Near u a a' B e) (he : e * u ≤ 1) : |a'| ≤ 2 * B := by
  have h1 := abs_add_le (a' - a) a
  rw [sub_add_cancel] at h1
  have h2 := mul_le_mul_of_nonneg_right he h.nonneg
  linarith [h.err, h.bound]

/-- Rounding errors are small compared with the bound `M` of the data and the order `k`; `N` is the number of values. -/
structure Tiny (u t M : ℚ) (N k : Nat) : Prop where
  u0 : 0 ≤ u
  t0 : 0 ≤ t
  u1 : u ≤ 1 / 4096
  Nu : N * u ≤ 1 / 1024
  M0 : 0 ≤ M
  tM : t ≤ u * u * M
  tk : ∀ i ≤ k, t ≤ u * (2 * M) ^ i / 2
  tN : t * N ^ k ≤ u / 2

theorem coefV_rounded {k i : Nat} (hi : i ≤ k) (hk : k ≤ 20) :
    FP.coefV (Arith.rounded rnd pw) k i = rnd ((k.choose i : ℚ) * (-1) ^ i) := by
  have h1 := Moment.coef_ok (K := ℚ) hi (by omega : k ≤ 65)
  have h2 := Moment.coefV_eq (K := ℚ) hi hk
  rw [← h2]
  unfold Moment.coef at h1
  unfold FP.coefV
  revert h1
  cases binom k i with
  | val b =>
    intro h1
    simp only [Go.val.injEq] at h1
    rw [← h1]
    rfl
  | panic => intro h1; simp at h1
  | hang => intro h1; simp at h1

theorem near_coef (hE : Accuracy rnd u t) (hu : 0 ≤ u) (ht : t ≤ u / 2) {k i : Nat} (hi : i ≤ k) :
    Near u ((k.choose i : ℚ) * (-1) ^ i) (rnd ((k.choose i : ℚ) * (-1) ^ i)) (k.choose i) 2 := by
  have hc : (1 : ℚ) ≤ k.choose i := by exact_mod_cast Nat.choose_pos hi
  have h : |(k.choose i : ℚ) * (-1) ^ i| ≤ k.choose i := by
    rw [abs_mul, abs_pow, abs_neg, abs_one, one_pow, mul_one, abs_of_nonneg (by linarith)]
  have := (Near.exact (u := u) h).round hE hu (by norm_num) (by
    have := mul_le_mul_of_nonneg_left hc hu
    linarith)
  simpa using this

/-- A sum of two approximations. -/
theorem Near.add {a a' b b' B C D e f : ℚ} (ha : Near u a a' B e) (hb : Near u b b' C f) {g : ℚ} (hD : |a + b| ≤ D)
    (hg : e * B + f * C ≤ g * D) (hu : 0 ≤ u) : Near u (a + b) (a' + b') D g := by
  refine ⟨hD, ?_⟩
  have h1 := abs_add_le (a' - a) (b' - b)
  rw [show a' - a + (b' - b) = a' + b' - (a + b) by ring] at h1
  have := mul_le_mul_of_nonneg_left hg hu
  linarith [ha.err, hb.err]

/-- The computed factor of `delta^k` in `add`. -/
theorem kappa_add (R : Rounding rnd) (hE : Accuracy rnd u t) (P : PowAcc pw u t) {M : ℚ} {N k : Nat} (S : Tiny u t M N k) (hk : 2 ≤ k)
    {n : Nat} (hn : 1 ≤ n) (hnN : n ≤ N) :
    Near u (((n : ℚ) - 1) / n ^ k * (((n : ℚ) - 1) ^ (k - 1) + (-1) ^ k))
      (rnd (rnd (((n : ℚ) - 1) / pw n k) * rnd (pw ((n : ℚ) - 1) (k - 1) + rnd ((sign k : Int) : ℚ)))) 1 14 ∧
    (0 < pw n k ∧ |pw n k| ≤ 2 * n ^ k ∧ |rnd (((n : ℚ) - 1) / pw n k)| ≤ 2 ∧ |pw ((n : ℚ) - 1) (k - 1)| ≤ 2 * n ^ k ∧
      |rnd (pw ((n : ℚ) - 1) (k - 1) + rnd ((sign k : Int) : ℚ))| ≤ 2 * n ^ k ∧ |rnd ((sign k : Int) : ℚ)| ≤ 1) := by
  have hu := S.u0
  have hu1 := S.u1
  have htu : t ≤ u / 2 := by simpa using S.tk 0 (by omega)
  have hn1 : (1 : ℚ) ≤ n := by exact_mod_cast hn
  have hn0 : (0 : ℚ) < n := by linarith
  have hnk : (0 : ℚ) < n ^ k := by positivity
  have hnk1 : (1 : ℚ) ≤ n ^ (k - 1) := one_le_pow₀ hn1
  have hpow : (n : ℚ) ^ k = n * n ^ (k - 1) := by rw [← pow_succ']; congr 1; omega
  have hsg : rnd ((sign k : Int) : ℚ) = (-1) ^ k := by
    rw [sign_eq]
    push_cast
    rcases neg_one_pow_eq_or ℚ k with h | h <;> rw [h]
    · exact R.one
    · rw [R.neg, R.one]
  rw [hsg]
  -- n^k
  have h1 : |pw n k - (n : ℚ) ^ k| ≤ 3 / 2 * u * n ^ k := by
    have := P n k
    rw [abs_of_pos hn0] at this
    have h2 := mul_le_mul_of_nonneg_left (one_le_pow₀ hn1 : (1 : ℚ) ≤ n ^ k) hu
    linarith
  have h2 : 9 / 10 * (n : ℚ) ^ k ≤ pw n k := by
    have := (abs_le.1 h1).1
    have := mul_le_mul_of_nonneg_right hu1 hnk.le
    linarith
  have h3 : 0 < pw n k := by linarith
  have hq : Near u (((n : ℚ) - 1) / n ^ k) (((n : ℚ) - 1) / pw n k) (1 / n ^ (k - 1)) 2 := by
    refine ⟨?_, ?_⟩
    · rw [abs_of_nonneg (div_nonneg (by linarith) hnk.le), div_le_div_iff₀ hnk (by positivity), hpow]
      exact (mul_le_mul_of_nonneg_right (show (n : ℚ) - 1 ≤ n by linarith) (by positivity)).trans (by linarith)
    · have e : ((n : ℚ) - 1) / pw n k - ((n : ℚ) - 1) / n ^ k = ((n : ℚ) - 1) * (n ^ k - pw n k) / (pw n k * n ^ k) := by
        field_simp
      rw [e, abs_div, abs_mul, abs_of_nonneg (show 0 ≤ (n : ℚ) - 1 by linarith), abs_of_pos (show 0 < pw n k * (n : ℚ) ^ k by positivity),
        div_le_iff₀ (by positivity), abs_sub_comm]
      calc ((n : ℚ) - 1) * |pw n k - n ^ k| ≤ n * (3 / 2 * u * n ^ k) :=
            mul_le_mul (by linarith) h1 (abs_nonneg _) hn0.le
        _ ≤ 2 * (u * n) * (9 / 10 * n ^ k) := by
            have : 0 ≤ u * n * n ^ k := by positivity
            linarith
        _ ≤ 2 * (u * n) * pw n k := mul_le_mul_of_nonneg_left h2 (by positivity)
        _ = 2 * (u * (1 / n ^ (k - 1))) * (pw n k * n ^ k) := by
            rw [hpow]; field_simp
  have htq : t ≤ u * (1 / (n : ℚ) ^ (k - 1)) / 2 := by
    rw [mul_one_div, div_div, le_div_iff₀ (by positivity)]
    have h4 : (n : ℚ) ^ (k - 1) ≤ N ^ k := by
      calc (n : ℚ) ^ (k - 1) ≤ n ^ k := pow_le_pow_right₀ hn1 (by omega)
        _ ≤ N ^ k := pow_le_pow_left₀ hn0.le (by exact_mod_cast hnN) _
    have := mul_le_mul_of_nonneg_left h4 S.t0
    linarith [S.tN]
  have hA := hq.round hE hu (by linarith) htq
  -- (n-1)^(k-1) ± 1
  have hp := (Near.exact (u := u) (a := (n : ℚ) - 1) (B := n) (by rw [abs_of_nonneg (by linarith)]; linarith)).power P hu le_rfl
    (i := k - 1) (by simp) (by
      have := mul_le_mul_of_nonneg_left hnk1 hu
      linarith)
  have hB : Near u (((n : ℚ) - 1) ^ (k - 1) + (-1) ^ k) (pw ((n : ℚ) - 1) (k - 1) + (-1) ^ k) (n ^ (k - 1)) 3 := by
    refine hp.add (Near.exact (u := u) (a := (-1) ^ k) (B := 1) (by simp)) ?_ (by simp) hu
    have h4 : ((n : ℚ) - 1) ^ (k - 1) + 1 ≤ n ^ (k - 1) := by
      have h5 : ((n - 1 : Nat) : ℚ) = n - 1 := by rw [Nat.cast_sub hn]; norm_num
      rw [← h5]
      have : (n - 1) ^ (k - 1) < n ^ (k - 1) := Nat.pow_lt_pow_left (by omega) (by omega)
      exact_mod_cast this
    have h5 := abs_add_le (((n : ℚ) - 1) ^ (k - 1)) ((-1) ^ k)
    rw [abs_pow, abs_pow, abs_neg, abs_one, one_pow, abs_of_nonneg (show 0 ≤ (n : ℚ) - 1 by linarith)] at h5
    linarith
  have hB' := hB.round hE hu (by linarith) (by
    have := mul_le_mul_of_nonneg_left hnk1 hu
    linarith)
  have hm := hA.mul hu (by norm_num) hB' (by linarith)
  rw [one_div_mul_cancel (by positivity)] at hm
  have := hm.round hE hu (by linarith) (by linarith)
  have hkk : (n : ℚ) ^ (k - 1) ≤ n ^ k := pow_le_pow_right₀ hn1 (by omega)
  refine ⟨this.weaken hu (by norm_num), h3, ?_, ?_, ?_, ?_, by simp⟩
  · have h4 := abs_add_le (pw n k - (n : ℚ) ^ k) (n ^ k)
    rw [sub_add_cancel, abs_of_pos hnk] at h4
    have := mul_le_mul_of_nonneg_right hu1 hnk.le
    linarith
  · refine (hA.le_two (by linarith)).trans ?_
    have : 1 / (n : ℚ) ^ (k - 1) ≤ 1 := by rw [div_le_one (by positivity)]; exact hnk1
    linarith
  · exact (hp.le_two (by linarith)).trans (by linarith)
  · exact (hB'.le_two (by linarith)).trans (by linarith)

/-- The computed factor of `delta^k` in `addDecay`. -/
theorem kappa_decay (hE : Accuracy rnd u t) (P : PowAcc pw u t) {M : ℚ} {N k : Nat} (S : Tiny u t M N k) (hk : 2 ≤ k)
    (hk20 : k ≤ 20) {d : ℚ} (hd0 : 0 < d) (hd1 : d ≤ 1) :
    Near u ((1 - d) * (-d) ^ k + d * (1 - d) ^ k)
      (rnd (rnd (rnd (1 - d) * pw (-d) k) + rnd (d * pw (rnd (1 - d)) k))) 1 (4 * k + 16) ∧
    |(1 - d) * (-d) ^ k + d * (1 - d) ^ k| ≤ d ∧
    (|rnd (1 - d)| ≤ 2 ∧ |pw (-d) k| ≤ 2 ∧ |rnd (rnd (1 - d) * pw (-d) k)| ≤ 2 ∧ |pw (rnd (1 - d)) k| ≤ 2 ∧
      |rnd (d * pw (rnd (1 - d)) k)| ≤ 2) := by
  have hu := S.u0
  have hu1 := S.u1
  have htu : t ≤ u / 2 := by simpa using S.tk 0 (by omega)
  have hk' : (k : ℚ) ≤ 20 := by exact_mod_cast hk20
  have hk0 : (0 : ℚ) ≤ k := by positivity
  have hku := mul_le_mul_of_nonneg_right hk' hu
  have hκ : |(1 - d) * (-d) ^ k + d * (1 - d) ^ k| ≤ d := by
    have h1 := abs_add_le ((1 - d) * (-d) ^ k) (d * (1 - d) ^ k)
    rw [abs_mul, abs_mul, abs_pow, abs_pow, abs_neg, abs_of_pos hd0, abs_of_nonneg (show 0 ≤ 1 - d by linarith)] at h1
    have h2 : d ^ k ≤ d * d := by
      rw [← pow_two]; exact pow_le_pow_of_le_one hd0.le hd1 hk
    have h3 : (1 - d) ^ k ≤ 1 - d := by
      calc (1 - d) ^ k ≤ (1 - d) ^ 1 := pow_le_pow_of_le_one (by linarith) (by linarith) (by omega)
        _ = 1 - d := pow_one _
    have h4 := mul_le_mul_of_nonneg_left h2 (show 0 ≤ 1 - d by linarith)
    have h5 := mul_le_mul_of_nonneg_left h3 hd0.le
    have h6 : (1 - d) * (d * d) ≤ d * d := mul_le_of_le_one_left (by positivity) (by linarith)
    linarith
  have hb := (Near.exact (u := u) (a := 1 - d) (B := 1) (by rw [abs_of_nonneg (by linarith)]; linarith)).round hE hu (by norm_num)
    (by linarith)
  have hdk := (Near.exact (u := u) (a := -d) (B := 1) (by rw [abs_neg, abs_of_pos hd0]; exact hd1)).power P hu le_rfl
    (i := k) (by simp) (by rw [one_pow]; linarith)
  have hbk := hb.power P hu (by norm_num) (i := k) (by linarith) (by rw [one_pow]; linarith)
  rw [one_pow] at hdk hbk
  have h1 := (hb.mul hu (by norm_num) hdk (by linarith)).round hE hu (by linarith) (by linarith)
  have h2 := ((Near.exact (u := u) (a := d) (B := 1) (by rw [abs_of_pos hd0]; exact hd1)).mul hu le_rfl hbk (by linarith)).round hE hu
    (by linarith) (by linarith)
  rw [one_mul] at h1 h2
  have h3 := h1.add h2 (D := 1) (g := 4 * k + 14) (hκ.trans hd1) (by linarith) hu
  have b1 := hb.le_two (by linarith)
  have b2 := hdk.le_two (by linarith)
  have b3 := h1.le_two (by linarith)
  have b4 := hbk.le_two (by linarith)
  have b5 := h2.le_two (by linarith)
  rw [mul_one] at b1 b2 b3 b4 b5
  exact ⟨(h3.round hE hu (by linarith) (by linarith)).weaken hu (by linarith), hκ, b1, b2, b3, b4, b5⟩

end
end Verif.FP
