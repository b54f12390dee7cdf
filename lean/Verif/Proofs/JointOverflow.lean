import Verif.Proofs.JointColumn
import Verif.Proofs.NoOverflow

/-! # A joint core in IEEE arithmetic agrees with rounding alone as long as nothing overflows -/

namespace Verif.JFP
open Verif.Spec Verif.MathUtil
open Verif.FP (Arith Rounding Accuracy ieeeOf)
open Verif.Joint (Tuple eq Under visited mem_visited)

section
variable {F : Type} (A : Arith F)

/-- As `newV_zero`, for the products that occur. -/
theorem newV_zero' {n : Nat} {r : Rule F} {δ : List F} (hbase : A.add (A.ofInt 0) (r.base (A.ofInt 0)) = A.ofInt 0)
    (hfull : ∀ b, TOK n b → b.sum = 1 → r.op (A.ofInt 0) (r.full 1 (powLoop A (A.ofInt 1) δ b)) = A.ofInt 0)
    {look : Tuple → F} {a : Tuple} (ha : TOK n a) (h1 : a.sum ≤ 1) : newV A r δ (A.ofInt 0) look a = A.ofInt 0 := by
  unfold newV
  suffices H : ∀ l : List Tuple, (∀ b ∈ l, Under b a) → l.foldl (termV A r δ (A.ofInt 0) look a) (A.ofInt 0) = A.ofInt 0 from
    H _ fun b hb => mem_visited.1 hb
  intro l
  induction l with
  | nil => intro _; rfl
  | cons b l ih =>
    intro hl
    have hb := hl b List.mem_cons_self
    have hle := under_sum_le hb
    rw [List.foldl_cons]
    have : termV A r δ (A.ofInt 0) look a (A.ofInt 0) b = A.ofInt 0 := by
      unfold termV
      by_cases h0 : Joint.abs b = 0
      · rw [if_pos h0, hbase]
      · have hp := sum_pos (ha.under hb).nonneg h0
        have he : b = a := under_eq_of_sum hb (by omega)
        rw [if_neg h0, if_pos (by simp [eq, he]), abs_of_small (ha.under hb) (by omega)]
        rw [show b.sum.toNat = 1 by omega, hfull b (ha.under hb) (by omega)]
    rw [this]
    exact ih fun b hb => hl b (List.mem_cons_of_mem _ hb)

/-- As `newV_two`, for the products that occur. -/
theorem newV_two' {n : Nat} {r : Rule F} {δ : List F} {s s1 : F} {look : Tuple → F} {u : Tuple} (hu : TOK n u) (h2 : u.sum = 2)
    (hbase : A.add (A.ofInt 0) (r.base s) = s1)
    (hpart : ∀ (z : Int) (b : Tuple), TOK n b → b.sum = 1 →
      r.op s1 (r.part (A.ofInt (wrap z)) 1 (powLoop A (A.ofInt 1) δ b) (A.ofInt 0)) = s1)
    (hlook : ∀ c, TOK n c → c.sum = 1 → look c = A.ofInt 0) :
    newV A r δ s look u = r.op s1 (r.full 2 (powLoop A (A.ofInt 1) δ u)) := by
  obtain ⟨z, mid, hv, hz, hmid⟩ := visited_shape hu (by omega)
  unfold newV
  rw [hv, List.foldl_cons, List.foldl_append]
  have e0 : termV A r δ s look u (A.ofInt 0) z = s1 := by
    unfold termV
    rw [if_pos hz, hbase]
  have e1 : mid.foldl (termV A r δ s look u) s1 = s1 := by
    clear hv
    induction mid with
    | nil => rfl
    | cons b mid ih =>
      obtain ⟨hb, hb1, hb2⟩ := hmid b List.mem_cons_self
      have : termV A r δ s look u s1 b = s1 := by
        have habs : Joint.abs b = b.sum := abs_of_small (hu.under hb) (by omega)
        obtain ⟨hs1, hs2, -⟩ := subV_under hb hu.le
        unfold termV
        rw [if_neg (by omega), if_neg (by simp only [eq, decide_eq_true_eq]; rintro rfl; omega), hlook _ (hu.under hs1) (by omega), habs,
          show b.sum.toNat = 1 by omega, hpart _ _ (hu.under hb) (by omega)]
      rw [List.foldl_cons, this]
      exact ih fun b hb => hmid b (List.mem_cons_of_mem _ hb)
  have hau : Joint.abs u = 2 := by rw [abs_of_small hu (by omega), h2]
  rw [e0, e1]
  simp only [List.foldl_cons, List.foldl_nil, termV]
  rw [if_neg (by omega), if_pos (by simp [eq]), hau]
  rfl

end

variable {rnd : ℚ → ℚ} {pw : ℚ → Nat → ℚ} {u t Ω D : ℚ} {ov : ℚ → XF ℚ}

/-- What is assumed of the arithmetic; deviations are at most `D`. -/
structure Fits (rnd : ℚ → ℚ) (pw : ℚ → Nat → ℚ) (u t Ω D : ℚ) (ov : ℚ → XF ℚ) : Prop where
  R : Rounding rnd
  P : PowOK rnd pw
  acc : Accuracy rnd u t
  u0 : 0 ≤ u
  u1 : u ≤ 1 / 4096
  t0 : 0 ≤ t
  t1 : t ≤ 1 / 4096
  sq : ∀ x, |pw x 2 - x * x| ≤ u * (x * x) + t
  ov : ∀ q, |q| < Ω → ov q = .fin q
  D1 : 1 ≤ D
  room1 : 2 ^ 80 * D < Ω
  room2 : 2000 * (D * D) < Ω

namespace Fits

theorem rle (X : Fits rnd pw u t Ω D ov) {q B : ℚ} (hq : |q| ≤ B) (hB : 1 ≤ B) : |rnd q| ≤ 2 * B :=
  FP.rnd_le X.acc X.u1 hq (by linarith [X.t1])

theorem big (X : Fits rnd pw u t Ω D ov) : 2 ^ 80 < Ω := by
  have := X.D1
  have := X.room1
  linarith

theorem zero (X : Fits rnd pw u t Ω D ov) : (ieeeOf rnd pw ov).ofInt 0 = .fin 0 := by
  show ov (rnd ((0 : Int) : ℚ)) = _
  rw [Int.cast_zero, X.R.zero]
  exact X.ov 0 (by rw [_root_.abs_zero]; linarith [X.big])

theorem one (X : Fits rnd pw u t Ω D ov) : (ieeeOf rnd pw ov).ofInt 1 = .fin 1 := by
  show ov (rnd ((1 : Int) : ℚ)) = _
  rw [Int.cast_one, X.R.one]
  exact X.ov 1 (by rw [abs_one]; linarith [X.big])

theorem add (X : Fits rnd pw u t Ω D ov) {a b : ℚ} (h : |rnd (a + b)| < Ω) : (ieeeOf rnd pw ov).add (.fin a) (.fin b) = .fin (rnd (a + b)) :=
  X.ov _ h

theorem sub (X : Fits rnd pw u t Ω D ov) {a b : ℚ} (h : |rnd (a - b)| < Ω) : (ieeeOf rnd pw ov).sub (.fin a) (.fin b) = .fin (rnd (a - b)) :=
  X.ov _ h

theorem mul (X : Fits rnd pw u t Ω D ov) {a b : ℚ} (h : |rnd (a * b)| < Ω) : (ieeeOf rnd pw ov).mul (.fin a) (.fin b) = .fin (rnd (a * b)) :=
  X.ov _ h

theorem div (X : Fits rnd pw u t Ω D ov) {a b : ℚ} (hb : b ≠ 0) (h : |rnd (a / b)| < Ω) :
    (ieeeOf rnd pw ov).div (.fin a) (.fin b) = .fin (rnd (a / b)) := by
  show (if b = 0 then _ else ov (rnd (a / b))) = _
  rw [if_neg hb, X.ov _ h]

theorem pow (X : Fits rnd pw u t Ω D ov) {a : ℚ} {k : Nat} (h : |pw a k| < Ω) : (ieeeOf rnd pw ov).pow (.fin a) k = .fin (pw a k) := X.ov _ h

theorem neg (a : ℚ) : (ieeeOf rnd pw ov).neg (.fin a) = .fin (-a) := rfl

theorem zero_mul (X : Fits rnd pw u t Ω D ov) (a : ℚ) : (ieeeOf rnd pw ov).mul (.fin 0) (.fin a) = .fin 0 := by
  rw [X.mul] <;> rw [MulZeroClass.zero_mul, X.R.zero]
  rw [_root_.abs_zero]; linarith [X.big]

theorem mul_zero (X : Fits rnd pw u t Ω D ov) (a : ℚ) : (ieeeOf rnd pw ov).mul (.fin a) (.fin 0) = .fin 0 := by
  rw [X.mul] <;> rw [MulZeroClass.mul_zero, X.R.zero]
  rw [_root_.abs_zero]; linarith [X.big]

theorem add_zero (X : Fits rnd pw u t Ω D ov) {a : ℚ} (ha : rnd a = a) (h : |a| < Ω) : (ieeeOf rnd pw ov).add (.fin a) (.fin 0) = .fin a := by
  rw [X.add] <;> rw [_root_.add_zero, ha]
  exact h

theorem zero_add (X : Fits rnd pw u t Ω D ov) {a : ℚ} (ha : rnd a = a) (h : |a| < Ω) : (ieeeOf rnd pw ov).add (.fin 0) (.fin a) = .fin a := by
  rw [X.add] <;> rw [_root_.zero_add, ha]
  exact h

theorem ofWrap (X : Fits rnd pw u t Ω D ov) (z : Int) : ∃ m : ℚ, (ieeeOf rnd pw ov).ofInt (wrap z) = .fin m ∧ |m| ≤ 2 ^ 64 := by
  have h1 : |((wrap z : Int) : ℚ)| ≤ 2 ^ 63 := by
    have ha : -(2 ^ 63) ≤ wrap z := by have := Int.le_bmod (x := z) (m := 2 ^ 64) (by norm_num); norm_num at this ⊢; exact this
    have hb : wrap z ≤ 2 ^ 63 := by have := Int.bmod_lt (x := z) (m := 2 ^ 64) (by norm_num); norm_num at this ⊢; exact this.le
    rw [abs_le]
    exact ⟨by exact_mod_cast ha, by exact_mod_cast hb⟩
  have h2 := X.rle h1 (by norm_num)
  refine ⟨rnd ((wrap z : Int) : ℚ), X.ov _ ?_, by linarith⟩
  linarith [X.big]

/-- The product of powers of the deviations. -/
theorem powLoop (X : Fits rnd pw u t Ω D ov) {e : Nat} (he : (4 * D) ^ e < Ω) (he2 : e ≤ 2) : ∀ (b : Tuple) (δ : List ℚ) (r : ℚ) (k : Nat), k ≤ e →
    (∀ j ∈ b, 0 ≤ j) → b.sum ≤ k → rnd r = r → |r| ≤ (4 * D) ^ (e - k) → (∀ v ∈ δ, rnd v = v ∧ |v| ≤ D) →
    JFP.powLoop (ieeeOf rnd pw ov) (.fin r) (δ.map XF.fin) b = .fin (JFP.powLoop (Arith.rounded rnd pw) r δ b) ∧
      |JFP.powLoop (Arith.rounded rnd pw) r δ b| ≤ (4 * D) ^ e := by
  have hD1 := X.D1
  have h4 : (1 : ℚ) ≤ 4 * D := by linarith
  have hend : ∀ {r : ℚ} {k : Nat}, |r| ≤ (4 * D) ^ (e - k) → |r| ≤ (4 * D) ^ e := fun h => h.trans (pow_le_pow_right₀ h4 (Nat.sub_le _ _))
  intro b
  induction b with
  | nil => intro δ r k _ _ _ _ hr _; cases δ <;> exact ⟨rfl, hend hr⟩
  | cons j b ih =>
    intro δ r k hk hpos hsum hrr hr hδ
    cases δ with
    | nil => exact ⟨rfl, hend hr⟩
    | cons x δ =>
      have hx := hδ x List.mem_cons_self
      have hδ' : ∀ v ∈ δ, rnd v = v ∧ |v| ≤ D := fun v hv => hδ v (List.mem_cons_of_mem _ hv)
      have hj := hpos j List.mem_cons_self
      have hpos' : ∀ i ∈ b, 0 ≤ i := fun i hi => hpos i (List.mem_cons_of_mem _ hi)
      have hb0 := sum_nonneg hpos'
      rw [List.sum_cons] at hsum
      simp only [List.map_cons, JFP.powLoop]
      have hpk : (1 : ℚ) ≤ (4 * D) ^ (e - k) := one_le_pow₀ h4
      obtain rfl | rfl | rfl : j = 0 ∨ j = 1 ∨ j = 2 := by omega
      · -- exponent 0
        have e1 : (ieeeOf rnd pw ov).mul (.fin r) ((ieeeOf rnd pw ov).pow (.fin x) (Int.toNat 0)) = .fin r := by
          rw [X.pow (by rw [Int.toNat_zero, X.P.zero, abs_one]; linarith [X.big]), Int.toNat_zero, X.P.zero]
          rw [X.mul] <;> rw [mul_one, hrr]
          exact lt_of_le_of_lt (hend hr) he
        have e2 : (Arith.rounded rnd pw).mul r ((Arith.rounded rnd pw).pow x (Int.toNat 0)) = r := by
          simp [Arith.rounded, X.P.zero, hrr]
        rw [e1, e2]
        exact ih δ r k hk hpos' (by omega) hrr hr hδ'
      · -- exponent 1
        have hb : |rnd (r * x)| ≤ (4 * D) ^ (e - (k - 1)) := by
          have h1 : |r * x| ≤ (4 * D) ^ (e - k) * D := by rw [abs_mul]; exact mul_le_mul hr hx.2 (abs_nonneg _) (by positivity)
          have h2 : (1 : ℚ) ≤ (4 * D) ^ (e - k) * D := one_le_mul_of_one_le_of_one_le hpk hD1
          have h3 := X.rle h1 h2
          rw [show e - (k - 1) = e - k + 1 by omega, pow_succ]
          linarith
        have e1 : (ieeeOf rnd pw ov).mul (.fin r) ((ieeeOf rnd pw ov).pow (.fin x) (Int.toNat 1)) = .fin (rnd (r * x)) := by
          have hp : pw x (Int.toNat 1) = x := X.P.one x hx.1
          rw [X.pow (by rw [hp]; have := X.room1; linarith [hx.2]), hp, X.mul]
          exact lt_of_le_of_lt (hend hb) he
        have e2 : (Arith.rounded rnd pw).mul r ((Arith.rounded rnd pw).pow x (Int.toNat 1)) = rnd (r * x) := by
          simp [Arith.rounded, X.P.one x hx.1]
        rw [e1, e2]
        exact ih δ _ (k - 1) (by omega) hpos' (by omega) (X.R.idem _) hb hδ'
      · -- exponent 2
        have hxx : x * x ≤ D * D := by
          rw [← abs_mul_abs_self x]
          exact mul_self_le_mul_self (abs_nonneg _) hx.2
        have hDD : 1 ≤ D * D := one_le_mul_of_one_le_of_one_le hD1 hD1
        have hp2 : |pw x 2| ≤ 2 * (D * D) := by
          have h1 := abs_add_le (pw x 2 - x * x) (x * x)
          rw [sub_add_cancel, abs_of_nonneg (mul_self_nonneg x)] at h1
          have h2 := X.sq x
          have h3 := mul_le_mul X.u1 hxx (mul_self_nonneg x) (by norm_num)
          linarith [X.t1]
        have hb : |rnd (r * pw x 2)| ≤ (4 * D) ^ (e - (k - 2)) := by
          have h1 : |r * pw x 2| ≤ (4 * D) ^ (e - k) * (2 * (D * D)) := by rw [abs_mul]; exact mul_le_mul hr hp2 (abs_nonneg _) (by positivity)
          have h2 : (1 : ℚ) ≤ (4 * D) ^ (e - k) * (2 * (D * D)) := one_le_mul_of_one_le_of_one_le hpk (by linarith)
          have h3 := X.rle h1 h2
          rw [show e - (k - 2) = e - k + 2 by omega, pow_add]
          have h4 : 0 ≤ (4 * D) ^ (e - k) * (D * D) := by positivity
          linarith
        have e1 : (ieeeOf rnd pw ov).mul (.fin r) ((ieeeOf rnd pw ov).pow (.fin x) (Int.toNat 2)) = .fin (rnd (r * pw x 2)) := by
          have hp : |pw x (Int.toNat 2)| < Ω := by
            show |pw x 2| < Ω
            linarith [X.room2]
          rw [X.pow hp, X.mul] <;> rw [show Int.toNat 2 = 2 from rfl]
          exact lt_of_le_of_lt (hend hb) he
        rw [e1]
        exact ih δ _ (k - 2) (by omega) hpos' (by omega) (X.R.idem _) hb hδ'

theorem powLoop1 (X : Fits rnd pw u t Ω D ov) {n : Nat} {δ : List ℚ} (hδ : ∀ v ∈ δ, rnd v = v ∧ |v| ≤ D) {b : Tuple} (hb : TOK n b) (h1 : b.sum ≤ 1) :
    ∃ dp, JFP.powLoop (ieeeOf rnd pw ov) (.fin 1) (δ.map XF.fin) b = .fin dp ∧ |dp| ≤ 4 * D := by
  have := X.powLoop (e := 1) (by rw [pow_one]; linarith [X.room1, X.D1]) (by norm_num) b δ 1 1 le_rfl hb.nonneg (by exact_mod_cast h1) X.R.one
    (by simp) hδ
  rw [pow_one] at this
  exact ⟨_, this⟩

theorem powLoop2 (X : Fits rnd pw u t Ω D ov) {n : Nat} {δ : List ℚ} (hδ : ∀ v ∈ δ, rnd v = v ∧ |v| ≤ D) {b : Tuple} (hb : TOK n b) (h1 : b.sum ≤ 2) :
    JFP.powLoop (ieeeOf rnd pw ov) (.fin 1) (δ.map XF.fin) b = .fin (JFP.powLoop (Arith.rounded rnd pw) 1 δ b) ∧
      |JFP.powLoop (Arith.rounded rnd pw) 1 δ b| ≤ 16 * (D * D) := by
  have := X.powLoop (e := 2) (by have := X.room2; nlinarith [X.D1]) (by norm_num) b δ 1 2 le_rfl hb.nonneg (by exact_mod_cast h1) X.R.one
    (by simp) hδ
  rw [show (4 * D) ^ 2 = 16 * (D * D) by ring] at this
  exact this

/-! ### The rules -/

/-- What a rule has to do on sums of order at most two. -/
structure RuleOK (rnd : ℚ → ℚ) (pw : ℚ → Nat → ℚ) (Ω D B : ℚ) (ov : ℚ → XF ℚ) (r : Rule (XF ℚ)) (r' : Rule ℚ) : Prop where
  base0 : (ieeeOf rnd pw ov).add (.fin 0) (r.base (.fin 0)) = .fin 0
  full1 : ∀ dp : ℚ, |dp| ≤ 4 * D → r.op (.fin 0) (r.full 1 (.fin dp)) = .fin 0
  base : ∀ s : ℚ, rnd s = s → |s| ≤ B → (ieeeOf rnd pw ov).add (.fin 0) (r.base (.fin s)) = .fin (r'.base s) ∧ rnd (r'.base s) = r'.base s ∧ |r'.base s| < Ω
  part : ∀ s m dp : ℚ, rnd s = s → |s| < Ω → |m| ≤ 2 ^ 64 → |dp| ≤ 4 * D → r.op (.fin s) (r.part (.fin m) 1 (.fin dp) (.fin 0)) = .fin s
  full2 : ∀ s dp : ℚ, |dp| ≤ 16 * (D * D) → |r'.op s (r'.full 2 dp)| < Ω → r.op (.fin s) (r.full 2 (.fin dp)) = .fin (r'.op s (r'.full 2 dp))

theorem addRule_ok (X : Fits rnd pw u t Ω D ov) {n : Nat} (hn : 1 ≤ n) (h1 : rnd (n : ℚ) = n) (h2 : rnd ((n : ℚ) - 1) = n - 1)
    (hnΩ : 2 * ((n : ℚ) * n) + 1 < Ω) (hnt : n * t ≤ 1) {B : ℚ} (hB : B < Ω) :
    RuleOK rnd pw Ω D B ov (addRule (ieeeOf rnd pw ov) (.fin n)) (addRule (Arith.rounded rnd pw) n) := by
  have hn1 : (1 : ℚ) ≤ n := by exact_mod_cast hn
  have hnn : (n : ℚ) ≤ n * n := le_mul_of_one_le_left (by linarith) hn1
  have hbig := X.big
  have hD1 := X.D1
  have hr1 := X.room1
  have hr2 := X.room2
  have eS : (ieeeOf rnd pw ov).sub (.fin n) (.fin 1) = .fin (n - 1) := by
    rw [X.sub] <;> rw [h2]
    rw [abs_of_nonneg (by linarith)]; linarith
  have eP1 : (ieeeOf rnd pw ov).pow (.fin n) 1 = .fin n := by
    have hp := X.P.one _ h1
    rw [X.pow] <;> rw [hp]
    rw [abs_of_nonneg (by linarith)]; linarith
  have eP0 : (ieeeOf rnd pw ov).pow (.fin (n - 1)) 0 = .fin 1 := by
    have hp := X.P.zero ((n : ℚ) - 1)
    rw [X.pow] <;> rw [hp]
    rw [abs_one]; linarith
  have eQ1 : (ieeeOf rnd pw ov).pow (.fin (n - 1)) 1 = .fin (n - 1) := by
    have hp := X.P.one _ h2
    rw [X.pow] <;> rw [hp]
    rw [abs_of_nonneg (by linarith)]; linarith
  have hq : ∀ {a C : ℚ}, |a| ≤ C → |a / n| ≤ C := by
    intro a C h
    rw [abs_div, abs_of_pos (show (0 : ℚ) < n by linarith)]
    exact (div_le_self (abs_nonneg _) hn1).trans h
  refine ⟨?_, ?_, ?_, ?_, ?_⟩
  · exact X.add_zero X.R.zero (by rw [_root_.abs_zero]; linarith)
  · intro dp _
    show (ieeeOf rnd pw ov).add (.fin 0) ((ieeeOf rnd pw ov).mul ((ieeeOf rnd pw ov).mul ((ieeeOf rnd pw ov).div ((ieeeOf rnd pw ov).sub (.fin n) _)
      ((ieeeOf rnd pw ov).pow (.fin n) 1)) ((ieeeOf rnd pw ov).add ((ieeeOf rnd pw ov).pow ((ieeeOf rnd pw ov).sub (.fin n) _) 0)
        ((ieeeOf rnd pw ov).ofInt (-1)))) (.fin dp)) = _
    have hm1 : (ieeeOf rnd pw ov).ofInt (-1) = .fin (-1) := by
      show ov (rnd ((-1 : Int) : ℚ)) = _
      rw [Int.cast_neg, Int.cast_one, X.R.neg, X.R.one]
      exact X.ov _ (by rw [abs_neg, abs_one]; linarith)
    have h0 : (ieeeOf rnd pw ov).add (.fin 1) (.fin (-1)) = .fin 0 := by
      rw [X.add] <;> rw [add_neg_cancel, X.R.zero]
      rw [_root_.abs_zero]; linarith
    rw [X.one, eS, eP1, eP0, hm1, h0, X.div (by linarith) (lt_of_le_of_lt (X.rle (hq (C := n) (by rw [abs_of_nonneg (by linarith)]; linarith)) hn1)
      (by linarith)), X.mul_zero, X.zero_mul]
    exact X.add_zero X.R.zero (by rw [_root_.abs_zero]; linarith)
  · intro s hs hsB
    exact ⟨X.zero_add hs (by linarith), hs, lt_of_le_of_lt hsB hB⟩
  · intro s m dp hs hsΩ hm hdp
    show (ieeeOf rnd pw ov).add (.fin s) ((ieeeOf rnd pw ov).mul ((ieeeOf rnd pw ov).mul ((ieeeOf rnd pw ov).div (.fin m)
      ((ieeeOf rnd pw ov).pow (.fin n) 1)) (.fin dp)) (.fin 0)) = _
    have b1 := X.rle (hq hm) (by norm_num)
    have b2 : |rnd (m / n) * dp| ≤ 2 * 2 ^ 64 * (4 * D) := by
      rw [abs_mul]; exact mul_le_mul b1 hdp (abs_nonneg _) (by positivity)
    have b3 := X.rle b2 (by linarith)
    rw [eP1, X.div (by linarith) (by linarith), X.mul (by linarith), X.mul_zero]
    exact X.add_zero hs hsΩ
  · intro s dp hdp hres
    have hp := X.sq n
    have hp2 : |pw n 2| ≤ 2 * ((n : ℚ) * n) + 1 := by
      have e1 := abs_add_le (pw n 2 - n * n) ((n : ℚ) * n)
      rw [sub_add_cancel, abs_of_nonneg (mul_self_nonneg (n : ℚ))] at e1
      have e2 := mul_le_mul_of_nonneg_right X.u1 (mul_self_nonneg (n : ℚ))
      linarith [X.t1]
    have hpl : (n : ℚ) * n / 2 ≤ pw n 2 := by
      have e2 := mul_le_mul_of_nonneg_right X.u1 (mul_self_nonneg (n : ℚ))
      rw [abs_le] at hp
      linarith [X.t1, hp.1]
    have hp0 : 0 < pw n 2 := by linarith
    have hc : |((n : ℚ) - 1) / pw n 2| ≤ 2 / n := by
      rw [abs_div, abs_of_pos hp0, abs_of_nonneg (show (0 : ℚ) ≤ n - 1 by linarith), div_le_div_iff₀ hp0 (by linarith)]
      have : ((n : ℚ) - 1) * n ≤ n * n := mul_le_mul_of_nonneg_right (by linarith) (by linarith)
      linarith
    have h2n : 2 / (n : ℚ) ≤ 2 := div_le_self (by norm_num) hn1
    have hc1 := X.rle (hc.trans h2n) (by norm_num)
    have hc2 : |rnd (((n : ℚ) - 1) / pw n 2) * n| ≤ 4 := by
      have e1 := X.acc (((n : ℚ) - 1) / pw n 2)
      have e2 := abs_add_le (rnd (((n : ℚ) - 1) / pw n 2) - ((n : ℚ) - 1) / pw n 2) (((n : ℚ) - 1) / pw n 2)
      rw [sub_add_cancel] at e2
      have e3 : u * |((n : ℚ) - 1) / pw n 2| ≤ 1 / 4096 * (2 / n) := mul_le_mul X.u1 hc (abs_nonneg _) (by norm_num)
      have e4 : |rnd (((n : ℚ) - 1) / pw n 2)| ≤ (1 + 1 / 4096) * (2 / n) + t := by linarith
      rw [abs_mul, abs_of_pos (show (0 : ℚ) < n by linarith)]
      have e5 := mul_le_mul_of_nonneg_right e4 (show (0 : ℚ) ≤ n by linarith)
      have e6 : ((1 + 1 / 4096) * (2 / n) + t) * (n : ℚ) = (1 + 1 / 4096) * 2 + n * t := by
        field_simp
      linarith
    have hc3 := X.rle hc2 (by norm_num)
    have hc4 : |rnd (rnd (((n : ℚ) - 1) / pw n 2) * n) * dp| ≤ 2 * 4 * (16 * (D * D)) := by
      rw [abs_mul]; exact mul_le_mul hc3 hdp (abs_nonneg _) (by norm_num)
    have hDD : 1 ≤ D * D := one_le_mul_of_one_le_of_one_le hD1 hD1
    have hc5 := X.rle hc4 (by linarith)
    have hsg : (ieeeOf rnd pw ov).ofInt (sign 2) = .fin 1 := X.one
    have hadd : (ieeeOf rnd pw ov).add (.fin (n - 1)) (.fin 1) = .fin n := by
      rw [X.add] <;> rw [sub_add_cancel, h1]
      rw [abs_of_nonneg (by linarith)]; linarith
    have er : (addRule (Arith.rounded rnd pw) (n : ℚ)).op s ((addRule (Arith.rounded rnd pw) (n : ℚ)).full 2 dp) =
        rnd (s + rnd (rnd (rnd (((n : ℚ) - 1) / pw n 2) * n) * dp)) := by
      have hp1 := X.P.one _ h2
      simp only [addRule, Arith.rounded, Int.cast_one, X.R.one, h2, show 2 - 1 = 1 from rfl, hp1]
      rw [show ((sign ((2 : Nat) : Int) : Int) : ℚ) = 1 from by simp [sign], X.R.one, sub_add_cancel, h1]
    rw [er] at hres ⊢
    show (ieeeOf rnd pw ov).add (.fin s) ((ieeeOf rnd pw ov).mul ((ieeeOf rnd pw ov).mul ((ieeeOf rnd pw ov).div ((ieeeOf rnd pw ov).sub (.fin n) _)
      ((ieeeOf rnd pw ov).pow (.fin n) 2)) ((ieeeOf rnd pw ov).add ((ieeeOf rnd pw ov).pow ((ieeeOf rnd pw ov).sub (.fin n) _) 1)
        ((ieeeOf rnd pw ov).ofInt (sign 2)))) (.fin dp)) = _
    rw [X.one, eS, X.pow (by linarith), eQ1, hsg, hadd, X.div hp0.ne' (by linarith), X.mul (by linarith), X.mul (by linarith), X.add hres]

theorem decayRule_ok (X : Fits rnd pw u t Ω D ov) {d : ℚ} (hd0 : 0 < d) (hd1 : d ≤ 1) (hrd : rnd d = d) {B : ℚ} (hB1 : 1 ≤ B) (hB : 4 * B < Ω) :
    RuleOK rnd pw Ω D B ov (decayRule (ieeeOf rnd pw ov) (.fin d)) (decayRule (Arith.rounded rnd pw) d) := by
  have hbig := X.big
  have hD1 := X.D1
  have hr1 := X.room1
  have hr2 := X.room2
  have hda : |d| ≤ 1 := by rw [abs_of_pos hd0]; exact hd1
  have hca : |rnd (1 - d)| ≤ 2 := by
    have := X.rle (q := 1 - d) (B := 1) (by rw [abs_of_nonneg (by linarith)]; linarith) le_rfl
    linarith
  have eS : (ieeeOf rnd pw ov).sub (.fin 1) (.fin d) = .fin (rnd (1 - d)) := X.sub (by linarith)
  have hrc : rnd (rnd (1 - d)) = rnd (1 - d) := X.R.idem _
  have hrn : rnd (-d) = -d := by rw [X.R.neg, hrd]
  have hcd : |rnd (1 - d) * d| ≤ 2 * 1 := by rw [abs_mul]; exact mul_le_mul hca hda (abs_nonneg _) (by norm_num)
  have hcd' := X.rle hcd (by norm_num)
  refine ⟨?_, ?_, ?_, ?_, ?_⟩
  · show (ieeeOf rnd pw ov).add (.fin 0) ((ieeeOf rnd pw ov).mul ((ieeeOf rnd pw ov).sub _ (.fin d)) (.fin 0)) = _
    rw [X.one, eS, X.mul_zero]
    exact X.add_zero X.R.zero (by rw [_root_.abs_zero]; linarith)
  · intro dp _
    show (ieeeOf rnd pw ov).add (.fin 0) ((ieeeOf rnd pw ov).mul ((ieeeOf rnd pw ov).add
      ((ieeeOf rnd pw ov).mul ((ieeeOf rnd pw ov).sub _ (.fin d)) ((ieeeOf rnd pw ov).pow ((ieeeOf rnd pw ov).neg (.fin d)) 1))
      ((ieeeOf rnd pw ov).mul (.fin d) ((ieeeOf rnd pw ov).pow ((ieeeOf rnd pw ov).sub _ (.fin d)) 1))) (.fin dp)) = _
    have p1 := X.P.one _ hrn
    have p2 := X.P.one _ hrc
    rw [X.one, eS, neg, X.pow (by rw [p1, abs_neg]; linarith), p1, X.pow (by rw [p2]; linarith), p2,
      X.mul (by rw [mul_neg, X.R.neg, abs_neg]; linarith), X.mul (a := d) (by rw [mul_comm]; linarith)]
    have h0 : rnd (rnd (rnd (1 - d) * -d) + rnd (d * rnd (1 - d))) = 0 := by
      rw [mul_neg, X.R.neg, mul_comm d, neg_add_cancel, X.R.zero]
    rw [X.add (by rw [h0, _root_.abs_zero]; linarith), h0, X.zero_mul]
    exact X.add_zero X.R.zero (by rw [_root_.abs_zero]; linarith)
  · intro s hs hsB
    have b1 : |rnd (1 - d) * s| ≤ 2 * B := by rw [abs_mul]; exact mul_le_mul hca hsB (abs_nonneg _) (by norm_num)
    have b2 := X.rle b1 (by linarith)
    have er : (decayRule (Arith.rounded rnd pw) d).base s = rnd (rnd (1 - d) * s) := by
      simp only [decayRule, Arith.rounded, Int.cast_one, X.R.one]
    rw [er]
    refine ⟨?_, X.R.idem _, by linarith⟩
    show (ieeeOf rnd pw ov).add (.fin 0) ((ieeeOf rnd pw ov).mul ((ieeeOf rnd pw ov).sub _ (.fin d)) (.fin s)) = _
    rw [X.one, eS, X.mul (by linarith)]
    exact X.zero_add (X.R.idem _) (by linarith)
  · intro s m dp hs hsΩ hm hdp
    show (ieeeOf rnd pw ov).add (.fin s) ((ieeeOf rnd pw ov).mul ((ieeeOf rnd pw ov).mul ((ieeeOf rnd pw ov).mul ((ieeeOf rnd pw ov).mul (.fin m)
      ((ieeeOf rnd pw ov).pow (.fin d) 1)) (.fin dp)) ((ieeeOf rnd pw ov).sub _ (.fin d))) (.fin 0)) = _
    have p1 := X.P.one _ hrd
    have b1 : |m * d| ≤ 2 ^ 64 * 1 := by rw [abs_mul]; exact mul_le_mul hm hda (abs_nonneg _) (by norm_num)
    have b1' := X.rle b1 (by norm_num)
    have b2 : |rnd (m * d) * dp| ≤ 2 * (2 ^ 64 * 1) * (4 * D) := by
      rw [abs_mul]; exact mul_le_mul b1' hdp (abs_nonneg _) (by norm_num)
    have b2' := X.rle b2 (by linarith)
    have b3 : |rnd (rnd (m * d) * dp) * rnd (1 - d)| ≤ 2 * (2 * (2 ^ 64 * 1) * (4 * D)) * 2 := by
      rw [abs_mul]; exact mul_le_mul b2' hca (abs_nonneg _) (by linarith)
    have b3' := X.rle b3 (by linarith)
    rw [X.one, eS, X.pow (by rw [p1]; linarith), p1, X.mul (by linarith), X.mul (by linarith), X.mul (by linarith), X.mul_zero]
    exact X.add_zero hs hsΩ
  · intro s dp hdp hres
    have hsq : ∀ {x C : ℚ}, |x| ≤ C → |pw x 2| ≤ 2 * (C * C) + 1 := by
      intro x C hx
      have e0 : x * x ≤ C * C := by rw [← abs_mul_abs_self x]; exact mul_self_le_mul_self (abs_nonneg _) hx
      have e1 := abs_add_le (pw x 2 - x * x) (x * x)
      rw [sub_add_cancel, abs_of_nonneg (mul_self_nonneg x)] at e1
      have e2 := mul_le_mul_of_nonneg_right X.u1 (mul_self_nonneg x)
      linarith [X.t1, X.sq x, mul_self_nonneg x]
    have q1 := hsq (x := -d) (C := 1) (by rw [abs_neg]; exact hda)
    have q2 := hsq hca
    norm_num at q1 q2
    have b1 : |rnd (1 - d) * pw (-d) 2| ≤ 2 * 3 := by rw [abs_mul]; exact mul_le_mul hca q1 (abs_nonneg _) (by norm_num)
    have b1' := X.rle b1 (by norm_num)
    have b2 : |d * pw (rnd (1 - d)) 2| ≤ 1 * 9 := by rw [abs_mul]; exact mul_le_mul hda q2 (abs_nonneg _) (by norm_num)
    have b2' := X.rle b2 (by norm_num)
    have b3 : |rnd (rnd (1 - d) * pw (-d) 2) + rnd (d * pw (rnd (1 - d)) 2)| ≤ 30 := (abs_add_le _ _).trans (by linarith)
    have b3' := X.rle b3 (by norm_num)
    have b4 : |rnd (rnd (rnd (1 - d) * pw (-d) 2) + rnd (d * pw (rnd (1 - d)) 2)) * dp| ≤ 2 * 30 * (16 * (D * D)) := by
      rw [abs_mul]; exact mul_le_mul b3' hdp (abs_nonneg _) (by norm_num)
    have hDD : 1 ≤ D * D := one_le_mul_of_one_le_of_one_le hD1 hD1
    have b4' := X.rle b4 (by linarith)
    have er : (decayRule (Arith.rounded rnd pw) d).op s ((decayRule (Arith.rounded rnd pw) d).full 2 dp) =
        rnd (s + rnd (rnd (rnd (rnd (1 - d) * pw (-d) 2) + rnd (d * pw (rnd (1 - d)) 2)) * dp)) := by
      simp only [decayRule, Arith.rounded, Int.cast_one, X.R.one]
    rw [er] at hres ⊢
    show (ieeeOf rnd pw ov).add (.fin s) ((ieeeOf rnd pw ov).mul ((ieeeOf rnd pw ov).add
      ((ieeeOf rnd pw ov).mul ((ieeeOf rnd pw ov).sub _ (.fin d)) ((ieeeOf rnd pw ov).pow ((ieeeOf rnd pw ov).neg (.fin d)) 2))
      ((ieeeOf rnd pw ov).mul (.fin d) ((ieeeOf rnd pw ov).pow ((ieeeOf rnd pw ov).sub _ (.fin d)) 2))) (.fin dp)) = _
    rw [X.one, eS, neg, X.pow (by linarith), X.pow (by linarith), X.mul (by linarith), X.mul (a := d) (by linarith), X.add (by linarith),
      X.mul (by linarith), X.add hres]

/-- The new sums: those of order at most one are zero, those of order two are the rounded ones. -/
theorem newV (X : Fits rnd pw u t Ω D ov) {B : ℚ} {r : Rule (XF ℚ)} {r' : Rule ℚ} (K : RuleOK rnd pw Ω D B ov r r') {n : Nat} {δ : List ℚ}
    (hδ : ∀ v ∈ δ, rnd v = v ∧ |v| ≤ D) {look : Tuple → XF ℚ} (hlook : ∀ c, TOK n c → c.sum ≤ 1 → look c = .fin 0) :
    (∀ a, TOK n a → a.sum ≤ 1 → JFP.newV (ieeeOf rnd pw ov) r (δ.map XF.fin) (look a) look a = .fin 0) ∧
    ∀ (v : Tuple) (s : ℚ), TOK n v → v.sum = 2 → look v = .fin s → rnd s = s → |s| ≤ B →
      |r'.op (r'.base s) (r'.full 2 (JFP.powLoop (Arith.rounded rnd pw) 1 δ v))| < Ω →
      JFP.newV (ieeeOf rnd pw ov) r (δ.map XF.fin) (look v) look v =
        .fin (r'.op (r'.base s) (r'.full 2 (JFP.powLoop (Arith.rounded rnd pw) 1 δ v))) := by
  refine ⟨fun a ha h1 => ?_, fun v s hv h2 hl hs hsB hres => ?_⟩
  · rw [hlook a ha h1, ← X.zero]
    refine newV_zero' _ ?_ ?_ ha h1
    · rw [X.zero]; exact K.base0
    · intro b hb hb1
      obtain ⟨dp, e, hdp⟩ := X.powLoop1 hδ hb (by omega)
      rw [X.zero, X.one, e]
      exact K.full1 dp hdp
  · obtain ⟨b1, b2, b3⟩ := K.base s hs hsB
    obtain ⟨e, hdp⟩ := X.powLoop2 hδ hv (by omega)
    rw [newV_two' _ (s1 := .fin (r'.base s)) hv h2, X.one, e]
    · exact K.full2 _ _ hdp hres
    · rw [X.zero, hl]; exact b1
    · intro z b hb hb1
      obtain ⟨dp, e, hdp⟩ := X.powLoop1 hδ hb (by omega)
      obtain ⟨m, hm, hmb⟩ := X.ofWrap z
      rw [X.zero, X.one, e, hm]
      exact K.part _ _ _ b2 b3 hmb hdp
    · intro c hc hc1
      rw [X.zero]
      exact hlook c hc (by omega)

end Fits

/-! ### All points -/

theorem zipWith_fin {f : XF ℚ → XF ℚ → XF ℚ} {g : ℚ → ℚ → ℚ} : ∀ {l l' : List ℚ}, (∀ (i : Nat) (a b : ℚ), l[i]? = some a → l'[i]? = some b → f (.fin a) (.fin b) = .fin (g a b)) →
    List.zipWith f (l.map XF.fin) (l'.map XF.fin) = (List.zipWith g l l').map XF.fin
  | [], _, _ => by simp
  | _ :: _, [], _ => by simp
  | a :: l, b :: l', h => by
    simp only [List.map_cons, List.zipWith_cons_cons]
    rw [h 0 a b rfl rfl, zipWith_fin fun i a b ha hb => h (i + 1) a b (by simpa using ha) (by simpa using hb)]

theorem zipWith_get {α β γ : Type} {f : α → β → γ} {l : List α} {l' : List β} {i : Nat} {a : α} {b : β} (ha : l[i]? = some a) (hb : l'[i]? = some b) :
    (List.zipWith f l l')[i]? = some (f a b) := by
  simp [List.getElem?_zipWith, ha, hb]

/-- What is known of the rounded core along the way: `v` is the tuple, all means are at most `M` and the sum is at most `B`. -/
structure Along (rnd : ℚ → ℚ) (pw : ℚ → Nat → ℚ) (n : Nat) (d : Option ℚ) (v : Tuple) (M B : ℚ) (xs : List (List ℚ)) : Prop where
  len : ∀ x ∈ xs, x.length = n
  data : ∀ x ∈ xs, ∀ a ∈ x, |a| ≤ M
  mean : ∀ ys, ys <+: xs → ∀ m ∈ (gst (Arith.rounded rnd pw) n 0 d ys).1, |m| ≤ M
  sum : ∀ ys, ys <+: xs → rnd ((gst (Arith.rounded rnd pw) n 0 d ys).2 v) = (gst (Arith.rounded rnd pw) n 0 d ys).2 v ∧
    |(gst (Arith.rounded rnd pw) n 0 d ys).2 v| ≤ B

theorem roomG_zero {F : Type} (A : Arith F) (n : Nat) (pts : List (List F)) (p : List F × (Tuple → F)) : roomG A n 0 pts p = p :=
  roomG_room A (Or.inl rfl)

/-- A joint core without a window in IEEE arithmetic. -/
theorem gst_fin {M B : ℚ} (X : Fits rnd pw u t Ω (2 + 4 * M) ov) {N n : Nat} (hN : ∀ m : Nat, m ≤ N → rnd m = m) {d : Option ℚ}
    (hNΩ : d = none → 2 * ((N : ℚ) * N) + 1 < Ω ∧ N * t ≤ 1) (hd : ∀ dd, d = some dd → rnd dd = dd ∧ 0 < dd ∧ dd ≤ 1) (hB1 : 1 ≤ B) (hB : 4 * B < Ω) (hM0 : 0 ≤ M)
    {v : Tuple} (hv : TOK n v) (h2 : v.sum = 2) (xs : List (List ℚ)) (hl : d = none → xs.length ≤ N) (Y : Along rnd pw n d v M B xs) :
    (gst (ieeeOf rnd pw ov) n 0 (d.map XF.fin) (xs.map (List.map XF.fin))).1 = (gst (Arith.rounded rnd pw) n 0 d xs).1.map XF.fin ∧
    (∀ a, TOK n a → a.sum ≤ 1 → (gst (ieeeOf rnd pw ov) n 0 (d.map XF.fin) (xs.map (List.map XF.fin))).2 a = .fin 0) ∧
    (gst (ieeeOf rnd pw ov) n 0 (d.map XF.fin) (xs.map (List.map XF.fin))).2 v = .fin ((gst (Arith.rounded rnd pw) n 0 d xs).2 v) := by
  have hz := X.zero
  have hzR : (Arith.rounded rnd pw).ofInt 0 = 0 := by simp [Arith.rounded, X.R.zero]
  have hoR : (Arith.rounded rnd pw).ofInt 1 = 1 := by simp [Arith.rounded, X.R.one]
  have hbig := X.big
  have hr1 := X.room1
  induction xs using List.reverseRecOn with
  | nil =>
    rw [List.map_nil, gst_nil, gst_nil, hz, hzR]
    refine ⟨by simp, fun _ _ _ => rfl, rfl⟩
  | append_singleton xs x ih =>
    have Y' : Along rnd pw n d v M B xs := ⟨fun y hy => Y.len y (by simp [hy]), fun y hy => Y.data y (by simp [hy]),
      fun ys h => Y.mean ys (h.trans (List.prefix_append _ _)), fun ys h => Y.sum ys (h.trans (List.prefix_append _ _))⟩
    obtain ⟨i1, i2, i3⟩ := ih (fun h => by have := hl h; simp at this; omega) Y'
    have hml := gst_length (Arith.rounded rnd pw) (w := 0) (d := d) xs Y'.len
    have hmb := Y'.mean xs List.prefix_rfl
    have hmb' := Y.mean (xs ++ [x]) List.prefix_rfl
    obtain ⟨hsr, hsB⟩ := Y'.sum xs List.prefix_rfl
    obtain ⟨-, hsB'⟩ := Y.sum (xs ++ [x]) List.prefix_rfl
    have hxl := Y.len x (by simp)
    have hxb := Y.data x (by simp)
    have hlast : (lastN 0 (List.map (List.map XF.fin) xs ++ [List.map XF.fin x])).length = xs.length + 1 := by rw [lastN_zero]; simp
    have hlastR : (lastN 0 (xs ++ [x])).length = xs.length + 1 := by rw [lastN_zero]; simp
    have hδb : ∀ {a b : ℚ}, |a| ≤ M → |b| ≤ M → |rnd (a - b)| ≤ 2 + 4 * M := by
      intro a b ha hb
      have := X.rle (q := a - b) (B := 1 + 2 * M) ((abs_sub _ _).trans (by linarith)) (by linarith)
      linarith
    have hδ : List.zipWith (fun x m => (ieeeOf rnd pw ov).sub x m) (x.map XF.fin) ((gst (Arith.rounded rnd pw) n 0 d xs).1.map XF.fin) =
        (List.zipWith (fun x m => (Arith.rounded rnd pw).sub x m) x (gst (Arith.rounded rnd pw) n 0 d xs).1).map XF.fin := by
      refine zipWith_fin fun i a b ha hb => X.sub ?_
      have := hδb (hxb a (List.mem_of_getElem? ha)) (hmb b (List.mem_of_getElem? hb))
      linarith
    have hδr : ∀ w ∈ List.zipWith (fun x m => (Arith.rounded rnd pw).sub x m) x (gst (Arith.rounded rnd pw) n 0 d xs).1,
        rnd w = w ∧ |w| ≤ 2 + 4 * M := by
      intro w hw
      rw [List.mem_iff_getElem] at hw
      obtain ⟨k, hk, rfl⟩ := hw
      rw [List.getElem_zipWith]
      exact ⟨X.R.idem _, hδb (hxb _ (List.getElem_mem _)) (hmb _ (List.getElem_mem _))⟩
    rw [List.map_append, List.map_cons, List.map_nil]
    have hzero := fun a ha h => (gst_zero X.R X.P (fun dd h => (hd dd h).1) (n := n) (w := 0) (d := d) xs (a := a) ha h).1
    generalize hδδ : List.zipWith (fun x m => (Arith.rounded rnd pw).sub x m) x (gst (Arith.rounded rnd pw) n 0 d xs).1 = δ at *
    cases d with
    | none =>
      obtain ⟨hNΩ1, hNΩ2⟩ := hNΩ rfl
      have hlN := hl rfl
      rw [List.length_append, List.length_singleton] at hlN
      have hlN' : ((xs.length + 1 : Nat) : ℚ) ≤ N := by exact_mod_cast hlN
      have h1n : (1 : ℚ) ≤ ((xs.length + 1 : Nat) : ℚ) := by exact_mod_cast (show 1 ≤ xs.length + 1 by omega)
      have e1 : rnd ((xs.length + 1 : Nat) : ℚ) = ((xs.length + 1 : Nat) : ℚ) := hN _ hlN
      have e2 : rnd (((xs.length + 1 : Nat) : ℚ) - 1) = ((xs.length + 1 : Nat) : ℚ) - 1 := by
        have := hN xs.length (by omega)
        push_cast
        rwa [add_sub_cancel_right]
      have hnn := mul_le_mul hlN' hlN' (by linarith) (by linarith)
      have hle : ((xs.length + 1 : Nat) : ℚ) ≤ ((xs.length + 1 : Nat) : ℚ) * ((xs.length + 1 : Nat) : ℚ) := le_mul_of_one_le_left (by linarith) h1n
      have hofI : (ieeeOf rnd pw ov).ofInt (((xs.length + 1 : Nat) : Nat) : Int) = .fin ((xs.length + 1 : Nat) : ℚ) := by
        show ov (rnd ((((xs.length + 1 : Nat) : Nat) : Int) : ℚ)) = _
        rw [Int.cast_natCast, e1]
        exact X.ov _ (by rw [abs_of_nonneg (by linarith)]; linarith)
      have hofR : (Arith.rounded rnd pw).ofInt (((xs.length + 1 : Nat) : Nat) : Int) = ((xs.length + 1 : Nat) : ℚ) := by
        show rnd ((((xs.length + 1 : Nat) : Nat) : Int) : ℚ) = _
        rw [Int.cast_natCast, e1]
      have K := Fits.addRule_ok X (n := xs.length + 1) (by omega) e1 e2 (by linarith)
        (le_trans (mul_le_mul_of_nonneg_right hlN' X.t0) hNΩ2) (B := B) (by linarith)
      have G := gst_add (ieeeOf rnd pw ov) n 0 (xs.map (List.map XF.fin)) (x.map XF.fin)
      have GR := gst_add (Arith.rounded rnd pw) n 0 xs x
      simp only [Option.map_none] at i1 i2 i3 ⊢
      rw [roomG_zero, hlast, hofI, i1, hδ] at G
      rw [roomG_zero, hlastR, hofR, hδδ] at GR
      obtain ⟨V1, V2⟩ := X.newV K hδr i2
      rw [G]
      refine ⟨?_, V1, ?_⟩
      · rw [GR]
        refine zipWith_fin fun i a b ha hb => ?_
        have hb' := hδr b (List.mem_of_getElem? hb)
        have q1 : |b / ((xs.length + 1 : Nat) : ℚ)| ≤ 2 + 4 * M := by
          rw [abs_div, abs_of_pos (show (0 : ℚ) < ((xs.length + 1 : Nat) : ℚ) by linarith)]
          exact (div_le_self (abs_nonneg _) h1n).trans hb'.2
        have q2 := X.rle q1 (by linarith)
        have q3 := hmb' ((Arith.rounded rnd pw).add a ((Arith.rounded rnd pw).div b ((xs.length + 1 : Nat) : ℚ))) (by
          rw [GR]
          exact List.mem_of_getElem? (zipWith_get ha hb))
        rw [X.div (by linarith) (by linarith)]
        exact X.add (lt_of_le_of_lt q3 (by linarith))
      · have hval : (gst (Arith.rounded rnd pw) n 0 none (xs ++ [x])).2 v = (addRule (Arith.rounded rnd pw) ((xs.length + 1 : Nat) : ℚ)).op
            ((addRule (Arith.rounded rnd pw) ((xs.length + 1 : Nat) : ℚ)).base ((gst (Arith.rounded rnd pw) n 0 none xs).2 v))
            ((addRule (Arith.rounded rnd pw) ((xs.length + 1 : Nat) : ℚ)).full 2 (powLoop (Arith.rounded rnd pw) 1 δ v)) := by
          rw [GR]
          dsimp only
          rw [newV_two _ (s1 := (gst (Arith.rounded rnd pw) n 0 none xs).2 v) hv h2, hoR]
          · rfl
          · simp only [addRule, hzR]
            simp only [Arith.rounded, zero_add]
            exact hsr
          · intro m k dp
            simp only [addRule, hzR]
            simp only [Arith.rounded, mul_zero, X.R.zero, add_zero]
            exact hsr
          · intro c hc hc1
            rw [hzR]
            exact hzero c hc (by omega)
        rw [hval] at hsB' ⊢
        exact V2 v _ hv h2 i3 hsr hsB (lt_of_le_of_lt hsB' (by linarith))
    | some dd =>
      obtain ⟨hdr, hd0, hd1⟩ := hd dd rfl
      obtain ⟨d', hd', hdI, hdR, hdr', hd0', hd1'⟩ : ∃ d' : ℚ, True ∧ (if xs.length + 1 = 1 then (ieeeOf rnd pw ov).ofInt 1 else .fin dd) = .fin d' ∧
          (if xs.length + 1 = 1 then (Arith.rounded rnd pw).ofInt 1 else dd) = d' ∧ rnd d' = d' ∧ 0 < d' ∧ d' ≤ 1 := by
        by_cases h : xs.length + 1 = 1
        · exact ⟨1, trivial, by rw [if_pos h, X.one], by rw [if_pos h, hoR], X.R.one, one_pos, le_rfl⟩
        · exact ⟨dd, trivial, by rw [if_neg h], by rw [if_neg h], hdr, hd0, hd1⟩
      have K := Fits.decayRule_ok X hd0' hd1' hdr' hB1 hB
      have G := gst_decay (ieeeOf rnd pw ov) n 0 (.fin dd) (xs.map (List.map XF.fin)) (x.map XF.fin)
      have GR := gst_decay (Arith.rounded rnd pw) n 0 dd xs x
      simp only [Option.map_some] at i1 i2 i3 ⊢
      rw [roomG_zero, hlast, hdI, i1, hδ] at G
      rw [roomG_zero, hlastR, hdR, hδδ] at GR
      obtain ⟨V1, V2⟩ := X.newV K hδr i2
      rw [G]
      refine ⟨?_, V1, ?_⟩
      · rw [GR]
        refine zipWith_fin fun i a b ha hb => ?_
        have hb' := hδr b (List.mem_of_getElem? hb)
        have q1 : |d' * b| ≤ 1 * (2 + 4 * M) := by
          rw [abs_mul, abs_of_pos hd0']
          exact mul_le_mul hd1' hb'.2 (abs_nonneg _) (by norm_num)
        have q2 := X.rle q1 (by linarith)
        have q3 := hmb' ((Arith.rounded rnd pw).add a ((Arith.rounded rnd pw).mul d' b)) (by
          rw [GR]
          exact List.mem_of_getElem? (zipWith_get ha hb))
        rw [X.mul (by linarith)]
        exact X.add (lt_of_le_of_lt q3 (by linarith))
      · have hval : (gst (Arith.rounded rnd pw) n 0 (some dd) (xs ++ [x])).2 v = (decayRule (Arith.rounded rnd pw) d').op
            ((decayRule (Arith.rounded rnd pw) d').base ((gst (Arith.rounded rnd pw) n 0 (some dd) xs).2 v))
            ((decayRule (Arith.rounded rnd pw) d').full 2 (powLoop (Arith.rounded rnd pw) 1 δ v)) := by
          rw [GR]
          dsimp only
          rw [newV_two _ (s1 := (decayRule (Arith.rounded rnd pw) d').base ((gst (Arith.rounded rnd pw) n 0 (some dd) xs).2 v)) hv h2, hoR]
          · simp only [decayRule, hzR]
            simp only [Arith.rounded, zero_add]
            exact X.R.idem _
          · intro m k dp
            simp only [decayRule, hzR]
            simp only [Arith.rounded, mul_zero, X.R.zero, add_zero]
            exact X.R.idem _
          · intro c hc hc1
            rw [hzR]
            exact hzero c hc (by omega)
        rw [hval] at hsB' ⊢
        exact V2 v _ hv h2 i3 hsr hsB (lt_of_le_of_lt hsB' (by linarith))

end Verif.JFP
