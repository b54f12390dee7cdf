import Verif.Proofs.QuantileFP
import Verif.Proofs.OrdinalHeap

/-! # The quantile metrics on finite values below `2^1023`

`XF.fin` preserves the comparisons, so `Proofs/Ordinal*.lean` apply to it; what remains are the arithmetic operations of `Value`. -/

set_option linter.unusedSectionVars false

namespace Verif.Quant
open Verif Verif.Spec Verif.FP

/-- A binary64 number below `2^1023` in absolute value. -/
def Fits (x : ℚ) : Prop := rnd64 x = x ∧ |x| < two 1023

theorem two1024 : two 1024 = 2 * two 1023 := by decide +kernel
theorem two1023_pos : 2 ^ 53 < two 1023 := by decide +kernel

attribute [local irreducible] two

theorem rnd64_abs {a B : ℚ} (hB : rnd64 B = B) (h : |a| ≤ B) : |rnd64 a| ≤ B := by
  rw [abs_le] at h ⊢
  have h1 := rounding_rnd64.mono h.1
  have h2 := rounding_rnd64.mono h.2
  rw [rounding_rnd64.neg, hB] at h1
  rw [hB] at h2
  exact ⟨h1, h2⟩

theorem over_fin {q B : ℚ} (hB : rnd64 B = B) (h : |q| ≤ B) (hlt : B < two 1024) : over64 (rnd64 q) = .fin (rnd64 q) := by
  have := abs_lt.1 (lt_of_le_of_lt (rnd64_abs hB h) hlt)
  rw [over64, if_neg (by linarith), if_neg (by linarith)]

/-- A common bound. -/
theorem Fits.bound {a b : ℚ} (ha : Fits a) (hb : Fits b) : ∃ B, rnd64 B = B ∧ B < two 1023 ∧ |a| ≤ B ∧ |b| ≤ B := by
  have key : ∀ x, Fits x → rnd64 |x| = |x| := fun x hx => by
    rcases abs_choice x with h | h <;> rw [h]
    · exact hx.1
    · rw [rounding_rnd64.neg, hx.1]
  rcases le_total |a| |b| with h | h
  · exact ⟨|b|, key b hb, hb.2, h, le_rfl⟩
  · exact ⟨|a|, key a ha, ha.2, le_rfl, h⟩

theorem fin_ordMap : OrdMap (XF.fin : ℚ → XF ℚ) := ⟨fun _ _ => rfl, fun _ _ => rfl, fun _ _ => rfl⟩

theorem ieee_ofInt {k : Int} (h0 : 0 ≤ k) (h1 : k < 2 ^ 53) : ieeeOps64.ofInt k = .fin (ops64.ofInt k) := by
  obtain ⟨n, rfl⟩ := Int.eq_ofNat_of_zero_le h0
  have e : rnd64 ((n : Int) : ℚ) = ((n : Int) : ℚ) := by
    have := rnd64_nat (n := n) (by omega)
    exact_mod_cast this
  have hn : ((n : Int) : ℚ) < 2 ^ 53 := by exact_mod_cast h1
  refine over_fin e (B := ((n : Int) : ℚ)) ?_ ?_
  · rw [abs_of_nonneg (by positivity)]
  · have := two1023_pos
    rw [two1024]; linarith

theorem ops64_ofInt {k : Int} (h0 : 0 ≤ k) (h1 : k < 2 ^ 53) : ops64.ofInt k = k := by
  obtain ⟨n, rfl⟩ := Int.eq_ofNat_of_zero_le h0
  have := rnd64_nat (n := n) (by omega)
  show rnd64 ((n : Int) : ℚ) = ((n : Int) : ℚ)
  exact_mod_cast this

/-- The mean of two fitting numbers. -/
theorem ieee_mid {a b : ℚ} (ha : Fits a) (hb : Fits b) : ieeeOps64.div (ieeeOps64.add (.fin a) (.fin b)) (ieeeOps64.ofInt 2) =
    .fin (ops64.div (ops64.add a b) (ops64.ofInt 2)) := by
  obtain ⟨B, hB, hlt, h1, h2⟩ := ha.bound hb
  have h3 : |a + b| ≤ 2 * B := (abs_add_le a b).trans (by linarith)
  have h4 : rnd64 (2 * B) = 2 * B := halving_rnd64.double _ hB
  have h5 : 2 * B < two 1024 := by rw [two1024]; linarith
  have e1 : ieeeOps64.add (.fin a) (.fin b) = .fin (rnd64 (a + b)) := over_fin h4 h3 h5
  have e2 : ieeeOps64.ofInt 2 = .fin 2 := by
    rw [ieee_ofInt (by norm_num) (by norm_num), ops64_ofInt (by norm_num) (by norm_num)]; rfl
  have e3 : ops64.ofInt 2 = 2 := by rw [ops64_ofInt (by norm_num) (by norm_num)]; rfl
  rw [e1, e2, e3]
  have e4 : ieeeOps64.div (.fin (rnd64 (a + b))) (.fin 2) = over64 (rnd64 (rnd64 (a + b) / 2)) := by
    simp only [ieeeOps64, Arith.ieee64, Arith.ieee]; rw [if_neg (by norm_num)]
  rw [e4]
  have h6 := rnd64_abs h4 h3
  have hB0 : 0 ≤ B := (abs_nonneg a).trans h1
  refine over_fin hB ?_ (by linarith)
  rw [abs_div, abs_two]; linarith

/-- The difference of two fitting numbers. -/
theorem ieee_sub {a b B : ℚ} (hB : rnd64 B = B) (hlt : B < two 1023) (h1 : |a| ≤ B) (h2 : |b| ≤ B) :
    ieeeOps64.sub (.fin a) (.fin b) = .fin (ops64.sub a b) := by
  have h3 : |a - b| ≤ 2 * B := (abs_sub a b).trans (by linarith)
  have h5 : 2 * B < two 1024 := by rw [two1024]; linarith
  exact over_fin (halving_rnd64.double _ hB) h3 h5

theorem one_fits : rnd64 1 = 1 ∧ (1 : ℚ) < two 1024 := ⟨rounding_rnd64.one, by have := two1023_pos; rw [two1024]; linarith⟩

/-- The linear interpolation of two fitting numbers. -/
theorem ieee_lin {a b d : ℚ} (ha : Fits a) (hb : Fits b) (h0 : 0 ≤ d) (h1 : d ≤ 1) :
    ieeeOps64.add (ieeeOps64.mul (ieeeOps64.sub (ieeeOps64.ofInt 1) (.fin d)) (.fin a)) (ieeeOps64.mul (.fin d) (.fin b)) =
      .fin (ops64.add (ops64.mul (ops64.sub (ops64.ofInt 1) d) a) (ops64.mul d b)) := by
  obtain ⟨B, hB, hlt, hA1, hB1⟩ := ha.bound hb
  have hB0 : 0 ≤ B := (abs_nonneg a).trans hA1
  have hlt' : B < two 1024 := by rw [two1024]; linarith
  have e1 : ops64.ofInt 1 = 1 := by rw [ops64_ofInt (by norm_num) (by norm_num)]; rfl
  have e2 : ieeeOps64.ofInt 1 = .fin 1 := by rw [ieee_ofInt (by norm_num) (by norm_num), e1]
  have c0 : |1 - d| ≤ 1 := abs_le.2 ⟨by linarith, by linarith⟩
  have c1 := rnd64_abs one_fits.1 c0
  have e3 : ieeeOps64.sub (.fin 1) (.fin d) = .fin (rnd64 (1 - d)) := over_fin one_fits.1 c0 one_fits.2
  have c2 : |rnd64 (1 - d) * a| ≤ B := by
    rw [abs_mul]
    calc _ ≤ 1 * |a| := mul_le_mul_of_nonneg_right c1 (abs_nonneg _)
      _ ≤ B := by linarith
  have c3 : |d * b| ≤ B := by
    rw [abs_mul, abs_of_nonneg h0]
    calc _ ≤ 1 * |b| := mul_le_mul_of_nonneg_right h1 (abs_nonneg _)
      _ ≤ B := by linarith
  have e4 : ieeeOps64.mul (.fin (rnd64 (1 - d))) (.fin a) = .fin (rnd64 (rnd64 (1 - d) * a)) := over_fin hB c2 hlt'
  have e5 : ieeeOps64.mul (.fin d) (.fin b) = .fin (rnd64 (d * b)) := over_fin hB c3 hlt'
  rw [e1, e2, e3, e4, e5]
  have h3 : |rnd64 (rnd64 (1 - d) * a) + rnd64 (d * b)| ≤ 2 * B :=
    (abs_add_le _ _).trans (by have := rnd64_abs hB c2; have := rnd64_abs hB c3; linarith)
  exact over_fin (halving_rnd64.double _ hB) h3 (by rw [two1024]; linarith)

/-! ### The constructor -/

variable {F G : Type} [GoOrd F] [GoOrd G] {φ : F → G}

def OrderOpt.map (φ : F → G) : OrderOpt F → OrderOpt G
  | .maxLevel n => .maxLevel n
  | .probability p => .probability (φ p)
  | .rand => .rand

def Opt.map (φ : F → G) : Opt F → Opt G
  | .impl i os => .impl i (os.map (OrderOpt.map φ))
  | .interpolation i => .interpolation i

def SkipCfg.map (φ : F → G) (c : SkipCfg F) : SkipCfg G := ⟨c.maxLevel, c.p.map φ⟩

def Cfg.map (φ : F → G) (c : Cfg F) : Cfg G := ⟨c.window, c.impl, c.skip.map φ, c.interpolation⟩

theorem sameCfg_map (c : Cfg F) : SameCfg c (c.map φ) := ⟨rfl, rfl, rfl, rfl⟩

theorem skipNew_map (hφ : OrdMap φ) (z o : F) (os : List (OrderOpt F)) (c : SkipCfg F) :
    skipNew (φ z) (φ o) (os.map (OrderOpt.map φ)) (c.map φ) = (skipNew z o os c).map (SkipCfg.map φ) := by
  induction os generalizing c with
  | nil => rfl
  | cons a os ih =>
    cases a with
    | maxLevel n =>
      simp only [List.map_cons, OrderOpt.map, skipNew]
      split_ifs
      · rfl
      · exact ih { c with maxLevel := n }
    | probability p =>
      simp only [List.map_cons, OrderOpt.map, skipNew, hφ.le]
      split_ifs
      · rfl
      · exact ih { c with p := some p }
    | rand => exact ih c

theorem applyOpts_map (hφ : OrdMap φ) (z o : F) (c : Cfg F) (os : List (Opt F)) :
    applyOpts (φ z) (φ o) (c.map φ) (os.map (Opt.map φ)) = (applyOpts z o c os).map (Cfg.map φ) := by
  have step : ∀ (c : Cfg F) a, applyOpt (φ z) (φ o) (c.map φ) (a.map φ) = (applyOpt z o c a).map (Cfg.map φ) := by
    intro c a
    cases a with
    | impl i os =>
      have h := skipNew_map hφ z o os ⟨12, none⟩
      have h' : skipNew (φ z) (φ o) (os.map (OrderOpt.map φ)) ⟨12, none⟩ = (skipNew z o os ⟨12, none⟩).map (SkipCfg.map φ) := h
      simp only [applyOpt, Opt.map, h']
      split_ifs
      · rfl
      · cases skipNew z o os ⟨12, none⟩ <;> rfl
      · rfl
    | interpolation i =>
      simp only [applyOpt, Opt.map]
      split_ifs <;> rfl
  induction os generalizing c with
  | nil => rfl
  | cons a os ih =>
    simp only [List.map_cons, applyOpts, step]
    cases applyOpt z o c a with
    | error e => rfl
    | ok c' => exact ih c'

theorem new_map (hφ : OrdMap φ) (z o : F) (w : Int) (os : List (Opt F)) :
    new (φ z) (φ o) w (os.map (Opt.map φ)) = (new z o w os).map (Cfg.map φ) := by
  unfold new
  split_ifs
  · rfl
  · exact applyOpts_map hφ z o ⟨w, AVL, ⟨12, none⟩, Linear⟩ os

theorem newMedian_map (hφ : OrdMap φ) (z o : F) (w : Int) (os : List (Opt F)) :
    newMedian (φ z) (φ o) w (os.map (Opt.map φ)) = (newMedian z o w os).map (Cfg.map φ) := by
  have := new_map hφ z o w (os ++ [.interpolation Midpoint])
  rw [List.map_append] at this
  exact this

/-! ### `Value` -/

/-- The arithmetic of `Value` does not overflow. -/
theorem arithMap_fin {window : Int} {os : List (Opt ℚ)} {c : Cfg ℚ} (hn : new 0 1 window os = .ok c) (draws : Nat → Nat → Bool)
    (ops : List (MOp ℚ)) {q : Quantile (statOf c draws)} {log : List Err} (hrun : (ofCfg c draws).run ops = .val (q, log))
    (hlen : (windowOf window.toNat ops).length ≤ 2 ^ 53) (hx : ∀ y ∈ windowOf window.toNat ops, Fits y) (p : ℚ) :
    Quantile.ArithMap XF.fin ops64 ieeeOps64 p (.fin p) q := by
  obtain ⟨h0, hw, hs, -, -, -, -⟩ := new_ok hn
  obtain ⟨Rw, W⟩ := statOf_weak c hs draws
  have hfr : ofCfg c draws = Quantile.fresh (statOf c draws) (window.toNat : Int) c.interpolation := by
    rw [ofCfg, hw, Int.toNat_of_nonneg h0]
  rw [hfr] at hrun
  obtain ⟨hl, i⟩ := run_weak W window.toNat c.interpolation ops hrun
  have hsz := W.size i.rep
  have hsz' := W.size_le i.rep
  obtain ⟨n, hnn⟩ : ∃ n : Nat, (statOf c draws).size q.statistic = n := ⟨_, (Int.toNat_of_nonneg hsz).symm⟩
  have hn53 : n ≤ 2 ^ 53 := by
    have : (n : Int) ≤ (windowOf window.toNat ops).length := by rw [hnn] at hsz'; simpa using hsz'
    omega
  have hsel : ∀ (k : Int) v, 0 ≤ k → k < n → q.sel k = .val v → Fits v := by
    intro k v hk0 hk e
    obtain ⟨v', hv, e'⟩ := W.sel_in i.rep k (by omega) (by omega)
    unfold Quantile.sel at e
    rw [e'] at e
    cases e
    exact hx _ (by simpa using hv)
  have o0 : ieeeOps64.ofInt 0 = .fin (ops64.ofInt 0) := ieee_ofInt le_rfl (by norm_num)
  have o1 : ieeeOps64.ofInt 1 = .fin (ops64.ofInt 1) := ieee_ofInt (by norm_num) (by norm_num)
  have z0 : ops64.ofInt 0 = 0 := by rw [ops64_ofInt le_rfl (by norm_num)]; rfl
  have z1 : ops64.ofInt 1 = 1 := by rw [ops64_ofInt (by norm_num) (by norm_num)]; rfl
  refine ⟨by rw [o0]; rfl, by rw [o1]; rfl, fun hp hne => ?_⟩
  rw [z0, z1, Bool.or_eq_true, not_or] at hp
  have p0 : 0 < p := not_le.1 fun h => hp.1 (decide_eq_true h)
  have p1 : p < 1 := not_le.1 fun h => hp.2 (decide_eq_true h)
  rw [hnn] at hne
  have hn0 : 0 < n := by omega
  have hkk : (0 : Int) ≤ (n : Int) - 1 ∧ (n : Int) - 1 < 2 ^ 53 := by omega
  simp only [hnn]
  have ek := ieee_ofInt hkk.1 hkk.2
  have ek' := ops64_ofInt hkk.1 hkk.2
  rw [ek, ek']
  have hkq : (0 : ℚ) ≤ (((n : Int) - 1 : Int) : ℚ) := by exact_mod_cast hkk.1
  have hkr : rnd64 (((n : Int) - 1 : Int) : ℚ) = (((n : Int) - 1 : Int) : ℚ) := ek'
  have hklt : ((((n : Int) - 1 : Int)) : ℚ) < two 1024 := by
    have h1 : (((n : Int) - 1 : Int) : ℚ) < 2 ^ 53 := by exact_mod_cast hkk.2
    have := two1023_pos
    rw [two1024]; linarith
  generalize hK : (((n : Int) - 1 : Int) : ℚ) = K at hkq hkr hklt
  have hr0 : 0 ≤ p * K := by positivity
  have hr1 : p * K ≤ K := by nlinarith
  have em : ieeeOps64.mul (.fin p) (.fin K) = .fin (rnd64 (p * K)) := over_fin hkr (by rw [abs_of_nonneg hr0]; exact hr1) hklt
  have em' : ops64.mul p K = rnd64 (p * K) := rfl
  rw [em, em']
  have r0 : 0 ≤ rnd64 (p * K) := rounding_rnd64.nonneg hr0
  have r1 : rnd64 (p * K) ≤ K := by have := rounding_rnd64.mono hr1; rwa [hkr] at this
  generalize rnd64 (p * K) = h at r0 r1
  have et : ieeeOps64.trunc (.fin h) = .fin (ops64.trunc h) := rfl
  rw [et]
  have htr : ops64.trunc h = ((⌊h⌋ : Int) : ℚ) := by
    show (if 0 ≤ h then ((⌊h⌋ : Int) : ℚ) else ⌈h⌉) = _
    rw [if_pos r0]
  have hti : ops64.toInt (ops64.trunc h) = ⌊h⌋ := by
    have : (0 : ℚ) ≤ ((⌊h⌋ : Int) : ℚ) := by exact_mod_cast Int.floor_nonneg.2 r0
    rw [htr]
    show (if (0 : ℚ) ≤ ((⌊h⌋ : Int) : ℚ) then ⌊((⌊h⌋ : Int) : ℚ)⌋ else _) = _
    rw [if_pos this, Int.floor_intCast]
  refine ⟨rfl, rfl, fun hnw => ?_⟩
  rw [htr] at hnw ⊢
  have hne' : h ≠ ((⌊h⌋ : Int) : ℚ) := fun e => hnw (decide_eq_true e)
  have f1 := Int.floor_le h
  have f2 := Int.lt_floor_add_one h
  have hfl : (⌊h⌋ : Int) + 1 ≤ (n : Int) - 1 := by
    have : ((⌊h⌋ : Int) : ℚ) < K := lt_of_lt_of_le (lt_of_le_of_ne f1 (Ne.symm hne')) r1
    rw [← hK] at this
    have : (⌊h⌋ : Int) < (n : Int) - 1 := by exact_mod_cast this
    omega
  have hf0 : 0 ≤ ⌊h⌋ := Int.floor_nonneg.2 r0
  have hd0 : |h - ((⌊h⌋ : Int) : ℚ)| ≤ 1 := abs_le.2 ⟨by linarith, by linarith⟩
  have es : ieeeOps64.sub (.fin h) (.fin ((⌊h⌋ : Int) : ℚ)) = .fin (ops64.sub h ((⌊h⌋ : Int) : ℚ)) := over_fin one_fits.1 hd0 one_fits.2
  have d0 : 0 ≤ ops64.sub h ((⌊h⌋ : Int) : ℚ) := rounding_rnd64.nonneg (by linarith)
  have d1 : ops64.sub h ((⌊h⌋ : Int) : ℚ) ≤ 1 := by
    have := rounding_rnd64.mono (show h - ((⌊h⌋ : Int) : ℚ) ≤ 1 by linarith)
    rwa [rounding_rnd64.one] at this
  rw [es]
  have eh : ieeeOps64.div (ieeeOps64.ofInt 1) (ieeeOps64.ofInt 2) = .fin (ops64.div (ops64.ofInt 1) (ops64.ofInt 2)) := by
    decide +kernel
  refine ⟨fun _ => by rw [eh]; exact ⟨rfl, rfl⟩, fun lo hi elo ehi => ?_⟩
  have hti' : ops64.toInt ((⌊h⌋ : Int) : ℚ) = ⌊h⌋ := by rw [← htr, hti]
  rw [hti'] at elo ehi
  have Flo := hsel _ _ hf0 (by omega) elo
  have Fhi := hsel _ _ (by omega) (by omega) ehi
  exact ⟨fun _ => ieee_lin Flo Fhi d0 d1, fun _ _ _ _ => ieee_mid Flo Fhi⟩

end Verif.Quant
