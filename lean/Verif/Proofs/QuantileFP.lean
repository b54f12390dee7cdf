import Verif.Model.QuantileFP
import Verif.Proofs.QuantileWeak
import Verif.Proofs.HeapMedian
import Verif.Proofs.Rounded
import Mathlib.Data.Rat.Floor

/-! # Quantiles in rounded arithmetic -/

set_option linter.unusedSectionVars false

namespace Verif.FP
open Verif Verif.Spec Verif.Quant

/-! ### Doubling and halving -/

section
variable {p : Nat} {emin : Int}

theorem rnd_double_pos {x : ℚ} (h : 0 < x) (hx : rnd p emin x = x) : rnd p emin (2 * x) = 2 * x := by
  rw [rnd_pos h] at hx
  rw [rnd_pos (by linarith)]
  refine rndPos_grid (n := roundEven (x / two (ulpExp p emin x))) (e := ulpExp p emin x + 1) ?_ ?_
  · conv_lhs => rw [← hx]
    unfold rndPos
    rw [two_eq, zpow_add₀ (by norm_num)]
    ring
  · have : ilog (2 * x) < ilog x + 2 := by
      refine ilog_lt (by linarith) ?_
      have := (ilog_spec h).2
      rw [show ilog x + 2 = ilog x + 1 + 1 by ring, zpow_add₀ (by norm_num) (ilog x + 1)]
      linarith
    unfold ulpExp
    omega

/-- Without overflow, doubling is exact. -/
theorem rnd_double {x : ℚ} (hx : rnd p emin x = x) : rnd p emin (2 * x) = 2 * x := by
  rcases lt_trichotomy x 0 with h | h | h
  · have := rnd_double_pos (p := p) (emin := emin) (x := -x) (by linarith) (by rw [rnd_neg, hx])
    rw [show 2 * -x = -(2 * x) by ring, rnd_neg] at this
    linarith
  · subst h; simp [rnd_zero]
  · exact rnd_double_pos h hx

end

/-- What the theorems on quantiles use of the rounding. -/
structure Halving (rnd : ℚ → ℚ) : Prop extends Rounding rnd where
  double : ∀ x, rnd x = x → rnd (2 * x) = 2 * x

theorem halving_rnd64 : Halving rnd64 := ⟨rounding_rnd64, fun _ h => rnd_double h⟩

theorem rnd64_half_nat {n : Nat} (h : n < 2 ^ 53) : rnd64 (n / 2) = n / 2 := by
  have := rnd_repr (p := 53) (emin := -1022) (n := n) (e := -1) (by norm_num) (by omega) (by exact_mod_cast h) (by norm_num)
  rw [zpow_neg_one] at this
  simpa [rnd64, div_eq_mul_inv] using this

theorem rnd64_quarter_nat {n : Nat} (h : n < 2 ^ 53) : rnd64 (n / 4) = n / 4 := by
  have := rnd_repr (p := 53) (emin := -1022) (n := n) (e := -2) (by norm_num) (by omega) (by exact_mod_cast h) (by norm_num)
  rw [show (2 : ℚ) ^ (-2 : Int) = 4⁻¹ by norm_num] at this
  simpa [rnd64, div_eq_mul_inv] using this

section
variable {rnd : ℚ → ℚ}

/-- Selected indices are in range. -/
theorem rounded_indexSound (R : Rounding rnd) {n : Nat} (hn : 0 < n) (hr : rnd ((n - 1 : Int) : ℚ) = (n - 1 : Int)) {x : ℚ} (h0 : 0 < x)
    (h1 : x < 1) : IndexSound (roundedOps rnd) n x := by
  have hn' : (0 : ℚ) ≤ ((n - 1 : Int) : ℚ) := by
    have : (0 : Int) ≤ (n : Int) - 1 := by omega
    exact_mod_cast this
  have hm : (roundedOps rnd).mul x ((roundedOps rnd).ofInt (n - 1)) = rnd (x * ((n - 1 : Int) : ℚ)) := by
    simp only [roundedOps]; rw [hr]
  have hnn : 0 ≤ rnd (x * ((n - 1 : Int) : ℚ)) := R.nonneg (by positivity)
  refine ⟨?_, ?_, ?_, ?_, ?_, ?_⟩
  · simp [roundedOps, R.zero]
  · simp [roundedOps, R.one]
  · rw [hm]; exact hnn
  · rw [hm]
    have := R.mono (show x * ((n - 1 : Int) : ℚ) ≤ ((n - 1 : Int) : ℚ) by nlinarith)
    rw [hr] at this
    push_cast at this ⊢
    linarith
  · rw [hm]; simp only [roundedOps]; rw [if_pos hnn]
  · intro k; simp [roundedOps]

/-- The fraction. -/
theorem Rounding.frac (R : Rounding rnd) {h : ℚ} {i : Nat} (h1 : (i : ℚ) < h) (h2 : h < i + 1) :
    0 ≤ (roundedOps rnd).sub h i ∧ (roundedOps rnd).sub h i ≤ 1 := by
  constructor
  · exact R.nonneg (by linarith)
  · have := R.mono (show h - i ≤ 1 by linarith)
    rw [R.one] at this; exact this

/-- The mean of two representable numbers stays between them. -/
theorem Halving.midpoint (R : Halving rnd) {lo hi a b : ℚ} (hlo : rnd lo = lo) (hhi : rnd hi = hi) (ha : lo ≤ a ∧ a ≤ hi)
    (hb : lo ≤ b ∧ b ≤ hi) : lo ≤ rnd (rnd (a + b) / 2) ∧ rnd (rnd (a + b) / 2) ≤ hi := by
  have h1 := R.mono (show 2 * lo ≤ a + b by linarith)
  have h2 := R.mono (show a + b ≤ 2 * hi by linarith)
  rw [R.double _ hlo] at h1
  rw [R.double _ hhi] at h2
  exact R.toRounding.clamp hlo hhi ⟨by linarith, by linarith⟩

/-- All methods but `Linear` stay between the neighbours. -/
theorem Halving.between (R : Halving rnd) {m : Method} (hm : m ≠ .linear) (i : Nat) (d : ℚ) {lo hi a b : ℚ} (hlo : rnd lo = lo)
    (hhi : rnd hi = hi) (ha : lo ≤ a ∧ a ≤ hi) (hb : lo ≤ b ∧ b ≤ hi) :
    lo ≤ Quant.between (roundedOps rnd) m i a b d ∧ Quant.between (roundedOps rnd) m i a b d ≤ hi := by
  cases m <;> simp only [Quant.between]
  · exact absurd rfl hm
  · exact ha
  · exact hb
  · split_ifs <;> assumption
  · have := R.midpoint hlo hhi ha hb
    simpa [roundedOps, R.two] using this

/-- … and do not decrease with the fraction. -/
theorem between_mono {O : FOps ℚ} {m : Method} (hm : m ≠ .linear) (i : Nat) {a b d e : ℚ} (hab : a ≤ b) (hde : d ≤ e) :
    Quant.between O m i a b d ≤ Quant.between O m i a b e := by
  cases m <;> simp only [Quant.between]
  · exact absurd rfl hm
  · exact le_rfl
  · exact le_rfl
  · set h := O.div (O.ofInt 1) (O.ofInt 2)
    rcases lt_trichotomy d h with c | c | c
    · rw [if_neg c.ne, if_pos c]
      split_ifs <;> first | exact hab | exact le_rfl
    · rw [if_pos c]
      rcases lt_trichotomy e h with c' | c' | c'
      · linarith
      · rw [if_pos c']
      · rw [if_neg c'.ne', if_neg c'.not_gt]
        split_ifs <;> first | exact hab | exact le_rfl
    · rw [if_neg c.ne', if_neg c.not_gt, if_neg (c.trans_le hde).ne', if_neg (c.trans_le hde).not_gt]
  · exact le_rfl

/-- The linear method, with its error. -/
theorem linear_err {u t : ℚ} (R : Rounding rnd) (hE : Accuracy rnd u t) (hu : 0 ≤ u) (hu1 : u ≤ 1 / 100) (ht : 0 ≤ t) (htu : 10 * t ≤ u)
    {a b d A : ℚ} (hd : 0 ≤ d ∧ d ≤ 1) (ha : |a| ≤ A) (hb : |b| ≤ A) :
    |rnd (rnd (rnd (1 - d) * a) + rnd (d * b)) - ((1 - d) * a + d * b)| ≤ 4 * u * A + 4 * t := by
  have hA : 0 ≤ A := (abs_nonneg a).trans ha
  set e := rnd (1 - d) with he
  have he0 : 0 ≤ e := R.nonneg (by linarith)
  have he1 : e ≤ 1 := by have := R.mono (show 1 - d ≤ 1 by linarith); rwa [R.one] at this
  have e1 := hE (1 - d)
  rw [← he, abs_of_nonneg (by linarith : (0 : ℚ) ≤ 1 - d)] at e1
  have e2 := hE (e * a)
  have e3 := hE (d * b)
  have e4 := hE (rnd (e * a) + rnd (d * b))
  rw [abs_mul, abs_of_nonneg he0] at e2
  rw [abs_mul, abs_of_nonneg hd.1] at e3
  have ea : e * |a| ≤ e * A := mul_le_mul_of_nonneg_left ha he0
  have eb : d * |b| ≤ d * A := mul_le_mul_of_nonneg_left hb hd.1
  have e2' : |rnd (e * a) - e * a| ≤ u * (e * A) + t := e2.trans (by have := mul_le_mul_of_nonneg_left ea hu; linarith)
  have e3' : |rnd (d * b) - d * b| ≤ u * (d * A) + t := e3.trans (by have := mul_le_mul_of_nonneg_left eb hu; linarith)
  have s1 : |e * a| ≤ e * A := by rw [abs_mul, abs_of_nonneg he0]; exact ea
  have s2 : |d * b| ≤ d * A := by rw [abs_mul, abs_of_nonneg hd.1]; exact eb
  have s3 : |rnd (e * a) + rnd (d * b)| ≤ (1 + u) * ((e + d) * A) + 2 * t := by
    rw [abs_le] at e2' e3' s1 s2 ⊢
    constructor <;> linarith
  have hed : e + d ≤ 1 + u + t := by
    have := (abs_le.1 e1).2
    nlinarith
  have hed' : (e + d) * A ≤ (1 + u + t) * A := mul_le_mul_of_nonneg_right hed hA
  have e4' : |rnd (rnd (e * a) + rnd (d * b)) - (rnd (e * a) + rnd (d * b))| ≤ u * ((1 + u) * ((1 + u + t) * A) + 2 * t) + t := by
    refine e4.trans ?_
    have := mul_le_mul_of_nonneg_left (s3.trans (by have := mul_le_mul_of_nonneg_left hed' (by linarith : (0 : ℚ) ≤ 1 + u); linarith :
      _ ≤ (1 + u) * ((1 + u + t) * A) + 2 * t)) hu
    linarith
  have e5 : |(e - (1 - d)) * a| ≤ (u + t) * A := by
    rw [abs_mul]
    refine mul_le_mul (e1.trans ?_) ha (abs_nonneg _) (by linarith)
    nlinarith
  have h6 : u * (e * A) + u * (d * A) ≤ u * ((1 + u + t) * A) := by
    have := mul_le_mul_of_nonneg_left hed' hu; linarith
  have hfin : (u + t) * A + u * ((1 + u + t) * A) + u * ((1 + u) * ((1 + u + t) * A) + 2 * t) + 3 * t ≤ 4 * u * A + 4 * t := by
    have h1 : t * A ≤ u * A / 10 := by nlinarith
    have h2 : u * t ≤ t / 100 := by nlinarith
    have hw : 0 ≤ u * A := mul_nonneg hu hA
    have h3 : u * (u * A) ≤ u * A / 100 := by linarith [mul_le_mul_of_nonneg_right hu1 hw]
    have h4 : u * (t * A) ≤ u * A / 1000 := by linarith [mul_le_mul_of_nonneg_left h1 hu]
    have h5 : u * (u * (u * A)) ≤ u * A / 10000 := by linarith [mul_le_mul_of_nonneg_left h3 hu]
    have h6 : u * (u * (t * A)) ≤ u * A / 100000 := by linarith [mul_le_mul_of_nonneg_left h4 hu]
    linarith
  rw [abs_le] at e2' e3' e4' e5 ⊢
  constructor <;> linarith

end

/-! ### `Value` -/

section
variable {rnd : ℚ → ℚ}

/-- What `Value` reports, with whatever container, in rounded arithmetic: an element of the window, or the interpolation of two. -/
theorem value_any (R : Rounding rnd) {window : Int} {os : List (Opt ℚ)} {c : Cfg ℚ} (hn : new 0 1 window os = .ok c)
    (draws : Nat → Nat → Bool) (ops : List (MOp ℚ)) {m : Method} (hm : c.interpolation = code m)
    {q : Quantile (statOf c draws)} {log : List Err} (hrun : (ofCfg c draws).run ops = .val (q, log))
    (hr : ∀ n : Nat, n < (windowOf window.toNat ops).length → rnd n = n) {x v : ℚ} (hv : q.value (roundedOps rnd) x = .val (.ok v)) :
    v ∈ windowOf window.toNat ops ∨ ∃ (i : Nat) (a b d : ℚ), a ∈ windowOf window.toNat ops ∧ b ∈ windowOf window.toNat ops ∧
      0 ≤ d ∧ d ≤ 1 ∧ v = Quant.between (roundedOps rnd) m i a b d := by
  obtain ⟨-, -, -, herr, -, -⟩ := quantile_weak hn draws ops hm hrun
  obtain ⟨h0, hw, hs, -, -, -, -⟩ := new_ok hn
  obtain ⟨Rw, W⟩ := statOf_weak c hs draws
  have hfr : ofCfg c draws = Quantile.fresh (statOf c draws) (window.toNat : Int) c.interpolation := by
    rw [ofCfg, hw, Int.toNat_of_nonneg h0]
  rw [hfr] at hrun
  obtain ⟨hl, i⟩ := run_weak W window.toNat c.interpolation ops hrun
  have hsz := W.size i.rep
  have hsz' := W.size_le i.rep
  have hi : q.interpolation = code m := i.interp.trans hm
  obtain ⟨n, hnn⟩ : ∃ n : Nat, (statOf c draws).size q.statistic = n := ⟨_, (Int.toNat_of_nonneg hsz).symm⟩
  have hsel : ∀ k < n, ∃ v, (statOf c draws).select q.statistic (k : Int) = .val (some v) ∧ v ∈ windowOf window.toNat ops := by
    intro k hk
    obtain ⟨v, hv, e⟩ := W.sel_in i.rep k (by omega) (by omega)
    exact ⟨v, e, by simpa using hv⟩
  by_cases hc : x ≤ 0 ∨ 1 ≤ x ∨ (statOf c draws).size q.statistic = 0
  · obtain ⟨e, he⟩ := herr (roundedOps rnd) (by simp [roundedOps, R.zero]) (by simp [roundedOps, R.one]) x hc
    rw [hv] at he; cases he
  · push Not at hc
    obtain ⟨h1, h2, h3⟩ := hc
    rw [hnn] at h3
    have hn0 : 0 < n := by omega
    have hlen : n ≤ (windowOf window.toNat ops).length := by
      rw [hnn] at hsz'; simpa using hsz'
    have hr' : rnd ((n - 1 : Int) : ℚ) = (n - 1 : Int) := by
      have := hr (n - 1) (by omega)
      rw [Nat.cast_sub hn0] at this
      push_cast at this ⊢; exact this
    rcases value_gen hnn hsel m hi h1 h2 hn0 (rounded_indexSound R hn0 hr' h1 h2) with ⟨_, _, v', h, hm'⟩ | ⟨j, a, b, g1, g2, ga, gb, h⟩
    · rw [hv] at h; cases h
      exact Or.inl hm'
    · rw [hv] at h
      injection h with h; injection h with h
      obtain ⟨f1, f2⟩ := R.frac g1 g2
      exact Or.inr ⟨j, a, b, _, ga, gb, f1, f2, h⟩

/-- The quantile of `S` as computed in rounded arithmetic. -/
def QuantIn (rnd : ℚ → ℚ) (m : Method) (S : Multiset ℚ) (x v : ℚ) : Prop :=
  (∃ i : Nat, rnd (x * (S.card - 1)) = i ∧ IsKth S i v) ∨
  ∃ (i : Nat) (a b : ℚ), (i : ℚ) < rnd (x * (S.card - 1)) ∧ rnd (x * (S.card - 1)) < i + 1 ∧
    IsKth S i a ∧ IsKth S (i + 1) b ∧ v = Quant.between (roundedOps rnd) m i a b (rnd (rnd (x * (S.card - 1)) - i))

/-- With a tree, every reported value is the quantile of some part of the window; with `AVL`, of the window. -/
theorem value_trees (R : Rounding rnd) {window : Int} {os : List (Opt ℚ)} {c : Cfg ℚ} (hn : new 0 1 window os = .ok c) (hc : c.impl ≠ SkipList)
    (draws : Nat → Nat → Bool) (ops : List (MOp ℚ)) {m : Method} (hm : c.interpolation = code m)
    {q : Quantile (statOf c draws)} {log : List Err} (hrun : (ofCfg c draws).run ops = .val (q, log))
    (hr : ∀ n : Nat, n < (windowOf window.toNat ops).length → rnd n = n) :
    ∃ T ≤ ((windowOf window.toNat ops : List ℚ) : Multiset ℚ), (c.impl ≠ RedBlack → T = (windowOf window.toNat ops : List ℚ)) ∧
      (∀ x, 0 < x → x < 1 → T ≠ 0 → ∃ v, q.value (roundedOps rnd) x = .val (.ok v)) ∧
      ∀ x v, q.value (roundedOps rnd) x = .val (.ok v) → QuantIn rnd m T x v := by
  obtain ⟨-, -, -, herr, -, -⟩ := quantile_weak hn draws ops hm hrun
  obtain ⟨h0, hw, hs, -, -, -, -⟩ := new_ok hn
  obtain ⟨Rw, W, hT, hA⟩ : ∃ R, Weak (statOf c draws) R ∧ (∀ S s, R S s → ∃ T ≤ S, (c.impl ≠ RedBlack → T = S) ∧
      (statOf c draws).size s = T.card ∧ ∀ k, (statOf c draws).select s k = .val (kth T k)) ∧ True := by
    by_cases h1 : c.impl = RedBlack
    · obtain ⟨R, W, hT⟩ := statOf_trees c hc draws
      refine ⟨R, W, fun S s h => ?_, trivial⟩
      obtain ⟨T, a, b, d⟩ := hT S s h
      exact ⟨T, a, fun c => absurd h1 c, b, d⟩
    · rw [statOf, if_neg h1, if_neg hc]
      exact ⟨_, avlStat_weak, fun S s h => ⟨S, le_rfl, fun _ => rfl, h.size, fun k => congrArg Go.val (h.select k)⟩, trivial⟩
  have hfr : ofCfg c draws = Quantile.fresh (statOf c draws) (window.toNat : Int) c.interpolation := by
    rw [ofCfg, hw, Int.toNat_of_nonneg h0]
  rw [hfr] at hrun
  obtain ⟨hl, i⟩ := run_weak W window.toNat c.interpolation ops hrun
  obtain ⟨T, hle, hTS, hsz, hsel⟩ := hT _ _ i.rep
  have hmul : (hn0 : 0 < T.card) → rnd ((T.card - 1 : Int) : ℚ) = (T.card - 1 : Int) := by
    intro hn0
    have hlen : T.card ≤ (windowOf window.toNat ops).length := by
      have := Multiset.card_le_card hle; simpa using this
    have := hr (T.card - 1) (by omega)
    rw [Nat.cast_sub hn0] at this
    push_cast at this ⊢; exact this
  have hsel' : ∀ k < T.card, ∃ v, (statOf c draws).select q.statistic (k : Int) = .val (some v) ∧ IsKth T k v := by
    intro k hk
    obtain ⟨v, e1, e2⟩ := kth_isKth T (k := k) (by omega) (by omega)
    exact ⟨v, by rw [hsel, e1], by simpa using e2⟩
  have key : ∀ x, 0 < x → x < 1 → 0 < T.card → ∃ v, q.value (roundedOps rnd) x = .val (.ok v) ∧ QuantIn rnd m T x v := by
    intro x h1 h2 hn0
    have e1 : (roundedOps rnd).mul x ((roundedOps rnd).ofInt (T.card - 1)) = rnd (x * (T.card - 1)) := by
      simp only [roundedOps]; rw [hmul hn0]; push_cast; rfl
    rcases value_gen hsz hsel' m (i.interp.trans hm) h1 h2 hn0 (rounded_indexSound R hn0 (hmul hn0) h1 h2) with
      ⟨j, g1, v', h, hk⟩ | ⟨j, a, b, g1, g2, ga, gb, h⟩
    · exact ⟨v', h, Or.inl ⟨j, by rw [← e1, g1], hk⟩⟩
    · rw [e1] at g1 g2 h
      exact ⟨_, h, Or.inr ⟨j, a, b, g1, g2, ga, gb, rfl⟩⟩
  refine ⟨T, hle, hTS, fun x h1 h2 h3 => ?_, fun x v hv => ?_⟩
  · obtain ⟨v, e, -⟩ := key x h1 h2 (Multiset.card_pos.2 h3)
    exact ⟨v, e⟩
  · by_cases hcx : x ≤ 0 ∨ 1 ≤ x ∨ (statOf c draws).size q.statistic = 0
    · obtain ⟨e, he⟩ := herr (roundedOps rnd) (by simp [roundedOps, R.zero]) (by simp [roundedOps, R.one]) x hcx
      rw [hv] at he; cases he
    · push Not at hcx
      obtain ⟨h1, h2, h3⟩ := hcx
      obtain ⟨v', e, h⟩ := key x h1 h2 (by omega)
      rw [hv] at e; cases e
      exact h

/-- Monotone in the argument, except `Linear`. -/
theorem QuantIn.mono (R : Halving rnd) {m : Method} (hm : m ≠ .linear) {S : Multiset ℚ} (hS : ∀ y ∈ S, rnd y = y) {x y v w : ℚ}
    (hv : QuantIn rnd m S x v) (hw : QuantIn rnd m S y w) (hxy : x ≤ y) : v ≤ w := by
  have hc : 0 < S.card := by
    rcases hv with ⟨i, e, k⟩ | ⟨i, a, b, e, f, ka, kb, -⟩
    · have := k.lt_card; omega
    · have := kb.lt_card; omega
  have hc' : (0 : ℚ) ≤ S.card - 1 := by
    have : (1 : ℚ) ≤ S.card := by exact_mod_cast hc
    linarith
  have hh := R.mono (mul_le_mul_of_nonneg_right hxy hc')
  have mem : ∀ {i a b} (d : ℚ), IsKth S i a → IsKth S (i + 1) b →
      a ≤ Quant.between (roundedOps rnd) m i a b d ∧ Quant.between (roundedOps rnd) m i a b d ≤ b := by
    intro i a b d ka kb
    have := ka.mono kb (by omega)
    exact R.between hm i d (hS a ka.1) (hS b kb.1) ⟨le_rfl, this⟩ ⟨this, le_rfl⟩
  rcases hv with ⟨i, e, k⟩ | ⟨i, a, b, e, f, ka, kb, rfl⟩ <;>
    rcases hw with ⟨j, e', k'⟩ | ⟨j, a', b', e', f', ka', kb', rfl⟩
  · rw [e, e'] at hh
    exact k.mono k' (by exact_mod_cast hh)
  · have : i ≤ j := by
      have : (i : ℚ) < j + 1 := by linarith
      have : i < j + 1 := by exact_mod_cast this
      omega
    exact le_trans (k.mono ka' this) (mem _ ka' kb').1
  · have : i + 1 ≤ j := by
      have : (i : ℚ) < j := by linarith
      exact_mod_cast this
    exact le_trans (mem _ ka kb).2 (kb.mono k' this)
  · have hij : i ≤ j := by
      have : (i : ℚ) < j + 1 := by linarith
      have : i < j + 1 := by exact_mod_cast this
      omega
    rcases Nat.eq_or_lt_of_le hij with c | c
    · subst c
      rw [IsKth.unique ka' ka, IsKth.unique kb' kb]
      exact between_mono hm i (ka.mono kb (by omega)) (R.mono (by linarith))
    · exact le_trans (mem _ ka kb).2 (le_trans (kb.mono ka' c) (mem _ ka' kb').1)

end

/-! ### Median -/

/-- The median in binary64. -/
theorem QuantIn.median {S : Multiset ℚ} (hS : S.card ≤ 2 ^ 53) {v : ℚ} (h : QuantIn rnd64 .midpoint S (1 / 2) v) :
    HeapMedian.MedianIn ops64 S v := by
  have hc : 0 < S.card := by
    rcases h with ⟨i, e, k⟩ | ⟨i, a, b, e, f, ka, kb, -⟩
    · have := k.lt_card; omega
    · have := kb.lt_card; omega
  have e0 : rnd64 (1 / 2 * ((S.card : ℚ) - 1)) = (S.card - 1) / 2 := by
    have := rnd64_half_nat (n := S.card - 1) (by omega)
    rw [Nat.cast_sub hc] at this
    push_cast at this
    rw [show 1 / 2 * ((S.card : ℚ) - 1) = (S.card - 1) / 2 by ring, this]
  rw [QuantIn, e0] at h
  rcases h with ⟨i, e, k⟩ | ⟨i, a, b, e, f, ka, kb, rfl⟩
  · refine Or.inl ⟨i, ?_, k⟩
    have : (S.card : ℚ) = 2 * i + 1 := by linarith
    exact_mod_cast this
  · refine Or.inr ⟨i, a, b, ?_, ka, kb, rfl⟩
    have h1 : ((2 * i + 1 : Nat) : ℚ) < S.card := by push_cast; linarith
    have h2 : (S.card : ℚ) < ((2 * i + 3 : Nat) : ℚ) := by push_cast; linarith
    have h1' : 2 * i + 1 < S.card := by exact_mod_cast h1
    have h2' : S.card < 2 * i + 3 := by exact_mod_cast h2
    omega

theorem MedianIn.unique {O : FOps ℚ} {S : Multiset ℚ} {v w : ℚ} (hv : HeapMedian.MedianIn O S v) (hw : HeapMedian.MedianIn O S w) : v = w := by
  rcases hv with ⟨i, e, k⟩ | ⟨i, a, b, e, ka, kb, rfl⟩ <;> rcases hw with ⟨j, e', k'⟩ | ⟨j, a', b', e', ka', kb', rfl⟩
  · obtain rfl : i = j := by omega
    exact IsKth.unique k k'
  · omega
  · omega
  · obtain rfl : i = j := by omega
    rw [IsKth.unique ka ka', IsKth.unique kb kb']

/-- Distance of the computed from the true median. -/
theorem MedianIn.err {S : Multiset ℚ} {v : ℚ} (h : HeapMedian.MedianIn ops64 S v) :
    ∃ w, IsMedian S w ∧ |v - w| ≤ 3 / 2 ^ 53 * |w| + 2 / 2 ^ 1075 := by
  rcases h with ⟨i, e, k⟩ | ⟨i, a, b, e, ka, kb, rfl⟩
  · exact ⟨v, Or.inl ⟨i, e, k⟩, by simp only [sub_self, abs_zero]; positivity⟩
  · refine ⟨(a + b) / 2, Or.inr ⟨i, a, b, e, ka, kb, rfl⟩, ?_⟩
    have h2 : rnd64 ((2 : Int) : ℚ) = 2 := by simpa using rounding_rnd64.two
    show |rnd64 (rnd64 (a + b) / rnd64 ((2 : Int) : ℚ)) - (a + b) / 2| ≤ _
    rw [h2]
    have e1 := accuracy_rnd64 (a + b)
    have e2 := accuracy_rnd64 (rnd64 (a + b) / 2)
    generalize ht : (1 : ℚ) / 2 ^ 1075 = t at e1 e2
    have ht0 : 0 ≤ t := by rw [← ht]; positivity
    rw [show (2 : ℚ) / 2 ^ 1075 = 2 * t by rw [← ht]; ring]
    have w1 : |a + b| = 2 * |(a + b) / 2| := by rw [abs_div]; norm_num; ring
    rw [w1] at e1
    have w2 : |rnd64 (a + b) / 2| ≤ |(a + b) / 2| + (1 / 2 ^ 53 * |(a + b) / 2| + t / 2) := by
      have := abs_sub_abs_le_abs_sub (rnd64 (a + b) / 2) ((a + b) / 2)
      have w3 : |rnd64 (a + b) / 2 - (a + b) / 2| = |rnd64 (a + b) - (a + b)| / 2 := by
        rw [← sub_div, abs_div]; norm_num
      linarith
    have hw := abs_nonneg ((a + b) / 2)
    generalize |(a + b) / 2| = W at *
    rw [abs_le] at e1 e2 ⊢
    norm_num at e1 e2 w2 ⊢
    constructor <;> linarith

end Verif.FP
