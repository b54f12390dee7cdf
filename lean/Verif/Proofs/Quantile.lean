import Verif.Model.Quantile
import Verif.Spec.Quantile
import Verif.Proofs.Avl
import Verif.Proofs.Rb
import Verif.Proofs.Window
import Mathlib.Algebra.Order.Floor.Ring
import Mathlib.Tactic.Linarith
import Mathlib.Tactic.FieldSimp
import Mathlib.Tactic.Ring

/-! # Correctness of `Quantile` over any lawful order statistic -/

namespace Verif.Quant
open Verif Verif.Spec

variable {F : Type} [LinearOrder F]

/-- `st` implements a multiset, for additions/removals satisfying the side conditions. -/
structure Lawful (st : Statistic F) (okAdd okRem : Multiset F → F → Prop) (Rep : Multiset F → st.σ → Prop) : Prop where
  empty : Rep 0 st.empty
  size : ∀ {S s}, Rep S s → st.size s = S.card
  select : ∀ {S s}, Rep S s → ∀ k, st.select s k = .val (kth S k)
  add : ∀ {S s}, Rep S s → ∀ x, okAdd S x → ∃ s', st.add s x = .val s' ∧ Rep (x ::ₘ S) s'
  remove : ∀ {S s}, Rep S s → ∀ x, okRem S x → ∃ s', st.remove s x = .val s' ∧ Rep (S.erase x) s'
  clear : ∀ {S s}, Rep S s → Rep 0 (st.clear s)

theorem avlStat_lawful : Lawful (avlStat F) (fun _ _ => True) (fun _ _ => True) Avl.Tree.Inv where
  empty := Avl.Tree.Inv.empty
  size h := h.size
  select h k := by show Go.val _ = _; rw [h.select]
  add h x _ := h.add x
  remove h x _ := h.remove x
  clear _ := Avl.Tree.Inv.empty

theorem rbStat_lawful : Lawful (rbStat F) (fun _ _ => True) (fun S x => S.count x ≤ 1) Rb.Tree.Inv where
  empty := Rb.Tree.Inv.empty
  size h := h.size
  select h k := by show Go.val _ = _; rw [h.select]
  add h x _ := h.add x
  remove h x hc := h.remove x hc
  clear _ := Rb.Tree.Inv.empty

/-- The side conditions hold for every push of the history. -/
def StreamOK (w : Nat) (okAdd okRem : Multiset F → F → Prop) (ops : List (MOp F)) : Prop :=
  ∀ pre x post, ops = pre ++ .push x :: post →
    (w ≠ 0 → (windowOf w pre).length = w →
      ∀ y ys, windowOf w pre = y :: ys → okRem (y :: ys : List F) y ∧ okAdd (ys : List F) x) ∧
    (w = 0 ∨ (windowOf w pre).length ≠ w → okAdd (windowOf w pre : List F) x)

omit [LinearOrder F] in
theorem streamOK_true (w : Nat) (ops : List (MOp F)) : StreamOK w (fun _ _ => True) (fun _ _ => True) ops := by
  intro pre x post _; simp

/-- Invariant: the struct holds exactly the window. -/
structure Inv {st : Statistic F} (Rep : Multiset F → st.σ → Prop) (w : Nat) (i : Int) (xs : List F)
    (q : Quantile st) : Prop where
  window : q.window = w
  interp : q.interpolation = i
  cap : q.queue.cap = Ring.roundUp w
  live : q.queue.disposed = false
  queue : w ≠ 0 → q.queue.items = xs
  rep : Rep (xs : List F) q.statistic
  len : w ≠ 0 → xs.length ≤ w

variable {st : Statistic F} {okAdd okRem : Multiset F → F → Prop} {Rep : Multiset F → st.σ → Prop}

theorem Inv.fresh (L : Lawful st okAdd okRem Rep) (w : Nat) (i : Int) : Inv Rep w i [] (Quantile.fresh st w i) := by
  refine ⟨rfl, rfl, rfl, rfl, fun _ => rfl, ?_, fun _ => Nat.zero_le _⟩
  simpa [Quantile.fresh] using L.empty

theorem Inv.clear (L : Lawful st okAdd okRem Rep) {w : Nat} {i : Int} {xs : List F} {q : Quantile st}
    (h : Inv Rep w i xs q) : Inv Rep w i [] q.clear := by
  refine ⟨h.window, h.interp, ?_, rfl, fun _ => rfl, ?_, fun _ => Nat.zero_le _⟩
  · simp [Quantile.clear, Ring.new, h.window]
  · simpa [Quantile.clear] using L.clear h.rep

theorem add_spec (L : Lawful st okAdd okRem Rep) {xs : List F} {q : Quantile st} (hr : Rep (xs : List F) q.statistic)
    (x : F) (hok : okAdd (xs : List F) x) :
    ∃ s, Quantile.push.add x q = .val ({ q with statistic := s }, none) ∧ Rep ((xs ++ [x] : List F)) s := by
  obtain ⟨s, h1, h2⟩ := L.add hr x hok
  refine ⟨s, by simp [Quantile.push.add, h1], ?_⟩
  have : ((xs ++ [x] : List F) : Multiset F) = x ::ₘ (xs : Multiset F) := by
    rw [Multiset.cons_coe, Multiset.coe_eq_coe]; simp
  rwa [this]

theorem put_spec {w : Nat} {i : Int} {xs : List F} (L : Lawful st okAdd okRem Rep) (hw : w ≠ 0) {q : Quantile st}
    (h : Inv Rep w i xs q) (hlen : xs.length < w) (x : F) (hok : okAdd (xs : List F) x) :
    ∃ q', Quantile.push.put x q = .val (q', none) ∧ Inv Rep w i (xs ++ [x]) q' := by
  have hcap := Ring.le_roundUp w
  have hput : q.queue.put x = .val (.ok { q.queue with items := xs ++ [x] }) := by
    rw [Ring.put_ok h.live (by rw [h.queue hw, h.cap]; omega), h.queue hw]
  obtain ⟨s, h1, h2⟩ := add_spec L (q := { q with queue := { q.queue with items := xs ++ [x] } }) h.rep x hok
  refine ⟨_, by simp only [Quantile.push.put, hput]; exact h1, ?_⟩
  exact ⟨h.window, h.interp, h.cap, h.live, fun _ => rfl, h2, fun _ => by simp; omega⟩

theorem push_spec {w : Nat} {i : Int} (L : Lawful st okAdd okRem Rep) {ys : List F} {q : Quantile st}
    (h : Inv Rep w i (lastN w ys) q) (x : F)
    (hok : (w ≠ 0 → (lastN w ys).length = w →
        ∀ z zs, lastN w ys = z :: zs → okRem (z :: zs : List F) z ∧ okAdd (zs : List F) x) ∧
      (w = 0 ∨ (lastN w ys).length ≠ w → okAdd (lastN w ys : List F) x)) :
    ∃ q', q.push x = .val (q', none) ∧ Inv Rep w i (lastN w (ys ++ [x])) q' := by
  by_cases hw : w = 0
  · subst hw
    rw [lastN_zero] at h ⊢
    obtain ⟨s, h1, h2⟩ := add_spec L h.rep x (by simpa [lastN_zero] using hok.2 (Or.inl rfl))
    refine ⟨_, by unfold Quantile.push; rw [if_neg (by simp [h.window])]; exact h1, ?_⟩
    exact ⟨h.window, h.interp, h.cap, h.live, fun c => absurd rfl c, h2, fun c => absurd rfl c⟩
  · have hne : q.window ≠ 0 := by rw [h.window]; exact_mod_cast hw
    have hl := h.len hw
    by_cases hf : (lastN w ys).length = w
    · rw [lastN_snoc_full hw _ _ hf]
      rcases hx : lastN w ys with _ | ⟨y, zs⟩
      · rw [hx] at hf; simp at hf; omega
      · obtain ⟨o1, o2⟩ := hok.1 hw hf y zs hx
        rw [hx] at h hf
        obtain ⟨s, h1, h2⟩ := L.remove h.rep y o1
        have h2' : Rep (zs : List F) s := by
          have : ((y :: zs : List F) : Multiset F).erase y = (zs : Multiset F) := by simp
          rwa [this] at h2
        have hget : q.queue.get = .val (.ok (y, { q.queue with items := zs })) :=
          Ring.get_ok h.live (h.queue hw)
        have hi : Inv Rep w i zs { q with queue := { q.queue with items := zs }, statistic := s } :=
          ⟨h.window, h.interp, h.cap, h.live, fun _ => rfl, h2', fun _ => by simp at hf; omega⟩
        obtain ⟨q', h3, h4⟩ := put_spec L hw hi (by simp at hf; omega) x o2
        refine ⟨q', ?_, h4⟩
        unfold Quantile.push
        rw [if_pos hne, if_pos (by rw [Ring.len, h.queue hw, h.window, hf]), hget]
        simp only [h1]; exact h3
    · rw [lastN_snoc_room hw _ _ hf]
      obtain ⟨q', h3, h4⟩ := put_spec L hw h (by omega) x (hok.2 (Or.inr hf))
      refine ⟨q', ?_, h4⟩
      unfold Quantile.push
      rw [if_pos hne, if_neg (by rw [Ring.len, h.queue hw, h.window]; exact_mod_cast hf)]; exact h3

theorem run_spec (L : Lawful st okAdd okRem Rep) (w : Nat) (i : Int) (ops : List (MOp F))
    (hok : StreamOK w okAdd okRem ops) :
    ∃ q, (Quantile.fresh st w i).run ops = .val (q, []) ∧ Inv Rep w i (windowOf w ops) q := by
  induction ops using List.reverseRecOn with
  | nil => exact ⟨_, rfl, by simpa [windowOf] using Inv.fresh L w i⟩
  | append_singleton ops o ih =>
    obtain ⟨q, h1, h2⟩ := ih (fun pre x post e => hok pre x (post ++ [o]) (by simp [e]))
    unfold Quantile.run at h1 ⊢
    rw [Go.runOps_append, h1]
    cases o with
    | push x =>
      obtain ⟨q', h3, h4⟩ := push_spec L (ys := since ops) h2 x (by simpa [windowOf] using hok ops x [] rfl)
      refine ⟨q', ?_, by rwa [windowOf_push]⟩
      simp [Go.runOps, logged, Quantile.step, h3]
    | clear =>
      refine ⟨q.clear, ?_, by rw [windowOf_clear]; exact h2.clear L⟩
      simp [Go.runOps, logged, Quantile.step]

/-! ### `Value` -/

section value
variable {K : Type} [Field K] [LinearOrder K] [IsStrictOrderedRing K] [FloorRing K]

/-- Exact arithmetic. -/
def exact (K : Type) [Field K] [LinearOrder K] [FloorRing K] : FOps K where
  ofInt n := n
  add a b := a + b
  sub a b := a - b
  mul a b := a * b
  div a b := a / b
  trunc x := if 0 ≤ x then ⌊x⌋ else ⌈x⌉
  toInt x := if 0 ≤ x then ⌊x⌋ else ⌈x⌉

/-- The integer constant of each method (interpolation.go:13-31). -/
def code : Method → Int
  | .linear => Linear
  | .lower => Lower
  | .higher => Higher
  | .nearest => Nearest
  | .midpoint => Midpoint

/-- What the non-integer branch of `Value` computes from the two neighbours, in the given arithmetic. -/
def between (O : FOps K) (m : Method) (i : Nat) (a b d : K) : K :=
  match m with
  | .linear => O.add (O.mul (O.sub (O.ofInt 1) d) a) (O.mul d b)
  | .lower => a
  | .higher => b
  | .nearest =>
    if d = O.div (O.ofInt 1) (O.ofInt 2) then (if Int.tmod i 2 = 0 then a else b)
    else if d < O.div (O.ofInt 1) (O.ofInt 2) then a else b
  | .midpoint => O.div (O.add a b) (O.ofInt 2)

/-- What is needed of the arithmetic for the selected indices to be in range, for size `n` and argument `q`. -/
structure IndexSound (O : FOps K) (n : Nat) (q : K) : Prop where
  zero : O.ofInt 0 = 0
  one : O.ofInt 1 = 1
  nonneg : 0 ≤ O.mul q (O.ofInt (n - 1))
  le : O.mul q (O.ofInt (n - 1)) ≤ n - 1
  trunc : O.trunc (O.mul q (O.ofInt (n - 1))) = ⌊O.mul q (O.ofInt (n - 1))⌋
  toInt : ∀ k : Int, O.toInt (k : K) = k

/-- `Value` for any container that answers every rank below its size; `P k v` is whatever is known of the answer. -/
theorem value_gen {st : Statistic K} {q : Quantile st} {n : Nat} {P : Nat → K → Prop} (hsz : st.size q.statistic = (n : Int))
    (hsel : ∀ k < n, ∃ v, st.select q.statistic k = .val (some v) ∧ P k v) (m : Method)
    (hm : q.interpolation = code m) {O : FOps K} {x : K} (hx0 : 0 < x) (hx1 : x < 1) (hn : 0 < n)
    (ho : IndexSound O n x) :
    (∃ i : Nat, O.mul x (O.ofInt (n - 1)) = i ∧ ∃ v, q.value O x = .val (.ok v) ∧ P i v) ∨
    ∃ (i : Nat) (a b : K), (i : K) < O.mul x (O.ofInt (n - 1)) ∧ O.mul x (O.ofInt (n - 1)) < i + 1 ∧
      P i a ∧ P (i + 1) b ∧
      q.value O x = .val (.ok (between O m i a b (O.sub (O.mul x (O.ofInt (n - 1))) i))) := by
  have hsel' : ∀ k < n, ∃ v, q.sel (k : Int) = .val v ∧ P k v := by
    intro k hk
    obtain ⟨v, h1, h2⟩ := hsel k hk
    exact ⟨v, by simp only [Quantile.sel, h1], h2⟩
  set h := O.mul x (O.ofInt ((n : Int) - 1)) with hh
  have hle := ho.le
  have hnn := ho.nonneg
  have htr := ho.trunc
  rw [← hh] at hle hnn htr
  obtain ⟨i, hi⟩ : ∃ i : Nat, ⌊h⌋ = (i : Int) := ⟨⌊h⌋.toNat, by
    have : 0 ≤ ⌊h⌋ := Int.floor_nonneg.2 hnn
    omega⟩
  have hfl : ((⌊h⌋ : Int) : K) = (i : K) := by rw [hi]; simp
  have h1 : (i : K) ≤ h := by rw [← hfl]; exact Int.floor_le h
  have h2 : h < i + 1 := by rw [← hfl]; exact Int.lt_floor_add_one h
  have hti : O.toInt (O.trunc h) = (i : Int) := by rw [htr, ho.toInt, hi]
  have htr' : O.trunc h = (i : K) := by rw [htr, hfl]
  have hilt : i < n := by
    have : (i : K) ≤ n - 1 := le_trans h1 hle
    have : (i : K) < n := by linarith
    exact_mod_cast this
  obtain ⟨a, ha, ha'⟩ := hsel' i hilt
  by_cases heq : h = i
  · refine Or.inl ⟨i, heq, a, ?_, ha'⟩
    unfold Quantile.value
    rw [if_neg (by simp [ho.zero, ho.one, hx0, hx1])]
    simp only [hsz]
    rw [if_neg (by omega)]
    rw [← hh, htr', if_pos (by simp [heq])]
    rw [← htr', hti, ha]; rfl
  · refine Or.inr ?_
    have hlt : (i : K) < h := lt_of_le_of_ne h1 (Ne.symm heq)
    have hi1 : i + 1 < n := by
      have : (i : K) < n - 1 := lt_of_lt_of_le hlt hle
      have : ((i + 1 : Nat) : K) < n := by push_cast; linarith
      exact_mod_cast this
    obtain ⟨b, hb, hb'⟩ := hsel' (i + 1) hi1
    refine ⟨i, a, b, hlt, h2, ha', hb', ?_⟩
    unfold Quantile.value
    rw [if_neg (by simp [ho.zero, ho.one, hx0, hx1])]
    simp only [hsz]
    rw [if_neg (by omega)]
    rw [← hh, htr', if_neg (by simp [heq]), ← htr', hti, htr', hm]
    push_cast at hb
    cases m
    · simp [code, Linear, between, ha, hb]
    · simp [code, Linear, Lower, between, ha]
    · simp [code, Linear, Lower, Higher, between, hb]
    · simp only [code, Linear, Lower, Higher, Nearest, between, ha, hb]
      simp only [goEq_eq, goLt_eq, decide_eq_true_eq]
      norm_num
      split_ifs <;> rfl
    · simp [code, Linear, Lower, Higher, Nearest, Midpoint, between, ha, hb]

theorem value_spec {st : Statistic K} {okAdd okRem : Multiset K → K → Prop} {Rep : Multiset K → st.σ → Prop}
    (L : Lawful st okAdd okRem Rep) {S : Multiset K} {q : Quantile st} (hr : Rep S q.statistic) (m : Method)
    (hm : q.interpolation = code m) {O : FOps K} {x : K} (hx0 : 0 < x) (hx1 : x < 1) (hS : S ≠ 0)
    (ho : IndexSound O S.card x) :
    (∃ i : Nat, O.mul x (O.ofInt (S.card - 1)) = i ∧ ∃ v, q.value O x = .val (.ok v) ∧ IsKth S i v) ∨
    ∃ (i : Nat) (a b : K), (i : K) < O.mul x (O.ofInt (S.card - 1)) ∧ O.mul x (O.ofInt (S.card - 1)) < i + 1 ∧
      IsKth S i a ∧ IsKth S (i + 1) b ∧
      q.value O x = .val (.ok (between O m i a b (O.sub (O.mul x (O.ofInt (S.card - 1))) i))) := by
  refine value_gen (P := IsKth S) (L.size hr) ?_ m hm hx0 hx1 (Multiset.card_pos.2 hS) ho
  intro k hk
  obtain ⟨v, h1, h2⟩ := kth_isKth S (k := k) (by omega) (by omega)
  exact ⟨v, by rw [L.select hr, h1], by simpa using h2⟩

theorem exact_indexSound {n : Nat} (hn : 0 < n) {q : K} (h0 : 0 < q) (h1 : q < 1) : IndexSound (exact K) n q := by
  have hn' : (0 : K) ≤ n - 1 := by
    have : (1 : K) ≤ n := by exact_mod_cast hn
    linarith
  have hm : (exact K).mul q ((exact K).ofInt (n - 1)) = q * (n - 1) := by simp [exact]
  refine ⟨by simp [exact], by simp [exact], ?_, ?_, ?_, ?_⟩
  · rw [hm]; positivity
  · rw [hm]; nlinarith
  · rw [hm]
    have : (0 : K) ≤ q * (n - 1) := by positivity
    simp [exact, this]
  · intro k; simp [exact]

omit [IsStrictOrderedRing K] in
theorem between_exact (m : Method) (i : Nat) (a b d : K) : between (exact K) m i a b d = interpolate m i a b d := by
  cases m <;> simp only [between, interpolate, exact, Int.cast_one, Int.cast_ofNat]
  have hev : Int.tmod i 2 = 0 ↔ Even i := by
    rw [Nat.even_iff, Int.tmod_eq_emod_of_nonneg (Int.natCast_nonneg i)]; omega
  by_cases hd : d = 1 / 2
  · subst hd; simp [hev]
  · rw [if_neg hd]; simp [show ¬ d = 2⁻¹ by simpa using hd]

theorem value_exact {st : Statistic K} {okAdd okRem : Multiset K → K → Prop} {Rep : Multiset K → st.σ → Prop}
    (L : Lawful st okAdd okRem Rep) {S : Multiset K} {q : Quantile st} (hr : Rep S q.statistic) (m : Method)
    (hm : q.interpolation = code m) {x : K} (hx0 : 0 < x) (hx1 : x < 1) (hS : S ≠ 0) :
    ∃ v, q.value (exact K) x = .val (.ok v) ∧ IsQuantile m S x v := by
  have hc : 0 < S.card := Multiset.card_pos.2 hS
  have hmul : (exact K).mul x ((exact K).ofInt (S.card - 1)) = x * (S.card - 1) := by simp [exact]
  rcases value_spec L hr m hm hx0 hx1 hS (exact_indexSound hc hx0 hx1) with ⟨i, h1, v, h2, h3⟩ | ⟨i, a, b, h1, h2, h3, h4, h5⟩
  · exact ⟨v, h2, Or.inl ⟨i, by rw [← hmul, h1], h3⟩⟩
  · refine ⟨_, h5, Or.inr ⟨i, a, b, by rw [← hmul]; exact h1, by rw [← hmul]; exact h2, h3, h4, ?_⟩⟩
    rw [between_exact, hmul]; simp [exact]

end value

end Verif.Quant
