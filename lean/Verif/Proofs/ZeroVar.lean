import Verif.Proofs.NoOverflow

/-! # When the second power sum of a core without eviction is zero -/

namespace Verif.FP
open Verif.Spec Verif.MathUtil
open Verif.Moment (Core Config)

section
variable {rnd : ℚ → ℚ} {pw : ℚ → Nat → ℚ} {u t : ℚ}

/-- Every value is the first one or at least `g` away from it. -/
def Apart (rnd : ℚ → ℚ) (g : ℚ) (xs : List ℚ) : Prop :=
  ∀ x0, xs.head? = some x0 → ∀ y ∈ xs, rnd y = y ∧ (y = x0 ∨ g ≤ |y - x0|)

/-- The coefficient of the squared deviation is not negative. -/
theorem coef_nonneg (R : Rounding rnd) (hpn : ∀ x, 0 ≤ pw x 2) {n : Nat} (hn : 1 ≤ n) : 0 ≤ rnd (rnd (((n : ℚ) - 1) / pw n 2) * n) := by
  have h1 : (1 : ℚ) ≤ n := by exact_mod_cast hn
  exact R.nonneg (mul_nonneg (R.nonneg (div_nonneg (by linarith) (hpn _))) (by linarith))

/-- A push never decreases the second sum. -/
theorem addV_two_le (R : Rounding rnd) (hpn : ∀ x, 0 ≤ pw x 2) {n : Nat} (hn : 1 ≤ n) {s δ : ℚ} (hs : rnd s = s) :
    s ≤ rnd (s + 1 * rnd (rnd (rnd (((n : ℚ) - 1) / pw n 2) * n) * pw δ 2)) := by
  conv_lhs => rw [← hs]
  refine R.mono ?_
  have := R.nonneg (mul_nonneg (coef_nonneg R hpn hn) (hpn δ))
  linarith

/-- The first value that differs makes the sum positive. -/
theorem first_dev (R : Rounding rnd) (hE : Accuracy rnd u t) {N : Nat} {g : ℚ} (S : Small u t g N) (P : PowSq pw u t N)
    (hg : rnd g = g) {n : Nat} (hn : 2 ≤ n) (hnN : n ≤ N) {d : ℚ} (hd : g ≤ |d|) :
    g * g / 4 ≤ rnd (0 + 1 * rnd (rnd (rnd (((n : ℚ) - 1) / pw n 2) * n) * pw (rnd d) 2)) := by
  obtain ⟨hu, ht, hu1, hNu, hg0, htu, htM, htMM⟩ := S
  have hn2 : (2 : ℚ) ≤ n := by exact_mod_cast hn
  have hnu : (n : ℚ) * u ≤ 1 / 1024 := by
    refine le_trans (mul_le_mul_of_nonneg_right ?_ hu) hNu
    exact_mod_cast hnN
  have hc := coef_err hE hu hu1 ht htu hn2 hnu (P.two n)
  set C := rnd (rnd (((n : ℚ) - 1) / pw n 2) * n)
  have hhalf : 1 / 2 ≤ ((n : ℚ) - 1) / n := by
    rw [le_div_iff₀ (by linarith)]; linarith
  have hC : 49 / 100 ≤ C := by
    have := (abs_le.1 hc).1
    linarith
  have hdg : g ≤ |rnd d| := by
    rcases le_abs'.1 hd with h | h
    · have h1 := R.mono h
      rw [R.neg, hg] at h1
      exact le_abs.2 (.inr (by linarith))
    · have h1 := R.mono h
      rw [hg] at h1
      exact le_abs.2 (.inl h1)
  have hgg : g * g ≤ rnd d * rnd d := by
    have := mul_self_le_mul_self hg0 hdg
    rwa [abs_mul_abs_self] at this
  set D := rnd d * rnd d with hD
  have hgg0 : 0 ≤ g * g := mul_nonneg hg0 hg0
  have ht2 : t ≤ g * g / 1024 := by
    have h1 := mul_le_mul hu1 hu1 hu (by norm_num)
    have h2 := mul_le_mul_of_nonneg_right h1 hgg0
    linarith
  have hq : 99 / 100 * (g * g) ≤ pw (rnd d) 2 := by
    have h1 := (abs_le.1 (P.two (rnd d))).1
    rw [← hD] at h1
    have h2 : u * D ≤ 1 / 1024 * D := mul_le_mul_of_nonneg_right hu1 (by linarith)
    linarith
  have hprod : 48 / 100 * (g * g) ≤ C * pw (rnd d) 2 := by
    have := mul_le_mul hC hq (by positivity) (by linarith)
    linarith
  have low : ∀ q, 0 ≤ q → ∀ a, a ≤ q → 0 ≤ a → 1023 / 1024 * a - t ≤ rnd q := by
    intro q hq0 a ha ha0
    have h1 := (abs_le.1 (hE a)).1
    rw [abs_of_nonneg ha0] at h1
    have h2 := R.mono ha
    have h3 := mul_le_mul_of_nonneg_right hu1 ha0
    linarith
  rw [zero_add, one_mul, R.idem]
  have := low _ (by linarith) _ hprod (by positivity)
  linarith

/-- Without eviction the second sum is zero as long as all values are equal, and at least `g² / 4` from then on. -/
theorem track_zero_var (R : Rounding rnd) (hE : Accuracy rnd u t) {N : Nat} (hN : ∀ n : Nat, n ≤ N → rnd n = n) {g : ℚ}
    (S : Small u t g N) (P : PowSq pw u t N) (hg : rnd g = g) (hp0 : pw 0 2 = 0) (hpn : ∀ x, 0 ≤ pw x 2) {len : Nat} (hlen : 2 < len) :
    Track (Arith.rounded rnd pw) 0 none len
      (fun xs m s => xs.length ≤ N → Apart rnd g xs → (xs = [] → m = 0 ∧ s 2 = 0) ∧ rnd (s 2) = s 2 ∧
        ∀ x0, xs.head? = some x0 → ((∀ y ∈ xs, y = x0) ∧ m = x0 ∧ s 2 = 0) ∨ ((∃ y ∈ xs, y ≠ x0) ∧ g * g / 4 ≤ s 2))
      (fun xs m s => xs.length ≤ N → Apart rnd g xs → (xs = [] → m = 0 ∧ s 2 = 0) ∧ rnd (s 2) = s 2 ∧
        ∀ x0, xs.head? = some x0 → ((∀ y ∈ xs, y = x0) ∧ m = x0 ∧ s 2 = 0) ∨ ((∃ y ∈ xs, y ≠ x0) ∧ g * g / 4 ≤ s 2)) where
  zero := fun _ _ => by simp [Arith.rounded, R.zero]
  room := fun _ _ _ _ h => h
  evict1 := fun _ _ _ h => absurd h (by norm_num)
  evict := fun _ _ _ _ _ _ _ _ h => absurd h (by omega)
  decay := fun _ h => absurd h (by simp)
  add := fun _ xs x m s m' s' hI hr hlN hxs => by
    have hl : (xs ++ [x]).length = xs.length + 1 := by simp
    have h2 := hr.2 2
    have h1 := hr.1
    rw [lastN_zero, hl] at h1
    rw [if_pos ⟨le_rfl, hlen⟩, lastN_zero, hl, addV_two R hN P (by omega) (by omega)] at h2
    simp only [Arith.rounded, Int.cast_natCast] at h1 h2
    refine ⟨fun h => absurd h (by simp), by rw [h2]; exact R.idem _, fun x0 hx0 => ?_⟩
    cases xs with
    | nil =>
      obtain ⟨⟨rfl, h0⟩, -⟩ := (hI (by simp) (by intro _ h; simp at h)).imp_left (fun h => h rfl)
      obtain rfl : x = x0 := by simpa using hx0
      have hx := (hxs x (by simp) x (by simp)).1
      rw [h0] at h2
      simp only [List.length_nil, zero_add, Nat.cast_one, sub_self, zero_div, R.zero, zero_mul, mul_zero] at h2
      simp only [List.length_nil, zero_add, Nat.cast_one, R.one, sub_zero, div_one, R.idem, hx] at h1
      exact .inl ⟨by simp, h1, h2⟩
    | cons z zs =>
      obtain rfl : z = x0 := by simpa using hx0
      have hx1 : Apart rnd g (z :: zs) := by
        intro w hw y hy
        obtain rfl : z = w := by simpa using hw
        exact hxs z (by simp) y (by simp only [List.mem_append]; exact .inl hy)
      obtain ⟨-, hid, hI⟩ := hI (by omega) hx1
      obtain ⟨hxr, hxz⟩ := hxs z (by simp) x (by simp)
      have hz := (hxs z (by simp) z (by simp)).1
      rcases hI z rfl with ⟨ha, rfl, h0⟩ | ⟨⟨y, hy, hne⟩, hb⟩
      · by_cases hxe : x = m
        · subst hxe
          left
          refine ⟨fun y hy => ?_, ?_, ?_⟩
          · rcases List.mem_append.1 hy with h | h
            · exact ha y h
            · simpa using h
          · rw [h1, sub_self, R.zero, zero_div, R.zero, add_zero, hz]
          · rw [h2, h0, sub_self, R.zero, hp0, mul_zero, R.zero, mul_zero, add_zero, R.zero]
        · right
          refine ⟨⟨x, by simp, hxe⟩, ?_⟩
          rw [h2, h0]
          exact first_dev R hE S P hg (by simp) (by omega) (hxz.resolve_left hxe)
      · right
        refine ⟨⟨y, by simp only [List.mem_append]; exact .inl hy, hne⟩, ?_⟩
        rw [h2]
        exact hb.trans (addV_two_le R hpn (by omega) hid)

/-- The numbers after the pushes `xs` to a core without eviction and decay. -/
def trace {F : Type} (A : Arith F) (len : Nat) (xs : List F) : Nat × F × (Nat → F) :=
  xs.foldl (fun p x => (p.1 + 1, A.add p.2.1 (A.div (A.sub x p.2.1) (A.ofInt (p.1 + 1 : Nat))),
    fun k => if 2 ≤ k ∧ k < len then addV A (A.ofInt (p.1 + 1 : Nat)) (A.sub x p.2.1) p.2.2 k else p.2.2 k)) (0, A.ofInt 0, fun _ => A.ofInt 0)

theorem trace_snoc {F : Type} (A : Arith F) (len : Nat) (xs : List F) (x : F) : trace A len (xs ++ [x]) =
    ((trace A len xs).1 + 1, A.add (trace A len xs).2.1 (A.div (A.sub x (trace A len xs).2.1) (A.ofInt ((trace A len xs).1 + 1 : Nat))),
      fun k => if 2 ≤ k ∧ k < len then addV A (A.ofInt ((trace A len xs).1 + 1 : Nat)) (A.sub x (trace A len xs).2.1) (trace A len xs).2.2 k
        else (trace A len xs).2.2 k) := by
  rw [trace, List.foldl_append]
  rfl

theorem trace_length {F : Type} (A : Arith F) (len : Nat) (xs : List F) : (trace A len xs).1 = xs.length := by
  induction xs using List.reverseRecOn with
  | nil => rfl
  | append_singleton xs x ih => rw [trace_snoc, List.length_append, ih]; rfl

theorem track_trace {F : Type} (A : Arith F) (len : Nat) :
    Track A 0 none len (fun xs m s => (xs.length, m, s) = trace A len xs) (fun xs m s => (xs.length, m, s) = trace A len xs) where
  zero := rfl
  room := fun _ _ _ _ h => h
  evict1 := fun _ _ _ h => absurd h (by norm_num)
  evict := fun _ _ _ _ _ _ _ _ h => absurd h (by omega)
  decay := fun _ h => absurd h (by simp)
  add := fun _ xs x m s m' s' hI hr => by
    obtain ⟨h1, h2⟩ := hr
    rw [lastN_zero, List.length_append, List.length_singleton] at h1 h2
    rw [trace_snoc, ← hI, List.length_append, List.length_singleton]
    simp only [Prod.mk.injEq, true_and]
    exact ⟨h1, funext h2⟩

/-- Later values never decrease the second sum. -/
theorem trace_mono (R : Rounding rnd) {N : Nat} (hN : ∀ n : Nat, n ≤ N → rnd n = n) (P : PowSq pw u t N) (hpn : ∀ x, 0 ≤ pw x 2)
    {len : Nat} (hlen : 2 < len) (xs ys : List ℚ) (hl : (xs ++ ys).length ≤ N) :
    rnd ((trace (Arith.rounded rnd pw) len xs).2.2 2) = (trace (Arith.rounded rnd pw) len xs).2.2 2 ∧
    (trace (Arith.rounded rnd pw) len xs).2.2 2 ≤ (trace (Arith.rounded rnd pw) len (xs ++ ys)).2.2 2 := by
  have hid : ∀ zs : List ℚ, zs.length ≤ N → rnd ((trace (Arith.rounded rnd pw) len zs).2.2 2) = (trace (Arith.rounded rnd pw) len zs).2.2 2 := by
    intro zs hz
    cases zs using List.reverseRecOn with
    | nil => simp [trace, Arith.rounded, R.zero]
    | append_singleton zs z =>
      rw [List.length_append, List.length_singleton] at hz
      rw [trace_snoc]
      simp only [if_pos (show 2 ≤ 2 ∧ 2 < len from ⟨le_rfl, hlen⟩)]
      rw [addV_two R hN P (by omega) (by rw [trace_length]; omega)]
      exact R.idem _
  rw [List.length_append] at hl
  refine ⟨hid xs (by omega), ?_⟩
  induction ys using List.reverseRecOn with
  | nil => rw [List.append_nil]
  | append_singleton ys y ih =>
    rw [List.length_append, List.length_singleton] at hl
    refine (ih (by omega)).trans ?_
    rw [← List.append_assoc, trace_snoc]
    simp only [if_pos (show 2 ≤ 2 ∧ 2 < len from ⟨le_rfl, hlen⟩)]
    rw [addV_two R hN P (by omega) (by rw [trace_length, List.length_append]; omega)]
    exact addV_two_le R hpn (by omega) (hid (xs ++ ys) (by rw [List.length_append]; omega))

theorem Track.and {F : Type} {A : Arith F} {w : Nat} {d : Option F} {len : Nat} {I I' J J' : List F → F → (Nat → F) → Prop}
    (T : Track A w d len I I') (T' : Track A w d len J J') :
    Track A w d len (fun xs m s => I xs m s ∧ J xs m s) (fun xs m s => I' xs m s ∧ J' xs m s) where
  zero := ⟨T.zero, T'.zero⟩
  room := fun xs m s h hI => ⟨T.room xs m s h hI.1, T'.room xs m s h hI.2⟩
  evict1 := fun xs m s h h' hI => ⟨T.evict1 xs m s h h' hI.1, T'.evict1 xs m s h h' hI.2⟩
  evict := fun xs y ys m s m' s' h1 h2 h3 hI hr => ⟨T.evict xs y ys m s m' s' h1 h2 h3 hI.1 hr, T'.evict xs y ys m s m' s' h1 h2 h3 hI.2 hr⟩
  add := fun hd xs x m s m' s' hI hr => ⟨T.add hd xs x m s m' s' hI.1 hr, T'.add hd xs x m s m' s' hI.2 hr⟩
  decay := fun dd hd xs x m s m' s' hI hr => ⟨T.decay dd hd xs x m s m' s' hI.1 hr, T'.decay dd hd xs x m s m' s' hI.2 hr⟩

end

end Verif.FP
