import Verif.Proofs.JointColumn
import Verif.Proofs.Rounded

/-! # NaN and infinities in a windowed joint core -/

set_option linter.unusedSectionVars false

namespace Verif.JFP
open Verif Verif.Spec Verif.MathUtil
open Verif.FP (Arith NonFinite nonFinite_iff add_nonFinite add_nonFinite' remove_nonFinite ieee_sub_nan' ieee_mul_nan' ieee_pow_nan)
open Verif.Joint (Tuple Map Core Config Under abs visited mem_visited)

variable {rnd : ℚ → XF ℚ} {pw : ℚ → Nat → XF ℚ}

theorem powLoop_nan' (δ : List (XF ℚ)) (b : Tuple) : powLoop (Arith.ieee rnd pw) .nan δ b = .nan := by
  induction δ generalizing b with
  | nil => cases b <;> rfl
  | cons x δ ih =>
    cases b with
    | nil => rfl
    | cons k b => exact ih b

theorem powLoop_nan {δ : List (XF ℚ)} {b : Tuple} {i : Nat} (hi : i < δ.length) (hd : δ[i]? = some .nan) (hb : ∃ k, b[i]? = some k ∧ 1 ≤ k) (r : XF ℚ) :
    powLoop (Arith.ieee rnd pw) r δ b = .nan := by
  induction δ generalizing b i r with
  | nil => simp at hi
  | cons x δ ih =>
    cases b with
    | nil => simp at hb
    | cons k b =>
      unfold powLoop
      cases i with
      | zero =>
        obtain ⟨j, hj, h1⟩ := hb
        simp only [List.getElem?_cons_zero, Option.some.injEq] at hd hj
        subst hd; subst hj
        rw [ieee_pow_nan (by omega), ieee_mul_nan', powLoop_nan']
      | succ i => exact ih (by simpa using hi) (by simpa using hd) (by simpa using hb) _

/-- A sum whose tuple involves the variable with the NaN becomes NaN. -/
theorem newV_nan {r : Rule (XF ℚ)} (hop : ∀ v, r.op .nan v = .nan) (hop' : ∀ v, r.op v .nan = .nan) (hfull : ∀ n, r.full n .nan = .nan)
    {δ : List (XF ℚ)} {base : XF ℚ} {look : Tuple → XF ℚ} {n : Nat} {a : Tuple} (ha : TOK n a) (h0 : abs a ≠ 0) {i : Nat} (hi : i < δ.length)
    (hd : δ[i]? = some .nan) (hb : ∃ k, a[i]? = some k ∧ 1 ≤ k) : newV (Arith.ieee rnd pw) r δ base look a = .nan := by
  have hstay : ∀ (b : Tuple), termV (Arith.ieee rnd pw) r δ base look a .nan b = .nan := by
    intro b
    unfold termV
    split_ifs
    · rfl
    · exact hop _
    · exact hop _
  have hall : ∀ (l : List Tuple), l.foldl (termV (Arith.ieee rnd pw) r δ base look a) .nan = .nan := by
    intro l
    induction l with
    | nil => rfl
    | cons b l ih => rw [List.foldl_cons, hstay, ih]
  unfold newV
  obtain ⟨l1, l2, hl⟩ := List.append_of_mem (mem_visited (reverse := false) |>.2 (under_self ha))
  rw [hl, List.foldl_append, List.foldl_cons]
  have : ∀ v, termV (Arith.ieee rnd pw) r δ base look a v a = .nan := by
    intro v
    unfold termV
    rw [if_neg h0, if_pos (by simp [Joint.eq]), powLoop_nan hi hd hb, hfull, hop']
  rw [this, hall]

/-- What a non-finite coordinate does to a windowed core. -/
theorem track_poison {n w : Nat} (hw : 2 ≤ w) (hn : ∀ n : Nat, 1 ≤ n → n ≤ w → ∃ q, 0 < q ∧ rnd (n : Int) = .fin q) {ts : List Tuple}
    (hts : ∀ t ∈ ts, TOK n t) (hc : NoColl ts) (hsm : ∀ t ∈ ts, t.sum < 2 ^ 63) {i : Nat} (hi : i < n) :
    Track (Arith.ieee rnd pw) n w none ts
      (fun xs m s _ => ((∃ y ∈ xs, ∀ v, y[i]? = some v → NonFinite v) → NonFinite (m.getD i (rnd 0))) ∧
        ((∃ y ∈ xs.dropLast, ∀ v, y[i]? = some v → NonFinite v) → m.getD i (rnd 0) = .nan) ∧
        ((∃ y ∈ xs.dropLast.dropLast, ∀ v, y[i]? = some v → NonFinite v) →
          ∀ a, Tr ts a → (∃ k, a[i]? = some k ∧ 1 ≤ k) → s (Joint.hash a) = some .nan))
      (fun xs m _ _ => ((∃ y ∈ xs, ∀ v, y[i]? = some v → NonFinite v) → NonFinite (m.getD i (rnd 0))) ∧
        ((∃ y ∈ xs.dropLast, ∀ v, y[i]? = some v → NonFinite v) → m.getD i (rnd 0) = .nan)) where
  zero := fun _ _ _ _ _ _ => by simp
  room := fun xs m s ns _ hI => ⟨hI.1, hI.2.1⟩
  evict1 := fun _ _ _ _ h => absurd h (by omega)
  evict := fun xs y ys m s ns s' ns' hl hlen hys hyl hml _ _ hI _ => by
    obtain ⟨i1, i2, -⟩ := hI
    have hpos : 0 < ys.length := List.length_pos_iff.2 hys
    obtain ⟨q, hq, hnq⟩ := hn ys.length hpos (by omega)
    have hm' : (List.zipWith (fun x m => (Arith.ieee rnd pw).sub m ((Arith.ieee rnd pw).div ((Arith.ieee rnd pw).sub x m)
        ((Arith.ieee rnd pw).ofInt ys.length))) y m).getD i (rnd 0) =
        (Arith.ieee rnd pw).sub (m.getD i (rnd 0)) ((Arith.ieee rnd pw).div ((Arith.ieee rnd pw).sub (y.getD i (rnd 0)) (m.getD i (rnd 0))) (.fin q)) := by
      rw [getD_zipWith _ (by omega) (by omega) (rnd 0) (rnd 0), ← hnq]; rfl
    rw [hm']
    exact ⟨fun h => remove_nonFinite (i1 h) hq, fun h => by rw [i2 h]; rfl⟩
  add := fun _ xs x m s ns ns' hxl hml hk hk' hI hr => by
    obtain ⟨i1, i2⟩ := hI
    have hl1 : 1 ≤ (lastN w (xs ++ [x])).length := List.length_pos_iff.2 (lastN_ne_nil (by simp))
    obtain ⟨q, hq, hnq⟩ := hn _ hl1 (lastN_length_le (by omega) _)
    have hm' : (List.zipWith (fun m d => (Arith.ieee rnd pw).add m ((Arith.ieee rnd pw).div d ((Arith.ieee rnd pw).ofInt
        (lastN w (xs ++ [x])).length))) m (List.zipWith (fun x m => (Arith.ieee rnd pw).sub x m) x m)).getD i (rnd 0) =
        (Arith.ieee rnd pw).add (m.getD i (rnd 0)) ((Arith.ieee rnd pw).div ((Arith.ieee rnd pw).sub (x.getD i (rnd 0)) (m.getD i (rnd 0))) (.fin q)) := by
      rw [getD_zipWith _ (by omega) (by simp; omega) (rnd 0) (rnd 0), getD_zipWith _ (by omega) (by omega) (rnd 0) (rnd 0), ← hnq]; rfl
    rw [hm']
    refine ⟨?_, ?_, ?_⟩
    · rintro ⟨z, hz, hzf⟩
      rcases List.mem_append.1 hz with hz | hz
      · rw [add_nonFinite (i1 ⟨z, hz, hzf⟩) hq, nonFinite_iff]; exact .inl rfl
      · have : z = x := by simpa using hz
        subst this
        refine add_nonFinite' (hzf _ ?_) hq
        rw [List.getD_eq_getElem?_getD, List.getElem?_eq_getElem (by omega)]
        rfl
    · rw [List.dropLast_concat]
      intro h
      exact add_nonFinite (i1 h) hq
    · rw [List.dropLast_concat]
      intro h a ha hai
      have hnan := i2 h
      have hv := updateAll_old _ hts hc (r := addRule (Arith.ieee rnd pw) ((Arith.ieee rnd pw).ofInt (lastN w (xs ++ [x])).length)) rfl
        (by simp [hxl, hml]) hr a ha
      obtain ⟨t, ht, hu⟩ := ha
      have hT := (hts t ht).under hu
      have habs := abs_of_small hT (lt_of_le_of_lt (under_sum_le hu) (hsm t ht))
      have h0 : abs a ≠ 0 := by
        intro h
        obtain ⟨k, hk, h1⟩ := hai
        have hz := all_zero_of_sum (fun k hk => (hT.2 k hk).1) (habs ▸ h) k (List.mem_of_getElem? hk)
        omega
      rw [copy_eq hk (by
        obtain ⟨n2, e2, h2⟩ := updateAll_val _ hts (δ := List.zipWith (fun x m => (Arith.ieee rnd pw).sub x m) x m) (by simp [hxl, hml]) (keeps_keys _ ts
          (addRule (Arith.ieee rnd pw) ((Arith.ieee rnd pw).ofInt (lastN w (xs ++ [x])).length)) _ s) ts (fun _ h => h) ns hk'
        rw [e2] at hr
        simp only [Go.val.injEq, Prod.mk.injEq, and_true] at hr
        exact hr ▸ h2), hv, newV_nan (i := i) (fun _ => rfl) (fun v => by cases v <;> rfl) (fun _ => ieee_mul_nan' (pw := pw) _) hT h0 (by simp; omega) ?_ hai]
      have hlt : i < m.length := by omega
      have hmi : m[i]? = some .nan := by
        rw [List.getD_eq_getElem?_getD, List.getElem?_eq_getElem hlt] at hnan
        rw [List.getElem?_eq_getElem hlt]
        simpa using hnan
      rw [List.getElem?_zipWith, hmi, List.getElem?_eq_getElem (by omega : i < x.length)]
      exact congrArg some (ieee_sub_nan' (pw := pw) _)
  decay := fun _ h => by cases h

end Verif.JFP
