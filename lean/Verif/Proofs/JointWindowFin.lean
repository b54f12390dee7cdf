import Verif.Proofs.JointOverflow

/-! # A joint core with a window in IEEE arithmetic agrees with rounding alone as long as nothing overflows -/

namespace Verif.JFP
open Verif.Spec Verif.MathUtil
open Verif.FP (Arith Rounding Accuracy ieeeOf)
open Verif.Joint (Tuple Map Core Config forEach iter sub eq Under Leq visited visited_order nodup_visited iter_eq mem_visited KeyInv keyOf)

section
variable {F : Type} (A : Arith F)

/-- As `removeAll_new`, for the deviations that occur. -/
theorem removeAll_new' {n : Nat} {ts : List Tuple} (hts : ∀ t ∈ ts, TOK n t) (hc : NoColl ts) (hov : NoOver ts) {r : Rule F} (hf : r.fresh = true)
    {δ : List F}
    (hz : ∀ (look : Tuple → F) a, TOK n a → a.sum ≤ 1 → newV A r δ (A.ofInt 0) look a = A.ofInt 0) (hδ : δ.length = n) {s s' ns' : Map F} (hk : KeyInv (keyOf ts) s)
    (h0 : ∀ a, Tr ts a → a.sum ≤ 1 → s (Joint.hash a) = some (A.ofInt 0)) (h : removeAll A r δ ts s s = .val (s', ns', none)) :
    s' = ns' ∧ KeyInv (keyOf ts) s' ∧ (∀ a, Tr ts a → a.sum ≤ 1 → s' (Joint.hash a) = some (A.ofInt 0)) ∧
      ∀ a, Tr ts a → s' (Joint.hash a) = some (newV A r δ (get A s (Joint.hash a)) (fun c => get A s' (Joint.hash c)) a) := by
  have H : ∀ (l : List Tuple) (s s' ns' : Map F), (∀ t ∈ l, t ∈ ts) → NoOver l → KeyInv (keyOf ts) s →
      (∀ a, Tr ts a → a.sum ≤ 1 → s (Joint.hash a) = some (A.ofInt 0)) → removeAll A r δ l s s = .val (s', ns', none) →
      s' = ns' ∧ KeyInv (keyOf ts) s' ∧ (∀ a, Tr ts a → a.sum ≤ 1 → s' (Joint.hash a) = some (A.ofInt 0)) ∧
      (∀ a, Tr l a → 1 < a.sum → s' (Joint.hash a) = some (newV A r δ (get A s (Joint.hash a)) (fun c => get A s' (Joint.hash c)) a)) ∧
      ∀ a, Tr ts a → 1 < a.sum → ¬ Tr l a → s' (Joint.hash a) = s (Joint.hash a) := by
    intro l
    induction l with
    | nil =>
      intro s s' ns' _ _ hk h0 h
      simp only [removeAll, Go.val.injEq, Prod.mk.injEq, and_true] at h
      obtain ⟨rfl, rfl⟩ := h
      exact ⟨rfl, hk, h0, by rintro a ⟨t, ht, _⟩; simp at ht, fun _ _ _ _ => rfl⟩
    | cons t l ih =>
      intro s s' ns' hl hov hk h0 h
      have ht := hl t List.mem_cons_self
      have hsub : ∀ a, Under a t → Tr ts a := fun a ha => ⟨t, ht, ha⟩
      have hinj : ∀ a b, Under a t → Under b t → Joint.hash a = Joint.hash b → a = b := fun a b ha hb => hc a b (hsub a ha) (hsub b hb)
      have hov' := List.pairwise_cons.1 hov
      set s1 := (visited false t).foldl (stepV A r δ s) s with hs1
      have e1 : updateTuple A r false δ s t s = .val (s1, []) :=
        updateTuple_eq A hδ (hts t ht) (fun a ha => sep_of hc ((hts t ht).under ha) (hsub a ha)) s s
      have hk1 : KeyInv (keyOf ts) s1 := by
        obtain ⟨m, e, hm⟩ := updateTuple_val A hts hδ (keeps_keys A ts r δ s) false ht s hk
        rw [e1] at e
        simp only [Go.val.injEq, Prod.mk.injEq, and_true] at e
        exact e ▸ hm
      simp only [removeAll, e1] at h
      rw [copy_eq hk hk1] at h
      have hnew : ∀ a, Under a t → s1 (Joint.hash a) = some (newV A r δ (get A s (Joint.hash a)) (fun c => get A s1 (Joint.hash c)) a) :=
        fun a ha => foldl_stepV_new A hf (hts t ht) s hinj ha
      have hold : ∀ a, Tr ts a → ¬ Under a t → s1 (Joint.hash a) = s (Joint.hash a) := by
        intro a ha hna
        refine foldl_stepV_other A _ _ fun b hb he => hna ?_
        have := hc b a (hsub b (mem_visited.1 hb)) ha he
        exact this ▸ mem_visited.1 hb
      have h01 : ∀ a, Tr ts a → a.sum ≤ 1 → s1 (Joint.hash a) = some (A.ofInt 0) := by
        intro a ha h1
        by_cases hat : Under a t
        · rw [hnew a hat, show get A s (Joint.hash a) = A.ofInt 0 by simp [get, h0 a ha h1], hz _ _ ((hts t ht).under hat) h1]
        · rw [hold a ha hat, h0 a ha h1]
      obtain ⟨i1, i2, i3, i4, i5⟩ := ih s1 s' ns' (fun t ht => hl t (List.mem_cons_of_mem _ ht)) hov'.2 hk1 h01 h
      have hdis : ∀ a, Under a t → 1 < a.sum → ¬ Tr l a := by
        rintro a ha h1 ⟨u, hu, hau⟩
        have := hov'.1 u hu a ha hau
        omega
      refine ⟨i1, i2, i3, fun a ha h1 => ?_, fun a ha h1 hna => ?_⟩
      · obtain ⟨u, hu, hau⟩ := ha
        rcases List.mem_cons.1 hu with rfl | hu
        · rw [i5 a (hsub a hau) h1 (hdis a hau h1), hnew a hau]
          congr 1
          refine newV_congr A fun b hb hb0 _ => ?_
          have hs := under_trans (subV_under hb ((hts _ ht).under hau).le).1 hau
          unfold get
          by_cases h2 : (subV a b).sum ≤ 1
          · rw [h01 _ (hsub _ hs) h2, i3 _ (hsub _ hs) h2]
          · rw [i5 _ (hsub _ hs) (not_le.1 h2) (hdis _ hs (not_le.1 h2))]
        · have hnt : ¬ Under a t := fun hat => hdis a hat h1 ⟨u, hu, hau⟩
          rw [i4 a ⟨u, hu, hau⟩ h1]
          simp only [get]
          rw [hold a ⟨u, hl u (List.mem_cons_of_mem _ hu), hau⟩ hnt]
      · have hnt : ¬ Under a t := fun hat => hna ⟨t, List.mem_cons_self, hat⟩
        rw [i5 a ha h1 fun ⟨u, hu, hau⟩ => hna ⟨u, List.mem_cons_of_mem _ hu, hau⟩, hold a ha hnt]
  obtain ⟨i1, i2, i3, i4, -⟩ := H ts s s' ns' (fun _ h => h) hov hk h0 h
  refine ⟨i1, i2, i3, fun a ha => ?_⟩
  by_cases h1 : a.sum ≤ 1
  · obtain ⟨t, ht, hat⟩ := ha
    rw [i3 a ⟨t, ht, hat⟩ h1, show get A s (Joint.hash a) = A.ofInt 0 by simp [get, h0 a ⟨t, ht, hat⟩ h1], hz _ _ ((hts t ht).under hat) h1]
  · exact i4 a ha (not_le.1 h1)

/-- As `track_gst`, for the points that occur: `Good` holds for what was pushed so far, and for these points the sums of order one stay zero. -/
theorem track_gst' {n w : Nat} {ts : List Tuple} (hts : ∀ t ∈ ts, TOK n t) (hc : NoColl ts) (hov : 2 ≤ w → NoOver ts)
    {Good : List (List F) → Prop} (hpre : ∀ xs x, Good (xs ++ [x]) → Good xs)
    (hrem : ∀ xs y ys, Good xs → lastN w xs = y :: ys → ys.length + 1 = w → ys ≠ [] → ∀ (look : Tuple → F) a, TOK n a → a.sum ≤ 1 →
      newV A (removeRule A (A.ofInt ys.length)) (List.zipWith (fun x m => A.sub x m) y (List.zipWith (fun x m => A.sub m (A.div (A.sub x m) (A.ofInt ys.length))) y
        (gst A n w none xs).1)) (A.ofInt 0) look a = A.ofInt 0)
    (hadd : ∀ xs x, Good (xs ++ [x]) → ∀ (look : Tuple → F) a, TOK n a → a.sum ≤ 1 →
      newV A (addRule A (A.ofInt (lastN w (xs ++ [x])).length)) (List.zipWith (fun x m => A.sub x m) x (roomG A n w xs (gst A n w none xs)).1)
        (A.ofInt 0) look a = A.ofInt 0) :
    Track A n w none ts
      (fun xs m s ns => Good xs → Holds ts (gst A n w none xs) m s ns ∧ KeyInv (keyOf ts) s ∧
        ∀ a, Tr ts a → a.sum ≤ 1 → s (Joint.hash a) = some (A.ofInt 0))
      (fun xs m s ns => Good xs → Holds ts (roomG A n w xs (gst A n w none xs)) m s ns ∧
        ∀ a, Tr ts a → a.sum ≤ 1 → s (Joint.hash a) = some (A.ofInt 0)) where
  zero := fun s ns hk hnk hz hnz _ =>
    ⟨⟨rfl, eq_of_zero A hk hnk hz hnz, fun a ha => zero_key A hk hz ha⟩, hk, fun a ha _ => zero_key A hk hz ha⟩
  room := fun xs m s ns hr hI hg => by rw [roomG_room A hr]; exact ⟨(hI hg).1, (hI hg).2.2⟩
  evict1 := fun xs m s ns hw hx hI hg => by
    obtain ⟨⟨-, h2, -⟩, hk, -⟩ := hI hg
    rw [roomG_one A hw hx]
    subst h2
    have := fun a ha => zero_key A (zeroMap_keys A hk) (zeroMap_zero A s) (a := a) ha
    exact ⟨⟨rfl, rfl, this⟩, fun a ha _ => this a ha⟩
  evict := fun xs y ys m s ns s' ns' hl hw hne hyl hml hk hnk hI e hg => by
    obtain ⟨⟨h1, h2, h3⟩, -, h4⟩ := hI hg
    subst h2
    have hpos : 0 < ys.length := List.length_pos_iff.2 hne
    have hw2 : 2 ≤ w := by omega
    have hδ : (List.zipWith (fun x m => A.sub x m) y (List.zipWith (fun x m => A.sub m (A.div (A.sub x m) (A.ofInt ys.length))) y m)).length = n := by
      simp [hyl, hml]
    obtain ⟨e1, -, e2, e3⟩ := removeAll_new' A hts hc (hov hw2) (r := removeRule A (A.ofInt ys.length)) rfl
      (by rw [h1]; exact hrem xs y ys hg hl hw hne) hδ hk h4 e
    rw [roomG_evict A hl hw hne]
    rw [h1] at *
    refine ⟨⟨rfl, e1, ?_⟩, e2⟩
    have key : ∀ (k : Nat) (a : Tuple), a.sum.toNat ≤ k → Tr ts a → s' (Joint.hash a) = some (remS A (removeRule A (A.ofInt ys.length))
        (List.zipWith (fun x m => A.sub x m) y (List.zipWith (fun x m => A.sub m (A.div (A.sub x m) (A.ofInt ys.length))) y (gst A n w none xs).1))
        (gst A n w none xs).2 a.sum.toNat a) := by
      intro k
      induction k with
      | zero =>
        intro a hk ha
        have htok : TOK n a := by obtain ⟨t, ht, hat⟩ := ha; exact (hts t ht).under hat
        rw [e3 a ha, remS_eq A _ _ _ htok, show get A s (Joint.hash a) = (gst A n w none xs).2 a by simp [get, h3 a ha]]
        congr 1
        refine newV_congr A fun b hb h0 _ => ?_
        have := (subV_lt htok hb h0).2
        omega
      | succ k ih =>
        intro a hk ha
        have htok : TOK n a := by obtain ⟨t, ht, hat⟩ := ha; exact (hts t ht).under hat
        rw [e3 a ha, remS_eq A _ _ _ htok, show get A s (Joint.hash a) = (gst A n w none xs).2 a by simp [get, h3 a ha]]
        congr 1
        refine newV_congr A fun b hb h0 _ => ?_
        have := (subV_lt htok hb h0).2
        simp only [get]
        rw [ih _ (by omega) (ha.under (subV_under hb htok.le).1)]
        rfl
    exact fun a ha => key _ a le_rfl ha
  add := fun _ xs x m s ns ns' hxl hml hk hnk hI e hg => by
    obtain ⟨⟨h1, h2, h3⟩, h4⟩ := hI (hpre _ _ hg)
    have hδ : (List.zipWith (fun x m => A.sub x m) x m).length = n := by simp [hxl, hml]
    have hnk' : KeyInv (keyOf ts) ns' := by
      obtain ⟨m', e', hm⟩ := updateAll_val A hts hδ (keeps_keys A ts _ _ s) ts (fun _ h => h) ns hnk
      rw [e] at e'
      simp only [Go.val.injEq, Prod.mk.injEq, and_true] at e'
      exact e' ▸ hm
    have hv := updateAll_old A hts hc rfl hδ e
    rw [copy_eq hk hnk', gst_add]
    refine ⟨⟨by rw [h1], rfl, fun a ha => ?_⟩, hnk', fun a ha ha1 => ?_⟩
    · rw [hv a ha, show get A s (Joint.hash a) = (roomG A n w xs (gst A n w none xs)).2 a by simp [get, h3 a ha], h1]
      congr 1
      refine newV_congr A fun b hb h0 _ => ?_
      have htok : TOK n a := by obtain ⟨t, ht, hat⟩ := ha; exact (hts t ht).under hat
      simp only [get, h3 _ (ha.under (subV_under hb htok.le).1)]
      rfl
    · have htok : TOK n a := by obtain ⟨t, ht, hat⟩ := ha; exact (hts t ht).under hat
      rw [hv a ha, show get A s (Joint.hash a) = A.ofInt 0 by simp [get, h4 a ha ha1], h1]
      rw [hadd xs x hg _ a htok ha1]
  decay := fun _ h => by simp at h

end

variable {rnd : ℚ → ℚ} {pw : ℚ → Nat → ℚ} {u t Ω D : ℚ} {ov : ℚ → XF ℚ}

namespace Fits

/-- The rule of a removal that leaves `k` points. -/
theorem removeRule_ok (X : Fits rnd pw u t Ω D ov) {k : Nat} (hk : 1 ≤ k) (h1 : rnd ((k : ℚ) + 1) = k + 1) (h2 : rnd (k : ℚ) = k)
    (hnΩ : 2 * (((k : ℚ) + 1) * (k + 1)) + 1 < Ω) (hnt : (k + 1) * t ≤ 1) {B : ℚ} (hB : B < Ω) :
    RuleOK rnd pw Ω D B ov (removeRule (ieeeOf rnd pw ov) (.fin k)) (removeRule (Arith.rounded rnd pw) k) ∧
    ∀ s dp : ℚ, |dp| ≤ 16 * (D * D) →
      |(removeRule (Arith.rounded rnd pw) (k : ℚ)).op s ((removeRule (Arith.rounded rnd pw) (k : ℚ)).full 2 dp)| ≤ 2 * (|s| + 256 * (D * D)) ∧
      rnd ((removeRule (Arith.rounded rnd pw) (k : ℚ)).op s ((removeRule (Arith.rounded rnd pw) (k : ℚ)).full 2 dp)) =
        (removeRule (Arith.rounded rnd pw) (k : ℚ)).op s ((removeRule (Arith.rounded rnd pw) (k : ℚ)).full 2 dp) := by
  have hk1 : (1 : ℚ) ≤ k := by exact_mod_cast hk
  obtain ⟨n, hn⟩ : ∃ n : ℚ, n = (k : ℚ) + 1 := ⟨_, rfl⟩
  rw [← hn] at h1 hnΩ hnt
  have hn1 : 1 ≤ n := by linarith
  have hnn : n ≤ n * n := le_mul_of_one_le_left (by linarith) hn1
  have hbig := X.big
  have hD1 := X.D1
  have hr1 := X.room1
  have hr2 := X.room2
  have eA : (ieeeOf rnd pw ov).add (.fin k) (.fin 1) = .fin n := by
    rw [X.add] <;> rw [← hn, h1]
    rw [abs_of_nonneg (by linarith)]; linarith
  have eP1 : (ieeeOf rnd pw ov).pow (.fin n) 1 = .fin n := by
    have hp := X.P.one _ h1
    rw [X.pow] <;> rw [hp]
    rw [abs_of_nonneg (by linarith)]; linarith
  have eP0 : (ieeeOf rnd pw ov).pow (.fin k) 0 = .fin 1 := by
    have hp := X.P.zero (k : ℚ)
    rw [X.pow] <;> rw [hp]
    rw [abs_one]; linarith
  have eQ1 : (ieeeOf rnd pw ov).pow (.fin k) 1 = .fin k := by
    have hp := X.P.one _ h2
    rw [X.pow] <;> rw [hp]
    rw [abs_of_nonneg (by linarith)]; linarith
  have hq : ∀ {a C : ℚ}, |a| ≤ C → |a / n| ≤ C := by
    intro a C h
    rw [abs_div, abs_of_pos (show (0 : ℚ) < n by linarith)]
    exact (div_le_self (abs_nonneg _) hn1).trans h
  have sub_zero' : ∀ {s : ℚ}, rnd s = s → |s| < Ω → (ieeeOf rnd pw ov).sub (.fin s) (.fin 0) = .fin s := by
    intro s hs hsΩ
    rw [X.sub] <;> rw [sub_zero, hs]
    exact hsΩ
  have hp := X.sq n
  have hp2 : |pw n 2| ≤ 2 * (n * n) + 1 := by
    have e1 := abs_add_le (pw n 2 - n * n) (n * n)
    rw [sub_add_cancel, abs_of_nonneg (mul_self_nonneg n)] at e1
    have e2 := mul_le_mul_of_nonneg_right X.u1 (mul_self_nonneg n)
    linarith [X.t1]
  have hpl : n * n / 2 ≤ pw n 2 := by
    have e2 := mul_le_mul_of_nonneg_right X.u1 (mul_self_nonneg n)
    rw [abs_le] at hp
    linarith [X.t1, hp.1]
  have hp0 : 0 < pw n 2 := by linarith
  have hc : |(k : ℚ) / pw n 2| ≤ 2 / n := by
    rw [abs_div, abs_of_pos hp0, abs_of_nonneg (show (0 : ℚ) ≤ k by linarith), div_le_div_iff₀ hp0 (by linarith)]
    have : (k : ℚ) * n ≤ n * n := mul_le_mul_of_nonneg_right (by linarith) (by linarith)
    linarith
  have h2n : 2 / n ≤ 2 := div_le_self (by norm_num) hn1
  have hc1 := X.rle (hc.trans h2n) (by norm_num)
  have hc2 : |rnd ((k : ℚ) / pw n 2) * n| ≤ 4 := by
    have e1 := X.acc ((k : ℚ) / pw n 2)
    have e2 := abs_add_le (rnd ((k : ℚ) / pw n 2) - (k : ℚ) / pw n 2) ((k : ℚ) / pw n 2)
    rw [sub_add_cancel] at e2
    have e3 : u * |(k : ℚ) / pw n 2| ≤ 1 / 4096 * (2 / n) := mul_le_mul X.u1 hc (abs_nonneg _) (by norm_num)
    have e4 : |rnd ((k : ℚ) / pw n 2)| ≤ (1 + 1 / 4096) * (2 / n) + t := by linarith
    rw [abs_mul, abs_of_pos (show (0 : ℚ) < n by linarith)]
    have e5 := mul_le_mul_of_nonneg_right e4 (show (0 : ℚ) ≤ n by linarith)
    have e6 : ((1 + 1 / 4096) * (2 / n) + t) * n = (1 + 1 / 4096) * 2 + n * t := by
      have : n ≠ 0 := by linarith
      field_simp
    linarith
  have hc3 := X.rle hc2 (by norm_num)
  have hDD : 1 ≤ D * D := one_le_mul_of_one_le_of_one_le hD1 hD1
  have hc5 : ∀ {dp : ℚ}, |dp| ≤ 16 * (D * D) → |rnd (rnd (rnd ((k : ℚ) / pw n 2) * n) * dp)| ≤ 256 * (D * D) := by
    intro dp hdp
    have hc4 : |rnd (rnd ((k : ℚ) / pw n 2) * n) * dp| ≤ 2 * 4 * (16 * (D * D)) := by
      rw [abs_mul]; exact mul_le_mul hc3 hdp (abs_nonneg _) (by norm_num)
    have := X.rle hc4 (by linarith)
    linarith
  have hsg : (ieeeOf rnd pw ov).ofInt (sign 2) = .fin 1 := X.one
  have er : ∀ s dp : ℚ, (removeRule (Arith.rounded rnd pw) (k : ℚ)).op s ((removeRule (Arith.rounded rnd pw) (k : ℚ)).full 2 dp) =
      rnd (s - rnd (rnd (rnd ((k : ℚ) / pw n 2) * n) * dp)) := by
    intro s dp
    have hp1 := X.P.one _ h2
    simp only [removeRule, Arith.rounded, Int.cast_one, X.R.one, show 2 - 1 = 1 from rfl, hp1]
    rw [show ((sign ((2 : Nat) : Int) : Int) : ℚ) = 1 from by simp [sign], X.R.one, ← hn, h1]
  refine ⟨⟨?_, ?_, ?_, ?_, ?_⟩, ?_⟩
  · exact X.add_zero X.R.zero (by rw [_root_.abs_zero]; linarith)
  · intro dp _
    show (ieeeOf rnd pw ov).sub (.fin 0) ((ieeeOf rnd pw ov).mul ((ieeeOf rnd pw ov).mul ((ieeeOf rnd pw ov).div (.fin k)
      ((ieeeOf rnd pw ov).pow ((ieeeOf rnd pw ov).add (.fin k) _) 1)) ((ieeeOf rnd pw ov).add ((ieeeOf rnd pw ov).pow (.fin k) 0)
        ((ieeeOf rnd pw ov).ofInt (-1)))) (.fin dp)) = _
    have hm1 : (ieeeOf rnd pw ov).ofInt (-1) = .fin (-1) := by
      show ov (rnd ((-1 : Int) : ℚ)) = _
      rw [Int.cast_neg, Int.cast_one, X.R.neg, X.R.one]
      exact X.ov _ (by rw [abs_neg, abs_one]; linarith)
    have h0 : (ieeeOf rnd pw ov).add (.fin 1) (.fin (-1)) = .fin 0 := by
      rw [X.add] <;> rw [add_neg_cancel, X.R.zero]
      rw [_root_.abs_zero]; linarith
    rw [X.one, eA, eP1, eP0, hm1, h0, X.div (by linarith) (lt_of_le_of_lt (X.rle (hq (C := n) (by rw [abs_of_nonneg (by linarith)]; linarith)) hn1)
      (by linarith)), X.mul_zero, X.zero_mul]
    exact sub_zero' X.R.zero (by rw [_root_.abs_zero]; linarith)
  · intro s hs hsB
    exact ⟨X.zero_add hs (by linarith), hs, lt_of_le_of_lt hsB hB⟩
  · intro s m dp hs hsΩ hm hdp
    show (ieeeOf rnd pw ov).sub (.fin s) ((ieeeOf rnd pw ov).mul ((ieeeOf rnd pw ov).mul ((ieeeOf rnd pw ov).div (.fin m)
      ((ieeeOf rnd pw ov).pow ((ieeeOf rnd pw ov).add (.fin k) _) 1)) (.fin dp)) (.fin 0)) = _
    have b1 := X.rle (hq hm) (by norm_num)
    have b2 : |rnd (m / n) * dp| ≤ 2 * 2 ^ 64 * (4 * D) := by
      rw [abs_mul]; exact mul_le_mul b1 hdp (abs_nonneg _) (by positivity)
    have b3 := X.rle b2 (by linarith)
    rw [X.one, eA, eP1, X.div (by linarith) (by linarith), X.mul (by linarith), X.mul_zero]
    exact sub_zero' hs hsΩ
  · intro s dp hdp hres
    have hc5' := hc5 hdp
    have hc4 : |rnd (rnd ((k : ℚ) / pw n 2) * n)| < Ω := by linarith
    rw [er] at hres ⊢
    show (ieeeOf rnd pw ov).sub (.fin s) ((ieeeOf rnd pw ov).mul ((ieeeOf rnd pw ov).mul ((ieeeOf rnd pw ov).div (.fin k)
      ((ieeeOf rnd pw ov).pow ((ieeeOf rnd pw ov).add (.fin k) _) 2)) ((ieeeOf rnd pw ov).add ((ieeeOf rnd pw ov).pow (.fin k) 1)
        ((ieeeOf rnd pw ov).ofInt (sign 2)))) (.fin dp)) = _
    rw [X.one, eA, X.pow (by linarith), eQ1, hsg, eA, X.div hp0.ne' (by linarith), X.mul hc4, X.mul (by linarith), X.sub hres]
  · intro s dp hdp
    rw [er]
    have hc5' := hc5 hdp
    exact ⟨X.rle ((abs_sub _ _).trans (by linarith)) (by linarith [abs_nonneg s]), X.R.idem _⟩

/-- As `newV`, with the old sums and those looked up kept apart. -/
theorem newV' (X : Fits rnd pw u t Ω D ov) {B : ℚ} {r : Rule (XF ℚ)} {r' : Rule ℚ} (K : RuleOK rnd pw Ω D B ov r r') {n : Nat} {δ : List ℚ}
    (hδ : ∀ v ∈ δ, rnd v = v ∧ |v| ≤ D) :
    (∀ (look : Tuple → XF ℚ) a, TOK n a → a.sum ≤ 1 → JFP.newV (ieeeOf rnd pw ov) r (δ.map XF.fin) (.fin 0) look a = .fin 0) ∧
    ∀ (look : Tuple → XF ℚ) (v : Tuple) (s : ℚ), (∀ c, TOK n c → c.sum ≤ 1 → look c = .fin 0) → TOK n v → v.sum = 2 → rnd s = s → |s| ≤ B →
      |r'.op (r'.base s) (r'.full 2 (JFP.powLoop (Arith.rounded rnd pw) 1 δ v))| < Ω →
      JFP.newV (ieeeOf rnd pw ov) r (δ.map XF.fin) (.fin s) look v =
        .fin (r'.op (r'.base s) (r'.full 2 (JFP.powLoop (Arith.rounded rnd pw) 1 δ v))) := by
  refine ⟨fun look a ha h1 => ?_, fun look v s hlook hv h2 hs hsB hres => ?_⟩
  · rw [← X.zero]
    refine newV_zero' _ ?_ ?_ ha h1
    · rw [X.zero]; exact K.base0
    · intro b hb hb1
      obtain ⟨dp, e, hdp⟩ := X.powLoop1 hδ hb (by omega)
      rw [X.zero, X.one, e]
      exact K.full1 dp hdp
  · obtain ⟨b1, b2, b3⟩ := K.base s hs hsB
    obtain ⟨e, hdp⟩ := X.powLoop2 hδ hv (by omega)
    rw [newV_two' _ (s1 := .fin (r'.base s)) hv h2, X.one, e]
    · exact K.full2 _ _ hdp hres
    · rw [X.zero]; exact b1
    · intro z b hb hb1
      obtain ⟨dp, e, hdp⟩ := X.powLoop1 hδ hb (by omega)
      obtain ⟨m, hm, hmb⟩ := X.ofWrap z
      rw [X.zero, X.one, e, hm]
      exact K.part _ _ _ b2 b3 hmb hdp
    · intro c hc hc1
      rw [X.zero]
      exact hlook c hc (by omega)

end Fits

/-! ### Making room -/

theorem evict_cases {α : Type} (w : Nat) (pts : List α) :
    (w = 0 ∨ (lastN w pts).length < w) ∨ (w = 1 ∧ pts ≠ []) ∨ ∃ y ys, lastN w pts = y :: ys ∧ ys.length + 1 = w ∧ ys ≠ [] := by
  by_cases hr : w = 0 ∨ (lastN w pts).length < w
  · exact Or.inl hr
  · refine Or.inr ?_
    have hlen : (lastN w pts).length = w := by
      have := lastN_length_le (w := w) (by omega) pts
      omega
    match hm : lastN w pts with
    | [] => rw [hm] at hlen; simp at hlen; omega
    | [y] =>
      rw [hm] at hlen
      refine Or.inl ⟨by simpa using hlen.symm, ?_⟩
      rintro rfl
      simp [lastN] at hm
    | y :: z :: ys =>
      rw [hm] at hlen
      exact Or.inr ⟨y, z :: ys, rfl, by simpa using hlen, by simp⟩

theorem Fits.ofNat (X : Fits rnd pw u t Ω D ov) {k : Nat} (h : rnd (k : ℚ) = k) (hk : (k : ℚ) < Ω) :
    (ieeeOf rnd pw ov).ofInt ((k : Nat) : Int) = .fin k ∧ (Arith.rounded rnd pw).ofInt ((k : Nat) : Int) = (k : ℚ) := by
  constructor
  · show ov (rnd (((k : Nat) : Int) : ℚ)) = _
    rw [Int.cast_natCast, h]
    exact X.ov _ (by rw [abs_of_nonneg (Nat.cast_nonneg _)]; exact hk)
  · show rnd (((k : Nat) : Int) : ℚ) = _
    rw [Int.cast_natCast, h]

section
variable {M B : ℚ} (X : Fits rnd pw u t Ω D ov) (hD : 22 + 38 * M ≤ D) (hM0 : 0 ≤ M)
include X hD hM0

/-- The means after a removal. -/
theorem means_evict {k : Nat} (hk : 1 ≤ k) {y m : List ℚ} (hy : ∀ a ∈ y, |a| ≤ M) (hm : ∀ a ∈ m, |a| ≤ M) :
    List.zipWith (fun x m => (ieeeOf rnd pw ov).sub m ((ieeeOf rnd pw ov).div ((ieeeOf rnd pw ov).sub x m) (.fin k))) (y.map XF.fin) (m.map XF.fin) =
      (List.zipWith (fun x m => (Arith.rounded rnd pw).sub m ((Arith.rounded rnd pw).div ((Arith.rounded rnd pw).sub x m) k)) y m).map XF.fin ∧
    ∀ a ∈ List.zipWith (fun x m => (Arith.rounded rnd pw).sub m ((Arith.rounded rnd pw).div ((Arith.rounded rnd pw).sub x m) k)) y m,
      |a| ≤ 10 + 18 * M := by
  have hr1 := X.room1
  have hk1 : (1 : ℚ) ≤ k := by exact_mod_cast hk
  have b1 : ∀ {a b : ℚ}, |a| ≤ M → |b| ≤ M → |rnd (a - b)| ≤ 2 + 4 * M := by
    intro a b ha hb
    have := X.rle (q := a - b) (B := 1 + 2 * M) ((abs_sub _ _).trans (by linarith)) (by linarith)
    linarith
  have b2 : ∀ {a b : ℚ}, |a| ≤ M → |b| ≤ M → |rnd (rnd (a - b) / k)| ≤ 4 + 8 * M := by
    intro a b ha hb
    have h1 : |rnd (a - b) / (k : ℚ)| ≤ 2 + 4 * M := by
      rw [abs_div, abs_of_pos (show (0 : ℚ) < k by linarith)]
      exact (div_le_self (abs_nonneg _) hk1).trans (b1 ha hb)
    have := X.rle h1 (by linarith)
    linarith
  have b3 : ∀ {a b : ℚ}, |a| ≤ M → |b| ≤ M → |rnd (b - rnd (rnd (a - b) / k))| ≤ 10 + 18 * M := by
    intro a b ha hb
    have := X.rle (q := b - rnd (rnd (a - b) / k)) (B := 5 + 9 * M) ((abs_sub _ _).trans (by linarith [b2 ha hb])) (by linarith)
    linarith
  constructor
  · refine zipWith_fin fun i a b ha hb => ?_
    have ha' := hy a (List.mem_of_getElem? ha)
    have hb' := hm b (List.mem_of_getElem? hb)
    have c1 := b1 ha' hb'
    have c2 := b2 ha' hb'
    have c3 := b3 ha' hb'
    rw [X.sub (by linarith), X.div (by linarith) (by linarith), X.sub (by linarith)]
    rfl
  · intro a ha
    rw [List.mem_iff_getElem] at ha
    obtain ⟨i, hi, rfl⟩ := ha
    rw [List.getElem_zipWith]
    exact b3 (hy _ (List.getElem_mem _)) (hm _ (List.getElem_mem _))

/-- The deviations from means of this size. -/
theorem devs_fin {y m : List ℚ} (hy : ∀ a ∈ y, |a| ≤ M) (hm : ∀ a ∈ m, |a| ≤ 10 + 18 * M) :
    List.zipWith (fun x m => (ieeeOf rnd pw ov).sub x m) (y.map XF.fin) (m.map XF.fin) =
      (List.zipWith (fun x m => (Arith.rounded rnd pw).sub x m) y m).map XF.fin ∧
    ∀ a ∈ List.zipWith (fun x m => (Arith.rounded rnd pw).sub x m) y m, rnd a = a ∧ |a| ≤ D := by
  have hr1 := X.room1
  have b1 : ∀ {a b : ℚ}, |a| ≤ M → |b| ≤ 10 + 18 * M → |rnd (a - b)| ≤ D := by
    intro a b ha hb
    have := X.rle (q := a - b) (B := 11 + 19 * M) ((abs_sub _ _).trans (by linarith)) (by linarith)
    linarith
  constructor
  · refine zipWith_fin fun i a b ha hb => X.sub ?_
    have := b1 (hy a (List.mem_of_getElem? ha)) (hm b (List.mem_of_getElem? hb))
    linarith [X.D1]
  · intro a ha
    rw [List.mem_iff_getElem] at ha
    obtain ⟨i, hi, rfl⟩ := ha
    rw [List.getElem_zipWith]
    exact ⟨X.R.idem _, b1 (hy _ (List.getElem_mem _)) (hm _ (List.getElem_mem _))⟩

/-- Room in the window, in IEEE arithmetic. -/
theorem room_fin {N n w : Nat} (hN : ∀ m : Nat, m ≤ N → rnd m = m) (hNΩ : 2 * ((N : ℚ) * N) + 1 < Ω) (hNt : N * t ≤ 1) (hB0 : 0 ≤ B)
    (hB : 2 * B + 512 * (D * D) < Ω) {v : Tuple} (hv : TOK n v) (h2 : v.sum = 2) {pts : List (List ℚ)} (hl : pts.length ≤ N)
    (hdata : ∀ x ∈ pts, ∀ a ∈ x, |a| ≤ M) {p : List ℚ × (Tuple → ℚ)} {q : List (XF ℚ) × (Tuple → XF ℚ)} (hpm : ∀ m ∈ p.1, |m| ≤ M)
    (hq1 : q.1 = p.1.map XF.fin) (hq2 : ∀ a, TOK n a → a.sum ≤ 1 → q.2 a = .fin 0) (hqv : q.2 v = .fin (p.2 v)) (hs : rnd (p.2 v) = p.2 v)
    (hsB : |p.2 v| ≤ B) (hR0 : ∀ a, TOK n a → a.sum ≤ 1 → (roomG (Arith.rounded rnd pw) n w pts p).2 a = 0) :
    ((roomG (ieeeOf rnd pw ov) n w (pts.map (List.map XF.fin)) q).1 = (roomG (Arith.rounded rnd pw) n w pts p).1.map XF.fin ∧
      (∀ m ∈ (roomG (Arith.rounded rnd pw) n w pts p).1, |m| ≤ 10 + 18 * M) ∧
      (∀ a, TOK n a → a.sum ≤ 1 → (roomG (ieeeOf rnd pw ov) n w (pts.map (List.map XF.fin)) q).2 a = .fin 0) ∧
      (roomG (ieeeOf rnd pw ov) n w (pts.map (List.map XF.fin)) q).2 v = .fin ((roomG (Arith.rounded rnd pw) n w pts p).2 v) ∧
      rnd ((roomG (Arith.rounded rnd pw) n w pts p).2 v) = (roomG (Arith.rounded rnd pw) n w pts p).2 v ∧
      |(roomG (Arith.rounded rnd pw) n w pts p).2 v| ≤ 2 * B + 512 * (D * D)) ∧
    ∀ y ys, lastN w (pts.map (List.map XF.fin)) = y :: ys → ys.length + 1 = w → ys ≠ [] → ∀ (look : Tuple → XF ℚ) a, TOK n a → a.sum ≤ 1 →
      newV (ieeeOf rnd pw ov) (removeRule (ieeeOf rnd pw ov) ((ieeeOf rnd pw ov).ofInt ys.length))
        (List.zipWith (fun x m => (ieeeOf rnd pw ov).sub x m) y
          (List.zipWith (fun x m => (ieeeOf rnd pw ov).sub m ((ieeeOf rnd pw ov).div ((ieeeOf rnd pw ov).sub x m) ((ieeeOf rnd pw ov).ofInt ys.length))) y q.1))
        ((ieeeOf rnd pw ov).ofInt 0) look a = (ieeeOf rnd pw ov).ofInt 0 := by
  have hz := X.zero
  have hzR : (Arith.rounded rnd pw).ofInt 0 = 0 := by simp [Arith.rounded, X.R.zero]
  have hoR : (Arith.rounded rnd pw).ofInt 1 = 1 := by simp [Arith.rounded, X.R.one]
  have hD1 := X.D1
  have hDD : 1 ≤ D * D := one_le_mul_of_one_le_of_one_le hD1 hD1
  have hbig := X.big
  have key : ∀ y ys, lastN w pts = y :: ys → ys.length + 1 = w → ys ≠ [] →
      ∃ δ : List ℚ, (∀ v ∈ δ, rnd v = v ∧ |v| ≤ D) ∧
        (ieeeOf rnd pw ov).ofInt ys.length = .fin ys.length ∧ (Arith.rounded rnd pw).ofInt ys.length = (ys.length : ℚ) ∧
        (List.zipWith (fun x m => (ieeeOf rnd pw ov).sub m ((ieeeOf rnd pw ov).div ((ieeeOf rnd pw ov).sub x m) (.fin ys.length))) (y.map XF.fin) (p.1.map XF.fin) =
          (List.zipWith (fun x m => (Arith.rounded rnd pw).sub m ((Arith.rounded rnd pw).div ((Arith.rounded rnd pw).sub x m) ys.length)) y p.1).map XF.fin) ∧
        (∀ a ∈ List.zipWith (fun x m => (Arith.rounded rnd pw).sub m ((Arith.rounded rnd pw).div ((Arith.rounded rnd pw).sub x m) ys.length)) y p.1,
          |a| ≤ 10 + 18 * M) ∧
        List.zipWith (fun x m => (Arith.rounded rnd pw).sub x m) y
          (List.zipWith (fun x m => (Arith.rounded rnd pw).sub m ((Arith.rounded rnd pw).div ((Arith.rounded rnd pw).sub x m) ys.length)) y p.1) = δ ∧
        List.zipWith (fun x m => (ieeeOf rnd pw ov).sub x m) (y.map XF.fin)
          ((List.zipWith (fun x m => (Arith.rounded rnd pw).sub m ((Arith.rounded rnd pw).div ((Arith.rounded rnd pw).sub x m) ys.length)) y p.1).map XF.fin) =
            δ.map XF.fin ∧
        Fits.RuleOK rnd pw Ω D B ov (removeRule (ieeeOf rnd pw ov) (.fin ys.length)) (removeRule (Arith.rounded rnd pw) ys.length) ∧
        ∀ s dp : ℚ, |dp| ≤ 16 * (D * D) →
          |(removeRule (Arith.rounded rnd pw) (ys.length : ℚ)).op s ((removeRule (Arith.rounded rnd pw) (ys.length : ℚ)).full 2 dp)| ≤ 2 * (|s| + 256 * (D * D)) ∧
          rnd ((removeRule (Arith.rounded rnd pw) (ys.length : ℚ)).op s ((removeRule (Arith.rounded rnd pw) (ys.length : ℚ)).full 2 dp)) =
            (removeRule (Arith.rounded rnd pw) (ys.length : ℚ)).op s ((removeRule (Arith.rounded rnd pw) (ys.length : ℚ)).full 2 dp) := by
    intro y ys hlast hw hne
    have hpos : 1 ≤ ys.length := List.length_pos_iff.2 hne
    have hsub : ∀ x ∈ lastN w pts, x ∈ pts := by
      intro x hx
      unfold lastN at hx
      split at hx
      · exact hx
      · exact List.mem_of_mem_drop hx
    have hy : ∀ a ∈ y, |a| ≤ M := hdata y (hsub y (by rw [hlast]; exact List.mem_cons_self))
    have hlN : ys.length + 1 ≤ N := by
      have h1 : (lastN w pts).length ≤ pts.length := by rw [lastN_length]; split <;> omega
      rw [hlast, List.length_cons] at h1
      omega
    have hlN' : ((ys.length : ℚ) + 1) ≤ N := by exact_mod_cast hlN
    have hk0 : (1 : ℚ) ≤ ys.length := by exact_mod_cast hpos
    have hnn := mul_le_mul hlN' hlN' (by linarith) (by linarith)
    have hle : ((ys.length : ℚ) + 1) ≤ ((ys.length : ℚ) + 1) * ((ys.length : ℚ) + 1) := le_mul_of_one_le_left (by linarith) (by linarith)
    obtain ⟨o1, o2⟩ := X.ofNat (hN ys.length (by omega)) (by linarith)
    obtain ⟨m1, m2⟩ := means_evict X hD hM0 hpos hy hpm
    obtain ⟨d1, d2⟩ := devs_fin X hD hM0 hy m2
    obtain ⟨K, K'⟩ := X.removeRule_ok hpos (by have := hN (ys.length + 1) hlN; push_cast at this; exact this) (hN ys.length (by omega)) (by linarith)
      (le_trans (mul_le_mul_of_nonneg_right hlN' X.t0) hNt) (B := B) (by linarith)
    exact ⟨_, d2, o1, o2, m1, m2, rfl, d1, K, K'⟩
  constructor
  · rcases evict_cases w pts with hr | ⟨hw, hne⟩ | ⟨y, ys, hlast, hw, hne⟩
    · rw [roomG_room _ hr, roomG_room _ (by rw [lastN_map, List.length_map]; exact hr)]
      exact ⟨hq1, fun m hm => (hpm m hm).trans (by linarith), hq2, hqv, hs, by linarith⟩
    · rw [roomG_one _ hw hne, roomG_one _ hw (by simpa using hne), hz, hzR]
      refine ⟨by simp, fun m hm => ?_, fun _ _ _ => rfl, rfl, X.R.zero, ?_⟩
      · rw [(List.mem_replicate.1 hm).2, _root_.abs_zero]; linarith
      · rw [_root_.abs_zero]; linarith
    · obtain ⟨δ, hδ, o1, o2, m1, m2, d0, d1, K, K'⟩ := key y ys hlast hw hne
      have hlast' : lastN w (pts.map (List.map XF.fin)) = y.map XF.fin :: ys.map (List.map (XF.fin (K := ℚ))) := by rw [lastN_map, hlast]; rfl
      have G := roomG_evict (ieeeOf rnd pw ov) (n := n) (p := q) hlast' (by simpa using hw) (by simpa using hne)
      have GR := roomG_evict (Arith.rounded rnd pw) (n := n) (p := p) hlast hw hne
      rw [List.length_map, o1, hq1, m1, d1] at G
      rw [o2, d0] at GR
      rw [GR] at hR0
      rw [G, GR]
      obtain ⟨V1, V2⟩ := X.newV' K (n := n) hδ
      have z0 : ∀ a, TOK n a → a.sum ≤ 1 → remS (ieeeOf rnd pw ov) (removeRule (ieeeOf rnd pw ov) (.fin ys.length)) (δ.map XF.fin) q.2 a.sum.toNat a = .fin 0 := by
        intro a ha h1
        rw [remS_eq _ _ _ _ ha, hq2 a ha h1]
        exact V1 _ a ha h1
      have hval : remS (Arith.rounded rnd pw) (removeRule (Arith.rounded rnd pw) (ys.length : ℚ)) δ p.2 v.sum.toNat v =
          (removeRule (Arith.rounded rnd pw) (ys.length : ℚ)).op (p.2 v)
            ((removeRule (Arith.rounded rnd pw) (ys.length : ℚ)).full 2 (powLoop (Arith.rounded rnd pw) 1 δ v)) := by
        rw [remS_eq _ _ _ _ hv, newV_two _ (s1 := p.2 v) hv h2, hoR]
        · simp only [removeRule, hzR]
          simp only [Arith.rounded, zero_add]
          exact hs
        · intro m k dp
          simp only [removeRule, hzR]
          simp only [Arith.rounded, mul_zero, X.R.zero, sub_zero]
          exact hs
        · intro c hc hc1
          rw [hzR]
          exact hR0 c hc (by omega)
      obtain ⟨-, hdp⟩ := X.powLoop2 hδ hv (by omega)
      obtain ⟨k1, k2⟩ := K' (p.2 v) _ hdp
      refine ⟨rfl, m2, z0, ?_, ?_, ?_⟩
      · dsimp only
        rw [hval, remS_eq _ _ _ _ hv, hqv]
        exact V2 _ v (p.2 v) z0 hv h2 hs hsB (lt_of_le_of_lt k1 (by linarith))
      · dsimp only
        rw [hval]; exact k2
      · dsimp only
        rw [hval]; linarith
  · intro y' ys' hlast' hw' hne' look a ha h1
    rcases evict_cases w pts with hr | ⟨hw, hne⟩ | ⟨y, ys, hlast, hw, hne⟩
    · have e := congrArg List.length hlast'
      rw [lastN_map, List.length_map, List.length_cons] at e
      have := List.length_pos_iff.2 hne'
      omega
    · have := List.length_pos_iff.2 hne'
      omega
    · obtain ⟨δ, hδ, o1, o2, m1, m2, d0, d1, K, K'⟩ := key y ys hlast hw hne
      rw [lastN_map, hlast, List.map_cons] at hlast'
      simp only [List.cons.injEq] at hlast'
      obtain ⟨rfl, rfl⟩ := hlast'
      rw [List.length_map, o1, hq1, m1, d1, hz]
      exact (X.newV' K (n := n) hδ).1 look a ha h1

/-- What is known of the rounded core along the way: `v` is the tuple, all means are at most `M` and the sum is at most `B`. -/
structure AlongW (rnd : ℚ → ℚ) (pw : ℚ → Nat → ℚ) (n w : Nat) (v : Tuple) (M B : ℚ) (xs : List (List ℚ)) : Prop where
  len : ∀ x ∈ xs, x.length = n
  data : ∀ x ∈ xs, ∀ a ∈ x, |a| ≤ M
  mean : ∀ ys, ys <+: xs → ∀ m ∈ (gst (Arith.rounded rnd pw) n w none ys).1, |m| ≤ M
  sum : ∀ ys, ys <+: xs → rnd ((gst (Arith.rounded rnd pw) n w none ys).2 v) = (gst (Arith.rounded rnd pw) n w none ys).2 v ∧
    |(gst (Arith.rounded rnd pw) n w none ys).2 v| ≤ B

omit X hD hM0 in
theorem AlongW.prefix {n w : Nat} {v : Tuple} {xs ys : List (List ℚ)} (Y : AlongW rnd pw n w v M B xs) (h : ys <+: xs) : AlongW rnd pw n w v M B ys :=
  ⟨fun x hx => Y.len x (h.subset hx), fun x hx => Y.data x (h.subset hx), fun zs hz => Y.mean zs (hz.trans h), fun zs hz => Y.sum zs (hz.trans h)⟩

/-- A joint core with a window in IEEE arithmetic, and the facts that `track_gst'` needs. -/
theorem gst_fin_window {N n w : Nat} (hN : ∀ m : Nat, m ≤ N → rnd m = m) (hNΩ : 2 * ((N : ℚ) * N) + 1 < Ω) (hNt : N * t ≤ 1) (hB0 : 0 ≤ B)
    (hB : 2 * B + 512 * (D * D) < Ω) {v : Tuple} (hv : TOK n v) (h2 : v.sum = 2) (xs : List (List ℚ)) (hl : xs.length ≤ N)
    (Y : AlongW rnd pw n w v M B xs) :
    ((gst (ieeeOf rnd pw ov) n w none (xs.map (List.map XF.fin))).1 = (gst (Arith.rounded rnd pw) n w none xs).1.map XF.fin ∧
      (∀ a, TOK n a → a.sum ≤ 1 → (gst (ieeeOf rnd pw ov) n w none (xs.map (List.map XF.fin))).2 a = .fin 0) ∧
      (gst (ieeeOf rnd pw ov) n w none (xs.map (List.map XF.fin))).2 v = .fin ((gst (Arith.rounded rnd pw) n w none xs).2 v)) ∧
    ∀ xs' x, xs = xs' ++ [x] → ∀ (look : Tuple → XF ℚ) a, TOK n a → a.sum ≤ 1 →
      newV (ieeeOf rnd pw ov) (addRule (ieeeOf rnd pw ov) ((ieeeOf rnd pw ov).ofInt (lastN w (xs.map (List.map (XF.fin (K := ℚ))))).length))
        (List.zipWith (fun x m => (ieeeOf rnd pw ov).sub x m) (x.map XF.fin) (roomG (ieeeOf rnd pw ov) n w (xs'.map (List.map XF.fin))
          (gst (ieeeOf rnd pw ov) n w none (xs'.map (List.map XF.fin)))).1)
        ((ieeeOf rnd pw ov).ofInt 0) look a = (ieeeOf rnd pw ov).ofInt 0 := by
  have hz := X.zero
  have hzR : (Arith.rounded rnd pw).ofInt 0 = 0 := by simp [Arith.rounded, X.R.zero]
  have hoR : (Arith.rounded rnd pw).ofInt 1 = 1 := by simp [Arith.rounded, X.R.one]
  have hbig := X.big
  have hr1 := X.room1
  have hD1 := X.D1
  have hDD : 1 ≤ D * D := one_le_mul_of_one_le_of_one_le hD1 hD1
  induction xs using List.reverseRecOn with
  | nil =>
    rw [List.map_nil, gst_nil, gst_nil, hz, hzR]
    refine ⟨⟨by simp, fun _ _ _ => rfl, rfl⟩, fun xs' x h => by simp at h⟩
  | append_singleton xs x ih =>
    have Y' := Y.prefix (List.prefix_append xs [x])
    rw [List.length_append, List.length_singleton] at hl
    obtain ⟨⟨i1, i2, i3⟩, -⟩ := ih (by omega) Y'
    have hmb := Y'.mean xs List.prefix_rfl
    have hmb' := Y.mean (xs ++ [x]) List.prefix_rfl
    obtain ⟨hsr, hsB⟩ := Y'.sum xs List.prefix_rfl
    obtain ⟨-, hsB'⟩ := Y.sum (xs ++ [x]) List.prefix_rfl
    have hxb := Y.data x (by simp)
    have hzero := fun a ha h => (gst_zero X.R X.P (by simp) (n := n) (w := w) (d := none) xs (a := a) ha h).2
    obtain ⟨⟨r1, r2, r3, r4, r5, r6⟩, -⟩ := room_fin X hD hM0 (w := w) hN hNΩ hNt hB0 hB hv h2 (pts := xs) (by omega) Y'.data hmb i1 i2 i3 hsr hsB hzero
    obtain ⟨d1, d2⟩ := devs_fin X hD hM0 hxb r2
    obtain ⟨L, hL⟩ : ∃ L, L = (lastN w (xs ++ [x])).length := ⟨_, rfl⟩
    have hL' : (lastN w (List.map (List.map XF.fin) xs ++ [List.map (XF.fin (K := ℚ)) x])).length = L := by
      rw [hL, ← List.length_map (f := List.map (XF.fin (K := ℚ))), ← lastN_map]; simp
    have hL1 : 1 ≤ L := by
      rw [hL]
      exact List.length_pos_iff.2 (lastN_ne_nil (by simp))
    have hLN : L ≤ N := by
      have : (lastN w (xs ++ [x])).length ≤ (xs ++ [x]).length := by rw [lastN_length]; split <;> omega
      rw [List.length_append, List.length_singleton] at this
      omega
    have hLN' : (L : ℚ) ≤ N := by exact_mod_cast hLN
    have hL1' : (1 : ℚ) ≤ L := by exact_mod_cast hL1
    have e1 : rnd (L : ℚ) = L := hN _ hLN
    have e2 : rnd ((L : ℚ) - 1) = L - 1 := by
      have := hN (L - 1) (by omega)
      rwa [Nat.cast_sub hL1, Nat.cast_one] at this
    have hnn := mul_le_mul hLN' hLN' (by linarith) (by linarith)
    have hle : (L : ℚ) ≤ (L : ℚ) * L := le_mul_of_one_le_left (by linarith) hL1'
    obtain ⟨o1, o2⟩ := X.ofNat e1 (by linarith)
    have K := Fits.addRule_ok X hL1 e1 e2 (by linarith) (le_trans (mul_le_mul_of_nonneg_right hLN' X.t0) hNt) (B := 2 * B + 512 * (D * D)) hB
    have G := gst_add (ieeeOf rnd pw ov) n w (xs.map (List.map XF.fin)) (x.map XF.fin)
    have GR := gst_add (Arith.rounded rnd pw) n w xs x
    obtain ⟨V1, V2⟩ := X.newV' K (n := n) d2
    rw [List.map_append, List.map_cons, List.map_nil]
    constructor
    · rw [hL', o1, r1, d1] at G
      rw [← hL, o2] at GR
      generalize hδδ : List.zipWith (fun x m => (Arith.rounded rnd pw).sub x m) x
        (roomG (Arith.rounded rnd pw) n w xs (gst (Arith.rounded rnd pw) n w none xs)).1 = δ at *
      rw [G]
      refine ⟨?_, fun a ha h1 => ?_, ?_⟩
      · rw [GR]
        refine zipWith_fin fun i a b ha hb => ?_
        have hb' := d2 b (List.mem_of_getElem? hb)
        have q1 : |b / (L : ℚ)| ≤ D := by
          rw [abs_div, abs_of_pos (show (0 : ℚ) < L by linarith)]
          exact (div_le_self (abs_nonneg _) hL1').trans hb'.2
        have q2 := X.rle q1 (by linarith)
        have q3 := hmb' ((Arith.rounded rnd pw).add a ((Arith.rounded rnd pw).div b L)) (by
          rw [GR]
          exact List.mem_of_getElem? (zipWith_get ha hb))
        rw [X.div (by linarith) (by linarith)]
        exact X.add (lt_of_le_of_lt q3 (by linarith))
      · dsimp only
        rw [r3 a ha h1]
        exact V1 _ a ha h1
      · have hval : (gst (Arith.rounded rnd pw) n w none (xs ++ [x])).2 v = (addRule (Arith.rounded rnd pw) (L : ℚ)).op
            ((addRule (Arith.rounded rnd pw) (L : ℚ)).base ((roomG (Arith.rounded rnd pw) n w xs (gst (Arith.rounded rnd pw) n w none xs)).2 v))
            ((addRule (Arith.rounded rnd pw) (L : ℚ)).full 2 (powLoop (Arith.rounded rnd pw) 1 δ v)) := by
          rw [GR]
          dsimp only
          rw [newV_two _ (s1 := (roomG (Arith.rounded rnd pw) n w xs (gst (Arith.rounded rnd pw) n w none xs)).2 v) hv h2, hoR]
          · rfl
          · simp only [addRule, hzR]
            simp only [Arith.rounded, zero_add]
            exact r5
          · intro m k dp
            simp only [addRule, hzR]
            simp only [Arith.rounded, mul_zero, X.R.zero, add_zero]
            exact r5
          · intro c hc hc1
            rw [hzR]
            exact hzero c hc (by omega)
        rw [hval] at hsB' ⊢
        dsimp only
        rw [r4]
        exact V2 _ v _ r3 hv h2 r5 r6 (lt_of_le_of_lt hsB' (by linarith))
    · intro xs' x' he look a ha h1
      obtain ⟨rfl, h⟩ := List.append_inj' he rfl
      simp only [List.cons.injEq, and_true] at h
      subst h
      rw [hL', o1, r1, d1, hz]
      exact V1 look a ha h1

end

end Verif.JFP
