import Verif.Spec.Quantile
import Verif.Proofs.ListLemmas
import Mathlib.Tactic.Linarith
import Mathlib.Tactic.FieldSimp
import Mathlib.Tactic.Ring
import Mathlib.Tactic.Positivity

/-! # Consequences of the quantile specification -/

namespace Verif.Spec
variable {K : Type} [Field K] [LinearOrder K] [IsStrictOrderedRing K]

omit [Field K] [IsStrictOrderedRing K] in
theorem IsKth.mono {S : Multiset K} {i j : Nat} {v w : K} (hv : IsKth S i v) (hw : IsKth S j w) (hij : i ≤ j) :
    v ≤ w := by
  by_contra c
  have c := not_le.1 c
  have : (S.filter (· ≤ w)).card ≤ (S.filter (· < v)).card :=
    Multiset.card_le_card (Multiset.monotone_filter_right S (fun a ha => lt_of_le_of_lt ha c))
  have h1 := hv.2.1; have h2 := hw.2.2; omega

omit [Field K] [IsStrictOrderedRing K] in
theorem IsKth.lt_card {S : Multiset K} {i : Nat} {v : K} (h : IsKth S i v) : i < S.card :=
  lt_of_lt_of_le h.2.2 (Multiset.card_le_card (Multiset.filter_le _ _))

theorem interpolate_mem (m : Method) (i : Nat) {a b d : K} (hab : a ≤ b) (h0 : 0 < d) (h1 : d < 1) :
    a ≤ interpolate m i a b d ∧ interpolate m i a b d ≤ b := by
  cases m <;> simp only [interpolate]
  · constructor <;> nlinarith
  · exact ⟨le_rfl, hab⟩
  · exact ⟨hab, le_rfl⟩
  · split_ifs <;> simp [hab]
  · constructor <;> linarith

theorem interpolate_mono (m : Method) (i : Nat) {a b d e : K} (hab : a ≤ b) (hde : d ≤ e) :
    interpolate m i a b d ≤ interpolate m i a b e := by
  cases m <;> simp only [interpolate]
  · nlinarith
  · exact le_rfl
  · exact le_rfl
  · split_ifs with h1 h2 h2
    · exact le_rfl
    · exact hab
    · exfalso; apply h1
      rcases h2 with h2 | ⟨h2, h3⟩
      · exact Or.inl (lt_of_le_of_lt hde h2)
      · rcases lt_or_eq_of_le hde with c | c
        · exact Or.inl (h2 ▸ c)
        · exact Or.inr ⟨c ▸ h2, h3⟩
    · exact le_rfl
  · exact le_rfl

/-- At most one value is the quantile. -/
theorem IsQuantile.unique {m : Method} {S : Multiset K} {q v w : K} (hv : IsQuantile m S q v)
    (hw : IsQuantile m S q w) : v = w := by
  rcases hv with ⟨i, e, k⟩ | ⟨i, a, b, e, f, ka, kb, rfl⟩ <;>
    rcases hw with ⟨j, e', k'⟩ | ⟨j, a', b', e', f', ka', kb', rfl⟩
  · have : i = j := by have := e.symm.trans e'; exact_mod_cast this
    subst this; exact IsKth.unique k k'
  · rw [e] at e' f'
    have h1 : j < i := by exact_mod_cast e'
    have h2 : i < j + 1 := by exact_mod_cast f'
    omega
  · rw [e'] at e f
    have h1 : i < j := by exact_mod_cast e
    have h2 : j < i + 1 := by exact_mod_cast f
    omega
  · have h1 : (i : K) < j + 1 := lt_trans e f'
    have h2 : (j : K) < i + 1 := lt_trans e' f
    have h1 : i < j + 1 := by exact_mod_cast h1
    have h2 : j < i + 1 := by exact_mod_cast h2
    have : i = j := by omega
    subst this
    rw [IsKth.unique ka ka', IsKth.unique kb kb']

theorem IsQuantile.mem_range {m : Method} {S : Multiset K} {q v : K} (h : IsQuantile m S q v) :
    (∃ x ∈ S, x ≤ v) ∧ (∃ x ∈ S, v ≤ x) := by
  rcases h with ⟨i, e, k⟩ | ⟨i, a, b, e, f, ka, kb, rfl⟩
  · exact ⟨⟨v, k.1, le_rfl⟩, ⟨v, k.1, le_rfl⟩⟩
  · obtain ⟨h1, h2⟩ := interpolate_mem m i (d := q * (S.card - 1) - i) (ka.mono kb (by omega)) (by linarith) (by linarith)
    exact ⟨⟨a, ka.1, h1⟩, ⟨b, kb.1, h2⟩⟩

theorem IsQuantile.mono {m : Method} {S : Multiset K} {q r v w : K} (hv : IsQuantile m S q v)
    (hw : IsQuantile m S r w) (hqr : q ≤ r) : v ≤ w := by
  have hc : 0 < S.card := by
    rcases hv with ⟨i, e, k⟩ | ⟨i, a, b, e, f, ka, kb, -⟩
    · have := k.lt_card; omega
    · have := kb.lt_card; omega
  have hc' : (0 : K) ≤ S.card - 1 := by
    have : (1 : K) ≤ S.card := by exact_mod_cast hc
    linarith
  have hh : q * (S.card - 1) ≤ r * (S.card - 1) := mul_le_mul_of_nonneg_right hqr hc'
  rcases hv with ⟨i, e, k⟩ | ⟨i, a, b, e, f, ka, kb, rfl⟩ <;>
    rcases hw with ⟨j, e', k'⟩ | ⟨j, a', b', e', f', ka', kb', rfl⟩
  · rw [e, e'] at hh
    exact k.mono k' (by exact_mod_cast hh)
  · have : i ≤ j := by
      have : (i : K) < j + 1 := by linarith
      have : i < j + 1 := by exact_mod_cast this
      omega
    exact le_trans (k.mono ka' this) (interpolate_mem m j (ka'.mono kb' (by omega)) (by linarith) (by linarith)).1
  · have : i + 1 ≤ j := by
      have : (i : K) < j := by linarith
      exact_mod_cast this
    exact le_trans (interpolate_mem m i (ka.mono kb (by omega)) (by linarith) (by linarith)).2 (kb.mono k' this)
  · have hij : i ≤ j := by
      have : (i : K) < j + 1 := by linarith
      have : i < j + 1 := by exact_mod_cast this
      omega
    rcases Nat.eq_or_lt_of_le hij with c | c
    · subst c
      rw [IsKth.unique ka' ka, IsKth.unique kb' kb]
      exact interpolate_mono m i (ka.mono kb (by omega)) (by linarith)
    · refine le_trans (interpolate_mem m i (ka.mono kb (by omega)) (by linarith) (by linarith)).2 (le_trans (kb.mono ka' c) ?_)
      exact (interpolate_mem m j (ka'.mono kb' (by omega)) (by linarith) (by linarith)).1

theorem IsQuantile.median {S : Multiset K} {v : K} (h : IsQuantile .midpoint S (1 / 2) v) : IsMedian S v := by
  rcases h with ⟨i, e, k⟩ | ⟨i, a, b, e, f, ka, kb, rfl⟩
  · refine Or.inl ⟨i, ?_, k⟩
    have : (S.card : K) = 2 * i + 1 := by linarith
    exact_mod_cast this
  · refine Or.inr ⟨i, a, b, ?_, ka, kb, rfl⟩
    have h1 : ((2 * i + 1 : Nat) : K) < S.card := by push_cast; linarith
    have h2 : (S.card : K) < ((2 * i + 3 : Nat) : K) := by push_cast; linarith
    have h1 : 2 * i + 1 < S.card := by exact_mod_cast h1
    have h2 : S.card < 2 * i + 3 := by exact_mod_cast h2
    omega

omit [IsStrictOrderedRing K] in
theorem IsMedian.unique {S : Multiset K} {v w : K} (hv : IsMedian S v) (hw : IsMedian S w) : v = w := by
  rcases hv with ⟨i, e, k⟩ | ⟨i, a, b, e, ka, kb, rfl⟩ <;>
    rcases hw with ⟨j, e', k'⟩ | ⟨j, a', b', e', ka', kb', rfl⟩
  · have : i = j := by omega
    subst this; exact IsKth.unique k k'
  · omega
  · omega
  · have : i = j := by omega
    subst this; rw [IsKth.unique ka ka', IsKth.unique kb kb']

end Verif.Spec
