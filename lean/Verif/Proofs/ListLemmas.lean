import Verif.Spec.Bag
import Mathlib.Data.List.Sort
import Mathlib.Tactic.Linarith

/-! General list / multiset facts used by the order-statistic proofs. -/

namespace Verif

variable {F : Type} [LinearOrder F]

/-- Sortedness of `l ++ v :: r` split at the pivot. -/
theorem sorted_mid {l r : List F} {v : F} :
    (l ++ v :: r).Pairwise (· ≤ ·) ↔
      l.Pairwise (· ≤ ·) ∧ r.Pairwise (· ≤ ·) ∧ (∀ a ∈ l, a ≤ v) ∧ (∀ b ∈ r, v ≤ b) := by
  constructor
  · intro h
    rw [List.pairwise_append] at h
    obtain ⟨h1, h2, h3⟩ := h
    rw [List.pairwise_cons] at h2
    exact ⟨h1, h2.2, fun a ha => h3 a ha v (by simp), h2.1⟩
  · rintro ⟨h1, h2, h3, h4⟩
    rw [List.pairwise_append]
    refine ⟨h1, List.pairwise_cons.2 ⟨h4, h2⟩, ?_⟩
    intro a ha b hb
    rcases List.mem_cons.1 hb with rfl | hb
    · exact h3 a ha
    · exact le_trans (h3 a ha) (h4 b hb)

/-- A sorted list is the sorted form of its multiset. -/
theorem sort_coe_eq {l : List F} (h : l.Pairwise (· ≤ ·)) : ((l : Multiset F).sort (· ≤ ·)) = l := by
  rw [Multiset.coe_sort]
  exact List.mergeSort_of_pairwise (by simpa using h)

theorem kth_coe {l : List F} (h : l.Pairwise (· ≤ ·)) (k : Int) :
    Spec.kth (l : Multiset F) k = if 0 ≤ k then l[k.toNat]? else none := by
  unfold Spec.kth; rw [sort_coe_eq h]

theorem rankOf_coe (l : List F) (x : F) :
    Spec.rankOf (l : Multiset F) x = l.countP (· < x) := by
  simp [Spec.rankOf, List.countP_eq_length_filter]


theorem countP_lt_of_ge {l : List F} {x v : F} (h : ∀ b ∈ l, v ≤ b) (hx : x ≤ v) :
    l.countP (· < x) = 0 := by
  rw [List.countP_eq_zero]; intro a ha; simpa using hx.trans (h a ha)

theorem count_of_gt {l : List F} {x v : F} (h : ∀ b ∈ l, v ≤ b) (hx : x < v) : l.count x = 0 := by
  rw [List.count_eq_zero]; intro hm; exact absurd (h x hm) (not_le.2 hx)

theorem count_of_lt {l : List F} {x v : F} (h : ∀ b ∈ l, b ≤ v) (hx : v < x) : l.count x = 0 := by
  rw [List.count_eq_zero]; intro hm; exact absurd (h x hm) (not_le.2 hx)

theorem countP_lt_of_le {l : List F} {x v : F} (h : ∀ b ∈ l, b ≤ v) (hx : v < x) :
    l.countP (· < x) = l.length := by
  rw [List.countP_eq_length]; intro a ha; simpa using (h a ha).trans_lt hx

theorem countP_add_count {l : List F} {x : F} (h : ∀ b ∈ l, b ≤ x) :
    l.countP (· < x) + l.count x = l.length := by
  induction l with
  | nil => simp
  | cons a l ih =>
    have ih := ih (fun b hb => h b (by simp [hb]))
    have ha := h a (by simp)
    rw [List.countP_cons, List.count_cons, List.length_cons]
    rcases lt_or_eq_of_le ha with c | c
    · simp [c, c.ne]; omega
    · simp [c]; omega

theorem isKth_append {a b : List F} {v : F} (h : (a ++ v :: b).Pairwise (· ≤ ·)) :
    Spec.IsKth ((a ++ v :: b : List F) : Multiset F) a.length v := by
  obtain ⟨-, -, h1, h2⟩ := sorted_mid.1 h
  refine ⟨by simp, ?_, ?_⟩
  · simp only [Multiset.filter_coe, Multiset.coe_card]
    rw [← List.countP_eq_length_filter, List.countP_append, List.countP_cons, countP_lt_of_ge h2 le_rfl]
    have := List.countP_le_length (p := fun x => decide (x < v)) (l := a)
    simpa using this
  · simp only [Multiset.filter_coe, Multiset.coe_card]
    rw [← List.countP_eq_length_filter, List.countP_append, List.countP_cons]
    have : List.countP (fun x => decide (x ≤ v)) a = a.length := by
      rw [List.countP_eq_length]; intro a ha; simpa using h1 a ha
    rw [this]; simp

theorem isKth_of_sorted {l : List F} (h : l.Pairwise (· ≤ ·)) {k : Nat} (hk : k < l.length) :
    Spec.IsKth (l : Multiset F) k l[k] := by
  have hsplit : l = l.take k ++ l[k] :: l.drop (k + 1) := by
    rw [← List.drop_eq_getElem_cons hk, List.take_append_drop]
  have := isKth_append (a := l.take k) (v := l[k]) (b := l.drop (k+1)) (by rw [← hsplit]; exact h)
  rw [← hsplit, List.length_take, Nat.min_eq_left hk.le] at this
  exact this

theorem kth_isKth (S : Multiset F) {k : Int} (h0 : 0 ≤ k) (hk : k < S.card) :
    ∃ v, Spec.kth S k = some v ∧ Spec.IsKth S k.toNat v := by
  have hs : (S.sort (· ≤ ·)).Pairwise (· ≤ ·) := Multiset.pairwise_sort _ _
  have hl : (S.sort (· ≤ ·)).length = S.card := Multiset.length_sort _
  have hk' : k.toNat < (S.sort (· ≤ ·)).length := by omega
  refine ⟨(S.sort (· ≤ ·))[k.toNat], ?_, ?_⟩
  · rw [Spec.kth, if_pos h0, List.getElem?_eq_getElem hk']
  · have := isKth_of_sorted hs hk'
    rwa [Multiset.sort_eq] at this

theorem kth_out (S : Multiset F) {k : Int} (h : k < 0 ∨ (S.card : Int) ≤ k) : Spec.kth S k = none := by
  have hl : (S.sort (· ≤ ·)).length = S.card := Multiset.length_sort _
  unfold Spec.kth
  split_ifs with c
  · rw [List.getElem?_eq_none]; omega
  · rfl

/-- The k-th smallest element is unique. -/
theorem IsKth.unique {S : Multiset F} {k : Nat} {v w : F} (hv : Spec.IsKth S k v) (hw : Spec.IsKth S k w) :
    v = w := by
  have aux : ∀ {v w : F}, Spec.IsKth S k v → Spec.IsKth S k w → ¬ v < w := by
    intro v w hv hw c
    have : (S.filter (· ≤ v)).card ≤ (S.filter (· < w)).card :=
      Multiset.card_le_card (Multiset.monotone_filter_right S (fun a ha => lt_of_le_of_lt ha c))
    have h1 := hv.2.2; have h2 := hw.2.1; omega
  exact le_antisymm (not_lt.1 (aux hw hv)) (not_lt.1 (aux hv hw))

end Verif
