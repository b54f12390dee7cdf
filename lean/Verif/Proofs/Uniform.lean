import Verif.Proofs.Sample
import Mathlib.Data.Fintype.Pi
import Mathlib.Data.Fintype.BigOperators
import Mathlib.Data.Finset.Powerset
import Mathlib.Data.Fin.Tuple.Basic
import Mathlib.Algebra.BigOperators.Fin
import Mathlib.Data.Nat.Factorial.BigOperators
import Mathlib.Tactic.Ring

/-! # Reservoir sampling: every subset arises from the same number of draws -/

namespace Verif.Sample
open Verif Verif.Spec Finset

/-- The draws of `n` pushes: the `i`-th is a number below `i` (sample.go:23 `rand.Intn(r.count)`). -/
abbrev Draws (n : Nat) : Type := (i : Fin n) → Fin (i.1 + 1)

/-- The draws as a function of the number of the push. -/
def ext {n : Nat} (d : Draws n) (m : Nat) : Nat := if h : m - 1 < n then (d ⟨m - 1, h⟩).1 else 0

theorem positions_congr {draw draw' : Nat → Nat} {s : Int} {n : Nat} (h : ∀ m, 1 ≤ m → m ≤ n → draw m = draw' m) :
    positions draw s n = positions draw' s n := by
  induction n with
  | zero => rfl
  | succ n ih =>
    simp only [positions]
    rw [ih (fun m h1 h2 => h m h1 (by omega)), h (n + 1) (by omega) (by omega)]

theorem positions_snoc {n : Nat} (s : Int) (d : Draws n) (e : Fin (n + 1)) :
    positions (ext (n := n + 1) (Fin.snoc (α := fun i : Fin (n + 1) => Fin (i.1 + 1)) d e)) s (n + 1) =
      nextPos s n e.1 (positions (ext d) s n) := by
  simp only [positions]
  congr 1
  · have a : n + 1 - 1 < n + 1 := Nat.lt_succ_self n
    simp only [ext, dif_pos a]
    exact congrArg Fin.val (Fin.snoc_last (α := fun i : Fin (n + 1) => Fin (i.1 + 1)) e d)
  · apply positions_congr
    intro m h1 h2
    have a : m - 1 < n := by omega
    have b : m - 1 < n + 1 := by omega
    simp only [ext, dif_pos a, dif_pos b]
    exact congrArg Fin.val (Fin.snoc_castSucc (α := fun i : Fin (n + 1) => Fin (i.1 + 1)) e d ⟨m - 1, a⟩)

theorem positions_inv (draw : Nat → Nat) (s n : Nat) :
    (positions draw s n).Nodup ∧ (∀ p ∈ positions draw s n, p < n) ∧ (positions draw s n).length = min n s ∧
      (n ≤ s → positions draw s n = List.range n) := by
  obtain ⟨r, _, h⟩ := run_inv draw (s : Int) (List.range n)
  have hl := congrArg List.length h.drawn.values
  have := h.drawn.inside
  have h2 := h.len
  have h3 := h.all
  have h4 := h.drawn.distinct
  simp only [List.length_range, Int.toNat_natCast, List.length_map] at this h2 h3 h4 hl
  exact ⟨h4, this, by omega, fun c => h3 (by omega)⟩

theorem nextPos_full {s n : Nat} (h : s ≤ n) (e : Nat) (l : List Nat) :
    nextPos s n e l = if e < s then l.set e n else l := by
  unfold nextPos
  rw [if_neg (by omega)]
  by_cases c : e < s
  · rw [if_pos (by omega), if_pos c]
  · rw [if_neg (by omega), if_neg c]

theorem toFinset_set {l : List Nat} (hl : l.Nodup) {e n : Nat} (he : e < l.length) :
    (l.set e n).toFinset = insert n (l.toFinset.erase l[e]) := by
  ext a
  simp only [List.mem_toFinset, mem_insert, mem_erase]
  constructor
  · intro h
    obtain ⟨k, hk, rfl⟩ := List.getElem_of_mem h
    rw [List.getElem_set]
    by_cases c : e = k
    · simp [c]
    · simp only [c, if_false]
      have hk' : k < l.length := by simpa using hk
      exact Or.inr ⟨fun h => c ((List.Nodup.getElem_inj_iff hl).1 h).symm, List.getElem_mem hk'⟩
  · rintro (rfl | ⟨h1, h2⟩)
    · exact List.mem_iff_getElem.2 ⟨e, by simpa using he, by simp⟩
    · obtain ⟨k, hk, rfl⟩ := List.getElem_of_mem h2
      exact List.mem_iff_getElem.2 ⟨k, by simpa using hk, by
        rw [List.getElem_set]; rw [if_neg]; rintro rfl; exact h1 rfl⟩

/-- How many last draws lead from the sample `l` to the set `T`. -/
theorem inner {s n : Nat} (h : s ≤ n) {l : List Nat} (hn : l.Nodup) (hi : ∀ p ∈ l, p < n) (hl : l.length = s) {T : Finset Nat}
    (hT : T.card = s) :
    (univ.filter (fun e : Fin (n + 1) => (nextPos s n e.1 l).toFinset = T)).card =
      if n ∈ T then (if T.erase n ⊆ l.toFinset then 1 else 0) else (if l.toFinset = T then n + 1 - s else 0) := by
  have hnl : n ∉ l.toFinset := fun c => absurd (hi n (List.mem_toFinset.1 c)) (Nat.lt_irrefl n)
  have hnl' : n ∉ l := fun c => hnl (List.mem_toFinset.2 c)
  by_cases c : n ∈ T
  · rw [if_pos c]
    by_cases c2 : T.erase n ⊆ l.toFinset
    · rw [if_pos c2]
      have hs : 1 ≤ s := by rw [← hT]; exact card_pos.2 ⟨n, c⟩
      have hd : (l.toFinset \ T.erase n).card = 1 := by
        rw [card_sdiff_of_subset c2, List.toFinset_card_of_nodup hn, card_erase_of_mem c]; omega
      obtain ⟨a, ha⟩ := card_eq_one.1 hd
      have hal : a ∈ l.toFinset ∧ a ∉ T.erase n := by
        have : a ∈ l.toFinset \ T.erase n := by rw [ha]; simp
        simpa [mem_sdiff] using this
      obtain ⟨k, hk, hka⟩ := List.getElem_of_mem (List.mem_toFinset.1 hal.1)
      have hTe : T.erase n = l.toFinset.erase a := by
        apply eq_of_subset_of_card_le
        · intro b hb
          exact mem_erase.2 ⟨fun e => hal.2 (e ▸ hb), c2 hb⟩
        · rw [card_erase_of_mem hal.1, card_erase_of_mem c, List.toFinset_card_of_nodup hn]; omega
      rw [card_eq_one]
      refine ⟨⟨k, by omega⟩, ?_⟩
      ext e
      simp only [mem_filter, mem_univ, true_and, mem_singleton]
      rw [nextPos_full h]
      by_cases ce : e.1 < s
      · rw [if_pos ce, toFinset_set hn (by omega)]
        constructor
        · intro hh
          have : l.toFinset.erase (l[e.1]'(by omega)) = l.toFinset.erase a := by
            rw [← hTe]
            have h2 := congrArg (fun S => S.erase n) hh
            rw [erase_insert (fun c => hnl (mem_of_mem_erase c))] at h2
            exact h2
          have hx : l[e.1]'(by omega) = a := by
            by_contra hne
            have : a ∈ l.toFinset.erase (l[e.1]'(by omega)) := mem_erase.2 ⟨fun c => hne c.symm, hal.1⟩
            rw [‹l.toFinset.erase _ = _›] at this
            exact (mem_erase.1 this).1 rfl
          have := (List.Nodup.getElem_inj_iff hn).1 (hx.trans hka.symm)
          exact Fin.ext this
        · rintro rfl
          simp only [hka]
          rw [← hTe, insert_erase c]
      · rw [if_neg ce]
        constructor
        · intro hh; exact absurd (hh ▸ c) hnl
        · intro he; exact absurd (by rw [he]; simp only; omega) ce
    · rw [if_neg c2, card_eq_zero, filter_eq_empty_iff]
      intro e _ hh
      rw [nextPos_full h] at hh
      by_cases ce : e.1 < s
      · rw [if_pos ce] at hh
        apply c2
        intro b hb
        obtain ⟨h1, h2⟩ := mem_erase.1 hb
        rw [← hh, List.mem_toFinset] at h2
        rcases List.mem_or_eq_of_mem_set h2 with h3 | h3
        · exact List.mem_toFinset.2 h3
        · exact absurd h3 h1
      · rw [if_neg ce] at hh
        exact hnl (hh ▸ c)
  · rw [if_neg c]
    have key : ∀ e : Fin (n + 1), (nextPos s n e.1 l).toFinset = T ↔ (s ≤ e.1 ∧ l.toFinset = T) := by
      intro e
      rw [nextPos_full h]
      by_cases ce : e.1 < s
      · rw [if_pos ce]
        constructor
        · intro hh
          exfalso; apply c
          rw [← hh, toFinset_set hn (by omega)]
          exact mem_insert_self _ _
        · intro hh; omega
      · rw [if_neg ce]
        constructor
        · intro hh; exact ⟨by omega, hh⟩
        · exact fun hh => hh.2
    simp only [key]
    by_cases c2 : l.toFinset = T
    · simp only [c2, and_true, if_true]
      have : (univ.filter (fun e : Fin (n + 1) => s ≤ e.1)) = univ.filter (fun e : Fin (n + 1) => (⟨s, by omega⟩ : Fin (n + 1)) ≤ e) := by
        ext e; simp [Fin.le_def]
      rw [this, filter_le_eq_Ici, Fin.card_Ici]
    · simp [c2]

/-- The set of positions sampled. -/
def sampled (s : Nat) {n : Nat} (d : Draws n) : Finset Nat := (positions (ext d) s n).toFinset

theorem sampled_mem {s n : Nat} (h : s ≤ n) (d : Draws n) : sampled s d ∈ powersetCard s (range n) := by
  obtain ⟨h1, h2, h3, _⟩ := positions_inv (ext d) s n
  rw [mem_powersetCard]
  refine ⟨fun a ha => mem_range.2 (h2 a (List.mem_toFinset.1 ha)), ?_⟩
  rw [sampled, List.toFinset_card_of_nodup h1]; omega

theorem card_snoc {s n : Nat} (T : Finset Nat) :
    (univ.filter (fun d : Draws (n + 1) => sampled s d = T)).card =
      ∑ d : Draws n, (univ.filter (fun e : Fin (n + 1) => (nextPos s n e.1 (positions (ext d) s n)).toFinset = T)).card := by
  rw [card_filter]
  rw [← Fintype.sum_equiv (Fin.snocEquiv (fun i : Fin (n + 1) => Fin (i.1 + 1)))
    (fun p => if (nextPos s n p.1.1 (positions (ext p.2) s n)).toFinset = T then 1 else 0) _ ?_]
  · rw [Fintype.sum_prod_type_right]
    apply sum_congr rfl
    intro d _
    rw [card_filter]
    rfl
  · rintro ⟨e, d⟩
    have := positions_snoc (s : Int) d e
    simp only [Fin.snocEquiv, Equiv.coe_fn_mk, sampled]
    rw [← this]
    rfl

theorem supersets {s n : Nat} {U : Finset Nat} (hU : U ⊆ range n) (hc : U.card + 1 = s) :
    ((powersetCard s (range n)).filter (fun S => U ⊆ S)).card = n + 1 - s := by
  have : ((powersetCard s (range n)).filter (fun S => U ⊆ S)) = (range n \ U).image (fun a => insert a U) := by
    ext S
    simp only [mem_filter, mem_powersetCard, mem_image, mem_sdiff]
    constructor
    · rintro ⟨⟨h1, h2⟩, h3⟩
      have : (S \ U).card = 1 := by rw [card_sdiff_of_subset h3]; omega
      obtain ⟨a, ha⟩ := card_eq_one.1 this
      have hm : a ∈ S \ U := by rw [ha]; simp
      rw [mem_sdiff] at hm
      refine ⟨a, ⟨h1 hm.1, hm.2⟩, ?_⟩
      rw [insert_eq, ← ha, sdiff_union_of_subset h3]
    · rintro ⟨a, ⟨h1, h2⟩, rfl⟩
      refine ⟨⟨insert_subset h1 hU, by rw [card_insert_of_notMem h2]; exact hc⟩, subset_insert _ _⟩
  rw [this, card_image_of_injOn]
  · rw [card_sdiff_of_subset hU, card_range]; omega
  · intro a ha b hb hab
    simp only [coe_sdiff, Set.mem_sdiff, mem_coe] at ha hb
    have : a ∈ insert b U := by
      have := mem_insert_self a U
      simp only at hab
      rwa [hab] at this
    rcases mem_insert.1 this with h | h
    · exact h
    · exact absurd h ha.2

/-- Every `s`-subset of the `n` positions arises from exactly `s! (n-s)!` of the `n!` draws. -/
theorem count_eq {s n : Nat} (h : s ≤ n) (T : Finset Nat) (hT : T ∈ powersetCard s (range n)) :
    (univ.filter (fun d : Draws n => sampled s d = T)).card = s.factorial * (n - s).factorial := by
  induction n, h using Nat.le_induction generalizing T with
  | base =>
    have e : T = range s := by
      rw [mem_powersetCard] at hT
      exact eq_of_subset_of_card_le hT.1 (by rw [card_range, hT.2])
    have : ∀ d : Draws s, sampled s d = T := by
      intro d
      rw [sampled, (positions_inv (ext d) s s).2.2.2 (Nat.le_refl s), e, List.toFinset_range]
    rw [filter_true_of_mem (fun d _ => this d), Finset.card_univ, Fintype.card_pi]
    simp only [Fintype.card_fin, Nat.sub_self, Nat.factorial_zero, Nat.mul_one]
    rw [Fin.prod_univ_eq_prod_range (fun i => i + 1) s, Finset.prod_range_add_one_eq_factorial]
  | succ n hn ih =>
    rw [mem_powersetCard] at hT
    rw [card_snoc]
    have hin : ∀ d : Draws n, _ := fun d => inner (T := T) hn (positions_inv (ext d) s n).1 (positions_inv (ext d) s n).2.1
      (by rw [(positions_inv (ext d) s n).2.2.1]; omega) hT.2
    rw [sum_congr rfl (fun d _ => hin d)]
    have hf : (n + 1 - s).factorial = (n + 1 - s) * (n - s).factorial := by
      have : n + 1 - s = (n - s) + 1 := by omega
      rw [this, Nat.factorial_succ]
    by_cases c : n ∈ T
    · simp only [c, if_true]
      rw [← card_filter]
      have hU : T.erase n ⊆ range n := by
        intro a ha
        obtain ⟨h1, h2⟩ := mem_erase.1 ha
        have := mem_range.1 (hT.1 h2)
        exact mem_range.2 (by omega)
      have hs : 1 ≤ s := by rw [← hT.2]; exact card_pos.2 ⟨n, c⟩
      have hc : (T.erase n).card + 1 = s := by rw [card_erase_of_mem c]; omega
      rw [card_eq_sum_card_fiberwise (f := fun d => sampled s d)
        (t := (powersetCard s (range n)).filter (fun S => T.erase n ⊆ S))
        (fun d hd => by
          simp only [coe_filter, mem_univ, true_and, Set.mem_ofPred_eq] at hd ⊢
          exact ⟨sampled_mem hn d, hd⟩)]
      rw [sum_congr rfl (g := fun _ => s.factorial * (n - s).factorial)]
      · rw [sum_const, supersets hU hc, hf, smul_eq_mul]; ring
      · intro S hS
        rw [mem_filter] at hS
        rw [← ih S hS.1]
        congr 1
        ext d
        simp only [mem_filter, mem_univ, true_and]
        constructor
        · exact fun h => h.2
        · intro h; exact ⟨by rw [← sampled, h]; exact hS.2, h⟩
    · simp only [c, if_false]
      have hT' : T ∈ powersetCard s (range n) := by
        rw [mem_powersetCard]
        refine ⟨fun a ha => ?_, hT.2⟩
        have := mem_range.1 (hT.1 ha)
        have : a ≠ n := fun e => c (e ▸ ha)
        exact mem_range.2 (by omega)
      rw [← sum_filter, sum_const, smul_eq_mul, hf]
      have : (univ.filter (fun d : Draws n => (positions (ext d) s n).toFinset = T)).card = s.factorial * (n - s).factorial := ih T hT'
      calc _ = (univ.filter (fun d : Draws n => (positions (ext d) s n).toFinset = T)).card * (n + 1 - s) := rfl
        _ = _ := by rw [this]; ring

end Verif.Sample
