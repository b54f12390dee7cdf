import Verif.Proofs.Rb
import Verif.Proofs.Avl
import Mathlib.Data.Nat.Log

/-! # C06–C10: the red-black order statistic tree

`Remove` of a value stored at least twice can hit `moveRedRight`, rotate an equal value to the top and then call
`removeMin` on a node whose left child is nil and whose right child is not: a second node is lost and the black heights become
unequal.  So the properties hold for histories that remove a value only while it is stored at most once
(`RemovesUnique`; duplicates of other values are allowed), and are refuted in general. -/

namespace Verif.Props
open Verif Verif.Spec

variable {F : Type} [LinearOrder F]

/-- A history with duplicates that satisfies `RemovesUnique` (for the non-vacuity examples below). -/
theorem removesUnique_example : RemovesUnique [OSOp.add (5 : ℤ), .add 5, .add 3, .remove 3, .add 4, .remove 9] := by
  intro pre x post h
  rcases pre with _ | ⟨a1, _ | ⟨a2, _ | ⟨a3, _ | ⟨a4, _ | ⟨a5, _ | ⟨a6, pre⟩⟩⟩⟩⟩⟩ <;> simp at h
  · obtain ⟨rfl, rfl, rfl, rfl, rfl⟩ := h; decide
  · obtain ⟨rfl, rfl, rfl, rfl, rfl, rfl, rfl⟩ := h; decide

/-- C06, refuted as stated: Add(0) four times, Remove(0) once leaves two values instead of three. -/
theorem C06_rb_contents_refuted :
    ¬ ∀ ops : List (OSOp ℤ), ∃ t, Rb.Tree.run ops = .val t ∧ Describes t.size t.select (bag ops) := by
  intro h
  obtain ⟨t, e, hs, -⟩ := h [.add 0, .add 0, .add 0, .add 0, .remove 0]
  have : (do let t ← Rb.Tree.run [OSOp.add (0 : ℤ), .add 0, .add 0, .add 0, .remove 0]; pure t.size) = .val 2 := by decide
  rw [e] at this
  have h3 : (bag [OSOp.add (0 : ℤ), .add 0, .add 0, .add 0, .remove 0]).card = 3 := by decide
  injection this with this
  rw [hs, h3] at this; norm_num at this

/-- C06, what holds: histories in which values are removed only while stored at most once. Missing for the full statement:
removal of a value stored several times, where the code is wrong. -/
theorem C06_rb_contents_partial (ops : List (OSOp F)) (hu : RemovesUnique ops) :
    ∃ t, Rb.Tree.run ops = .val t ∧ Describes t.size t.select (bag ops) := by
  obtain ⟨t, e, i⟩ := Rb.Tree.run_inv ops hu
  exact ⟨t, e, i.size, i.select⟩

example : RemovesUnique [OSOp.add (5 : ℤ), .add 5, .add 3, .remove 3, .add 4, .remove 9] := removesUnique_example

/-- C06, no assumption on the history beyond "never remove": duplicates are handled by Add, Select and Size. -/
theorem C06_rb_add_only_partial (xs : List F) :
    ∃ t, Rb.Tree.run (xs.map .add) = .val t ∧ Describes t.size t.select (xs : Multiset F) := by
  have hu : RemovesUnique (xs.map OSOp.add) := by
    intro pre x post h
    have : OSOp.remove x ∈ xs.map OSOp.add := by rw [h]; simp
    simp at this
  have hb : bag (xs.map OSOp.add) = (xs : Multiset F) := by
    have : ∀ (ys : List F) (S : Multiset F), (ys.map OSOp.add).foldl bagStep S = S + ys := by
      intro ys
      induction ys with
      | nil => intro S; simp
      | cons y ys ih =>
        intro S
        simp only [List.map_cons, List.foldl_cons, ih, bagStep]
        rw [← Multiset.cons_coe, Multiset.add_cons, Multiset.cons_add]
    simpa [bag] using this xs 0
  obtain ⟨t, e, i⟩ := Rb.Tree.run_inv _ hu
  rw [hb] at i
  exact ⟨t, e, i.size, i.select⟩

/-- C07, refuted as stated: `Select` after removing a duplicated value, and `Rank` of a duplicated value. -/
theorem C07_rb_select_rank_refuted :
    (¬ ∀ (ops : List (OSOp ℤ)) (t : Rb.Tree ℤ), Rb.Tree.run ops = .val t → ∀ k, t.select k = kth (bag ops) k) ∧
    (¬ ∀ (xs : List ℤ) (t : Rb.Tree ℤ), Rb.Tree.run (xs.map .add) = .val t →
        ∀ x, t.rank x = rankOf (bag (xs.map .add)) x) := by
  constructor
  · intro h
    obtain ⟨t, e⟩ : ∃ t, Rb.Tree.run [OSOp.add (0 : ℤ), .add 0, .add 0, .add 0, .remove 0] = .val t := ⟨_, rfl⟩
    have h1 := h _ _ e 2
    have h2 : (do let t ← Rb.Tree.run [OSOp.add (0 : ℤ), .add 0, .add 0, .add 0, .remove 0]; pure (t.select 2)) =
      .val none := by decide
    rw [e] at h2; injection h2 with h2
    obtain ⟨v, hv, -⟩ := kth_isKth (bag [OSOp.add (0 : ℤ), .add 0, .add 0, .add 0, .remove 0]) (k := 2) (by decide) (by decide)
    rw [h2, hv] at h1; cases h1
  · intro h
    have := h [1, 1] _ rfl 1
    revert this; decide

/-- C07, what holds. Missing for the full statement: histories removing duplicated values, and the exact rank of a value stored
more than once (the code overcounts it by less than the number of copies). -/
theorem C07_rb_select_rank_partial (ops : List (OSOp F)) (hu : RemovesUnique ops) (t : Rb.Tree F)
    (h : Rb.Tree.run ops = .val t) :
    (∀ k : Int, (0 ≤ k → k < t.size → ∃ v, t.select k = some v ∧ IsKth (bag ops) k.toNat v) ∧
      (k < 0 ∨ t.size ≤ k → t.select k = none)) ∧
    ∀ x, ((bag ops).count x ≤ 1 → t.rank x = rankOf (bag ops) x) ∧
      (rankOf (bag ops) x : Int) ≤ t.rank x ∧
      (x ∈ bag ops → t.rank x < rankOf (bag ops) x + (bag ops).count x) := by
  have i := Rb.Tree.run_of_val hu h
  refine ⟨fun k => ⟨fun h0 hk => ?_, fun hk => ?_⟩, fun x => ?_⟩
  · obtain ⟨v, e, hv⟩ := kth_isKth (bag ops) h0 (by rw [← i.size]; exact hk)
    exact ⟨v, by rw [i.select, e], hv⟩
  · rw [i.select]; exact kth_out _ (by rw [← i.size]; exact hk)
  · have i := i.rank x
    refine ⟨fun hc => ?_, i.1, fun hm => ?_⟩
    · omega
    · have := Multiset.one_le_count_iff_mem.2 hm; omega

example : RemovesUnique [OSOp.add (5 : ℤ), .add 5, .add 3, .remove 3, .add 4, .remove 9] ∧
    (do let t ← Rb.Tree.run [OSOp.add (5 : ℤ), .add 5, .add 3, .remove 3, .add 4, .remove 9]
        pure (t.select 0, t.select 2, t.rank 5, t.rank 6)) = .val (some 4, some 5, 1, 3) :=
  ⟨removesUnique_example, by decide⟩

/-- C08, refuted as stated: Add 0, 2, 1, 1; Remove 1; Remove 0 dereferences nil. -/
theorem C08_rb_no_panic_refuted :
    Rb.Tree.run [OSOp.add (0 : ℤ), .add 2, .add 1, .add 1, .remove 1, .remove 0] = .panic := by decide

/-- C08, what holds. Missing: histories removing a value stored more than once. -/
theorem C08_rb_no_panic_partial (ops : List (OSOp F)) (hu : RemovesUnique ops) : ∃ t, Rb.Tree.run ops = .val t := by
  obtain ⟨t, e, -⟩ := Rb.Tree.run_inv ops hu
  exact ⟨t, e⟩

/-- The balance claim of C09 for a tree. -/
def RbBalanced (t : Rb.Tree F) : Prop :=
  (∃ b, ∀ p ∈ t.root.paths, p.count false = b) ∧ (∀ p ∈ t.root.paths, Rb.Node.NoRedRed p.tail) ∧
    t.root.realHeight ≤ 2 * Nat.log 2 (t.root.toList.length + 1) + 1

/-- C09, refuted as stated: the lost node also makes the black heights unequal. -/
theorem C09_rb_balanced_refuted :
    ¬ ∀ (ops : List (OSOp ℤ)) (t : Rb.Tree ℤ), Rb.Tree.run ops = .val t → RbBalanced t := by
  intro h
  obtain ⟨t, e⟩ : ∃ t, Rb.Tree.run [OSOp.add (0 : ℤ), .add 2, .add 1, .add 1, .remove 1] = .val t := ⟨_, rfl⟩
  obtain ⟨⟨b, hb⟩, -⟩ := h _ _ e
  have h2 : (do let t ← Rb.Tree.run [OSOp.add (0 : ℤ), .add 2, .add 1, .add 1, .remove 1]
                pure (t.root.paths.map (List.count false))) = .val [2, 2, 1] := by decide
  rw [e] at h2; injection h2 with h2
  have hm : ∀ n ∈ t.root.paths.map (List.count false), n = b := by
    intro n hn; obtain ⟨p, hp, rfl⟩ := List.mem_map.1 hn; exact hb p hp
  rw [h2] at hm
  have a := hm 2 (by simp); have c := hm 1 (by simp); omega

/-- C09, what holds. Missing: histories removing a value stored more than once. -/
theorem C09_rb_balanced_partial (ops : List (OSOp F)) (hu : RemovesUnique ops) (t : Rb.Tree F)
    (h : Rb.Tree.run ops = .val t) : RbBalanced t ∧ t.size = t.root.toList.length := by
  have i := Rb.Tree.run_of_val hu h
  refine ⟨?_, i.wf.sizeOK.size_eq⟩
  have key : ∀ {n : Rb.Node F} {b : ℕ}, n.Inv b → (∃ b, ∀ p ∈ n.paths, p.count false = b) ∧
      (∀ p ∈ n.paths, Rb.Node.NoRedRed p.tail) ∧ n.realHeight ≤ 2 * Nat.log 2 (n.toList.length + 1) + 1 := by
    intro n b hi
    refine ⟨⟨b, fun p hp => (hi.paths p hp).1⟩, fun p hp => (hi.paths p hp).2.tail, ?_⟩
    obtain ⟨h1, h2⟩ := hi.bounds
    have h3 : b ≤ Nat.log 2 (n.toList.length + 1) := Nat.le_log_of_pow_le (by norm_num) h1
    split_ifs at h2 <;> omega
  obtain ⟨b, hi | hi⟩ := i.wf
  · exact key hi
  · obtain ⟨⟨b', k1⟩, k2, k3⟩ := key hi
    unfold RbBalanced
    cases hr : t.root with
    | nil => rw [hr] at k1 k2 k3; exact ⟨⟨b', k1⟩, k2, k3⟩
    | node l v r c s =>
      rw [hr] at k1 k2 k3
      simp only [Rb.Node.toggle, Rb.Node.paths, List.mem_map, forall_exists_index, and_imp,
        forall_apply_eq_imp_iff₂] at k1 k2
      refine ⟨⟨if c then b' - 1 else b' + 1, ?_⟩, ?_, ?_⟩
      · intro p hp
        simp only [Rb.Node.paths, List.mem_map] at hp
        obtain ⟨q, hq, rfl⟩ := hp
        have := k1 q hq
        cases c <;> simp at this ⊢ <;> omega
      · intro p hp
        simp only [Rb.Node.paths, List.mem_map] at hp
        obtain ⟨q, hq, rfl⟩ := hp
        exact k2 q hq
      · simpa [Rb.Node.toggle, Rb.Node.realHeight, Rb.Node.toList] using k3

/-- C10, refuted as stated: after Add(0) four times and Remove(0) the two trees report different sizes. -/
theorem C10_avl_rb_refuted :
    ¬ ∀ (ops : List (OSOp ℤ)) (t : Avl.Tree ℤ) (u : Rb.Tree ℤ), Avl.Tree.run ops = .val t → Rb.Tree.run ops = .val u →
      t.size = u.size := by
  intro h
  have := h [.add 0, .add 0, .add 0, .add 0, .remove 0] _ _ rfl rfl
  revert this; decide

/-- C10, what holds: same `Size` and `Select` for histories that remove values only while stored at most once, and same `Rank`
for values stored at most once. -/
theorem C10_avl_rb_partial (ops : List (OSOp F)) (hu : RemovesUnique ops) :
    ∃ t u, Avl.Tree.run ops = .val t ∧ Rb.Tree.run ops = .val u ∧ t.size = u.size ∧ (∀ k, t.select k = u.select k) ∧
      ∀ x, (bag ops).count x ≤ 1 → t.rank x = u.rank x := by
  obtain ⟨t, e, i⟩ := Avl.Tree.run_inv ops
  obtain ⟨u, e', i'⟩ := Rb.Tree.run_inv ops hu
  refine ⟨t, u, e, e', by rw [i.size, i'.size], fun k => by rw [i.select, i'.select], fun x hx => ?_⟩
  have a := i.rank x; have b := i'.rank x; omega

end Verif.Props
