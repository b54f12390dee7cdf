import Verif.Proofs.Strings
import Verif.Proofs.Decide
import Verif.Props.Rb

/-! # C63: the strings of the order statistics -/

namespace Verif.Props
open Verif Verif.Spec Verif.Skip

variable {F : Type} [LinearOrder F] [Nonempty F]

omit [Nonempty F] in
theorem eq_sort {xs : List F} {S : Multiset F} (h : xs.Pairwise (· ≤ ·)) (e : (xs : Multiset F) = S) :
    xs = S.sort (· ≤ ·) := by
  subst e
  rw [Multiset.coe_sort, List.mergeSort_eq_self]
  simpa using h

/-- C63 (AVL tree). Every tree that a history leads to prints without a panic, and what it prints is one line per stored value,
from the largest to the smallest; the line of a value at depth `d` has `4 d + 1` characters before `── ` and the depth never
exceeds the height. -/
theorem C63_avl_string (fmt : F → List Char) (ops : List (OSOp F)) :
    ∃ t s es, Avl.Tree.run ops = .val t ∧ t.string fmt = .val s ∧ TreeDrawing fmt es s ∧
      es.map Prod.snd = ((bag ops).sort (· ≤ ·)).reverse ∧ ∀ e ∈ es, (e.1 : Int) ≤ t.height := by
  obtain ⟨t, e, h⟩ := Avl.Tree.run_inv ops
  obtain ⟨s, e1, d⟩ := t.root.string_spec fmt
  refine ⟨t, s, t.root.entries 0, e, e1, d, ?_, fun x hx => ?_⟩
  · rw [Avl.Node.entries_snd]; rw [eq_sort h.sorted h.content]
  · have := Avl.Node.entries_le h.wf 0 x hx
    simpa [Avl.Tree.height] using this

/-- C63 (red-black tree), `_partial`: as for the AVL tree, for histories in which no value is removed while it is stored more
than once (elsewhere `Remove` itself loses values, C06). -/
theorem C63_rb_string_partial (fmt : F → List Char) (ops : List (OSOp F)) (hu : RemovesUnique ops) :
    ∃ t s es, Rb.Tree.run ops = .val t ∧ t.string fmt = .val s ∧ TreeDrawing fmt es s ∧
      es.map Prod.snd = ((bag ops).sort (· ≤ ·)).reverse := by
  obtain ⟨t, e, h⟩ := Rb.Tree.run_inv ops hu
  obtain ⟨s, e1, d⟩ := t.root.string_spec fmt
  refine ⟨t, s, t.root.entries 0, e, e1, d, ?_⟩
  rw [Rb.Node.entries_snd]; rw [eq_sort h.sorted h.content]

omit [Nonempty F] in
/-- C63 (red-black tree), all histories: whatever tree a history leads to, its string does not panic and lists, one per line, what
`Select(Size()-1)`, …, `Select(0)` answer; these are sorted, and they are values that were added and not removed. -/
theorem C63_rb_string_select (fmt : F → List Char) (ops : List (OSOp F)) (t : Rb.Tree F) (h : Rb.Tree.run ops = .val t) :
    ∃ s es, t.string fmt = .val s ∧ TreeDrawing fmt es s ∧ t.size = es.length ∧
      (es.map Prod.snd).map some = ((List.range es.length).map (fun i : Nat => t.select (i : Int))).reverse ∧
      (es.map Prod.snd).Pairwise (· ≥ ·) ∧ ((es.map Prod.snd : List F) : Multiset F) ≤ bag ops := by
  obtain ⟨s, e1, d⟩ := t.root.string_spec fmt
  obtain ⟨h1, h2, h3⟩ := Rb.Tree.run_weak ops t h
  have hl : (t.root.entries 0).length = t.root.toList.length := by
    rw [← List.length_map (f := Prod.snd), Rb.Node.entries_snd, List.length_reverse]
  refine ⟨s, _, e1, d, ?_, ?_, ?_, ?_⟩
  · rw [Rb.Tree.size, h1.size_eq, hl]
  · rw [hl, Rb.Node.entries_snd]
    simp only [Rb.Tree.select]
    rw [Rb.Node.select_list h1, List.map_reverse]
  · rw [Rb.Node.entries_snd, List.pairwise_reverse]; exact h2
  · rw [Rb.Node.entries_snd, Multiset.coe_eq_coe.2 (List.reverse_perm _)]; exact h3

/-- C63 (skip list), `_partial`: if no value is added while it is stored, the string has one line per level, from the top to the
bottom, each of the form `head-…-tail` with one dash per stored value, in increasing order, the values present on the level printed
behind their dash; a value present on a level is present on the level below, and all are on level 0. -/
theorem C63_skip_string_partial (M : Nat) (hM : 0 < M) (draws : Nat → Nat → Bool) (fmt : F → List Char) (ops : List (OSOp F))
    (hf : AddsFresh ops) :
    ∃ s out, ∃ on : Nat → List (F × Bool), SkipList.run M draws ops = .val s ∧ s.string fmt = .val out ∧
      out = ((List.range M).reverse.map (fun i => skipLine fmt (on i))).flatten ∧
      (∀ i, (on i).map Prod.fst = (bag ops).sort (· ≤ ·)) ∧ (∀ v ∈ on 0, v.2 = true) ∧
      ∀ i (k : Nat) (v w : F × Bool), (on (i + 1))[k]? = some v → (on i)[k]? = some w → v.2 = true → w.2 = true := by
  obtain ⟨s, e, rfl, A, V, h1, h2, hE, -⟩ := run_repE hM draws ops hf
  refine ⟨s, _, marks s A V, e, stringDown_spec fmt h1.links hE s.maxLevel [] le_rfl, by simp, ?_, ?_, ?_⟩
  · intro i
    have : (marks s A V i).map Prod.fst = A.map V := by simp [marks, Function.comp_def]
    rw [this, eq_sort h1.links.sorted h2]
  · intro v hv
    simp only [marks, List.mem_map] at hv
    obtain ⟨a, ha, rfl⟩ := hv
    simpa using (h1.links.lvl a ha).1
  · intro i k v w hv hw hvt
    simp only [marks, List.getElem?_map, Option.map_eq_some_iff] at hv hw
    obtain ⟨a, ha, rfl⟩ := hv
    obtain ⟨b, hb, rfl⟩ := hw
    rw [ha] at hb; cases hb
    simp only [decide_eq_true_eq] at hvt ⊢; omega

/-- C63 (skip list), `_partial`, all histories: if the string comes out at all, its last line lists all the stored values in
increasing order. -/
theorem C63_skip_bottom_partial (M : Nat) (hM : 0 < M) (draws : Nat → Nat → Bool) (fmt : F → List Char) (ops : List (OSOp F))
    (s : SkipList F) (out : List Char) (hs : SkipList.run M draws ops = .val s) (ho : s.string fmt = .val out) :
    ∃ above, out = above ++ skipBottom fmt ((bag ops).sort (· ≤ ·)) := by
  obtain ⟨s', e, rfl, A, V, h1, h2⟩ := run_rep hM draws ops
  rw [hs] at e; cases e
  obtain ⟨m, hm⟩ : ∃ m, s.maxLevel = m + 1 := ⟨s.maxLevel - 1, by omega⟩
  rw [SkipList.string, hm] at ho
  obtain ⟨pre, rfl⟩ := stringDown_bottom fmt h1 m [] out ho
  exact ⟨pre, by rw [eq_sort h1.links.sorted h2]⟩

/-- The history of the counterexample: levels 2, 2, 1, 2 for the four additions. -/
def negativeWidth : List (OSOp ℤ) := [.add 2, .add 2, .add 2, .add 0, .remove 2, .remove 2]

/-- C63 is false for the skip list: with equal values a width becomes negative and `String` panics (`strings.Repeat`). -/
theorem C63_skip_string_refuted :
    ∃ (M : Nat) (draws : Nat → Nat → Bool) (fmt : ℤ → List Char) (ops : List (OSOp ℤ)) (s : SkipList ℤ),
      0 < M ∧ SkipList.run M draws ops = .val s ∧ s.string fmt = .panic := by
  obtain ⟨s, e, -⟩ := run_rep (F := ℤ) (M := 2) (by decide) (fun n _ => n != 2) negativeWidth
  refine ⟨2, fun n _ => n != 2, fun _ => [], negativeWidth, s, by decide, e, ?_⟩
  have h : (SkipList.run 2 (fun n _ => n != 2) negativeWidth).bind (fun s => s.string (fun _ => [])) = .panic := by decide +kernel
  rw [e] at h
  exact h

/-- Lines for the examples: digits. -/
def digit (x : ℤ) : List Char := (toString x).toList

example : (do let t ← Avl.Tree.run [OSOp.add (5 : ℤ), .add 6, .add 7, .add 3, .add 4, .add 1, .add 2, .add 1]; t.string digit) =
    .val ("│       ┌── 7\n│   ┌── 6\n│   │   └── 5\n└── 4\n    │   ┌── 3\n    └── 2\n        └── 1\n            └── 1\n".toList) := by
  decide +kernel

example : (do let t ← Rb.Tree.run [OSOp.add (0 : ℤ), .add 0, .add 0, .add 0, .remove 0]; t.string digit) =
    .val ("└── 0\n    └── 0\n".toList) := by decide +kernel

example : (do let s ← SkipList.run 2 (fun n _ => n == 1 || n == 2) [OSOp.add (5 : ℤ), .add 3, .add 7, .add 4]; s.string digit) =
    .val ("head-3---7-tail\nhead-3-4-5-7-tail\n".toList) := by decide +kernel

end Verif.Props
