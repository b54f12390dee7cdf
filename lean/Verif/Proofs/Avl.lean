import Verif.Model.Avl
import Verif.Spec.Bag
import Verif.Proofs.ListLemmas
import Mathlib.Data.Nat.Fib.Basic
import Mathlib.Algebra.Order.Group.Int

/-! Lemmas for C01–C05. -/

set_option linter.unusedSectionVars false
set_option linter.unusedSimpArgs false
set_option linter.unreachableTactic false
set_option linter.unusedTactic false
set_option linter.unnecessarySimpa false

namespace Verif.Avl
open Verif

variable {F : Type}

namespace Node

/-- In-order traversal. -/
def toList : Node F → List F
  | nil => []
  | node l v r _ _ => toList l ++ v :: toList r

/-- Stored fields are right and the node is balanced everywhere. -/
def WF : Node F → Prop
  | nil => True
  | node l _ r h s =>
    WF l ∧ WF r ∧ h = max l.height r.height + 1 ∧ s = l.size + r.size + 1 ∧
      l.height ≤ r.height + 1 ∧ r.height ≤ l.height + 1

theorem height_nil : (nil : Node F).height = -1 := rfl
theorem height_node (l : Node F) (v : F) (r : Node F) (h s : Int) : (node l v r h s).height = h := rfl
theorem size_nil : (nil : Node F).size = 0 := rfl
theorem size_node (l : Node F) (v : F) (r : Node F) (h s : Int) : (node l v r h s).size = s := rfl

theorem gmax_eq (x y : Int) : gmax x y = max x y := by
  unfold gmax; split <;> omega

theorem WF.height_ge {t : Node F} (h : WF t) : -1 ≤ t.height := by
  induction t with
  | nil => simp [height_nil, height_node]
  | node l v r hh s ihl ihr =>
    obtain ⟨h1, h2, h3, -⟩ := h
    have := ihl h1; have := ihr h2
    simp only [height_nil, height_node]; omega

theorem WF.size_eq {t : Node F} (h : WF t) : t.size = t.toList.length := by
  induction t with
  | nil => simp [size_nil, size_node, toList]
  | node l v r hh s ihl ihr =>
    obtain ⟨h1, h2, -, h4, -⟩ := h
    simp only [size_nil, size_node, toList, List.length_append, List.length_cons, h4, ihl h1, ihr h2]
    push_cast; omega

/-- What `balance` does to a node whose subtrees are well-formed and differ by at most two in height. -/
theorem balance_spec {l r : Node F} (v : F) (hl : WF l) (hr : WF r)
    (h1 : l.height ≤ r.height + 2) (h2 : r.height ≤ l.height + 2) :
    ∃ t, fixup l v r = .val t ∧ WF t ∧ t.toList = l.toList ++ v :: r.toList ∧
      (t.height = max l.height r.height + 1 ∨
        (t.height = max l.height r.height ∧ (l.height = r.height + 2 ∨ r.height = l.height + 2))) := by
  simp only [fixup, balance]
  split_ifs with c1 c2
  · -- right heavy
    cases r with
    | nil => simp [height_nil, height_node] at c1 h2; have := hl.height_ge; omega
    | node rl rv rr rh rs =>
      obtain ⟨hrl, hrr, rfl, rfl, b1, b2⟩ := hr
      have := hl.height_ge; have := hrl.height_ge; have := hrr.height_ge
      simp only [height_nil, height_node] at c1 h1 h2
      simp only [heightDiff, Go.val_bind]
      split_ifs with d
      · cases rl with
        | nil => simp [height_nil, height_node] at d; omega
        | node rll rlv rlr rlh rls =>
          obtain ⟨hrll, hrlr, rfl, rfl, b3, b4⟩ := hrl
          have := hrll.height_ge; have := hrlr.height_ge
          simp only [height_nil, height_node] at *
          refine ⟨_, rfl, ?_, ?_, ?_⟩
          · simp only [WF, height_nil, height_node, size_nil, size_node, gmax_eq]
            refine ⟨⟨hl, hrll, ?_, ?_, ?_, ?_⟩, ⟨hrlr, hrr, ?_, ?_, ?_, ?_⟩, ?_, ?_, ?_, ?_⟩ <;> first | trivial | omega
          · simp [toList]
          · simp only [height_nil, height_node, gmax_eq]; first | omega | exact Or.inl trivial
      · refine ⟨_, rfl, ?_, ?_, ?_⟩
        · simp only [WF, height_nil, height_node, size_nil, size_node, gmax_eq]
          refine ⟨⟨hl, hrl, ?_, ?_, ?_, ?_⟩, hrr, ?_, ?_, ?_, ?_⟩ <;> first | trivial | omega
        · simp [toList]
        · simp only [height_nil, height_node, gmax_eq]; first | omega | exact Or.inl trivial
  · -- left heavy
    cases l with
    | nil => simp [height_nil, height_node] at c2 h1; have := hr.height_ge; omega
    | node ll lv lr lh ls =>
      obtain ⟨hll, hlr, rfl, rfl, b1, b2⟩ := hl
      have := hr.height_ge; have := hll.height_ge; have := hlr.height_ge
      simp only [height_nil, height_node] at c2 h1 h2
      simp only [heightDiff, Go.val_bind]
      split_ifs with d
      · cases lr with
        | nil => simp [height_nil, height_node] at d; omega
        | node lrl lrv lrr lrh lrs =>
          obtain ⟨hlrl, hlrr, rfl, rfl, b3, b4⟩ := hlr
          have := hlrl.height_ge; have := hlrr.height_ge
          simp only [height_nil, height_node] at *
          refine ⟨_, rfl, ?_, ?_, ?_⟩
          · simp only [WF, height_nil, height_node, size_nil, size_node, gmax_eq]
            refine ⟨⟨hll, hlrl, ?_, ?_, ?_, ?_⟩, ⟨hlrr, hr, ?_, ?_, ?_, ?_⟩, ?_, ?_, ?_, ?_⟩ <;> first | trivial | omega
          · simp [toList]
          · simp only [height_nil, height_node, gmax_eq]; first | omega | exact Or.inl trivial
      · refine ⟨_, rfl, ?_, ?_, ?_⟩
        · simp only [WF, height_nil, height_node, size_nil, size_node, gmax_eq]
          refine ⟨hll, ⟨hlr, hr, ?_, ?_, ?_, ?_⟩, ?_, ?_, ?_, ?_⟩ <;> first | trivial | omega
        · simp [toList]
        · simp only [height_nil, height_node, gmax_eq]; first | omega | exact Or.inl trivial
  · refine ⟨_, rfl, ?_, rfl, ?_⟩
    · simp only [WF, gmax_eq]
      refine ⟨hl, hr, ?_, ?_, ?_, ?_⟩ <;> first | trivial | omega
    · simp only [height_nil, height_node, gmax_eq]; first | omega | exact Or.inl trivial

variable [LinearOrder F]

theorem add_spec (x : F) {t : Node F} (h : WF t) :
    ∃ t', add t x = .val t' ∧ WF t' ∧ t'.toList.Perm (x :: t.toList) ∧
      (t.toList.Pairwise (· ≤ ·) → t'.toList.Pairwise (· ≤ ·)) ∧
      (t'.height = t.height ∨ t'.height = t.height + 1) := by
  induction t with
  | nil => exact ⟨_, rfl, by simp [newNode, WF, height_nil, height_node, size_nil, size_node], by simp [newNode, toList],
      by simp [newNode, toList], by simp [newNode, height_nil, height_node]⟩
  | node l v r hh s ihl ihr =>
    obtain ⟨h1, h2, h3, h4, h5, h6⟩ := h
    simp only [add, goLe_eq, decide_eq_true_eq]
    split_ifs with c
    · obtain ⟨l', e, w, p, so, hh'⟩ := ihl h1
      obtain ⟨t', e', w', p', hb⟩ := balance_spec v w h2 (by omega) (by omega)
      refine ⟨t', by simp [e, e'], w', ?_, ?_, ?_⟩
      · rw [p']; simp only [toList]
        exact (p.append_right _)
      · rw [p']; simp only [toList, sorted_mid]
        rintro ⟨a1, a2, a3, a4⟩
        refine ⟨so a1, a2, ?_, a4⟩
        intro a ha
        rcases List.mem_cons.1 (p.mem_iff.1 ha) with rfl | ha
        · exact c
        · exact a3 a ha
      · simp only [height_nil, height_node]; omega
    · obtain ⟨r', e, w, p, so, hh'⟩ := ihr h2
      obtain ⟨t', e', w', p', hb⟩ := balance_spec v h1 w (by omega) (by omega)
      refine ⟨t', by simp [e, e'], w', ?_, ?_, ?_⟩
      · rw [p']; simp only [toList]
        refine ((p.cons v).append_left _).trans ?_
        exact ((List.Perm.swap x v _).append_left _).trans List.perm_middle
      · rw [p']; simp only [toList, sorted_mid]
        rintro ⟨a1, a2, a3, a4⟩
        refine ⟨a1, so a2, a3, ?_⟩
        intro a ha
        rcases List.mem_cons.1 (p.mem_iff.1 ha) with rfl | ha
        · exact le_of_not_ge c
        · exact a4 a ha
      · simp only [height_nil, height_node]; omega

omit [LinearOrder F] in
theorem min_spec {t : Node F} (hne : t ≠ nil) : ∃ m tl, min t = .val m ∧ t.toList = m :: tl := by
  induction t with
  | nil => exact absurd rfl hne
  | node l v r hh s ihl _ =>
    cases l with
    | nil => exact ⟨v, r.toList, by simp [min], rfl⟩
    | node ll lv lr lh ls =>
      obtain ⟨m, tl, e, e2⟩ := ihl (by simp)
      exact ⟨m, tl ++ v :: r.toList, by rw [min]; exact e, by rw [toList, e2]; rfl⟩

omit [LinearOrder F] in
theorem removeMin_spec {t : Node F} (h : WF t) (hne : t ≠ nil) :
    ∃ t', removeMin t = .val t' ∧ WF t' ∧ t'.toList = t.toList.tail ∧
      (t'.height = t.height ∨ t'.height = t.height - 1) := by
  induction t with
  | nil => exact absurd rfl hne
  | node l v r hh s ihl _ =>
    obtain ⟨h1, h2, h3, h4, h5, h6⟩ := h
    cases l with
    | nil =>
      have := h2.height_ge
      refine ⟨r, by simp [removeMin], h2, rfl, ?_⟩
      simp only [height_nil, height_node] at *; omega
    | node ll lv lr lh ls =>
      obtain ⟨l', e, w, p, hh'⟩ := ihl h1 (by simp)
      obtain ⟨t', e', w', p', hb⟩ := balance_spec v w h2 (by omega) (by omega)
      refine ⟨t', by rw [removeMin]; simp [e, e'], w', ?_, ?_⟩
      · rw [p', p]; rw [toList.eq_def (node (node ll lv lr lh ls) v r hh s)]
        obtain ⟨m, tl, -, e2⟩ := min_spec (t := node ll lv lr lh ls) (by simp)
        simp [e2]
      · simp only [height_nil, height_node] at *; omega

theorem remove_spec (x : F) {t : Node F} (h : WF t) (hs : t.toList.Pairwise (· ≤ ·)) :
    ∃ t', remove t x = .val t' ∧ WF t' ∧ (t'.toList : Multiset F) = (t.toList : Multiset F).erase x ∧
      t'.toList.Pairwise (· ≤ ·) ∧
      (t'.height = t.height ∨ t'.height = t.height - 1) := by
  induction t with
  | nil => exact ⟨nil, rfl, trivial, by simp [toList], by simp [toList], by simp⟩
  | node l v r hh s ihl ihr =>
    obtain ⟨h1, h2, h3, h4, h5, h6⟩ := h
    obtain ⟨s1, s2, s3, s4⟩ := sorted_mid.1 (by simpa only [toList] using hs)
    simp only [remove, goLt_eq, decide_eq_true_eq]
    split_ifs with c1 c2
    · obtain ⟨l', e, w, p, so, hh'⟩ := ihl h1 s1
      obtain ⟨t', e', w', p', hb⟩ := balance_spec v w h2 (by omega) (by omega)
      refine ⟨t', by simp [e, e'], w', ?_, ?_, ?_⟩
      · rw [p']; simp only [toList]
        rw [← Multiset.coe_add, p, ← Multiset.coe_add]
        rw [Multiset.add_comm, Multiset.add_comm (l.toList : Multiset F)]
        rw [Multiset.erase_add_right_neg]
        simp only [Multiset.mem_coe, List.mem_cons, not_or]
        exact ⟨ne_of_lt c1, fun hx => absurd (s4 x hx) (not_le.2 c1)⟩
      · rw [p', sorted_mid]
        refine ⟨so, s2, ?_, s4⟩
        intro a ha
        have : a ∈ (l'.toList : Multiset F) := ha
        rw [p] at this
        exact s3 a (Multiset.mem_of_mem_erase this)
      · simp only [height_nil, height_node]; omega
    · obtain ⟨r', e, w, p, so, hh'⟩ := ihr h2 s2
      obtain ⟨t', e', w', p', hb⟩ := balance_spec v h1 w (by omega) (by omega)
      refine ⟨t', by simp [e, e'], w', ?_, ?_, ?_⟩
      · rw [p']; simp only [toList]
        rw [← Multiset.coe_add, ← Multiset.coe_add, ← Multiset.cons_coe, ← Multiset.cons_coe, p]
        rw [Multiset.erase_add_right_neg, Multiset.erase_cons_tail _ (ne_of_lt c2)]
        intro hx
        exact absurd (s3 x hx) (not_le.2 c2)
      · rw [p', sorted_mid]
        refine ⟨s1, so, s3, ?_⟩
        intro a ha
        have : a ∈ (r'.toList : Multiset F) := ha
        rw [p] at this
        exact s4 a (Multiset.mem_of_mem_erase this)
      · simp only [height_nil, height_node]; omega
    · have hxv : x = v := le_antisymm (not_lt.1 c2) (not_lt.1 c1)
      subst hxv
      have key : ((l.toList ++ x :: r.toList : List F) : Multiset F).erase x =
          ((l.toList ++ r.toList : List F) : Multiset F) := by
        rw [show ((l.toList ++ x :: r.toList : List F) : Multiset F) =
          x ::ₘ ((l.toList ++ r.toList : List F) : Multiset F) from
            Multiset.coe_eq_coe.2 List.perm_middle]
        exact Multiset.erase_cons_head _ _
      cases l with
      | nil =>
        have := h2.height_ge
        refine ⟨r, rfl, h2, ?_, s2, ?_⟩
        · simpa [toList] using key.symm
        · simp only [height_nil, height_node] at *; omega
      | node ll lv lr lh ls =>
        cases r with
        | nil =>
          have := h1.height_ge
          refine ⟨_, rfl, h1, ?_, s1, ?_⟩
          · simpa [toList] using key.symm
          · simp only [height_nil, height_node] at *; omega
        | node rl rv rr rh rs =>
          obtain ⟨m, tl, e, e2⟩ := min_spec (t := node rl rv rr rh rs) (by simp)
          obtain ⟨r', e3, w, p, hh'⟩ := removeMin_spec h2 (by simp)
          obtain ⟨t', e', w', p', hb⟩ := balance_spec m h1 w (by omega) (by omega)
          rw [e2, List.tail_cons] at p
          refine ⟨t', by simp [e, e3, e'], w', ?_, ?_, ?_⟩
          · rw [p', p, ← e2]; exact key.symm
          · rw [p', p, ← e2]
            rw [List.pairwise_append]
            exact ⟨s1, s2, fun a ha b hb => le_trans (s3 a ha) (s4 b hb)⟩
          · simp only [height_nil, height_node] at *; omega

omit [LinearOrder F] in
theorem select_spec {t : Node F} (h : WF t) (k : Int) :
    select t k = if 0 ≤ k then t.toList[k.toNat]? else none := by
  induction t generalizing k with
  | nil => simp [select, toList]
  | node l v r hh s ihl ihr =>
    obtain ⟨h1, h2, -⟩ := h
    have hz := h1.size_eq
    simp only [select, toList]
    split_ifs with c1 c2 c3 c3 c3
    · rw [ihl h1, if_pos c2, List.getElem?_append_left (by omega)]
    · rw [ihl h1, if_neg c2]
    · rw [ihr h2, if_pos (by omega), List.getElem?_append_right (by omega)]
      have : k.toNat - l.toList.length = (k - l.size - 1).toNat + 1 := by omega
      rw [this, List.getElem?_cons_succ]
    · omega
    · have : k.toNat = l.toList.length := by omega
      rw [this]; simp
    · omega

/-- `Rank` is at least the number of strictly smaller values, and exceeds it by less than the number of
occurrences of the argument. -/
theorem rank_spec {t : Node F} (h : WF t) (hs : t.toList.Pairwise (· ≤ ·)) (x : F) :
    (t.toList.countP (· < x) : Int) ≤ rank t x ∧
    rank t x ≤ t.toList.countP (· < x) + ((t.toList.count x - 1 : ℕ) : Int) := by
  induction t with
  | nil => simp [rank, toList]
  | node l v r hh s ihl ihr =>
    obtain ⟨h1, h2, -⟩ := h
    obtain ⟨s1, s2, s3, s4⟩ := sorted_mid.1 (by simpa only [toList] using hs)
    have hz := h1.size_eq
    have ihl := ihl h1 s1
    have ihr := ihr h2 s2
    simp only [rank, goLt_eq, decide_eq_true_eq, toList, List.countP_append, List.countP_cons,
      List.count_append, List.count_cons]
    rcases lt_trichotomy x v with c | c | c
    · have e1 := countP_lt_of_ge s4 c.le
      have e2 := count_of_gt s4 c
      simp only [c, c.not_gt, c.ne', if_true, e1, e2, beq_iff_eq, if_false]
      simpa using ihl
    · subst c
      have e1 := countP_lt_of_ge s4 le_rfl
      have e2 := countP_add_count s3
      simp [e1]; omega
    · have e1 := countP_lt_of_le s3 c
      have e2 := count_of_lt s3 c
      simp only [c, c.not_gt, c.ne, if_true, e1, e2, beq_iff_eq, if_false]
      push_cast; simp; omega

/-- A tree of height `h` has at least `Fib (h+3) - 1` nodes. -/
theorem WF.fib_le {t : Node F} (h : WF t) : Nat.fib (t.height + 3).toNat ≤ t.toList.length + 1 := by
  induction t with
  | nil => simp [height_nil, height_node, toList]
  | node l v r hh s ihl ihr =>
    obtain ⟨h1, h2, rfl, -, h5, h6⟩ := h
    have il := ihl h1; have ir := ihr h2
    have gl := h1.height_ge; have gr := h2.height_ge
    show Nat.fib (max l.height r.height + 1 + 3).toNat ≤ _
    simp only [toList, List.length_append, List.length_cons]
    have hm : ∃ a : ℕ, (max l.height r.height + 1 + 3).toNat = a + 2 ∧ Nat.fib a + Nat.fib (a+1) ≤
        Nat.fib (l.height + 3).toNat + Nat.fib (r.height + 3).toNat := by
      refine ⟨(max l.height r.height + 2).toNat, by omega, ?_⟩
      rcases le_total l.height r.height with c | c
      · rw [Nat.add_comm (Nat.fib (l.height + 3).toNat)]
        rw [Nat.add_comm (Nat.fib _) (Nat.fib (_ + 1))]
        refine Nat.add_le_add (Nat.fib_mono (by omega)) (Nat.fib_mono (by omega))
      · rw [Nat.add_comm (Nat.fib _) (Nat.fib (_ + 1))]
        refine Nat.add_le_add (Nat.fib_mono (by omega)) (Nat.fib_mono (by omega))
    obtain ⟨a, e, hle⟩ := hm
    rw [e, Nat.fib_add_two]; omega

/-- The real height of a tree, ignoring the stored `height` field. -/
def realHeight : Node F → Int
  | nil => -1
  | node l _ r _ _ => max (realHeight l) (realHeight r) + 1

/-- AVL balance at every node, in terms of real heights. -/
def Balanced : Node F → Prop
  | nil => True
  | node l _ r _ _ => Balanced l ∧ Balanced r ∧
      realHeight l ≤ realHeight r + 1 ∧ realHeight r ≤ realHeight l + 1

theorem WF.height_eq {t : Node F} (h : WF t) : t.height = t.realHeight := by
  induction t with
  | nil => rfl
  | node l v r hh s ihl ihr =>
    obtain ⟨h1, h2, rfl, -⟩ := h
    rw [realHeight, ← ihl h1, ← ihr h2]; rfl

theorem WF.balanced {t : Node F} (h : WF t) : t.Balanced := by
  induction t with
  | nil => trivial
  | node l v r hh s ihl ihr =>
    obtain ⟨h1, h2, rfl, -, h3, h4⟩ := h
    exact ⟨ihl h1, ihr h2, by rwa [← h1.height_eq, ← h2.height_eq], by rwa [← h1.height_eq, ← h2.height_eq]⟩

end Node

namespace Tree
open Spec

/-- One client call. -/
def step [GoOrd F] (t : Tree F) : OSOp F → Go (Tree F)
  | .add x => t.add x
  | .remove x => t.remove x
  | .clear => .val t.clear

/-- A history of client calls on a fresh tree. -/
def run [GoOrd F] (ops : List (OSOp F)) : Go (Tree F) := Go.runOps step empty ops

variable [LinearOrder F]

/-- The representation invariant. -/
structure Inv (S : Multiset F) (t : Tree F) : Prop where
  wf : t.root.WF
  sorted : t.root.toList.Pairwise (· ≤ ·)
  content : (t.root.toList : Multiset F) = S

theorem Inv.empty : Inv (0 : Multiset F) Tree.empty :=
  ⟨trivial, List.Pairwise.nil, rfl⟩

theorem Inv.add {S : Multiset F} {t : Tree F} (h : Inv S t) (x : F) :
    ∃ t', t.add x = .val t' ∧ Inv (x ::ₘ S) t' := by
  obtain ⟨r, e, w, p, so, -⟩ := Node.add_spec x h.wf
  refine ⟨⟨r⟩, by simp [Tree.add, e], w, so h.sorted, ?_⟩
  rw [← h.content, Multiset.cons_coe]; exact Multiset.coe_eq_coe.2 p

theorem Inv.remove {S : Multiset F} {t : Tree F} (h : Inv S t) (x : F) :
    ∃ t', t.remove x = .val t' ∧ Inv (S.erase x) t' := by
  obtain ⟨r, e, w, p, so, -⟩ := Node.remove_spec x h.wf h.sorted
  exact ⟨⟨r⟩, by simp [Tree.remove, e], w, so, by rw [p, h.content]⟩

theorem Inv.step {S : Multiset F} {t : Tree F} (h : Inv S t) (o : OSOp F) :
    ∃ t', t.step o = .val t' ∧ Inv (bagStep S o) t' := by
  cases o with
  | add x => exact h.add x
  | remove x => exact h.remove x
  | clear => exact ⟨Tree.empty, rfl, Inv.empty⟩

theorem run_inv (ops : List (OSOp F)) : ∃ t, run ops = .val t ∧ Inv (bag ops) t := by
  have := Go.runOps_inv (step := Tree.step (F := F)) (I := fun h t => Inv (bag h) t)
    (fun h s x hi => by
      obtain ⟨s', e, i⟩ := hi.step x
      exact ⟨s', e, by simpa [bag, List.foldl_append] using i⟩)
    Tree.empty [] Inv.empty ops
  unfold run; simpa using this

theorem run_of_val {ops : List (OSOp F)} {t : Tree F} (h : run ops = .val t) : Inv (bag ops) t := by
  obtain ⟨t', e, i⟩ := run_inv ops
  rw [h] at e; injection e with e; exact e ▸ i

theorem Inv.size {S : Multiset F} {t : Tree F} (h : Inv S t) : t.size = S.card := by
  rw [Tree.size, h.wf.size_eq, ← h.content, Multiset.coe_card]

theorem Inv.select {S : Multiset F} {t : Tree F} (h : Inv S t) (k : Int) : t.select k = kth S k := by
  rw [Tree.select, Node.select_spec h.wf, ← h.content, kth_coe h.sorted]

theorem Inv.rank {S : Multiset F} {t : Tree F} (h : Inv S t) (x : F) :
    (rankOf S x : Int) ≤ t.rank x ∧ t.rank x ≤ rankOf S x + ((S.count x - 1 : ℕ) : Int) := by
  have := Node.rank_spec h.wf h.sorted x
  rw [← h.content, rankOf_coe, Multiset.coe_count]; exact this

end Tree
end Verif.Avl
