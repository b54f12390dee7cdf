import Verif.Model.Rb
import Verif.Spec.Bag
import Verif.Proofs.ListLemmas
import Mathlib.Algebra.Order.Group.Int

/-! Lemmas for C06–C09. -/

set_option linter.unusedSectionVars false
set_option linter.unusedSimpArgs false
set_option linter.unreachableTactic false
set_option linter.unusedTactic false
set_option linter.unnecessarySimpa false

namespace Verif.Rb
open Verif

variable {F : Type}

namespace Node

/-- In-order traversal. -/
def toList : Node F → List F
  | nil => []
  | node l v r _ _ => toList l ++ v :: toList r

theorem size_nil : (nil : Node F).size = 0 := rfl
theorem size_node (l : Node F) (v : F) (r : Node F) (c : Bool) (s : Int) : (node l v r c s).size = s := rfl
theorem color_nil : (nil : Node F).color = false := rfl
theorem color_node (l : Node F) (v : F) (r : Node F) (c : Bool) (s : Int) : (node l v r c s).color = c := rfl

/-- Left-leaning red-black invariant with black height `b`: stored sizes right, right children black, a red node has a
black left child, equal black heights. -/
def Inv : Node F → Nat → Prop
  | nil, b => b = 0
  | node l _ r c s, b =>
    s = l.size + r.size + 1 ∧ r.color = false ∧ (c = true → l.color = false) ∧
      match c with
      | true => Inv l b ∧ Inv r b
      | false => ∃ b', b = b' + 1 ∧ Inv l b' ∧ Inv r b'

/-- Change the colour of the root. -/
def toggle : Node F → Node F
  | nil => nil
  | node l v r c s => node l v r (!c) s

theorem inv_nil {b : Nat} : Inv (nil : Node F) b ↔ b = 0 := Iff.rfl

theorem inv_red {l r : Node F} {v : F} {s : Int} {b : Nat} :
    Inv (node l v r true s) b ↔ s = l.size + r.size + 1 ∧ r.color = false ∧ l.color = false ∧
      Inv l b ∧ Inv r b := by
  simp [Inv]

theorem inv_black {l r : Node F} {v : F} {s : Int} {b : Nat} :
    Inv (node l v r false s) b ↔ s = l.size + r.size + 1 ∧ r.color = false ∧
      ∃ b', b = b' + 1 ∧ Inv l b' ∧ Inv r b' := by
  simp [Inv]

theorem Inv.size_eq {t : Node F} {b : Nat} (h : Inv t b) : t.size = t.toList.length := by
  induction t generalizing b with
  | nil => simp [size, toList]
  | node l v r c s ihl ihr =>
    have : ∃ b', s = l.size + r.size + 1 ∧ Inv l b' ∧ Inv r b' := by
      cases c
      · obtain ⟨h1, -, b', -, h2, h3⟩ := inv_black.1 h; exact ⟨b', h1, h2, h3⟩
      · obtain ⟨h1, -, -, h2, h3⟩ := inv_red.1 h; exact ⟨b, h1, h2, h3⟩
    obtain ⟨b', h1, h2, h3⟩ := this
    simp only [size_node, toList, List.length_append, List.length_cons, h1, ihl h2, ihr h3]
    push_cast; omega

theorem nodes_eq (t : Node F) : t.nodes = t.toList.length := by
  induction t with
  | nil => rfl
  | node l v r c s ihl ihr => simp [nodes, toList, ihl, ihr]; omega

theorem red_cases {t : Node F} (h : t.color = true) : ∃ l v r s, t = node l v r true s := by
  cases t with
  | nil => simp [color] at h
  | node l v r c s => simp only [color_node] at h; subst h; exact ⟨l, v, r, s, rfl⟩

theorem Inv.redRed {t : Node F} {b : Nat} (h : Inv t b) : t.redRed = false := by
  cases t with
  | nil => rfl
  | node l v r c s => cases c
                      · rfl
                      · exact (inv_red.1 h).2.2.1

/-- A node without red-red on the left and not both children red is only resized. -/
theorem balanceTail_keep {l r : Node F} {v : F} {c : Bool} {s : Int} (h1 : l.redRed = false)
    (h2 : ¬ (l.color = true ∧ r.color = true)) :
    balanceTail (node l v r c s) = .val (node l v r c (l.size + r.size + 1)) := by
  simp only [balanceTail, h1]
  cases hl : l.color <;> cases hr : r.color <;> simp_all [resize]

theorem balanceTail_flip {ll lr rl rr : Node F} {v lv rv : F} {c : Bool} {s ls rs : Int} (h1 : ll.color = false) :
    balanceTail (node (node ll lv lr true ls) v (node rl rv rr true rs) c s) =
      .val (node (node ll lv lr false ls) v (node rl rv rr false rs) (!c) (ls + rs + 1)) := by
  simp [balanceTail, Node.redRed, h1, color_node, flipColors, resize, size_node]

theorem balanceTail_rot {lll llr lr r : Node F} {v lv llv : F} {c : Bool} {s ls lls : Int} :
    balanceTail (node (node (node lll llv llr true lls) lv lr true ls) v r c s) =
      .val (node (node lll llv llr false lls) lv (node lr v r false (lr.size + r.size + 1)) (!c)
        (lls + (lr.size + r.size + 1) + 1)) := by
  simp [balanceTail, Node.redRed, color_node, flipColors, resize, size_node, rotateRight]

theorem addBalance_keep {l r : Node F} {v : F} {c : Bool} {s : Int} (h : l.color = true ∨ r.color = false) :
    addBalance (node l v r c s) = balanceTail (node l v r c s) := by
  rcases h with h | h <;> simp [addBalance, h]

theorem addBalance_rot {l rl rr : Node F} {v rv : F} {c : Bool} {s rs : Int} (h : l.color = false) :
    addBalance (node l v (node rl rv rr true rs) c s) =
      balanceTail (node (node l v rl true (l.size + rl.size + 1)) rv rr c s) := by
  simp [addBalance, h, color_node, rotateLeft]

theorem removeBalance_keep {l r : Node F} {v : F} {c : Bool} {s : Int} (h : r.color = false) :
    removeBalance (node l v r c s) = balanceTail (node l v r c s) := by
  simp [removeBalance, h]

theorem removeBalance_rot {l rl rr : Node F} {v rv : F} {c : Bool} {s rs : Int} :
    removeBalance (node l v (node rl rv rr true rs) c s) =
      balanceTail (node (node l v rl true (l.size + rl.size + 1)) rv rr c s) := by
  simp [removeBalance, color_node, rotateLeft]

/-- `addBalance` when both subtrees satisfy the invariant. -/
theorem addBalance_ok {l r : Node F} {v : F} {c : Bool} {s : Int} {b : Nat}
    (hl : Inv l b) (hr : Inv r b) (h : c = true → ¬ (l.color = true ∧ r.color = true)) :
    ∃ t, addBalance (node l v r c s) = .val t ∧ t.toList = l.toList ++ v :: r.toList ∧
      (c = false → Inv t (b + 1)) ∧ (c = true → t.color = true ∧ (Inv t b ∨ Inv t.toggle (b + 1))) := by
  cases hrc : r.color
  · refine ⟨_, (addBalance_keep (.inr hrc)).trans (balanceTail_keep hl.redRed (by simp [hrc])), rfl, ?_, ?_⟩
    · rintro rfl; exact inv_black.2 ⟨rfl, hrc, b, rfl, hl, hr⟩
    · rintro rfl
      refine ⟨rfl, ?_⟩
      cases hlc : l.color
      · exact .inl (inv_red.2 ⟨rfl, hrc, hlc, hl, hr⟩)
      · exact .inr (inv_black.2 ⟨rfl, hrc, b, rfl, hl, hr⟩)
  · obtain ⟨rl, rv, rr, rs, rfl⟩ := red_cases hrc
    obtain ⟨rfl, hrr, hrl, irl, irr⟩ := inv_red.1 hr
    cases hlc : l.color
    · refine ⟨_, (addBalance_rot hlc).trans (balanceTail_keep (by simp [Node.redRed, hlc]) (by simp [hrr])),
        by simp [toList], ?_, ?_⟩
      · rintro rfl
        exact inv_black.2 ⟨by simp [size_node], hrr, b, rfl, inv_red.2 ⟨rfl, hrl, hlc, hl, irl⟩, irr⟩
      · rintro rfl
        exact ⟨rfl, .inr (inv_black.2 ⟨by simp [size_node], hrr, b, rfl, inv_red.2 ⟨rfl, hrl, hlc, hl, irl⟩, irr⟩)⟩
    · obtain ⟨ll, lv, lr, ls, rfl⟩ := red_cases hlc
      obtain ⟨rfl, hlr, hll, ill, ilr⟩ := inv_red.1 hl
      have hc : c = false := by
        cases c
        · rfl
        · exact absurd ⟨hlc, hrc⟩ (h rfl)
      subst hc
      refine ⟨_, (addBalance_keep (.inl hlc)).trans (balanceTail_flip hll), by simp [toList], ?_, ?_⟩
      · intro _
        refine inv_red.2 ⟨by simp [size_node], rfl, rfl, ?_, ?_⟩
        · exact inv_black.2 ⟨rfl, hlr, b, rfl, ill, ilr⟩
        · exact inv_black.2 ⟨rfl, hrr, b, rfl, irl, irr⟩
      · intro h; cases h

/-- `addBalance` at a black node whose left child became a red node with a red left child. -/
theorem addBalance_weak {l r : Node F} {v : F} {s : Int} {b : Nat}
    (hl : Inv l.toggle (b + 1)) (hlc : l.color = true) (hll : ¬ Inv l b) (hr : Inv r b) (hrc : r.color = false) :
    ∃ t, addBalance (node l v r false s) = .val t ∧ t.toList = l.toList ++ v :: r.toList ∧ Inv t (b + 1) := by
  obtain ⟨ll, lv, lr, ls, rfl⟩ := red_cases hlc
  obtain ⟨rfl, hlr, b', e, ill, ilr⟩ := inv_black.1 hl
  obtain rfl : b = b' := by omega
  cases hllc : ll.color
  · exact absurd (inv_red.2 ⟨rfl, hlr, hllc, ill, ilr⟩) hll
  · obtain ⟨lll, llv, llr, lls, rfl⟩ := red_cases hllc
    obtain ⟨rfl, hllr, hlll, illl, illr⟩ := inv_red.1 ill
    refine ⟨_, (addBalance_keep (.inl hlc)).trans balanceTail_rot, by simp [toList], ?_⟩
    · refine inv_red.2 ⟨by simp [size_node], rfl, rfl, ?_, ?_⟩
      · exact inv_black.2 ⟨rfl, hllr, b, rfl, illl, illr⟩
      · exact inv_black.2 ⟨rfl, hrc, b, rfl, ilr, hr⟩

theorem Inv.node_cases {l r : Node F} {v : F} {c : Bool} {s : Int} {b : Nat} (h : Inv (node l v r c s) b) :
    ∃ b', s = l.size + r.size + 1 ∧ r.color = false ∧ (c = true → l.color = false) ∧ Inv l b' ∧ Inv r b' ∧
      b = b' + (if c then 0 else 1) := by
  cases c
  · obtain ⟨h1, h2, b', h3, h4, h5⟩ := inv_black.1 h; exact ⟨b', h1, h2, by simp, h4, h5, by simp [h3]⟩
  · obtain ⟨h1, h2, h3, h4, h5⟩ := inv_red.1 h; exact ⟨b, h1, h2, fun _ => h3, h4, h5, by simp⟩

variable [LinearOrder F]

theorem add_spec (x : F) {t : Node F} {b : Nat} (h : Inv t b) :
    ∃ t', add t x = .val t' ∧ t'.toList.Perm (x :: t.toList) ∧
      (t.toList.Pairwise (· ≤ ·) → t'.toList.Pairwise (· ≤ ·)) ∧
      (t.color = false → Inv t' b) ∧
      (t.color = true → t'.color = true ∧ (Inv t' b ∨ Inv t'.toggle (b + 1))) := by
  induction t generalizing b with
  | nil =>
    refine ⟨_, rfl, by simp [newNode, toList], by simp [newNode, toList], fun _ => ?_, by simp [color]⟩
    rw [inv_nil] at h; subst h
    exact inv_red.2 ⟨rfl, rfl, rfl, rfl, rfl⟩
  | node l v r c s ihl ihr =>
    obtain ⟨b', h1, h2, h3, il, ir, hb⟩ := h.node_cases
    simp only [add, goLe_eq, decide_eq_true_eq, color_node]
    split_ifs with hc
    · obtain ⟨l', e, p, so, k1, k2⟩ := ihl il
      have hs : (node l v r c s).toList.Pairwise (· ≤ ·) → (l'.toList ++ v :: r.toList).Pairwise (· ≤ ·) := by
        simp only [toList, sorted_mid]
        rintro ⟨a1, a2, a3, a4⟩
        refine ⟨so a1, a2, ?_, a4⟩
        intro a ha
        rcases List.mem_cons.1 (p.mem_iff.1 ha) with rfl | ha
        · exact hc
        · exact a3 a ha
      have hp : (l'.toList ++ v :: r.toList).Perm (x :: (node l v r c s).toList) := p.append_right _
      by_cases hw : Inv l' b'
      · obtain ⟨t, e', q, j1, j2⟩ := addBalance_ok (v := v) (c := c) (s := s) hw ir (by simp [h2])
        refine ⟨t, by simp [e, e'], by rw [q]; exact hp, fun hh => by rw [q]; exact hs hh, ?_, ?_⟩
        · rintro rfl; simpa [hb] using j1 rfl
        · rintro rfl; simpa [hb] using j2 rfl
      · cases hlc : l.color
        · exact absurd (k1 hlc) hw
        · have hcf : c = false := by
            cases c
            · rfl
            · have := h3 rfl; rw [hlc] at this; cases this
          subst hcf
          obtain ⟨kc, k⟩ := k2 hlc
          obtain ⟨t, e', q, j⟩ := addBalance_weak (v := v) (s := s) (k.resolve_left hw) kc hw ir h2
          refine ⟨t, by simp [e, e'], by rw [q]; exact hp, fun hh => by rw [q]; exact hs hh, ?_, by simp⟩
          intro _; simpa [hb] using j
    · obtain ⟨r', e, p, so, k1, k2⟩ := ihr ir
      obtain ⟨t, e', q, j1, j2⟩ := addBalance_ok (v := v) (c := c) (s := s) il (k1 h2)
        (fun hc => by simp [h3 hc])
      refine ⟨t, by simp [e, e'], ?_, ?_, ?_, ?_⟩
      · rw [q]; simp only [toList]
        refine ((p.cons v).append_left _).trans ?_
        exact ((List.Perm.swap x v _).append_left _).trans List.perm_middle
      · rw [q]; simp only [toList, sorted_mid]
        rintro ⟨a1, a2, a3, a4⟩
        refine ⟨a1, so a2, a3, ?_⟩
        intro a ha
        rcases List.mem_cons.1 (p.mem_iff.1 ha) with rfl | ha
        · exact le_of_not_ge hc
        · exact a4 a ha
      · rintro rfl; simpa [hb] using j1 rfl
      · rintro rfl; simpa [hb] using j2 rfl

omit [LinearOrder F] in
theorem removeBalance_spec {l r : Node F} {v : F} {c : Bool} {s : Int} {b : Nat}
    (hl : Inv l b) (hr : Inv r b) (h : c = true → l.color = false ∧ r.color = false) :
    ∃ t, removeBalance (node l v r c s) = .val t ∧ t.toList = l.toList ++ v :: r.toList ∧
      Inv t (b + if c then 0 else 1) ∧ (c = false → l.color = false ∨ r.color = false → t.color = false) := by
  cases hrc : r.color
  · refine ⟨_, (removeBalance_keep hrc).trans (balanceTail_keep hl.redRed (by simp [hrc])), rfl, ?_, ?_⟩
    · cases c
      · exact inv_black.2 ⟨rfl, hrc, b, rfl, hl, hr⟩
      · exact inv_red.2 ⟨rfl, hrc, (h rfl).1, hl, hr⟩
    · intro hc _; exact hc
  · have hc : c = false := by
      cases c
      · rfl
      · rw [(h rfl).2] at hrc; cases hrc
    subst hc
    obtain ⟨rl, rv, rr, rs, rfl⟩ := red_cases hrc
    obtain ⟨rfl, hrr, hrl, irl, irr⟩ := inv_red.1 hr
    cases hlc : l.color
    · refine ⟨_, removeBalance_rot.trans (balanceTail_keep (by simp [Node.redRed, hlc]) (by simp [hrr])),
        by simp [toList], ?_, fun _ _ => rfl⟩
      exact inv_black.2 ⟨by simp [size_node], hrr, b, rfl, inv_red.2 ⟨rfl, hrl, hlc, hl, irl⟩, irr⟩
    · obtain ⟨ll, lv, lr, ls, rfl⟩ := red_cases hlc
      obtain ⟨rfl, hlr, hll, ill, ilr⟩ := inv_red.1 hl
      refine ⟨_, removeBalance_rot.trans balanceTail_rot, by simp [toList], ?_, by simp⟩
      refine inv_red.2 ⟨by simp [size_node], rfl, rfl, ?_, ?_⟩
      · exact inv_black.2 ⟨rfl, hlr, b, rfl, ill, ilr⟩
      · exact inv_black.2 ⟨rfl, hrr, b, rfl, irl, irr⟩

/-- The entry condition of the deletions: the node or its left child is red. -/
def Ready : Node F → Prop
  | nil => False
  | node l _ _ c _ => c = true ∨ l.color = true

omit [LinearOrder F] in
theorem black_zero {t : Node F} (h : Inv t 0) (hc : t.color = false) : t = nil := by
  cases t with
  | nil => rfl
  | node l v r c s =>
    simp only [color_node] at hc; subst hc
    obtain ⟨-, -, b', h, -⟩ := inv_black.1 h; omega

omit [LinearOrder F] in
theorem black_succ {t : Node F} {b : Nat} (h : Inv t (b + 1)) (hc : t.color = false) :
    ∃ l v r s, t = node l v r false s := by
  cases t with
  | nil => exact absurd h (by simp [inv_nil])
  | node l v r c s =>
    simp only [color_node] at hc; subst hc; exact ⟨l, v, r, s, rfl⟩

omit [LinearOrder F] in
theorem moveRedLeft_flip {ll lr rl rr : Node F} {v lv rv : F} {s ls rs : Int} (h : rl.color = false) :
    moveRedLeft (node (node ll lv lr false ls) v (node rl rv rr false rs) true s) =
      .val (node (node ll lv lr true ls) v (node rl rv rr true rs) false s) := by
  simp [moveRedLeft, flipColors, leftG, h]

omit [LinearOrder F] in
theorem moveRedLeft_rot {ll lr a aa rr : Node F} {v lv rv av : F} {s ls rs as : Int} :
    moveRedLeft (node (node ll lv lr false ls) v (node (node a av aa true as) rv rr false rs) true s) =
      .val (node (node (node ll lv lr true ls) v a false (ls + a.size + 1)) av
        (node aa rv rr false (aa.size + rr.size + 1)) true s) := by
  simp [moveRedLeft, flipColors, leftG, color_node, rotateRight, rotateLeft, size_node]

omit [LinearOrder F] in
theorem moveRedRight_flip {ll lr rl rr : Node F} {v lv rv : F} {s ls rs : Int} (h : ll.color = false) :
    moveRedRight (node (node ll lv lr false ls) v (node rl rv rr false rs) true s) =
      .val (node (node ll lv lr true ls) v (node rl rv rr true rs) false s) := by
  simp [moveRedRight, flipColors, leftG, h]

omit [LinearOrder F] in
theorem moveRedRight_rot {a aa lr rl rr : Node F} {v lv rv av : F} {s ls rs as : Int} :
    moveRedRight (node (node (node a av aa true as) lv lr false ls) v (node rl rv rr false rs) true s) =
      .val (node (node a av aa false as) lv
        (node lr v (node rl rv rr true rs) false (lr.size + rs + 1)) true s) := by
  simp [moveRedRight, flipColors, leftG, color_node, rotateRight, rotateLeft, size_node]

omit [LinearOrder F] in
/-- Before descending to the left: after the optional `moveRedLeft` the left child is ready. -/
theorem prepLeft {l r : Node F} {v : F} {c : Bool} {s : Int} {b : Nat} (h : Inv (node l v r c s) b)
    (hr : Ready (node l v r c s)) (hne : l ≠ nil) :
    ∃ bb, l.blackBlack = .val bb ∧ ∃ l1 v1 r1 c1 s1 b1,
      (if bb then (node l v r c s).moveRedLeft else .val (node l v r c s)) = .val (node l1 v1 r1 c1 s1) ∧
      Inv l1 b1 ∧ Ready l1 ∧ Inv r1 b1 ∧ (c1 = true → l1.color = false ∧ r1.color = false) ∧
      b = b1 + (if c1 then 0 else 1) ∧ (c = false → c1 = false ∧ r1.color = false) ∧
      l1.toList ++ v1 :: r1.toList = l.toList ++ v :: r.toList ∧ ∃ tl, l1.toList = l.toList ++ tl := by
  obtain ⟨b', hs, hrc, hcl, il, ir, hb⟩ := h.node_cases
  cases l with
  | nil => exact absurd rfl hne
  | node ll lv lr lc ls =>
    cases lc
    · -- left child black: the node is red
      have hc : c = true := by simpa [Ready, color_node] using hr
      subst hc
      cases hll : ll.color
      · refine ⟨true, by simp [blackBlack, color_node, leftG, hll], ?_⟩
        obtain ⟨rfl, hlr, b'', rfl, ill, ilr⟩ := inv_black.1 il
        obtain ⟨rl, rv, rr, rs, rfl⟩ := black_succ ir hrc
        obtain ⟨rfl, hrr, b3, hb3, irl, irr⟩ := inv_black.1 ir
        obtain rfl : b'' = b3 := by omega
        cases hrl : rl.color
        · refine ⟨_, _, _, _, _, b'', (if_pos rfl).trans (moveRedLeft_flip hrl), ?_, ?_, ?_, by simp, by simpa using hb, by simp, by simp [toList],
            [], by simp [toList]⟩
          · exact inv_red.2 ⟨rfl, hlr, hll, ill, ilr⟩
          · exact .inl rfl
          · exact inv_red.2 ⟨rfl, hrr, hrl, irl, irr⟩
        · obtain ⟨a, av, aa, as, rfl⟩ := red_cases hrl
          obtain ⟨rfl, haa, ha, ia, iaa⟩ := inv_red.1 irl
          refine ⟨_, _, _, _, _, b''+1, (if_pos rfl).trans moveRedLeft_rot, ?_, ?_, ?_, ?_,
              by simpa using hb, by simp, by simp [toList],
            ⟨v :: a.toList, by simp [toList]⟩⟩
          · exact inv_black.2 ⟨rfl, ha, b'', rfl, inv_red.2 ⟨rfl, hlr, hll, ill, ilr⟩, ia⟩
          · exact .inr rfl
          · exact inv_black.2 ⟨rfl, hrr, b'', rfl, iaa, irr⟩
          · intro _; exact ⟨rfl, rfl⟩
      · refine ⟨false, by simp [blackBlack, color_node, leftG, hll], _, _, _, _, _, b', rfl,
          il, .inr hll, ir, fun _ => ⟨rfl, hrc⟩, hb, by simp, by simp, [], by simp⟩
    · have hc : c = false := by
        cases c
        · rfl
        · have := hcl rfl; simp [color_node] at this
      subst hc
      exact ⟨false, by simp [blackBlack, color_node], _, _, _, _, _, b', rfl,
          il, .inl rfl, ir, by simp, hb, fun _ => ⟨rfl, hrc⟩, by simp, [], by simp⟩

omit [LinearOrder F] in
theorem min_spec {t : Node F} (hne : t ≠ nil) : ∃ m tl, min t = .val m ∧ t.toList = m :: tl := by
  induction t with
  | nil => exact absurd rfl hne
  | node l v r c s ihl _ =>
    cases l with
    | nil => exact ⟨v, r.toList, by simp [min], rfl⟩
    | node ll lv lr lh ls =>
      obtain ⟨m, tl, e, e2⟩ := ihl (by simp)
      exact ⟨m, tl ++ v :: r.toList, by rw [min]; exact e, by rw [toList, e2]; rfl⟩

omit [LinearOrder F] in
theorem removeMin_spec (fuel : Nat) {t : Node F} {b : Nat} (h : Inv t b) (hr : Ready t)
    (hf : t.toList.length < fuel) :
    ∃ t', removeMin fuel t = .val t' ∧ Inv t' b ∧ (t.color = false → t'.color = false) ∧
      t'.toList = t.toList.tail := by
  induction fuel generalizing t b with
  | zero => omega
  | succ f ih =>
    cases t with
    | nil => exact absurd hr (by simp [Ready])
    | node l v r c s =>
      by_cases hl : l = nil
      · subst hl
        have hc : c = true := by simpa [Ready, color_nil] using hr
        subst hc
        obtain ⟨-, h2, -, h3, h4⟩ := inv_red.1 h
        rw [inv_nil] at h3; subst h3
        obtain rfl := black_zero h4 h2
        exact ⟨nil, by simp [removeMin], rfl, fun _ => rfl, by simp [toList]⟩
      · obtain ⟨bb, e1, l1, v1, r1, c1, s1, b1, e2, il, rl, ir, hc, hb, hcc, ht, tl, htl⟩ := prepLeft h hr hl
        have hlen := congrArg List.length ht
        simp only [toList, List.length_append, List.length_cons] at hf hlen
        obtain ⟨l', e3, il', hl', tl'⟩ := ih il rl (by omega)
        obtain ⟨t', e4, q, it, hcol⟩ := removeBalance_spec (v := v1) (c := c1) (s := s1) il' ir
          (fun h => ⟨hl' (hc h).1, (hc h).2⟩)
        refine ⟨t', ?_, by rw [hb]; exact it, ?_, ?_⟩
        · cases l with
          | nil => exact absurd rfl hl
          | node ll lv lr lc ls =>
            rw [removeMin]; simp only [e1, Go.val_bind]
            rw [e2]; simp [e3, e4]
        · intro hcf
          obtain ⟨k1, k2⟩ := hcc hcf
          exact hcol k1 (.inr k2)
        · rw [q, tl', toList, ← ht]
          have : l1.toList ≠ [] := by
            cases l1 with
            | nil => exact absurd rl (by simp [Ready])
            | node => simp [toList]
          cases hh : l1.toList with
          | nil => exact absurd hh this
          | cons => simp

theorem contains_iff {t : Node F} (hs : t.toList.Pairwise (· ≤ ·)) (x : F) : t.contains x = true ↔ x ∈ t.toList := by
  induction t with
  | nil => simp [contains, toList]
  | node l v r c s ihl ihr =>
    obtain ⟨s1, s2, s3, s4⟩ := sorted_mid.1 (by simpa only [toList] using hs)
    simp only [contains, toList, goEq_eq, goLt_eq, decide_eq_true_eq, List.mem_append, List.mem_cons]
    split_ifs with c1 c2
    · simp [c1]
    · rw [ihl s1]
      constructor
      · exact .inl
      · rintro (h | h | h)
        · exact h
        · exact absurd h c1
        · exact absurd (s4 x h) (not_le.2 c2)
    · rw [ihr s2]
      constructor
      · exact fun h => .inr (.inr h)
      · rintro (h | h | h)
        · exact absurd (lt_of_le_of_ne (not_lt.1 c2) (Ne.symm c1)) (not_lt.2 (s3 x h))
        · exact absurd h c1
        · exact h

/-- Entry condition of `remove` for the value `x`: ready, or a black node with black left and red right child that will
be descended to the right (the shape `moveRedRight` hands down). -/
def Pre (x : F) : Node F → Nat → Prop
  | nil, _ => False
  | node l v r c s, b => (Inv (node l v r c s) b ∧ Ready (node l v r c s)) ∨
      (c = false ∧ l.color = false ∧ r.color = true ∧ v ≤ x ∧ ∃ b', b = b' + 1 ∧ Inv l b' ∧ Inv r b')

/-- What `remove` guarantees. -/
def Post (x : F) (t : Node F) (b : Nat) (res : Go (Node F)) : Prop :=
  ∃ t', res = .val t' ∧ Inv t' b ∧ (t.color = false → t'.color = false) ∧ t'.toList = t.toList.erase x

theorem remove_right_tail {f : Nat} {x : F} {l1 r1 : Node F} {v1 : F} {c1 : Bool} {s1 : Int} {b1 : Nat}
    (ih : x ≠ v1 → Post x r1 b1 (remove f r1 x)) (il : Inv l1 b1) (ir : x = v1 → Inv r1 b1 ∧ Ready r1)
    (hc : c1 = true → l1.color = false ∧ r1.color = false) (hv : v1 ≤ x)
    (hs : (l1.toList ++ v1 :: r1.toList).Pairwise (· ≤ ·))
    (hcount : (l1.toList ++ v1 :: r1.toList).count x ≤ 1) (hf : r1.toList.length < f) :
    ∃ t', (if x =ᵇ v1 then do
              let m ← r1.min
              let r' ← removeMin f r1
              removeBalance (node l1 m r' c1 s1)
            else do
              let r' ← remove f r1 x
              removeBalance (node l1 v1 r' c1 s1)) = .val t' ∧ Inv t' (b1 + if c1 then 0 else 1) ∧
      (c1 = false → l1.color = false → t'.color = false) ∧
      t'.toList = (l1.toList ++ v1 :: r1.toList).erase x := by
  obtain ⟨s1', s2, s3, s4⟩ := sorted_mid.1 hs
  simp only [goEq_eq, decide_eq_true_eq]
  by_cases hx : x = v1
  · rw [if_pos hx]
    subst hx
    obtain ⟨ir, rr⟩ := ir rfl
    have hne : r1 ≠ nil := by rintro rfl; exact rr
    obtain ⟨m, tl, e1, e2⟩ := min_spec hne
    obtain ⟨r', e3, ir', hr', tr⟩ := removeMin_spec f ir rr hf
    obtain ⟨t', e4, q, it, hcol⟩ := removeBalance_spec (v := m) (c := c1) (s := s1) il ir'
      (fun h => ⟨(hc h).1, hr' (hc h).2⟩)
    refine ⟨t', by simp [e1, e3, e4], it, fun h1 h2 => hcol h1 (.inl h2), ?_⟩
    have hnot : x ∉ l1.toList := by
      intro hm
      have := List.one_le_count_iff.2 hm
      rw [List.count_append, List.count_cons_self] at hcount; omega
    rw [List.erase_append_right _ hnot, List.erase_cons_head, q, tr, e2]; simp
  · rw [if_neg hx]
    obtain ⟨r', e3, ir', hr', tr⟩ := ih hx
    obtain ⟨t', e4, q, it, hcol⟩ := removeBalance_spec (v := v1) (c := c1) (s := s1) il ir'
      (fun h => ⟨(hc h).1, hr' (hc h).2⟩)
    refine ⟨t', by simp [e3, e4], it, fun h1 h2 => hcol h1 (.inl h2), ?_⟩
    have hlt : v1 < x := lt_of_le_of_ne hv (Ne.symm hx)
    have hnot : x ∉ l1.toList := fun hm => absurd (s3 x hm) (not_le.2 hlt)
    rw [List.erase_append_right _ hnot, List.erase_cons_tail (by simpa using Ne.symm hx), q, tr]

/-- Before descending to the right: the rotation and the optional `moveRedRight`. -/
theorem prepRight {x : F} {l r : Node F} {v : F} {c : Bool} {s : Int} {b : Nat} (hp : Pre x (node l v r c s) b)
    (hs : (node l v r c s).toList.Pairwise (· ≤ ·)) (hm : x ∈ (node l v r c s).toList)
    (hcount : (node l v r c s).toList.count x ≤ 1) (hvx : v ≤ x) :
    (l = nil ∧ r = nil ∧ x = v ∧ c = true) ∨
    ∃ l0 v0 r0 c0 s0, (if l.color then (node l v r c s).rotateRight else .val (node l v r c s)) =
        .val (node l0 v0 r0 c0 s0) ∧ r0 ≠ nil ∧
    ∃ bb, r0.blackBlack = .val bb ∧ ∃ l1 v1 r1 c1 s1 b1,
      (if bb then (node l0 v0 r0 c0 s0).moveRedRight else .val (node l0 v0 r0 c0 s0)) = .val (node l1 v1 r1 c1 s1) ∧
      Inv l1 b1 ∧ (x = v1 → Inv r1 b1 ∧ Ready r1) ∧ (x ≠ v1 → Pre x r1 b1) ∧
      (c1 = true → l1.color = false ∧ r1.color = false) ∧ v1 ≤ x ∧ b = b1 + (if c1 then 0 else 1) ∧
      l1.toList ++ v1 :: r1.toList = l.toList ++ v :: r.toList ∧ (c = false → c1 = false ∧ l1.color = false) := by
  obtain ⟨s1, s2, s3, s4⟩ := sorted_mid.1 (by simpa only [toList] using hs)
  rcases hp with ⟨h, hr⟩ | ⟨rfl, hlc, hrc, -, b', rfl, il, ir⟩
  · obtain ⟨b', hsz, hrc, hcl, il, ir, hb⟩ := h.node_cases
    cases hlc : l.color
    · have hc : c = true := by simpa [Ready, hlc] using hr
      subst hc
      simp only [if_true, add_zero] at hb; subst hb
      cases b with
      | zero =>
        obtain rfl := black_zero il hlc
        obtain rfl := black_zero ir hrc
        left; simpa [toList] using hm
      | succ b =>
        right
        obtain ⟨ll, lv, lr, ls, rfl⟩ := black_succ il hlc
        obtain ⟨rl, rv, rr, rs, rfl⟩ := black_succ ir hrc
        obtain ⟨rfl, hlr, bl, hbl, ill, ilr⟩ := inv_black.1 il
        obtain ⟨rfl, hrr, br, hbr, irl, irr⟩ := inv_black.1 ir
        obtain rfl : b = bl := by omega
        obtain rfl : b = br := by omega
        refine ⟨_, _, _, _, _, rfl, by simp, ?_⟩
        cases hrl : rl.color
        · refine ⟨true, by simp [blackBlack, color_node, leftG, hrl], ?_⟩
          have irr' : Inv (node rl rv rr true (rl.size + rr.size + 1)) b := inv_red.2 ⟨rfl, hrr, hrl, irl, irr⟩
          cases hll : ll.color
          · refine ⟨_, _, _, _, _, b, (if_pos rfl).trans (moveRedRight_flip hll), ?_, fun _ => ⟨irr', .inl rfl⟩,
              fun _ => .inl ⟨irr', .inl rfl⟩, by simp, hvx, by simp, by simp [toList], by simp⟩
            exact inv_red.2 ⟨rfl, hlr, hll, ill, ilr⟩
          · obtain ⟨lll, llv, llr, lls, rfl⟩ := red_cases hll
            obtain ⟨rfl, hllr, hlll, illl, illr⟩ := inv_red.1 ill
            have hlvv : lv ≤ v := s3 lv (by simp [toList])
            have hne : x ≠ lv := by
              rintro rfl
              obtain rfl : x = v := le_antisymm hlvv hvx
              simp [toList, List.count_append, List.count_cons] at hcount
              omega
            refine ⟨_, _, _, _, _, b + 1, (if_pos rfl).trans moveRedRight_rot, ?_,
              fun h => absurd h hne,
              fun _ => (Or.inr ⟨rfl, hlr, rfl, hvx, b, rfl, ilr, irr'⟩ : _ ∨ _), fun _ => ⟨rfl, rfl⟩, hlvv.trans hvx, by simp, by simp [toList], by simp⟩
            exact inv_black.2 ⟨rfl, hllr, b, rfl, illl, illr⟩
        · refine ⟨false, by simp [blackBlack, color_node, leftG, hrl], _, _, _, _, _, b + 1, rfl,
            il, fun _ => ⟨ir, .inr hrl⟩, fun _ => .inl ⟨ir, .inr hrl⟩, fun _ => ⟨rfl, rfl⟩, hvx, by simp, by simp [toList], by simp⟩
    · have hc : c = false := by
        cases c
        · rfl
        · have := hcl rfl; rw [hlc] at this; cases this
      subst hc
      right
      obtain ⟨ll, lv, lr, ls, rfl⟩ := red_cases hlc
      obtain ⟨rfl, hlr, hll, ill, ilr⟩ := inv_red.1 il
      have ir' : Inv (node lr v r true (lr.size + r.size + 1)) b' := inv_red.2 ⟨rfl, hrc, hlr, ilr, ir⟩
      refine ⟨_, _, _, _, _, rfl, by simp, false,
        by simp [blackBlack, color_node], _, _, _, _, _, b', rfl, ill,
        fun _ => ⟨ir', .inl rfl⟩, fun _ => .inl ⟨ir', .inl rfl⟩, by simp, (s3 lv (by simp [toList])).trans hvx, by simpa using hb,
        by simp [toList], fun _ => ⟨rfl, hll⟩⟩
  · right
    obtain ⟨rl, rv, rr, rs, rfl⟩ := red_cases hrc
    exact ⟨_, _, _, _, _, if_neg (by simp [hlc]), by simp, false,
        by simp [blackBlack, color_node], _, _, _, _, _, b', rfl, il,
        fun _ => ⟨ir, .inl rfl⟩, fun _ => .inl ⟨ir, .inl rfl⟩, by simp, hvx, by simp,
        by simp [toList], fun _ => ⟨rfl, hlc⟩⟩

theorem remove_spec (fuel : Nat) {x : F} {t : Node F} {b : Nat} (hp : Pre x t b)
    (hs : t.toList.Pairwise (· ≤ ·)) (hm : x ∈ t.toList) (hcount : t.toList.count x ≤ 1)
    (hf : t.toList.length < fuel) : Post x t b (remove fuel t x) := by
  induction fuel generalizing t b with
  | zero => omega
  | succ f ih =>
    have hcon := (contains_iff hs x).2 hm
    cases t with
    | nil => exact absurd hp (by simp [Pre])
    | node l v r c s =>
      obtain ⟨s1, s2, s3, s4⟩ := sorted_mid.1 (by simpa only [toList] using hs)
      simp only [remove, hcon, Bool.not_true, Bool.false_eq_true, if_false, goLt_eq, decide_eq_true_eq]
      simp only [toList, List.length_append, List.length_cons] at hf
      by_cases hxv : x < v
      · -- descend to the left
        rw [if_pos hxv]
        obtain ⟨h, hr⟩ : Inv (node l v r c s) b ∧ Ready (node l v r c s) := by
          rcases hp with hp | ⟨-, -, -, hvx, -⟩
          · exact hp
          · exact absurd hxv (not_lt.2 hvx)
        have hml : x ∈ l.toList := by
          simp only [toList, List.mem_append, List.mem_cons] at hm
          rcases hm with hm | hm | hm
          · exact hm
          · exact absurd hm hxv.ne
          · exact absurd (s4 x hm) (not_le.2 hxv)
        have hl : l ≠ nil := by rintro rfl; simp [toList] at hml
        obtain ⟨bb, e1, l1, v1, r1, c1, s1', b1, e2, il, rl, ir, hc, hb, hcc, ht, tl, htl⟩ := prepLeft h hr hl
        have hs' := hs
        rw [toList, ← ht] at hs' hcount
        have hlen := congrArg List.length ht
        simp only [List.length_append, List.length_cons] at hlen
        have hm1 : x ∈ l1.toList := by rw [htl]; simp [hml]
        have hpre : Pre x l1 b1 := by
          cases l1 with
          | nil => exact absurd rl (by simp [Ready])
          | node => exact .inl ⟨il, rl⟩
        obtain ⟨l', e3, il', hl', tl'⟩ := ih hpre (sorted_mid.1 hs').1 hm1
          (by rw [List.count_append] at hcount; omega) (by omega)
        obtain ⟨t', e4, q, it, hcol⟩ := removeBalance_spec (v := v1) (c := c1) (s := s1') il' ir
          (fun h => ⟨hl' (hc h).1, (hc h).2⟩)
        refine ⟨t', ?_, by rw [hb]; exact it, ?_, ?_⟩
        · simp only [e1, Go.val_bind]
          rw [e2]; simp [e3, e4]
        · intro hcf
          obtain ⟨k1, k2⟩ := hcc hcf
          exact hcol k1 (.inr k2)
        · rw [q, tl', toList, ← ht, List.erase_append_left _ hm1]
      · -- descend to the right
        rw [if_neg hxv]
        have hvx : v ≤ x := not_lt.1 hxv
        rcases prepRight hp hs hm hcount hvx with ⟨rfl, rfl, rfl, rfl⟩ | ⟨l0, v0, r0, c0, s0, e0, hr0, bb, e1, l1, v1, r1, c1,
          s1', b1, e2, il, ir, hpre, hc, hv1, hb, ht, hcc⟩
        · refine ⟨nil, by simp [color_nil, isNil], ?_, fun _ => rfl, by simp [toList]⟩
          simp only [Pre, color_nil] at hp
          rcases hp with ⟨hp, hr⟩ | ⟨-, -, h, -⟩
          · exact (inv_red.1 hp).2.2.2.1
          · cases h
        · rw [toList, ← ht] at hs hcount hm
          have hlen := congrArg List.length ht
          simp only [List.length_append, List.length_cons] at hlen
          have := remove_right_tail (f := f) (s1 := s1') (c1 := c1) (fun hne => ih (hpre hne) (sorted_mid.1 hs).2.1 (by
              have hlt : v1 < x := lt_of_le_of_ne hv1 (Ne.symm hne)
              simp only [List.mem_append, List.mem_cons] at hm
              rcases hm with hm | hm | hm
              · exact absurd ((sorted_mid.1 hs).2.2.1 x hm) (not_le.2 hlt)
              · exact absurd hm hne
              · exact hm) (by rw [List.count_append, List.count_cons] at hcount; omega) (by omega)) il ir hc hv1 hs hcount (by omega)
          obtain ⟨t', e3, it, hcol, tl⟩ := this
          refine ⟨t', ?_, by rw [hb]; exact it, fun hcf => hcol (hcc hcf).1 (hcc hcf).2, by rw [tl, toList, ← ht]⟩
          rw [e0]; simp only [Go.val_bind]
          have hb2 : (x =ᵇ v0 && r0.isNil) = false := by
            cases r0 with
            | nil => exact absurd rfl hr0
            | node => simp [isNil]
          rw [hb2, e1]; simp only [Go.val_bind, Bool.false_eq_true, if_false]
          rw [e2]; simp only [Go.val_bind]
          exact e3

omit [LinearOrder F] in
theorem toggle_toggle (t : Node F) : t.toggle.toggle = t := by cases t <;> simp [toggle]
omit [LinearOrder F] in
theorem toggle_toList (t : Node F) : t.toggle.toList = t.toList := by cases t <;> simp [toggle, toList]

/-- Apply `toggle` to the result. -/
def tog (m : Go (Node F)) : Go (Node F) := m >>= fun t => .val t.toggle

omit [LinearOrder F] in
@[simp] theorem tog_val (t : Node F) : tog (.val t) = .val t.toggle := rfl
omit [LinearOrder F] in
@[simp] theorem tog_panic : tog (.panic : Go (Node F)) = .panic := rfl
omit [LinearOrder F] in
@[simp] theorem tog_hang : tog (.hang : Go (Node F)) = .hang := rfl

omit [LinearOrder F] in
theorem rotateLeft_toggle (n : Node F) : rotateLeft n.toggle = tog (rotateLeft n) := by
  rcases n with _ | ⟨l, v, _ | ⟨rl, rv, rr, rc, rs⟩, c, s⟩ <;> simp [toggle, rotateLeft]

omit [LinearOrder F] in
theorem rotateRight_toggle (n : Node F) : rotateRight n.toggle = tog (rotateRight n) := by
  rcases n with _ | ⟨_ | ⟨ll, lv, lr, lc, ls⟩, v, r, c, s⟩ <;> simp [toggle, rotateRight]

omit [LinearOrder F] in
theorem flipColors_toggle (n : Node F) : flipColors n.toggle = tog (flipColors n) := by
  rcases n with _ | ⟨_ | ⟨ll, lv, lr, lc, ls⟩, v, _ | ⟨rl, rv, rr, rc, rs⟩, c, s⟩ <;> simp [toggle, flipColors]

omit [LinearOrder F] in
theorem balanceTail_toggle (n : Node F) : balanceTail n.toggle = tog (balanceTail n) := by
  have key : ∀ m : Node F,
      (do let n ← (match m.toggle with
            | nil => .panic
            | node l _ r _ _ => if l.color && r.color then m.toggle.flipColors else .val m.toggle : Go (Node F))
          n.resize) =
      tog (do let n ← (match m with
            | nil => .panic
            | node l _ r _ _ => if l.color && r.color then m.flipColors else .val m : Go (Node F))
              n.resize) := by
    intro m
    cases m with
    | nil => rfl
    | node l v r c s =>
      simp only [toggle]
      split_ifs
      · rw [show (node l v r (!c) s) = (node l v r c s).toggle from rfl, flipColors_toggle]
        rcases flipColors (node l v r c s) with (_ | _) | _ | _ <;> simp [toggle, resize]
      · simp [resize, toggle]
  unfold balanceTail
  cases n with
  | nil => rfl
  | node l v r c s =>
    simp only [toggle]
    split_ifs
    · rw [show (node l v r (!c) s) = (node l v r c s).toggle from rfl, rotateRight_toggle]
      cases hh : rotateRight (node l v r c s) with
      | val m => exact key m
      | panic => rfl
      | hang => rfl
    · exact key (node l v r c s)

omit [LinearOrder F] in
theorem addBalance_toggle (n : Node F) : addBalance n.toggle = tog (addBalance n) := by
  cases n with
  | nil => rfl
  | node l v r c s =>
    simp only [toggle, addBalance]
    split_ifs
    · rw [show (node l v r (!c) s) = (node l v r c s).toggle from rfl, rotateLeft_toggle]
      cases hh : rotateLeft (node l v r c s) with
      | val m => simpa using balanceTail_toggle m
      | panic => rfl
      | hang => rfl
    · simpa [toggle] using balanceTail_toggle (node l v r c s)

omit [LinearOrder F] in
theorem removeBalance_toggle (n : Node F) : removeBalance n.toggle = tog (removeBalance n) := by
  cases n with
  | nil => rfl
  | node l v r c s =>
    simp only [toggle, removeBalance]
    split_ifs
    · rw [show (node l v r (!c) s) = (node l v r c s).toggle from rfl, rotateLeft_toggle]
      cases hh : rotateLeft (node l v r c s) with
      | val m => simpa using balanceTail_toggle m
      | panic => rfl
      | hang => rfl
    · simpa [toggle] using balanceTail_toggle (node l v r c s)

omit [LinearOrder F] in
theorem moveRedLeft_toggle (n : Node F) : moveRedLeft n.toggle = tog (moveRedLeft n) := by
  unfold moveRedLeft
  rw [flipColors_toggle]
  cases flipColors n with
  | panic => rfl
  | hang => rfl
  | val n =>
    cases n with
    | nil => rfl
    | node l v r c s =>
      simp only [tog_val, Go.val_bind, toggle]
      cases r.leftG with
      | panic => rfl
      | hang => rfl
      | val rl =>
        simp only [Go.val_bind]
        split_ifs
        · cases r.rotateRight with
          | panic => rfl
          | hang => rfl
          | val r' =>
            simp only [Go.val_bind]
            rw [show (node l v r' (!c) s) = (node l v r' c s).toggle from rfl, rotateLeft_toggle]
            cases rotateLeft (node l v r' c s) with
            | panic => rfl
            | hang => rfl
            | val m => simpa using flipColors_toggle m
        · rfl

omit [LinearOrder F] in
theorem moveRedRight_toggle (n : Node F) : moveRedRight n.toggle = tog (moveRedRight n) := by
  unfold moveRedRight
  rw [flipColors_toggle]
  cases flipColors n with
  | panic => rfl
  | hang => rfl
  | val n =>
    cases n with
    | nil => rfl
    | node l v r c s =>
      simp only [tog_val, Go.val_bind, toggle]
      cases l.leftG with
      | panic => rfl
      | hang => rfl
      | val ll =>
        simp only [Go.val_bind]
        split_ifs
        · rw [show (node l v r (!c) s) = (node l v r c s).toggle from rfl, rotateRight_toggle]
          cases rotateRight (node l v r c s) with
          | panic => rfl
          | hang => rfl
          | val m => simpa using flipColors_toggle m
        · rfl

theorem add_toggle {t : Node F} (hne : t ≠ nil) (x : F) : add t.toggle x = tog (add t x) := by
  cases t with
  | nil => exact absurd rfl hne
  | node l v r c s =>
    simp only [toggle, add]
    split_ifs
    · cases add l x with
      | panic => rfl
      | hang => rfl
      | val l' => simpa [toggle] using addBalance_toggle (node l' v r c s)
    · cases add r x with
      | panic => rfl
      | hang => rfl
      | val r' => simpa [toggle] using addBalance_toggle (node l v r' c s)

omit [LinearOrder F] in
theorem remove_toggle [GoOrd F] (fuel : Nat) (t : Node F) (x : F) : remove fuel t.toggle x = tog (remove fuel t x) := by
  cases fuel with
  | zero => rfl
  | succ f =>
    cases t with
    | nil => rfl
    | node l v r c s =>
      have hcon : contains (node l v r c s).toggle x = contains (node l v r c s) x := by simp [toggle, contains]
      have left_tail : ∀ m : Node F, (match m.toggle with
          | nil => Go.panic
          | node l v r c s => do
            let l' ← remove f l x
            removeBalance (node l' v r c s)) = tog (match m with
          | nil => Go.panic
          | node l v r c s => do
            let l' ← remove f l x
            removeBalance (node l' v r c s)) := by
        intro m
        cases m with
        | nil => rfl
        | node l v r c s =>
          simp only [toggle]
          cases remove f l x with
          | panic => rfl
          | hang => rfl
          | val l' => simpa [toggle] using removeBalance_toggle (node l' v r c s)
      have right_tail : ∀ m : Node F, (match m.toggle with
              | nil => Go.panic
              | node l v r c s =>
                if x =ᵇ v then do
                  let m ← r.min
                  let r' ← removeMin f r
                  removeBalance (node l m r' c s)
                else do
                  let r' ← remove f r x
                  removeBalance (node l v r' c s)) = tog (match m with
              | nil => Go.panic
              | node l v r c s =>
                if x =ᵇ v then do
                  let m ← r.min
                  let r' ← removeMin f r
                  removeBalance (node l m r' c s)
                else do
                  let r' ← remove f r x
                  removeBalance (node l v r' c s)) := by
        intro m
        cases m with
        | nil => rfl
        | node l v r c s =>
          simp only [toggle]
          split_ifs
          · cases r.min with
            | panic => rfl
            | hang => rfl
            | val m =>
              simp only [Go.val_bind]
              cases removeMin f r with
              | panic => rfl
              | hang => rfl
              | val r' => simpa [toggle] using removeBalance_toggle (node l m r' c s)
          · cases remove f r x with
            | panic => rfl
            | hang => rfl
            | val r' => simpa [toggle] using removeBalance_toggle (node l v r' c s)
      have mid : ∀ m : Node F, (match m.toggle with
          | nil => Go.panic
          | node _ v r _ _ =>
            if (x =ᵇ v) && r.isNil then .val nil
            else do
              let bb ← r.blackBlack
              let n ← (if bb then m.toggle.moveRedRight else .val m.toggle : Go (Node F))
              match n with
              | nil => .panic
              | node l v r c s =>
                if x =ᵇ v then do
                  let m ← r.min
                  let r' ← removeMin f r
                  removeBalance (node l m r' c s)
                else do
                  let r' ← remove f r x
                  removeBalance (node l v r' c s)) = tog (match m with
          | nil => Go.panic
          | node _ v r _ _ =>
            if (x =ᵇ v) && r.isNil then .val nil
            else do
              let bb ← r.blackBlack
              let n ← (if bb then m.moveRedRight else .val m : Go (Node F))
              match n with
              | nil => .panic
              | node l v r c s =>
                if x =ᵇ v then do
                  let m ← r.min
                  let r' ← removeMin f r
                  removeBalance (node l m r' c s)
                else do
                  let r' ← remove f r x
                  removeBalance (node l v r' c s)) := by
        intro m
        cases m with
        | nil => rfl
        | node l v r c s =>
          simp only [toggle]
          by_cases h1 : (x =ᵇ v && r.isNil) = true
          · rw [if_pos h1, if_pos h1]; rfl
          · rw [if_neg h1, if_neg h1]
            cases r.blackBlack with
            | panic => rfl
            | hang => rfl
            | val bb =>
              simp only [Go.val_bind]
              cases bb
              · exact right_tail (node l v r c s)
              · simp only [if_true]
                rw [show (node l v r (!c) s) = (node l v r c s).toggle from rfl, moveRedRight_toggle]
                cases moveRedRight (node l v r c s) with
                | panic => rfl
                | hang => rfl
                | val m => exact right_tail m
      simp only [remove, hcon]
      by_cases h0 : (!contains (node l v r c s) x) = true
      · rw [if_pos h0, if_pos h0]; rfl
      · rw [if_neg h0, if_neg h0]
        simp only [toggle]
        by_cases h1 : (x <ᵇ v) = true
        · rw [if_pos h1, if_pos h1]
          cases l.blackBlack with
          | panic => rfl
          | hang => rfl
          | val bb =>
            simp only [Go.val_bind]
            cases bb
            · exact left_tail (node l v r c s)
            · simp only [if_true]
              rw [show (node l v r (!c) s) = (node l v r c s).toggle from rfl, moveRedLeft_toggle]
              cases moveRedLeft (node l v r c s) with
              | panic => rfl
              | hang => rfl
              | val m => exact left_tail m
        · rw [if_neg h1, if_neg h1]
          cases l.color
          · exact mid (node l v r c s)
          · simp only [if_true]
            rw [show (node l v r (!c) s) = (node l v r c s).toggle from rfl, rotateRight_toggle]
            cases rotateRight (node l v r c s) with
            | panic => rfl
            | hang => rfl
            | val m => exact mid m

/-- The invariant up to the colour of the root (which the code never resets). -/
def RootInv (t : Node F) : Prop := ∃ b, Inv t b ∨ Inv t.toggle b

omit [LinearOrder F] in
theorem RootInv.toggle {t : Node F} (h : RootInv t) : RootInv t.toggle := by
  obtain ⟨b, h | h⟩ := h
  · exact ⟨b, .inr (by cases t <;> simpa [Node.toggle] using h)⟩
  · exact ⟨b, .inl h⟩

theorem add_root (x : F) {t : Node F} (h : RootInv t) :
    ∃ t', add t x = .val t' ∧ RootInv t' ∧ t'.toList.Perm (x :: t.toList) ∧
      (t.toList.Pairwise (· ≤ ·) → t'.toList.Pairwise (· ≤ ·)) := by
  have base : ∀ {t : Node F} {b : Nat}, Inv t b →
      ∃ t', add t x = .val t' ∧ RootInv t' ∧ t'.toList.Perm (x :: t.toList) ∧
      (t.toList.Pairwise (· ≤ ·) → t'.toList.Pairwise (· ≤ ·)) := by
    intro t b h
    obtain ⟨t', e, p, so, k1, k2⟩ := add_spec x h
    refine ⟨t', e, ?_, p, so⟩
    cases hc : t.color
    · exact ⟨b, .inl (k1 hc)⟩
    · rcases (k2 hc).2 with k | k
      · exact ⟨b, .inl k⟩
      · exact ⟨b + 1, .inr k⟩
  obtain ⟨b, h | h⟩ := h
  · exact base h
  · by_cases hne : t = nil
    · subst hne; exact base h
    · obtain ⟨t', e, r, p, so⟩ := base h
      rw [add_toggle hne] at e
      cases hh : add t x with
      | panic => rw [hh] at e; cases e
      | hang => rw [hh] at e; cases e
      | val t'' =>
        rw [hh, tog_val] at e; injection e with e; subst e
        rw [toggle_toList, toggle_toList] at p so
        refine ⟨t'', rfl, ?_, p, so⟩
        simpa [toggle_toggle] using r.toggle

omit [LinearOrder F] in
theorem RootInv.ready {t : Node F} (h : RootInv t) (hne : t ≠ nil) :
    ∃ b, (Inv t b ∧ Ready t) ∨ (Inv t.toggle b ∧ Ready t.toggle) := by
  have base : ∀ {t : Node F} {b : Nat}, t ≠ nil → Inv t b →
      ∃ b, (Inv t b ∧ Ready t) ∨ (Inv t.toggle b ∧ Ready t.toggle) := by
    intro t b hne h
    cases t with
    | nil => exact absurd rfl hne
    | node l v r c s =>
      cases c
      · cases hl : l.color
        · obtain ⟨h1, h2, b', -, h3, h4⟩ := inv_black.1 h
          exact ⟨b', .inr ⟨inv_red.2 ⟨h1, h2, hl, h3, h4⟩, .inl rfl⟩⟩
        · exact ⟨b, .inl ⟨h, .inr hl⟩⟩
      · exact ⟨b, .inl ⟨h, .inl rfl⟩⟩
  obtain ⟨b, h | h⟩ := h
  · exact base hne h
  · obtain ⟨b', h | h⟩ := base (t := t.toggle) (by cases t <;> simp_all [Node.toggle]) h
    · exact ⟨b', .inr h⟩
    · rw [toggle_toggle] at h; exact ⟨b', .inl h⟩

theorem remove_root (x : F) {t : Node F} (h : RootInv t) (hs : t.toList.Pairwise (· ≤ ·))
    (hcount : t.toList.count x ≤ 1) :
    ∃ t', remove (t.nodes + 1) t x = .val t' ∧ RootInv t' ∧ t'.toList = t.toList.erase x := by
  by_cases hm : x ∈ t.toList
  · have hne : t ≠ nil := by rintro rfl; simp [toList] at hm
    have base : ∀ {t : Node F} {b : Nat}, Inv t b → Ready t → t.toList.Pairwise (· ≤ ·) → t.toList.count x ≤ 1 →
        x ∈ t.toList → ∃ t', remove (t.nodes + 1) t x = .val t' ∧ RootInv t' ∧ t'.toList = t.toList.erase x := by
      intro t b hi hr hs hc hm
      have hp : Pre x t b := by
        cases t with
        | nil => exact absurd hr (by simp [Ready])
        | node => exact .inl ⟨hi, hr⟩
      obtain ⟨t', e, i, -, q⟩ := remove_spec (t.nodes + 1) hp hs hm hc (by rw [nodes_eq]; omega)
      exact ⟨t', e, ⟨b, .inl i⟩, q⟩
    obtain ⟨b, ⟨hi, hr⟩ | ⟨hi, hr⟩⟩ := h.ready hne
    · exact base hi hr hs hcount hm
    · obtain ⟨t', e, r, q⟩ := base hi hr (by rwa [toggle_toList]) (by rwa [toggle_toList]) (by rwa [toggle_toList])
      have hn : t.toggle.nodes = t.nodes := by rw [nodes_eq, nodes_eq, toggle_toList]
      rw [remove_toggle, hn] at e
      cases hh : remove (t.nodes + 1) t x with
      | panic => rw [hh] at e; cases e
      | hang => rw [hh] at e; cases e
      | val t'' =>
        rw [hh, tog_val] at e; injection e with e; subst e
        rw [toggle_toList, toggle_toList] at q
        refine ⟨t'', rfl, ?_, q⟩
        simpa [toggle_toggle] using r.toggle
  · have : t.contains x = false := by
      cases hc : t.contains x
      · rfl
      · exact absurd ((contains_iff hs x).1 hc) hm
    refine ⟨t, by simp [remove, this], h, (List.erase_of_not_mem hm).symm⟩

/-- Sizes stored in the tree are right. -/
def SizeOK : Node F → Prop
  | nil => True
  | node l _ r _ s => SizeOK l ∧ SizeOK r ∧ s = l.size + r.size + 1

omit [LinearOrder F] in
theorem Inv.sizeOK {t : Node F} {b : Nat} (h : Inv t b) : SizeOK t := by
  induction t generalizing b with
  | nil => trivial
  | node l v r c s ihl ihr =>
    obtain ⟨b', h1, -, -, h2, h3, -⟩ := h.node_cases
    exact ⟨ihl h2, ihr h3, h1⟩

omit [LinearOrder F] in
theorem RootInv.sizeOK {t : Node F} (h : RootInv t) : SizeOK t := by
  obtain ⟨b, h | h⟩ := h
  · exact h.sizeOK
  · have := h.sizeOK
    cases t <;> simpa [Node.toggle, SizeOK] using this

omit [LinearOrder F] in
theorem SizeOK.size_eq {t : Node F} (h : SizeOK t) : t.size = t.toList.length := by
  induction t with
  | nil => simp [size_nil, toList]
  | node l v r c s ihl ihr =>
    obtain ⟨h1, h2, h4⟩ := h
    simp only [size_node, toList, List.length_append, List.length_cons, h4, ihl h1, ihr h2]
    push_cast; omega

omit [LinearOrder F] in
theorem select_spec {t : Node F} (h : SizeOK t) (k : Int) :
    select t k = if 0 ≤ k then t.toList[k.toNat]? else none := by
  induction t generalizing k with
  | nil => simp [select, toList]
  | node l v r hh s ihl ihr =>
    obtain ⟨h1, h2, -⟩ := h
    have hz := h1.size_eq
    simp only [select, toList]
    split_ifs with c1 c2 c3 c3 c3
    · rw [ihl h1, if_pos c2, List.getElem?_append_left (by omega)]
    · rw [ihl h1, if_neg c2]
    · rw [ihr h2, if_pos (by omega), List.getElem?_append_right (by omega)]
      have : k.toNat - l.toList.length = (k - l.size - 1).toNat + 1 := by omega
      rw [this, List.getElem?_cons_succ]
    · omega
    · have : k.toNat = l.toList.length := by omega
      rw [this]; simp
    · omega

theorem rank_spec {t : Node F} (h : SizeOK t) (hs : t.toList.Pairwise (· ≤ ·)) (x : F) :
    (t.toList.countP (· < x) : Int) ≤ rank t x ∧
    rank t x ≤ t.toList.countP (· < x) + ((t.toList.count x - 1 : ℕ) : Int) := by
  induction t with
  | nil => simp [rank, toList]
  | node l v r hh s ihl ihr =>
    obtain ⟨h1, h2, -⟩ := h
    obtain ⟨s1, s2, s3, s4⟩ := sorted_mid.1 (by simpa only [toList] using hs)
    have hz := h1.size_eq
    have ihl := ihl h1 s1
    have ihr := ihr h2 s2
    simp only [rank, goLt_eq, decide_eq_true_eq, toList, List.countP_append, List.countP_cons,
      List.count_append, List.count_cons]
    rcases lt_trichotomy x v with c | c | c
    · have e1 := countP_lt_of_ge s4 c.le
      have e2 := count_of_gt s4 c
      simp only [c, c.not_gt, c.ne', if_true, e1, e2, beq_iff_eq, if_false]
      simpa using ihl
    · subst c
      have e1 := countP_lt_of_ge s4 le_rfl
      have e2 := countP_add_count s3
      simp [e1]; omega
    · have e1 := countP_lt_of_le s3 c
      have e2 := count_of_lt s3 c
      simp only [c, c.not_gt, c.ne, if_true, e1, e2, beq_iff_eq, if_false]
      push_cast; simp; omega

/-- Number of nodes on the longest root-to-nil path. -/
def realHeight : Node F → Nat
  | nil => 0
  | node l _ r _ _ => max (realHeight l) (realHeight r) + 1

/-- The colours (true = red) met on each root-to-nil path. -/
def paths : Node F → List (List Bool)
  | nil => [[]]
  | node l _ r c _ => (paths l ++ paths r).map (c :: ·)

omit [LinearOrder F] in
theorem Inv.bounds {t : Node F} {b : Nat} (h : Inv t b) :
    2 ^ b ≤ t.toList.length + 1 ∧ realHeight t ≤ 2 * b + (if t.color then 1 else 0) := by
  induction t generalizing b with
  | nil => rw [inv_nil] at h; subst h; simp [toList, realHeight]
  | node l v r c s ihl ihr =>
    cases c
    · obtain ⟨h1, h2, b', rfl, h3, h4⟩ := inv_black.1 h
      have a1 := ihl h3; have a2 := ihr h4
      simp only [toList, realHeight, List.length_append, List.length_cons, color_node]
      refine ⟨by rw [pow_succ]; omega, ?_⟩
      have : realHeight l ≤ 2 * b' + 1 := by have := a1.2; split_ifs at this <;> omega
      have : realHeight r ≤ 2 * b' + 1 := by have := a2.2; split_ifs at this <;> omega
      simp; omega
    · obtain ⟨h1, h2, h5, h3, h4⟩ := inv_red.1 h
      have a1 := ihl h3; have a2 := ihr h4
      simp only [toList, realHeight, List.length_append, List.length_cons, color_node]
      rw [h5] at a1; rw [h2] at a2
      simp only [Bool.false_eq_true, if_false] at a1 a2
      refine ⟨by omega, by simp; omega⟩

/-- No two consecutive reds. -/
def NoRedRed (p : List Bool) : Prop := p.IsChain (fun a b => ¬ (a = true ∧ b = true))

omit [LinearOrder F] in
theorem paths_head {t : Node F} {p : List Bool} (h : p ∈ t.paths) (hc : t.color = false) : p.head? ≠ some true := by
  cases t with
  | nil => simp [paths] at h; simp [h]
  | node l v r c s =>
    simp only [color_node] at hc; subst hc
    simp only [paths, List.mem_map] at h
    obtain ⟨q, -, rfl⟩ := h; simp

omit [LinearOrder F] in
theorem Inv.paths {t : Node F} {b : Nat} (h : Inv t b) :
    ∀ p ∈ t.paths, p.count false = b ∧ NoRedRed p := by
  induction t generalizing b with
  | nil => rw [inv_nil] at h; subst h; intro p hp; simp [Node.paths] at hp; subst hp; simp [NoRedRed]
  | node l v r c s ihl ihr =>
    obtain ⟨b', h1, h2, h3, h4, h5, rfl⟩ := h.node_cases
    intro p hp
    simp only [Node.paths, List.mem_map, List.mem_append] at hp
    obtain ⟨q, hq, rfl⟩ := hp
    have hq' : q.count false = b' ∧ NoRedRed q ∧ (c = true → q.head? ≠ some true) := by
      rcases hq with hq | hq
      · exact ⟨(ihl h4 q hq).1, (ihl h4 q hq).2, fun hc => paths_head hq (h3 hc)⟩
      · exact ⟨(ihr h5 q hq).1, (ihr h5 q hq).2, fun hc => paths_head hq h2⟩
    obtain ⟨k1, k2, k3⟩ := hq'
    refine ⟨by cases c <;> simp [k1], ?_⟩
    cases q with
    | nil => simp [NoRedRed]
    | cons a q =>
      unfold NoRedRed at *
      rw [List.isChain_cons_cons]
      refine ⟨?_, k2⟩
      rintro ⟨rfl, rfl⟩
      exact k3 rfl rfl

end Node

namespace Tree
open Spec

/-- One client call. -/
def step [GoOrd F] (t : Tree F) : OSOp F → Go (Tree F)
  | .add x => t.add x
  | .remove x => t.remove x
  | .clear => .val t.clear

/-- A history of client calls on a fresh tree. -/
def run [GoOrd F] (ops : List (OSOp F)) : Go (Tree F) := Go.runOps step empty ops

variable [LinearOrder F]

/-- The representation invariant. -/
structure Inv (S : Multiset F) (t : Tree F) : Prop where
  wf : t.root.RootInv
  sorted : t.root.toList.Pairwise (· ≤ ·)
  content : (t.root.toList : Multiset F) = S

theorem Inv.empty : Inv (0 : Multiset F) Tree.empty :=
  ⟨⟨0, .inl rfl⟩, List.Pairwise.nil, rfl⟩

theorem Inv.add {S : Multiset F} {t : Tree F} (h : Inv S t) (x : F) :
    ∃ t', t.add x = .val t' ∧ Inv (x ::ₘ S) t' := by
  obtain ⟨r, e, w, p, so⟩ := Node.add_root x h.wf
  refine ⟨⟨r⟩, by simp [Tree.add, e], w, so h.sorted, ?_⟩
  rw [← h.content, Multiset.cons_coe]; exact Multiset.coe_eq_coe.2 p

theorem Inv.remove {S : Multiset F} {t : Tree F} (h : Inv S t) (x : F) (hc : S.count x ≤ 1) :
    ∃ t', t.remove x = .val t' ∧ Inv (S.erase x) t' := by
  obtain ⟨r, e, w, p⟩ := Node.remove_root x h.wf h.sorted (by rwa [← h.content, Multiset.coe_count] at hc)
  refine ⟨⟨r⟩, by simp [Tree.remove, e], w, ?_, ?_⟩
  · show r.toList.Pairwise _
    rw [p]; exact h.sorted.sublist List.erase_sublist
  · show (r.toList : Multiset F) = _
    rw [p, ← h.content, Multiset.coe_erase]

theorem Inv.size {S : Multiset F} {t : Tree F} (h : Inv S t) : t.size = S.card := by
  rw [Tree.size, h.wf.sizeOK.size_eq, ← h.content, Multiset.coe_card]

theorem Inv.select {S : Multiset F} {t : Tree F} (h : Inv S t) (k : Int) : t.select k = kth S k := by
  rw [Tree.select, Node.select_spec h.wf.sizeOK, ← h.content, kth_coe h.sorted]

theorem Inv.rank {S : Multiset F} {t : Tree F} (h : Inv S t) (x : F) :
    (rankOf S x : Int) ≤ t.rank x ∧ t.rank x ≤ rankOf S x + ((S.count x - 1 : ℕ) : Int) := by
  have := Node.rank_spec h.wf.sizeOK h.sorted x
  rw [← h.content, rankOf_coe, Multiset.coe_count]; exact this

end Tree
end Verif.Rb

namespace Verif.Rb.Tree
open Verif Spec
variable {F : Type} [LinearOrder F]

theorem run_inv (ops : List (OSOp F)) (hu : RemovesUnique ops) : ∃ t, run ops = .val t ∧ Inv (bag ops) t := by
  have gen : ∀ (post pre : List (OSOp F)) (t : Tree F), RemovesUnique (pre ++ post) → Inv (bag pre) t →
      ∃ t', Go.runOps step t post = .val t' ∧ Inv (bag (pre ++ post)) t' := by
    intro post
    induction post with
    | nil => intro pre t _ i; exact ⟨t, rfl, by simpa using i⟩
    | cons o post ih =>
      intro pre t hu i
      have hb : bag (pre ++ [o]) = bagStep (bag pre) o := by simp [bag, List.foldl_append]
      have : ∃ t', step t o = .val t' ∧ Inv (bag (pre ++ [o])) t' := by
        rw [hb]
        cases o with
        | add x => exact i.add x
        | remove x => exact i.remove x (hu pre x post rfl)
        | clear => exact ⟨Tree.empty, rfl, Inv.empty⟩
      obtain ⟨t', e, i'⟩ := this
      obtain ⟨t'', e', i''⟩ := ih (pre ++ [o]) t' (by simpa using hu) i'
      exact ⟨t'', by simp [Go.runOps, e, e'], by simpa using i''⟩
  simpa [run] using gen ops [] Tree.empty (by simpa using hu) Inv.empty

theorem run_of_val {ops : List (OSOp F)} {t : Tree F} (hu : RemovesUnique ops) (h : run ops = .val t) :
    Inv (bag ops) t := by
  obtain ⟨t', e, i⟩ := run_inv ops hu
  rw [h] at e; injection e with e; exact e ▸ i

end Verif.Rb.Tree
