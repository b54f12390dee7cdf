import Verif.Proofs.Rb
import Mathlib.Algebra.Order.Group.Multiset

/-! # Red-black tree: what holds for every history that does not panic, duplicates (and NaN) included

The tree can lose values (C06), but stored sizes stay right, the in-order list stays sorted and never gains values. -/

set_option linter.unusedSectionVars false
set_option linter.unusedSimpArgs false

namespace Verif.Rb
open Verif Verif.Spec

variable {F : Type}

namespace Node

/-- Both subtrees have right sizes; the node's own size is arbitrary. -/
def KidsOK : Node F → Prop
  | nil => True
  | node l _ r _ _ => SizeOK l ∧ SizeOK r

theorem SizeOK.kids {t : Node F} (h : SizeOK t) : KidsOK t := by
  cases t with
  | nil => trivial
  | node l v r c s => exact ⟨h.1, h.2.1⟩

theorem rotateLeft_weak {n n' : Node F} (h : n.rotateLeft = .val n') :
    n'.toList = n.toList ∧ (KidsOK n → KidsOK n') ∧ (SizeOK n → SizeOK n') := by
  unfold rotateLeft at h
  split at h
  · cases h
    refine ⟨by simp [toList], fun k => ?_, fun k => ?_⟩
    · simp only [KidsOK, SizeOK] at k ⊢; tauto
    · simp only [SizeOK, size_node] at k ⊢
      refine ⟨⟨k.1, k.2.1.1, trivial⟩, k.2.1.2.1, ?_⟩
      have := k.2.2; have := k.2.1.2.2; omega
  · cases h

theorem rotateRight_weak {n n' : Node F} (h : n.rotateRight = .val n') :
    n'.toList = n.toList ∧ (KidsOK n → KidsOK n') ∧ (SizeOK n → SizeOK n') := by
  unfold rotateRight at h
  split at h
  · cases h
    refine ⟨by simp [toList], fun k => ?_, fun k => ?_⟩
    · simp only [KidsOK, SizeOK] at k ⊢; tauto
    · simp only [SizeOK, size_node] at k ⊢
      refine ⟨k.1.1, ⟨k.1.2.1, k.2.1, trivial⟩, ?_⟩
      have := k.2.2; have := k.1.2.2; omega
  · cases h

theorem flipColors_weak {n n' : Node F} (h : n.flipColors = .val n') :
    n'.toList = n.toList ∧ (KidsOK n → KidsOK n') ∧ (SizeOK n → SizeOK n') := by
  unfold flipColors at h
  split at h
  · cases h
    refine ⟨by simp [toList], fun k => ?_, fun k => ?_⟩
    · simp only [KidsOK, SizeOK] at k ⊢; tauto
    · simp only [SizeOK, size_node] at k ⊢; tauto
  · cases h

theorem moveRedLeft_weak {n n' : Node F} (h : n.moveRedLeft = .val n') (k : SizeOK n) :
    n'.toList = n.toList ∧ SizeOK n' := by
  simp only [moveRedLeft, Go.bind_eq_val] at h
  obtain ⟨n1, h1, h⟩ := h
  obtain ⟨l1, -, s1⟩ := flipColors_weak h1
  have s1 := s1 k
  cases n1 with
  | nil => cases h
  | node l v r c s =>
    simp only [Go.bind_eq_val] at h
    obtain ⟨rl, h2, h⟩ := h
    split_ifs at h
    · simp only [Go.bind_eq_val] at h
      obtain ⟨r', h3, n2, h4, h5⟩ := h
      obtain ⟨l3, -, s3⟩ := rotateRight_weak h3
      have sz : r'.size = r.size := by
        have a := (s3 s1.2.1).size_eq; have b := s1.2.1.size_eq
        rw [a, b, l3]
      have s2' : SizeOK (node l v r' c s) := ⟨s1.1, s3 s1.2.1, by rw [sz]; exact s1.2.2⟩
      obtain ⟨l4, -, s4⟩ := rotateLeft_weak h4
      obtain ⟨l5, -, s5⟩ := flipColors_weak h5
      refine ⟨?_, s5 (s4 s2')⟩
      rw [l5, l4, ← l1]; simp [toList, l3]
    · cases h; exact ⟨l1, s1⟩

theorem moveRedRight_weak {n n' : Node F} (h : n.moveRedRight = .val n') (k : SizeOK n) :
    n'.toList = n.toList ∧ SizeOK n' := by
  simp only [moveRedRight, Go.bind_eq_val] at h
  obtain ⟨n1, h1, h⟩ := h
  obtain ⟨l1, -, s1⟩ := flipColors_weak h1
  have s1 := s1 k
  cases n1 with
  | nil => cases h
  | node l v r c s =>
    simp only [Go.bind_eq_val] at h
    obtain ⟨rl, h2, h⟩ := h
    split_ifs at h
    · simp only [Go.bind_eq_val] at h
      obtain ⟨n2, h4, h5⟩ := h
      obtain ⟨l4, -, s4⟩ := rotateRight_weak h4
      obtain ⟨l5, -, s5⟩ := flipColors_weak h5
      exact ⟨by rw [l5, l4, ← l1], s5 (s4 s1)⟩
    · cases h; exact ⟨l1, s1⟩

theorem balanceTail_weak {n n' : Node F} (h : n.balanceTail = .val n') (k : KidsOK n) :
    n'.toList = n.toList ∧ SizeOK n' := by
  simp only [balanceTail, Go.bind_eq_val] at h
  obtain ⟨n1, h1, n2, h2, h3⟩ := h
  have a1 : n1.toList = n.toList ∧ KidsOK n1 := by
    cases n with
    | nil => cases h1
    | node l v r c s =>
      simp only at h1
      split_ifs at h1
      · obtain ⟨p, q, -⟩ := rotateRight_weak h1
        exact ⟨p, q k⟩
      · cases h1; exact ⟨rfl, k⟩
  have a2 : n2.toList = n1.toList ∧ KidsOK n2 := by
    cases n1 with
    | nil => cases h2
    | node l v r c s =>
      simp only at h2
      split_ifs at h2
      · obtain ⟨p, q, -⟩ := flipColors_weak h2
        exact ⟨p, q a1.2⟩
      · cases h2; exact ⟨rfl, a1.2⟩
  cases n2 with
  | nil => cases h3
  | node l v r c s =>
    simp only [resize] at h3
    cases h3
    refine ⟨?_, a2.2.1, a2.2.2, rfl⟩
    rw [← a1.1, ← a2.1]; simp [toList]

theorem addBalance_weak' {n n' : Node F} (h : n.addBalance = .val n') (k : KidsOK n) :
    n'.toList = n.toList ∧ SizeOK n' := by
  cases n with
  | nil => cases h
  | node l v r c s =>
    simp only [addBalance, Go.bind_eq_val] at h
    obtain ⟨n1, h1, h2⟩ := h
    split_ifs at h1
    · obtain ⟨p, q, -⟩ := rotateLeft_weak h1
      obtain ⟨p2, q2⟩ := balanceTail_weak h2 (q k)
      exact ⟨p2.trans p, q2⟩
    · cases h1; exact balanceTail_weak h2 k

theorem removeBalance_weak {n n' : Node F} (h : n.removeBalance = .val n') (k : KidsOK n) :
    n'.toList = n.toList ∧ SizeOK n' := by
  cases n with
  | nil => cases h
  | node l v r c s =>
    simp only [removeBalance, Go.bind_eq_val] at h
    obtain ⟨n1, h1, h2⟩ := h
    split_ifs at h1
    · obtain ⟨p, q, -⟩ := rotateLeft_weak h1
      obtain ⟨p2, q2⟩ := balanceTail_weak h2 (q k)
      exact ⟨p2.trans p, q2⟩
    · cases h1; exact balanceTail_weak h2 k

theorem add_weak [GoOrd F] (x : F) {t t' : Node F} (h : t.add x = .val t') (k : SizeOK t) :
    SizeOK t' ∧ t'.toList.Perm (x :: t.toList) := by
  induction t generalizing t' with
  | nil => cases h; exact ⟨by simp [newNode, SizeOK, size_nil], by simp [newNode, toList]⟩
  | node l v r c s ihl ihr =>
    simp only [add] at h
    split_ifs at h
    · rw [Go.bind_eq_val] at h
      obtain ⟨l', e, h⟩ := h
      obtain ⟨a, b⟩ := ihl e k.1
      obtain ⟨p, q⟩ := addBalance_weak' h ⟨a, k.2.1⟩
      refine ⟨q, ?_⟩
      rw [p]; simp only [toList]
      exact b.append_right _
    · rw [Go.bind_eq_val] at h
      obtain ⟨r', e, h⟩ := h
      obtain ⟨a, b⟩ := ihr e k.2.1
      obtain ⟨p, q⟩ := addBalance_weak' h ⟨k.1, a⟩
      refine ⟨q, ?_⟩
      rw [p]; simp only [toList]
      refine ((b.cons v).append_left _).trans ?_
      exact ((List.Perm.swap x v _).append_left _).trans List.perm_middle

theorem min_head {t : Node F} {m : F} (h : t.min = .val m) : ∃ tl, t.toList = m :: tl := by
  induction t with
  | nil => cases h
  | node l v r c s ihl _ =>
    cases l with
    | nil => simp only [min] at h; cases h; exact ⟨r.toList, rfl⟩
    | node ll lv lr lc ls =>
      rw [min] at h
      obtain ⟨tl, e⟩ := ihl h
      exact ⟨tl ++ v :: r.toList, by rw [toList, e]; rfl⟩

theorem toList_ne_nil {l r : Node F} {v : F} {c : Bool} {s : Int} : (node l v r c s).toList ≠ [] := by simp [toList]

theorem removeMin_weak (f : Nat) {t t' : Node F} (h : t.removeMin f = .val t') (k : SizeOK t) :
    SizeOK t' ∧ t'.toList.Sublist t.toList.tail := by
  induction f generalizing t t' with
  | zero => cases h
  | succ f ih =>
    cases t with
    | nil => cases h
    | node l v r c s =>
      cases l with
      | nil => simp only [removeMin] at h; cases h; exact ⟨trivial, by simp [toList]⟩
      | node ll lv lr lc ls =>
        simp only [removeMin, Go.bind_eq_val] at h
        obtain ⟨bb, -, n, h1, h⟩ := h
        have a : n.toList = (node (node ll lv lr lc ls) v r c s).toList ∧ SizeOK n := by
          split_ifs at h1
          · exact moveRedLeft_weak h1 k
          · cases h1; exact ⟨rfl, k⟩
        cases n with
        | nil => cases h
        | node l1 v1 r1 c1 s1 =>
          simp only [Go.bind_eq_val] at h
          obtain ⟨l', e, h⟩ := h
          obtain ⟨p, q⟩ := ih e a.2.1
          obtain ⟨p2, q2⟩ := removeBalance_weak h ⟨p, a.2.2.1⟩
          refine ⟨q2, ?_⟩
          have hne : l1.toList ≠ [] := by
            cases l1 with
            | nil => cases f <;> simp [removeMin] at e
            | node => exact toList_ne_nil
          rw [p2, ← a.1]
          simp only [toList]
          rw [List.tail_append_of_ne_nil hne]
          exact q.append (List.Sublist.refl _)

theorem remove_weak [GoOrd F] (f : Nat) (x : F) {t t' : Node F} (h : t.remove f x = .val t') (k : SizeOK t) :
    SizeOK t' ∧ t'.toList.Sublist t.toList := by
  induction f generalizing t t' with
  | zero => cases h
  | succ f ih =>
    unfold remove at h
    split_ifs at h with hc
    · cases h; exact ⟨k, List.Sublist.refl _⟩
    cases t with
    | nil => cases h
    | node l v r c s =>
      simp only at h
      by_cases hlt : (x <ᵇ v) = true
      · rw [if_pos hlt] at h
        simp only [Go.bind_eq_val] at h
        obtain ⟨bb, -, n, h1, h⟩ := h
        have a : n.toList = (node l v r c s).toList ∧ SizeOK n := by
          split_ifs at h1
          · exact moveRedLeft_weak h1 k
          · cases h1; exact ⟨rfl, k⟩
        cases n with
        | nil => cases h
        | node l1 v1 r1 c1 s1 =>
          simp only [Go.bind_eq_val] at h
          obtain ⟨l', e, h⟩ := h
          obtain ⟨p, q⟩ := ih e a.2.1
          obtain ⟨p2, q2⟩ := removeBalance_weak h ⟨p, a.2.2.1⟩
          refine ⟨q2, ?_⟩
          rw [p2, ← a.1]
          exact q.append (List.Sublist.refl _)
      · rw [if_neg hlt] at h
        simp only [Go.bind_eq_val] at h
        obtain ⟨n, h1, h⟩ := h
        have a : n.toList = (node l v r c s).toList ∧ SizeOK n := by
          split_ifs at h1
          · obtain ⟨p, -, q⟩ := rotateRight_weak h1
            exact ⟨p, q k⟩
          · cases h1; exact ⟨rfl, k⟩
        cases n with
        | nil => cases h
        | node l1 v1 r1 c1 s1 =>
          simp only at h
          split_ifs at h with hx
          · cases h; exact ⟨trivial, by simp [toList]⟩
          · simp only [Go.bind_eq_val] at h
            obtain ⟨bb, -, n, h2, h⟩ := h
            have b : n.toList = (node l1 v1 r1 c1 s1).toList ∧ SizeOK n := by
              split_ifs at h2
              · exact moveRedRight_weak h2 a.2
              · cases h2; exact ⟨rfl, a.2⟩
            cases n with
            | nil => cases h
            | node l2 v2 r2 c2 s2 =>
              simp only at h
              split_ifs at h with hx2
              · simp only [Go.bind_eq_val] at h
                obtain ⟨m, hm, r', e, h⟩ := h
                obtain ⟨p, q⟩ := removeMin_weak f e b.2.2.1
                obtain ⟨p2, q2⟩ := removeBalance_weak h ⟨b.2.1, p⟩
                obtain ⟨tl, htl⟩ := min_head hm
                refine ⟨q2, ?_⟩
                rw [p2, ← a.1, ← b.1]
                simp only [toList]
                refine (List.Sublist.refl _).append ?_
                rw [htl] at q ⊢
                exact (q.cons_cons m).cons v2
              · simp only [Go.bind_eq_val] at h
                obtain ⟨r', e, h⟩ := h
                obtain ⟨p, q⟩ := ih e b.2.2.1
                obtain ⟨p2, q2⟩ := removeBalance_weak h ⟨b.2.1, p⟩
                refine ⟨q2, ?_⟩
                rw [p2, ← a.1, ← b.1]
                exact (List.Sublist.refl _).append (q.cons_cons v2)

theorem select_in {t : Node F} (k : SizeOK t) {i : Int} (h0 : 0 ≤ i) (h1 : i < t.size) :
    ∃ v ∈ t.toList, t.select i = some v := by
  rw [k.size_eq] at h1
  rw [select_spec k, if_pos h0]
  exact ⟨t.toList[i.toNat]'(by omega), List.getElem_mem _, List.getElem?_eq_getElem _⟩

theorem select_none {t : Node F} (k : SizeOK t) {i : Int} (h : i < 0 ∨ t.size ≤ i) : t.select i = none := by
  rw [k.size_eq] at h
  rw [select_spec k]
  split_ifs with c
  · rw [List.getElem?_eq_none]; omega
  · rfl

/-! ### Under a linear order: exactly which values can be lost -/

variable [LinearOrder F]

theorem moveRedLeft_prefix {l r n' : Node F} {v : F} {c : Bool} {s : Int} (h : (node l v r c s).moveRedLeft = .val n') :
    ∀ l1 v1 r1 c1 s1, n' = node l1 v1 r1 c1 s1 → ∀ a ∈ l.toList, a ∈ l1.toList := by
  intro l1 v1 r1 c1 s1 hn a ha
  simp only [moveRedLeft, Go.bind_eq_val] at h
  obtain ⟨n1, h1, h⟩ := h
  unfold flipColors at h1
  split at h1
  · rename_i ll lv lr lc ls v' rl rv rr rc rs c' s' heq
    cases heq
    cases h1
    simp only [Go.bind_eq_val] at h
    obtain ⟨rl', h2, h⟩ := h
    split_ifs at h
    · simp only [Go.bind_eq_val] at h
      obtain ⟨r', h3, n2, h4, h5⟩ := h
      unfold rotateLeft at h4
      split at h4
      · rename_i heq
        cases heq
        cases h4
        unfold flipColors at h5
        split at h5
        · rename_i heq
          cases heq
          cases h5
          cases hn
          simp only [toList] at ha ⊢
          simp only [List.mem_append, List.mem_cons] at ha ⊢
          tauto
        · cases h5
      · cases h4
    · cases h
      cases hn
      simpa [toList] using ha
  · cases h1

theorem rotateRight_root {l r n' : Node F} {v : F} {c : Bool} {s : Int} (h : (node l v r c s).rotateRight = .val n') :
    ∀ l1 v1 r1 c1 s1, n' = node l1 v1 r1 c1 s1 → v1 ∈ l.toList := by
  intro l1 v1 r1 c1 s1 hn
  unfold rotateRight at h
  split at h
  · rename_i heq
    cases heq
    cases h
    cases hn
    simp [toList]
  · cases h

theorem moveRedRight_root {l r n' : Node F} {v : F} {c : Bool} {s : Int} (h : (node l v r c s).moveRedRight = .val n') :
    ∀ l1 v1 r1 c1 s1, n' = node l1 v1 r1 c1 s1 → v1 = v ∨ v1 ∈ l.toList := by
  intro l1 v1 r1 c1 s1 hn
  simp only [moveRedRight, Go.bind_eq_val] at h
  obtain ⟨n1, h1, h⟩ := h
  unfold flipColors at h1
  split at h1
  · rename_i ll lv lr lc ls v' rl rv rr rc rs c' s' heq
    cases heq
    cases h1
    simp only [Go.bind_eq_val] at h
    obtain ⟨rl', h2, h⟩ := h
    split_ifs at h
    · simp only [Go.bind_eq_val] at h
      obtain ⟨n2, h4, h5⟩ := h
      cases n2 with
      | nil => cases h5
      | node a b c d e =>
        have hr := rotateRight_root h4 _ _ _ _ _ rfl
        unfold flipColors at h5
        split at h5
        · rename_i heq
          cases heq
          cases h5
          cases hn
          exact Or.inr (by simpa [toList] using hr)
        · cases h5
    · cases h
      cases hn
      exact Or.inl rfl
  · cases h1

theorem remove_le_erase (f : Nat) (x : F) {t t' : Node F} (h : t.remove f x = .val t') (k : SizeOK t)
    (hs : t.toList.Pairwise (· ≤ ·)) : (t'.toList : Multiset F) ≤ (t.toList : Multiset F).erase x := by
  induction f generalizing t t' with
  | zero => cases h
  | succ f ih =>
    unfold remove at h
    split_ifs at h with hc
    · cases h
      have : x ∉ t.toList := by
        rw [← contains_iff hs x]; simpa using hc
      rw [Multiset.erase_of_notMem (by simpa using this)]
    have hmem : x ∈ t.toList := by
      rw [← contains_iff hs x]; simpa using hc
    cases t with
    | nil => cases h
    | node l v r c s =>
      simp only at h
      obtain ⟨s1, s2, s3, s4⟩ := sorted_mid.1 (by simpa only [toList] using hs)
      by_cases hlt : (x <ᵇ v) = true
      · rw [if_pos hlt] at h
        simp only [goLt_eq, decide_eq_true_eq] at hlt
        have hxl : x ∈ l.toList := by
          simp only [toList, List.mem_append, List.mem_cons] at hmem
          rcases hmem with h | rfl | h
          · exact h
          · exact absurd hlt (lt_irrefl _)
          · exact absurd hlt (not_lt.2 (s4 x h))
        simp only [Go.bind_eq_val] at h
        obtain ⟨bb, -, n, h1, h⟩ := h
        have a : n.toList = (node l v r c s).toList ∧ SizeOK n ∧
            ∀ l1 v1 r1 c1 s1, n = node l1 v1 r1 c1 s1 → x ∈ l1.toList := by
          split_ifs at h1
          · obtain ⟨p, q⟩ := moveRedLeft_weak h1 k
            exact ⟨p, q, fun l1 v1 r1 c1 s1 e => moveRedLeft_prefix h1 l1 v1 r1 c1 s1 e x hxl⟩
          · cases h1
            refine ⟨rfl, k, ?_⟩
            rintro l1 v1 r1 c1 s1 e; cases e; exact hxl
        cases n with
        | nil => cases h
        | node l1 v1 r1 c1 s1' =>
          simp only [Go.bind_eq_val] at h
          obtain ⟨l', e, h⟩ := h
          have hx1 := a.2.2 _ _ _ _ _ rfl
          have hs1 : l1.toList.Pairwise (· ≤ ·) := by
            have := hs; rw [← a.1, toList] at this
            exact (sorted_mid.1 this).1
          have p := remove_weak f x e a.2.1.1
          have q := ih e a.2.1.1 hs1
          obtain ⟨p2, -⟩ := removeBalance_weak h ⟨p.1, a.2.1.2.1⟩
          rw [p2, ← a.1]
          simp only [toList]
          rw [← Multiset.coe_add, ← Multiset.coe_add, Multiset.erase_add_left_pos _ (by simpa using hx1)]
          exact add_le_add q le_rfl
      · rw [if_neg hlt] at h
        simp only [goLt_eq, decide_eq_true_eq, not_lt] at hlt
        simp only [Go.bind_eq_val] at h
        obtain ⟨n, h1, h⟩ := h
        have a : n.toList = (node l v r c s).toList ∧ SizeOK n ∧
            ∀ l1 v1 r1 c1 s1, n = node l1 v1 r1 c1 s1 → v1 ≤ v := by
          split_ifs at h1
          · obtain ⟨p, -, q⟩ := rotateRight_weak h1
            exact ⟨p, q k, fun l1 v1 r1 c1 s1 e => s3 _ (rotateRight_root h1 l1 v1 r1 c1 s1 e)⟩
          · cases h1
            refine ⟨rfl, k, ?_⟩
            rintro l1 v1 r1 c1 s1 e; cases e; exact le_rfl
        cases n with
        | nil => cases h
        | node l1 v1 r1 c1 s1' =>
          have hv1 := a.2.2 _ _ _ _ _ rfl
          have hsn := hs
          rw [← a.1, toList] at hsn
          obtain ⟨t1, t2, t3, t4⟩ := sorted_mid.1 hsn
          simp only at h
          split_ifs at h with hx
          · cases h; exact Multiset.zero_le _
          · simp only [Go.bind_eq_val] at h
            obtain ⟨bb, -, n, h2, h⟩ := h
            have b : n.toList = (node l1 v1 r1 c1 s1').toList ∧ SizeOK n ∧
                ∀ l2 v2 r2 c2 s2, n = node l2 v2 r2 c2 s2 → v2 ≤ v := by
              split_ifs at h2
              · obtain ⟨p, q⟩ := moveRedRight_weak h2 a.2.1
                refine ⟨p, q, fun l2 v2 r2 c2 s2 e => ?_⟩
                rcases moveRedRight_root h2 l2 v2 r2 c2 s2 e with rfl | hm
                · exact hv1
                · exact (t3 _ hm).trans hv1
              · cases h2
                refine ⟨rfl, a.2.1, ?_⟩
                rintro l2 v2 r2 c2 s2 e; cases e; exact hv1
            cases n with
            | nil => cases h
            | node l2 v2 r2 c2 s2' =>
              have hv2 := b.2.2 _ _ _ _ _ rfl
              have hsn := hs
              rw [← a.1, ← b.1, toList] at hsn
              obtain ⟨u1, u2, u3, u4⟩ := sorted_mid.1 hsn
              simp only at h
              split_ifs at h with hx2
              · simp only [goEq_eq, decide_eq_true_eq] at hx2
                subst hx2
                simp only [Go.bind_eq_val] at h
                obtain ⟨m, hm, r', e, h⟩ := h
                obtain ⟨p, q⟩ := removeMin_weak f e b.2.1.2.1
                obtain ⟨p2, q2⟩ := removeBalance_weak h ⟨b.2.1.1, p⟩
                obtain ⟨tl, htl⟩ := min_head hm
                rw [p2, ← a.1, ← b.1]
                simp only [toList]
                rw [htl] at q ⊢
                have e2 : ((l2.toList ++ x :: m :: tl : List F) : Multiset F) = x ::ₘ ((l2.toList ++ m :: tl : List F) : Multiset F) := by
                  rw [Multiset.cons_coe, Multiset.coe_eq_coe]; exact List.perm_middle
                rw [e2, Multiset.erase_cons_head]
                exact ((List.Sublist.refl _).append (q.cons_cons m)).subperm
              · simp only [goEq_eq, decide_eq_true_eq] at hx2
                simp only [Go.bind_eq_val] at h
                obtain ⟨r', e, h⟩ := h
                have hlt2 : v2 < x := lt_of_le_of_ne (hv2.trans hlt) (Ne.symm hx2)
                have hm2 := hmem
                rw [← a.1, ← b.1, toList] at hm2
                have hxl2 : x ∉ l2.toList := fun c => absurd hlt2 (not_lt.2 (u3 x c))
                have p := remove_weak f x e b.2.1.2.1
                have q := ih e b.2.1.2.1 u2
                obtain ⟨p2, -⟩ := removeBalance_weak h ⟨b.2.1.1, p.1⟩
                rw [p2, ← a.1, ← b.1]
                simp only [toList]
                rw [← Multiset.coe_add, ← Multiset.coe_add, Multiset.erase_add_right_neg _ (by simpa using hxl2),
                  ← Multiset.cons_coe, ← Multiset.cons_coe, Multiset.erase_cons_tail _ (Ne.symm hx2)]
                exact add_le_add le_rfl (Multiset.cons_le_cons _ q)

end Node
end Verif.Rb

namespace Verif.Rb.Node
open Verif

theorem add_sorted {F : Type} [LinearOrder F] (x : F) {t t' : Node F} (h : t.add x = .val t') (k : SizeOK t)
    (hs : t.toList.Pairwise (· ≤ ·)) : t'.toList.Pairwise (· ≤ ·) := by
  induction t generalizing t' with
  | nil => cases h; simp [newNode, toList]
  | node l v r c s ihl ihr =>
    obtain ⟨s1, s2, s3, s4⟩ := sorted_mid.1 (by simpa only [toList] using hs)
    simp only [add, goLe_eq, decide_eq_true_eq] at h
    split_ifs at h with hx
    · rw [Go.bind_eq_val] at h
      obtain ⟨l', e, h⟩ := h
      obtain ⟨a, b⟩ := add_weak x e k.1
      obtain ⟨p, q⟩ := addBalance_weak' h ⟨a, k.2.1⟩
      rw [p]; simp only [toList]
      refine sorted_mid.2 ⟨ihl e k.1 s1, s2, ?_, s4⟩
      intro y hy
      rcases List.mem_cons.1 (b.mem_iff.1 hy) with rfl | hy
      · exact hx
      · exact s3 y hy
    · rw [Go.bind_eq_val] at h
      obtain ⟨r', e, h⟩ := h
      obtain ⟨a, b⟩ := add_weak x e k.2.1
      obtain ⟨p, q⟩ := addBalance_weak' h ⟨k.1, a⟩
      rw [p]; simp only [toList]
      refine sorted_mid.2 ⟨s1, ihr e k.2.1 s2, s3, ?_⟩
      intro y hy
      rcases List.mem_cons.1 (b.mem_iff.1 hy) with rfl | hy
      · exact le_of_not_ge hx
      · exact s4 y hy

end Verif.Rb.Node
