import Verif.Proofs.RbWeak

/-! # Red-black tree: removal with arbitrary comparisons (NaN allowed)

The shape of the tree does not depend on the order of the values, so `remove` needs only that the value it looks for is equal to at
most one of the values stored. -/

namespace Verif.Rb
open Verif Verif.Spec

variable {F : Type} [GoOrd F]

namespace Node

/-- As `Pre`, with `¬ x < v` instead of `v ≤ x`. -/
def PreN (x : F) : Node F → Nat → Prop
  | nil, _ => False
  | node l v r c s, b => (Inv (node l v r c s) b ∧ Ready (node l v r c s)) ∨
      (c = false ∧ l.color = false ∧ r.color = true ∧ (x <ᵇ v) = false ∧ ∃ b', b = b' + 1 ∧ Inv l b' ∧ Inv r b')

/-- What `remove` guarantees: one value equal to `x` is gone. -/
def PostN (x : F) (t : Node F) (b : Nat) (res : Go (Node F)) : Prop :=
  ∃ t', res = .val t' ∧ Inv t' b ∧ (t.color = false → t'.color = false) ∧ ∃ y, (x =ᵇ y) = true ∧ (y :: t'.toList).Perm t.toList

/-- `x` is equal to at most one value of the list. -/
def AtMostOne (x : F) (l : List F) : Prop := l.countP (fun y => x =ᵇ y) ≤ 1

theorem contains_pos {t : Node F} {x : F} (h : t.contains x = true) : 1 ≤ t.toList.countP (fun y => x =ᵇ y) := by
  induction t with
  | nil => simp [contains] at h
  | node l v r c s ihl ihr =>
    simp only [toList, List.countP_append, List.countP_cons]
    unfold contains at h
    split_ifs at h with h1 h2
    · simp [h1]; omega
    · have := ihl h; omega
    · have := ihr h; omega

theorem remove_right_tailN {f : Nat} {x : F} {l1 r1 : Node F} {v1 : F} {c1 : Bool} {s1 : Int} {b1 : Nat}
    (ih : (x =ᵇ v1) = false → PostN x r1 b1 (remove f r1 x)) (il : Inv l1 b1) (ir : (x =ᵇ v1) = true → Inv r1 b1 ∧ Ready r1)
    (hc : c1 = true → l1.color = false ∧ r1.color = false) (hf : r1.toList.length < f) :
    ∃ t', (if x =ᵇ v1 then do
              let m ← r1.min
              let r' ← removeMin f r1
              removeBalance (node l1 m r' c1 s1)
            else do
              let r' ← remove f r1 x
              removeBalance (node l1 v1 r' c1 s1)) = .val t' ∧ Inv t' (b1 + if c1 then 0 else 1) ∧
      (c1 = false → l1.color = false → t'.color = false) ∧
      ∃ y, (x =ᵇ y) = true ∧ (y :: t'.toList).Perm (l1.toList ++ v1 :: r1.toList) := by
  by_cases hx : (x =ᵇ v1) = true
  · rw [if_pos hx]
    obtain ⟨ir, rr⟩ := ir hx
    have hne : r1 ≠ nil := by rintro rfl; exact rr
    obtain ⟨m, tl, e1, e2⟩ := min_spec hne
    obtain ⟨r', e3, ir', hr', tr⟩ := removeMin_spec f ir rr hf
    obtain ⟨t', e4, q, it, hcol⟩ := removeBalance_spec (v := m) (c := c1) (s := s1) il ir'
      (fun h => ⟨(hc h).1, hr' (hc h).2⟩)
    refine ⟨t', by simp [e1, e3, e4], it, fun h1 h2 => hcol h1 (.inl h2), v1, hx, ?_⟩
    rw [q, tr, e2, List.tail_cons]
    exact List.perm_middle.symm
  · rw [if_neg hx]
    obtain ⟨r', e3, ir', hr', y, hy, tr⟩ := ih (by simpa using hx)
    obtain ⟨t', e4, q, it, hcol⟩ := removeBalance_spec (v := v1) (c := c1) (s := s1) il ir'
      (fun h => ⟨(hc h).1, hr' (hc h).2⟩)
    refine ⟨t', by simp [e3, e4], it, fun h1 h2 => hcol h1 (.inl h2), y, hy, ?_⟩
    rw [q]
    have h1 : (y :: (l1.toList ++ v1 :: r'.toList)).Perm (l1.toList ++ v1 :: (y :: r'.toList)) := by
      rw [show l1.toList ++ v1 :: (y :: r'.toList) = (l1.toList ++ [v1]) ++ y :: r'.toList by simp,
        show y :: (l1.toList ++ v1 :: r'.toList) = y :: ((l1.toList ++ [v1]) ++ r'.toList) by simp]
      exact List.perm_middle.symm
    exact h1.trans ((tr.cons v1).append_left _)

/-- Before descending to the right, as `prepRight`. -/
theorem prepRightN {x : F} {l r : Node F} {v : F} {c : Bool} {s : Int} {b : Nat} (hp : PreN x (node l v r c s) b)
    (hm : (node l v r c s).contains x = true)
    (hcount : AtMostOne x (node l v r c s).toList) (hvx : (x <ᵇ v) = false) :
    (l = nil ∧ r = nil ∧ (x =ᵇ v) = true ∧ c = true) ∨
    ∃ l0 v0 r0 c0 s0, (if l.color then (node l v r c s).rotateRight else .val (node l v r c s)) =
        .val (node l0 v0 r0 c0 s0) ∧ r0 ≠ nil ∧
    ∃ bb, r0.blackBlack = .val bb ∧ ∃ l1 v1 r1 c1 s1 b1,
      (if bb then (node l0 v0 r0 c0 s0).moveRedRight else .val (node l0 v0 r0 c0 s0)) = .val (node l1 v1 r1 c1 s1) ∧
      Inv l1 b1 ∧ ((x =ᵇ v1) = true → Inv r1 b1 ∧ Ready r1) ∧ ((x =ᵇ v1) = false → PreN x r1 b1 ∧ r1.contains x = true) ∧
      (c1 = true → l1.color = false ∧ r1.color = false) ∧ b = b1 + (if c1 then 0 else 1) ∧
      l1.toList ++ v1 :: r1.toList = l.toList ++ v :: r.toList ∧ (c = false → c1 = false ∧ l1.color = false) := by
  have hcon : (x =ᵇ v) = true ∨ (x =ᵇ v) = false ∧ r.contains x = true := by
    unfold contains at hm
    cases h : (x =ᵇ v)
    · rw [h, hvx] at hm; exact .inr ⟨rfl, by simpa using hm⟩
    · exact .inl rfl
  have hright : (x =ᵇ v) = false → r.contains x = true := fun h => by
    rcases hcon with h' | h'
    · rw [h] at h'; cases h'
    · exact h'.2
  rcases hp with ⟨h, hr⟩ | ⟨rfl, hlc, hrc, -, b', rfl, il, ir⟩
  · obtain ⟨b', hsz, hrc, hcl, il, ir, hb⟩ := h.node_cases
    cases hlc : l.color
    · have hc : c = true := by simpa [Ready, hlc] using hr
      subst hc
      simp only [if_true, add_zero] at hb; subst hb
      cases b with
      | zero =>
        obtain rfl := black_zero il hlc
        obtain rfl := black_zero ir hrc
        left
        rcases hcon with h' | h'
        · exact ⟨rfl, rfl, h', rfl⟩
        · simp [contains] at h'
      | succ b =>
        right
        obtain ⟨ll, lv, lr, ls, rfl⟩ := black_succ il hlc
        obtain ⟨rl, rv, rr, rs, rfl⟩ := black_succ ir hrc
        obtain ⟨rfl, hlr, bl, hbl, ill, ilr⟩ := inv_black.1 il
        obtain ⟨rfl, hrr, br, hbr, irl, irr⟩ := inv_black.1 ir
        obtain rfl : b = bl := by omega
        obtain rfl : b = br := by omega
        refine ⟨_, _, _, _, _, rfl, by simp, ?_⟩
        cases hrl : rl.color
        · refine ⟨true, by simp [blackBlack, color_node, leftG, hrl], ?_⟩
          have irr' : Inv (node rl rv rr true (rl.size + rr.size + 1)) b := inv_red.2 ⟨rfl, hrr, hrl, irl, irr⟩
          cases hll : ll.color
          · refine ⟨_, _, _, _, _, b, (if_pos rfl).trans (moveRedRight_flip hll), ?_, fun _ => ⟨irr', .inl rfl⟩,
              fun h => ⟨.inl ⟨irr', .inl rfl⟩, ?_⟩, by simp, by simp, by simp [toList], by simp⟩
            · exact inv_red.2 ⟨rfl, hlr, hll, ill, ilr⟩
            · have := hright h; simpa only [contains] using this
          · obtain ⟨lll, llv, llr, lls, rfl⟩ := red_cases hll
            obtain ⟨rfl, hllr, hlll, illl, illr⟩ := inv_red.1 ill
            have hne : (x =ᵇ lv) = false := by
              cases hlv : (x =ᵇ lv)
              · rfl
              · exfalso
                have hpos : 1 ≤ (v :: (node rl rv rr false (rl.size + rr.size + 1)).toList).countP (fun y => x =ᵇ y) := by
                  rw [List.countP_cons]
                  rcases hcon with h' | h'
                  · simp [h']
                  · have := contains_pos h'.2; omega
                unfold AtMostOne at hcount
                simp only [toList, List.countP_append, List.countP_cons, hlv, if_true] at hcount hpos
                omega
            refine ⟨_, _, _, _, _, b + 1, (if_pos rfl).trans moveRedRight_rot, ?_,
              fun h => absurd h (by rw [hne]; simp),
              fun _ => ⟨(Or.inr ⟨rfl, hlr, rfl, hvx, b, rfl, ilr, irr'⟩ : _ ∨ _), ?_⟩, fun _ => ⟨rfl, rfl⟩, by simp, by simp [toList], by simp⟩
            · exact inv_black.2 ⟨rfl, hllr, b, rfl, illl, illr⟩
            · rw [contains]
              cases h : (x =ᵇ v)
              · have := hright h
                simp only [hvx, Bool.false_eq_true, if_false]
                simpa only [contains] using this
              · simp
        · refine ⟨false, by simp [blackBlack, color_node, leftG, hrl], _, _, _, _, _, b + 1, rfl,
            il, fun _ => ⟨ir, .inr hrl⟩, fun h => ⟨.inl ⟨ir, .inr hrl⟩, hright h⟩, fun _ => ⟨rfl, rfl⟩, by simp, by simp [toList], by simp⟩
    · have hc : c = false := by
        cases c
        · rfl
        · have := hcl rfl; rw [hlc] at this; cases this
      subst hc
      right
      obtain ⟨ll, lv, lr, ls, rfl⟩ := red_cases hlc
      obtain ⟨rfl, hlr, hll, ill, ilr⟩ := inv_red.1 il
      have ir' : Inv (node lr v r true (lr.size + r.size + 1)) b' := inv_red.2 ⟨rfl, hrc, hlr, ilr, ir⟩
      refine ⟨_, _, _, _, _, rfl, by simp, false,
        by simp [blackBlack, color_node], _, _, _, _, _, b', rfl, ill,
        fun _ => ⟨ir', .inl rfl⟩, fun _ => ⟨.inl ⟨ir', .inl rfl⟩, ?_⟩, by simp, by simpa using hb,
        by simp [toList], fun _ => ⟨rfl, hll⟩⟩
      rw [contains]
      cases h : (x =ᵇ v)
      · simpa only [hvx, Bool.false_eq_true, if_false] using hright h
      · simp
  · right
    obtain ⟨rl, rv, rr, rs, rfl⟩ := red_cases hrc
    exact ⟨_, _, _, _, _, if_neg (by simp [hlc]), by simp, false,
        by simp [blackBlack, color_node], _, _, _, _, _, b', rfl, il,
        fun _ => ⟨ir, .inl rfl⟩, fun h => ⟨.inl ⟨ir, .inl rfl⟩, hright h⟩, by simp, by simp,
        by simp [toList], fun _ => ⟨rfl, hlc⟩⟩

/-- A value found in a subtree is found after `moveRedLeft`. -/
theorem prepLeft_contains {x : F} {l r : Node F} {v : F} {c : Bool} {s : Int} {b : Nat} (h : Inv (node l v r c s) b)
    (hr : Ready (node l v r c s)) (hx : (x <ᵇ v) = true) (hcon : l.contains x = true) {bb : Bool} (hbb : l.blackBlack = .val bb)
    {l1 r1 : Node F} {v1 : F} {c1 : Bool} {s1 : Int}
    (e : (if bb then (node l v r c s).moveRedLeft else .val (node l v r c s)) = .val (node l1 v1 r1 c1 s1)) :
    l1.contains x = true := by
  obtain ⟨b', hs, hrc, hcl, il, ir, hb⟩ := h.node_cases
  cases bb
  · cases e; exact hcon
  · cases l with
    | nil => simp [contains] at hcon
    | node ll lv lr lc ls =>
      have hlc : lc = false := by
        cases lc
        · rfl
        · simp [blackBlack, color_node] at hbb
      subst hlc
      have hc : c = true := by simpa [Ready, color_node] using hr
      subst hc
      obtain ⟨rfl, hlr, b'', rfl, ill, ilr⟩ := inv_black.1 il
      obtain ⟨rl, rv, rr, rs, rfl⟩ := black_succ ir hrc
      rw [if_pos rfl] at e
      cases hrl : rl.color
      · rw [moveRedLeft_flip hrl] at e
        cases e
        simpa only [contains] using hcon
      · obtain ⟨a, av, aa, as, rfl⟩ := red_cases hrl
        rw [moveRedLeft_rot] at e
        cases e
        rw [contains]
        cases hxv : (x =ᵇ v)
        · rw [if_neg (by simp), if_pos hx]
          simpa only [contains] using hcon
        · simp

theorem remove_specN (fuel : Nat) {x : F} {t : Node F} {b : Nat} (hp : PreN x t b) (heq : ∀ v, (x =ᵇ v) = true → (x <ᵇ v) = false)
    (hm : t.contains x = true) (hcount : AtMostOne x t.toList)
    (hf : t.toList.length < fuel) : PostN x t b (remove fuel t x) := by
  induction fuel generalizing t b with
  | zero => omega
  | succ f ih =>
    cases t with
    | nil => exact absurd hp (by simp [PreN])
    | node l v r c s =>
      simp only [remove, hm, Bool.not_true, Bool.false_eq_true, if_false]
      simp only [toList, List.length_append, List.length_cons] at hf
      by_cases hxv : (x <ᵇ v) = true
      · -- descend to the left
        rw [if_pos hxv]
        obtain ⟨h, hr⟩ : Inv (node l v r c s) b ∧ Ready (node l v r c s) := by
          rcases hp with hp | ⟨-, -, -, hvx, -⟩
          · exact hp
          · rw [hxv] at hvx; cases hvx
        have hml : l.contains x = true := by
          unfold contains at hm
          cases he : (x =ᵇ v)
          · simpa [he, hxv] using hm
          · have := heq v he; rw [hxv] at this; cases this
        have hl : l ≠ nil := by rintro rfl; simp [contains] at hml
        obtain ⟨bb, e1, l1, v1, r1, c1, s1', b1, e2, il, rl, ir, hc, hb, hcc, ht, tl, htl⟩ := prepLeft h hr hl
        have hm1 := prepLeft_contains h hr hxv hml e1 e2
        unfold AtMostOne at hcount
        rw [toList, ← ht] at hcount
        have hlen := congrArg List.length ht
        simp only [List.length_append, List.length_cons] at hlen
        have hpre : PreN x l1 b1 := by
          cases l1 with
          | nil => exact absurd rl (by simp [Ready])
          | node => exact .inl ⟨il, rl⟩
        obtain ⟨l', e3, il', hl', y, hy, tl'⟩ := ih hpre hm1
          (by unfold AtMostOne; rw [List.countP_append] at hcount; omega) (by omega)
        obtain ⟨t', e4, q, it, hcol⟩ := removeBalance_spec (v := v1) (c := c1) (s := s1') il' ir
          (fun h => ⟨hl' (hc h).1, (hc h).2⟩)
        refine ⟨t', ?_, by rw [hb]; exact it, ?_, y, hy, ?_⟩
        · simp only [e1, Go.val_bind]
          rw [e2]; simp [e3, e4]
        · intro hcf
          obtain ⟨k1, k2⟩ := hcc hcf
          exact hcol k1 (.inr k2)
        · rw [q, toList, ← ht]
          exact tl'.append_right (v1 :: r1.toList)
      · -- descend to the right
        rw [if_neg hxv]
        rcases prepRightN hp hm hcount (by simpa using hxv) with ⟨rfl, rfl, hxv', rfl⟩ | ⟨l0, v0, r0, c0, s0, e0, hr0, bb, e1, l1, v1, r1, c1,
          s1', b1, e2, il, ir, hpre, hc, hb, ht, hcc⟩
        · refine ⟨nil, by simp [color_nil, isNil, hxv'], ?_, fun _ => rfl, v, hxv', by simp [toList]⟩
          simp only [PreN, color_nil] at hp
          rcases hp with ⟨hp, hr⟩ | ⟨-, -, h, -⟩
          · exact (inv_red.1 hp).2.2.2.1
          · cases h
        · unfold AtMostOne at hcount
          rw [toList, ← ht] at hcount
          have hlen := congrArg List.length ht
          simp only [List.length_append, List.length_cons] at hlen
          have := remove_right_tailN (f := f) (s1 := s1') (c1 := c1) (fun hne => ih (hpre hne).1 (hpre hne).2 (by
              unfold AtMostOne
              rw [List.countP_append, List.countP_cons] at hcount; omega) (by omega)) il ir hc (by omega)
          obtain ⟨t', e3, it, hcol, y, hy, tl⟩ := this
          refine ⟨t', ?_, by rw [hb]; exact it, fun hcf => hcol (hcc hcf).1 (hcc hcf).2, y, hy, by rw [toList, ← ht]; exact tl⟩
          rw [e0]; simp only [Go.val_bind]
          have hb2 : (x =ᵇ v0 && r0.isNil) = false := by
            cases r0 with
            | nil => exact absurd rfl hr0
            | node => simp [isNil]
          rw [hb2, e1]; simp only [Go.val_bind, Bool.false_eq_true, if_false]
          rw [e2]; simp only [Go.val_bind]
          exact e3

theorem remove_rootN (x : F) {t : Node F} (h : RootInv t) (heq : ∀ v, (x =ᵇ v) = true → (x <ᵇ v) = false)
    (hcount : AtMostOne x t.toList) :
    ∃ t', remove (t.nodes + 1) t x = .val t' ∧ RootInv t' ∧
      (t' = t ∨ ∃ y, (x =ᵇ y) = true ∧ (y :: t'.toList).Perm t.toList) := by
  cases hm : t.contains x
  · exact ⟨t, by simp [remove, hm], h, .inl rfl⟩
  · have hne : t ≠ nil := by rintro rfl; simp [contains] at hm
    have base : ∀ {t : Node F} {b : Nat}, Inv t b → Ready t → AtMostOne x t.toList → t.contains x = true →
        ∃ t', remove (t.nodes + 1) t x = .val t' ∧ RootInv t' ∧ ∃ y, (x =ᵇ y) = true ∧ (y :: t'.toList).Perm t.toList := by
      intro t b hi hr hc hm
      have hp : PreN x t b := by
        cases t with
        | nil => exact absurd hr (by simp [Ready])
        | node => exact .inl ⟨hi, hr⟩
      obtain ⟨t', e, i, -, q⟩ := remove_specN (t.nodes + 1) hp heq hm hc (by rw [nodes_eq]; omega)
      exact ⟨t', e, ⟨b, .inl i⟩, q⟩
    obtain ⟨b, ⟨hi, hr⟩ | ⟨hi, hr⟩⟩ := h.ready hne
    · obtain ⟨t', e, r, q⟩ := base hi hr hcount hm
      exact ⟨t', e, r, .inr q⟩
    · have hcon : t.toggle.contains x = t.contains x := by cases t <;> simp [toggle, contains]
      obtain ⟨t', e, r, y, hy, q⟩ := base hi hr (by rwa [toggle_toList]) (by rwa [hcon])
      have hn : t.toggle.nodes = t.nodes := by rw [nodes_eq, nodes_eq, toggle_toList]
      rw [remove_toggle, hn] at e
      cases hh : remove (t.nodes + 1) t x with
      | panic => rw [hh] at e; cases e
      | hang => rw [hh] at e; cases e
      | val t'' =>
        rw [hh, tog_val] at e; injection e with e; subst e
        rw [toggle_toList, toggle_toList] at q
        refine ⟨t'', rfl, ?_, .inr ⟨y, hy, q⟩⟩
        simpa [toggle_toggle] using r.toggle

end Node
end Verif.Rb
