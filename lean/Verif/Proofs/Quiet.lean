import Verif.Proofs.NoHang
import Verif.Proofs.SkipRun

/-! # No method blocks: min, max, heaps, trees, quantiles; and the objects of `Model/LockedMetrics.lean` -/

set_option linter.unusedSectionVars false

namespace Verif
open Verif.Spec

/-! ## minmax -/

namespace MinMax
variable {F : Type} [GoOrd F] (O : Ext F)

theorem Max.push_sat {s : Max.St F} (h : 0 ≤ s.window ∧ RingOK s.window s.queue) (x : F) :
    (Max.push O s x).Sat fun r => 0 ≤ r.1.window ∧ RingOK r.1.window r.1.queue := by
  unfold Max.push
  by_cases hw : s.window ≠ 0
  · rw [if_pos hw]
    unfold Max.evict
    by_cases hl : (s.queue.len : Int) = s.window
    · rw [if_pos hl]
      obtain ⟨y, ys, hi, hg, h2, h3⟩ := h.2.get hw hl
      rw [hg]
      obtain ⟨e, h4⟩ := h2.put hw h3 x
      simp only []
      cases s.deque with
      | nil => trivial
      | cons f d =>
        simp only []
        by_cases hf : (f =ᵇ y) = true
        · rw [if_pos hf]; simp only []; rw [e]; exact ⟨h.1, h4⟩
        · rw [if_neg hf]; simp only []; rw [e]; exact ⟨h.1, h4⟩
    · rw [if_neg hl]
      have := (h.2 hw).2.1
      unfold Ring.len at hl
      obtain ⟨e, h4⟩ := h.2.put hw (by omega) x
      simp only []
      rw [e]
      exact ⟨h.1, h4⟩
  · rw [if_neg hw]; exact h

theorem Min.push_sat {s : Min.St F} (h : 0 ≤ s.window ∧ RingOK s.window s.queue) (x : F) :
    (Min.push O s x).Sat fun r => 0 ≤ r.1.window ∧ RingOK r.1.window r.1.queue := by
  unfold Min.push
  by_cases hw : s.window ≠ 0
  · rw [if_pos hw]
    unfold Min.evict
    by_cases hl : (s.queue.len : Int) = s.window
    · rw [if_pos hl]
      obtain ⟨y, ys, hi, hg, h2, h3⟩ := h.2.get hw hl
      rw [hg]
      obtain ⟨e, h4⟩ := h2.put hw h3 x
      simp only []
      cases s.deque with
      | nil => trivial
      | cons f d =>
        simp only []
        by_cases hf : (f =ᵇ y) = true
        · rw [if_pos hf]; simp only []; rw [e]; exact ⟨h.1, h4⟩
        · rw [if_neg hf]; simp only []; rw [e]; exact ⟨h.1, h4⟩
    · rw [if_neg hl]
      have := (h.2 hw).2.1
      unfold Ring.len at hl
      obtain ⟨e, h4⟩ := h.2.put hw (by omega) x
      simp only []
      rw [e]
      exact ⟨h.1, h4⟩
  · rw [if_neg hw]; exact h

theorem Max.value_sat (s : Max.St F) : (Max.value s).Sat fun _ => True := by
  unfold Max.value
  by_cases h1 : s.count = 0
  · rw [if_pos h1]; trivial
  rw [if_neg h1]
  by_cases h2 : s.window = 0
  · rw [if_pos h2]; trivial
  rw [if_neg h2]
  cases s.deque <;> trivial

theorem Min.value_sat (s : Min.St F) : (Min.value s).Sat fun _ => True := by
  unfold Min.value
  by_cases h1 : s.count = 0
  · rw [if_pos h1]; trivial
  rw [if_neg h1]
  by_cases h2 : s.window = 0
  · rw [if_pos h2]; trivial
  rw [if_neg h2]
  cases s.deque <;> trivial

end MinMax

/-! ## Heaps -/

namespace Heap
variable {F : Type}

theorem less_sat (m : Mem F) (h : Heap F) (i j : Nat) : (less m h i j).Sat fun _ => True := by
  unfold less; split <;> trivial

theorem swap_sat (m : Mem F) (h : Heap F) (i j : Nat) : (swap m h i j).Sat fun _ => True := by
  unfold swap; split <;> trivial

theorem peek_sat (m : Mem F) (h : Heap F) : (peek m h).Sat fun _ => True := by
  unfold peek; split <;> trivial

theorem rawPop_sat (m : Mem F) (h : Heap F) : (rawPop m h).Sat fun _ => True := by
  unfold rawPop; split <;> trivial

/-- `up` ends: the position decreases. -/
theorem up_sat (fuel : Nat) (m : Mem F) (h : Heap F) (j : Nat) (hf : j < fuel) : (up fuel m h j).Sat fun _ => True := by
  induction fuel generalizing m h j with
  | zero => exact absurd hf (by omega)
  | succ fuel ih =>
    simp only [up]
    by_cases hj : (j - 1) / 2 = j
    · rw [if_pos hj]; trivial
    · rw [if_neg hj]
      refine (less_sat ..).bind fun b _ => ?_
      cases b with
      | false => trivial
      | true => exact (swap_sat ..).bind fun r _ => ih _ _ _ (by omega)

/-- `down` ends: the position increases. -/
theorem down_sat (fuel : Nat) (m : Mem F) (h : Heap F) (i n : Nat) (hf : n < fuel + i) (h0 : 0 < fuel) :
    (down fuel m h i n).Sat fun _ => True := by
  induction fuel generalizing m h i with
  | zero => exact absurd h0 (by omega)
  | succ fuel ih =>
    simp only [down]
    by_cases hj : 2 * i + 1 ≥ n
    · rw [if_pos hj]; trivial
    · rw [if_neg hj]
      refine Go.Sat.bind (P := fun j => 2 * i + 1 ≤ j) ?_ fun j hj' => ?_
      · by_cases h1 : 2 * i + 1 + 1 < n
        · rw [if_pos h1]
          refine (less_sat ..).bind fun b _ => ?_
          cases b with
          | false => exact Nat.le_refl _
          | true => exact Nat.le_succ _
        · rw [if_neg h1]; exact Nat.le_refl _
      · refine (less_sat ..).bind fun b _ => ?_
        cases b with
        | false => trivial
        | true => exact (swap_sat ..).bind fun r _ => ih _ _ _ (by omega) (by omega)

theorem push_sat (m : Mem F) (h : Heap F) (a : Nat) : (push m h a).Sat fun _ => True := up_sat _ _ _ _ (by omega)

theorem pop_sat (m : Mem F) (h : Heap F) : (pop m h).Sat fun _ => True := by
  unfold pop
  by_cases h0 : h.len = 0
  · rw [if_pos h0]; trivial
  · rw [if_neg h0]
    exact (swap_sat ..).bind fun r _ => (down_sat _ _ _ _ _ (by omega) (by omega)).bind fun r _ => rawPop_sat ..

theorem fix_sat (m : Mem F) (h : Heap F) (i : Int) : (fix m h i).Sat fun _ => True := by
  unfold fix
  by_cases h0 : i < 0
  · rw [if_pos h0]; trivial
  · rw [if_neg h0]
    refine (down_sat _ _ _ _ _ (by omega) (by omega)).bind fun r _ => ?_
    split_ifs
    · trivial
    · exact up_sat _ _ _ _ (by omega)

theorem removeAt_sat (m : Mem F) (h : Heap F) (i : Int) : (removeAt m h i).Sat fun _ => True := by
  unfold removeAt
  by_cases h0 : i < 0 ∨ h.len = 0
  · rw [if_pos h0]; trivial
  · rw [if_neg h0]
    refine Go.Sat.bind (P := fun _ => True) ?_ fun r _ => (rawPop_sat ..).bind fun r _ => trivial
    by_cases h1 : h.len - 1 ≠ i.toNat
    · rw [if_pos h1]
      refine (swap_sat ..).bind fun r _ => (down_sat _ _ _ _ _ (by omega) (by omega)).bind fun r _ => ?_
      split_ifs
      · trivial
      · exact up_sat _ _ _ _ (by omega)
    · rw [if_neg h1]; trivial

theorem update_sat (m : Mem F) (h : Heap F) (a : Nat) (x : F) : (update m h a x).Sat fun _ => True := fix_sat ..

theorem remove_sat (m : Mem F) (h : Heap F) (a : Nat) : (remove m h a).Sat fun _ => True := removeAt_sat ..

end Heap

namespace HeapMedian
open Heap
variable {F : Type} [GoOrd F]

/-- What is needed for the queue not to block. -/
def QOK (s : HM F) : Prop := 0 ≤ s.window ∧ RingOK s.window s.queue

/-- The queue and the window stay. -/
def SameQ (s s' : HM F) : Prop := s'.queue = s.queue ∧ s'.window = s.window

theorem rebalance_sat (s : HM F) (i : Nat) : (rebalance s i).Sat fun r => SameQ s r.1 := by
  unfold rebalance
  split_ifs
  · exact (pop_sat ..).bind fun r _ => (push_sat ..).bind fun q _ => ⟨rfl, rfl⟩
  · exact (pop_sat ..).bind fun r _ => (push_sat ..).bind fun q _ => ⟨rfl, rfl⟩
  · exact ⟨rfl, rfl⟩

theorem replace_sat (s : HM F) (i : Nat) (x : F) : (replace s i x).Sat fun r => SameQ s r := by
  unfold replace
  split_ifs
  · refine (peek_sat ..).bind fun p _ => ?_
    split_ifs
    · exact (update_sat ..).bind fun r _ => ⟨rfl, rfl⟩
    · exact (remove_sat ..).bind fun r _ => (push_sat ..).bind fun q _ => ⟨rfl, rfl⟩
    · exact (remove_sat ..).bind fun r _ => (push_sat ..).bind fun q _ => ⟨rfl, rfl⟩
  · refine (peek_sat ..).bind fun p _ => ?_
    split_ifs
    · exact (update_sat ..).bind fun r _ => ⟨rfl, rfl⟩
    · exact (remove_sat ..).bind fun r _ => (push_sat ..).bind fun q _ => ⟨rfl, rfl⟩

theorem insert_sat (s : HM F) (x : F) : (insert s x).Sat fun r => SameQ s r.1 := by
  unfold insert
  refine Go.Sat.bind (P := fun _ => True) ?_ fun b _ => ?_
  · split_ifs
    · trivial
    · exact (peek_sat ..).bind fun p _ => trivial
  · split_ifs
    · exact (push_sat ..).bind fun q _ => ⟨rfl, rfl⟩
    · exact (push_sat ..).bind fun q _ => ⟨rfl, rfl⟩

theorem enqueue_sat {s : HM F} (h : QOK s) (hl : s.window ≠ 0 → (s.queue.items.length : Int) < s.window) (i : Nat) :
    (enqueue s i).Sat fun r => QOK r.1 := by
  unfold enqueue
  by_cases hw : s.window ≠ 0
  · rw [if_pos hw]
    obtain ⟨e, h4⟩ := h.2.put hw (hl hw) i
    rw [e]
    exact ⟨h.1, h4⟩
  · rw [if_neg hw]; exact h

theorem push_sat {s : HM F} (h : QOK s) (x : F) : (push s x).Sat fun r => QOK r.1 := by
  unfold push
  by_cases hl : s.window ≠ 0 ∧ (s.queue.len : Int) = s.window
  · rw [if_pos hl]
    obtain ⟨y, ys, hi, hg, h2, h3⟩ := h.2.get hl.1 hl.2
    rw [hg]
    refine (replace_sat _ y x).bind fun r hr => (rebalance_sat r y).bind fun q hq => enqueue_sat ⟨?_, ?_⟩ ?_ _
    · rw [hq.2, hr.2]; exact h.1
    · rw [hq.1, hq.2, hr.1, hr.2]; exact h2
    · rw [hq.1, hq.2, hr.1, hr.2]; intro _; exact h3
  · rw [if_neg hl]
    refine (insert_sat s x).bind fun r hr => (rebalance_sat r.1 r.2).bind fun q hq => enqueue_sat ⟨?_, ?_⟩ ?_ _
    · rw [hq.2, hr.2]; exact h.1
    · rw [hq.1, hq.2, hr.1, hr.2]; exact h.2
    · rw [hq.1, hq.2, hr.1, hr.2]
      intro hw
      have := (h.2 hw).2.1
      by_contra hc
      exact hl ⟨hw, by unfold Ring.len; omega⟩

theorem value_sat (O : FOps F) (s : HM F) : (value O s).Sat fun _ => True := by
  unfold value
  split_ifs
  · trivial
  · exact (peek_sat ..).bind fun p _ => trivial
  · exact (peek_sat ..).bind fun p _ => trivial
  · exact (peek_sat ..).bind fun p _ => (peek_sat ..).bind fun p _ => trivial

end HeapMedian

/-! ## Red-black trees -/

namespace Rb.Node
variable {F : Type}

theorem leftG_sat (n : Node F) : n.leftG.Sat fun _ => True := by cases n <;> trivial

theorem blackBlack_sat (n : Node F) : n.blackBlack.Sat fun _ => True := by
  unfold blackBlack
  split_ifs
  · trivial
  · exact (leftG_sat n).bind fun _ _ => trivial

theorem rotateLeft_sat (n : Node F) : n.rotateLeft.Sat fun n' => n'.nodes = n.nodes := by
  unfold rotateLeft
  split
  · show _ = _; simp only [nodes]; omega
  · trivial

theorem rotateRight_sat (n : Node F) : n.rotateRight.Sat fun n' => n'.nodes = n.nodes := by
  unfold rotateRight
  split
  · show _ = _; simp only [nodes]; omega
  · trivial

theorem flipColors_sat (n : Node F) : n.flipColors.Sat fun n' => n'.nodes = n.nodes := by
  unfold flipColors
  split
  · show _ = _; simp only [nodes]
  · trivial

theorem moveRedLeft_sat (n : Node F) : n.moveRedLeft.Sat fun n' => n'.nodes = n.nodes := by
  unfold moveRedLeft
  refine (flipColors_sat n).bind fun m hm => ?_
  cases m with
  | nil => trivial
  | node l v r c s =>
    refine (leftG_sat r).bind fun rl _ => ?_
    split_ifs
    · refine (rotateRight_sat r).bind fun r' hr => (rotateLeft_sat _).bind fun n1 h1 => (flipColors_sat n1).mono fun n2 h2 => ?_
      rw [h2, h1, ← hm]
      simp only [nodes, hr]
    · exact hm

theorem moveRedRight_sat (n : Node F) : n.moveRedRight.Sat fun n' => n'.nodes = n.nodes := by
  unfold moveRedRight
  refine (flipColors_sat n).bind fun m hm => ?_
  cases m with
  | nil => trivial
  | node l v r c s =>
    refine (leftG_sat l).bind fun rl _ => ?_
    split_ifs
    · refine (rotateRight_sat _).bind fun n1 h1 => (flipColors_sat n1).mono fun n2 h2 => ?_
      rw [h2, h1, ← hm]
    · exact hm

theorem balanceTail_sat (n : Node F) : n.balanceTail.Sat fun _ => True := by
  unfold balanceTail
  refine Go.Sat.bind (P := fun _ => True) ?_ fun n _ => Go.Sat.bind (P := fun _ => True) ?_ fun n _ => ?_
  · cases n with
    | nil => trivial
    | node l v r c s =>
      simp only []
      split_ifs
      · exact (rotateRight_sat _).mono fun _ _ => trivial
      · trivial
  · cases n with
    | nil => trivial
    | node l v r c s =>
      simp only []
      split_ifs
      · exact (flipColors_sat _).mono fun _ _ => trivial
      · trivial
  · cases n <;> trivial

theorem addBalance_sat (n : Node F) : n.addBalance.Sat fun _ => True := by
  cases n with
  | nil => trivial
  | node l v r c s =>
    refine Go.Sat.bind (P := fun _ => True) ?_ fun n _ => balanceTail_sat n
    split_ifs
    · exact (rotateLeft_sat _).mono fun _ _ => trivial
    · trivial

theorem removeBalance_sat (n : Node F) : n.removeBalance.Sat fun _ => True := by
  cases n with
  | nil => trivial
  | node l v r c s =>
    refine Go.Sat.bind (P := fun _ => True) ?_ fun n _ => balanceTail_sat n
    split_ifs
    · exact (rotateLeft_sat _).mono fun _ _ => trivial
    · trivial

theorem add_sat [GoOrd F] (n : Node F) (x : F) : (n.add x).Sat fun _ => True := by
  induction n with
  | nil => trivial
  | node l v r c s ihl ihr =>
    simp only [add]
    split_ifs
    · exact ihl.bind fun l' _ => addBalance_sat _
    · exact ihr.bind fun l' _ => addBalance_sat _

theorem min_sat (n : Node F) : n.min.Sat fun _ => True := by
  induction n with
  | nil => trivial
  | node l v r c s ihl ihr =>
    cases l with
    | nil => trivial
    | node => exact ihl

theorem removeMin_sat (fuel : Nat) (n : Node F) (hf : n.nodes < fuel) : (n.removeMin fuel).Sat fun _ => True := by
  induction fuel generalizing n with
  | zero => exact absurd hf (by omega)
  | succ fuel ih =>
    cases n with
    | nil => trivial
    | node l v r c s =>
      cases l with
      | nil => trivial
      | node ll lv lr lc ls =>
        simp only [removeMin]
        refine (blackBlack_sat _).bind fun bb _ => ?_
        refine Go.Sat.bind (P := fun m => m.nodes = (node (node ll lv lr lc ls) v r c s).nodes) ?_ fun m hm => ?_
        · split_ifs
          · exact moveRedLeft_sat _
          · exact rfl
        · cases m with
          | nil => trivial
          | node l' v' r' c' s' =>
            have h1 : l'.nodes + r'.nodes + 1 = (node (node ll lv lr lc ls) v r c s).nodes := hm
            exact (ih l' (by omega)).bind fun _ _ => removeBalance_sat _

/-- `remove` ends, whatever the tree: every recursive call is on a smaller one. -/
theorem remove_sat [GoOrd F] (fuel : Nat) (n : Node F) (x : F) (hf : n.nodes < fuel) : (n.remove fuel x).Sat fun _ => True := by
  induction fuel generalizing n with
  | zero => exact absurd hf (by omega)
  | succ fuel ih =>
    simp only [remove]
    split_ifs
    · trivial
    · cases n with
      | nil => trivial
      | node l v r c s =>
        simp only []
        by_cases hxv : (x <ᵇ v) = true
        · rw [if_pos hxv]
          refine (blackBlack_sat _).bind fun bb _ => ?_
          refine Go.Sat.bind (P := fun m => m.nodes = (node l v r c s).nodes) ?_ fun m hm => ?_
          · split_ifs
            · exact moveRedLeft_sat _
            · exact rfl
          · cases m with
            | nil => trivial
            | node l' v' r' c' s' =>
              have h1 : l'.nodes + r'.nodes + 1 = (node l v r c s).nodes := hm
              exact (ih l' (by omega)).bind fun _ _ => removeBalance_sat _
        · rw [if_neg hxv]
          refine Go.Sat.bind (P := fun m => m.nodes = (node l v r c s).nodes) ?_ fun m hm => ?_
          · split_ifs
            · exact rotateRight_sat _
            · exact rfl
          · cases m with
            | nil => trivial
            | node l' v' r' c' s' =>
              simp only []
              split_ifs
              · trivial
              · refine (blackBlack_sat _).bind fun bb _ => ?_
                refine Go.Sat.bind (P := fun m => m.nodes = (node l v r c s).nodes) ?_ fun m hm2 => ?_
                · split_ifs
                  · exact (moveRedRight_sat _).mono fun _ h => h.trans hm
                  · exact hm
                · cases m with
                  | nil => trivial
                  | node l2 v2 r2 c2 s2 =>
                    have h1 : l2.nodes + r2.nodes + 1 = (node l v r c s).nodes := hm2
                    simp only []
                    split_ifs
                    · exact (min_sat r2).bind fun _ _ => (removeMin_sat fuel r2 (by omega)).bind fun _ _ => removeBalance_sat _
                    · exact (ih r2 (by omega)).bind fun _ _ => removeBalance_sat _

end Rb.Node

/-! ## Quantiles -/

namespace Quant
variable {F : Type}

/-- No operation of the order statistic blocks, in the states described by `J`. -/
structure StatQuiet (st : Statistic F) (J : st.σ → Prop) : Prop where
  empty : J st.empty
  add : ∀ s x, J s → (st.add s x).Sat J
  remove : ∀ s x, J s → (st.remove s x).Sat J
  select : ∀ s k, J s → (st.select s k).Sat fun _ => True
  clear : ∀ s, J s → J (st.clear s)

theorem rbStat_quiet [GoOrd F] : StatQuiet (rbStat F) fun _ => True where
  empty := trivial
  add s x _ := (Rb.Node.add_sat s.root x).bind fun _ _ => trivial
  remove s x _ := (Rb.Node.remove_sat _ s.root x (by omega)).bind fun _ _ => trivial
  select _ _ _ := trivial
  clear _ _ := trivial

section
variable [LinearOrder F]

theorem avlStat_quiet : StatQuiet (avlStat F) fun t => ∃ S, Avl.Tree.Inv S t where
  empty := ⟨0, Avl.Tree.Inv.empty⟩
  add s x h := by
    obtain ⟨S, h⟩ := h
    obtain ⟨s', e, i⟩ := h.add x
    show (Avl.Tree.add s x).Sat _
    rw [e]; exact ⟨_, i⟩
  remove s x h := by
    obtain ⟨S, h⟩ := h
    obtain ⟨s', e, i⟩ := h.remove x
    show (Avl.Tree.remove s x).Sat _
    rw [e]; exact ⟨_, i⟩
  select _ _ _ := trivial
  clear _ _ := ⟨0, Avl.Tree.Inv.empty⟩

theorem skipStat_quiet [Nonempty F] {M : Nat} (hM : 0 < M) (draws : Nat → Nat → Bool) :
    StatQuiet (skipStat F M draws) fun s => ∃ S, Skip.Rep M S s where
  empty := ⟨0, (Skip.RepE.new hM draws).rep⟩
  add s x h := by
    obtain ⟨S, h⟩ := h
    obtain ⟨s', e, i⟩ := h.step (.add x)
    show (Skip.SkipList.add s x).Sat _
    rw [show Skip.SkipList.add s x = .val s' from e]; exact ⟨_, i⟩
  remove s x h := by
    obtain ⟨S, h⟩ := h
    obtain ⟨s', e, i⟩ := h.step (.remove x)
    show (Skip.SkipList.remove s x).Sat _
    rw [show Skip.SkipList.remove s x = .val s' from e]; exact ⟨_, i⟩
  select s k h := by
    obtain ⟨S, h⟩ := h
    have W := skipStat_weak (F := F) hM draws
    have hw : 0 ≤ k ∧ k < (skipStat F M draws).size s ∨ (k < 0 ∨ (skipStat F M draws).size s ≤ k) := by omega
    rcases hw with ⟨h0, h1⟩ | h1
    · obtain ⟨v, -, e⟩ := W.sel_in h k h0 h1
      rw [e]; trivial
    · rw [W.sel_out h k h1]; trivial
  clear s h := by
    obtain ⟨S, h⟩ := h
    exact ⟨_, (skipStat_weak (F := F) hM draws).clear h⟩

end

namespace Quantile
variable {st : Statistic F} {J : st.σ → Prop}

/-- What is needed for the methods not to block. -/
def QOK (J : st.σ → Prop) (q : Quantile st) : Prop := 0 ≤ q.window ∧ RingOK q.window q.queue ∧ J q.statistic

theorem add_sat (hq : StatQuiet st J) {q : Quantile st} (h : QOK J q) (x : F) : (push.add x q).Sat fun r => QOK J r.1 := by
  unfold push.add
  have := hq.add q.statistic x h.2.2
  rcases e : st.add q.statistic x with s | _ | _
  · rw [e] at this; exact ⟨h.1, h.2.1, this⟩
  · trivial
  · rw [e] at this; exact this

theorem put_sat (hq : StatQuiet st J) {q : Quantile st} (h : QOK J q) (hw : q.window ≠ 0) (hl : (q.queue.items.length : Int) < q.window) (x : F) :
    (push.put x q).Sat fun r => QOK J r.1 := by
  unfold push.put
  obtain ⟨e, h4⟩ := h.2.1.put hw hl x
  rw [e]
  exact add_sat hq (q := { q with queue := { q.queue with items := q.queue.items ++ [x] } }) ⟨h.1, h4, h.2.2⟩ x

theorem push_sat (hq : StatQuiet st J) {q : Quantile st} (h : QOK J q) (x : F) : (q.push x).Sat fun r => QOK J r.1 := by
  unfold push
  by_cases hw : q.window ≠ 0
  · rw [if_pos hw]
    by_cases hl : (q.queue.len : Int) = q.window
    · rw [if_pos hl]
      obtain ⟨y, ys, hi, hg, h2, h3⟩ := h.2.1.get hw hl
      rw [hg]
      simp only []
      have := hq.remove q.statistic y h.2.2
      rcases e : st.remove q.statistic y with s | _ | _
      · rw [e] at this
        exact put_sat hq (q := { q with queue := { q.queue with items := ys }, statistic := s }) ⟨h.1, h2, this⟩ hw h3 x
      · trivial
      · rw [e] at this; exact this
    · rw [if_neg hl]
      have := (h.2.1 hw).2.1
      unfold Ring.len at hl
      exact put_sat hq h hw (by omega) x
  · rw [if_neg hw]; exact add_sat hq h x

theorem sel_sat (hq : StatQuiet st J) {q : Quantile st} (h : QOK J q) (k : Int) : (q.sel k).Sat fun _ => True := by
  unfold sel
  have := hq.select q.statistic k h.2.2
  rcases e : st.select q.statistic k with v | _ | _
  · cases v <;> trivial
  · trivial
  · rw [e] at this; exact this

theorem value_sat [GoOrd F] (O : FOps F) (hq : StatQuiet st J) {q : Quantile st} (h : QOK J q) (v : F) : (q.value O v).Sat fun _ => True := by
  have h1 : ∀ k, (do let v ← q.sel k; pure (.ok v) : Go (Except Err F)).Sat fun _ => True :=
    fun k => (sel_sat hq h k).bind fun _ _ => trivial
  have h2 : ∀ k j (f : F → F → F), (do let lo ← q.sel k; let hi ← q.sel j; pure (.ok (f lo hi)) : Go (Except Err F)).Sat fun _ => True :=
    fun k j f => (sel_sat hq h k).bind fun _ _ => (sel_sat hq h j).bind fun _ _ => trivial
  unfold value
  simp only []
  split_ifs <;> first | trivial | exact h1 _ | exact h2 _ _ _

theorem iqr_sat [GoOrd F] (O : FOps F) (hq : StatQuiet st J) {q : Quantile st} (h : QOK J q) : (q.iqrValue O).Sat fun _ => True := by
  unfold iqrValue
  refine (value_sat O hq h _).bind fun v _ => ?_
  cases v with
  | error e => trivial
  | ok v =>
    refine (value_sat O hq h _).bind fun v _ => ?_
    cases v <;> trivial

end Quantile
end Quant

/-! ## Objects -/

namespace Locks
variable {σ A V R : Type}

/-- No method blocks, in the states described by `J`. -/
structure Quiet (D : Methods σ A V R) (J : σ → Prop) : Prop where
  push : ∀ s x, J s → (D.push s x).Sat fun r => J r.1
  get : ∀ s v, J s → (D.get s v).Sat fun _ => True
  clear : ∀ s, J s → J (D.clear s)

theorem Quiet.sem {D : Methods σ A V R} {J : σ → Prop} (h : Quiet D J) (c : Call A V) {s : σ} (hs : J s) :
    (D.sem c s).Sat fun r => J r.1 := by
  cases c with
  | push x => exact (h.push s x hs).bind fun r hr => hr
  | get v => exact (h.get s v hs).bind fun r _ => hs
  | clear => exact h.clear s hs

theorem Quiet.seq {D : Methods σ A V R} {J : σ → Prop} (h : Quiet D J) {s q : σ} (hs : J s) {lin : List (Nat × Call A V × Out R)}
    (hr : SeqRun D.sem s lin q) : J q := by
  induction hr with
  | nil => exact hs
  | snoc _ e ih => exact (h.sem _ ih).of_val e

theorem max_quiet {F : Type} [GoOrd F] (O : MinMax.Ext F) : Quiet (maxMethods O) fun s => 0 ≤ s.window ∧ RingOK s.window s.queue where
  push s x h := MinMax.Max.push_sat O h x
  get s _ _ := MinMax.Max.value_sat s
  clear s h := ⟨h.1, RingOK.new h.1⟩

theorem min_quiet {F : Type} [GoOrd F] (O : MinMax.Ext F) : Quiet (minMethods O) fun s => 0 ≤ s.window ∧ RingOK s.window s.queue where
  push s x h := MinMax.Min.push_sat O h x
  get s _ _ := MinMax.Min.value_sat s
  clear s h := ⟨h.1, RingOK.new h.1⟩

theorem heapMedian_quiet {F : Type} [GoOrd F] (O : FOps F) : Quiet (heapMedianMethods O) HeapMedian.QOK where
  push s x h := HeapMedian.push_sat h x
  get s _ _ := HeapMedian.value_sat O s
  clear s h := ⟨h.1, RingOK.new h.1⟩

theorem reservoir_quiet {α : Type} : Quiet (reservoirMethods (α := α)) fun _ => True where
  push s x _ := by
    refine Go.Sat.bind (P := fun _ => True) ?_ fun r _ => trivial
    unfold Sample.push
    simp only []
    split_ifs <;> trivial
  get _ _ _ := trivial
  clear _ _ := trivial

theorem core_quiet {K : Type} [Field K] : Quiet (coreMethods K) Moment.QOK where
  push s x h := Moment.push_sat h x
  get s v _ := by cases v <;> trivial
  clear s h := ⟨h.1, RingOK.new h.1⟩

theorem joint_quiet {K : Type} [Field K] : Quiet (jointMethods K) Joint.QOK where
  push s x h := Joint.push_sat h x
  get s v _ := by cases v <;> trivial
  clear s h := ⟨h.1, RingOK.new h.1⟩

theorem moment_quiet {K : Type} [Field K] [LinearOrder K] (r p : K → K) (kind : Moment.Kind K) : Quiet (momentMethods r p kind) Moment.QOK where
  push s x h := by
    have hp := Moment.push_sat h x
    simp only [momentMethods, Moment.Metric.push]
    rcases e : Moment.push s x with ⟨c, er⟩ | _ | _
    · rw [e] at hp
      cases er with
      | none => exact hp
      | some er => cases kind <;> exact hp
    · trivial
    · rw [e] at hp; exact hp
  get _ _ _ := trivial
  clear s h := ⟨h.1, RingOK.new h.1⟩

theorem pair_quiet {K : Type} [Field K] [LinearOrder K] (r : K → K) (kind : Joint.Kind K) : Quiet (pairMethods r kind) Joint.QOK where
  push s x h := by
    have hp := Joint.push_sat h x
    simp only [pairMethods, Joint.Metric.push]
    by_cases hx : x.length ≠ 2
    · rw [if_pos hx]; exact h
    · rw [if_neg hx]
      rcases e : Joint.push s x with ⟨c, er⟩ | _ | _
      · rw [e] at hp
        cases er with
        | none => exact hp
        | some er => exact hp
      · trivial
      · rw [e] at hp; exact hp
  get _ _ _ := trivial
  clear s h := ⟨h.1, RingOK.new h.1⟩

theorem quantile_quiet {F : Type} [GoOrd F] (O : FOps F) {st : Quant.Statistic F} {J : st.σ → Prop} (hq : Quant.StatQuiet st J) :
    Quiet (quantileMethods O st) (Quant.Quantile.QOK J) where
  push s x h := Quant.Quantile.push_sat hq h x
  get s v h := Quant.Quantile.value_sat O hq h v
  clear s h := ⟨h.1, RingOK.new h.1, hq.clear _ h.2.2⟩

theorem median_quiet {F : Type} [GoOrd F] (O : FOps F) {st : Quant.Statistic F} {J : st.σ → Prop} (hq : Quant.StatQuiet st J) :
    Quiet (medianMethods O st) (Quant.Quantile.QOK J) where
  push s x h := Quant.Quantile.push_sat hq h x
  get s v h := Quant.Quantile.value_sat O hq h _
  clear s h := ⟨h.1, RingOK.new h.1, hq.clear _ h.2.2⟩

theorem iqr_quiet {F : Type} [GoOrd F] (O : FOps F) {st : Quant.Statistic F} {J : st.σ → Prop} (hq : Quant.StatQuiet st J) :
    Quiet (iqrMethods O st) (Quant.Quantile.QOK J) where
  push s x h := Quant.Quantile.push_sat hq h x
  get s v h := Quant.Quantile.iqr_sat O hq h
  clear s h := ⟨h.1, RingOK.new h.1, hq.clear _ h.2.2⟩

end Locks
end Verif

namespace Verif.Locks
open Verif Verif.Spec Prog
variable {σ A V R : Type}

theorem Quiet.ne_hang {D : Methods σ A V R} {J : σ → Prop} (h : Quiet D J) {s0 : σ} (hs : J s0) {obj : Call A V → Prog σ (Out R)}
    (hrun : ∀ c s, (obj c).run s = D.sem c s) (lin : List (Nat × Call A V × Out R)) (q : σ)
    (hr : SeqRun (fun m => (obj m).run) s0 lin q) (c : Call A V) : (obj c).run q ≠ .hang := by
  have e : (fun m => (obj m).run) = D.sem := funext fun m => funext fun s => hrun m s
  rw [e] at hr
  rw [hrun]
  exact (h.sem c (h.seq hs hr)).ne

end Verif.Locks

namespace Verif.Moment

theorem validate_window {F : Type} [GoOrd F] {z o : F} {c : Config F} (h : validate z o c = none) : 0 ≤ c.window.getD 0 := by
  unfold validate at h
  rcases hw : c.window with _ | w
  · rw [hw] at h; cases h
  · rw [hw] at h
    simp only at h
    by_cases h0 : w < 0
    · rw [if_pos h0] at h; cases h
    · show 0 ≤ w
      omega

/-- A new core has room in its queue. -/
theorem newCore_qok {K : Type} [Field K] [GoOrd K] {c : Config K} {s : Core K} (h : newCore c = .ok s) : QOK s := by
  unfold newCore at h
  rcases hv : validate 0 1 (setDefaults c) with _ | e
  · rw [hv] at h
    cases h
    exact ⟨validate_window hv, RingOK.new (validate_window hv)⟩
  · rw [hv] at h; cases h

end Verif.Moment

namespace Verif.Joint

theorem validate_window {F : Type} [GoOrd F] {z o : F} {c : Config F} (h : validate z o c = none) : 0 ≤ c.window.getD 0 := by
  unfold validate at h
  rcases hw : c.window with _ | w
  · rw [hw] at h; cases h
  · rw [hw] at h
    simp only at h
    by_cases h0 : w < 0
    · rw [if_pos h0] at h; cases h
    · show 0 ≤ w
      omega

/-- A new core has room in its queue. -/
theorem newCore_qok {K : Type} [Field K] [GoOrd K] {c : Config K} {s : Core K} (h : newCore c = .val (.ok s)) : QOK s := by
  unfold newCore at h
  rcases hv : validate 0 1 (setDefaults c) with _ | e
  · rw [hv] at h
    simp only [mk] at h
    rcases hi : initSums ((setDefaults c).sums.getD []) (fun _ => none : Map K) with m | _ | _
    · rw [hi] at h
      cases h
      exact ⟨validate_window hv, RingOK.new (validate_window hv)⟩
    · rw [hi] at h; cases h
    · rw [hi] at h; cases h
  · rw [hv] at h; cases h

end Verif.Joint
