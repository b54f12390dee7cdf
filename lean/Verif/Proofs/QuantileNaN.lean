import Verif.Proofs.AvlNaN
import Verif.Proofs.RbNaN
import Verif.Proofs.NoHang
import Verif.Proofs.Space
import Verif.Proofs.Quiet
import Verif.Props.Quantile

/-! # Quantile metrics with arbitrary comparisons (NaN allowed) -/

namespace Verif.Quant
open Verif Verif.Spec

variable {F : Type}

/-- A container that cannot be made to fail, whatever the comparisons answer. `rem` says whether this includes `Remove`. -/
structure Sturdy (st : Statistic F) (J : st.σ → Prop) (rem : Prop) : Prop where
  empty : J st.empty
  clear : ∀ s, J (st.clear s)
  add : ∀ s x, J s → ∃ s', st.add s x = .val s' ∧ J s' ∧ 1 ≤ st.size s'
  remove : rem → ∀ s x, J s → ∃ s', st.remove s x = .val s' ∧ J s'
  select : ∀ s k, J s → 0 ≤ k → k < st.size s → ∃ v, st.select s k = .val (some v)

theorem avl_sturdy [GoOrd F] : Sturdy (avlStat F) (fun t => Avl.Node.WF (Avl.Tree.root t)) True where
  empty := trivial
  clear _ := trivial
  add s x h := by
    obtain ⟨r, e, w, p, -⟩ := Avl.Node.add_wf x h
    refine ⟨⟨r⟩, ?_, w, ?_⟩
    · show Avl.Tree.add s x = _
      simp [Avl.Tree.add, e]; rfl
    · show 1 ≤ r.size
      rw [w.size_eq, p.length_eq, List.length_cons]; push_cast; omega
  remove _ s x h := by
    obtain ⟨r, e, w, -⟩ := Avl.Node.remove_wf x h
    refine ⟨⟨r⟩, ?_, w⟩
    show Avl.Tree.remove s x = _
    simp [Avl.Tree.remove, e]; rfl
  select s k h h0 h1 := by
    obtain ⟨v, -, e⟩ := Avl.Node.select_in h h0 h1
    exact ⟨v, congrArg Go.val e⟩

theorem rb_sturdy [GoOrd F] : Sturdy (rbStat F) (fun t => Rb.Node.RootInv (Rb.Tree.root t)) False where
  empty := ⟨0, .inl rfl⟩
  clear _ := ⟨0, .inl rfl⟩
  add s x h := by
    obtain ⟨r, e, w, p⟩ := Rb.Node.add_root_any x h
    refine ⟨⟨r⟩, ?_, w, ?_⟩
    · show Rb.Tree.add s x = _
      simp [Rb.Tree.add, e]; rfl
    · show 1 ≤ r.size
      rw [w.sizeOK.size_eq, p.length_eq, List.length_cons]; push_cast; omega
  remove h := h.elim
  select s k h h0 h1 := by
    obtain ⟨v, -, e⟩ := Rb.Node.select_in h.sizeOK h0 h1
    exact ⟨v, congrArg Go.val e⟩

namespace Quantile
variable {st : Statistic F} {J : st.σ → Prop} {rem : Prop}

/-- The state between two calls. -/
structure Fit (J : st.σ → Prop) (w : Nat) (i : Int) (xs : List F) (q : Quantile st) : Prop where
  win : q.window = w
  int : q.interpolation = i
  ring : RingOK q.window q.queue
  good : J q.statistic
  some : xs ≠ [] → 1 ≤ st.size q.statistic

theorem Fit.push (hs : Sturdy st J rem) {w : Nat} {i : Int} (hr : rem ∨ w = 0) {xs : List F} {q : Quantile st} (h : Fit J w i xs q) (x : F) :
    ∃ q', q.push x = .val (q', none) ∧ Fit J w i (xs ++ [x]) q' := by
  have hadd : ∀ q : Quantile st, q.window = w → q.interpolation = i → RingOK q.window q.queue → J q.statistic →
      ∃ q', push.add x q = .val (q', none) ∧ Fit J w i (xs ++ [x]) q' := by
    intro q h1 h2 h3 h4
    obtain ⟨s, e, j, k⟩ := hs.add q.statistic x h4
    refine ⟨{ q with statistic := s }, by simp only [push.add, e], h1, h2, h3, j, fun _ => k⟩
  by_cases hw : q.window ≠ 0
  · have hput : ∀ q : Quantile st, q.window ≠ 0 → q.window = w → q.interpolation = i → RingOK q.window q.queue → J q.statistic →
        (q.queue.items.length : Int) < q.window → ∃ q', push.put x q = .val (q', none) ∧ Fit J w i (xs ++ [x]) q' := by
      intro q h0 h1 h2 h3 h4 h5
      obtain ⟨e, h6⟩ := h3.put h0 h5 x
      simp only [push.put, e]
      exact hadd _ h1 h2 h6 h4
    unfold Quantile.push
    rw [if_pos hw]
    by_cases hl : (q.queue.len : Int) = q.window
    · rw [if_pos hl]
      obtain ⟨y, ys, hi, hg, h2, h3⟩ := h.ring.get hw hl
      have hrem : rem := hr.resolve_right fun c => hw (by rw [h.win, c]; rfl)
      obtain ⟨s, e, j⟩ := hs.remove hrem q.statistic y h.good
      rw [hg]
      simp only [e]
      exact hput { q with queue := { q.queue with items := ys }, statistic := s } hw h.win h.int h2 j h3
    · rw [if_neg hl]
      have := (h.ring hw).2.1
      unfold Ring.len at hl
      exact hput q hw h.win h.int h.ring h.good (by omega)
  · unfold Quantile.push
    rw [if_neg hw]
    exact hadd q h.win h.int h.ring h.good

theorem run_fit (hs : Sturdy st J rem) (w : Nat) (i : Int) (hr : rem ∨ w = 0) (ops : List (MOp F)) :
    ∃ q, (fresh st w i).run ops = .val (q, []) ∧ Fit J w i (since ops) q := by
  obtain ⟨p, e, h1, h2⟩ := Go.runOps_inv (I := fun ops (p : Quantile st × List Err) => p.2 = [] ∧ Fit J w i (since ops) p.1)
    (step := logged step) (by
      rintro ops ⟨q, log⟩ o ⟨h1, h2⟩
      simp only at h1 h2
      subst h1
      cases o with
      | push x =>
        obtain ⟨q', e, h⟩ := h2.push hs hr x
        refine ⟨(q', []), by simp [logged, step, e], rfl, ?_⟩
        rw [since_push]; exact h
      | clear =>
        refine ⟨(q.clear, []), by simp [logged, step], rfl, ?_⟩
        rw [since_clear]
        exact ⟨h2.win, h2.int, RingOK.new (show 0 ≤ q.window by rw [h2.win]; omega), hs.clear _, fun c => absurd rfl c⟩)
    (fresh st w i, []) [] ⟨rfl, rfl, rfl, RingOK.new (show (0 : Int) ≤ w by omega), hs.empty, fun c => absurd rfl c⟩ ops
  obtain ⟨q, log⟩ := p
  simp only at h1 h2
  subst h1
  exact ⟨q, e, by simpa using h2⟩

/-- `Push` while there is room: the value goes to the container. -/
theorem push_room {q : Quantile st} (h : RingOK q.window q.queue) (hl : q.window ≠ 0 → (q.queue.items.length : Int) < q.window) (x : F) :
    (st.add q.statistic x = .panic → q.push x = .panic) ∧ ∀ s, st.add q.statistic x = .val s → ∃ q', q.push x = .val (q', none) ∧
      q'.statistic = s ∧ q'.window = q.window ∧ RingOK q'.window q'.queue ∧ (q.window ≠ 0 → q'.queue.items.length = q.queue.items.length + 1) := by
  by_cases hw : q.window ≠ 0
  · obtain ⟨e, r⟩ := h.put hw (hl hw) x
    have e' : q.push x = push.add x { q with queue := { q.queue with items := q.queue.items ++ [x] } } := by
      unfold Quantile.push
      have := hl hw
      rw [if_pos hw, if_neg (by unfold Ring.len; omega)]
      simp only [push.put, e]
    rw [e']
    refine ⟨fun c => by simp only [push.add, c], fun s c => ⟨{ q with queue := { q.queue with items := q.queue.items ++ [x] }, statistic := s }, by simp only [push.add, c], rfl, rfl, r, fun _ => by simp⟩⟩
  · unfold Quantile.push
    rw [if_neg hw]
    exact ⟨fun c => by simp only [push.add, c], fun s c => ⟨{ q with statistic := s }, by simp only [push.add, c], rfl, rfl, h, fun c => absurd c hw⟩⟩

theorem run_two {q q' : Quantile st} {a b : F} (h1 : q.push a = .val (q', none)) (h2 : q'.push b = .panic) :
    q.run ([a, b].map .push) = .panic := by
  simp [Quantile.run, Go.runOps, logged, Quantile.step, h1, h2]

end Quantile
end Verif.Quant

namespace Verif.Quant.Quantile
open Verif Verif.Spec Verif.Props
variable {K : Type} [Field K] [LinearOrder K] [IsStrictOrderedRing K] [FloorRing K]

theorem Fit.value {st : Statistic (WithNaN K)} {J : st.σ → Prop} {rem : Prop} (hs : Sturdy st J rem) {w : Nat} {i : Int} {xs : List (WithNaN K)}
    {q : Quantile st} (h : Fit J w i xs q) (hne : xs ≠ []) (n : Int) {x : K} (h0 : 0 < x) (h1 : x < 1) :
    ∃ v, q.value (nanOps K n) (.num x) = .val (.ok v) := by
  have hz := h.some hne
  obtain ⟨z, hzz⟩ : ∃ z, st.size q.statistic = z := ⟨_, rfl⟩
  have hsel : ∀ k, 0 ≤ k → k < z → ∃ v, q.sel k = .val v := by
    intro k a b
    obtain ⟨v, e⟩ := hs.select q.statistic k h.good a (by omega)
    exact ⟨v, by simp only [sel, e]⟩
  rw [hzz] at hz
  have hz' : (0 : K) ≤ ((z - 1 : Int) : K) := by exact_mod_cast (by omega : (0 : Int) ≤ z - 1)
  set y : K := x * ((z - 1 : Int) : K) with hy
  have hy0 : 0 ≤ y := mul_nonneg h0.le hz'
  have hfl : 0 ≤ ⌊y⌋ := Int.floor_nonneg.2 hy0
  have hlt : ⌊y⌋ ≤ z - 1 := by
    have : (⌊y⌋ : K) ≤ ((z - 1 : Int) : K) := (Int.floor_le y).trans (by rw [hy]; nlinarith)
    exact_mod_cast this
  obtain ⟨a, ha⟩ := hsel ⌊y⌋ hfl (by omega)
  have e1 : ((.num x : WithNaN K) ≤ᵇ (nanOps K n).ofInt 0) = false := by
    show decide (x ≤ ((0 : Int) : K)) = false
    simpa using h0
  have e2 : ((nanOps K n).ofInt 1 ≤ᵇ (.num x : WithNaN K)) = false := by
    show decide (((1 : Int) : K) ≤ x) = false
    simpa using h1
  have e3 : (nanOps K n).mul (.num x) ((nanOps K n).ofInt (z - 1)) = .num y := rfl
  have e4 : (nanOps K n).trunc (.num y) = .num (⌊y⌋ : K) := by
    show WithNaN.num _ = _
    simp [exact, hy0]
  have e5 : (nanOps K n).toInt (.num (⌊y⌋ : K)) = ⌊y⌋ := by
    show (exact K).toInt _ = _
    simp [exact, hfl]
  unfold Quantile.value
  rw [e1, e2]
  simp only [Bool.false_or, Bool.false_eq_true, if_false, hzz]
  rw [if_neg (by omega)]
  simp only [e3, e4, e5]
  by_cases hint : y = (⌊y⌋ : K)
  · have : ((.num y : WithNaN K) =ᵇ .num (⌊y⌋ : K)) = true := by
      show decide (y = (⌊y⌋ : K)) = true
      exact decide_eq_true hint
    rw [if_pos this, ha]
    exact ⟨a, rfl⟩
  · have hc : ((.num y : WithNaN K) =ᵇ .num (⌊y⌋ : K)) = false := by
      show decide (y = (⌊y⌋ : K)) = false
      exact decide_eq_false hint
    rw [if_neg (by rw [hc]; simp)]
    have hlt' : ⌊y⌋ + 1 ≤ z - 1 := by
      rcases hlt.lt_or_eq with c | c
      · omega
      · exfalso
        apply hint
        refine le_antisymm ?_ (Int.floor_le y)
        rw [c, hy]; nlinarith
    obtain ⟨b, hb⟩ := hsel (⌊y⌋ + 1) (by omega) (by omega)
    simp only [ha, hb]
    split_ifs <;> exact ⟨_, rfl⟩

end Verif.Quant.Quantile

/-! ## HeapMedian without window -/

namespace Verif.Heap
open Verif
variable {F : Type}

theorem up_total : ∀ (fuel : Nat) (m : Mem F) (h : Heap F) (j : Nat), j < h.items.length → j < fuel → ∃ r, up fuel m h j = .val r
  | 0, _, _, _, _, hf => absurd hf (Nat.not_lt_zero _)
  | fuel + 1, m, h, j, hj, hf => by
    simp only [up]
    by_cases hi : (j - 1) / 2 = j
    · rw [if_pos hi]; exact ⟨_, rfl⟩
    · rw [if_neg hi, less_eq m h hj (by omega)]
      simp only [Go.val_bind]
      by_cases c : h.cmp (pv m h j) (pv m h ((j - 1) / 2)) = true
      · rw [if_pos c]
        obtain ⟨m', h', e, s, -⟩ := swap_spec m h (i := (j - 1) / 2) (j := j) (by omega) hj
        rw [e]
        exact up_total fuel m' h' _ (by rw [s.len]; omega) (by omega)
      · rw [if_neg c]; exact ⟨_, rfl⟩

theorem down_total : ∀ (fuel : Nat) (m : Mem F) (h : Heap F) (i n : Nat), n ≤ h.items.length → n < fuel + i → 0 < fuel →
    ∃ r, down fuel m h i n = .val r ∧ r.2.1.items.length = h.items.length
  | 0, _, _, _, _, _, _, hf => absurd hf (Nat.not_lt_zero _)
  | fuel + 1, m, h, i, n, hn, hf, _ => by
    simp only [down]
    by_cases c : 2 * i + 1 ≥ n
    · rw [if_pos c]; exact ⟨_, rfl, rfl⟩
    · rw [if_neg c]
      have key : ∀ j, j < n → i < j → ∃ r, (do
          let b ← less m h j i
          if b then do
            let r ← swap m h i j
            down fuel r.1 r.2 j n
          else .val (m, h, i)) = .val r ∧ r.2.1.items.length = h.items.length := by
        intro j hj hij
        rw [less_eq m h (by omega) (by omega)]
        simp only [Go.val_bind]
        by_cases c : h.cmp (pv m h j) (pv m h i) = true
        · rw [if_pos c]
          obtain ⟨m', h', e, s, -⟩ := swap_spec m h (i := i) (j := j) (by omega) (by omega)
          rw [e]
          obtain ⟨r, e', l⟩ := down_total fuel m' h' j n (by rw [s.len]; exact hn) (by omega) (by omega)
          exact ⟨r, e', by rw [l, s.len]⟩
        · rw [if_neg c]; exact ⟨_, rfl, rfl⟩
      by_cases c2 : 2 * i + 1 + 1 < n
      · rw [if_pos c2, less_eq m h (by omega) (by omega)]
        simp only [Go.val_bind, Go.pure_eq]
        split_ifs
        · exact key _ (by omega) (by omega)
        · exact key _ (by omega) (by omega)
      · rw [if_neg c2]
        exact key _ (by omega) (by omega)

theorem push_total (m : Mem F) (h : Heap F) (a : Nat) : ∃ r, push m h a = .val r :=
  up_total _ _ _ _ (by simp [rawPush, Heap.len]) (by simp [rawPush, Heap.len])

theorem pop_total (m : Mem F) (h : Heap F) (hl : h.len ≠ 0) : ∃ r, pop m h = .val r := by
  unfold pop
  rw [if_neg hl]
  unfold Heap.len at *
  obtain ⟨m', h', e, s, -⟩ := swap_spec m h (i := 0) (j := h.items.length - 1) (by omega) (by omega)
  obtain ⟨⟨m2, h2, k⟩, e2, l⟩ := down_total (h.items.length - 1 + 1) m' h' 0 (h.items.length - 1) (by rw [s.len]; omega) (by omega) (by omega)
  simp only [e, Go.val_bind, e2]
  simp only at l
  have : h2.items ≠ [] := by
    intro c
    rw [c, s.len] at l
    exact hl l.symm
  unfold rawPop
  cases hc : h2.items.getLast? with
  | none => exact absurd (List.getLast?_eq_none_iff.1 hc) this
  | some a => exact ⟨_, rfl⟩

theorem peek_total (m : Mem F) (h : Heap F) (hl : h.len ≠ 0) : ∃ v, peek m h = .val v := by
  unfold peek
  unfold Heap.len at hl
  cases hc : h.items with
  | nil => rw [hc] at hl; exact absurd rfl hl
  | cons a l => exact ⟨_, rfl⟩

end Verif.Heap

namespace Verif.HeapMedian
open Verif Verif.Spec Heap
variable {F : Type} [GoOrd F]

/-- The state of a `HeapMedian` without window, as far as sizes go. -/
structure Even (n : Nat) (s : HM F) : Prop where
  win : s.window = 0
  total : s.low.len + s.high.len = n
  hi : s.high.len ≤ s.low.len + 1
  lo : s.low.len ≤ s.high.len + 1

theorem Even.push {n : Nat} {s : HM F} (h : Even n s) (x : F) : ∃ s', push s x = .val (s', none) ∧ Even (n + 1) s' := by
  have hins : ∃ r, insert s x = .val r ∧ r.1.window = 0 ∧ r.1.low.len + r.1.high.len = n + 1 ∧ r.1.high.len ≤ r.1.low.len + 2 ∧
      r.1.low.len ≤ r.1.high.len + 2 := by
    have h1 := h.total; have h2 := h.hi; have h3 := h.lo
    unfold insert
    have low : ∀ m : Mem F, ∃ r, (do
        let r ← Heap.push m s.low s.next
        pure ({ s with mem := r.1, low := r.2, next := s.next + 1 }, s.next) : Go (HM F × Nat)) = .val r ∧ r.1.window = 0 ∧
        r.1.low.len + r.1.high.len = n + 1 ∧ r.1.high.len ≤ r.1.low.len + 2 ∧ r.1.low.len ≤ r.1.high.len + 2 := by
      intro m
      obtain ⟨r, e⟩ := push_total m s.low s.next
      have := push_len e
      rw [e]
      exact ⟨_, rfl, h.win, by simp only; omega, by simp only; omega, by simp only; omega⟩
    have high : ∀ m : Mem F, ∃ r, (do
        let r ← Heap.push m s.high s.next
        pure ({ s with mem := r.1, high := r.2, next := s.next + 1 }, s.next) : Go (HM F × Nat)) = .val r ∧ r.1.window = 0 ∧
        r.1.low.len + r.1.high.len = n + 1 ∧ r.1.high.len ≤ r.1.low.len + 2 ∧ r.1.low.len ≤ r.1.high.len + 2 := by
      intro m
      obtain ⟨r, e⟩ := push_total m s.high s.next
      have := push_len e
      rw [e]
      exact ⟨_, rfl, h.win, by simp only; omega, by simp only; omega, by simp only; omega⟩
    simp only []
    by_cases hl : s.low.len = 0
    · rw [if_pos hl]
      simp only [Go.pure_eq, Go.val_bind, if_true]
      exact low _
    · rw [if_neg hl]
      obtain ⟨p, e⟩ := peek_total ⟨upd s.mem.val s.next x, upd s.mem.hid s.next "", upd s.mem.idx s.next 0⟩ s.low hl
      rw [e]
      simp only [Go.pure_eq, Go.val_bind]
      split_ifs
      · exact low _
      · exact high _
  obtain ⟨r, e, h1, h2, h3, h4⟩ := hins
  have hreb : ∃ r', rebalance r.1 r.2 = .val r' ∧ Even (n + 1) r'.1 := by
    unfold rebalance
    split_ifs with c1 c2
    · obtain ⟨a, e1⟩ := pop_total r.1.mem r.1.high (by omega)
      obtain ⟨b, e2⟩ := push_total a.2.1 r.1.low a.1
      have := pop_len e1; have := push_len e2
      simp only [e1, e2, Go.val_bind]
      exact ⟨_, rfl, h1, by simp only; omega, by simp only; omega, by simp only; omega⟩
    · obtain ⟨a, e1⟩ := pop_total r.1.mem r.1.low (by omega)
      obtain ⟨b, e2⟩ := push_total a.2.1 r.1.high a.1
      have := pop_len e1; have := push_len e2
      simp only [e1, e2, Go.val_bind]
      exact ⟨_, rfl, h1, by simp only; omega, by simp only; omega, by simp only; omega⟩
    · exact ⟨_, rfl, h1, h2, by simp only; omega, by simp only; omega⟩
  obtain ⟨r', e', h'⟩ := hreb
  refine ⟨r'.1, ?_, h'⟩
  unfold HeapMedian.push
  rw [if_neg (by simp [h.win])]
  simp only [e, Go.val_bind, e']
  unfold enqueue
  rw [if_neg (by simp [h'.win])]

theorem run_even (zero : F) (ops : List (MOp F)) : ∃ s, run (fresh zero 0) ops = .val (s, []) ∧ Even (since ops).length s := by
  obtain ⟨p, e, h1, h2⟩ := Go.runOps_inv (I := fun ops (p : HM F × List Err) => p.2 = [] ∧ Even (since ops).length p.1)
    (step := logged step) (by
      rintro ops ⟨q, log⟩ o ⟨h1, h2⟩
      simp only at h1 h2
      subst h1
      cases o with
      | push x =>
        obtain ⟨q', e, h⟩ := h2.push x
        refine ⟨(q', []), by simp [logged, step, e], rfl, ?_⟩
        rw [since_push, List.length_append]; exact h
      | clear =>
        refine ⟨(clear q, []), by simp [logged, step], rfl, ?_⟩
        rw [since_clear]
        exact ⟨h2.win, rfl, Nat.zero_le _, Nat.zero_le _⟩)
    (fresh zero 0, []) [] ⟨rfl, rfl, rfl, Nat.zero_le _, Nat.zero_le _⟩ ops
  obtain ⟨q, log⟩ := p
  simp only at h1 h2
  subst h1
  exact ⟨q, e, by simpa using h2⟩

omit [GoOrd F] in
theorem Even.value {n : Nat} {s : HM F} (h : Even n s) (hn : n ≠ 0) (O : FOps F) : ∃ v, value O s = .val (.ok v) := by
  have h1 := h.total; have h2 := h.hi; have h3 := h.lo
  unfold HeapMedian.value
  rw [if_neg (by omega)]
  split_ifs with c1 c2
  · obtain ⟨v, e⟩ := peek_total s.mem s.high (by omega)
    exact ⟨v, by rw [e]; rfl⟩
  · obtain ⟨v, e⟩ := peek_total s.mem s.low (by omega)
    exact ⟨v, by rw [e]; rfl⟩
  · obtain ⟨v, e⟩ := peek_total s.mem s.high (by omega)
    obtain ⟨u, e'⟩ := peek_total s.mem s.low (by omega)
    rw [e, e']; exact ⟨_, rfl⟩

end Verif.HeapMedian

namespace Verif.Quant.Quantile
open Verif Verif.Spec
variable {K : Type} [LinearOrder K]

/-- No number is pushed twice between two calls of `Clear` (NaN may be). -/
def NumbersOnce (ops : List (MOp (WithNaN K))) : Prop := ∀ p, p <+: ops → ∀ a : K, (since p).count (.num a) ≤ 1

theorem NumbersOnce.prefix {p ops : List (MOp (WithNaN K))} (h : NumbersOnce ops) (hp : p <+: ops) : NumbersOnce p :=
  fun _ hq => h _ (hq.trans hp)

/-- The tree holds only values that were pushed. -/
structure Held (w : Nat) (i : Int) (xs : List (WithNaN K)) (q : Quantile (rbStat (WithNaN K))) : Prop where
  win : q.window = w
  int : q.interpolation = i
  ring : RingOK q.window q.queue
  good : Rb.Node.RootInv (Rb.Tree.root q.statistic)
  sub : (Rb.Tree.root q.statistic).toList.Subperm xs
  some : xs ≠ [] → 1 ≤ (rbStat (WithNaN K)).size q.statistic

theorem atMostOne {l : List (WithNaN K)} (h : ∀ a : K, l.count (.num a) ≤ 1) (y : WithNaN K) : Rb.Node.AtMostOne y l := by
  unfold Rb.Node.AtMostOne
  cases y with
  | nan =>
    rw [List.countP_eq_zero.2 (fun _ _ => by simp [GoOrd.eq])]
    omega
  | num a =>
    refine le_trans (le_of_eq ?_) (h a)
    rw [List.count]
    congr 1
    funext y
    cases y with
    | nan => rfl
    | num b =>
      show decide (a = b) = _
      by_cases hab : a = b
      · subst hab; simp
      · rw [decide_eq_false hab]
        symm
        simpa using fun h => hab h.symm

theorem Held.push {w : Nat} {i : Int} {xs : List (WithNaN K)} {q : Quantile (rbStat (WithNaN K))} (h : Held w i xs q)
    (hx : ∀ a : K, xs.count (.num a) ≤ 1) (x : WithNaN K) :
    ∃ q', q.push x = .val (q', none) ∧ Held w i (xs ++ [x]) q' := by
  have hadd : ∀ q : Quantile (rbStat (WithNaN K)), q.window = w → q.interpolation = i → RingOK q.window q.queue →
      Rb.Node.RootInv (Rb.Tree.root q.statistic) → (Rb.Tree.root q.statistic).toList.Subperm xs →
      ∃ q', push.add x q = .val (q', none) ∧ Held w i (xs ++ [x]) q' := by
    intro q h1 h2 h3 h4 h5
    obtain ⟨r, e, w', p⟩ := Rb.Node.add_root_any x h4
    have e' : (rbStat (WithNaN K)).add q.statistic x = .val (⟨r⟩ : Rb.Tree (WithNaN K)) := by
      show Rb.Tree.add q.statistic x = _
      simp [Rb.Tree.add, e]; rfl
    refine ⟨{ q with statistic := (⟨r⟩ : Rb.Tree (WithNaN K)) }, by simp only [push.add, e'], h1, h2, h3, w', ?_, fun _ => ?_⟩
    · have : (x :: (Rb.Tree.root q.statistic).toList).Subperm (xs ++ [x]) :=
        ((List.subperm_cons x).2 h5).trans (List.perm_append_singleton x xs).symm.subperm
      exact p.subperm.trans this
    · show 1 ≤ r.size
      rw [w'.sizeOK.size_eq, p.length_eq, List.length_cons]; push_cast; omega
  by_cases hw : q.window ≠ 0
  · have hput : ∀ q : Quantile (rbStat (WithNaN K)), q.window ≠ 0 → q.window = w → q.interpolation = i → RingOK q.window q.queue →
        Rb.Node.RootInv (Rb.Tree.root q.statistic) → (Rb.Tree.root q.statistic).toList.Subperm xs →
        (q.queue.items.length : Int) < q.window → ∃ q', push.put x q = .val (q', none) ∧ Held w i (xs ++ [x]) q' := by
      intro q h0 h1 h2 h3 h4 h5 h6
      obtain ⟨e, h7⟩ := h3.put h0 h6 x
      simp only [push.put, e]
      exact hadd _ h1 h2 h7 h4 h5
    unfold Quantile.push
    rw [if_pos hw]
    by_cases hl : (q.queue.len : Int) = q.window
    · rw [if_pos hl]
      obtain ⟨y, ys, hi, hg, h2, h3⟩ := h.ring.get hw hl
      obtain ⟨r, e, w', hr⟩ := Rb.Node.remove_rootN y h.good (fun v hv => by
        cases y <;> cases v <;> simp_all [GoOrd.eq, GoOrd.lt])
        (atMostOne (fun a => (h.sub.count_le _).trans (hx a)) y)
      have e' : (rbStat (WithNaN K)).remove q.statistic y = .val (⟨r⟩ : Rb.Tree (WithNaN K)) := by
        show Rb.Tree.remove q.statistic y = _
        simp [Rb.Tree.remove, e]; rfl
      rw [hg]
      simp only [e']
      refine hput { q with queue := { q.queue with items := ys }, statistic := (⟨r⟩ : Rb.Tree (WithNaN K)) } hw h.win h.int h2 w' ?_ h3
      show r.toList.Subperm xs
      rcases hr with rfl | ⟨z, -, p⟩
      · exact h.sub
      · exact ((List.sublist_cons_self z _).subperm.trans p.subperm).trans h.sub
    · rw [if_neg hl]
      have := (h.ring hw).2.1
      unfold Ring.len at hl
      exact hput q hw h.win h.int h.ring h.good h.sub (by omega)
  · unfold Quantile.push
    rw [if_neg hw]
    exact hadd q h.win h.int h.ring h.good h.sub

theorem run_held (w : Nat) (i : Int) (ops : List (MOp (WithNaN K))) (ho : NumbersOnce ops) :
    ∃ q, (fresh (rbStat (WithNaN K)) w i).run ops = .val (q, []) ∧ Held w i (since ops) q := by
  induction ops using List.reverseRecOn with
  | nil => exact ⟨_, rfl, rfl, rfl, RingOK.new (show (0 : Int) ≤ w by omega), ⟨0, .inl rfl⟩, List.Subperm.refl _, fun c => absurd rfl c⟩
  | append_singleton ops o ih =>
    have hp : ops <+: ops ++ [o] := List.prefix_append _ _
    obtain ⟨q, e, h⟩ := ih (ho.prefix hp)
    unfold Quantile.run at e ⊢
    rw [Go.runOps_append, e]
    cases o with
    | push x =>
      obtain ⟨q', e', h'⟩ := h.push (ho _ hp) x
      refine ⟨q', by simp [Go.runOps, logged, step, e'], ?_⟩
      rw [since_push]; exact h'
    | clear =>
      refine ⟨q.clear, by simp [Go.runOps, logged, step], ?_⟩
      rw [since_clear]
      exact ⟨h.win, h.int, RingOK.new (show 0 ≤ q.window by rw [h.win]; omega), ⟨0, .inl rfl⟩, List.Subperm.refl _, fun c => absurd rfl c⟩

end Verif.Quant.Quantile
