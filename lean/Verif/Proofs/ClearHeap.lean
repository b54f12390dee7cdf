import Verif.Proofs.Sim
import Verif.Model.HeapMedian

/-! # `Clear` of `HeapMedian`: item addresses do not matter

A cleared instance keeps allocating above the addresses of its garbage. Its run and the run of a new instance are the same up to adding a
constant `k` to every address. -/

namespace Verif.Heap
open Verif

variable {F : Type}

/-- The items below `n` of the second memory are, `k` higher, the items of the first. -/
structure MR (k n : Nat) (m m' : Mem F) : Prop where
  val : ∀ x, x < n → m.val (x + k) = m'.val x
  hid : ∀ x, x < n → m.hid (x + k) = m'.hid x
  idx : ∀ x, x < n → m.idx (x + k) = m'.idx x

/-- Same heap, addresses raised by `k`. -/
structure HR (k n : Nat) (h h' : Heap F) : Prop where
  id : h.id = h'.id
  cmp : h.cmp = h'.cmp
  items : h.items = h'.items.map (· + k)
  lt : ∀ x ∈ h'.items, x < n

theorem upd_shift {α : Type} {k n : Nat} {f g : Nat → α} (h : ∀ x, x < n → f (x + k) = g x) (a : Nat) (v : α) :
    ∀ x, x < n → upd f (a + k) v (x + k) = upd g a v x := by
  intro x hx
  unfold upd
  by_cases e : x = a
  · simp [e]
  · simp [e, h x hx]

/-- Memory and heap, related. -/
def PR (k n : Nat) (r r' : Mem F × Heap F) : Prop := MR k n r.1 r'.1 ∧ HR k n r.2 r'.2

variable {k n : Nat} {m m' : Mem F} {h h' : Heap F}

theorem HR.len (r : HR k n h h') : h.len = h'.len := by simp [Heap.len, r.items]

theorem HR.get (r : HR k n h h') (i : Nat) : h.items[i]? = (h'.items[i]?).map (· + k) := by rw [r.items, List.getElem?_map]

theorem HR.mono (r : HR k n h h') {n' : Nat} (hn : n ≤ n') : HR k n' h h' :=
  ⟨r.id, r.cmp, r.items, fun x hx => Nat.lt_of_lt_of_le (r.lt x hx) hn⟩

theorem less_sim (hm : MR k n m m') (hh : HR k n h h') (i j : Nat) : GoR Eq (less m h i j) (less m' h' i j) := by
  unfold less
  rw [hh.get, hh.get]
  cases e1 : h'.items[i]? with
  | none => trivial
  | some a =>
    cases e2 : h'.items[j]? with
    | none => trivial
    | some b =>
      simp only [Option.map_some]
      rw [hm.val a (hh.lt a (List.mem_of_getElem? e1)), hm.val b (hh.lt b (List.mem_of_getElem? e2)), hh.cmp]
      rfl

theorem swap_sim (hm : MR k n m m') (hh : HR k n h h') (i j : Nat) : GoR (PR k n) (swap m h i j) (swap m' h' i j) := by
  unfold swap
  rw [hh.get, hh.get]
  cases e1 : h'.items[i]? with
  | none => trivial
  | some a =>
    cases e2 : h'.items[j]? with
    | none => trivial
    | some b =>
      simp only [Option.map_some]
      refine ⟨⟨hm.val, hm.hid, upd_shift (upd_shift hm.idx b _) a _⟩, hh.id, hh.cmp, ?_, ?_⟩
      · simp [hh.items, List.map_set]
      · intro x hx
        rcases List.mem_or_eq_of_mem_set hx with hx | rfl
        · rcases List.mem_or_eq_of_mem_set hx with hx | rfl
          · exact hh.lt x hx
          · exact hh.lt _ (List.mem_of_getElem? e2)
        · exact hh.lt _ (List.mem_of_getElem? e1)

theorem up_sim : ∀ (f : Nat) {m m' : Mem F} {h h' : Heap F} (_ : MR k n m m') (_ : HR k n h h') (j : Nat),
    GoR (PR k n) (up f m h j) (up f m' h' j) := by
  intro f
  induction f with
  | zero => intros; trivial
  | succ f ih =>
    intro m m' h h' hm hh j
    simp only [up]
    by_cases c : (j - 1) / 2 = j
    · rw [if_pos c, if_pos c]; exact ⟨hm, hh⟩
    · rw [if_neg c, if_neg c]
      refine (less_sim hm hh j _).bind ?_
      rintro b _ rfl
      cases b with
      | false => exact ⟨hm, hh⟩
      | true =>
        simp only [if_true]
        exact (swap_sim hm hh _ _).bind (fun r r' hr => ih hr.1 hr.2 _)

theorem down_sim : ∀ (f : Nat) {m m' : Mem F} {h h' : Heap F} (_ : MR k n m m') (_ : HR k n h h') (i l : Nat),
    GoR (fun r r' => MR k n r.1 r'.1 ∧ HR k n r.2.1 r'.2.1 ∧ r.2.2 = r'.2.2) (down f m h i l) (down f m' h' i l) := by
  intro f
  induction f with
  | zero => intros; trivial
  | succ f ih =>
    intro m m' h h' hm hh i l
    simp only [down]
    by_cases c : 2 * i + 1 ≥ l
    · rw [if_pos c, if_pos c]; exact ⟨hm, hh, rfl⟩
    · rw [if_neg c, if_neg c]
      refine GoR.bind (R := Eq) ?_ ?_
      · by_cases c2 : 2 * i + 1 + 1 < l
        · rw [if_pos c2, if_pos c2]
          refine (less_sim hm hh _ _).bind ?_
          rintro b _ rfl
          exact rfl
        · rw [if_neg c2, if_neg c2]; exact rfl
      · rintro j _ rfl
        refine (less_sim hm hh _ _).bind ?_
        rintro b _ rfl
        cases b with
        | false => exact ⟨hm, hh, rfl⟩
        | true =>
          simp only [if_true]
          exact (swap_sim hm hh _ _).bind (fun r r' hr => ih hr.1 hr.2 _ _)

theorem push_sim (hm : MR k n m m') (hh : HR k n h h') {a : Nat} (ha : a < n) : GoR (PR k n) (push m h (a + k)) (push m' h' a) := by
  have hm2 : MR k n (rawPush m h (a + k)).1 (rawPush m' h' a).1 := by
    refine ⟨hm.val, ?_, ?_⟩
    · simp only [rawPush, hh.id]; exact upd_shift hm.hid a _
    · have := hh.len
      simp only [Heap.len] at this
      simp only [rawPush, this]; exact upd_shift hm.idx a _
  have hh2 : HR k n (rawPush m h (a + k)).2 (rawPush m' h' a).2 := by
    refine ⟨hh.id, hh.cmp, by simp [rawPush, hh.items], ?_⟩
    intro x hx
    simp only [rawPush, List.mem_append, List.mem_singleton] at hx
    rcases hx with hx | rfl
    · exact hh.lt x hx
    · exact ha
  unfold push
  simp only [hh2.len]
  exact up_sim _ hm2 hh2 _

theorem rawPop_sim (hm : MR k n m m') (hh : HR k n h h') :
    GoR (fun r r' => r.1 = r'.1 + k ∧ r'.1 < n ∧ PR k n r.2 r'.2) (rawPop m h) (rawPop m' h') := by
  unfold rawPop
  rw [hh.items, List.getLast?_map]
  cases e : h'.items.getLast? with
  | none => trivial
  | some a =>
    simp only [Option.map_some]
    refine ⟨rfl, hh.lt a (List.mem_of_getLast? e), ⟨hm.val, hm.hid, upd_shift hm.idx a _⟩, hh.id, hh.cmp, ?_, ?_⟩
    · simp only [List.map_dropLast]
    · intro x hx; exact hh.lt x (List.dropLast_subset _ hx)

theorem pop_sim (hm : MR k n m m') (hh : HR k n h h') :
    GoR (fun r r' => r.1 = r'.1 + k ∧ r'.1 < n ∧ PR k n r.2 r'.2) (pop m h) (pop m' h') := by
  unfold pop
  rw [hh.len]
  by_cases c : h'.len = 0
  · rw [if_pos c, if_pos c]; trivial
  · rw [if_neg c, if_neg c]
    refine (swap_sim hm hh _ _).bind (fun r r' hr => ?_)
    exact (down_sim _ hr.1 hr.2 _ _).bind (fun r r' hr => rawPop_sim hr.1 hr.2.1)

theorem fix_sim (hm : MR k n m m') (hh : HR k n h h') (i : Int) : GoR (PR k n) (fix m h i) (fix m' h' i) := by
  unfold fix
  by_cases c : i < 0
  · rw [if_pos c, if_pos c]; exact ⟨hm, hh⟩
  · rw [if_neg c, if_neg c, hh.len]
    refine (down_sim _ hm hh _ _).bind (fun r r' hr => ?_)
    obtain ⟨h1, h2, h3⟩ := hr
    rw [h3]
    by_cases c2 : r'.2.2 > i.toNat
    · rw [if_pos c2, if_pos c2]; exact ⟨h1, h2⟩
    · rw [if_neg c2, if_neg c2]; exact up_sim _ h1 h2 _

theorem removeAt_sim (hm : MR k n m m') (hh : HR k n h h') (i : Int) : GoR (PR k n) (removeAt m h i) (removeAt m' h' i) := by
  unfold removeAt
  rw [hh.len]
  by_cases c : i < 0 ∨ h'.len = 0
  · rw [if_pos c, if_pos c]; trivial
  · rw [if_neg c, if_neg c]
    refine GoR.bind (R := PR k n) ?_ (fun r r' hr => (rawPop_sim hr.1 hr.2).bind (fun r r' hr => hr.2.2))
    by_cases c2 : h'.len - 1 ≠ i.toNat
    · rw [if_pos c2, if_pos c2]
      refine (swap_sim hm hh _ _).bind (fun r r' hr => ?_)
      refine (down_sim _ hr.1 hr.2 _ _).bind (fun r r' hr => ?_)
      obtain ⟨h1, h2, h3⟩ := hr
      rw [h3]
      by_cases c2 : r'.2.2 > i.toNat
      · rw [if_pos c2, if_pos c2]; exact ⟨h1, h2⟩
      · rw [if_neg c2, if_neg c2]; exact up_sim _ h1 h2 _
    · rw [if_neg c2, if_neg c2]; exact ⟨hm, hh⟩

theorem setVal_sim (hm : MR k n m m') (a : Nat) (x : F) :
    MR k n { m with val := upd m.val (a + k) x } { m' with val := upd m'.val a x } := ⟨upd_shift hm.val a x, hm.hid, hm.idx⟩

theorem update_sim (hm : MR k n m m') (hh : HR k n h h') {a : Nat} (ha : a < n) (x : F) :
    GoR (PR k n) (update m h (a + k) x) (update m' h' a x) := by
  unfold update
  simp only [hm.idx a ha]
  exact fix_sim (setVal_sim hm a x) hh _

theorem remove_sim (hm : MR k n m m') (hh : HR k n h h') {a : Nat} (ha : a < n) :
    GoR (PR k n) (remove m h (a + k)) (remove m' h' a) := by
  unfold remove
  rw [hm.idx a ha]
  exact removeAt_sim hm hh _

theorem peek_sim (hm : MR k n m m') (hh : HR k n h h') : GoR Eq (peek m h) (peek m' h') := by
  unfold peek
  rw [hh.items]
  cases e : h'.items with
  | nil => trivial
  | cons a l => exact hm.val a (hh.lt a (by simp [e]))

end Verif.Heap

set_option linter.unusedSectionVars false

namespace Verif.HeapMedian
open Verif Verif.Heap Verif.Spec

variable {F : Type} [GoOrd F]

/-- Same median up to the addresses. -/
structure R (k : Nat) (s s' : HM F) : Prop where
  window : s.window = s'.window
  next : s.next = s'.next + k
  mem : MR k s'.next s.mem s'.mem
  low : HR k s'.next s.low s'.low
  high : HR k s'.next s.high s'.high
  cap : s.queue.cap = s'.queue.cap
  items : s.queue.items = s'.queue.items.map (· + k)
  disposed : s.queue.disposed = s'.queue.disposed
  lt : ∀ x ∈ s'.queue.items, x < s'.next

variable {k : Nat} {s s' : HM F}

/-- A median and an item, related. -/
def RI (k : Nat) (r r' : HM F × Nat) : Prop := R k r.1 r'.1 ∧ r.2 = r'.2 + k ∧ r'.2 < r'.1.next

theorem R.heaps (r : R k s s') {m m' : Mem F} {l l' h h' : Heap.Heap F} (hm : MR k s'.next m m') (hl : HR k s'.next l l')
    (hh : HR k s'.next h h') : R k { s with mem := m, low := l, high := h } { s' with mem := m', low := l', high := h' } :=
  ⟨r.window, r.next, hm, hl, hh, r.cap, r.items, r.disposed, r.lt⟩

theorem rebalance_sim (r : R k s s') {a : Nat} (ha : a < s'.next) : GoR (RI k) (rebalance s (a + k)) (rebalance s' a) := by
  unfold rebalance
  rw [r.low.len, r.high.len]
  by_cases c : s'.low.len + 1 < s'.high.len
  · rw [if_pos c, if_pos c]
    refine (pop_sim r.mem r.high).bind (fun x y hx => ?_)
    obtain ⟨h1, h2, h3, h4⟩ := hx
    rw [h1]
    refine (push_sim h3 r.low h2).bind (fun x' y' hx' => ?_)
    exact ⟨r.heaps hx'.1 hx'.2 h4, rfl, h2⟩
  · rw [if_neg c, if_neg c]
    by_cases c : s'.low.len > s'.high.len + 1
    · rw [if_pos c, if_pos c]
      refine (pop_sim r.mem r.low).bind (fun x y hx => ?_)
      obtain ⟨h1, h2, h3, h4⟩ := hx
      rw [h1]
      refine (push_sim h3 r.high h2).bind (fun x' y' hx' => ?_)
      exact ⟨r.heaps hx'.1 h4 hx'.2, rfl, h2⟩
    · rw [if_neg c, if_neg c]
      exact ⟨r, rfl, ha⟩

theorem replace_sim (r : R k s s') {a : Nat} (ha : a < s'.next) (x : F) : 
    GoR (fun t t' => R k t t' ∧ t'.next = s'.next) (replace s (a + k) x) (replace s' a x) := by
  unfold replace
  rw [r.mem.hid a ha, r.low.id]
  have toHigh : GoR (fun t t' => R k t t' ∧ t'.next = s'.next)
      (Heap.remove s.mem s.low (a + k) >>= fun r => Heap.push { r.1 with val := upd r.1.val (a + k) x } s.high (a + k) >>= fun q =>
        pure { s with mem := q.1, low := r.2, high := q.2 })
      (Heap.remove s'.mem s'.low a >>= fun r => Heap.push { r.1 with val := upd r.1.val a x } s'.high a >>= fun q =>
        pure { s' with mem := q.1, low := r.2, high := q.2 }) :=
    (remove_sim r.mem r.low ha).bind (fun y y' hy => (push_sim (setVal_sim hy.1 a x) r.high ha).bind
      (fun z z' hz => ⟨r.heaps hz.1 hy.2 hz.2, rfl⟩))
  have toLow : GoR (fun t t' => R k t t' ∧ t'.next = s'.next)
      (Heap.remove s.mem s.high (a + k) >>= fun r => Heap.push { r.1 with val := upd r.1.val (a + k) x } s.low (a + k) >>= fun q =>
        pure { s with mem := q.1, high := r.2, low := q.2 })
      (Heap.remove s'.mem s'.high a >>= fun r => Heap.push { r.1 with val := upd r.1.val a x } s'.low a >>= fun q =>
        pure { s' with mem := q.1, high := r.2, low := q.2 }) :=
    (remove_sim r.mem r.high ha).bind (fun y y' hy => (push_sim (setVal_sim hy.1 a x) r.low ha).bind
      (fun z z' hz => ⟨r.heaps hz.1 hz.2 hy.2, rfl⟩))
  by_cases c : s'.mem.hid a = s'.low.id
  · rw [if_pos c, if_pos c]
    refine (peek_sim r.mem r.low).bind ?_
    rintro p _ rfl
    by_cases c1 : (x ≤ᵇ p) = true
    · rw [if_pos c1, if_pos c1]
      exact (update_sim r.mem r.low ha x).bind (fun y y' hy => ⟨r.heaps hy.1 hy.2 r.high, rfl⟩)
    · rw [if_neg c1, if_neg c1]
      by_cases c2 : (p <ᵇ x) = true
      · rw [if_pos c2, if_pos c2]; exact toHigh
      · rw [if_neg c2, if_neg c2]; exact toLow
  · rw [if_neg c, if_neg c]
    refine (peek_sim r.mem r.low).bind ?_
    rintro p _ rfl
    by_cases c2 : (p <ᵇ x) = true
    · rw [if_pos c2, if_pos c2]
      exact (update_sim r.mem r.high ha x).bind (fun y y' hy => ⟨r.heaps hy.1 r.low hy.2, rfl⟩)
    · rw [if_neg c2, if_neg c2]; exact toLow

/-- Extending a memory by one item. -/
theorem insert_mem {k n : Nat} {m m' : Mem F} (hm : MR k n m m') (x : F) (i : String) (j : Int) :
    MR k (n + 1) ⟨upd m.val (n + k) x, upd m.hid (n + k) i, upd m.idx (n + k) j⟩ ⟨upd m'.val n x, upd m'.hid n i, upd m'.idx n j⟩ := by
  have H : ∀ {α : Type} {f g : Nat → α} (v : α), (∀ y, y < n → f (y + k) = g y) →
      ∀ y, y < n + 1 → upd f (n + k) v (y + k) = upd g n v y := by
    intro α f g v h y hy
    unfold upd
    by_cases e : y = n
    · simp [e]
    · simp [e, h y (by omega)]
  exact ⟨H x hm.val, H i hm.hid, H j hm.idx⟩

theorem insert_sim (r : R k s s') (x : F) : GoR (RI k) (insert s x) (insert s' x) := by
  unfold insert
  simp only [r.next]
  have hm := insert_mem r.mem x "" 0
  have hl := r.low.mono (Nat.le_succ s'.next)
  have hh := r.high.mono (Nat.le_succ s'.next)
  have hq : ∀ y ∈ s'.queue.items, y < s'.next + 1 := fun y hy => Nat.lt_succ_of_lt (r.lt y hy)
  refine GoR.bind (R := Eq) ?_ ?_
  · rw [r.low.len]
    by_cases c : s'.low.len = 0
    · rw [if_pos c, if_pos c]; exact rfl
    · rw [if_neg c, if_neg c]
      refine (peek_sim hm hl).bind ?_
      rintro p _ rfl
      exact rfl
  · rintro b _ rfl
    cases b with
    | true =>
      simp only [if_true]
      refine (push_sim hm hl (Nat.lt_succ_self _)).bind (fun y y' hy => ?_)
      exact ⟨⟨r.window, by simp only; omega, hy.1, hy.2, hh, r.cap, r.items, r.disposed, hq⟩, rfl, Nat.lt_succ_self _⟩
    | false =>
      simp only [Bool.false_eq_true, if_false]
      refine (push_sim hm hh (Nat.lt_succ_self _)).bind (fun y y' hy => ?_)
      exact ⟨⟨r.window, by simp only; omega, hy.1, hl, hy.2, r.cap, r.items, r.disposed, hq⟩, rfl, Nat.lt_succ_self _⟩

/-- Step results, related. -/
def RS (k : Nat) (r r' : HM F × Option Err) : Prop := R k r.1 r'.1 ∧ r.2 = r'.2

theorem put_sim {q q' : Ring Nat} (h1 : q.cap = q'.cap) (h2 : q.items = q'.items.map (· + k)) (h3 : q.disposed = q'.disposed) (a : Nat) :
    GoR (fun x y => match x, y with
      | .error e, .error e' => e = e'
      | .ok p, .ok p' => p = { q with items := q.items ++ [a + k] } ∧ p' = { q' with items := q'.items ++ [a] }
      | _, _ => False) (q.put (a + k)) (q'.put a) := by
  obtain ⟨c, l, d⟩ := q
  obtain ⟨c', l', d'⟩ := q'
  simp only at h1 h2 h3
  subst h1 h2 h3
  unfold Ring.put
  simp only [List.length_map]
  by_cases c1 : d = true
  · rw [if_pos c1, if_pos c1]; exact rfl
  · rw [if_neg c1, if_neg c1]
    by_cases c2 : c = 0
    · rw [if_pos c2, if_pos c2]; trivial
    · rw [if_neg c2, if_neg c2]
      by_cases c3 : l'.length < c
      · rw [if_pos c3, if_pos c3]; exact ⟨rfl, rfl⟩
      · rw [if_neg c3, if_neg c3]; trivial

theorem get_sim {q q' : Ring Nat} (h1 : q.cap = q'.cap) (h2 : q.items = q'.items.map (· + k)) (h3 : q.disposed = q'.disposed) :
    GoR (fun x y => match x, y with
      | .error e, .error e' => e = e'
      | .ok p, .ok p' => p.1 = p'.1 + k ∧ q'.items = p'.1 :: p'.2.items ∧ p.2 = { q with items := p'.2.items.map (· + k) } ∧
          p'.2 = { q' with items := p'.2.items }
      | _, _ => False) q.get q'.get := by
  obtain ⟨c, l, d⟩ := q
  obtain ⟨c', l', d'⟩ := q'
  simp only at h1 h2 h3
  subst h1 h2 h3
  unfold Ring.get
  by_cases c1 : d = true
  · simp only [c1, if_true]; exact rfl
  · simp only [c1]
    cases l' with
    | nil =>
      by_cases c2 : c = 0
      · simp only [c2]; trivial
      · simp only [c2]; trivial
    | cons a l => exact ⟨rfl, rfl, rfl, rfl⟩

theorem enqueue_sim (r : R k s s') {a : Nat} (ha : a < s'.next) : GoR (RS k) (enqueue s (a + k)) (enqueue s' a) := by
  unfold enqueue
  have hw := r.window
  by_cases c : s'.window ≠ 0
  · rw [if_pos (show s.window ≠ 0 by rw [hw]; exact c), if_pos c]
    have h := put_sim r.cap r.items r.disposed a
    rcases e1 : s.queue.put (a + k) with (e | q) | _ | _ <;> rcases e2 : s'.queue.put a with (e' | q') | _ | _ <;> rw [e1, e2] at h
    · exact ⟨r, congrArg some h⟩
    · exact h.elim
    · exact h.elim
    · exact h.elim
    · exact h.elim
    · obtain ⟨rfl, rfl⟩ := h
      refine ⟨⟨r.window, r.next, r.mem, r.low, r.high, r.cap, by simp [r.items], r.disposed, ?_⟩, rfl⟩
      intro x hx
      simp only [List.mem_append, List.mem_singleton] at hx
      rcases hx with hx | rfl
      · exact r.lt x hx
      · exact ha
    all_goals first | exact h.elim | trivial
  · rw [if_neg (show ¬ s.window ≠ 0 by rw [hw]; exact c), if_neg c]; exact ⟨r, rfl⟩

theorem push_sim (r : R k s s') (x : F) : GoR (RS k) (push s x) (push s' x) := by
  have e1 : s.queue.len = s'.queue.len := by simp only [Ring.len, r.items]; simp
  have hw := r.window
  unfold push
  by_cases c : s'.window ≠ 0 ∧ (s'.queue.len : Int) = s'.window
  · rw [if_pos (show s.window ≠ 0 ∧ (s.queue.len : Int) = s.window by rw [hw, e1]; exact c), if_pos c]
    have h := get_sim r.cap r.items r.disposed
    rcases e1 : s.queue.get with (e | ⟨a, q⟩) | _ | _ <;> rcases e2 : s'.queue.get with (e' | ⟨a', q'⟩) | _ | _ <;> rw [e1, e2] at h
    · exact ⟨r, congrArg some h⟩
    · exact h.elim
    · exact h.elim
    · exact h.elim
    · exact h.elim
    · obtain ⟨h1, h2, h3, h4⟩ := h
      simp only at h1 h2 h3 h4
      subst h1
      have ha : a' < s'.next := r.lt a' (by simp [h2])
      have r2 : R k { s with queue := q } { s' with queue := q' } := by
        refine ⟨r.window, r.next, r.mem, r.low, r.high, ?_, ?_, ?_, ?_⟩
        · rw [h3, h4]; exact r.cap
        · rw [h3]
        · rw [h3, h4]; exact r.disposed
        · intro y hy; exact r.lt y (by rw [h2]; exact List.mem_cons_of_mem _ hy)
      refine (replace_sim r2 ha x).bind (fun t t' ht => ?_)
      refine (rebalance_sim ht.1 (by rw [ht.2]; exact ha)).bind (fun u u' hu => ?_)
      rw [hu.2.1]
      exact enqueue_sim hu.1 hu.2.2
    all_goals first | exact h.elim | trivial
  · rw [if_neg (show ¬ (s.window ≠ 0 ∧ (s.queue.len : Int) = s.window) by rw [hw, e1]; exact c), if_neg c]
    refine (insert_sim r x).bind (fun t t' ht => ?_)
    rw [ht.2.1]
    refine (rebalance_sim ht.1 ht.2.2).bind (fun u u' hu => ?_)
    rw [hu.2.1]
    exact enqueue_sim hu.1 hu.2.2

theorem step_sim (a b : HM F) (o : MOp F) (h : R k a b) : GoR (RS k) (step a o) (step b o) := by
  cases o with
  | push x => exact push_sim h x
  | clear =>
    refine ⟨⟨h.window, h.next, h.mem, ⟨rfl, rfl, rfl, by simp [clear]⟩, ⟨rfl, rfl, rfl, by simp [clear]⟩, ?_, ?_, ?_, ?_⟩, rfl⟩
    · simp [clear, h.window]
    · simp [clear, Ring.new]
    · simp [clear, Ring.new]
    · simp [clear, Ring.new]

theorem value_sim (O : FOps F) (h : R k s s') : value O s = value O s' := by
  unfold value
  rw [h.low.len, h.high.len, (peek_sim h.mem h.low).eq, (peek_sim h.mem h.high).eq]

theorem frame_bind {α β : Type} {x : Go α} {f : α → Go β} {b : β} (h : (x >>= f) = .val b) : ∃ a, x = .val a ∧ f a = .val b := by
  cases x with
  | panic => simp at h
  | hang => simp at h
  | val a => exact ⟨a, rfl, h⟩

theorem rebalance_window {s : HM F} {i : Nat} {r : HM F × Nat} (h : rebalance s i = .val r) : r.1.window = s.window := by
  unfold rebalance at h
  split at h
  · obtain ⟨a, -, h⟩ := frame_bind h
    obtain ⟨b, -, h⟩ := frame_bind h
    cases h; rfl
  · split at h
    · obtain ⟨a, -, h⟩ := frame_bind h
      obtain ⟨b, -, h⟩ := frame_bind h
      cases h; rfl
    · cases h; rfl

theorem replace_window {s t : HM F} {i : Nat} {x : F} (h : replace s i x = .val t) : t.window = s.window := by
  unfold replace at h
  split at h
  · obtain ⟨p, -, h⟩ := frame_bind h
    split at h
    · obtain ⟨b, -, h⟩ := frame_bind h
      cases h; rfl
    · split at h <;>
      · obtain ⟨a, -, h⟩ := frame_bind h
        obtain ⟨b, -, h⟩ := frame_bind h
        cases h; rfl
  · obtain ⟨p, -, h⟩ := frame_bind h
    split at h
    · obtain ⟨b, -, h⟩ := frame_bind h
      cases h; rfl
    · obtain ⟨a, -, h⟩ := frame_bind h
      obtain ⟨b, -, h⟩ := frame_bind h
      cases h; rfl

theorem insert_window {s : HM F} {x : F} {r : HM F × Nat} (h : insert s x = .val r) : r.1.window = s.window := by
  unfold insert at h
  obtain ⟨b, -, h⟩ := frame_bind h
  split at h <;>
  · obtain ⟨a, -, h⟩ := frame_bind h
    cases h; rfl

theorem enqueue_window {s : HM F} {i : Nat} {r : HM F × Option Err} (h : enqueue s i = .val r) : r.1.window = s.window := by
  unfold enqueue at h
  split at h
  · rcases e : s.queue.put i with (e1 | q) | _ | _ <;> rw [e] at h <;> cases h <;> rfl
  · cases h; rfl

theorem step_window {s : HM F} {o : MOp F} {r : HM F × Option Err} (h : step s o = .val r) : r.1.window = s.window := by
  cases o with
  | clear => cases h; rfl
  | push x =>
    simp only [step, push] at h
    split at h
    · rcases e : s.queue.get with (e1 | ⟨i, q⟩) | _ | _ <;> rw [e] at h
      · cases h; rfl
      · obtain ⟨a, h1, h⟩ := frame_bind h
        obtain ⟨b, h2, h⟩ := frame_bind h
        exact (enqueue_window h).trans ((rebalance_window h2).trans (replace_window (s := { s with queue := q }) h1))
      · cases h
      · cases h
    · obtain ⟨a, h1, h⟩ := frame_bind h
      obtain ⟨b, h2, h⟩ := frame_bind h
      exact (enqueue_window h).trans ((rebalance_window h2).trans (insert_window h1))

theorem clear_fresh (zero : F) (w : Int) (ops : List (MOp F)) (s' : HM F) (es : List Err)
    (h : Go.runOps (logged step) (fresh zero w, []) ops = .val (s', es)) :
    ∃ t, step s' .clear = .val (t, none) ∧ R s'.next t (fresh zero w) := by
  have hw := logged_inv (P := fun s : HM F => s.window = w) (fun s a s2 o hs e => (step_window e).trans hs) ops _ _ _ _ rfl h
  refine ⟨_, rfl, hw, by simp [clear, fresh], ⟨?_, ?_, ?_⟩, ⟨rfl, rfl, rfl, by simp [fresh]⟩, ⟨rfl, rfl, rfl, by simp [fresh]⟩, ?_, ?_, ?_, ?_⟩
  all_goals simp [clear, fresh, Ring.new, hw]

end Verif.HeapMedian
